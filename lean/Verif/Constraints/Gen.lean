import Verif.Constraints.Props3

/-!
# `BLMModel._gen_constraints` (blm.py:718-850): constraints on the base effects A1, A2

Model and property C59.
-/

namespace Pytwoway.Constraints

/-! ## Model -/

/-- `params['primary_period']`.  Used for blm.py:812-816 and blm.py:817-821. -/
inductive Primary | first | second | all
  deriving DecidableEq

/-- What `_gen_constraints` reads about a categorical control column (blm.py:784-807):
`worker_type_interaction`, and `cons_a` (None, or for each constraint whether it is a
`cons.Stationary`). -/
structure CatCol where
  wti : Bool
  consA : Option (List Bool)

/-- The parameters that `_gen_constraints` reads for A.  Used for blm.py:778-807 and blm.py:832-848. -/
structure GenParams where
  consA : Option (List ConObj)
  consAll : Option (List ConObj)
  primary : Primary
  normalize : Bool
  forceMin : Bool
  forceMinCons : Bool
  dWorker : ℝ
  dFirm : ℝ

/-- The flags of blm.py:778-783. -/
structure Flags where
  anyCat : Bool
  tvNwi : Bool
  tnvNwi : Bool
  tvWi : Bool
  tnvWi : Bool
  deriving DecidableEq

/-- `is_stationary` of blm.py:786-792. -/
def CatCol.isStationary (c : CatCol) : Bool := (c.consA.getD []).any id

/-- The loop over the categorical columns, blm.py:784-807, including its `break`. -/
def flagLoop (f : Flags) : List CatCol → Flags
  | [] => f
  | c :: rest =>
    let f := if c.consA.isSome then { f with anyCat := true } else f
    if c.wti then
      if c.isStationary then flagLoop { f with tnvWi := true } rest
      else { f with tvWi := true }
    else
      let f := { f with anyCat := true }
      if c.isStationary then flagLoop { f with tnvNwi := true } rest
      else flagLoop { f with tvNwi := true } rest

/-- The flags for a list of columns, blm.py:778-807. -/
def flags (p : GenParams) (cols : List CatCol) : Flags :=
  flagLoop ⟨p.consAll.isSome, false, false, false, false⟩ cols

/-- `primary_period_dict` (blm.py:812-816); `to_list` turns the number into a one-element list. -/
def pp : Primary → List ℕ | .first => [0] | .second => [1] | .all => [0, 1]
/-- `secondary_period_dict` (blm.py:817-821). -/
def sp : Primary → List ℕ | .first => [1] | .second => [0] | .all => [0]

/-- Normalisation constraints, blm.py:832-848. -/
noncomputable def normCons (p : GenParams) (m : ℕ) (f : Flags) : List ConObj :=
  if f.tvWi then [normalizeAll m false [0, 1] 2]
  else if f.tnvWi then
    [normalizeAll m true (pp p.primary) 2] ++
      if f.tvNwi then [normalizeLowest m false (sp p.primary) 2] else []
  else if f.tvNwi then [normalizeLowest m false [0, 1] 2]
  else if f.tnvNwi then [normalizeLowest m true (pp p.primary) 2]
  else []

/-- The constraints added to `cons_a`, blm.py:735-742 and 775-848, in order. -/
noncomputable def genConsA (p : GenParams) (cols : List CatCol) (m : ℕ) : List ConObj :=
  p.consA.getD [] ++ p.consAll.getD [] ++
  if cols.length > 0 ∧ (flags p cols).anyCat then
    [monotonicMean p.dWorker true true (pp p.primary) 2] ++
    if p.normalize then
      (if p.forceMin && p.forceMinCons then
        [minFirmType m p.dFirm true true (pp p.primary) 2] else []) ++ normCons p m (flags p cols)
    else []
  else []

/-! ## Property C59 -/

/-- Accepting a vector, as a set of added constraint objects. -/
def AcceptAll (cs : List ConObj) (nl nk : ℕ) (x : ℕ → ℝ) : Prop :=
  ∀ c ∈ cs, ∀ con, c nl nk = .ok con → con.Sat x

theorem acceptAll_append (a b : List ConObj) (nl nk : ℕ) (x : ℕ → ℝ) :
    AcceptAll (a ++ b) nl nk x ↔ AcceptAll a nl nk x ∧ AcceptAll b nl nk x := by
  simp only [AcceptAll, List.mem_append, or_imp, forall_and]

theorem acceptAll_single (c : ConObj) (nl nk n : ℕ) (P : (ℕ → ℝ) → Prop)
    (h : Encodes (c nl nk) n P) (x : ℕ → ℝ) : AcceptAll [c] nl nk x ↔ P x := by
  obtain ⟨con, h1, _, h3⟩ := h
  simp only [AcceptAll, List.mem_singleton, forall_eq]
  constructor
  · intro h; exact (h3 x).mp (h con h1)
  · intro h con' h'; rw [h1] at h'; cases h'; exact (h3 x).mpr h

theorem pp_lt (q : Primary) : ∀ t ∈ pp q, t < 2 := by cases q <;> simp [pp]
theorem pp_nodup (q : Primary) : (pp q).Nodup := by cases q <;> simp [pp]

/-- Mean of `f t` over the primary period or periods. -/
noncomputable def Spec.primaryMean (q : Primary) (f : ℕ → ℝ) : ℝ :=
  match q with | .first => f 0 | .second => f 1 | .all => (f 0 + f 1) / 2

theorem primaryMean_eq (q : Primary) (f : ℕ → ℝ) : Spec.primaryMean q f = meanOver (pp q) f := by
  cases q <;> simp [Spec.primaryMean, meanOver, pp]

/-- The documented normalisation (blm.py:832-848) in words, given which kinds of categorical columns
are present. -/
def NormSpec (p : GenParams) (tvWi tnvWi tvNwi tnvNwi : Prop) (nl nk m : ℕ) (x : ℕ → ℝ) : Prop :=
  -- a time-varying column interacted with worker type: every effect at the lowest firm type is 0
  (tvWi → ∀ t < 2, ∀ l < nl, eff nl nk x t l m = 0) ∧
  -- otherwise, a stationary interacted column: the primary-period effects at the lowest firm type are 0
  (¬ tvWi → tnvWi → ∀ l < nl, Spec.primaryMean p.primary (fun t => eff nl nk x t l m) = 0) ∧
  -- and with a time-varying column besides, the lowest pair is 0 in the other period (the first one if both
  -- periods are primary)
  (¬ tvWi → tnvWi → tvNwi → eff nl nk x (if p.primary = .first then 1 else 0) 0 m = 0) ∧
  -- otherwise, a time-varying column: the lowest pair is 0 in both periods
  (¬ tvWi → ¬ tnvWi → tvNwi → ∀ t < 2, eff nl nk x t 0 m = 0) ∧
  -- otherwise, a stationary column: the lowest pair is 0 in the primary period
  (¬ tvWi → ¬ tnvWi → ¬ tvNwi → tnvNwi → Spec.primaryMean p.primary (fun t => eff nl nk x t 0 m) = 0)

theorem normCons_spec (p : GenParams) (f : Flags) (nl nk m : ℕ) (hnl : 1 ≤ nl) (hm : m < nk)
    (x : ℕ → ℝ) : AcceptAll (normCons p m f) nl nk x ↔
      NormSpec p (f.tvWi = true) (f.tnvWi = true) (f.tvNwi = true) (f.tnvNwi = true) nl nk m x := by
  have hsp : ∀ t ∈ sp p.primary, t < 2 := by cases p.primary <;> simp [sp]
  have h01 : ∀ t ∈ [0, 1], t < 2 := by simp
  have hmem : ∀ Q : ℕ → Prop, (∀ t ∈ [0, 1], Q t) ↔ ∀ t < 2, Q t := by
    intro Q; constructor
    · intro h t ht
      have : t = 0 ∨ t = 1 := by omega
      rcases this with rfl | rfl <;> exact h _ (by simp)
    · intro h t ht; exact h t (h01 t ht)
  have c1 := acceptAll_single _ nl nk _ _ (C11_normalizeAll m [0, 1] 2 nl nk hm h01) x
  have c2 := acceptAll_single _ nl nk _ _ (C11_normalizeAll_cross m (pp p.primary) 2 nl nk hm (pp_lt _) (pp_nodup _)) x
  have c3 := acceptAll_single _ nl nk _ _ (C11_normalizeLowest m (sp p.primary) 2 nl nk hnl hm hsp) x
  have c4 := acceptAll_single _ nl nk _ _ (C11_normalizeLowest m [0, 1] 2 nl nk hnl hm h01) x
  have c5 := acceptAll_single _ nl nk _ _ (C11_normalizeLowest_cross m (pp p.primary) 2 nl nk hnl hm (pp_lt _) (pp_nodup _)) x
  rw [hmem] at c1 c4
  have hspx : (∀ t ∈ sp p.primary, eff nl nk x t 0 m = 0) ↔
      eff nl nk x (if p.primary = .first then 1 else 0) 0 m = 0 := by
    cases p.primary <;> simp [sp]
  rw [hspx] at c3
  obtain ⟨_, a, b, c, d⟩ := f
  have c0 : AcceptAll [] nl nk x := by intro c hc; cases hc
  have c23 := acceptAll_append [normalizeAll m true (pp p.primary) 2]
    [normalizeLowest m false (sp p.primary) 2] nl nk x
  rw [List.singleton_append, c2, c3] at c23
  cases a <;> cases b <;> cases c <;> cases d <;>
    simp [normCons, NormSpec, primaryMean_eq, c1, c2, c23, c4, c5, c0]

/-- The flags mean what their names say as long as no column is both time-varying and interacted. -/
theorem flagLoop_spec (f : Flags) (cols : List CatCol)
    (hno : ∀ c ∈ cols, c.wti = true → c.isStationary = true) :
    ((flagLoop f cols).anyCat = true ↔ f.anyCat = true ∨ ∃ c ∈ cols, c.consA.isSome = true ∨ c.wti = false) ∧
    (flagLoop f cols).tvWi = f.tvWi ∧
    ((flagLoop f cols).tnvWi = true ↔ f.tnvWi = true ∨ ∃ c ∈ cols, c.wti = true ∧ c.isStationary = true) ∧
    ((flagLoop f cols).tvNwi = true ↔ f.tvNwi = true ∨ ∃ c ∈ cols, c.wti = false ∧ c.isStationary = false) ∧
    ((flagLoop f cols).tnvNwi = true ↔ f.tnvNwi = true ∨ ∃ c ∈ cols, c.wti = false ∧ c.isStationary = true) := by
  induction cols generalizing f with
  | nil => simp [flagLoop]
  | cons c rest ih =>
    have hno' : ∀ c ∈ rest, c.wti = true → c.isStationary = true := fun c' h => hno c' (by simp [h])
    have h0 := hno c (by simp)
    cases hw : c.wti <;> cases hs : c.isStationary <;> cases hc : c.consA.isSome <;>
      simp only [hw, hs, Bool.true_eq_false, Bool.false_eq_true, forall_const, forall_true_left, reduceCtorEq] at h0 <;>
      simp only [flagLoop, hw, hs, hc, if_true, if_false, Bool.false_eq_true] <;>
      (obtain ⟨i1, i2, i3, i4, i5⟩ := ih _ hno'
       refine ⟨i1.trans ?_, i2, i3.trans ?_, i4.trans ?_, i5.trans ?_⟩ <;> simp [hw, hs, hc])

theorem flagLoop_tvWi (f : Flags) (cols : List CatCol) :
    (flagLoop f cols).tvWi = true ↔ f.tvWi = true ∨ ∃ c ∈ cols, c.wti = true ∧ c.isStationary = false := by
  induction cols generalizing f with
  | nil => simp [flagLoop]
  | cons c rest ih =>
    cases hw : c.wti <;> cases hs : c.isStationary <;> cases hc : c.consA.isSome <;>
      simp [flagLoop, hw, hs, hc, ih]

/-- C59 (the part that holds): when every categorical control that interacts with worker type is
constrained to be stationary, the constraints imposed on the base effects are, besides the user's own:
nothing if there is no constrained categorical control; otherwise increasing worker-type means and, if
`normalize`, the normalisation that fits the kinds of controls present.  In particular the names
(order) of the controls do not matter.
Missing: a time-varying interacted control, see `C59_depends_on_column_order`. -/
theorem C59_genConstraints_partial (p : GenParams) (cols : List CatCol) (nl nk m : ℕ) (hnl : 1 ≤ nl)
    (hm : m < nk) (hforce : p.forceMin = false)
    (hno : ∀ c ∈ cols, c.wti = true → c.isStationary = true) (x : ℕ → ℝ) :
    AcceptAll (genConsA p cols m) nl nk x ↔
      AcceptAll (p.consA.getD []) nl nk x ∧ AcceptAll (p.consAll.getD []) nl nk x ∧
      (cols ≠ [] → (p.consAll.isSome = true ∨ ∃ c ∈ cols, c.consA.isSome = true ∨ c.wti = false) →
        (∀ l, l + 1 < nl →
          Spec.primaryMean p.primary (fun t => mean nk (fun k => eff nl nk x t l k)) + p.dWorker
            ≤ Spec.primaryMean p.primary (fun t => mean nk (fun k => eff nl nk x t (l + 1) k))) ∧
        (p.normalize = true → NormSpec p False (∃ c ∈ cols, c.wti = true ∧ c.isStationary = true)
          (∃ c ∈ cols, c.wti = false ∧ c.isStationary = false)
          (∃ c ∈ cols, c.wti = false ∧ c.isStationary = true) nl nk m x)) := by
  obtain ⟨f1, f2, f3, f4, f5⟩ := flagLoop_spec ⟨p.consAll.isSome, false, false, false, false⟩ cols hno
  have hmm := acceptAll_single _ nl nk _ _
    (C09_monotonicMean_cross p.dWorker true (pp p.primary) 2 nl nk hnl (pp_lt _) (pp_nodup _)) x
  simp only [if_true, ← primaryMean_eq] at hmm
  have hnorm := normCons_spec p (flags p cols) nl nk m hnl hm x
  have hN : NormSpec p ((flags p cols).tvWi = true) ((flags p cols).tnvWi = true)
      ((flags p cols).tvNwi = true) ((flags p cols).tnvNwi = true) nl nk m x ↔
      NormSpec p False (∃ c ∈ cols, c.wti = true ∧ c.isStationary = true)
          (∃ c ∈ cols, c.wti = false ∧ c.isStationary = false)
          (∃ c ∈ cols, c.wti = false ∧ c.isStationary = true) nl nk m x := by
    have g2 : (flags p cols).tvWi = false := f2
    have g3 : (flags p cols).tnvWi = true ↔ _ := f3
    have g4 : (flags p cols).tvNwi = true ↔ _ := f4
    have g5 : (flags p cols).tnvNwi = true ↔ _ := f5
    rw [g3, g4, g5, g2]
    simp only [Bool.false_eq_true, false_or]
  have hlen : (cols.length > 0) ↔ cols ≠ [] := by
    cases cols <;> simp
  have hcat : (flags p cols).anyCat = true ↔ (p.consAll.isSome = true ∨ ∃ c ∈ cols, c.consA.isSome = true ∨ c.wti = false) := f1
  have c0 : AcceptAll [] nl nk x := by intro c hc; cases hc
  rw [genConsA, acceptAll_append, acceptAll_append, and_assoc]
  refine and_congr_right fun _ => and_congr_right fun _ => ?_
  by_cases h : cols.length > 0 ∧ (flags p cols).anyCat = true
  · rw [if_pos h, acceptAll_append, hmm]
    have h1 := hlen.mp h.1
    have h2 := hcat.mp h.2
    simp only [h1, h2, ne_eq, not_false_eq_true, forall_const]
    refine and_congr_right fun _ => ?_
    cases hn : p.normalize
    · simp [c0]
    · simp only [if_true, hforce, Bool.false_and, Bool.false_eq_true, if_false, List.nil_append, forall_const]
      exact hnorm.trans hN
  · rw [if_neg h]
    constructor
    · intro _ h1 h2; exact absurd ⟨hlen.mpr h1, hcat.mpr h2⟩ h
    · intro _; exact c0

/-- C59: `force_min_firm_type` adds that the forced type has the lowest mean by `d_mean_firm_effect`. -/
theorem C59_force_min_firm_type (p : GenParams) (cols : List CatCol) (nl nk m : ℕ) (hm : m < nk)
    (hf : p.forceMin = true) (hf' : p.forceMinCons = true) (hn : p.normalize = true)
    (hcols : cols ≠ []) (hcat : (flags p cols).anyCat = true) (x : ℕ → ℝ)
    (hx : AcceptAll (genConsA p cols m) nl nk x) :
    ∀ k < nk, k ≠ m →
      Spec.primaryMean p.primary (fun t => mean nl (fun l => eff nl nk x t l m)) + p.dFirm
        ≤ Spec.primaryMean p.primary (fun t => mean nl (fun l => eff nl nk x t l k)) := by
  have hlen : cols.length > 0 := List.length_pos_of_ne_nil hcols
  rw [genConsA, if_pos ⟨hlen, hcat⟩, hn, hf, hf'] at hx
  simp only [if_true, Bool.and_self, acceptAll_append] at hx
  have := (acceptAll_single _ nl nk _ _
    (C09_minFirmType_cross m p.dFirm true (pp p.primary) 2 nl nk hm (pp_lt _) (pp_nodup _)) x).mp hx.2.2.1
  simpa [← primaryMean_eq] using this

/-- C59: whether the model is normalised at all depends on the alphabetical order of the control
columns: with one time-varying interacted control without constraints and one control that does not
interact with worker type, no normalisation is imposed when the former's name sorts first, and all
effects at the lowest firm type are forced to 0 when it sorts last. -/
theorem C59_depends_on_column_order :
    ∃ (p : GenParams) (a b : CatCol),
      (∀ nl nk x, AcceptAll (genConsA p [a, b] 0) nl nk x) ∧
      (∃ x, ¬ AcceptAll (genConsA p [b, a] 0) 1 1 x) := by
  refine ⟨⟨none, none, .first, true, false, true, 0, 0⟩, ⟨true, none⟩, ⟨false, none⟩, ?_, fun _ => 1, ?_⟩
  · intro nl nk x
    have : genConsA ⟨none, none, .first, true, false, true, 0, 0⟩ [⟨true, none⟩, ⟨false, none⟩] 0 = [] := by
      simp [genConsA, flags, flagLoop, CatCol.isStationary]
    rw [this]; intro c hc; cases hc
  · have hg : genConsA ⟨none, none, .first, true, false, true, 0, 0⟩ [⟨false, none⟩, ⟨true, none⟩] 0
        = [monotonicMean 0 true true [0] 2] ++ [normalizeAll 0 false [0, 1] 2] := by
      simp [genConsA, flags, flagLoop, CatCol.isStationary, normCons, pp]
    rw [hg, acceptAll_append]
    rintro ⟨_, h⟩
    have := (acceptAll_single _ 1 1 _ _ (C11_normalizeAll 0 [0, 1] 2 1 1 (by norm_num) (by simp)) _).mp h
      0 (by simp) 0 (by norm_num)
    simp [eff] at this

/-- The hypotheses of the partial theorem are met by a stationary interacted control together with a
plain one, and the result is not trivial. -/
example : ∃ x, ¬ AcceptAll (genConsA ⟨none, none, .all, true, false, true, 0, 0⟩
    [⟨true, some [true]⟩, ⟨false, none⟩] 1) 2 2 x := by
  refine ⟨fun _ => 1, fun h => ?_⟩
  rw [C59_genConstraints_partial _ _ 2 2 1 (by norm_num) (by norm_num) rfl
    (by simp [CatCol.isStationary])] at h
  have := (h.2.2 (by simp) (Or.inr ⟨⟨false, none⟩, by simp, Or.inr rfl⟩)).2 rfl
  have := this.2.1 (by simp) ⟨⟨true, some [true]⟩, by simp, rfl, rfl⟩ 0 (by norm_num)
  norm_num [Spec.primaryMean, eff] at this

end Pytwoway.Constraints
