import Verif.Constraints.Gen
import Verif.Sim.DynParams

/-!
# `DynamicBLMModel._gen_constraints` (blm_dynamic.py:1307-1460)

Model and property C91.
-/

namespace Pytwoway.Constraints

open Pytwoway.Sim.Dyn (Per)

/-! ## Model -/

/-- The parameters that the dynamic `_gen_constraints` reads.
Used for blm_dynamic.py:1126-1136 and blm_dynamic.py:1328. -/
structure DynGen extends GenParams where
  consS : Option (List ConObj)
  consSAll : Option (List ConObj)
  sLower : ℝ
  endo : Bool
  state : Bool

/-- `self.periods_movers` or `self.periods_update_stayers`, blm_dynamic.py:1126-1136. -/
def dynPeriods (p : DynGen) (movers : Bool) : List Per :=
  if movers then [.p12, .p43, .p2ma, .p3ma] ++ (if p.endo then [.p2mb] else []) ++ (if p.state then [.p3mb] else [])
  else [.p2s, .p3s]

/-- `nt`, blm_dynamic.py:1328 and 1337. -/
def dynNt (p : DynGen) (movers : Bool) : ℕ := (dynPeriods p movers).length

/-- `nnt_b`, blm_dynamic.py:1331-1334. -/
def nntB (p : DynGen) (movers : Bool) : List ℕ := ((dynPeriods p movers).zipIdx.filter (·.1.isB)).map (·.2)

/-- `constrain_b`, blm_dynamic.py:1326-1335. -/
def constrainB (p : DynGen) (movers : Bool) : Bool :=
  movers && (p.endo || p.state) && decide (0 < (nntB p movers).length)

/-- blm_dynamic.py:1343-1345: the constraint on the `'b'` periods, if there are any. -/
def bCons (p : DynGen) (movers : Bool) : List ConObj :=
  if constrainB p movers then [noWorkerTypeInteraction (nntB p movers) (dynNt p movers)] else []

/-- Normalisation, blm_dynamic.py:1441-1458. -/
noncomputable def dynNorm (p : DynGen) (movers : Bool) (m : ℕ) (f : Flags) : List ConObj :=
  let nt := dynNt p movers
  if f.tvWi then [normalizeAll m false (List.range nt) nt]
  else if f.tnvWi then
    [normalizeAll m true (pp p.primary) nt] ++
      if f.tvNwi then [normalizeLowest m false (List.range nt) nt] else []
  else if f.tvNwi then [normalizeLowest m false (List.range nt) nt]
  else if f.tnvNwi then [normalizeLowest m true (pp p.primary) nt]
  else []

/-- What is added to `cons_a`, blm_dynamic.py:1340-1350 and 1386-1458, in order. -/
noncomputable def dynConsA (p : DynGen) (cols : List CatCol) (m : ℕ) (movers : Bool) : List ConObj :=
  bCons p movers ++ p.consA.getD [] ++ p.consAll.getD [] ++
  if cols.length > 0 ∧ (flags p.toGenParams cols).anyCat then
    [monotonicMean p.dWorker true true (pp p.primary) (dynNt p movers)] ++
    if p.normalize then
      (if p.forceMin && p.forceMinCons then
        [minFirmType m p.dFirm true true (pp p.primary) (dynNt p movers)] else []) ++
        dynNorm p movers m (flags p.toGenParams cols)
    else []
  else []

/-- What is added to `cons_s`, blm_dynamic.py:1341-1354. -/
def dynConsS (p : DynGen) (movers : Bool) : List ConObj :=
  [fun nl nk => .ok (boundedBelow p.sLower (dynNt p movers) nl nk)] ++ bCons p movers ++
    p.consS.getD [] ++ p.consSAll.getD []

/-- What is added to `cons_a_dict[col]`, blm_dynamic.py:1370-1379; the `QPConstrained` object has the number of
categories of `col` (1 for a continuous control) in the place of the number of firm types. -/
def dynCtrlA (p : DynGen) (movers wti : Bool) (consA : Option (List ConObj)) : List ConObj :=
  (if wti then bCons p movers
    else [noWorkerTypeInteraction (List.range (dynNt p movers)) (dynNt p movers)]) ++
  consA.getD [] ++ p.consAll.getD []

/-- What is added to `cons_s_dict[col]`, blm_dynamic.py:1368-1383. -/
def dynCtrlS (p : DynGen) (movers wti : Bool) (consS : Option (List ConObj)) : List ConObj :=
  [fun nl nk => .ok (boundedBelow p.sLower (dynNt p movers) nl nk)] ++
  (if wti then [] else [noWorkerTypeInteraction (List.range (dynNt p movers)) (dynNt p movers)]) ++
  consS.getD [] ++ p.consSAll.getD []

/-- Setting up a `QPConstrained` object with these constraints and calling `solve`, e.g. blm_dynamic.py:2413. -/
def solveWith (solver : QPProblem → Py (Option (ℕ → ℝ))) (cs : List ConObj) (nl nk n : ℕ)
    (P : ℕ → ℕ → ℝ) (v : ℕ → ℝ) : Py (Option (ℕ → ℝ)) := do
  let q ← (QP.init nl nk).add cs
  solver (q.problem n P v)

/-! ## Specification -/

/-- The periods whose parameters are estimated: for movers without `'2mb'` unless there is endogeneity and without
`'3mb'` unless there is state dependence, for stayers `'2s'` and `'3s'`. -/
def Spec.estimated (p : DynGen) (movers : Bool) (q : Per) : Prop :=
  if movers then
    q = .p12 ∨ q = .p43 ∨ q = .p2ma ∨ q = .p3ma ∨ (q = .p2mb ∧ p.endo = true) ∨ (q = .p3mb ∧ p.state = true)
  else q = .p2s ∨ q = .p3s

/-- The parameter of a period for worker type `l` and class `k` in a stacked vector. -/
def par (p : DynGen) (movers : Bool) (nl nk : ℕ) (x : ℕ → ℝ) (q : Per) (l k : ℕ) : ℝ :=
  eff nl nk x ((dynPeriods p movers).idxOf q) l k

/-- Mean of `f` over the primary period or periods: `'12'` and `'43'` for movers, `'2s'` and `'3s'` for stayers. -/
noncomputable def Spec.dynPrimary (q : Primary) (movers : Bool) (f : Per → ℝ) : ℝ :=
  match q with
  | .first => f (if movers then .p12 else .p2s)
  | .second => f (if movers then .p43 else .p3s)
  | .all => (f (if movers then .p12 else .p2s) + f (if movers then .p43 else .p3s)) / 2

/-- The `'b'` parameters do not vary with worker type. -/
def Spec.bEqual (p : DynGen) (movers : Bool) (nl nk : ℕ) (x : ℕ → ℝ) : Prop :=
  ∀ q, Spec.estimated p movers q → (q = .p2mb ∨ q = .p3mb) → ∀ k < nk, ∀ l < nl, ∀ l' < nl,
    par p movers nl nk x q l k = par p movers nl nk x q l' k

/-- The normalisation, given which kinds of categorical columns are present. -/
def Spec.dynNorm (p : DynGen) (movers : Bool) (tvWi tnvWi tvNwi tnvNwi : Prop) (nl nk m : ℕ) (x : ℕ → ℝ) : Prop :=
  -- a time-varying interacted column: every parameter at the lowest firm type is 0
  (tvWi → ∀ q, Spec.estimated p movers q → ∀ l < nl, par p movers nl nk x q l m = 0) ∧
  -- otherwise, a stationary interacted column: at the lowest firm type the primary mean is 0 for each worker type
  (¬ tvWi → tnvWi → ∀ l < nl, Spec.dynPrimary p.primary movers (fun q => par p movers nl nk x q l m) = 0) ∧
  -- a time-varying column: the lowest pair is 0 in every period
  (¬ tvWi → tvNwi → ∀ q, Spec.estimated p movers q → par p movers nl nk x q 0 m = 0) ∧
  -- only stationary columns without interaction: the primary mean of the lowest pair is 0
  (¬ tvWi → ¬ tnvWi → ¬ tvNwi → tnvNwi →
    Spec.dynPrimary p.primary movers (fun q => par p movers nl nk x q 0 m) = 0)

/-! ## Lemmas -/

theorem two_le_dynNt (p : DynGen) (movers : Bool) : 2 ≤ dynNt p movers := by
  cases movers <;> simp [dynNt, dynPeriods]

theorem dyn_forall (p : DynGen) (movers : Bool) (P : ℕ → Prop) :
    (∀ t < dynNt p movers, P t) ↔ ∀ q, Spec.estimated p movers q → P ((dynPeriods p movers).idxOf q) := by
  obtain ⟨g, cS, cA, lb, e, s⟩ := p
  cases movers <;> cases e <;> cases s <;>
    simp +decide [dynNt, dynPeriods, Spec.estimated, List.idxOf, List.findIdx, List.findIdx.go, or_imp, forall_and,
      Nat.forall_lt_succ_right]
  all_goals tauto

theorem nntB_lt (p : DynGen) (movers : Bool) : ∀ t ∈ nntB p movers, t < dynNt p movers := by
  obtain ⟨g, cS, cA, lb, e, s⟩ := p
  cases movers <;> cases e <;> cases s <;> simp +decide [nntB, dynPeriods, dynNt, Per.isB]

theorem dyn_b (p : DynGen) (movers : Bool) (P : ℕ → Prop) :
    (∀ t ∈ nntB p movers, P t) ↔
      ∀ q, Spec.estimated p movers q → (q = .p2mb ∨ q = .p3mb) → P ((dynPeriods p movers).idxOf q) := by
  obtain ⟨g, cS, cA, lb, e, s⟩ := p
  cases movers <;> cases e <;> cases s <;>
    simp +decide [nntB, dynPeriods, Per.isB, Spec.estimated, List.idxOf, List.findIdx, List.findIdx.go, or_imp,
      forall_and]
  all_goals exact Iff.rfl

theorem dyn_primary (p : DynGen) (movers : Bool) (q : Primary) (f : ℕ → ℝ) :
    meanOver (pp q) f = Spec.dynPrimary q movers fun r => f ((dynPeriods p movers).idxOf r) := by
  obtain ⟨g, cS, cA, lb, e, s⟩ := p
  cases movers <;> cases e <;> cases s <;> cases q <;>
    simp +decide [meanOver, pp, Spec.dynPrimary, dynPeriods, List.idxOf, List.findIdx, List.findIdx.go]
  all_goals rfl

theorem pp_lt_nt (p : DynGen) (movers : Bool) (q : Primary) : ∀ t ∈ pp q, t < dynNt p movers := fun t ht =>
  lt_of_lt_of_le (pp_lt q t ht) (two_le_dynNt p movers)

theorem acceptAll_nil (nl nk : ℕ) (x : ℕ → ℝ) : AcceptAll [] nl nk x := by intro c hc; cases hc

theorem bCons_spec (p : DynGen) (movers : Bool) (nl nk : ℕ) (hnl : 1 ≤ nl) (x : ℕ → ℝ) :
    AcceptAll (bCons p movers) nl nk x ↔ Spec.bEqual p movers nl nk x := by
  have h := acceptAll_single _ nl nk _ _
    (C11_noWorkerTypeInteraction (nntB p movers) (dynNt p movers) nl nk hnl (nntB_lt p movers)) x
  rw [dyn_b p movers] at h
  rw [bCons]
  split
  · exact h
  · rename_i hc
    refine iff_of_true (acceptAll_nil _ _ _) ?_
    have hnil : ∀ t ∈ nntB p movers, ∀ k < nk, ∀ l < nl, ∀ l' < nl, eff nl nk x t l k = eff nl nk x t l' k := by
      have : nntB p movers = [] := by
        obtain ⟨g, cS, cA, lb, e, s⟩ := p
        revert hc
        cases movers <;> cases e <;> cases s <;> simp +decide [constrainB, nntB, dynPeriods, Per.isB]
      rw [this]; simp
    exact (dyn_b p movers _).mp hnil

theorem dynNorm_spec (p : DynGen) (movers : Bool) (f : Flags) (nl nk m : ℕ) (hnl : 1 ≤ nl) (hm : m < nk)
    (x : ℕ → ℝ) : AcceptAll (dynNorm p movers m f) nl nk x ↔
      Spec.dynNorm p movers (f.tvWi = true) (f.tnvWi = true) (f.tvNwi = true) (f.tnvNwi = true) nl nk m x := by
  have hr : ∀ t ∈ List.range (dynNt p movers), t < dynNt p movers := by simp
  have c1 := acceptAll_single _ nl nk _ _ (C11_normalizeAll m _ (dynNt p movers) nl nk hm hr) x
  have c2 := acceptAll_single _ nl nk _ _
    (C11_normalizeAll_cross m (pp p.primary) (dynNt p movers) nl nk hm (pp_lt_nt p movers _) (pp_nodup _)) x
  have c4 := acceptAll_single _ nl nk _ _ (C11_normalizeLowest m _ (dynNt p movers) nl nk hnl hm hr) x
  have c5 := acceptAll_single _ nl nk _ _
    (C11_normalizeLowest_cross m (pp p.primary) (dynNt p movers) nl nk hnl hm (pp_lt_nt p movers _) (pp_nodup _)) x
  simp only [List.mem_range] at c1 c4
  rw [dyn_forall p movers] at c1 c4
  simp only [dyn_primary p movers] at c2 c5
  have c24 := acceptAll_append [normalizeAll m true (pp p.primary) (dynNt p movers)]
    [normalizeLowest m false (List.range (dynNt p movers)) (dynNt p movers)] nl nk x
  rw [List.singleton_append, c2, c4] at c24
  obtain ⟨_, a, b, c, d⟩ := f
  cases a <;> cases b <;> cases c <;> cases d <;>
    simp [dynNorm, Spec.dynNorm, par, c1, c2, c24, c4, c5, acceptAll_nil]

/-! ## Property C91 -/

/-- C91 (the part that holds): what is imposed on the base means of movers (`'12'`, `'43'`, `'2ma'`, `'3ma'`, and
`'2mb'`, `'3mb'` if estimated) and of stayers (`'2s'`, `'3s'`), when every categorical control that interacts with
worker type is constrained to be stationary: the user's constraints; `'b'` parameters equal for all worker types;
and, if there is a constrained categorical control, increasing worker-type means in the primary period and the
normalisation that fits the kinds of controls.  Missing: a time-varying interacted control (as in C59). -/
theorem C91_base_means_partial (p : DynGen) (cols : List CatCol) (nl nk m : ℕ) (movers : Bool) (hnl : 1 ≤ nl)
    (hm : m < nk) (hforce : p.forceMin = false)
    (hno : ∀ c ∈ cols, c.wti = true → c.isStationary = true) (x : ℕ → ℝ) :
    AcceptAll (dynConsA p cols m movers) nl nk x ↔
      Spec.bEqual p movers nl nk x ∧
      AcceptAll (p.consA.getD []) nl nk x ∧ AcceptAll (p.consAll.getD []) nl nk x ∧
      (cols ≠ [] → (p.consAll.isSome = true ∨ ∃ c ∈ cols, c.consA.isSome = true ∨ c.wti = false) →
        (∀ l, l + 1 < nl →
          Spec.dynPrimary p.primary movers (fun q => mean nk (fun k => par p movers nl nk x q l k)) + p.dWorker
            ≤ Spec.dynPrimary p.primary movers (fun q => mean nk (fun k => par p movers nl nk x q (l + 1) k))) ∧
        (p.normalize = true → Spec.dynNorm p movers False (∃ c ∈ cols, c.wti = true ∧ c.isStationary = true)
          (∃ c ∈ cols, c.wti = false ∧ c.isStationary = false)
          (∃ c ∈ cols, c.wti = false ∧ c.isStationary = true) nl nk m x)) := by
  obtain ⟨f1, f2, f3, f4, f5⟩ := flagLoop_spec ⟨p.consAll.isSome, false, false, false, false⟩ cols hno
  have hmm := acceptAll_single _ nl nk _ _
    (C09_monotonicMean_cross p.dWorker true (pp p.primary) (dynNt p movers) nl nk hnl (pp_lt_nt p movers _)
      (pp_nodup _)) x
  simp only [if_true, dyn_primary p movers] at hmm
  have hnorm := dynNorm_spec p movers (flags p.toGenParams cols) nl nk m hnl hm x
  have hN : Spec.dynNorm p movers ((flags p.toGenParams cols).tvWi = true) ((flags p.toGenParams cols).tnvWi = true)
      ((flags p.toGenParams cols).tvNwi = true) ((flags p.toGenParams cols).tnvNwi = true) nl nk m x ↔
      Spec.dynNorm p movers False (∃ c ∈ cols, c.wti = true ∧ c.isStationary = true)
          (∃ c ∈ cols, c.wti = false ∧ c.isStationary = false)
          (∃ c ∈ cols, c.wti = false ∧ c.isStationary = true) nl nk m x := by
    have g2 : (flags p.toGenParams cols).tvWi = false := f2
    have g3 : (flags p.toGenParams cols).tnvWi = true ↔ _ := f3
    have g4 : (flags p.toGenParams cols).tvNwi = true ↔ _ := f4
    have g5 : (flags p.toGenParams cols).tnvNwi = true ↔ _ := f5
    rw [g3, g4, g5, g2]
    simp only [Bool.false_eq_true, false_or]
  have hlen : (cols.length > 0) ↔ cols ≠ [] := by
    cases cols <;> simp
  have hcat : (flags p.toGenParams cols).anyCat = true ↔
      (p.consAll.isSome = true ∨ ∃ c ∈ cols, c.consA.isSome = true ∨ c.wti = false) := f1
  rw [dynConsA, acceptAll_append, acceptAll_append, acceptAll_append, and_assoc, and_assoc,
    bCons_spec p movers nl nk hnl]
  refine and_congr_right fun _ => and_congr_right fun _ => and_congr_right fun _ => ?_
  by_cases h : cols.length > 0 ∧ (flags p.toGenParams cols).anyCat = true
  · rw [if_pos h, acceptAll_append, hmm]
    have h1 := hlen.mp h.1
    have h2 := hcat.mp h.2
    simp only [h1, h2, ne_eq, not_false_eq_true, forall_const]
    refine and_congr Iff.rfl ?_
    cases hn : p.normalize
    · simp [acceptAll_nil]
    · simp only [if_true, hforce, Bool.false_and, Bool.false_eq_true, if_false, List.nil_append, forall_const]
      exact hnorm.trans hN
  · rw [if_neg h]
    constructor
    · intro _ h1 h2; exact absurd ⟨hlen.mpr h1, hcat.mpr h2⟩ h
    · intro _; exact acceptAll_nil _ _ _

/-- C91: with `force_min_firm_type` the forced type has the lowest mean in the primary period. -/
theorem C91_force_min_firm_type (p : DynGen) (cols : List CatCol) (nl nk m : ℕ) (movers : Bool) (hm : m < nk)
    (hf : p.forceMin = true) (hf' : p.forceMinCons = true) (hn : p.normalize = true)
    (hcols : ∃ c ∈ cols, c.consA.isSome = true ∨ c.wti = false)
    (hno : ∀ c ∈ cols, c.wti = true → c.isStationary = true) (x : ℕ → ℝ)
    (hx : AcceptAll (dynConsA p cols m movers) nl nk x) :
    ∀ k < nk, k ≠ m →
      Spec.dynPrimary p.primary movers (fun q => mean nl (fun l => par p movers nl nk x q l m)) + p.dFirm
        ≤ Spec.dynPrimary p.primary movers (fun q => mean nl (fun l => par p movers nl nk x q l k)) := by
  obtain ⟨f1, -⟩ := flagLoop_spec ⟨p.consAll.isSome, false, false, false, false⟩ cols hno
  have hcat : (flags p.toGenParams cols).anyCat = true := f1.mpr (Or.inr hcols)
  have hlen : cols.length > 0 := by
    obtain ⟨c, hc, -⟩ := hcols
    exact List.length_pos_of_mem hc
  rw [dynConsA, if_pos ⟨hlen, hcat⟩, hn, hf, hf'] at hx
  simp only [if_true, Bool.and_self, acceptAll_append] at hx
  have := (acceptAll_single _ nl nk _ _
    (C09_minFirmType_cross m p.dFirm true (pp p.primary) (dynNt p movers) nl nk hm (pp_lt_nt p movers _)
      (pp_nodup _)) x).mp hx.2.2.1
  simpa [dyn_primary p movers, par] using this

/-- C91: what is imposed on the base standard deviations: at least the lower bound, the `'b'` ones equal for all
worker types, and the user's constraints. -/
theorem C91_base_sds (p : DynGen) (nl nk : ℕ) (movers : Bool) (hnl : 1 ≤ nl) (x : ℕ → ℝ) :
    AcceptAll (dynConsS p movers) nl nk x ↔
      (∀ q, Spec.estimated p movers q → ∀ l < nl, ∀ k < nk, p.sLower ≤ par p movers nl nk x q l k) ∧
      Spec.bEqual p movers nl nk x ∧
      AcceptAll (p.consS.getD []) nl nk x ∧ AcceptAll (p.consSAll.getD []) nl nk x := by
  have h := acceptAll_single (fun nl nk => .ok (boundedBelow p.sLower (dynNt p movers) nl nk)) nl nk _ _
    (C14_boundedBelow p.sLower (dynNt p movers) nl nk) x
  rw [dyn_forall p movers] at h
  rw [dynConsS, acceptAll_append, acceptAll_append, acceptAll_append, h, bCons_spec p movers nl nk hnl,
    and_assoc, and_assoc]
  rfl

/-- C91: what is imposed on a control's means (`n` categories): equal for all worker types, in every period if the
control does not interact with worker type and in the `'b'` periods if it does; and the user's constraints. -/
theorem C91_control_means (p : DynGen) (nl n : ℕ) (movers wti : Bool) (consA : Option (List ConObj)) (hnl : 1 ≤ nl)
    (x : ℕ → ℝ) :
    AcceptAll (dynCtrlA p movers wti consA) nl n x ↔
      (∀ q, Spec.estimated p movers q → (wti = false ∨ q = .p2mb ∨ q = .p3mb) → ∀ k < n, ∀ l < nl, ∀ l' < nl,
        par p movers nl n x q l k = par p movers nl n x q l' k) ∧
      AcceptAll (consA.getD []) nl n x ∧ AcceptAll (p.consAll.getD []) nl n x := by
  have hr : ∀ t ∈ List.range (dynNt p movers), t < dynNt p movers := by simp
  have h := acceptAll_single _ nl n _ _ (C11_noWorkerTypeInteraction _ (dynNt p movers) nl n hnl hr) x
  simp only [List.mem_range] at h
  rw [dyn_forall p movers] at h
  rw [dynCtrlA, acceptAll_append, acceptAll_append, and_assoc]
  refine and_congr_left fun _ => ?_
  cases wti
  · simp only [Bool.false_eq_true, if_false, true_or, forall_const]
    exact h
  · simp only [if_true, Bool.true_eq_false, false_or]
    exact bCons_spec p movers nl n hnl x

/-- C91 (the part that holds): what is imposed on a control's standard deviations: at least the lower bound, equal
for all worker types if the control does not interact with worker type; and the user's constraints.  Missing: the
`'b'` periods of a control that does interact, see `C91_control_sds_b`. -/
theorem C91_control_sds_partial (p : DynGen) (nl n : ℕ) (movers wti : Bool) (consS : Option (List ConObj))
    (hnl : 1 ≤ nl) (x : ℕ → ℝ) :
    AcceptAll (dynCtrlS p movers wti consS) nl n x ↔
      (∀ q, Spec.estimated p movers q → ∀ l < nl, ∀ k < n, p.sLower ≤ par p movers nl n x q l k) ∧
      (wti = false → ∀ q, Spec.estimated p movers q → ∀ k < n, ∀ l < nl, ∀ l' < nl,
        par p movers nl n x q l k = par p movers nl n x q l' k) ∧
      AcceptAll (consS.getD []) nl n x ∧ AcceptAll (p.consSAll.getD []) nl n x := by
  have hr : ∀ t ∈ List.range (dynNt p movers), t < dynNt p movers := by simp
  have h := acceptAll_single _ nl n _ _ (C11_noWorkerTypeInteraction _ (dynNt p movers) nl n hnl hr) x
  have hb := acceptAll_single (fun nl nk => .ok (boundedBelow p.sLower (dynNt p movers) nl nk)) nl n _ _
    (C14_boundedBelow p.sLower (dynNt p movers) nl n) x
  simp only [List.mem_range] at h
  rw [dyn_forall p movers] at h hb
  rw [dynCtrlS, acceptAll_append, acceptAll_append, acceptAll_append, hb, and_assoc, and_assoc]
  refine and_congr Iff.rfl (and_congr_left fun _ => ?_)
  cases wti
  · simp only [Bool.false_eq_true, if_false, forall_const]
    exact h
  · simp [acceptAll_nil]

/-- C91 is false for the `'b'` standard deviations of a control that interacts with worker type: nothing makes
them equal for all worker types, although the model has only one value for all of them.  Here for the `'2mb'`
standard deviations of a control with any number of categories and any model with endogeneity. -/
theorem C91_control_sds_b (p : DynGen) (nl n : ℕ) (hnl : 2 ≤ nl) (hn : 1 ≤ n) (he : p.endo = true)
    (h1 : p.consSAll = none) :
    ∃ x, AcceptAll (dynCtrlS p true true none) nl n x ∧ par p true nl n x .p2mb 0 0 ≠ par p true nl n x .p2mb 1 0 := by
  refine ⟨fun i => if i = (4 * nl + 1) * n then p.sLower + 1 else p.sLower, ?_, ?_⟩
  · rw [C91_control_sds_partial p nl n true true none (by omega), h1]
    refine ⟨fun q _ l _ k _ => ?_, by simp, acceptAll_nil _ _ _, acceptAll_nil _ _ _⟩
    simp only [par, eff]
    split <;> linarith
  · have hidx : (dynPeriods p true).idxOf .p2mb = 4 := by
      simp +decide [dynPeriods, he, List.idxOf, List.findIdx, List.findIdx.go]
    simp only [par, eff, hidx, add_zero, if_true]
    rw [if_neg]
    · linarith
    · have : 4 * nl * n < (4 * nl + 1) * n := Nat.mul_lt_mul_of_pos_right (by omega) (by omega)
      omega

/-! ### The user's own constraints -/

theorem addPart_width {M M' M2 : NP} {v v' v2 : Vec} (h : addPart M v M' v' = .ok (M2, v2)) (n : ℕ)
    (hw : ∀ A, M2 = .d2 A → 0 < A.rows → A.cols = n) (h0 : ∀ a, M = .d1 a → a.n = 0) :
    (∀ A, M = .d2 A → 0 < A.rows → A.cols = n) ∧ (∀ A, M' = .d2 A → 0 < A.rows → A.cols = n) ∧
      (∀ a, M' = .d1 a → a.n = 0 → ∀ a, M2 = .d1 a → a.n = 0) ∧ (∀ A, M' = .d2 A → ∀ a, M2 = .d1 a → a.n = 0) := by
  cases M' with
  | d1 a' =>
    by_cases ha : 0 < a'.n
    · cases M with
      | d1 a =>
        have := h0 a rfl
        simp [addPart, NP.len, ha, this, pure, Except.pure] at h
        refine ⟨by simp, by simp, ?_, by simp⟩
        intro b hb hb0; cases hb; omega
      | d2 A =>
        by_cases hA : 0 < A.rows
        · simp [addPart, NP.len, ha, hA, NP.append, bind, Except.bind] at h
        · refine ⟨?_, by simp, ?_, by simp⟩
          · intro B hB hB'; cases hB; omega
          · intro b hb hb0; cases hb; omega
    · simp only [addPart, NP.len, ha, if_false, pure, Except.pure, Except.ok.injEq, Prod.mk.injEq] at h
      obtain ⟨rfl, rfl⟩ := h
      exact ⟨hw, by simp, fun _ _ _ => h0, by simp⟩
  | d2 B =>
    by_cases hB : 0 < B.rows
    · cases M with
      | d1 a =>
        have := h0 a rfl
        simp only [addPart, NP.len, hB, this, lt_self_iff_false, if_true, if_false, pure, Except.pure, Except.ok.injEq,
          Prod.mk.injEq] at h
        obtain ⟨rfl, rfl⟩ := h
        exact ⟨by simp, hw, by simp, by simp⟩
      | d2 A =>
        by_cases hA : 0 < A.rows
        · by_cases hc : A.cols = B.cols
          · simp only [addPart, NP.len, hB, hA, if_true, NP.append, hc, bind, Except.bind, pure, Except.pure,
              Except.ok.injEq, Prod.mk.injEq] at h
            obtain ⟨rfl, rfl⟩ := h
            have := hw _ rfl (by simp; omega)
            refine ⟨?_, ?_, by simp, by simp⟩
            · intro A' hA' _; cases hA'; exact hc.trans this
            · intro A' hA' _; cases hA'; exact this
          · simp [addPart, NP.len, hB, hA, NP.append, hc, bind, Except.bind] at h
        · simp only [addPart, NP.len, hB, hA, if_true, if_false, pure, Except.pure, Except.ok.injEq,
            Prod.mk.injEq] at h
          obtain ⟨rfl, rfl⟩ := h
          refine ⟨?_, hw, by simp, by simp⟩
          intro B' hB' hr; cases hB'; exact absurd hr hA
    · simp only [addPart, NP.len, hB, if_false, pure, Except.pure, Except.ok.injEq, Prod.mk.injEq] at h
      obtain ⟨rfl, rfl⟩ := h
      refine ⟨hw, ?_, by simp, fun _ _ => h0⟩
      intro B' hB' hr; cases hB'; exact absurd hr hB

theorem npOf_d1 (B : Option Mat) : ∀ a, npOf B = .d1 a → a.n = 0 := by
  intro a h
  cases B with
  | none => cases h; rfl
  | some B => cases h

theorem addOne_width {q q' : QP} {c : Con} (h : q.addOne c = .ok q') (n : ℕ) (hw : q'.Cols n)
    (h0 : (∀ a, q.G = .d1 a → a.n = 0) ∧ ∀ a, q.A = .d1 a → a.n = 0) :
    q.Cols n ∧ (∀ M, c.G = some M → 0 < M.rows → M.cols = n) ∧ (∀ M, c.A = some M → 0 < M.rows → M.cols = n) ∧
      (∀ a, q'.G = .d1 a → a.n = 0) ∧ (∀ a, q'.A = .d1 a → a.n = 0) ∧ q'.nl = q.nl ∧ q'.nk = q.nk := by
  unfold QP.addOne at h
  rcases h1 : addPart q.G q.h (npOf c.G) (vecOf c.h) with e | ⟨G, g⟩
  · rw [h1] at h; cases h
  rw [h1] at h
  rcases h2 : addPart q.A q.b (npOf c.A) (vecOf c.b) with e | ⟨A, b⟩
  · simp only [bind, Except.bind, h2] at h; cases h
  simp only [bind, Except.bind, h2, pure, Except.pure, Except.ok.injEq] at h
  subst h
  obtain ⟨a1, a2, a3, a4⟩ := addPart_width h1 n hw.1 h0.1
  obtain ⟨b1, b2, b3, b4⟩ := addPart_width h2 n hw.2 h0.2
  refine ⟨⟨a1, b1⟩, ?_, ?_, ?_, ?_, rfl, rfl⟩
  · intro M hM; exact a2 M (by rw [hM]; rfl)
  · intro M hM; exact b2 M (by rw [hM]; rfl)
  · rcases hc : npOf c.G with a | M
    · exact a3 a hc (npOf_d1 _ a hc)
    · exact a4 M hc
  · rcases hc : npOf c.A with a | M
    · exact b3 a hc (npOf_d1 _ a hc)
    · exact b4 M hc

theorem add_width (cs : List ConObj) {q q' : QP} (h : q.add cs = .ok q') (n : ℕ)
    (h0 : (∀ a, q.G = .d1 a → a.n = 0) ∧ ∀ a, q.A = .d1 a → a.n = 0) :
    (∀ a, q'.G = .d1 a → a.n = 0) ∧ (∀ a, q'.A = .d1 a → a.n = 0) ∧
    (q'.Cols n → q.Cols n ∧ ∀ c ∈ cs, ∀ con, c q.nl q.nk = .ok con →
      (∀ M, con.G = some M → 0 < M.rows → M.cols = n) ∧ (∀ M, con.A = some M → 0 < M.rows → M.cols = n)) := by
  induction cs generalizing q with
  | nil => cases h; exact ⟨h0.1, h0.2, fun h => ⟨h, by simp⟩⟩
  | cons c cs ih =>
    rw [QP.add, List.foldlM_cons] at h
    rcases hc : c q.nl q.nk with e | con
    · rw [hc] at h; cases h
    rw [hc] at h
    rcases ho : q.addOne con with e | q1
    · simp only [bind, Except.bind, ho] at h; cases h
    simp only [bind, Except.bind, ho] at h
    have hz : (∀ a, q1.G = .d1 a → a.n = 0) ∧ (∀ a, q1.A = .d1 a → a.n = 0) ∧ q1.nl = q.nl ∧ q1.nk = q.nk := by
      unfold QP.addOne at ho
      rcases h1 : addPart q.G q.h (npOf con.G) (vecOf con.h) with e | ⟨G, g⟩
      · rw [h1] at ho; cases ho
      rw [h1] at ho
      rcases h2 : addPart q.A q.b (npOf con.A) (vecOf con.b) with e | ⟨A, b⟩
      · simp only [bind, Except.bind, h2] at ho; cases ho
      simp only [bind, Except.bind, h2, pure, Except.pure, Except.ok.injEq] at ho
      subst ho
      have key : ∀ {M M' M2 : NP} {v v' v2 : Vec}, addPart M v M' v' = .ok (M2, v2) →
          (∀ a, M = .d1 a → a.n = 0) → (∀ a, M' = .d1 a → a.n = 0) → ∀ a, M2 = .d1 a → a.n = 0 := by
        intro M M' M2 v v' v2 hp hM hM' a ha
        unfold addPart at hp
        split at hp
        · split at hp
          · rcases hM2 : M with m | m <;> rcases hM3 : M' with m' | m' <;> rw [hM2, hM3] at hp
            · have := hM m hM2
              rename_i hlen
              simp [hM2, NP.len, this] at hlen
            · simp [NP.append, bind, Except.bind] at hp
            · simp [NP.append, bind, Except.bind] at hp
            · by_cases hcc : m.cols = m'.cols
              · simp [NP.append, hcc, bind, Except.bind, pure, Except.pure] at hp
                rw [← hp.1] at ha; cases ha
              · simp [NP.append, hcc, bind, Except.bind] at hp
          · simp only [pure, Except.pure, Except.ok.injEq, Prod.mk.injEq] at hp
            exact hM' a (hp.1.trans ha)
        · simp only [pure, Except.pure, Except.ok.injEq, Prod.mk.injEq] at hp
          exact hM a (hp.1.trans ha)
      exact ⟨key h1 h0.1 (npOf_d1 _), key h2 h0.2 (npOf_d1 _), rfl, rfl⟩
    obtain ⟨i1, i2, i3⟩ := ih h ⟨hz.1, hz.2.1⟩
    refine ⟨i1, i2, fun hcol => ?_⟩
    obtain ⟨j1, j2⟩ := i3 hcol
    obtain ⟨k1, k2, k3, -⟩ := addOne_width ho n j1 h0
    refine ⟨k1, ?_⟩
    intro c' hc' con' hcon'
    rcases List.mem_cons.mp hc' with rfl | hmem
    · rw [hc] at hcon'; cases hcon'; exact ⟨k2, k3⟩
    · rw [← hz.2.2.1, ← hz.2.2.2] at hcon'
      exact j2 c' hmem con' hcon'

/-- If the solver accepts the problem, all constraints were built for that many parameters. -/
theorem solveWith_width (solver : QPProblem → Py (Option (ℕ → ℝ))) (hs : SolverSpec solver) (cs : List ConObj)
    (nl nk n : ℕ) (P : ℕ → ℕ → ℝ) (v : ℕ → ℝ) (r : Option (ℕ → ℝ)) (h : solveWith solver cs nl nk n P v = .ok r)
    (c : ConObj) (hc : c ∈ cs) (con : Con) (hcon : c nl nk = .ok con) :
    (∀ M, con.G = some M → 0 < M.rows → M.cols = n) ∧ (∀ M, con.A = some M → 0 < M.rows → M.cols = n) := by
  unfold solveWith at h
  rcases hq : (QP.init nl nk).add cs with e | q
  · rw [hq] at h; cases h
  rw [hq] at h
  simp only [bind, Except.bind] at h
  have hn : (q.problem n P v).n = n := (problem_n q n P v).1
  have hok : shapeOk n (q.problem n P v).ineq ∧ shapeOk n (q.problem n P v).eq := by
    by_contra hno
    rw [← hn] at hno
    rw [(hs _).1 (by rw [hn] at hno ⊢; exact hno)] at h
    cases h
  have hcols : q.Cols n := by
    constructor
    · intro M hM hr
      have hl : 0 < q.G.len := by rw [hM]; exact hr
      have := hok.1
      rw [problem_ineq q n P v hl, hM] at this
      exact this.1
    · intro M hM hr
      have hl : 0 < q.A.len := by rw [hM]; exact hr
      have := hok.2
      by_cases hG : 0 < q.G.len
      · have e : (q.problem n P v).eq = some (q.A, q.b) := by
          simp only [QP.problem, hG, hl, and_self, if_true]
        rw [e, hM] at this
        exact this.1
      · have e : (q.problem n P v).eq = some (q.A, q.b) := by
          simp only [QP.problem, hG, hl, false_and, if_false, if_true]
        rw [e, hM] at this
        exact this.1
  exact ((add_width cs hq n (by
    constructor <;> intro a ha <;> (cases ha; rfl))).2.2 hcols).2 c hc con hcon

/-- C91: no constraint of the user's own on the base means serves both parts of the estimation.  Whatever the
constraint, as long as it constrains anything (its matrix has a row), either estimating the movers' means or
estimating the stayers' means raises, because one has a parameter vector for four to six periods and the other one
for two. -/
theorem C91_user_constraint_fits_one (solver : QPProblem → Py (Option (ℕ → ℝ))) (hs : SolverSpec solver) (p : DynGen)
    (cols : List CatCol) (nl nk m : ℕ) (hnl : 1 ≤ nl) (hnk : 1 ≤ nk) (c : ConObj)
    (hc : c ∈ p.consA.getD [] ∨ c ∈ p.consAll.getD []) (con : Con) (hcon : c nl nk = .ok con)
    (hrow : ∃ M, (con.G = some M ∨ con.A = some M) ∧ 0 < M.rows)
    (P P' : ℕ → ℕ → ℝ) (v v' : ℕ → ℝ) :
    (∃ e, solveWith solver (dynConsA p cols m true) nl nk (dynNt p true * nl * nk) P v = .error e) ∨
    (∃ e, solveWith solver (dynConsA p cols m false) nl nk (2 * nl * nk) P' v' = .error e) := by
  have hmem : ∀ b, c ∈ dynConsA p cols m b := by
    intro b
    simp only [dynConsA, List.mem_append]
    tauto
  rcases h1 : solveWith solver (dynConsA p cols m true) nl nk (dynNt p true * nl * nk) P v with e | r
  · exact Or.inl ⟨e, rfl⟩
  rcases h2 : solveWith solver (dynConsA p cols m false) nl nk (2 * nl * nk) P' v' with e | r'
  · exact Or.inr ⟨e, rfl⟩
  exfalso
  have w1 := solveWith_width solver hs _ nl nk _ P v r h1 c (hmem true) con hcon
  have w2 := solveWith_width solver hs _ nl nk _ P' v' r' h2 c (hmem false) con hcon
  obtain ⟨M, hM, hr⟩ := hrow
  have e1 : M.cols = dynNt p true * nl * nk := by
    rcases hM with hM | hM
    · exact w1.1 M hM hr
    · exact w1.2 M hM hr
  have e2 : M.cols = 2 * nl * nk := by
    rcases hM with hM | hM
    · exact w2.1 M hM hr
    · exact w2.2 M hM hr
  have h4 : 4 ≤ dynNt p true := by simp [dynNt, dynPeriods]
  have h5 : 4 * nl * nk ≤ dynNt p true * nl * nk :=
    Nat.mul_le_mul_right _ (Nat.mul_le_mul_right _ h4)
  have h6 : 0 < nl * nk := Nat.mul_pos hnl hnk
  rw [e1] at e2
  nlinarith

/-- The hypotheses of `C91_user_constraint_fits_one` are met by `cons.Linear(nt=6)` for three worker types. -/
example : ∃ con, linear [0, 1] 6 3 2 = .ok con ∧ ∃ M, con.A = some M ∧ 0 < M.rows := by
  rcases h : linear [0, 1] 6 3 2 with e | con
  · obtain ⟨c, h1, -⟩ := C10_linear [0, 1] 6 3 2 (by norm_num) (by simp)
    rw [h1] at h; cases h
  · refine ⟨con, rfl, ?_⟩
    have hz : zeros2 (([0, 1] : List ℕ).length * ((3 : ℕ) - 2 : ℤ) * (2 : ℕ)) ((6 : ℕ) * (3 : ℕ) * (2 : ℕ))
        = .ok ⟨4, 36, fun _ _ => 0⟩ := by
      norm_num [zeros2]
      constructor <;> rfl
    unfold linear at h
    rw [hz] at h
    simp only [bind, Except.bind] at h
    have hrows : ∀ (os : List Op) (A A' : Mat), A.writes os = .ok A' → A'.rows = A.rows := by
      intro os
      induction os with
      | nil => intro A A' h; cases h; rfl
      | cons o os ih =>
        intro A A' h
        rw [Mat.writes, List.foldlM_cons] at h
        rcases hw : A.write o with e | A1
        · rw [hw] at h; cases h
        · rw [hw] at h
          have h1 := ih A1 A' h
          rw [h1]
          unfold Mat.write at hw
          split at hw <;> cases hw
          rfl
    rcases hw : Mat.writes ⟨4, 36, fun _ _ => 0⟩ (linearOps [0, 1] 3 2) with e | A
    · rw [hw] at h; cases h
    · rw [hw] at h
      cases h
      refine ⟨A, rfl, ?_⟩
      rw [hrows _ _ _ hw]; norm_num

/-- With endogeneity and state dependence and a plain control the conditions on the movers' means are not trivial,
and can be met. -/
example : (∃ x, AcceptAll (dynConsA ⟨⟨none, none, .first, true, false, true, 0, 0⟩, none, none, 0, true, true⟩
      [⟨false, none⟩] 0 true) 2 2 x) ∧
    ∃ x, ¬ AcceptAll (dynConsA ⟨⟨none, none, .first, true, false, true, 0, 0⟩, none, none, 0, true, true⟩
      [⟨false, none⟩] 0 true) 2 2 x := by
  constructor
  · refine ⟨fun _ => 0, ?_⟩
    rw [C91_base_means_partial _ _ 2 2 0 true (by norm_num) (by norm_num) rfl (by simp)]
    refine ⟨fun q _ _ k _ l _ l' _ => rfl, acceptAll_nil _ _ _, acceptAll_nil _ _ _, fun _ _ => ⟨fun l _ => ?_, fun _ => ?_⟩⟩
    · simp [Spec.dynPrimary, par, eff]
    · refine ⟨by simp, ?_, ?_, ?_⟩ <;> simp [Spec.dynPrimary, par, eff]
  · refine ⟨fun _ => 1, fun h => ?_⟩
    rw [C91_base_means_partial _ _ 2 2 0 true (by norm_num) (by norm_num) rfl (by simp)] at h
    have := ((h.2.2.2 (by simp) (Or.inr ⟨⟨false, none⟩, by simp, Or.inr rfl⟩)).2 rfl).2.2.1 (by simp)
      ⟨⟨false, none⟩, by simp, rfl, rfl⟩ .p12 (Or.inl rfl)
    simp [par, eff] at this

end Pytwoway.Constraints
