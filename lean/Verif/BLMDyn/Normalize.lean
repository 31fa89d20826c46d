import Mathlib.Tactic.Linarith
import Mathlib.Tactic.Ring
import Mathlib.Data.Fin.VecNotation
import Verif.BLMDyn.Wages

/-! # Normalising the dynamic model, and switching effects off: C54, C76

`pytwoway/blm_dynamic.py`: `_normalize` (1558-1699) and the end of `DynamicBLMModel.__init__` (1260-1278). -/

namespace Pytwoway.Dynamic

open Pytwoway.Sim.Dyn

variable {nl nk : ℕ}

/-! ## Model -/

/-- Parameters of a categorical control: `stationary` if one of its `cons_a` is a `cons.Stationary`
(1585-1590).  `Aw`, `Sw` are the arrays of the periods that depend on worker types, `An`, `Sn` the others
(1218-1237).  Used for blm_dynamic.py:1583-1607 and blm_dynamic.py:1575-1699. -/
structure CatPar (nl : ℕ) where
  name : String
  wi : Bool
  stationary : Bool
  Aw : Per → Fin nl → ℕ → ℝ
  Sw : Per → Fin nl → ℕ → ℝ
  An : Per → ℕ → ℝ
  Sn : Per → ℕ → ℝ

/-- The option `primary_period`.  Used for blm_dynamic.py:1647-1650, 1688-1691 and blm_dynamic.py:1575-1699. -/
inductive Primary
  | first | second | all

/-- `tv_wi_col`, `tnv_wi_col`, `tv_nwi_col`, `tnv_nwi_col` and whether they were set.
Used for blm_dynamic.py:1583-1607. -/
structure Kinds where
  tvwi : Option ℕ := none
  tnvwi : Option ℕ := none
  tvnwi : Option ℕ := none
  tnvnwi : Option ℕ := none

/-- The loop over the categorical columns, blm_dynamic.py:1583-1607; `j` is the position of the head. -/
def scan (k : Kinds) (j : ℕ) : List (CatPar nl) → Kinds
  | [] => k
  | c :: cs =>
    if c.wi then
      if c.stationary then scan { k with tnvwi := some j } (j + 1) cs
      else { k with tvwi := some j }
    else
      if c.stationary then scan { k with tnvnwi := some j } (j + 1) cs
      else scan { k with tvnwi := some j } (j + 1) cs

/-- `A[period][l, :] -= f` and `A[period] -= g` for all periods.  Used for blm_dynamic.py:1575-1699. -/
def DBase.sub (b : DBase nl nk) (f : Per → Fin nl → ℝ) (g : Per → ℝ) : DBase nl nk :=
  { b with Aw := fun p l k => b.Aw p l k - f p l, Ab := fun p k => b.Ab p k - g p }

/-- `A_cat[col][period][l, :] += f`, and `A_cat[col][period] += g` for the arrays without worker types.
Used for blm_dynamic.py:1575-1699. -/
def CatPar.add (c : CatPar nl) (f : Per → Fin nl → ℝ) (g : Per → ℝ) : CatPar nl :=
  { c with Aw := fun p l k => c.Aw p l k + f p l, An := fun p k => c.An p k + g p }

/-- Mean over the primary periods of `A[period][l, min_firm_type]`, blm_dynamic.py:1647-1650, 1688-1691. -/
noncomputable def adj1 (pp : Primary) (b : DBase nl nk) (m : Fin nk) (l : Fin nl) : ℝ :=
  match pp with
  | .first => b.Aw .p12 l m / 1
  | .second => b.Aw .p43 l m / 1
  | .all => (b.Aw .p12 l m + b.Aw .p43 l m) / 2

/-- `adj_val_t`, blm_dynamic.py:1667-1670, 1679-1682. -/
def adjT [NeZero nl] (b : DBase nl nk) (m : Fin nk) (p : Per) : ℝ :=
  if p.isB then b.Ab p m else b.Aw p 0 m

/-- Lines 1664-1672 and 1676-1684: subtract the lowest pair of each period, add it to column `j`.
Used for blm_dynamic.py:1575-1699. -/
def normPeriods [NeZero nl] (m : Fin nk) (j : ℕ) (b : DBase nl nk) (cs : List (CatPar nl)) :
    DBase nl nk × List (CatPar nl) :=
  (b.sub (fun p _ => adjT b m p) (adjT b m), cs.modify j fun c => c.add (fun p _ => adjT b m p) (adjT b m))

/-- `_normalize`, blm_dynamic.py:1575-1699; `m` is `min_firm_type` (1284-1306), any firm type here.  The
branches other than the first look up `A_cat['12']` and `A_cat['43']` (1636-1639), that is, categorical
controls with these names. -/
noncomputable def normalize [NeZero nl] (pp : Primary) (m : Fin nk) (b : DBase nl nk) (cs : List (CatPar nl)) :
    Py (DBase nl nk × List (CatPar nl)) :=
  if cs.isEmpty then .ok (b, cs) else
  let k := scan {} 0 cs
  match k.tvwi with
  | some j => .ok (b.sub (fun p l => b.Aw p l m) (fun p => b.Ab p m),
      cs.modify j fun c => c.add (fun p l => b.Aw p l m) (fun p => b.Ab p m))
  | none =>
    if !(cs.any fun c => c.name == "12") then .error "KeyError" else
    if !(cs.any fun c => c.name == "43") then .error "KeyError" else
    match k.tnvwi with
    | some j =>
      let b' := b.sub (fun _ l => adj1 pp b m l) (fun _ => adj1 pp b m 0)
      let cs' := cs.modify j fun c => c.add (fun _ l => adj1 pp b m l) (fun _ => adj1 pp b m 0)
      match k.tvnwi with
      | some j' => .ok (normPeriods m j' b' cs')
      | none => .ok (b', cs')
    | none =>
      match k.tvnwi with
      | some j' => .ok (normPeriods m j' b cs)
      | none =>
        match k.tnvnwi with
        | some j => .ok (b.sub (fun _ _ => adj1 pp b m 0) (fun _ => adj1 pp b m 0),
            cs.modify j fun c => c.add (fun _ _ => adj1 pp b m 0) (fun _ => adj1 pp b m 0))
        | none => .ok (b, cs)

/-- The controls as they apply to a row whose values are `v`. -/
def CatPar.row (v : String → Fin 2 → ℕ) (c : CatPar nl) : DCtrl nl :=
  .cat c.wi (v c.name) c.Aw c.Sw c.An c.Sn

/-! ## Specification -/

/-- The model assigns the same density to every mover and every stayer, whatever their types, firms, control
values and wages: the predictions are the same. -/
def Spec.SameModel (x x' : DBase nl nk × List (CatPar nl)) : Prop :=
  ∀ (r : Rhos) (l : Fin nl) (v : String → Fin 2 → ℕ) (y : Wages),
    (∀ G, lpMovers x'.1 r l G (x'.2.map (CatPar.row v)) y = lpMovers x.1 r l G (x.2.map (CatPar.row v)) y) ∧
    ∀ g, lpStayers x'.1 r l g (x'.2.map (CatPar.row v)) y = lpStayers x.1 r l g (x.2.map (CatPar.row v)) y

/-- The mean of period `p` for a row. -/
noncomputable def Spec.mean (x : DBase nl nk × List (CatPar nl)) (l : Fin nl) (G : Fin 2 → Fin nk)
    (v : String → Fin 2 → ℕ) (p : Per) : ℝ :=
  (if p.isB then x.1.Ab p (G (slot p)) else x.1.Aw p l (G (slot p))) +
    (x.2.map fun c => if c.wi && !p.isB then c.Aw p l (v c.name (slot p)) else c.An p (v c.name (slot p))).sum

/-! ## Lemmas -/

theorem sum_modify {α : Type*} (f : α → ℝ) (g : α → α) (δ : ℝ) (cs : List α) (j : ℕ) (hj : j < cs.length)
    (h : f (g cs[j]) = f cs[j] + δ) : ((cs.modify j g).map f).sum = (cs.map f).sum + δ := by
  induction cs generalizing j with
  | nil => simp at hj
  | cons c cs ih =>
    cases j with
    | zero => simp at h; simp [h]; ring
    | succ j =>
      simp at hj h
      simp [ih j hj h]; ring

theorem map_modify_same {α β : Type*} (f : α → β) (g : α → α) (cs : List α) (j : ℕ) (h : ∀ c, f (g c) = f c) :
    (cs.modify j g).map f = cs.map f := by
  induction cs generalizing j with
  | nil => simp
  | cons c cs ih => cases j <;> simp [ih, h]

theorem scan_kinds (k : Kinds) (cs : List (CatPar nl)) (j0 : ℕ) :
    (∀ j, (scan k j0 cs).tvwi = some j → k.tvwi = some j ∨ ∃ h : j - j0 < cs.length, j0 ≤ j ∧ cs[j - j0].wi = true ∧ cs[j - j0].stationary = false) ∧
    (∀ j, (scan k j0 cs).tnvwi = some j → k.tnvwi = some j ∨ ∃ h : j - j0 < cs.length, j0 ≤ j ∧ cs[j - j0].wi = true) ∧
    (∀ j, (scan k j0 cs).tvnwi = some j → k.tvnwi = some j ∨ ∃ h : j - j0 < cs.length, j0 ≤ j ∧ cs[j - j0].wi = false) ∧
    (∀ j, (scan k j0 cs).tnvnwi = some j → k.tnvnwi = some j ∨ ∃ h : j - j0 < cs.length, j0 ≤ j ∧ cs[j - j0].wi = false) := by
  induction cs generalizing k j0 with
  | nil => simp [scan]
  | cons c cs ih =>
    have lift : ∀ (P : CatPar nl → Prop) (j : ℕ), (∃ h : j - (j0 + 1) < cs.length, j0 + 1 ≤ j ∧ P cs[j - (j0 + 1)]) →
        ∃ h : j - j0 < (c :: cs).length, j0 ≤ j ∧ P (c :: cs)[j - j0] := by
      rintro P j ⟨h1, h2, h3⟩
      have e : j - j0 = (j - (j0 + 1)) + 1 := by omega
      refine ⟨by simp; omega, by omega, ?_⟩
      simp only [e, List.getElem_cons_succ]
      exact h3
    have here : ∀ (P : CatPar nl → Prop), P c → ∃ h : j0 - j0 < (c :: cs).length, j0 ≤ j0 ∧ P (c :: cs)[j0 - j0] := by
      intro P hP
      refine ⟨by simp, le_refl _, ?_⟩
      simpa using hP
    unfold scan
    cases hw : c.wi <;> cases hs : c.stationary <;> simp only [Bool.false_eq_true, if_false, if_true]
    · obtain ⟨h1, h2, h3, h4⟩ := ih { k with tvnwi := some j0 } (j0 + 1)
      refine ⟨fun j hj => (h1 j hj).imp id (lift (fun c => c.wi = true ∧ c.stationary = false) j),
        fun j hj => (h2 j hj).imp id (lift (fun c => c.wi = true) j), fun j hj => Or.inr ?_,
        fun j hj => (h4 j hj).imp id (lift (fun c => c.wi = false) j)⟩
      rcases h3 j hj with h | h
      · simp at h; subst h; exact here (fun c => c.wi = false) hw
      · exact lift (fun c => c.wi = false) j h
    · obtain ⟨h1, h2, h3, h4⟩ := ih { k with tnvnwi := some j0 } (j0 + 1)
      refine ⟨fun j hj => (h1 j hj).imp id (lift (fun c => c.wi = true ∧ c.stationary = false) j),
        fun j hj => (h2 j hj).imp id (lift (fun c => c.wi = true) j),
        fun j hj => (h3 j hj).imp id (lift (fun c => c.wi = false) j), fun j hj => Or.inr ?_⟩
      rcases h4 j hj with h | h
      · simp at h; subst h; exact here (fun c => c.wi = false) hw
      · exact lift (fun c => c.wi = false) j h
    · refine ⟨fun j hj => Or.inr ?_, fun j hj => Or.inl hj, fun j hj => Or.inl hj, fun j hj => Or.inl hj⟩
      simp at hj; subst hj
      exact here (fun c => c.wi = true ∧ c.stationary = false) ⟨hw, hs⟩
    · obtain ⟨h1, h2, h3, h4⟩ := ih { k with tnvwi := some j0 } (j0 + 1)
      refine ⟨fun j hj => (h1 j hj).imp id (lift (fun c => c.wi = true ∧ c.stationary = false) j),
        fun j hj => Or.inr ?_, fun j hj => (h3 j hj).imp id (lift (fun c => c.wi = false) j),
        fun j hj => (h4 j hj).imp id (lift (fun c => c.wi = false) j)⟩
      rcases h2 j hj with h | h
      · simp at h; subst h; exact here (fun c => c.wi = true) hw
      · exact lift (fun c => c.wi = true) j h

theorem scan_tvwi_none (k : Kinds) (cs : List (CatPar nl)) (j0 : ℕ) (hk : k.tvwi = none) :
    (scan k j0 cs).tvwi = none ↔ ∀ c ∈ cs, c.wi = true → c.stationary = true := by
  induction cs generalizing k j0 with
  | nil => simp [scan, hk]
  | cons c cs ih =>
    unfold scan
    cases hw : c.wi <;> cases hs : c.stationary <;>
      simp only [Bool.false_eq_true, if_false, if_true, List.mem_cons, forall_eq_or_imp, hw, hs]
    · rw [ih _ _ (by exact hk)]; simp
    · rw [ih _ _ (by exact hk)]; simp
    · simp
    · rw [ih _ _ (by exact hk)]; simp

theorem mean_eq (x : DBase nl nk × List (CatPar nl)) (l : Fin nl) (G : Fin 2 → Fin nk) (v : String → Fin 2 → ℕ)
    (p : Per) : totA x.1 l G (x.2.map (CatPar.row v)) p = Spec.mean x l G v p := by
  simp only [totA, Spec.mean, DBase.a, List.map_map]
  rfl

/-- Same means, same standard deviations: same model. -/
theorem same_of_means (x x' : DBase nl nk × List (CatPar nl))
    (hm : ∀ l G v p, Spec.mean x' l G v p = Spec.mean x l G v p)
    (hS : x'.1.Sw = x.1.Sw ∧ x'.1.Sb = x.1.Sb)
    (hc : x'.2.map (fun c => (c.name, c.wi, c.Sw, c.Sn)) = x.2.map fun c => (c.name, c.wi, c.Sw, c.Sn))
    (hpos : ∀ l g, 0 < x.1.Sw .p2s l g) : Spec.SameModel x x' := by
  intro r l v y
  have hcat : ∀ cs : List (CatPar nl), AllCat (cs.map (CatPar.row v)) := by
    intro cs c hc
    obtain ⟨d, -, rfl⟩ := List.mem_map.mp hc
    exact ⟨_, _, _, _, _, _, rfl⟩
  have htA : ∀ G, totA x'.1 l G (x'.2.map (CatPar.row v)) = totA x.1 l G (x.2.map (CatPar.row v)) := by
    intro G; funext p; rw [mean_eq, mean_eq, hm]
  have htS : ∀ G, totS x'.1 l G (x'.2.map (CatPar.row v)) = totS x.1 l G (x.2.map (CatPar.row v)) := by
    intro G; funext p
    simp only [totS, DBase.s2, hS.1, hS.2, List.map_map]
    congr 2
    have e : ∀ cs : List (CatPar nl), cs.map ((fun c => simS l p c ^ 2) ∘ CatPar.row v) =
        (cs.map fun c => (c.name, c.wi, c.Sw, c.Sn)).map fun t =>
          (if t.2.1 && !p.isB then t.2.2.1 p l (v t.1 (slot p)) else t.2.2.2 p (v t.1 (slot p))) ^ 2 := by
      intro cs; rw [List.map_map]; rfl
    rw [e, e, hc]
  refine ⟨fun G => ?_, fun g => ?_⟩
  · rw [lpMovers_eq _ _ _ _ _ (hcat _), lpMovers_eq _ _ _ _ _ (hcat _), htA, htS]
  · rw [lpStayers_eq _ _ _ _ _ (hcat _) (by rw [hS.1]; exact hpos l g),
      lpStayers_eq _ _ _ _ _ (hcat _) (hpos l g), htA, htS]

theorem shift_mean (b : DBase nl nk) (cs : List (CatPar nl)) (f : Per → Fin nl → ℝ) (g : Per → ℝ) (j : ℕ)
    (hj : j < cs.length) (hw : cs[j].wi = true ∨ ∀ p l, f p l = g p) (l : Fin nl) (G : Fin 2 → Fin nk)
    (v : String → Fin 2 → ℕ) (p : Per) :
    Spec.mean (b.sub f g, cs.modify j fun c => c.add f g) l G v p = Spec.mean (b, cs) l G v p := by
  unfold Spec.mean
  dsimp only
  rw [sum_modify _ _ (if p.isB then g p else f p l) cs j hj]
  · simp only [DBase.sub]
    split <;> ring
  · simp only [CatPar.add]
    rcases hw with hw | hw
    · cases hb : p.isB <;> simp [hw]
    · cases hb : p.isB
      · simp only [hw p l, Bool.false_eq_true, if_false]
        split <;> rfl
      · simp

theorem shift_rest (cs : List (CatPar nl)) (f : Per → Fin nl → ℝ) (g : Per → ℝ) (j : ℕ) :
    (cs.modify j fun c => c.add f g).map (fun c => (c.name, c.wi, c.Sw, c.Sn)) =
      cs.map fun c => (c.name, c.wi, c.Sw, c.Sn) :=
  map_modify_same _ _ _ _ fun _ => rfl

/-! ## C54 -/

/-- C54 (partial): whenever normalising returns, the model is the same as before: every mover and every stayer
has the same density given every worker type, and every predicted mean is the same in all eight periods.
Missing: that it returns for every kind of categorical control (`C54_raises`). -/
theorem C54_unchanged_partial [NeZero nl] (pp : Primary) (m : Fin nk) (b : DBase nl nk) (cs : List (CatPar nl))
    (hpos : ∀ l g, 0 < b.Sw .p2s l g) (x' : DBase nl nk × List (CatPar nl)) (h : normalize pp m b cs = .ok x') :
    Spec.SameModel (b, cs) x' ∧ ∀ l G v p, Spec.mean x' l G v p = Spec.mean (b, cs) l G v p := by
  suffices hs : (∀ l G v p, Spec.mean x' l G v p = Spec.mean (b, cs) l G v p) ∧ (x'.1.Sw = b.Sw ∧ x'.1.Sb = b.Sb) ∧
      x'.2.map (fun c => (c.name, c.wi, c.Sw, c.Sn)) = cs.map fun c => (c.name, c.wi, c.Sw, c.Sn) from
    ⟨same_of_means (b, cs) x' hs.1 hs.2.1 hs.2.2 hpos, hs.1⟩
  obtain ⟨k1, k2, k3, k4⟩ := scan_kinds {} cs 0
  unfold normalize at h
  split at h
  · cases h; exact ⟨fun _ _ _ _ => rfl, ⟨rfl, rfl⟩, rfl⟩
  dsimp only at h
  split at h
  · rename_i j hj
    cases h
    obtain ⟨hl, -, hw, -⟩ := (k1 j hj).resolve_left (by simp)
    simp only [Nat.sub_zero] at hl hw
    exact ⟨fun l G v p => shift_mean b cs _ _ j hl (Or.inl hw) l G v p, ⟨rfl, rfl⟩, shift_rest _ _ _ _⟩
  split at h
  · cases h
  split at h
  · cases h
  split at h
  · rename_i j hj
    obtain ⟨hl, -, hw⟩ := (k2 j hj).resolve_left (by simp)
    simp only [Nat.sub_zero] at hl hw
    have first := fun l G v p => shift_mean b cs (fun _ l => adj1 pp b m l) (fun _ => adj1 pp b m 0) j hl (Or.inl hw) l G v p
    split at h
    · rename_i j' hj'
      cases h
      obtain ⟨hl', -, hw'⟩ := (k3 j' hj').resolve_left (by simp)
      simp only [Nat.sub_zero] at hl' hw'
      refine ⟨fun l G v p => ?_, ⟨rfl, rfl⟩, ?_⟩
      · unfold normPeriods
        rw [shift_mean _ _ (fun p _ => adjT _ m p) (adjT _ m) j' (by simpa using hl') (Or.inr fun _ _ => rfl), first]
      · unfold normPeriods
        rw [shift_rest, shift_rest]
    · cases h
      exact ⟨first, ⟨rfl, rfl⟩, shift_rest _ _ _ _⟩
  split at h
  · rename_i j' hj'
    cases h
    obtain ⟨hl', -, hw'⟩ := (k3 j' hj').resolve_left (by simp)
    simp only [Nat.sub_zero] at hl' hw'
    exact ⟨fun l G v p => shift_mean b cs (fun p _ => adjT b m p) (adjT b m) j' hl' (Or.inr fun _ _ => rfl) l G v p,
      ⟨rfl, rfl⟩, shift_rest _ _ _ _⟩
  split at h
  · rename_i j hj
    cases h
    obtain ⟨hl, -, hw⟩ := (k4 j hj).resolve_left (by simp)
    simp only [Nat.sub_zero] at hl hw
    exact ⟨fun l G v p => shift_mean b cs _ _ j hl (Or.inr fun _ _ => rfl) l G v p, ⟨rfl, rfl⟩, shift_rest _ _ _ _⟩
  · cases h; exact ⟨fun _ _ _ _ => rfl, ⟨rfl, rfl⟩, rfl⟩

/-- C54: with a time-varying control that interacts with worker types, normalising returns and the lowest firm
type's effects are zero in every period and for every worker type. -/
theorem C54_normalised [NeZero nl] (pp : Primary) (m : Fin nk) (b : DBase nl nk) (cs : List (CatPar nl))
    (h : ∃ c ∈ cs, c.wi = true ∧ c.stationary = false) :
    ∃ x', normalize pp m b cs = .ok x' ∧ ∀ p, (∀ l, x'.1.Aw p l m = 0) ∧ x'.1.Ab p m = 0 := by
  obtain ⟨c, hc, hw, hs⟩ := h
  unfold normalize
  rw [if_neg (by cases cs <;> simp at hc ⊢)]
  dsimp only
  have hne : (scan {} 0 cs).tvwi ≠ none := by
    intro h0
    rw [scan_tvwi_none _ _ _ rfl] at h0
    have := h0 c hc hw
    rw [hs] at this
    cases this
  obtain ⟨j, hj⟩ := Option.ne_none_iff_exists'.mp hne
  rw [hj]
  refine ⟨_, rfl, fun p => ⟨fun l => ?_, ?_⟩⟩ <;> simp [DBase.sub]

/-- C54: without such a control, but with a time-varying control that does not interact with worker types, whenever
normalising returns, the lowest firm type's effect on the first worker type is zero in every period. -/
theorem C54_normalised_first [NeZero nl] (pp : Primary) (m : Fin nk) (b : DBase nl nk) (cs : List (CatPar nl))
    (h : ∃ c ∈ cs, c.wi = false ∧ c.stationary = false) (h' : ∀ c ∈ cs, c.wi = true → c.stationary = true)
    (x' : DBase nl nk × List (CatPar nl)) (hx : normalize pp m b cs = .ok x') :
    ∀ p, if p.isB then x'.1.Ab p m = 0 else x'.1.Aw p 0 m = 0 := by
  have hz : ∀ (b : DBase nl nk) (cs : List (CatPar nl)) (j : ℕ) (p : Per),
      if p.isB then (normPeriods m j b cs).1.Ab p m = 0 else (normPeriods m j b cs).1.Aw p 0 m = 0 := by
    intro b cs j p
    cases hp : p.isB <;> simp [normPeriods, DBase.sub, adjT, hp]
  have hne : ∀ (cs : List (CatPar nl)) (k : Kinds) (j0 : ℕ), (k.tvnwi ≠ none ∨ ∃ c ∈ cs, c.wi = false ∧ c.stationary = false) →
      (∀ c ∈ cs, c.wi = true → c.stationary = true) → (scan k j0 cs).tvnwi ≠ none := by
    intro cs
    induction cs with
    | nil => intro k j0 h _; simpa [scan] using h
    | cons c cs ih =>
      intro k j0 h hh
      have hh2 : ∀ c ∈ cs, c.wi = true → c.stationary = true := fun c hc => hh c (List.mem_cons_of_mem _ hc)
      unfold scan
      cases hw : c.wi <;> cases hs : c.stationary <;> simp only [Bool.false_eq_true, if_false, if_true]
      · exact ih _ _ (Or.inl (by simp)) hh2
      · refine ih _ _ (h.imp id ?_) hh2
        rintro ⟨c', hc', h1, h2⟩
        rcases List.mem_cons.mp hc' with rfl | hc'
        · rw [hs] at h2; cases h2
        · exact ⟨c', hc', h1, h2⟩
      · have := hh c List.mem_cons_self hw
        rw [hs] at this; cases this
      · refine ih _ _ (h.imp id ?_) hh2
        rintro ⟨c', hc', h1, h2⟩
        rcases List.mem_cons.mp hc' with rfl | hc'
        · rw [hs] at h2; cases h2
        · exact ⟨c', hc', h1, h2⟩
  obtain ⟨j, hj⟩ := Option.ne_none_iff_exists'.mp (hne cs {} 0 (Or.inr h) h')
  unfold normalize at hx
  split at hx
  · rename_i he
    obtain ⟨c, hc, -⟩ := h
    rw [List.isEmpty_iff] at he
    rw [he] at hc
    cases hc
  dsimp only at hx
  rw [(scan_tvwi_none {} cs 0 rfl).mpr h'] at hx
  dsimp only at hx
  split at hx
  · cases hx
  split at hx
  · cases hx
  split at hx
  · rw [hj] at hx
    cases hx
    exact fun p => hz _ _ _ p
  · rw [hj] at hx
    cases hx
    exact fun p => hz _ _ _ p

/-- Controls called `12` and `43` of that kind, for which normalising returns. -/
example : ∃ x', normalize (nl := 1) (nk := 2) .all 0 ⟨fun _ _ k => 1 + k, fun _ _ => 0, fun _ _ _ => 1, fun _ _ => 0⟩
    [⟨"12", false, false, fun _ _ _ => 0, fun _ _ _ => 0, fun _ _ => 0, fun _ _ => 0⟩,
     ⟨"43", false, true, fun _ _ _ => 0, fun _ _ _ => 0, fun _ _ => 0, fun _ _ => 0⟩] = .ok x' := ⟨_, rfl⟩

/-- C54 (wrong): with categorical controls none of which is both time-varying and interacted with worker
types, normalising raises, unless controls happen to be called `12` and `43`. -/
theorem C54_raises [NeZero nl] (pp : Primary) (m : Fin nk) (b : DBase nl nk) (cs : List (CatPar nl))
    (hne : cs ≠ []) (h : ∀ c ∈ cs, c.wi = true → c.stationary = true)
    (hn : ¬ ((∃ c ∈ cs, c.name = "12") ∧ ∃ c ∈ cs, c.name = "43")) :
    normalize pp m b cs = .error "KeyError" := by
  unfold normalize
  rw [if_neg (by simpa using hne)]
  dsimp only
  rw [(scan_tvwi_none {} cs 0 rfl).mpr h]
  dsimp only
  split
  · rfl
  rename_i h12
  rw [if_pos]
  by_contra h43
  apply hn
  simp at h12 h43
  exact ⟨h12, h43⟩

/-- Non-vacuity: one time-varying control that interacts; one that does not (and then normalising raises). -/
example : ∃ c ∈ [(⟨"cat", true, false, fun _ _ _ => 1, fun _ _ _ => 1, fun _ _ => 1, fun _ _ => 1⟩ : CatPar 2)],
    c.wi = true ∧ c.stationary = false := ⟨_, List.mem_singleton_self _, rfl, rfl⟩

example (b : DBase 2 2) : normalize .first 0 b
    [⟨"cat", false, false, fun _ _ _ => 1, fun _ _ _ => 1, fun _ _ => 1, fun _ _ => 1⟩] = .error "KeyError" :=
  C54_raises _ _ _ _ (by simp) (by simp) (by simp)

/-! ## C76 -/

/-- Parameters of a continuous control.  Used for blm_dynamic.py:1260-1278. -/
structure CtsPar (nl : ℕ) where
  name : String
  wi : Bool
  Aw : Per → Fin nl → ℝ
  Sw : Per → Fin nl → ℝ
  An : Per → ℝ
  Sn : Per → ℝ

/-- What the constructor has drawn: `ctsZero` are keys of `self.A_cts` whose value is the number 0.
Used for blm_dynamic.py:1260-1278. -/
structure Drawn (nl nk : ℕ) where
  base : DBase nl nk
  cats : List (CatPar nl)
  cts : List (CtsPar nl)
  ctsZero : List String := []

/-- Lines 1261-1269 (`p` is `'2mb'`) or 1270-1278 (`'3mb'`).  `self.A_cat['2mb']` is a categorical control
called `2mb`; if there is one, it is a dictionary, which does not take slices (before Python 3.12).
Used for blm_dynamic.py:1260-1278. -/
def offPeriod (p : Per) (name : String) (d : Drawn nl nk) : Py (Drawn nl nk) :=
  let base := { d.base with Ab := Function.update d.base.Ab p fun _ => 0, Sb := Function.update d.base.Sb p fun _ => 0 }
  if d.cats.isEmpty then
    .ok { d with base := base, ctsZero := if d.cts.isEmpty then d.ctsZero else name :: d.ctsZero }
  else if d.cats.any fun c => c.name == name then .error "TypeError" else .error "KeyError"

/-- `DynamicBLMModel.__init__`, blm_dynamic.py:1260-1278. -/
def switchedOff (endogeneity stateDependence : Bool) (d : Drawn nl nk) : Py (Drawn nl nk) := do
  let d ← if endogeneity then .ok d else offPeriod .p2mb "2mb" d
  if stateDependence then .ok d else offPeriod .p3mb "3mb" d

/-- C76 (partial): without controls the constructor returns; an effect that is switched off is zero, and every
other parameter is as drawn.  Missing: categorical controls (`C76_controls_raise`) and the effects of
continuous controls (`C76_continuous_kept`). -/
theorem C76_off_partial (e s : Bool) (d : Drawn nl nk) (h : d.cats = []) :
    ∃ d', switchedOff e s d = .ok d' ∧
      (e = false → ∀ k, d'.base.Ab .p2mb k = 0 ∧ d'.base.Sb .p2mb k = 0) ∧
      (s = false → ∀ k, d'.base.Ab .p3mb k = 0 ∧ d'.base.Sb .p3mb k = 0) ∧
      (e = true → d'.base.Ab .p2mb = d.base.Ab .p2mb ∧ d'.base.Sb .p2mb = d.base.Sb .p2mb) ∧
      (s = true → d'.base.Ab .p3mb = d.base.Ab .p3mb ∧ d'.base.Sb .p3mb = d.base.Sb .p3mb) ∧
      d'.base.Aw = d.base.Aw ∧ d'.base.Sw = d.base.Sw ∧ d'.cats = d.cats ∧ d'.cts = d.cts := by
  obtain ⟨base, cats, cts, z⟩ := d
  simp only at h
  subst h
  cases e <;> cases s <;> refine ⟨_, rfl, ?_⟩ <;> simp [Function.update]

/-- C76: with an effect off, movers' densities do not depend on its firm type: wages in period 2 do not depend
on the future firm, wages in period 3 not on the past one. -/
theorem C76_no_effect (e s : Bool) (d d' : Drawn nl nk) (hc : d.cats = []) (h : switchedOff e s d = .ok d') (l : Fin nl) :
    (e = false → ∀ g g1 g2, d'.base.a l ![g, g1] .p2ma + d'.base.a l ![g, g1] .p2mb =
        d'.base.a l ![g, g2] .p2ma + d'.base.a l ![g, g2] .p2mb ∧
      d'.base.s2 l ![g, g1] .p2ma + d'.base.s2 l ![g, g1] .p2mb =
        d'.base.s2 l ![g, g2] .p2ma + d'.base.s2 l ![g, g2] .p2mb) ∧
    (s = false → ∀ g g1 g2, d'.base.a l ![g1, g] .p3ma + d'.base.a l ![g1, g] .p3mb =
        d'.base.a l ![g2, g] .p3ma + d'.base.a l ![g2, g] .p3mb ∧
      d'.base.s2 l ![g1, g] .p3ma + d'.base.s2 l ![g1, g] .p3mb =
        d'.base.s2 l ![g2, g] .p3ma + d'.base.s2 l ![g2, g] .p3mb) := by
  obtain ⟨d'', h', h1, h2, -⟩ := C76_off_partial e s d hc
  rw [h] at h'
  cases h'
  refine ⟨fun he g g1 g2 => ?_, fun hs g g1 g2 => ?_⟩
  · simp [DBase.a, DBase.s2, slot, Per.isB, h1 he]
  · simp [DBase.a, DBase.s2, slot, Per.isB, h2 hs]

/-- C76 (wrong): with any categorical control, switching an effect off makes the constructor raise. -/
theorem C76_controls_raise (e s : Bool) (d : Drawn nl nk) (h : d.cats ≠ []) (ho : e = false ∨ s = false) :
    ∃ err, switchedOff e s d = .error err := by
  have key : ∀ p n, ∃ err, offPeriod p n d = .error err := by
    intro p n
    unfold offPeriod
    dsimp only
    rw [if_neg (by simpa using h)]
    split <;> exact ⟨_, rfl⟩
  unfold switchedOff
  cases e
  · obtain ⟨err, he⟩ := key .p2mb "2mb"
    exact ⟨err, by simp only [Bool.false_eq_true, if_false, he]; rfl⟩
  · cases s
    · obtain ⟨err, he⟩ := key .p3mb "3mb"
      exact ⟨err, by simp only [Bool.false_eq_true, if_false, if_true]; exact he⟩
    · simp at ho

/-- C76: which exception it is.  Endogeneity is handled first; the exception is a `KeyError`, or a `TypeError` if a
categorical control is called like the period. -/
theorem C76_controls_error (e s : Bool) (d : Drawn nl nk) (h : d.cats ≠ []) :
    (e = false → ((∃ c ∈ d.cats, c.name = "2mb") → switchedOff e s d = .error "TypeError") ∧
      ((∀ c ∈ d.cats, c.name ≠ "2mb") → switchedOff e s d = .error "KeyError")) ∧
    (e = true → s = false → ((∃ c ∈ d.cats, c.name = "3mb") → switchedOff e s d = .error "TypeError") ∧
      ((∀ c ∈ d.cats, c.name ≠ "3mb") → switchedOff e s d = .error "KeyError")) := by
  have yes : ∀ p n, (∃ c ∈ d.cats, c.name = n) → offPeriod p n d = .error "TypeError" := by
    intro p n hn
    unfold offPeriod
    dsimp only
    rw [if_neg (by simpa using h), if_pos (by simpa [List.any_eq_true] using hn)]
  have no : ∀ p n, (∀ c ∈ d.cats, c.name ≠ n) → offPeriod p n d = .error "KeyError" := by
    intro p n hn
    unfold offPeriod
    dsimp only
    rw [if_neg (by simpa using h), if_neg (by simpa [List.any_eq_true] using hn)]
  unfold switchedOff
  refine ⟨?_, ?_⟩
  · rintro rfl
    exact ⟨fun hn => by simp only [Bool.false_eq_true, if_false, yes _ _ hn]; rfl,
      fun hn => by simp only [Bool.false_eq_true, if_false, no _ _ hn]; rfl⟩
  · rintro rfl rfl
    exact ⟨fun hn => by simp only [Bool.false_eq_true, if_false, if_true]; exact yes _ _ hn,
      fun hn => by simp only [Bool.false_eq_true, if_false, if_true]; exact no _ _ hn⟩

/-- Non-vacuity: a control called `2mb` and one called `occ`. -/
example : ∃ d d' : Drawn 1 1, (∃ c ∈ d.cats, c.name = "2mb") ∧ d'.cats ≠ [] ∧ ∀ c ∈ d'.cats, c.name ≠ "2mb" := by
  let b : DBase 1 1 := ⟨fun _ _ _ => 0, fun _ _ => 0, fun _ _ _ => 1, fun _ _ => 1⟩
  let c (x : String) : CatPar 1 := ⟨x, true, false, fun _ _ _ => 0, fun _ _ _ => 1, fun _ _ => 0, fun _ _ => 1⟩
  exact ⟨⟨b, [c "2mb"], [], []⟩, ⟨b, [c "occ"], [], []⟩, ⟨_, List.mem_singleton.mpr rfl, rfl⟩, by simp, by simp [c]⟩

/-- C76 (wrong): a continuous control keeps the effect that was drawn for it in the switched-off period, and
`self.A_cts` gets a key that is not the name of a control. -/
theorem C76_continuous_kept (s : Bool) (d : Drawn nl nk) (h : d.cats = []) (c : CtsPar nl) (hc : c ∈ d.cts)
    (hA : c.An .p2mb ≠ 0) :
    ∃ d', switchedOff false s d = .ok d' ∧ "2mb" ∈ d'.ctsZero ∧ ∃ c' ∈ d'.cts, c'.name = c.name ∧ c'.An .p2mb ≠ 0 := by
  have hne : d.cts.isEmpty = false := by cases hd : d.cts <;> simp [hd] at hc ⊢
  obtain ⟨base, cats, cts, z⟩ := d
  simp only at h hc hne
  subst h
  cases s <;> refine ⟨_, rfl, ?_, c, hc, rfl, hA⟩ <;> simp [hne]

end Pytwoway.Dynamic
