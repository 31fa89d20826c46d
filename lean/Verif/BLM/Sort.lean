import Mathlib.Order.Fin.Basic
import Mathlib.Data.Fin.Tuple.Sort
import Mathlib.Data.Fin.Rev
import Mathlib.Logic.Equiv.Fin.Basic
import Verif.BLM.EM

/-! # Sorting types (`_sort_parameters`) and C35 -/

namespace Pytwoway.BLM

open Finset

variable {ni nl nk : ℕ}

/-! ## Model -/

/-- Option `primary_period`.  Used for blm.py:886-891 and blm.py:852-963. -/
inductive Primary | first | second | all
  deriving DecidableEq

/-- blm.py:886-891 (also 708-713): the means of the primary period. -/
noncomputable def primaryMean (pp : Primary) (A : Fin 2 → Fin nl → Fin nk → ℝ) (l : Fin nl)
    (k : Fin nk) : ℝ :=
  match pp with
  | .first => A 0 l k
  | .second => A 1 l k
  | .all => (A 0 l k + A 1 l k) / 2

/-- `np.mean(A_mean, axis=1)`.  Used for blm.py:852-963. -/
noncomputable def workerMean (M : Fin nl → Fin nk → ℝ) (l : Fin nl) : ℝ := (∑ k, M l k) / nk

/-- `np.mean(A_mean, axis=0)`.  Used for blm.py:852-963. -/
noncomputable def firmMean (M : Fin nl → Fin nk → ℝ) (k : Fin nk) : ℝ := (∑ l, M l k) / nl

/-- `np.argsort`: the model is parametric in the order chosen; `Right` says it sorts.
Used for blm.py:899-901 and blm.py:852-963. -/
structure Argsort where
  order : {n : ℕ} → (Fin n → ℝ) → Equiv.Perm (Fin n)

/-- An `argsort` that sorts. -/
def Argsort.Right (a : Argsort) : Prop := ∀ (n : ℕ) (v : Fin n → ℝ), Monotone (v ∘ a.order v)

/-- `argsort()` and, with `reverse`, `list(reversed(...))`: blm.py:899-901 and 928-930. -/
def orderOf (a : Argsort) (reverse : Bool) {n : ℕ} (v : Fin n → ℝ) (x : Fin n) : Fin n :=
  if reverse then a.order v x.rev else a.order v x

/-- Everything `_sort_parameters` may be given.  Used for blm.py:904-924 and blm.py:932-954. -/
structure AllParams (ni nl nk : ℕ) where
  base : Base nl nk
  cs : List (Ctrl ni nl)
  pk1 : ℕ → Fin nl → ℝ
  pk0 : Fin nk → Fin nl → ℝ
  NNm : Fin nk → Fin nk → ℝ
  NNs : Fin nk → ℝ

/-- blm.py:915-924: only the coefficients of controls interacted with worker type are reordered. -/
def reorderCtrl (o : Fin nl → Fin nl) (c : Ctrl ni nl) : Ctrl ni nl :=
  match c with
  | .catW C A S => .catW C (fun t l => A t (o l)) (fun t l => S t (o l))
  | .ctsW C A S => .ctsW C (fun t l => A t (o l)) (fun t l => S t (o l))
  | c => c

/-- blm.py:904-924. -/
def sortWorkers (o : Fin nl → Fin nl) (p : AllParams ni nl nk) : AllParams ni nl nk :=
  { p with
    base := ⟨fun t l => p.base.A t (o l), fun t l => p.base.S t (o l)⟩
    cs := p.cs.map (reorderCtrl o)
    pk1 := fun x l => p.pk1 x (o l)
    pk0 := fun k l => p.pk0 k (o l) }

/-- `firm_type_order` read at a computed position (positions are always below `nk`).  Used for blm.py:932-954. -/
def at' (o : Fin nk → Fin nk) (x : ℕ) : ℕ := if h : x < nk then (o ⟨x, h⟩).val else x

/-- blm.py:932-954: firm types, with `pk1` reordered in two passes over the flattened pair index:
`np.tile(order, nk) + nk * np.repeat(range(nk), nk)` and then
`nk * np.repeat(order, nk) + np.tile(range(nk), nk)`. -/
def sortFirms (o : Fin nk → Fin nk) (p : AllParams ni nl nk) : AllParams ni nl nk :=
  let pk1a : ℕ → Fin nl → ℝ := fun x => p.pk1 (at' o (x % nk) + nk * (x / nk))
  let pk1b : ℕ → Fin nl → ℝ := fun x => pk1a (nk * at' o (x / nk) + x % nk)
  { p with
    base := ⟨fun t l k => p.base.A t l (o k), fun t l k => p.base.S t l (o k)⟩
    pk1 := pk1b
    pk0 := fun k => p.pk0 (o k)
    NNm := fun k1 k2 => p.NNm (o k1) (o k2)
    NNs := fun k => p.NNs (o k) }

/-- `_sort_parameters`, blm.py:852-963, given all arrays.  (Indexing with the order `0, 1, ...` changes
nothing, so the tests `np.any(order != np.arange)` are not modelled.  `A_mean` is computed before the
worker types are sorted, as in the source.) -/
noncomputable def sortParams (a : Argsort) (pp : Primary) (sortF reverse : Bool)
    (p : AllParams ni nl nk) : AllParams ni nl nk :=
  let M := primaryMean pp p.base.A
  let p1 := sortWorkers (orderOf a reverse (workerMean M)) p
  if sortF then sortFirms (orderOf a reverse (firmMean M)) p1 else p1

/-! ## Specification -/

/-- `p'` is `p` with worker type `l` renamed from `w l` and firm type `k` from `f k`, in every
parameter; `pk1` is read at the pair `(k1, k2)`, stored at `k1 + nk * k2`. -/
structure Relabelled (w : Equiv.Perm (Fin nl)) (f : Equiv.Perm (Fin nk)) (p p' : AllParams ni nl nk) :
    Prop where
  A : ∀ t l k, p'.base.A t l k = p.base.A t (w l) (f k)
  S : ∀ t l k, p'.base.S t l k = p.base.S t (w l) (f k)
  pk1 : ∀ (k1 k2 : Fin nk) l, p'.pk1 (k1.val + nk * k2.val) l = p.pk1 ((f k1).val + nk * (f k2).val) (w l)
  pk0 : ∀ k l, p'.pk0 k l = p.pk0 (f k) (w l)
  NNm : ∀ k1 k2, p'.NNm k1 k2 = p.NNm (f k1) (f k2)
  NNs : ∀ k, p'.NNs k = p.NNs (f k)
  cs : ∀ t l i, (p'.cs.map fun c => Spec.ctrlMean c t l i) = p.cs.map (fun c => Spec.ctrlMean c t (w l) i) ∧
    (p'.cs.map fun c => Spec.ctrlVar c t l i) = p.cs.map fun c => Spec.ctrlVar c t (w l) i

/-- The same data with firm types renamed to match. -/
def relabelData (f : Equiv.Perm (Fin nk)) (d : Data ni nk) : Data ni nk :=
  { d with G := fun t i => f.symm (d.G t i) }

/-! ## C35 -/

/-- The order as a permutation. -/
def orderPerm (a : Argsort) (reverse : Bool) {n : ℕ} (v : Fin n → ℝ) : Equiv.Perm (Fin n) :=
  if reverse then Fin.revPerm.trans (a.order v) else a.order v

theorem orderOf_eq (a : Argsort) (reverse : Bool) {n : ℕ} (v : Fin n → ℝ) :
    orderOf a reverse v = orderPerm a reverse v := by
  funext x
  unfold orderOf orderPerm
  cases reverse <;> simp

theorem reorder_mean (o : Fin nl → Fin nl) (c : Ctrl ni nl) (t : Fin 2) (l : Fin nl) (i : Fin ni) :
    Spec.ctrlMean (reorderCtrl o c) t l i = Spec.ctrlMean c t (o l) i := by
  cases c <;> rfl

theorem reorder_var (o : Fin nl → Fin nl) (c : Ctrl ni nl) (t : Fin 2) (l : Fin nl) (i : Fin ni) :
    Spec.ctrlVar (reorderCtrl o c) t l i = Spec.ctrlVar c t (o l) i := by
  cases c <;> rfl

theorem sortWorkers_relabelled (w : Equiv.Perm (Fin nl)) (p : AllParams ni nl nk) :
    Relabelled w (Equiv.refl _) p (sortWorkers w p) where
  A _ _ _ := rfl
  S _ _ _ := rfl
  pk1 _ _ _ := rfl
  pk0 _ _ := rfl
  NNm _ _ := rfl
  NNs _ := rfl
  cs t l i := by
    constructor
    · simp only [sortWorkers, List.map_map]
      exact List.map_congr_left fun c _ => reorder_mean w c t l i
    · simp only [sortWorkers, List.map_map]
      exact List.map_congr_left fun c _ => reorder_var w c t l i

theorem pk1_two_passes (f : Fin nk → Fin nk) (p : AllParams ni nl nk) (k1 k2 : Fin nk) (l : Fin nl) :
    (sortFirms f p).pk1 (k1.val + nk * k2.val) l = p.pk1 ((f k1).val + nk * (f k2).val) l := by
  have hk : 0 < nk := Nat.lt_of_le_of_lt (Nat.zero_le _) k1.isLt
  have e1 : (k1.val + nk * k2.val) / nk = k2.val := by
    rw [Nat.add_mul_div_left _ _ hk, Nat.div_eq_of_lt k1.isLt, Nat.zero_add]
  have e2 : (k1.val + nk * k2.val) % nk = k1.val := by
    rw [Nat.add_mul_mod_self_left, Nat.mod_eq_of_lt k1.isLt]
  have e3 : ∀ y : ℕ, (nk * y + k1.val) / nk = y := by
    intro y
    rw [Nat.mul_add_div hk, Nat.div_eq_of_lt k1.isLt, Nat.add_zero]
  have e4 : ∀ y : ℕ, (nk * y + k1.val) % nk = k1.val := by
    intro y
    rw [Nat.mul_add_mod, Nat.mod_eq_of_lt k1.isLt]
  simp only [sortFirms, e1, e2, e3, e4, at', k1.isLt, k2.isLt, dif_pos]

theorem sortFirms_relabelled (f : Equiv.Perm (Fin nk)) (p : AllParams ni nl nk) :
    Relabelled (Equiv.refl _) f p (sortFirms f p) where
  A _ _ _ := rfl
  S _ _ _ := rfl
  pk1 k1 k2 l := pk1_two_passes f p k1 k2 l
  pk0 _ _ := rfl
  NNm _ _ := rfl
  NNs _ := rfl
  cs _ _ _ := ⟨rfl, rfl⟩

/-- C35: sorting only renames types, consistently across every parameter (no value is lost because
the renamings are permutations), for both sort options and both directions. -/
theorem C35_relabelling (a : Argsort) (pp : Primary) (sortF reverse : Bool) (p : AllParams ni nl nk) :
    ∃ (w : Equiv.Perm (Fin nl)) (f : Equiv.Perm (Fin nk)), (sortF = false → f = Equiv.refl _) ∧
      Relabelled w f p (sortParams a pp sortF reverse p) := by
  set M := primaryMean pp p.base.A with hM
  refine ⟨orderPerm a reverse (workerMean M),
    if sortF then orderPerm a reverse (firmMean M) else Equiv.refl _, ?_, ?_⟩
  · intro h; simp [h]
  · have h1 := sortWorkers_relabelled (orderPerm a reverse (workerMean M)) p
    unfold sortParams
    simp only [← hM, orderOf_eq]
    cases sortF with
    | false => simpa using h1
    | true =>
      simp only [if_true]
      have h2 := sortFirms_relabelled (orderPerm a reverse (firmMean M))
        (sortWorkers (orderPerm a reverse (workerMean M)) p)
      refine ⟨fun t l k => ?_, fun t l k => ?_, fun k1 k2 l => ?_, fun k l => ?_, fun k1 k2 => ?_,
        fun k => ?_, fun t l i => ?_⟩
      · rw [h2.A, h1.A]; rfl
      · rw [h2.S, h1.S]; rfl
      · rw [h2.pk1, h1.pk1]; rfl
      · rw [h2.pk0, h1.pk0]; rfl
      · rw [h2.NNm, h1.NNm]; rfl
      · rw [h2.NNs, h1.NNs]; rfl
      · exact ⟨(h2.cs t l i).1.trans (h1.cs t _ i).1, (h2.cs t l i).2.trans (h1.cs t _ i).2⟩

theorem order_mono (a : Argsort) (ha : a.Right) {n : ℕ} (v : Fin n → ℝ) :
    Monotone fun x => v (orderPerm a false v x) := ha n v

theorem order_anti (a : Argsort) (ha : a.Right) {n : ℕ} (v : Fin n → ℝ) :
    Antitone fun x => v (orderPerm a true v x) := by
  intro x y h
  exact ha n v (Fin.rev_le_rev.mpr h)

theorem primaryMean_perm (pp : Primary) (A A' : Fin 2 → Fin nl → Fin nk → ℝ) (w : Fin nl → Fin nl)
    (f : Fin nk → Fin nk) (h : ∀ t l k, A' t l k = A t (w l) (f k)) (l : Fin nl) (k : Fin nk) :
    primaryMean pp A' l k = primaryMean pp A (w l) (f k) := by
  cases pp <;> simp [primaryMean, h]

theorem workerMean_perm (M M' : Fin nl → Fin nk → ℝ) (w : Fin nl → Fin nl)
    (f : Equiv.Perm (Fin nk)) (h : ∀ l k, M' l k = M (w l) (f k)) (l : Fin nl) :
    workerMean M' l = workerMean M (w l) := by
  unfold workerMean
  rw [← Equiv.sum_comp f (M (w l))]
  simp [h]

theorem firmMean_perm (M M' : Fin nl → Fin nk → ℝ) (w : Equiv.Perm (Fin nl))
    (f : Fin nk → Fin nk) (h : ∀ l k, M' l k = M (w l) (f k)) (k : Fin nk) :
    firmMean M' k = firmMean M (f k) := by
  unfold firmMean
  rw [← Equiv.sum_comp w fun l => M l (f k)]
  simp [h]

theorem sorted_A (a : Argsort) (pp : Primary) (sortF reverse : Bool) (p : AllParams ni nl nk)
    (l : Fin nl) (k : Fin nk) :
    primaryMean pp (sortParams a pp sortF reverse p).base.A l k =
      primaryMean pp p.base.A (orderPerm a reverse (workerMean (primaryMean pp p.base.A)) l)
        ((if sortF then orderPerm a reverse (firmMean (primaryMean pp p.base.A))
          else Equiv.refl _) k) := by
  apply primaryMean_perm
  intro t l k
  unfold sortParams
  simp only [orderOf_eq]
  cases sortF <;> rfl

/-- C35: after sorting, the worker types' mean effects (averaged over firm types, in the primary
period) are nondecreasing; with `reverse` nonincreasing. -/
theorem C35_workers_sorted (a : Argsort) (ha : a.Right) (pp : Primary) (sortF : Bool)
    (p : AllParams ni nl nk) :
    Monotone (workerMean (primaryMean pp (sortParams a pp sortF false p).base.A)) ∧
    Antitone (workerMean (primaryMean pp (sortParams a pp sortF true p).base.A)) := by
  constructor
  · intro x y h
    rw [workerMean_perm _ _ _ _ (sorted_A a pp sortF false p),
      workerMean_perm _ _ _ _ (sorted_A a pp sortF false p)]
    exact order_mono a ha _ h
  · intro x y h
    rw [workerMean_perm _ _ _ _ (sorted_A a pp sortF true p),
      workerMean_perm _ _ _ _ (sorted_A a pp sortF true p)]
    exact order_anti a ha _ h

/-- C35: with `sort_firm_types` the firm types' mean effects are sorted as well. -/
theorem C35_firms_sorted (a : Argsort) (ha : a.Right) (pp : Primary) (p : AllParams ni nl nk) :
    Monotone (firmMean (primaryMean pp (sortParams a pp true false p).base.A)) ∧
    Antitone (firmMean (primaryMean pp (sortParams a pp true true p).base.A)) := by
  constructor
  · intro x y h
    rw [firmMean_perm _ _ _ _ (sorted_A a pp true false p),
      firmMean_perm _ _ _ _ (sorted_A a pp true false p)]
    exact order_mono a ha _ h
  · intro x y h
    rw [firmMean_perm _ _ _ _ (sorted_A a pp true true p),
      firmMean_perm _ _ _ _ (sorted_A a pp true true p)]
    exact order_anti a ha _ h

theorem wageDensity_relabel (w : Equiv.Perm (Fin nl)) (f : Equiv.Perm (Fin nk))
    (p p' : AllParams ni nl nk) (h : Relabelled w f p p') (d : Data ni nk) (t : Fin 2) (i : Fin ni)
    (l : Fin nl) :
    Spec.wageDensity (relabelData f d) p'.base p'.cs t i l =
      Spec.wageDensity d p.base p.cs t i (w l) := by
  unfold Spec.wageDensity
  rw [h.A, h.S, (h.cs t l i).1, (h.cs t l i).2]
  simp [relabelData]

/-- C35: relabelling changes no observation's likelihood, for movers (log sum over worker types) and
stayers, hence not the recorded likelihoods. -/
theorem C35_likelihood [NeZero nl] (w : Equiv.Perm (Fin nl)) (f : Equiv.Perm (Fin nk))
    (p p' : AllParams ni nl nk) (h : Relabelled w f p p') (d : Data ni nk)
    (hS : ∀ t l k, 0 < p.base.S t l k) (i : Fin ni) :
    Util.logsumexp (lpMovers (relabelData f d) p'.base p'.cs p'.pk1 i) =
      Util.logsumexp (lpMovers d p.base p.cs p.pk1 i) ∧
    Util.logsumexp (lpStayers (relabelData f d) p'.base p'.cs (fun k => some (p'.pk0 k)) i) =
      Util.logsumexp (lpStayers d p.base p.cs (fun k => some (p.pk0 k)) i) := by
  have hS' : ∀ t l, 0 < p'.base.S t l ((relabelData f d).G t i) := by
    intro t l; rw [h.S]; exact hS _ _ _
  have hw : ∀ t l, lpWage (relabelData f d) p'.base p'.cs t l i = lpWage d p.base p.cs t (w l) i := by
    intro t l
    rw [lpWage_eq _ _ _ _ _ _ (hS' t l), lpWage_eq _ _ _ _ _ _ (hS t _ _),
      wageDensity_relabel w f p p' h]
  constructor
  · rw [lse_eq, lse_eq, ← Equiv.sum_comp w fun l => Real.exp (lpMovers d p.base p.cs p.pk1 i l)]
    congr 1
    refine sum_congr rfl fun l _ => ?_
    unfold lpMovers
    rw [hw, hw]
    have : p'.pk1 (KK (relabelData f d) i) l = p.pk1 (KK d i) (w l) := by
      have := h.pk1 (f.symm (d.G 0 i)) (f.symm (d.G 1 i)) l
      simpa [KK, relabelData] using this
    rw [this]
    rfl
  · rw [lse_eq, lse_eq, ← Equiv.sum_comp w fun l =>
      Real.exp (lpStayers d p.base p.cs (fun k => some (p.pk0 k)) i l)]
    congr 1
    refine sum_congr rfl fun l _ => ?_
    unfold lpStayers
    rw [hw]
    simp only [Option.getD_some, h.pk0]
    simp [relabelData]

theorem perm_of_strictMono {n : ℕ} (v : Fin n → ℝ) (hv : StrictMono v) (s : Equiv.Perm (Fin n))
    (h : Monotone (v ∘ s)) : s = Equiv.refl _ := by
  have hs : StrictMono s := by
    intro x y hxy
    have h1 : v (s x) ≤ v (s y) := h hxy.le
    have h2 : s x ≤ s y := hv.le_iff_le.mp h1
    exact lt_of_le_of_ne h2 fun he => hxy.ne (s.injective he)
  ext x
  have : (⟨s, fun {a b} => hs.le_iff_le⟩ : Fin n ≃o Fin n) = OrderIso.refl _ := Subsingleton.elim _ _
  have h2 := congrArg (fun e : Fin n ≃o Fin n => e x) this
  simpa using congrArg Fin.val h2

/-- C35: sorting an already sorted set of parameters changes nothing, if no two types tie (with ties
`argsort` may order equal types either way). -/
theorem C35_idempotent (a : Argsort) (ha : a.Right) (pp : Primary) (sortF : Bool)
    (p : AllParams ni nl nk)
    (hw : StrictMono (workerMean (primaryMean pp p.base.A)))
    (hf : sortF = true → StrictMono (firmMean (primaryMean pp p.base.A))) :
    let p' := sortParams a pp sortF false p
    p'.base = p.base ∧ p'.pk0 = p.pk0 ∧ p'.NNm = p.NNm ∧ p'.NNs = p.NNs ∧
      (∀ (k1 k2 : Fin nk), p'.pk1 (k1.val + nk * k2.val) = p.pk1 (k1.val + nk * k2.val)) ∧
      p'.cs = p.cs := by
  have e1 : (orderOf a false (workerMean (primaryMean pp p.base.A)) : Fin nl → Fin nl) = id := by
    rw [orderOf_eq]
    have := perm_of_strictMono _ hw (orderPerm a false _) (order_mono a ha _)
    rw [this]; rfl
  have hc : p.cs.map (reorderCtrl id) = p.cs := by
    conv_rhs => rw [← List.map_id p.cs]
    exact List.map_congr_left fun c _ => by cases c <;> rfl
  intro p'
  cases sortF with
  | false =>
    have : p' = sortWorkers id p := by
      simp only [p', sortParams, e1, Bool.false_eq_true, if_false]
    rw [this]
    exact ⟨rfl, rfl, rfl, rfl, fun _ _ => rfl, hc⟩
  | true =>
    have e2 : (orderOf a false (firmMean (primaryMean pp p.base.A)) : Fin nk → Fin nk) = id := by
      rw [orderOf_eq]
      have := perm_of_strictMono _ (hf rfl) (orderPerm a false _) (order_mono a ha _)
      rw [this]; rfl
    have : p' = sortFirms id (sortWorkers id p) := by
      simp only [p', sortParams, e1, e2, if_true]
    rw [this]
    refine ⟨rfl, rfl, rfl, rfl, fun k1 k2 => ?_, hc⟩
    funext l
    exact pk1_two_passes id (sortWorkers id p) k1 k2 l

/-- An `argsort` that sorts exists. -/
theorem exists_argsort : ∃ a : Argsort, a.Right :=
  ⟨⟨fun v => Tuple.sort v⟩, fun _ v => Tuple.monotone_sort v⟩

/-- Non-vacuity: the hypotheses of `C35_idempotent` hold for means `l + k`. -/
example : StrictMono (workerMean (primaryMean Primary.all exBase.A)) ∧
    StrictMono (firmMean (primaryMean Primary.all exBase.A)) := by
  constructor
  · intro x y h
    have : (x.val : ℝ) < y.val := by exact_mod_cast h
    simp only [workerMean, primaryMean, exBase, Fin.sum_univ_two]
    push_cast
    linarith
  · intro x y h
    have : (x.val : ℝ) < y.val := by exact_mod_cast h
    simp only [firmMean, primaryMean, exBase, Fin.sum_univ_two]
    push_cast
    linarith

end Pytwoway.BLM
