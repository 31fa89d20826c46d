import Verif.BLM.Sort
import Verif.BLMDyn.EMProps

/-! # `DynamicBLMModel._sort_parameters`, blm_dynamic.py:1462-1556

Parameters that are `None` in the call are left out of the result and play no other role, so the model sorts all of
them.  NumPy's `argsort` is `BLM.Argsort`; reordering by the identity is the same as not reordering, so the tests
"Sort if out of order" (1503, 1529) are not modelled. -/

namespace Pytwoway.Dynamic

open Finset Pytwoway.Sim.Dyn Pytwoway.BLM

variable {ni nl nk : ℕ}

/-! ## Model -/

/-- Everything `_sort_parameters` sorts.  The rows of `pk1` are indexed by `g1 + nk * g2`.
Used for blm_dynamic.py:1503-1524 and blm_dynamic.py:1529-1551. -/
structure DAll (nl nk : ℕ) where
  base : DBase nl nk
  cs : List (DCtrl nl)
  pk1 : ℕ → Fin nl → ℝ
  pk0 : Fin nk → Fin nl → ℝ
  NNm : Fin nk → Fin nk → ℝ
  NNs : Fin nk → ℝ

/-- `A_mean`, blm_dynamic.py:1490-1495. -/
noncomputable def dPrimaryMean (pp : BLM.Primary) (b : DBase nl nk) (l : Fin nl) (k : Fin nk) : ℝ :=
  match pp with
  | .first => b.Aw .p12 l k
  | .second => b.Aw .p43 l k
  | .all => (b.Aw .p12 l k + b.Aw .p43 l k) / 2

/-- Reordering a control, blm_dynamic.py:1513-1524. -/
def reorderDCtrl (o : Fin nl → Fin nl) : DCtrl nl → DCtrl nl
  | .cat wi c Aw Sw An Sn => .cat wi c (fun p l => if wi && !p.isB then Aw p (o l) else Aw p l)
      (fun p l => if wi && !p.isB then Sw p (o l) else Sw p l) An Sn
  | .cts wi x Aw Sw An Sn => .cts wi x (fun p l => if wi && !p.isB then Aw p (o l) else Aw p l)
      (fun p l => if wi && !p.isB then Sw p (o l) else Sw p l) An Sn

/-- blm_dynamic.py:1503-1524. -/
def dSortWorkers (o : Fin nl → Fin nl) (x : DAll nl nk) : DAll nl nk :=
  { x with
    base := { x.base with
      Aw := fun p l => if p.isB then x.base.Aw p l else x.base.Aw p (o l)
      Sw := fun p l => if p.isB then x.base.Sw p l else x.base.Sw p (o l) }
    cs := x.cs.map (reorderDCtrl o)
    pk1 := fun g l => x.pk1 g (o l)
    pk0 := fun k l => x.pk0 k (o l) }

/-- blm_dynamic.py:1529-1551. -/
def dSortFirms (o : Fin nk → Fin nk) (x : DAll nl nk) : DAll nl nk :=
  let pk1a : ℕ → Fin nl → ℝ := fun g => x.pk1 (at' o (g % nk) + nk * (g / nk))
  let pk1b : ℕ → Fin nl → ℝ := fun g => pk1a (nk * at' o (g / nk) + g % nk)
  { x with
    base :=
      { Aw := fun p l k => if p.isB then x.base.Aw p l k else x.base.Aw p l (o k)
        Ab := fun p k => if p.isB then x.base.Ab p (o k) else x.base.Ab p k
        Sw := fun p l k => if p.isB then x.base.Sw p l k else x.base.Sw p l (o k)
        Sb := fun p k => if p.isB then x.base.Sb p (o k) else x.base.Sb p k }
    pk1 := pk1b
    pk0 := fun k => x.pk0 (o k)
    NNm := fun k1 k2 => x.NNm (o k1) (o k2)
    NNs := fun k => x.NNs (o k) }

/-- `_sort_parameters`, blm_dynamic.py:1462-1556. -/
noncomputable def dSort (a : Argsort) (pp : BLM.Primary) (sortF reverse : Bool) (x : DAll nl nk) : DAll nl nk :=
  let M := dPrimaryMean pp x.base
  let x1 := dSortWorkers (orderOf a reverse (workerMean M)) x
  if sortF then dSortFirms (orderOf a reverse (firmMean M)) x1 else x1

/-! ## Specification -/

/-- The control's mean and variance terms for worker type `l` in period `p`. -/
def Spec.ctrlTerms (l : Fin nl) (p : Per) : DCtrl nl → ℝ × ℝ
  | .cat wi c Aw Sw An Sn => if wi && !p.isB then (Aw p l (c (slot p)), Sw p l (c (slot p)))
      else (An p (c (slot p)), Sn p (c (slot p)))
  | .cts wi x Aw Sw An Sn => if wi && !p.isB then (Aw p l * x (slot p), Sw p l) else (An p * x (slot p), Sn p)

/-- `x'` is `x` with worker types renamed by `w` and firm types by `f`, in every parameter.  The effects `2mb` and
`3mb` depend on the firm type only. -/
structure Spec.DRelabelled (w : Equiv.Perm (Fin nl)) (f : Equiv.Perm (Fin nk)) (x x' : DAll nl nk) : Prop where
  A : ∀ p, p.isB = false → ∀ l k, x'.base.Aw p l k = x.base.Aw p (w l) (f k)
  S : ∀ p, p.isB = false → ∀ l k, x'.base.Sw p l k = x.base.Sw p (w l) (f k)
  Ab : ∀ p, p.isB = true → ∀ k, x'.base.Ab p k = x.base.Ab p (f k)
  Sb : ∀ p, p.isB = true → ∀ k, x'.base.Sb p k = x.base.Sb p (f k)
  pk1 : ∀ (k1 k2 : Fin nk) l, x'.pk1 (k1.val + nk * k2.val) l = x.pk1 ((f k1).val + nk * (f k2).val) (w l)
  pk0 : ∀ k l, x'.pk0 k l = x.pk0 (f k) (w l)
  NNm : ∀ k1 k2, x'.NNm k1 k2 = x.NNm (f k1) (f k2)
  NNs : ∀ k, x'.NNs k = x.NNs (f k)
  cs : ∀ l p, x'.cs.map (Spec.ctrlTerms l p) = x.cs.map (Spec.ctrlTerms (w l) p)

/-- The likelihood of a mover: the mixture over worker types. -/
noncomputable def Spec.mixMover (x : DAll nl nk) (r : Rhos) (G : Fin 2 → Fin nk) (y : Wages) : ℝ :=
  ∑ l, x.pk1 ((G 0).val + nk * (G 1).val) l * Spec.moverDensity (x.base.a l G) (x.base.s2 l G) r y

/-- The likelihood of a stayer. -/
noncomputable def Spec.mixStayer (x : DAll nl nk) (r : Rhos) (g : Fin nk) (y : Wages) : ℝ :=
  ∑ l, x.pk0 g l * Spec.stayerDensity (x.base.a l fun _ => g) (x.base.s2 l fun _ => g) r y

/-! ## Proofs -/

theorem dSortWorkers_relabelled (w : Equiv.Perm (Fin nl)) (x : DAll nl nk) :
    Spec.DRelabelled w (Equiv.refl _) x (dSortWorkers w x) where
  A p hp l k := by simp [dSortWorkers, hp]
  S p hp l k := by simp [dSortWorkers, hp]
  Ab _ _ _ := rfl
  Sb _ _ _ := rfl
  pk1 _ _ _ := rfl
  pk0 _ _ := rfl
  NNm _ _ := rfl
  NNs _ := rfl
  cs l p := by
    simp only [dSortWorkers, List.map_map]
    refine List.map_congr_left fun c _ => ?_
    cases c with
    | cat wi c Aw Sw An Sn =>
      simp only [Function.comp, reorderDCtrl, Spec.ctrlTerms]
      split <;> rfl
    | cts wi c Aw Sw An Sn =>
      simp only [Function.comp, reorderDCtrl, Spec.ctrlTerms]
      split <;> rfl

theorem at_val (f : Equiv.Perm (Fin nk)) (k : Fin nk) : at' f k.val = (f k).val := by
  simp [at', k.isLt]

theorem dSortFirms_relabelled (f : Equiv.Perm (Fin nk)) (x : DAll nl nk) :
    Spec.DRelabelled (Equiv.refl _) f x (dSortFirms f x) where
  A p hp l k := by simp [dSortFirms, hp]
  S p hp l k := by simp [dSortFirms, hp]
  Ab p hp k := by simp [dSortFirms, hp]
  Sb p hp k := by simp [dSortFirms, hp]
  pk1 k1 k2 l := by
    have hk : 0 < nk := k1.pos
    have h1 : (k1.val + nk * k2.val) / nk = k2.val := by
      rw [Nat.add_mul_div_left _ _ hk, Nat.div_eq_of_lt k1.isLt, Nat.zero_add]
    have h2 : (k1.val + nk * k2.val) % nk = k1.val := by
      rw [Nat.add_mul_mod_self_left, Nat.mod_eq_of_lt k1.isLt]
    simp only [dSortFirms, h1, h2, at_val]
    have h3 : (nk * (f k2).val + k1.val) % nk = k1.val := by
      rw [Nat.mul_add_mod, Nat.mod_eq_of_lt k1.isLt]
    have h4 : (nk * (f k2).val + k1.val) / nk = (f k2).val := by
      rw [Nat.mul_add_div hk, Nat.div_eq_of_lt k1.isLt, Nat.add_zero]
    rw [h3, h4, at_val]
    rfl
  pk0 _ _ := rfl
  NNm _ _ := rfl
  NNs _ := rfl
  cs _ _ := rfl

/-- C90: sorting only renames types, with one renaming of worker types and one of firm types for all parameters of
all periods. -/
theorem C90_relabelling (a : Argsort) (pp : BLM.Primary) (sortF reverse : Bool) (x : DAll nl nk) :
    ∃ (w : Equiv.Perm (Fin nl)) (f : Equiv.Perm (Fin nk)), (sortF = false → f = Equiv.refl _) ∧
      Spec.DRelabelled w f x (dSort a pp sortF reverse x) := by
  set M := dPrimaryMean pp x.base with hM
  refine ⟨orderPerm a reverse (workerMean M),
    if sortF then orderPerm a reverse (firmMean M) else Equiv.refl _, ?_, ?_⟩
  · intro h; simp [h]
  · have h1 := dSortWorkers_relabelled (orderPerm a reverse (workerMean M)) x
    unfold dSort
    simp only [← hM, orderOf_eq]
    cases sortF with
    | false => simpa using h1
    | true =>
      simp only [if_true]
      have h2 := dSortFirms_relabelled (orderPerm a reverse (firmMean M))
        (dSortWorkers (orderPerm a reverse (workerMean M)) x)
      refine ⟨fun p hp l k => ?_, fun p hp l k => ?_, fun p hp k => ?_, fun p hp k => ?_, fun k1 k2 l => ?_,
        fun k l => ?_, fun k1 k2 => ?_, fun k => ?_, fun l p => ?_⟩
      · rw [h2.A p hp, h1.A p hp]; rfl
      · rw [h2.S p hp, h1.S p hp]; rfl
      · rw [h2.Ab p hp, h1.Ab p hp]; rfl
      · rw [h2.Sb p hp, h1.Sb p hp]; rfl
      · rw [h2.pk1, h1.pk1]; rfl
      · rw [h2.pk0, h1.pk0]; rfl
      · rw [h2.NNm, h1.NNm]; rfl
      · rw [h2.NNs, h1.NNs]; rfl
      · exact (h2.cs l p).trans (h1.cs _ p)

theorem relabelled_a (w : Equiv.Perm (Fin nl)) (f : Equiv.Perm (Fin nk)) (x x' : DAll nl nk)
    (h : Spec.DRelabelled w f x x') (l : Fin nl) (G : Fin 2 → Fin nk) :
    x'.base.a l (fun t => f.symm (G t)) = x.base.a (w l) G ∧
    x'.base.s2 l (fun t => f.symm (G t)) = x.base.s2 (w l) G := by
  constructor
  · funext p
    cases hp : p.isB
    · simp [DBase.a, hp, h.A p hp]
    · simp [DBase.a, hp, h.Ab p hp]
  · funext p
    cases hp : p.isB
    · simp [DBase.s2, hp, h.S p hp]
    · simp [DBase.s2, hp, h.Sb p hp]

/-- C90: renaming types changes no observation's likelihood. -/
theorem C90_likelihood (w : Equiv.Perm (Fin nl)) (f : Equiv.Perm (Fin nk)) (x x' : DAll nl nk)
    (h : Spec.DRelabelled w f x x') (r : Rhos) (y : Wages) :
    (∀ G, Spec.mixMover x' r (fun t => f.symm (G t)) y = Spec.mixMover x r G y) ∧
    ∀ g, Spec.mixStayer x' r (f.symm g) y = Spec.mixStayer x r g y := by
  refine ⟨fun G => ?_, fun g => ?_⟩
  · unfold Spec.mixMover
    rw [← Equiv.sum_comp w fun l => x.pk1 ((G 0).val + nk * (G 1).val) l *
      Spec.moverDensity (x.base.a l G) (x.base.s2 l G) r y]
    refine sum_congr rfl fun l _ => ?_
    rw [(relabelled_a w f x x' h l G).1, (relabelled_a w f x x' h l G).2, h.pk1]
    simp
  · unfold Spec.mixStayer
    rw [← Equiv.sum_comp w fun l => x.pk0 g l *
      Spec.stayerDensity (x.base.a l fun _ => g) (x.base.s2 l fun _ => g) r y]
    refine sum_congr rfl fun l _ => ?_
    have := relabelled_a w f x x' h l fun _ => g
    rw [this.1, this.2, h.pk0]
    simp

/-- C90: with categorical controls as well: each worker type's log density is that of the type it is renamed
from. -/
theorem C90_likelihood_controls (w : Equiv.Perm (Fin nl)) (f : Equiv.Perm (Fin nk)) (x x' : DAll nl nk)
    (h : Spec.DRelabelled w f x x') (hc : AllCat x.cs) (hc' : AllCat x'.cs) (hS : ∀ l g, 0 < x.base.Sw .p2s l g)
    (r : Rhos) (y : Wages) (l : Fin nl) :
    (∀ G, lpMovers x'.base r l (fun t => f.symm (G t)) x'.cs y = lpMovers x.base r (w l) G x.cs y) ∧
    ∀ g, lpStayers x'.base r l (f.symm g) x'.cs y = lpStayers x.base r (w l) g x.cs y := by
  have hA : ∀ p, x'.cs.map (simA l p) = x.cs.map (simA (w l) p) := by
    intro p
    have e : ∀ (l : Fin nl) (cs : List (DCtrl nl)), cs.map (simA l p) = (cs.map (Spec.ctrlTerms l p)).map Prod.fst := by
      intro l cs
      rw [List.map_map]
      refine List.map_congr_left fun c _ => ?_
      cases c <;> simp only [simA, Function.comp, Spec.ctrlTerms] <;> split <;> rfl
    rw [e, e, h.cs]
  have hSS : ∀ p, x'.cs.map (fun c => simS l p c ^ 2) = x.cs.map fun c => simS (w l) p c ^ 2 := by
    intro p
    have e : ∀ (l : Fin nl) (cs : List (DCtrl nl)), cs.map (fun c => simS l p c ^ 2) =
        (cs.map (Spec.ctrlTerms l p)).map fun t => t.2 ^ 2 := by
      intro l cs
      rw [List.map_map]
      refine List.map_congr_left fun c _ => ?_
      cases c <;> simp only [simS, Function.comp, Spec.ctrlTerms] <;> split <;> rfl
    rw [e, e, h.cs]
  have htA : ∀ G, totA x'.base l (fun t => f.symm (G t)) x'.cs = totA x.base (w l) G x.cs := by
    intro G
    funext p
    simp only [totA, (relabelled_a w f x x' h l G).1, hA]
  have htS : ∀ G, totS x'.base l (fun t => f.symm (G t)) x'.cs = totS x.base (w l) G x.cs := by
    intro G
    funext p
    simp only [totS, (relabelled_a w f x x' h l G).2, hSS]
  refine ⟨fun G => ?_, fun g => ?_⟩
  · rw [lpMovers_eq _ _ _ _ _ hc', lpMovers_eq _ _ _ _ _ hc, htA, htS]
  · rw [lpStayers_eq _ _ _ _ _ hc' (by rw [h.S .p2s rfl]; exact hS _ _), lpStayers_eq _ _ _ _ _ hc (hS _ _)]
    have h1 := htA fun _ => g
    have h2 := htS fun _ => g
    rw [h1, h2]

theorem dSort_allCat (a : Argsort) (pp : BLM.Primary) (sortF reverse : Bool) (x : DAll nl nk) (hc : AllCat x.cs) :
    AllCat (dSort a pp sortF reverse x).cs := by
  have h : ∀ o, AllCat (dSortWorkers o x).cs := by
    intro o c hcm
    obtain ⟨c0, h0, rfl⟩ := List.mem_map.mp hcm
    obtain ⟨wi, c, Aw, Sw, An, Sn, rfl⟩ := hc c0 h0
    exact ⟨_, _, _, _, _, _, rfl⟩
  unfold dSort
  dsimp only
  split
  · exact h _
  · exact h _

theorem dSort_mean (a : Argsort) (pp : BLM.Primary) (sortF reverse : Bool) (x : DAll nl nk) (l : Fin nl) (k : Fin nk) :
    dPrimaryMean pp (dSort a pp sortF reverse x).base l k =
      dPrimaryMean pp x.base (orderPerm a reverse (workerMean (dPrimaryMean pp x.base)) l)
        ((if sortF then orderPerm a reverse (firmMean (dPrimaryMean pp x.base)) else Equiv.refl _) k) := by
  unfold dSort
  simp only [orderOf_eq]
  cases sortF <;> cases pp <;> rfl

/-- C90: afterwards the worker types are ordered by their mean effects in the primary period, and with
`sort_firm_types` so are the firm types; the other way round with `reverse`. -/
theorem C90_sorted (a : Argsort) (ha : a.Right) (pp : BLM.Primary) (sortF : Bool) (x : DAll nl nk) :
    Monotone (workerMean (dPrimaryMean pp (dSort a pp sortF false x).base)) ∧
    Antitone (workerMean (dPrimaryMean pp (dSort a pp sortF true x).base)) ∧
    (sortF = true → Monotone (firmMean (dPrimaryMean pp (dSort a pp sortF false x).base)) ∧
      Antitone (firmMean (dPrimaryMean pp (dSort a pp sortF true x).base))) := by
  refine ⟨fun u v h => ?_, fun u v h => ?_, fun hF => ⟨fun u v h => ?_, fun u v h => ?_⟩⟩
  · rw [workerMean_perm _ _ _ _ (dSort_mean a pp sortF false x), workerMean_perm _ _ _ _ (dSort_mean a pp sortF false x)]
    exact order_mono a ha _ h
  · rw [workerMean_perm _ _ _ _ (dSort_mean a pp sortF true x), workerMean_perm _ _ _ _ (dSort_mean a pp sortF true x)]
    exact order_anti a ha _ h
  · subst hF
    rw [firmMean_perm _ _ _ _ (dSort_mean a pp true false x), firmMean_perm _ _ _ _ (dSort_mean a pp true false x)]
    exact order_mono a ha _ h
  · subst hF
    rw [firmMean_perm _ _ _ _ (dSort_mean a pp true true x), firmMean_perm _ _ _ _ (dSort_mean a pp true true x)]
    exact order_anti a ha _ h

/-- C90: sorting sorted parameters changes nothing if no two types tie. -/
theorem C90_idempotent (a : Argsort) (ha : a.Right) (pp : BLM.Primary) (sortF : Bool) (x : DAll nl nk)
    (hw : StrictMono (workerMean (dPrimaryMean pp x.base)))
    (hf : sortF = true → StrictMono (firmMean (dPrimaryMean pp x.base))) :
    Spec.DRelabelled (Equiv.refl _) (Equiv.refl _) x (dSort a pp sortF false x) := by
  set M := dPrimaryMean pp x.base with hM
  have e1 : orderPerm a false (workerMean M) = Equiv.refl _ :=
    perm_of_strictMono _ hw (orderPerm a false _) (order_mono a ha _)
  have h1 := dSortWorkers_relabelled (Equiv.refl _) x
  unfold dSort
  simp only [← hM, orderOf_eq, e1]
  cases sortF with
  | false => simpa using h1
  | true =>
    have e2 : orderPerm a false (firmMean M) = Equiv.refl _ :=
      perm_of_strictMono _ (hf rfl) (orderPerm a false _) (order_mono a ha _)
    simp only [if_true, e2]
    have h2 := dSortFirms_relabelled (Equiv.refl _) (dSortWorkers (Equiv.refl _) x)
    exact ⟨fun p hp l k => (h2.A p hp l k).trans (h1.A p hp _ _), fun p hp l k => (h2.S p hp l k).trans (h1.S p hp _ _),
      fun p hp k => (h2.Ab p hp k).trans (h1.Ab p hp _), fun p hp k => (h2.Sb p hp k).trans (h1.Sb p hp _),
      fun k1 k2 l => (h2.pk1 k1 k2 l).trans (h1.pk1 _ _ _), fun k l => (h2.pk0 k l).trans (h1.pk0 _ _),
      fun k1 k2 => (h2.NNm k1 k2).trans (h1.NNm _ _), fun k => (h2.NNs k).trans (h1.NNs _),
      fun l p => (h2.cs l p).trans (h1.cs _ p)⟩

/-- Parameters out of order: sorting swaps both worker and firm types, and a right `argsort` exists (C35). -/
example : ∃ x : DAll 2 2, AllCat x.cs ∧ x.cs ≠ [] ∧ (∀ l g, 0 < x.base.Sw .p2s l g) ∧
    StrictAnti (workerMean (dPrimaryMean .all x.base)) ∧ StrictAnti (firmMean (dPrimaryMean .all x.base)) := by
  refine ⟨⟨⟨fun _ l k => - l.val - k.val, fun _ k => k, fun _ _ _ => 1, fun _ _ => 1⟩,
    [.cat true (fun _ => 1) (fun _ l k => l + k) (fun _ _ _ => 1) (fun _ _ => 0) fun _ _ => 1],
    fun _ _ => 1 / 2, fun _ _ => 1 / 2, fun _ _ => 3, fun _ => 2⟩, ?_, by simp, by simp, ?_, ?_⟩
  · intro c hc
    simp only [List.mem_singleton] at hc
    exact ⟨_, _, _, _, _, _, hc⟩
  · intro x y h
    have : (x.val : ℝ) < y.val := by exact_mod_cast h
    simp only [workerMean, dPrimaryMean, Fin.sum_univ_two]
    push_cast
    linarith
  · intro x y h
    have : (x.val : ℝ) < y.val := by exact_mod_cast h
    simp only [firmMean, dPrimaryMean, Fin.sum_univ_two]
    push_cast
    linarith

end Pytwoway.Dynamic
