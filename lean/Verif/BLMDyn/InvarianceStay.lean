import Verif.BLMDyn.Invariance
import Verif.BLMDyn.ControlsStay

/-!
# Estimates of stayers with categorical controls: the numbering of categories matters (C121)

The effects written for a control are those of the firm types with the same numbers (`C95_stayers_overwritten`), so they
depend on how the control's categories are numbered.
-/

namespace Pytwoway.Dynamic

open Finset Pytwoway.Sim.Dyn Pytwoway.BLM

variable {ni nl nk : ℕ}

/-- The firm types' part of the M-step when only means are updated. -/
theorem mstepStC_base [NeZero nl] (d : DData ni nk) (q : Fin ni → Fin nl → ℝ) (b : DBase nl nk) (r : Rhos) (δ : ℝ)
    (sA sS : QP (Fin nl × JS nk)) (ks : List (StCol nl ni)) (asum : Fin 2 → Fin ni → ℝ) {b' ks' asum'}
    (h : mstepStC d q b r true false δ sA sS ks asum = .ok (b', ks', asum')) :
    b' = solveASt sA (XwX (wSt d b r q) (Xst d r) δ)
      (XwV (wSt d b r q) (Xst d r) fun l s => netSt (d.y s.2) r (fun t => asum t s.2 + sumBySt ks l t s.2) s.1) b := by
  unfold mstepStC at h
  simp only [bind, Except.bind] at h
  split at h
  · cases h
  · split at h
    · cases h
    · simp only [Bool.false_eq_true, if_false, if_true, Except.ok.injEq, Prod.mk.injEq] at h
      exact h.1.symm

/-- Two runs that differ only in the numbers `π` of a control's categories (its rows and starting effects are renumbered
accordingly): after an update of the means the effects of the firm types are the same, but the effects of a category are
the same only if the firm types with its old and its new number have the same effect. -/
theorem C121_stayers_controls_numbering [NeZero nl] (hnk : 0 < nk) (d : DData ni nk) (q : Fin ni → Fin nl → ℝ)
    (hq : ∀ i l, 0 ≤ q i l) (b : DBase nl nk) (r : Rhos) (δ : ℝ) (hδ : 0 < δ) (sA sS : QP (Fin nl × JS nk))
    (feas : (Fin nl × JS nk → ℝ) → Prop) (hs : RightQP feas sA) (hne : ∃ z, feas z) (π : Equiv.Perm (Fin nk))
    (c : Fin 2 → Fin ni → Fin nk) (Aw Aw' Sw Sw' : Fin 2 → Fin nl → Fin nk → ℝ) (An Sn : Fin 2 → Fin nk → ℝ)
    (sK sK' tK tK' : QP (Fin nl × JS nk)) (F F' : (Fin nl × JS nk → ℝ) → Prop) (hK : RightQP F sK) (hK' : RightQP F' sK')
    (hneK : ∃ z, F z) (hneK' : ∃ z, F' z) :
    let k : StCol nl ni := ⟨nk, false, c, Aw, Sw, An, Sn, sK, tK⟩
    let k' : StCol nl ni := ⟨nk, false, fun t i => π (c t i), Aw', Sw', fun t a => An t (π.symm a), fun t a => Sn t (π.symm a),
      sK', tK'⟩
    sumNonSt [k'] = sumNonSt [k] ∧
    ∃ b1 k1 a1 k2 a2, mstepStC d q b r true false δ sA sS [k] (sumNonSt [k]) = .ok (b1, [k1], a1) ∧
      mstepStC d q b r true false δ sA sS [k'] (sumNonSt [k']) = .ok (b1, [k2], a2) ∧
      k1.n = nk ∧ k2.n = nk ∧
      ∀ (t : Fin 2) (a : Fin nk) (u : Fin k1.n) (v : Fin k2.n), u.1 = a.1 → v.1 = (π a).1 →
        (k2.An t v = k1.An t u ↔ b1.Aw (perS t) 0 (π a) = b1.Aw (perS t) 0 a) := by
  intro k k'
  have h0 : sumNonSt [k'] = sumNonSt [k] := by
    funext t i
    simp [sumNonSt, StCol.nonA, k, k']
  refine ⟨h0, ?_⟩
  obtain ⟨b1, ks1, a1, e1, f1⟩ := C95_stayers_overwritten hnk d q hq b r δ hδ sA sS [k] (by simp [k]) feas hs hne
    (fun k0 x => if h : k0.n = nk then F fun a => x (a.1, a.2.1, Fin.cast h.symm a.2.2) else True)
    (by
      intro k0 hk0
      simp only [List.mem_singleton] at hk0
      subst hk0
      have : (fun x : Fin nl × JS k.n → ℝ => if h : k.n = nk then F fun a => x (a.1, a.2.1, Fin.cast h.symm a.2.2) else True) = F := by
        funext x
        simp only [k, dite_true]
        rfl
      rw [this]
      exact hK) (by
      intro k0 hk0
      simp only [List.mem_singleton] at hk0
      subst hk0
      obtain ⟨z, hz⟩ := hneK
      exact ⟨z, by simp only [k, dite_true]; exact hz⟩) (sumNonSt [k])
  obtain ⟨b2, ks2, a2, e2, f2⟩ := C95_stayers_overwritten hnk d q hq b r δ hδ sA sS [k'] (by simp [k']) feas hs hne
    (fun k0 x => if h : k0.n = nk then F' fun a => x (a.1, a.2.1, Fin.cast h.symm a.2.2) else True)
    (by
      intro k0 hk0
      simp only [List.mem_singleton] at hk0
      subst hk0
      have : (fun x : Fin nl × JS k'.n → ℝ => if h : k'.n = nk then F' fun a => x (a.1, a.2.1, Fin.cast h.symm a.2.2) else True) = F' := by
        funext x
        simp only [k', dite_true]
        rfl
      rw [this]
      exact hK') (by
      intro k0 hk0
      simp only [List.mem_singleton] at hk0
      subst hk0
      obtain ⟨z, hz⟩ := hneK'
      exact ⟨z, by simp only [k', dite_true]; exact hz⟩) (sumNonSt [k'])
  have hb1 := mstepStC_base d q b r δ sA sS _ _ e1
  have hb2 := mstepStC_base d q b r δ sA sS _ _ e2
  have hby : ∀ l t i, sumBySt [k'] l t i = sumBySt [k] l t i := by
    intro l t i
    simp [sumBySt, StCol.byA, k, k']
  have hbb : b2 = b1 := by
    rw [hb1, hb2, h0]
    simp only [hby]
  subst hbb
  obtain ⟨k1, hk1, rfl⟩ : ∃ k1, Spec.Overwritten b2 k k1 ∧ ks1 = [k1] := by
    cases f1 with
    | cons h t => cases t; exact ⟨_, h, rfl⟩
  obtain ⟨k2, hk2, rfl⟩ : ∃ k2, Spec.Overwritten b2 k' k2 ∧ ks2 = [k2] := by
    cases f2 with
    | cons h t => cases t; exact ⟨_, h, rfl⟩
  obtain ⟨n1, w1, o1⟩ := hk1
  obtain ⟨n2, w2, o2⟩ := hk2
  have w1 : k1.wi = false := w1
  have w2 : k2.wi = false := w2
  refine ⟨b2, k1, a1, k2, a2, e1, e2, n1, n2, fun t a u v hu hv => ?_⟩
  have p1 := o1 t 0 u a hu
  have p2 := o2 t 0 v (π a) hv
  simp only [w1, w2, Bool.false_eq_true, if_false] at p1 p2
  rw [p1, p2]

/-- Two stayers, each in a firm of another type, with wages 0 and 1. -/
def twoStayers : DData 2 2 := ⟨fun i => ⟨0, i.val, i.val, 0⟩, fun _ i => i⟩

/-- One worker type, means 0, standard deviations 1. -/
def twoStart : DBase 1 2 := ⟨fun _ _ _ => 0, fun _ _ => 0, fun _ _ _ => 1, fun _ _ => 0⟩

theorem twoStayers_base (δ : ℝ) (hδ : 0 < δ) (sA : QP (Fin 1 × JS 2)) (hA : RightQP (fun _ => True) sA) :
    (solveASt sA (XwX (wSt twoStayers twoStart ⟨0, 0, 0⟩ fun _ _ => 1) (Xst twoStayers ⟨0, 0, 0⟩) δ)
      (XwV (wSt twoStayers twoStart ⟨0, 0, 0⟩ fun _ _ => 1) (Xst twoStayers ⟨0, 0, 0⟩)
        fun _ s => netSt (twoStayers.y s.2) ⟨0, 0, 0⟩ (fun _ => 0) s.1) twoStart).Aw .p2s 0 1 ≠
    (solveASt sA (XwX (wSt twoStayers twoStart ⟨0, 0, 0⟩ fun _ _ => 1) (Xst twoStayers ⟨0, 0, 0⟩) δ)
      (XwV (wSt twoStayers twoStart ⟨0, 0, 0⟩ fun _ _ => 1) (Xst twoStayers ⟨0, 0, 0⟩)
        fun _ s => netSt (twoStayers.y s.2) ⟨0, 0, 0⟩ (fun _ => 0) s.1) twoStart).Aw .p2s 0 0 := by
  have hw : ∀ l s, wSt twoStayers twoStart ⟨0, 0, 0⟩ (fun _ _ => 1) l s = 1 := by
    rintro l ⟨t, i⟩
    unfold wSt varSt
    fin_cases t <;> simp [twoStart]
  have hsol := hA.eq (XwX (wSt twoStayers twoStart ⟨0, 0, 0⟩ fun _ _ => 1) (Xst twoStayers ⟨0, 0, 0⟩) δ)
    (fun a => - XwV (wSt twoStayers twoStart ⟨0, 0, 0⟩ fun _ _ => 1) (Xst twoStayers ⟨0, 0, 0⟩)
        (fun _ s => netSt (twoStayers.y s.2) ⟨0, 0, 0⟩ (fun _ => 0) s.1) a) (fun a => (a.2.2.val : ℝ) / (1 + δ))
    (by
      intro a b
      unfold XwX
      by_cases h : a = b
      · subst h; rfl
      · have h' : ¬ b = a := fun e => h e.symm
        simp only [h, h', if_false, add_zero]
        have h1 : a.1 = b.1 := Subsingleton.elim _ _
        simp only [h1, if_true]
        exact sum_congr rfl fun s _ => by ring)
    (XwX_pdRidge _ _ δ (wSt_nonneg _ _ _ _ fun i l => zero_le_one) hδ) trivial
    (by
      rintro ⟨l, t, k⟩
      have hl : l = 0 := Subsingleton.elim _ _
      subst hl
      have : 1 + δ ≠ 0 := by positivity
      simp only [neg_neg, XwX, XwV, hw, Fintype.sum_prod_type, Fin.sum_univ_one, Fin.sum_univ_two]
      fin_cases t <;> fin_cases k <;> simp [Xst, twoStayers, netSt] <;> field_simp)
  unfold solveASt
  rw [hsol]
  have : 1 + δ ≠ 0 := by positivity
  simp [Function.update, this]

/-- So the estimates do depend on the numbering: two stayers, two firm types, no constraint, a control with two
categories whose numbers are exchanged. -/
theorem C121_stayers_controls_fails (δ : ℝ) (hδ : 0 < δ) (sA sS : QP (Fin 1 × JS 2)) (hA : RightQP (fun _ => True) sA)
    (c : Fin 2 → Fin 2 → Fin 2) (W : Fin 2 → Fin 1 → Fin 2 → ℝ) (Sn : Fin 2 → Fin 2 → ℝ) :
    let π : Equiv.Perm (Fin 2) := Equiv.swap 0 1
    let k : StCol 1 2 := ⟨2, false, c, W, W, fun _ _ => 0, Sn, sA, sS⟩
    let k' : StCol 1 2 := ⟨2, false, fun t i => π (c t i), W, W, fun _ _ => 0, fun t a => Sn t (π.symm a), sA, sS⟩
    ∃ b1 k1 a1 k2 a2 u v,
      mstepStC twoStayers (fun _ _ => 1) twoStart ⟨0, 0, 0⟩ true false δ sA sS [k] (sumNonSt [k]) = .ok (b1, [k1], a1) ∧
      mstepStC twoStayers (fun _ _ => 1) twoStart ⟨0, 0, 0⟩ true false δ sA sS [k'] (sumNonSt [k']) = .ok (b1, [k2], a2) ∧
      u.1 = 0 ∧ v.1 = 1 ∧ k2.An 0 v ≠ k1.An 0 u := by
  intro π k k'
  obtain ⟨h0, b1, k1, a1, k2, a2, e1, e2, n1, n2, h⟩ := C121_stayers_controls_numbering (by norm_num) twoStayers
    (fun _ _ => 1) (fun _ _ => zero_le_one) twoStart ⟨0, 0, 0⟩ δ hδ sA sS _ hA ⟨0, trivial⟩ π c W W W W (fun _ _ => 0) Sn
    sA sA sS sS _ _ hA hA ⟨0, trivial⟩ ⟨0, trivial⟩
  refine ⟨b1, k1, a1, k2, a2, ⟨0, by omega⟩, ⟨1, by omega⟩, e1, e2, rfl, rfl, fun H => ?_⟩
  have := (h 0 0 ⟨0, by omega⟩ ⟨1, by omega⟩ rfl rfl).mp H
  have hb := mstepStC_base _ _ _ _ _ _ _ _ _ e1
  have hz : (fun (l : Fin 1) (s : Fin 2 × Fin 2) => netSt (twoStayers.y s.2) ⟨0, 0, 0⟩
      (fun t => sumNonSt [k] t s.2 + sumBySt [k] l t s.2) s.1) =
      fun _ s => netSt (twoStayers.y s.2) ⟨0, 0, 0⟩ (fun _ => 0) s.1 := by
    funext l s
    simp [sumNonSt, sumBySt, StCol.nonA, StCol.byA, k]
  have hb : b1 = solveASt sA _ (XwV _ _ (fun (l : Fin 1) (s : Fin 2 × Fin 2) => netSt (twoStayers.y s.2) ⟨0, 0, 0⟩
      (fun t => sumNonSt [k] t s.2 + sumBySt [k] l t s.2) s.1)) twoStart := hb
  rw [hz] at hb
  have hne := twoStayers_base δ hδ sA hA
  rw [← hb] at hne
  exact hne this

/-- Non-vacuity of `C121_stayers_controls_fails`. -/
example : ∃ sA : QP (Fin 1 × JS 2), RightQP (fun _ => True) sA := rightQP_free _

end Pytwoway.Dynamic
