import Verif.FE.Spec

/-! # The block inverse and connectedness (helper lemmas) -/

namespace Pytwoway.FE

open Matrix Pytwoway.Util
open scoped BigOperators

variable {n m nw : ℕ} (d : Panel n m nw)

theorem Panel.withZero_const_of_fit_zero (psi : Fin (m + 1) → ℝ) (alpha : Fin nw → ℝ)
    (h : ∀ o, psi (d.j o) + alpha (d.i o) = 0) (a b : Fin (m + 1))
    (hab : Relation.ReflTransGen d.Linked a b) : psi a = psi b := by
  induction hab with
  | refl => rfl
  | tail _ hl ih =>
    obtain ⟨o, o', hi, rfl, rfl⟩ := hl
    have h1 := h o
    have h2 := h o'
    rw [hi] at h1
    linarith

/-- On connected data the design has independent columns. -/
theorem Panel.X_injective (hv : d.Valid) (hc : d.Connected) (t : Fin m ⊕ Fin nw → ℝ)
    (ht : d.X *ᵥ t = 0) : t = 0 := by
  have ht' : d.X *ᵥ Sum.elim (t ∘ Sum.inl) (t ∘ Sum.inr) = 0 := by rwa [Sum.elim_comp_inl_inr]
  have h : ∀ o, withZero (t ∘ Sum.inl) (d.j o) + (t ∘ Sum.inr) (d.i o) = 0 := fun o => by
    rw [← d.X_mulVec, ht']; rfl
  have hpsi : ∀ k, withZero (t ∘ Sum.inl) k = 0 := fun k => by
    rw [d.withZero_const_of_fit_zero _ _ h k 0 (hc k 0)]; rfl
  ext (k | i)
  · exact hpsi k.succ
  · obtain ⟨o, rfl⟩ := hv.seen i
    have := h o
    rw [hpsi] at this
    simpa using this

theorem Panel.nmat_unit (hv : d.Valid) (hc : d.Connected) : IsUnit (nmat d.X d.Dp).det :=
  nmat_isUnit _ _ hv.wpos (d.X_injective hv hc)

theorem Panel.Dw_mul_Dwinv (hv : d.Valid) : diagonal d.Dw * diagonal d.Dwinv = 1 := by
  rw [diagonal_mul_diagonal, ← diagonal_one]
  congr 1; ext i
  rw [Dwinv_eq, mul_one_div, div_self (d.Dw_pos hv i).ne']

theorem Panel.JtDpWm : d.Jᵀ * d.DpWm = d.WtDpJᵀ := by
  rw [WtDpJ, DpJ_eq, DpWm_eq, transpose_mul, transpose_mul, diagonal_transpose, transpose_transpose,
    Matrix.mul_assoc]

theorem Panel.Minv_eq : d.Minv = d.Jᵀ * d.DpJ - d.WtDpJᵀ * diagonal d.Dwinv * d.WtDpJ := by
  rw [Minv, DwinvWtDpJ_eq, Matrix.mul_assoc]

theorem Panel.Minv_symm : d.Minvᵀ = d.Minv := by
  rw [Minv_eq]
  simp [transpose_sub, transpose_mul, DpJ_eq, Matrix.mul_assoc]

theorem Panel.Minv_unit (hv : d.Valid) (hu : IsUnit (nmat d.X d.Dp).det) : IsUnit d.Minv.det := by
  have hinv : diagonal d.Dwinv * diagonal d.Dw = 1 := by
    rw [← d.Dw_mul_Dwinv hv, diagonal_mul_diagonal, diagonal_mul_diagonal]
    congr 1; ext; ring
  letI : Invertible (diagonal d.Dw) := ⟨diagonal d.Dwinv, hinv, d.Dw_mul_Dwinv hv⟩
  rw [nmat_blocks, det_fromBlocks₂₂] at hu
  have : ⅟(diagonal d.Dw) = diagonal d.Dwinv := rfl
  rw [this, ← Minv_eq] at hu
  exact (IsUnit.mul_iff.mp hu).2

/-- The lower right block that line 1280 was meant to build. -/
noncomputable def Panel.trueD : Matrix (Fin nw) (Fin nw) ℝ :=
  diagonal d.Dwinv + d.blocksFull.C * d.Minv * d.blocksFull.B

theorem Panel.blocksFull_B : d.blocksFull.B = -(d.Minv⁻¹ * d.WtDpJᵀ * diagonal d.Dwinv) := by
  have : (of fun o i => d.DpWm o i * d.Dwinv i) = d.DpWm * diagonal d.Dwinv := by
    ext; simp [mul_diagonal]
  change -(d.Minv⁻¹ * d.Jᵀ * of fun o i => d.DpWm o i * d.Dwinv i) = _
  rw [this, ← d.JtDpWm]; simp only [Matrix.mul_assoc]

theorem Panel.blocksFull_C : d.blocksFull.C = -(diagonal d.Dwinv * d.WtDpJ * d.Minv⁻¹) := by
  change d.blocksFull.Bᵀ = _
  rw [blocksFull_B, transpose_neg, transpose_mul, transpose_mul, diagonal_transpose,
    transpose_transpose, transpose_nonsing_inv, Minv_symm, Matrix.mul_assoc]

theorem Panel.blocksFull_A : d.blocksFull.A = d.Minv⁻¹ := rfl

theorem Panel.trueD_eq (hM : IsUnit d.Minv.det) :
    d.trueD = diagonal d.Dwinv
      + diagonal d.Dwinv * d.WtDpJ * d.Minv⁻¹ * d.WtDpJᵀ * diagonal d.Dwinv := by
  rw [trueD, blocksFull_B, blocksFull_C]
  congr 1
  rw [Matrix.neg_mul, Matrix.neg_mul, Matrix.mul_neg, neg_neg, Matrix.mul_assoc _ _ d.Minv,
    nonsing_inv_mul _ hM]
  simp only [Matrix.mul_assoc, Matrix.one_mul]

/-- The blocks (with the intended lower right one) are the inverse of the normal matrix. -/
theorem Panel.nmat_inv (hv : d.Valid) (hu : IsUnit (nmat d.X d.Dp).det) :
    (nmat d.X d.Dp)⁻¹ = fromBlocks d.blocksFull.A d.blocksFull.B d.blocksFull.C d.trueD := by
  have hM := d.Minv_unit hv hu
  apply inv_eq_right_inv
  rw [nmat_blocks, fromBlocks_multiply, blocksFull_A, blocksFull_B, blocksFull_C, d.trueD_eq hM,
    ← fromBlocks_one]
  have hD := d.Dw_mul_Dwinv hv
  set M := d.Minv⁻¹
  set K := d.WtDpJ
  set V := diagonal d.Dwinv
  have hMM : (d.Jᵀ * d.DpJ) * M - K.transpose * V * K * M = 1 := by
    rw [← Matrix.sub_mul, ← Minv_eq, mul_nonsing_inv _ hM]
  congr 1
  · rw [Matrix.mul_neg, ← sub_eq_add_neg, ← hMM]; simp only [Matrix.mul_assoc]
  · have : d.Jᵀ * d.DpJ * -(M * Kᵀ * V) + Kᵀ * (V + V * K * M * Kᵀ * V)
        = Kᵀ * V - ((d.Jᵀ * d.DpJ) * M - Kᵀ * V * K * M) * (Kᵀ * V) := by
      simp only [Matrix.mul_neg, Matrix.mul_add, Matrix.sub_mul, Matrix.mul_assoc]; abel
    rw [this, hMM, Matrix.one_mul, sub_self]
  · rw [Matrix.mul_neg, ← Matrix.mul_assoc, ← Matrix.mul_assoc, hD, Matrix.one_mul, add_neg_cancel]
  · rw [Matrix.mul_add, hD]
    simp only [← Matrix.mul_assoc, hD, Matrix.one_mul, Matrix.mul_neg]
    abel

/-- The lower right block that line 1280 does build. -/
theorem Panel.blocksFull_D (r c : Fin nw) :
    d.blocksFull.D r c = d.trueD r c + if r = c then 0 else d.Dwinv c := by
  change d.Dwinv c + (d.blocksFull.C * d.Minv * d.blocksFull.B) r c = _
  rw [trueD, Matrix.add_apply, diagonal_apply]
  split
  · rename_i h; subst h; ring
  · ring

theorem Panel.X_row (o : Fin n) : d.X o = Sum.elim (d.J o) (d.W o) := by
  ext (k | i) <;> rfl

/-- Leverage of row `o` from the hat matrix. -/
theorem Panel.computePii_eq (hv : d.Valid) (hu : IsUnit (nmat d.X d.Dp).det) (o : Fin n) :
    d.computePii d.blocksFull o = hat d.X d.Dp o o := by
  have hsJ : d.sqrtDpJ o = Real.sqrt (d.Dp o) • d.J o := by ext; simp [sqrtDpJ]
  have hsW : d.sqrtDpW o = Real.sqrt (d.Dp o) • d.W o := by ext; simp [sqrtDpW]
  have hsq : Real.sqrt (d.Dp o) * Real.sqrt (d.Dp o) = d.Dp o := Real.mul_self_sqrt (hv.wpos o).le
  have hWrow : d.W o = Pi.single (d.i o) 1 := by
    ext i; simp [W, Pi.single_apply, eq_comm]
  have hD : d.W o ⬝ᵥ (d.blocksFull.D *ᵥ d.W o) = d.W o ⬝ᵥ (d.trueD *ᵥ d.W o) := by
    rw [hWrow]; simp [blocksFull_D]
  have hquad : (d.X * (nmat d.X d.Dp)⁻¹ * d.Xᵀ) o o = d.X o ⬝ᵥ ((nmat d.X d.Dp)⁻¹ *ᵥ d.X o) := by
    rw [Matrix.mul_assoc, mul_apply]
    refine Finset.sum_congr rfl fun k _ => ?_
    rw [mul_apply]; rfl
  rw [hat_apply, hquad, d.nmat_inv hv hu, X_row, fromBlocks_mulVec]
  simp only [Sum.elim_comp_inl, Sum.elim_comp_inr, sumElim_dotProduct_sumElim, dotProduct_add]
  rw [computePii, hsJ, hsW, ← hD]
  simp only [mulVec_smul, dotProduct_smul, smul_dotProduct, smul_eq_mul]
  linear_combination (d.J o ⬝ᵥ d.blocksFull.A *ᵥ d.J o + d.J o ⬝ᵥ d.blocksFull.B *ᵥ d.W o
    + d.W o ⬝ᵥ d.blocksFull.C *ᵥ d.J o + d.W o ⬝ᵥ d.blocksFull.D *ᵥ d.W o) * hsq

end Pytwoway.FE
