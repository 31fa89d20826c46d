import Verif.FE.Model
import Verif.Util.Props2
import Mathlib.LinearAlgebra.Matrix.Rank
import Mathlib.LinearAlgebra.Matrix.SchurComplement
import Mathlib.LinearAlgebra.Matrix.DotProduct

/-! # Helper lemmas for the fixed-effects estimator -/

namespace Pytwoway.FE

open Matrix Pytwoway.Util
open scoped BigOperators

/-! ## Weighted least squares with a general design -/

section WLS

variable {ι κ : Type*} [Fintype ι] [Fintype κ] [DecidableEq ι] [DecidableEq κ]

/-- Weighted normal matrix. -/
def nmat (X : Matrix ι κ ℝ) (w : ι → ℝ) : Matrix κ κ ℝ := Xᵀ * diagonal w * X

theorem nmat_sqrt (X : Matrix ι κ ℝ) (w : ι → ℝ) (hw : ∀ o, 0 ≤ w o) :
    nmat X w = (diagonal (fun o => Real.sqrt (w o)) * X)ᵀ * (diagonal (fun o => Real.sqrt (w o)) * X) := by
  rw [transpose_mul, diagonal_transpose, Matrix.mul_assoc, ← Matrix.mul_assoc (diagonal _) (diagonal _),
    diagonal_mul_diagonal, nmat, Matrix.mul_assoc]
  congr 3; ext o; rw [Real.mul_self_sqrt (hw o)]

/-- The normal equations always have a solution. -/
theorem normal_consistent (X : Matrix ι κ ℝ) (w : ι → ℝ) (hw : ∀ o, 0 ≤ w o) (v : ι → ℝ) :
    ∃ t, nmat X w *ᵥ t = Xᵀ *ᵥ (fun o => w o * v o) := by
  set Z := diagonal (fun o => Real.sqrt (w o)) * X with hZ
  have hle : LinearMap.range (Zᵀ * Z).mulVecLin ≤ LinearMap.range Zᵀ.mulVecLin := by
    rintro _ ⟨x, rfl⟩
    exact ⟨Z *ᵥ x, by simp [mulVec_mulVec]⟩
  have heq := Submodule.eq_of_le_of_finrank_eq hle (by
    have h1 : (Zᵀ * Z).rank = Zᵀ.rank := by rw [rank_transpose_mul_self, rank_transpose]
    exact h1)
  have hmem : Xᵀ *ᵥ (fun o => w o * v o) ∈ LinearMap.range Zᵀ.mulVecLin := by
    refine ⟨fun o => Real.sqrt (w o) * v o, ?_⟩
    rw [mulVecLin_apply, hZ, transpose_mul, diagonal_transpose, ← mulVec_mulVec]
    congr 1; ext o
    rw [mulVec_diagonal, ← mul_assoc, Real.mul_self_sqrt (hw o)]
  rw [← heq] at hmem
  obtain ⟨t, ht⟩ := hmem
  exact ⟨t, by rw [nmat_sqrt X w hw]; exact ht⟩

/-- Pythagoras for a solution of the normal equations. -/
theorem normal_pyth (X : Matrix ι κ ℝ) (w y : ι → ℝ) (t t' : κ → ℝ)
    (ht : nmat X w *ᵥ t = Xᵀ *ᵥ (fun o => w o * y o)) :
    ∑ o, w o * (y o - (X *ᵥ t') o) ^ 2 = ∑ o, w o * (y o - (X *ᵥ t) o) ^ 2
      + ∑ o, w o * ((X *ᵥ (t - t')) o) ^ 2 := by
  have h0 : Xᵀ *ᵥ (fun o => w o * (y o - (X *ᵥ t) o)) = 0 := by
    have : (fun o => w o * (y o - (X *ᵥ t) o)) = (fun o => w o * y o) - diagonal w *ᵥ (X *ᵥ t) := by
      ext o; rw [Pi.sub_apply, mulVec_diagonal]; ring
    rw [this, mulVec_sub, ← ht, mulVec_mulVec, mulVec_mulVec, nmat, sub_self]
  have hc : ∑ o, w o * (y o - (X *ᵥ t) o) * (X *ᵥ (t - t')) o = 0 := by
    have : (fun o => w o * (y o - (X *ᵥ t) o)) ⬝ᵥ (X *ᵥ (t - t')) = 0 := by
      rw [dotProduct_mulVec, ← mulVec_transpose, h0, zero_dotProduct]
    exact this
  have hexp : ∑ o, w o * (y o - (X *ᵥ t') o) ^ 2 = ∑ o, w o * (y o - (X *ᵥ t) o) ^ 2
      + 2 * ∑ o, w o * (y o - (X *ᵥ t) o) * (X *ᵥ (t - t')) o + ∑ o, w o * ((X *ᵥ (t - t')) o) ^ 2 := by
    rw [Finset.mul_sum, ← Finset.sum_add_distrib, ← Finset.sum_add_distrib]
    refine Finset.sum_congr rfl fun o _ => ?_
    rw [mulVec_sub, Pi.sub_apply]; ring
  rw [hexp, hc, mul_zero, add_zero]

/-- A solution of the normal equations minimises the weighted sum of squares. -/
theorem normal_optimal (X : Matrix ι κ ℝ) (w y : ι → ℝ) (hw : ∀ o, 0 ≤ w o) (t t' : κ → ℝ)
    (ht : nmat X w *ᵥ t = Xᵀ *ᵥ (fun o => w o * y o)) :
    ∑ o, w o * (y o - (X *ᵥ t) o) ^ 2 ≤ ∑ o, w o * (y o - (X *ᵥ t') o) ^ 2 := by
  rw [normal_pyth X w y t t' ht]
  have : 0 ≤ ∑ o, w o * ((X *ᵥ (t - t')) o) ^ 2 :=
    Finset.sum_nonneg fun o _ => mul_nonneg (hw o) (sq_nonneg _)
  linarith

/-- A design with independent columns has an invertible normal matrix. -/
theorem nmat_isUnit (X : Matrix ι κ ℝ) (w : ι → ℝ) (hw : ∀ o, 0 < w o)
    (hX : ∀ t, X *ᵥ t = 0 → t = 0) : IsUnit (nmat X w).det := by
  rw [← isUnit_iff_isUnit_det, ← mulVec_injective_iff_isUnit]
  intro a b hab
  have h : nmat X w *ᵥ (a - b) = 0 := by rw [mulVec_sub]; exact sub_eq_zero.mpr hab
  have h1 : ∑ o, w o * ((X *ᵥ (a - b)) o) ^ 2 = 0 := by
    have : (a - b) ⬝ᵥ (nmat X w *ᵥ (a - b)) = 0 := by rw [h, dotProduct_zero]
    rw [nmat, Matrix.mul_assoc, ← mulVec_mulVec, dotProduct_mulVec, vecMul_transpose, ← mulVec_mulVec] at this
    rw [← this, dotProduct]
    refine Finset.sum_congr rfl fun o _ => ?_
    rw [mulVec_diagonal]; ring
  have h2 : X *ᵥ (a - b) = 0 := by
    ext o
    have := (Finset.sum_eq_zero_iff_of_nonneg (fun o _ => mul_nonneg (hw o).le (sq_nonneg _))).mp h1 o (Finset.mem_univ o)
    have := (mul_eq_zero.mp this).resolve_left (hw o).ne'
    simpa using this
  exact sub_eq_zero.mp (hX _ h2)

/-- Hat matrix of a design with full column rank: `H = X (X'DX)⁻¹ X' D`. -/
noncomputable def hat (X : Matrix ι κ ℝ) (w : ι → ℝ) : Matrix ι ι ℝ :=
  X * (nmat X w)⁻¹ * Xᵀ * diagonal w

theorem nmat_symm (X : Matrix ι κ ℝ) (w : ι → ℝ) : (nmat X w)ᵀ = nmat X w := by
  simp [nmat, transpose_mul, Matrix.mul_assoc]

theorem nmat_inv_symm (X : Matrix ι κ ℝ) (w : ι → ℝ) : ((nmat X w)⁻¹)ᵀ = (nmat X w)⁻¹ := by
  rw [transpose_nonsing_inv, nmat_symm]

theorem hat_mul_X (X : Matrix ι κ ℝ) (w : ι → ℝ) (h : IsUnit (nmat X w).det) : hat X w * X = X := by
  rw [hat, Matrix.mul_assoc, Matrix.mul_assoc, ← Matrix.mul_assoc Xᵀ, Matrix.mul_assoc X]
  change X * ((nmat X w)⁻¹ * nmat X w) = X
  rw [nonsing_inv_mul _ h, Matrix.mul_one]

theorem hat_idem (X : Matrix ι κ ℝ) (w : ι → ℝ) (h : IsUnit (nmat X w).det) :
    hat X w * hat X w = hat X w := by
  have : hat X w * (X * ((nmat X w)⁻¹ * Xᵀ * diagonal w)) = X * ((nmat X w)⁻¹ * Xᵀ * diagonal w) := by
    rw [← Matrix.mul_assoc, hat_mul_X X w h]
  have h2 : X * ((nmat X w)⁻¹ * Xᵀ * diagonal w) = hat X w := by simp only [hat, Matrix.mul_assoc]
  rwa [h2] at this

/-- `H = G D` with `G` symmetric. -/
theorem hat_apply (X : Matrix ι κ ℝ) (w : ι → ℝ) (a b : ι) :
    hat X w a b = (X * (nmat X w)⁻¹ * Xᵀ) a b * w b := by
  rw [hat, mul_diagonal]

theorem gmat_symm (X : Matrix ι κ ℝ) (w : ι → ℝ) (a b : ι) :
    (X * (nmat X w)⁻¹ * Xᵀ) a b = (X * (nmat X w)⁻¹ * Xᵀ) b a := by
  have : (X * (nmat X w)⁻¹ * Xᵀ)ᵀ = X * (nmat X w)⁻¹ * Xᵀ := by
    simp [transpose_mul, nmat_inv_symm, Matrix.mul_assoc]
  conv_lhs => rw [← this]
  rfl

/-- Leverages lie in `[0, 1]`. -/
theorem hat_diag_mem (X : Matrix ι κ ℝ) (w : ι → ℝ) (hw : ∀ o, 0 < w o) (h : IsUnit (nmat X w).det)
    (o : ι) : 0 ≤ hat X w o o ∧ hat X w o o ≤ 1 := by
  have hi : hat X w o o = ∑ b, hat X w o b * hat X w b o := by
    conv_lhs => rw [← hat_idem X w h]
    rw [mul_apply]
  set G := X * (nmat X w)⁻¹ * Xᵀ with hG
  have hsum : hat X w o o = w o * ∑ b, w b * G o b ^ 2 := by
    rw [hi, Finset.mul_sum]
    refine Finset.sum_congr rfl fun b _ => ?_
    rw [hat_apply, hat_apply, gmat_symm X w b o, ← hG]; ring
  have hge : w o * (w o * G o o ^ 2) ≤ hat X w o o := by
    rw [hsum]
    refine mul_le_mul_of_nonneg_left ?_ (hw o).le
    exact Finset.single_le_sum (f := fun b => w b * G o b ^ 2)
      (fun b _ => mul_nonneg (hw b).le (sq_nonneg _)) (Finset.mem_univ o)
  have h0 : 0 ≤ hat X w o o := by
    rw [hsum]
    exact mul_nonneg (hw o).le (Finset.sum_nonneg fun b _ => mul_nonneg (hw b).le (sq_nonneg _))
  refine ⟨h0, ?_⟩
  have h2 : hat X w o o ^ 2 ≤ hat X w o o := by
    calc hat X w o o ^ 2 = w o * (w o * G o o ^ 2) := by rw [hat_apply, ← hG]; ring
      _ ≤ _ := hge
  nlinarith

theorem hat_trace (X : Matrix ι κ ℝ) (w : ι → ℝ) (h : IsUnit (nmat X w).det) :
    ∑ o, hat X w o o = Fintype.card κ := by
  change (hat X w).trace = _
  rw [hat, Matrix.mul_assoc, Matrix.mul_assoc, trace_mul_comm, Matrix.mul_assoc]
  change ((nmat X w)⁻¹ * nmat X w).trace = _
  rw [nonsing_inv_mul _ h, trace_one]

end WLS

/-! ## The panel design -/

section Design

variable {n m nw : ℕ} (d : Panel n m nw)

/-- What `FEEstimator` needs of its input: positive weights, and worker ids `0..nw-1` all in use
(bipartitepandas guarantees contiguous ids). -/
structure Panel.Valid : Prop where
  wpos : ∀ o, 0 < d.Dp o
  seen : ∀ i, ∃ o, d.i o = i

/-- Stacked design `A = [J W]`. -/
def Panel.X : Matrix (Fin n) (Fin m ⊕ Fin nw) ℝ := fromCols d.J d.W

/-- Total weight of a worker. -/
def Panel.Dw (i : Fin nw) : ℝ := ∑ o with d.i o = i, d.Dp o

theorem Panel.Dw_pos (h : d.Valid) (i : Fin nw) : 0 < d.Dw i := by
  obtain ⟨o, ho⟩ := h.seen i
  exact Finset.sum_pos (fun o _ => h.wpos o) ⟨o, by simp [ho]⟩

theorem Panel.Dwinv_eq (i : Fin nw) : d.Dwinv i = 1 / d.Dw i := by
  rw [Panel.Dwinv, C05_diag_of_prod]
  congr 1
  simp only [mul_apply, transpose_apply, Panel.W, Panel.DpWm, of_apply, Panel.Dw, Finset.sum_filter]
  refine Finset.sum_congr rfl fun o _ => ?_
  split <;> simp

theorem Panel.J_mulVec (psi : Fin m → ℝ) (o : Fin n) : (d.J *ᵥ psi) o = Panel.withZero psi (d.j o) := by
  simp only [mulVec, dotProduct, Panel.J, Panel.Jfull, of_apply, Panel.withZero]
  refine Fin.cases ?_ (fun k => ?_) (d.j o)
  · simp [Fin.succ_ne_zero, eq_comm]
  · simp [Fin.succ_inj]

theorem Panel.W_mulVec (alpha : Fin nw → ℝ) (o : Fin n) : (d.W *ᵥ alpha) o = alpha (d.i o) := by
  simp [mulVec, dotProduct, Panel.W]

theorem Panel.X_mulVec (psi : Fin m → ℝ) (alpha : Fin nw → ℝ) (o : Fin n) :
    (d.X *ᵥ Sum.elim psi alpha) o = Panel.withZero psi (d.j o) + alpha (d.i o) := by
  rw [Panel.X, fromCols_mulVec, Pi.add_apply]
  simp only [Sum.elim_comp_inl, Sum.elim_comp_inr]
  rw [J_mulVec, W_mulVec]

theorem Panel.DpJ_eq : d.DpJ = diagonal d.Dp * d.J := by ext; simp [Panel.DpJ]
theorem Panel.DpWm_eq : d.DpWm = diagonal d.Dp * d.W := by ext; simp [Panel.DpWm]
theorem Panel.sqrtDpJ_eq : d.sqrtDpJ = diagonal (fun o => Real.sqrt (d.Dp o)) * d.J := by
  ext; simp [Panel.sqrtDpJ]
theorem Panel.sqrtDpW_eq : d.sqrtDpW = diagonal (fun o => Real.sqrt (d.Dp o)) * d.W := by
  ext; simp [Panel.sqrtDpW]
theorem Panel.DwinvWtDpJ_eq : d.DwinvWtDpJ = diagonal d.Dwinv * d.WtDpJ := by
  ext; simp [Panel.DwinvWtDpJ]

theorem Panel.WtDW : d.Wᵀ * d.DpWm = diagonal d.Dw := by
  ext a b
  simp only [mul_apply, transpose_apply, Panel.W, Panel.DpWm, of_apply, diagonal_apply, Panel.Dw,
    Finset.sum_filter]
  split
  · rename_i h; subst h
    refine Finset.sum_congr rfl fun o _ => ?_
    split <;> simp
  · rename_i h
    refine Finset.sum_eq_zero fun o _ => ?_
    by_cases h1 : d.i o = a
    · have : d.i o ≠ b := by rw [h1]; exact h
      simp [h1, h]
    · simp [h1]

/-- The normal matrix in blocks. -/
theorem Panel.nmat_blocks : nmat d.X d.Dp
    = fromBlocks (d.Jᵀ * d.DpJ) d.WtDpJᵀ d.WtDpJ (diagonal d.Dw) := by
  have : (diagonal d.Dp * d.X) = fromCols d.DpJ d.DpWm := by
    rw [Panel.X, mul_fromCols, DpJ_eq, DpWm_eq]
  rw [nmat, Matrix.mul_assoc, this, Panel.X, transpose_fromCols, fromRows_mul_fromCols, ← WtDW]
  congr 1
  rw [WtDpJ, DpJ_eq, DpWm_eq, transpose_mul, transpose_mul, diagonal_transpose, transpose_transpose,
    Matrix.mul_assoc]

/-- `_mult_AAinv` inverts the normal matrix wherever the linear solver does its job. -/
theorem Panel.multAAinv_spec (h : d.Valid) (solve : (Fin m → ℝ) → (Fin m → ℝ))
    (p : Fin m → ℝ) (a : Fin nw → ℝ)
    (hs : d.Minv *ᵥ solve (p - d.DwinvWtDpJᵀ *ᵥ a) = p - d.DwinvWtDpJᵀ *ᵥ a) :
    nmat d.X d.Dp *ᵥ Sum.elim (d.multAAinv solve (p, a)).1 (d.multAAinv solve (p, a)).2
      = Sum.elim p a := by
  set q := solve (p - d.DwinvWtDpJᵀ *ᵥ a) with hq
  have h2 : (d.multAAinv solve (p, a)).2 = diagonal d.Dwinv *ᵥ a - d.DwinvWtDpJ *ᵥ q := by
    ext i; simp [Panel.multAAinv, mulVec_diagonal, ← hq]
  have h1 : (d.multAAinv solve (p, a)).1 = q := rfl
  have hD : diagonal d.Dw * diagonal d.Dwinv = 1 := by
    rw [diagonal_mul_diagonal, ← diagonal_one]
    congr 1; ext i
    rw [Dwinv_eq, mul_one_div, div_self (d.Dw_pos h i).ne']
  have hT : d.DwinvWtDpJᵀ = d.WtDpJᵀ * diagonal d.Dwinv := by
    rw [DwinvWtDpJ_eq, transpose_mul, diagonal_transpose]
  rw [nmat_blocks, fromBlocks_mulVec, h1, h2]
  simp only [Sum.elim_comp_inl, Sum.elim_comp_inr, mulVec_sub]
  congr 1
  · rw [mulVec_mulVec, ← hT]
    have : d.Minv *ᵥ q = (d.Jᵀ * d.DpJ) *ᵥ q - d.WtDpJᵀ *ᵥ (d.DwinvWtDpJ *ᵥ q) := by
      rw [Minv, sub_mulVec, mulVec_mulVec]
    rw [this] at hs
    have h3 : (d.Jᵀ * d.DpJ) *ᵥ q
        = (p - d.DwinvWtDpJᵀ *ᵥ a) + d.WtDpJᵀ *ᵥ (d.DwinvWtDpJ *ᵥ q) := sub_eq_iff_eq_add.mp hs
    rw [h3]; abel
  · rw [mulVec_mulVec, hD, one_mulVec, DwinvWtDpJ_eq, mulVec_mulVec, ← Matrix.mul_assoc, hD, Matrix.one_mul]
    abel

/-- If the normal equations have a solution then so does the reduced system passed to the solver. -/
theorem Panel.reduced_consistent (h : d.Valid) (p : Fin m → ℝ) (a : Fin nw → ℝ)
    (t : Fin m ⊕ Fin nw → ℝ) (ht : nmat d.X d.Dp *ᵥ t = Sum.elim p a) :
    d.Minv *ᵥ (t ∘ Sum.inl) = p - d.DwinvWtDpJᵀ *ᵥ a := by
  rw [nmat_blocks, fromBlocks_mulVec] at ht
  have e1 : (d.Jᵀ * d.DpJ) *ᵥ (t ∘ Sum.inl) + d.WtDpJᵀ *ᵥ (t ∘ Sum.inr) = p := by
    ext k; simpa using congrFun ht (Sum.inl k)
  have e2 : d.WtDpJ *ᵥ (t ∘ Sum.inl) + diagonal d.Dw *ᵥ (t ∘ Sum.inr) = a := by
    ext k; simpa using congrFun ht (Sum.inr k)
  have hD : diagonal d.Dwinv * diagonal d.Dw = 1 := by
    rw [diagonal_mul_diagonal, ← diagonal_one]
    congr 1; ext i
    rw [Dwinv_eq, one_div_mul_cancel (d.Dw_pos h i).ne']
  rw [← e1, ← e2, Minv, sub_mulVec, mulVec_add, DwinvWtDpJ_eq, transpose_mul, diagonal_transpose,
    mulVec_mulVec, mulVec_mulVec, Matrix.mul_assoc, Matrix.mul_assoc, hD, Matrix.mul_one]
  abel

end Design

end Pytwoway.FE
