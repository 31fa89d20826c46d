import Verif.Precond.Simple
import Verif.FE.Props
import Verif.FEControl.Model
import Mathlib.Analysis.Matrix.Order
import Mathlib.Tactic.NormNum
import Mathlib.Tactic.FinCases

/-! # Jacobi and V-cycle preconditioners of the estimators' matrices: C52 -/

namespace Pytwoway.Precond

open Matrix
open scoped BigOperators

section Plain

variable {n m nw : ℕ} (d : FE.Panel n m nw)

open Pytwoway.FE

theorem Minv_posDef (hv : d.Valid) (hc : d.Connected) : d.Minv.PosDef := by
  have hu := d.Minv_unit hv (d.nmat_unit hv hc)
  have hDw : (diagonal d.Dw).PosDef := posDef_diagonal_iff.mpr fun i => d.Dw_pos hv i
  have hinv : diagonal d.Dwinv * diagonal d.Dw = 1 := by
    rw [← d.Dw_mul_Dwinv hv, diagonal_mul_diagonal, diagonal_mul_diagonal]
    congr 1; ext; ring
  letI : Invertible (diagonal d.Dw) := ⟨diagonal d.Dwinv, hinv, d.Dw_mul_Dwinv hv⟩
  have hN : (nmat d.X d.Dp).PosSemidef := by
    rw [nmat_sqrt _ _ fun o => (hv.wpos o).le, ← conjTranspose_eq_transpose_of_trivial]
    exact posSemidef_conjTranspose_mul_self _
  rw [Panel.nmat_blocks] at hN
  have h := (PosDef.fromBlocks₂₂ (d.Jᵀ * d.DpJ) d.WtDpJᵀ hDw).mp (by
    rwa [conjTranspose_eq_transpose_of_trivial, transpose_transpose])
  rw [conjTranspose_eq_transpose_of_trivial, transpose_transpose, inv_eq_left_inv hinv, ← Panel.Minv_eq] at h
  exact (h.posDef_iff_isUnit).mpr ((isUnit_iff_isUnit_det _).mpr hu)

theorem WtDpJ_eq (i : Fin nw) (k : Fin m) : d.WtDpJ i k = ∑ o, d.W o i * (d.Dp o * d.J o k) := rfl

theorem J_zero_or_one (o : Fin n) (k : Fin m) : d.J o k = 0 ∨ d.J o k = 1 := by
  unfold Panel.J Panel.Jfull
  simp only [of_apply]
  split
  · exact Or.inr rfl
  · exact Or.inl rfl

theorem J_nonneg (o : Fin n) (k : Fin m) : 0 ≤ d.J o k := by
  rcases J_zero_or_one d o k with h | h <;> rw [h]
  exact zero_le_one

theorem W_nonneg (o : Fin n) (i : Fin nw) : 0 ≤ d.W o i := by
  unfold Panel.W
  simp only [of_apply]
  split
  · exact zero_le_one
  · exact le_rfl

theorem WtDpJ_nonneg (hv : d.Valid) (i : Fin nw) (k : Fin m) : 0 ≤ d.WtDpJ i k := by
  rw [WtDpJ_eq]
  exact Finset.sum_nonneg fun o _ => mul_nonneg (W_nonneg d o i) (mul_nonneg (hv.wpos o).le (J_nonneg d o k))

theorem Dwinv_nonneg (hv : d.Valid) (i : Fin nw) : 0 ≤ d.Dwinv i := by
  rw [Panel.Dwinv_eq]
  exact one_div_nonneg.mpr (d.Dw_pos hv i).le

theorem Minv_entry (k l : Fin m) : d.Minv k l =
    ∑ o, d.J o k * (d.Dp o * d.J o l) - ∑ i, d.WtDpJ i k * (d.Dwinv i * d.WtDpJ i l) := by
  rw [Panel.Minv, Matrix.sub_apply, Matrix.mul_apply, Matrix.mul_apply]
  rfl

theorem Minv_off (hv : d.Valid) {k l : Fin m} (hkl : k ≠ l) : d.Minv k l ≤ 0 := by
  rw [Minv_entry]
  have h0 : ∑ o, d.J o k * (d.Dp o * d.J o l) = 0 := by
    refine Finset.sum_eq_zero fun o _ => ?_
    unfold Panel.J Panel.Jfull
    simp only [of_apply]
    by_cases h : d.j o = k.succ
    · have : d.j o ≠ l.succ := fun h' => hkl (Fin.succ_injective _ (h.symm.trans h'))
      rw [if_neg this, mul_zero, mul_zero]
    · rw [if_neg h, zero_mul]
  rw [h0, zero_sub, neg_nonpos]
  exact Finset.sum_nonneg fun i _ => mul_nonneg (WtDpJ_nonneg d hv i k)
    (mul_nonneg (Dwinv_nonneg d hv i) (WtDpJ_nonneg d hv i l))

theorem J_row (o : Fin n) : ∑ l, d.J o l ≤ 1 := by
  unfold Panel.J Panel.Jfull
  simp only [of_apply]
  refine Fin.cases ?_ (fun k => ?_) (d.j o)
  · simp [(Fin.succ_ne_zero _).symm]
  · simp [Fin.succ_inj]

theorem J_row_one (o : Fin n) (k : Fin m) (h : d.J o k ≠ 0) : ∑ l, d.J o l = 1 := by
  unfold Panel.J Panel.Jfull at h ⊢
  simp only [of_apply] at h ⊢
  have hk : d.j o = k.succ := by
    by_contra hk
    rw [if_neg hk] at h
    exact h rfl
  rw [hk]
  simp [Fin.succ_inj]

theorem Minv_row (hv : d.Valid) (k : Fin m) : 0 ≤ ∑ l, d.Minv k l := by
  simp only [Minv_entry]
  rw [Finset.sum_sub_distrib, Finset.sum_comm]
  have e0 : ∑ l, ∑ i, d.WtDpJ i k * (d.Dwinv i * d.WtDpJ i l) = ∑ i, ∑ l, d.WtDpJ i k * (d.Dwinv i * d.WtDpJ i l) :=
    Finset.sum_comm
  rw [e0]
  have e1 : ∑ o, ∑ l, d.J o k * (d.Dp o * d.J o l) = ∑ o, d.Dp o * d.J o k := by
    refine Finset.sum_congr rfl fun o _ => ?_
    rw [← Finset.mul_sum, ← Finset.mul_sum]
    by_cases h : d.J o k = 0
    · rw [h, zero_mul, mul_zero]
    · rw [J_row_one d o k h]
      ring
  have e2 : ∑ i, d.WtDpJ i k = ∑ o, d.Dp o * d.J o k := by
    simp only [WtDpJ_eq]
    rw [Finset.sum_comm]
    refine Finset.sum_congr rfl fun o _ => ?_
    rw [← Finset.sum_mul]
    have : ∑ i, d.W o i = 1 := by simp [Panel.W]
    rw [this, one_mul]
  have e3 : ∀ i, ∑ l, d.WtDpJ i l ≤ d.Dw i := by
    intro i
    simp only [WtDpJ_eq]
    rw [Finset.sum_comm, Panel.Dw, Finset.sum_filter]
    refine Finset.sum_le_sum fun o _ => ?_
    rw [← Finset.mul_sum, ← Finset.mul_sum]
    unfold Panel.W
    simp only [of_apply]
    have := mul_le_mul_of_nonneg_left (J_row d o) (hv.wpos o).le
    split
    · linarith
    · rw [zero_mul]
  rw [e1, ← e2, sub_nonneg]
  refine Finset.sum_le_sum fun i _ => ?_
  rw [← Finset.mul_sum, ← Finset.mul_sum]
  refine mul_le_of_le_one_right (WtDpJ_nonneg d hv i k) ?_
  calc d.Dwinv i * ∑ l, d.WtDpJ i l ≤ d.Dwinv i * d.Dw i := mul_le_mul_of_nonneg_left (e3 i) (Dwinv_nonneg d hv i)
    _ = 1 := by rw [Panel.Dwinv_eq, one_div, inv_mul_cancel₀ (d.Dw_pos hv i).ne']

theorem Minv_dominant (hv : d.Valid) (k : Fin m) : ∑ l ∈ Finset.univ.erase k, |d.Minv k l| ≤ d.Minv k k := by
  have h := Minv_row d hv k
  rw [← Finset.add_sum_erase _ _ (Finset.mem_univ k)] at h
  have e : ∑ l ∈ Finset.univ.erase k, |d.Minv k l| = -∑ l ∈ Finset.univ.erase k, d.Minv k l := by
    rw [← Finset.sum_neg_distrib]
    refine Finset.sum_congr rfl fun l hl => ?_
    exact abs_of_nonpos (Minv_off d hv (Finset.ne_of_mem_erase hl).symm)
  linarith

/-- C52: on connected data with positive weights the Jacobi preconditioner of the two-way estimator is linear,
symmetric and positive definite. -/
theorem C52_fe_jacobi (hv : d.Valid) (hc : d.Connected) : SPD (jacobi d.Minv) := C52_jacobi_spd _ (Minv_posDef d hv hc)

/-- The estimator's matrix as `pcd.vcycle` receives it, with shape `(Minv.shape[0], 1)`, fe.py:528. -/
noncomputable def column (A : Matrix (Fin m) (Fin m) ℝ) : Matrix (Fin (m * 1)) (Fin (m * 1)) ℝ :=
  A.submatrix (Fin.cast (mul_one m)) (Fin.cast (mul_one m))

theorem convergent_column (A : Matrix (Fin m) (Fin m) ℝ) (omega : ℝ) (hd : ∀ i, 0 < A i i)
    (h : ((diagonal fun i => 2 * A i i) - omega • A).PosDef) : Convergent omega 0 m 1 (column A) := by
  unfold Convergent
  split
  · rename_i h0
    have : IsEmpty (Fin (m * 1)) := ⟨fun i => by have := i.isLt; omega⟩
    exact PosDef.of_dotProduct_mulVec_pos (Subsingleton.elim _ _) fun x hx => absurd (Subsingleton.elim x 0) hx
  · refine ⟨fun i => hd _, ?_, ?_⟩
    · have e : ((diagonal fun i => 2 * column A i i) - omega • column A) =
          ((diagonal fun i => 2 * A i i) - omega • A).submatrix (finCongr (mul_one m)) (finCongr (mul_one m)) := by
        ext i j
        simp only [column, Matrix.sub_apply, Matrix.smul_apply, submatrix_apply, diagonal_apply, finCongr_apply,
          Fin.cast_inj]
      rw [e]
      exact h.submatrix (finCongr (mul_one m)).injective
    · unfold Convergent
      rw [dif_pos (by simp)]
      have : IsEmpty (Fin (m / 2 * (1 / 2))) := ⟨fun i => by have := i.isLt; simp at this⟩
      exact PosDef.of_dotProduct_mulVec_pos (Subsingleton.elim _ _) fun x hx => absurd (Subsingleton.elim x 0) hx

/-- C52: on connected data with positive weights the V-cycle preconditioner of the two-way estimator, built as in
fe.py:523-528 with any equal positive numbers of smoothing steps and any damping below one (the default is 0.8), is
linear, symmetric and positive definite. -/
theorem C52_fe_vcycle (spsolve : ∀ n, Matrix (Fin n) (Fin n) ℝ → (Fin n → ℝ) → Fin n → ℝ) (hs : RightSolve spsolve)
    (hv : d.Valid) (hc : d.Connected) (p : ℕ) (omega : ℝ) (ho : 0 < omega) (ho1 : omega < 1) :
    SPD (vstep spsolve (p + 1) (p + 1) omega 0 m 1 (column d.Minv)) := by
  have hd : ∀ i, 0 < d.Minv i i := fun i => (Minv_posDef d hv hc).diag_pos
  refine C52_vcycle_spd spsolve hs p omega ho 0 _ m 1 rfl _ ?_ (convergent_column d.Minv omega hd
    (dominant_posDef d.Minv omega d.Minv_symm hd (Minv_dominant d hv) ho ho1))
  rw [column, transpose_submatrix, d.Minv_symm]

example : SPD (jacobi ex.Minv) := C52_fe_jacobi ex ex_valid ex_connected

/-- A direct solver that is right exists. -/
theorem rightSolve_inv : RightSolve fun _ A b => A⁻¹ *ᵥ b := fun _ _ _ _ => rfl

example : SPD (vstep (fun _ A b => A⁻¹ *ᵥ b) 1 1 (4 / 5) 0 2 1 (column ex.Minv)) :=
  C52_fe_vcycle ex _ rightSolve_inv ex_valid ex_connected 0 (4 / 5) (by norm_num) (by norm_num)

end Plain

/-! ## With controls -/

open Pytwoway.FEControl

/-- Two firms, one worker, one categorical control with two values; ten rows. -/
def conEx : CData 10 1 1 where
  j := ![1, 1, 1, 1, 1, 1, 1, 1, 0, 1]
  i := fun _ => 0
  y := fun _ => 0
  weighted := false
  w := fun _ => 1
  cats := [⟨"c", 1, ![1, 1, 1, 1, 1, 1, 1, 1, 1, 0]⟩]
  cts := []

/-- The matrix of the normal equations of `conEx`. -/
def conMat : Matrix (Fin 3) (Fin 3) ℝ := !![9, 9, 8; 9, 10, 9; 8, 9, 9]

theorem conMat_eq (x y z : ℝ) : conEx.AtDpA [x, y, z] = List.ofFn (conMat *ᵥ ![x, y, z]) := by
  simp [CData.AtDpA, CData.multAT, CData.multA, CData.A, conEx, indicators, CData.Dp, Fin.sum_univ_succ, List.ofFn_succ,
    conMat]
  refine ⟨?_, ?_, ?_⟩ <;> ring

theorem conMat_posDef : conMat.PosDef := by
  refine PosDef.of_dotProduct_mulVec_pos ?_ ?_
  · rw [IsHermitian, conjTranspose_eq_transpose_of_trivial]
    ext i j
    fin_cases i <;> fin_cases j <;> rfl
  · intro x hx
    have hq : star x ⬝ᵥ conMat *ᵥ x = 8 * (x 0 + x 1 + x 2) ^ 2 + (x 1 + x 2) ^ 2 + (x 0 + x 1) ^ 2 := by
      simp [Matrix.mulVec, dotProduct, Fin.sum_univ_succ, conMat]
      ring
    rw [hq]
    by_contra hn
    have h1 := sq_nonneg (x 0 + x 1 + x 2)
    have h2 := sq_nonneg (x 1 + x 2)
    have h3 := sq_nonneg (x 0 + x 1)
    have e1 : x 0 + x 1 + x 2 = 0 := by
      rw [← sq_eq_zero_iff]; linarith
    have e2 : x 1 + x 2 = 0 := by
      rw [← sq_eq_zero_iff]; linarith
    have e3 : x 0 + x 1 = 0 := by
      rw [← sq_eq_zero_iff]; linarith
    apply hx
    funext i
    fin_cases i
    · change x 0 = 0
      linarith
    · change x 1 = 0
      linarith
    · change x 2 = 0
      linarith

/-- C52 fails for the control-variable estimator: with firm effects, worker effects and one categorical control its
matrix can be positive definite while the V-cycle preconditioner, with its default settings, is not: `b . M b < 0`. -/
theorem C52_controls_vcycle_indefinite : conMat.PosDef ∧
    (∀ x y z : ℝ, conEx.AtDpA [x, y, z] = List.ofFn (conMat *ᵥ ![x, y, z])) ∧
    ∀ spsolve : ∀ n, Matrix (Fin n) (Fin n) ℝ → (Fin n → ℝ) → Fin n → ℝ,
      ¬ SPD (vstep spsolve 1 1 (4 / 5) 0 3 1 (column conMat)) := by
  refine ⟨conMat_posDef, conMat_eq, ?_⟩
  rintro spsolve ⟨M, hM, hMb⟩
  have hb : (![9, 10, 9] : Fin 3 → ℝ) ≠ 0 := fun h => by simpa using congrFun h 0
  have h := hM.dotProduct_mulVec_pos (x := (![9, 10, 9] : Fin 3 → ℝ)) hb
  rw [← hMb] at h
  have e : vstep spsolve 1 1 (4 / 5) 0 3 1 (column conMat) ![9, 10, 9] = fun i =>
      smooth conMat (4 / 5) ![9, 10, 9] 1 (fun i => 4 / 5 * (![9, 10, 9] : Fin 3 → ℝ) i / conMat i i) i := by
    unfold vstep
    rw [dif_neg (by norm_num)]
    have hz : ∀ z, (downsample 3 1)ᵀ *ᵥ z = 0 := by
      intro z
      funext i
      have : IsEmpty (Fin (3 / 2 * (1 / 2))) := ⟨fun j => by have := j.isLt; simp at this⟩
      simp only [mulVec, dotProduct, Finset.univ_eq_empty, Finset.sum_empty, Pi.zero_apply]
    simp only [jacobiStep, smooth, hz, add_zero]
    rfl
  rw [e] at h
  simp [smooth, dotProduct, Fin.sum_univ_succ, conMat, Matrix.mulVec] at h
  norm_num at h

end Pytwoway.Precond
