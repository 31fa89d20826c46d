import Verif.FE.Inverse
import Mathlib.LinearAlgebra.Matrix.PosDef
import Mathlib.Tactic.Linarith
import Mathlib.Tactic.Ring
import Mathlib.Tactic.NoncommRing

/-! # Jacobi and V-cycle preconditioners (preconditioners/jacobi.py, preconditioners/vcycle.py): C52 -/

namespace Pytwoway.Precond

open Matrix
open scoped BigOperators

/-! ## Specification -/

variable {ι : Type} [Fintype ι] [DecidableEq ι]

/-- The map is linear and symmetric. -/
def SymLinear (f : (ι → ℝ) → ι → ℝ) : Prop := ∃ M : Matrix ι ι ℝ, Mᵀ = M ∧ ∀ x, f x = M *ᵥ x

/-- The map is linear, symmetric and positive definite: what conjugate gradients ask of a preconditioner. -/
def SPD (f : (ι → ℝ) → ι → ℝ) : Prop := ∃ M : Matrix ι ι ℝ, M.PosDef ∧ ∀ x, f x = M *ᵥ x

/-! ## Model -/

open scoped Classical in
/-- `jacobi.__init__`, jacobi.py:27-32: `np.isclose(diagonal, 0)` is `|diagonal| <= 1e-8`. -/
noncomputable def jacobiInv (A : Matrix ι ι ℝ) (i : ι) : ℝ := if |A i i| ≤ 1 / 10 ^ 8 then 1 else 1 / A i i

/-- `jacobi.precondition`, jacobi.py:34-35. -/
noncomputable def jacobi (A : Matrix ι ι ℝ) (x : ι → ℝ) : ι → ℝ := fun i => x i * jacobiInv A i

/-- The loop of `jacobi_step`, vcycle.py:39-40. -/
noncomputable def smooth (A : Matrix ι ι ℝ) (omega : ℝ) (b : ι → ℝ) : ℕ → (ι → ℝ) → ι → ℝ
  | 0, x => x
  | k + 1, x => smooth A omega b k fun i => x i + omega * (b i - (A *ᵥ x) i) / A i i

/-- `jacobi_step`, vcycle.py:31-42, for `x=None` and otherwise. -/
noncomputable def jacobiStep (A : Matrix ι ι ℝ) (omega : ℝ) (b : ι → ℝ) (x : Option (ι → ℝ)) (k : ℕ) : ι → ℝ :=
  match x with
  | some x => smooth A omega b k x
  | none =>
    match k with
    | 0 => 0
    | k + 1 => smooth A omega b k fun i => omega * b i / A i i

/-- Weights and offsets of the nine neighbours, vcycle.py:11, 16-17. -/
noncomputable def weight (k : Fin 9) : ℝ := (![1, 2, 1, 2, 4, 2, 1, 2, 1] k) / 16

/-- Horizontal offset of one of the nine neighbours, vcycle.py:5-28. -/
def dx (k : Fin 9) : ℤ := ![-1, 0, 1, -1, 0, 1, -1, 0, 1] k

/-- Vertical offset of one of the nine neighbours, vcycle.py:5-28. -/
def dy (k : Fin 9) : ℤ := ![-1, -1, -1, 0, 0, 0, 1, 1, 1] k

open scoped Classical in
/-- `downsample` of `make_P`, vcycle.py:5-28: row `x2 + y2 * w2`, column `x + y * w`, within the mask of line 19
(which allows `y = h`; that never happens). -/
noncomputable def downsample (h w : ℕ) : Matrix (Fin (h / 2 * (w / 2))) (Fin (h * w)) ℝ := of fun r c =>
  ∑ k : Fin 9,
    let x : ℤ := ((r.val % (w / 2) : ℕ) : ℤ) * 2 + dx k
    let y : ℤ := ((r.val / (w / 2) : ℕ) : ℤ) * 2 + dy k
    if 0 ≤ x ∧ x < w ∧ 0 ≤ y ∧ y ≤ h ∧ (c.val : ℤ) = x + y * w then weight k else 0

/-- `downsample.dot(A).dot(upsample)`, vcycle.py:66. -/
noncomputable def coarse (h w : ℕ) (A : Matrix (Fin (h * w)) (Fin (h * w)) ℝ) :
    Matrix (Fin (h / 2 * (w / 2))) (Fin (h / 2 * (w / 2))) ℝ :=
  downsample h w * A * (downsample h w)ᵀ

/-- The code's test `y <= height` (preconditioners/vcycle.py:19) admits one row too many, but no pixel of the stencil lies there. -/
theorem downsample_last_row (h w : ℕ) (r : Fin (h / 2 * (w / 2))) (k : Fin 9) :
    ((r.val / (w / 2) : ℕ) : ℤ) * 2 + dy k < h := by
  have h1 : r.val / (w / 2) < h / 2 := Nat.div_lt_of_lt_mul (lt_of_lt_of_eq r.isLt (Nat.mul_comm _ _))
  have h2 : dy k ≤ 1 := by unfold dy; fin_cases k <;> simp
  omega

/-- The value of an image stored row by row at the pixel `(x, y)`; zero outside the image. -/
noncomputable def Spec.pixel {h w : ℕ} (v : Fin (h * w) → ℝ) (x y : ℤ) : ℝ :=
  ∑ c : Fin (h * w), if 0 ≤ x ∧ x < w ∧ 0 ≤ y ∧ y < h ∧ (c.val : ℤ) = y * w + x then v c else 0

/-- C52: down to the coarse grid, a pixel is a weighted sum of the nine pixels around the one with doubled coordinates, with
weight `(2 - |i|) (2 - |j|) / 16` at distance `(i, j)`. -/
theorem C52_downsample (h w : ℕ) (v : Fin (h * w) → ℝ) (r : Fin (h / 2 * (w / 2))) :
    (downsample h w *ᵥ v) r = ∑ j ∈ Finset.Icc (-1 : ℤ) 1, ∑ i ∈ Finset.Icc (-1 : ℤ) 1,
      (2 - |i|) * (2 - |j|) / 16 * Spec.pixel v (2 * (r.val % (w / 2) : ℕ) + i) (2 * (r.val / (w / 2) : ℕ) + j) := by
  have hc : ∀ c : Fin (h * w), downsample h w r c * v c = ∑ k : Fin 9, weight k *
      (if 0 ≤ (2 * (r.val % (w / 2) : ℕ) + dx k : ℤ) ∧ (2 * (r.val % (w / 2) : ℕ) + dx k : ℤ) < w ∧
        0 ≤ (2 * (r.val / (w / 2) : ℕ) + dy k : ℤ) ∧ (2 * (r.val / (w / 2) : ℕ) + dy k : ℤ) < h ∧
        (c.val : ℤ) = (2 * (r.val / (w / 2) : ℕ) + dy k : ℤ) * w + (2 * (r.val % (w / 2) : ℕ) + dx k : ℤ) then v c else 0) := by
    intro c
    rw [downsample, of_apply, Finset.sum_mul]
    refine Finset.sum_congr rfl fun k _ => ?_
    have hl := downsample_last_row h w r k
    dsimp only
    rw [mul_comm (2 : ℤ), mul_comm (2 : ℤ), add_comm (_ * (w : ℤ))]
    have : ∀ a : Prop, ((((r.val / (w / 2) : ℕ) : ℤ) * 2 + dy k ≤ h ∧ a) ↔ (((r.val / (w / 2) : ℕ) : ℤ) * 2 + dy k < h ∧ a)) :=
      fun a => and_congr_left fun _ => ⟨fun _ => hl, fun h => h.le⟩
    simp only [← this]
    split <;> simp
  have hI : (Finset.Icc (-1 : ℤ) 1) = {-1, 0, 1} := by decide
  rw [mulVec, dotProduct, Finset.sum_congr rfl fun c _ => hc c, Finset.sum_comm]
  simp only [← Finset.mul_sum]
  change ∑ k : Fin 9, weight k * Spec.pixel v _ _ = _
  simp only [hI]
  simp [Fin.sum_univ_succ, weight, dx, dy]
  norm_num
  ring

theorem coarse_lt {h w : ℕ} (hpos : 0 < h * w) : h / 2 * (w / 2) < h * w := by
  have hh : 0 < h := Nat.pos_of_mul_pos_right hpos
  have hw : 0 < w := Nat.pos_of_mul_pos_left hpos
  exact Nat.mul_lt_mul'' (Nat.div_lt_self hh (by norm_num)) (Nat.div_lt_self hw (by norm_num))

/-- `_vcycle_step`, vcycle.py:45-101.  `spsolve` is an oracle.  The cache is not modelled: the shapes on the way down
differ, so for one matrix it only saves work. -/
noncomputable def vstep (spsolve : ∀ n, Matrix (Fin n) (Fin n) ℝ → (Fin n → ℝ) → Fin n → ℝ) (pre post : ℕ)
    (omega : ℝ) (direct : ℕ) (h w : ℕ) (A : Matrix (Fin (h * w)) (Fin (h * w)) ℝ) (b : Fin (h * w) → ℝ) :
    Fin (h * w) → ℝ :=
  if hn : h * w ≤ direct then spsolve (h * w) A b
  else
    let x := jacobiStep A omega b none pre
    let residual := b - A *ᵥ x
    let coarseResidual := downsample h w *ᵥ residual
    let coarseX := vstep spsolve pre post omega direct (h / 2) (w / 2) (coarse h w A) coarseResidual
    let x := x + (downsample h w)ᵀ *ᵥ coarseX
    jacobiStep A omega b (some x) post
termination_by h * w
decreasing_by exact coarse_lt (by omega)

/-! ## Jacobi -/

/-- C52 (partial): the Jacobi preconditioner divides by the diagonal.  Missing: diagonal entries of at most `1e-8` in
absolute value, which are replaced by one (`C52_jacobi_small`). -/
theorem C52_jacobi_divides_partial (A : Matrix ι ι ℝ) (h : ∀ i, 1 / 10 ^ 8 < |A i i|) (x : ι → ℝ) (i : ι) :
    jacobi A x i = x i / A i i := by
  unfold jacobi jacobiInv
  rw [if_neg (not_le.mpr (h i)), mul_one_div]

/-- For a positive definite matrix the Jacobi preconditioner is linear, symmetric and positive definite, also when
small entries are replaced. -/
theorem C52_jacobi_spd (A : Matrix ι ι ℝ) (hA : A.PosDef) : SPD (jacobi A) := by
  refine ⟨diagonal (jacobiInv A), ?_, ?_⟩
  · rw [posDef_diagonal_iff]
    intro i
    unfold jacobiInv
    split
    · exact one_pos
    · exact one_div_pos.mpr hA.diag_pos
  · intro x
    funext i
    rw [mulVec_diagonal]
    unfold jacobi
    ring

/-- A positive diagonal entry of `1e-9` is not inverted. -/
theorem C52_jacobi_small : ∃ A : Matrix (Fin 1) (Fin 1) ℝ, A.PosDef ∧ ∀ x, jacobi A x = x ∧
    ∀ i, (A *ᵥ jacobi A x) i = x i / 10 ^ 9 := by
  refine ⟨diagonal fun _ => 1 / 10 ^ 9, ?_, ?_⟩
  · rw [posDef_diagonal_iff]
    intro i
    positivity
  · intro x
    have hx : jacobi (diagonal fun _ : Fin 1 => (1 : ℝ) / 10 ^ 9) x = x := by
      funext i
      unfold jacobi jacobiInv
      rw [diagonal_apply_eq, if_pos (by rw [abs_of_pos (by positivity)]; norm_num), mul_one]
    refine ⟨hx, fun i => ?_⟩
    rw [hx, mulVec_diagonal]
    ring

/-! ## V-cycle -/

/-- `omega * D^{-1}`. -/
noncomputable def Nmat (A : Matrix ι ι ℝ) (omega : ℝ) : Matrix ι ι ℝ := diagonal fun i => omega / A i i

/-- The error propagation of one Jacobi step. -/
noncomputable def Gmat (A : Matrix ι ι ℝ) (omega : ℝ) : Matrix ι ι ℝ := 1 - Nmat A omega * A

/-- What `k` Jacobi steps from zero do to the right-hand side. -/
noncomputable def Hmat (A : Matrix ι ι ℝ) (omega : ℝ) (k : ℕ) : Matrix ι ι ℝ :=
  ∑ m ∈ Finset.range k, Gmat A omega ^ m * Nmat A omega

variable (A : Matrix ι ι ℝ) (omega : ℝ)

theorem step_eq (b x : ι → ℝ) : (fun i => x i + omega * (b i - (A *ᵥ x) i) / A i i) =
    Gmat A omega *ᵥ x + Nmat A omega *ᵥ b := by
  funext i
  rw [Gmat, sub_mulVec, one_mulVec, Pi.add_apply, Pi.sub_apply, ← mulVec_mulVec, Nmat, mulVec_diagonal, mulVec_diagonal]
  ring

theorem smooth_eq (b : ι → ℝ) : ∀ (k : ℕ) (x : ι → ℝ),
    smooth A omega b k x = (Gmat A omega ^ k) *ᵥ x + Hmat A omega k *ᵥ b := by
  intro k
  induction k with
  | zero => intro x; simp [smooth, Hmat]
  | succ k ih =>
    intro x
    rw [smooth, step_eq, ih, mulVec_add, mulVec_mulVec, mulVec_mulVec, ← pow_succ, Hmat, Hmat, Finset.sum_range_succ,
      add_mulVec, add_assoc]
    congr 1
    rw [add_comm]

theorem jacobiStep_none (b : ι → ℝ) (k : ℕ) : jacobiStep A omega b none k = Hmat A omega k *ᵥ b := by
  cases k with
  | zero => simp [jacobiStep, Hmat]
  | succ k =>
    show smooth A omega b k _ = _
    have : (fun i => omega * b i / A i i) = Nmat A omega *ᵥ b := by
      funext i
      rw [Nmat, mulVec_diagonal]
      ring
    rw [this, smooth_eq, mulVec_mulVec, Hmat, Hmat, Finset.sum_range_succ, add_mulVec, add_comm]

theorem Nmat_symm : (Nmat A omega)ᵀ = Nmat A omega := diagonal_transpose _

theorem G_N (hA : Aᵀ = A) : ∀ m, Gmat A omega ^ m * Nmat A omega = Nmat A omega * ((Gmat A omega)ᵀ) ^ m := by
  have h1 : Gmat A omega * Nmat A omega = Nmat A omega * (Gmat A omega)ᵀ := by
    rw [Gmat, transpose_sub, transpose_one, transpose_mul, hA, Nmat_symm]
    noncomm_ring
  intro m
  induction m with
  | zero => simp
  | succ m ih => rw [pow_succ, mul_assoc, h1, ← mul_assoc, ih, mul_assoc, ← pow_succ]

theorem GN_symm (hA : Aᵀ = A) (m : ℕ) : (Gmat A omega ^ m * Nmat A omega)ᵀ = Gmat A omega ^ m * Nmat A omega := by
  rw [transpose_mul, Nmat_symm, transpose_pow, ← G_N A omega hA]

theorem Hmat_symm (hA : Aᵀ = A) (k : ℕ) : (Hmat A omega k)ᵀ = Hmat A omega k := by
  rw [Hmat, transpose_sum]
  exact Finset.sum_congr rfl fun m _ => GN_symm A omega hA m

theorem one_sub_AH (hA : Aᵀ = A) : ∀ k, 1 - A * Hmat A omega k = ((Gmat A omega)ᵀ) ^ k := by
  intro k
  induction k with
  | zero => simp [Hmat]
  | succ k ih =>
    rw [Hmat, Finset.sum_range_succ, mul_add, ← sub_sub]
    change 1 - A * Hmat A omega k - _ = _
    rw [ih, G_N A omega hA, pow_succ']
    have : (Gmat A omega)ᵀ = 1 - A * Nmat A omega := by
      rw [Gmat, transpose_sub, transpose_one, transpose_mul, hA, Nmat_symm]
    conv_rhs => rw [this]
    rw [sub_mul, one_mul, mul_assoc, ← this]

theorem H_double (k : ℕ) : Gmat A omega ^ k * Hmat A omega k + Hmat A omega k = Hmat A omega (2 * k) := by
  rw [two_mul, Hmat, Hmat, Finset.sum_range_add, add_comm, Finset.mul_sum]
  congr 1
  exact Finset.sum_congr rfl fun m _ => by rw [← mul_assoc, ← pow_add]

/-- Pairs of consecutive terms. -/
theorem H_pairs (hA : Aᵀ = A) : ∀ p, Hmat A omega (2 * p) = ∑ k ∈ Finset.range p,
    Gmat A omega ^ k * (2 • Nmat A omega - Nmat A omega * A * Nmat A omega) * ((Gmat A omega)ᵀ) ^ k := by
  intro p
  induction p with
  | zero => simp [Hmat]
  | succ p ih =>
    rw [Finset.sum_range_succ, ← ih, Hmat, Hmat, show 2 * (p + 1) = 2 * p + 1 + 1 by ring, Finset.sum_range_succ,
      Finset.sum_range_succ, add_assoc]
    congr 1
    have h1 : 2 • Nmat A omega - Nmat A omega * A * Nmat A omega = Nmat A omega + Gmat A omega * Nmat A omega := by
      rw [Gmat]
      noncomm_ring
    rw [h1, mul_add, add_mul, ← mul_assoc, ← pow_succ, mul_assoc, ← G_N A omega hA, mul_assoc, ← G_N A omega hA,
      ← mul_assoc, ← mul_assoc, ← pow_add, ← pow_add]
    congr 3 <;> ring_nf

/-- The matrix of one level: smoothing, coarse correction, smoothing. -/
theorem level_eq {κ : Type} [Fintype κ] (hA : Aᵀ = A) (p : ℕ) (R : Matrix κ ι ℝ) (C : Matrix κ κ ℝ) (b : ι → ℝ) :
    jacobiStep A omega b (some (jacobiStep A omega b none p +
      Rᵀ *ᵥ (C *ᵥ (R *ᵥ (b - A *ᵥ jacobiStep A omega b none p))))) p =
    (Hmat A omega (2 * p) + Gmat A omega ^ p * (Rᵀ * C * R) * ((Gmat A omega)ᵀ) ^ p) *ᵥ b := by
  have h1 : b - A *ᵥ (Hmat A omega p *ᵥ b) = ((Gmat A omega)ᵀ) ^ p *ᵥ b := by
    rw [← one_sub_AH A omega hA, sub_mulVec, one_mulVec, mulVec_mulVec]
  rw [jacobiStep_none, h1]
  show smooth A omega b p _ = _
  rw [smooth_eq, ← H_double, mulVec_add, add_mulVec, add_mulVec]
  simp only [mulVec_mulVec, Matrix.mul_assoc]
  abel

/-- `spsolve` returns the solution of a regular system. -/
def RightSolve (spsolve : ∀ n, Matrix (Fin n) (Fin n) ℝ → (Fin n → ℝ) → Fin n → ℝ) : Prop :=
  ∀ n M b, IsUnit M.det → spsolve n M b = M⁻¹ *ᵥ b

/-- The matrices met on the way down can be solved at the bottom. -/
def Solvable (direct : ℕ) (h w : ℕ) (A : Matrix (Fin (h * w)) (Fin (h * w)) ℝ) : Prop :=
  if hn : h * w ≤ direct then IsUnit A.det
  else Solvable direct (h / 2) (w / 2) (coarse h w A)
termination_by h * w
decreasing_by exact coarse_lt (by omega)

theorem coarse_symm (h w : ℕ) (A : Matrix (Fin (h * w)) (Fin (h * w)) ℝ) (hA : Aᵀ = A) :
    (coarse h w A)ᵀ = coarse h w A := by
  rw [coarse, transpose_mul, transpose_mul, transpose_transpose, hA, Matrix.mul_assoc]

/-- C52: with as many smoothing steps before as after, and for every shape, the V-cycle preconditioner of a symmetric
matrix is linear and symmetric. -/
theorem C52_vcycle_symmetric (spsolve : ∀ n, Matrix (Fin n) (Fin n) ℝ → (Fin n → ℝ) → Fin n → ℝ)
    (hs : RightSolve spsolve) (p : ℕ) (omega : ℝ) (direct : ℕ) : ∀ (n h w : ℕ), h * w = n →
    ∀ (A : Matrix (Fin (h * w)) (Fin (h * w)) ℝ), Aᵀ = A → Solvable direct h w A →
    SymLinear (vstep spsolve p p omega direct h w A) := by
  intro n
  induction n using Nat.strong_induction_on with
  | _ n ih =>
    intro h w hn A hA hsol
    unfold Solvable at hsol
    by_cases hd : h * w ≤ direct
    · rw [dif_pos hd] at hsol
      refine ⟨A⁻¹, by rw [transpose_nonsing_inv, hA], fun b => ?_⟩
      unfold vstep
      rw [dif_pos hd]
      exact hs _ _ _ hsol
    · rw [dif_neg hd] at hsol
      obtain ⟨C, hC, hCb⟩ := ih (h / 2 * (w / 2)) (by rw [← hn]; exact coarse_lt (by omega)) (h / 2) (w / 2) rfl
        (coarse h w A) (coarse_symm h w A hA) hsol
      refine ⟨Hmat A omega (2 * p) +
        Gmat A omega ^ p * ((downsample h w)ᵀ * C * downsample h w) * ((Gmat A omega)ᵀ) ^ p, ?_, ?_⟩
      · rw [transpose_add, Hmat_symm A omega hA, transpose_mul, transpose_mul, transpose_mul, transpose_mul,
          transpose_transpose, transpose_pow, transpose_pow, transpose_transpose, hC]
        simp only [Matrix.mul_assoc]
      · intro b
        unfold vstep
        rw [dif_neg hd]
        simp only
        rw [hCb]
        exact level_eq A omega hA p (downsample h w) C b

/-- Positive definiteness passes the levels: positive diagonals, `omega` small enough for the damped Jacobi method to
converge (`omega * A < 2 * D`), and a positive definite matrix at the bottom. -/
def Convergent (omega : ℝ) (direct : ℕ) (h w : ℕ) (A : Matrix (Fin (h * w)) (Fin (h * w)) ℝ) : Prop :=
  if hn : h * w ≤ direct then A.PosDef
  else (∀ i, 0 < A i i) ∧ ((diagonal fun i => 2 * A i i) - omega • A).PosDef ∧
    Convergent omega direct (h / 2) (w / 2) (coarse h w A)
termination_by h * w
decreasing_by exact coarse_lt (by omega)

theorem H_posDef (hA : Aᵀ = A) (ho : 0 < omega) (hd : ∀ i, 0 < A i i)
    (hc : ((diagonal fun i => 2 * A i i) - omega • A).PosDef) (p : ℕ) : (Hmat A omega (2 * (p + 1))).PosDef := by
  have hN : 2 • Nmat A omega - Nmat A omega * A * Nmat A omega =
      (diagonal fun i => (√omega / A i i)) * ((diagonal fun i => 2 * A i i) - omega • A) *
        (diagonal fun i => (√omega / A i i)) := by
    ext i j
    rw [Nmat, Matrix.sub_apply, Matrix.smul_apply, mul_diagonal, diagonal_mul, mul_diagonal, diagonal_mul,
      Matrix.sub_apply, Matrix.smul_apply]
    have hij : √omega * √omega = omega := Real.mul_self_sqrt ho.le
    have hi := (hd i).ne'
    have hj := (hd j).ne'
    by_cases h : i = j
    · subst h
      rw [diagonal_apply_eq, diagonal_apply_eq]
      simp only [smul_eq_mul, nsmul_eq_mul, Nat.cast_ofNat]
      field_simp
      linear_combination (2 - omega) * (-hij) 
    · rw [diagonal_apply_ne _ h, diagonal_apply_ne _ h]
      simp only [smul_eq_mul, nsmul_eq_mul, mul_zero, zero_sub]
      field_simp
      linear_combination A i j * hij
  have hP : (2 • Nmat A omega - Nmat A omega * A * Nmat A omega).PosDef := by
    rw [hN]
    have h := hc.conjTranspose_mul_mul_same (B := diagonal fun i => (√omega / A i i)) (by
      intro x y hxy
      funext i
      have := congrFun hxy i
      rw [mulVec_diagonal, mulVec_diagonal] at this
      exact mul_left_cancel₀ (div_pos (Real.sqrt_pos.mpr ho) (hd i)).ne' this)
    rwa [conjTranspose_eq_transpose_of_trivial, diagonal_transpose] at h
  rw [H_pairs A omega hA, Finset.sum_range_succ', add_comm]
  have h0 : Gmat A omega ^ 0 * (2 • Nmat A omega - Nmat A omega * A * Nmat A omega) * ((Gmat A omega)ᵀ) ^ 0 =
      2 • Nmat A omega - Nmat A omega * A * Nmat A omega := by simp
  rw [h0]
  refine hP.add_posSemidef (posSemidef_sum _ fun k _ => ?_)
  have := hP.posSemidef.mul_mul_conjTranspose_same (Gmat A omega ^ (k + 1))
  rwa [conjTranspose_eq_transpose_of_trivial, transpose_pow] at this

/-- C52: with at least one smoothing step before and as many after, and a damping for which Jacobi's method converges,
the V-cycle preconditioner of a symmetric matrix is linear, symmetric and positive definite, for every shape. -/
theorem C52_vcycle_spd (spsolve : ∀ n, Matrix (Fin n) (Fin n) ℝ → (Fin n → ℝ) → Fin n → ℝ)
    (hs : RightSolve spsolve) (p : ℕ) (omega : ℝ) (ho : 0 < omega) (direct : ℕ) : ∀ (n h w : ℕ), h * w = n →
    ∀ (A : Matrix (Fin (h * w)) (Fin (h * w)) ℝ), Aᵀ = A → Convergent omega direct h w A →
    SPD (vstep spsolve (p + 1) (p + 1) omega direct h w A) := by
  intro n
  induction n using Nat.strong_induction_on with
  | _ n ih =>
    intro h w hn A hA hsol
    unfold Convergent at hsol
    by_cases hd : h * w ≤ direct
    · rw [dif_pos hd] at hsol
      refine ⟨A⁻¹, hsol.inv, fun b => ?_⟩
      unfold vstep
      rw [dif_pos hd]
      exact hs _ _ _ ((isUnit_iff_isUnit_det _).mp hsol.isUnit)
    · rw [dif_neg hd] at hsol
      obtain ⟨h1, h2, h3⟩ := hsol
      obtain ⟨C, hC, hCb⟩ := ih (h / 2 * (w / 2)) (by rw [← hn]; exact coarse_lt (by omega)) (h / 2) (w / 2) rfl
        (coarse h w A) (coarse_symm h w A hA) h3
      refine ⟨Hmat A omega (2 * (p + 1)) +
        Gmat A omega ^ (p + 1) * ((downsample h w)ᵀ * C * downsample h w) * ((Gmat A omega)ᵀ) ^ (p + 1), ?_, ?_⟩
      · refine (H_posDef A omega hA ho h1 h2 p).add_posSemidef ?_
        have e1 := hC.posSemidef.conjTranspose_mul_mul_same (downsample h w)
        have e2 := e1.mul_mul_conjTranspose_same (Gmat A omega ^ (p + 1))
        rwa [conjTranspose_eq_transpose_of_trivial, conjTranspose_eq_transpose_of_trivial, transpose_pow] at e2
      · intro b
        unfold vstep
        rw [dif_neg hd]
        simp only
        rw [hCb]
        exact level_eq A omega hA (p + 1) (downsample h w) C b

/-- For a symmetric matrix with positive, weakly dominant diagonal, `omega * A < 2 * D` for all `omega < 1`. -/
theorem dominant_posDef (hA : Aᵀ = A) (hd : ∀ i, 0 < A i i)
    (hdom : ∀ i, ∑ j ∈ Finset.univ.erase i, |A i j| ≤ A i i) (ho : 0 < omega) (ho1 : omega < 1) :
    ((diagonal fun i => 2 * A i i) - omega • A).PosDef := by
  refine PosDef.of_dotProduct_mulVec_pos ?_ ?_
  · rw [IsHermitian, conjTranspose_eq_transpose_of_trivial, transpose_sub, transpose_smul, hA, diagonal_transpose]
  · intro x hx
    rw [star_trivial, sub_mulVec, dotProduct_sub, smul_mulVec, dotProduct_smul, smul_eq_mul]
    have hD : x ⬝ᵥ (diagonal fun i => 2 * A i i) *ᵥ x = ∑ i, 2 * A i i * x i ^ 2 := by
      rw [dotProduct]
      refine Finset.sum_congr rfl fun i _ => ?_
      rw [mulVec_diagonal]
      ring
    have hq : x ⬝ᵥ A *ᵥ x ≤ ∑ i, 2 * A i i * x i ^ 2 := by
      have e1 : x ⬝ᵥ A *ᵥ x = ∑ i, ∑ j, A i j * x i * x j := by
        rw [dotProduct]
        refine Finset.sum_congr rfl fun i _ => ?_
        rw [mulVec, dotProduct, Finset.mul_sum]
        exact Finset.sum_congr rfl fun j _ => by ring
      have e2 : ∀ i j, A i j * x i * x j ≤ |A i j| * (x i ^ 2 / 2) + |A i j| * (x j ^ 2 / 2) := by
        intro i j
        have h1 : A i j * (x i * x j) ≤ |A i j| * |x i * x j| := by
          rw [← abs_mul]
          exact le_abs_self _
        have h2 : |x i * x j| ≤ x i ^ 2 / 2 + x j ^ 2 / 2 := by
          rw [abs_le]
          constructor <;> nlinarith [sq_nonneg (x i + x j), sq_nonneg (x i - x j)]
        nlinarith [abs_nonneg (A i j)]
      have hrow : ∀ i, ∑ j, |A i j| ≤ 2 * A i i := by
        intro i
        rw [← Finset.add_sum_erase _ _ (Finset.mem_univ i), abs_of_pos (hd i)]
        linarith [hdom i]
      have hsym : ∀ i j, A i j = A j i := fun i j => by conv_lhs => rw [← hA, transpose_apply]
      calc x ⬝ᵥ A *ᵥ x = ∑ i, ∑ j, A i j * x i * x j := e1
        _ ≤ ∑ i, ∑ j, (|A i j| * (x i ^ 2 / 2) + |A i j| * (x j ^ 2 / 2)) :=
          Finset.sum_le_sum fun i _ => Finset.sum_le_sum fun j _ => e2 i j
        _ = ∑ i, (∑ j, |A i j|) * (x i ^ 2 / 2) + ∑ j, (∑ i, |A i j|) * (x j ^ 2 / 2) := by
          simp only [Finset.sum_add_distrib, Finset.sum_mul]
          congr 1
          exact Finset.sum_comm
        _ = ∑ i, (∑ j, |A i j|) * x i ^ 2 := by
          rw [← Finset.sum_add_distrib]
          refine Finset.sum_congr rfl fun i _ => ?_
          have : ∑ j, |A j i| = ∑ j, |A i j| := Finset.sum_congr rfl fun j _ => by rw [hsym]
          rw [this]
          ring
        _ ≤ ∑ i, 2 * A i i * x i ^ 2 :=
          Finset.sum_le_sum fun i _ => mul_le_mul_of_nonneg_right (hrow i) (sq_nonneg _)
    have hpos : 0 < ∑ i, 2 * A i i * x i ^ 2 := by
      obtain ⟨k, hk⟩ := Function.ne_iff.mp hx
      refine Finset.sum_pos' (fun i _ => by have := hd i; positivity) ⟨k, Finset.mem_univ k, ?_⟩
      have := hd k
      have hk' : 0 < x k ^ 2 := by
        have : x k ≠ 0 := hk
        positivity
      positivity
    rw [hD]
    rcases le_or_gt (x ⬝ᵥ A *ᵥ x) 0 with h | h
    · nlinarith
    · nlinarith

end Pytwoway.Precond
