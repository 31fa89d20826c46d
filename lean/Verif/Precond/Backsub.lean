import Verif.Precond.Simple
import Verif.Precond.IChol
import Mathlib.LinearAlgebra.Matrix.Block

/-! # Applying a Cholesky factor by forward and back substitution: C52 -/

namespace Pytwoway.Precond

open Matrix
open scoped BigOperators

/-- Value of a stored column in row `i`. -/
noncomputable def entry (C : Col) (i : ℕ) : ℝ := (C.map fun e => if e.1 = i then e.2 else 0).sum

/-- Stored lower triangular factor with positive diagonal: each column starts with its diagonal entry, and its other
entries lie below. -/
def LowerCols (L : ℕ → Col) (n : ℕ) : Prop :=
  ∀ j < n, ∃ e low, L j = (j, e) :: low ∧ 0 < e ∧ ∀ x ∈ low, j < x.1 ∧ x.1 < n

/-- The stored factor as a matrix. -/
noncomputable def factor (L : ℕ → Col) (n : ℕ) : Matrix (Fin n) (Fin n) ℝ := of fun i j => entry (L j) i

/-- A vector of length `n` as an array. -/
noncomputable def arr {n : ℕ} (b : Fin n → ℝ) (i : ℕ) : ℝ := if h : i < n then b ⟨i, h⟩ else 0

theorem entry_nil (i : ℕ) : entry [] i = 0 := rfl

theorem entry_cons (e : ℕ × ℝ) (C : Col) (i : ℕ) : entry (e :: C) i = (if e.1 = i then e.2 else 0) + entry C i := by
  unfold entry
  rw [List.map_cons, List.sum_cons]

theorem entry_append (C D : Col) (i : ℕ) : entry (C ++ D) i = entry C i + entry D i := by
  unfold entry
  rw [List.map_append, List.sum_append]

theorem entry_zero {C : Col} {i : ℕ} (h : ∀ x ∈ C, x.1 ≠ i) : entry C i = 0 := by
  induction C with
  | nil => rfl
  | cons e C ih =>
    rw [entry_cons, if_neg (h e (List.mem_cons_self ..)), ih fun x hx => h x (List.mem_cons_of_mem _ hx), add_zero]

theorem entry_sum {C : Col} {n : ℕ} (h : ∀ x ∈ C, x.1 < n) (x : ℕ → ℝ) :
    ∑ k ∈ Finset.range n, entry C k * x k = (C.map fun e => e.2 * x e.1).sum := by
  induction C with
  | nil => simp [entry_nil]
  | cons e C ih =>
    rw [List.map_cons, List.sum_cons, ← ih fun x hx => h x (List.mem_cons_of_mem _ hx)]
    simp only [entry_cons, add_mul, Finset.sum_add_distrib]
    congr 1
    rw [Finset.sum_eq_single e.1]
    · rw [if_pos rfl]
    · intro k _ hk
      rw [if_neg (Ne.symm hk), zero_mul]
    · intro hk
      exact absurd (Finset.mem_range.mpr (h e (List.mem_cons_self ..))) hk

theorem subtract_fold (low : Col) (temp : ℝ) : ∀ (x : ℕ → ℝ) (i : ℕ),
    low.foldl (fun x e => Function.update x e.1 (x e.1 - e.2 * temp)) x i = x i - entry low i * temp := by
  induction low with
  | nil => intro x i; simp [entry_nil]
  | cons e low ih =>
    intro x i
    rw [List.foldl_cons, ih, entry_cons]
    by_cases h : e.1 = i
    · subst h
      rw [Function.update_self, if_pos rfl]
      ring
    · rw [Function.update_of_ne (Ne.symm h), if_neg h]
      ring

theorem dot_fold (low : Col) (x : ℕ → ℝ) : ∀ s : ℝ,
    low.foldl (fun s e => s - e.2 * x e.1) s = s - (low.map fun e => e.2 * x e.1).sum := by
  induction low with
  | nil => intro s; simp
  | cons e low ih =>
    intro s
    rw [List.foldl_cons, ih, List.map_cons, List.sum_cons]
    ring

variable {L : ℕ → Col} {n : ℕ}

theorem entry_upper (hL : LowerCols L n) {i j : ℕ} (hj : j < n) (hij : i < j) : entry (L j) i = 0 := by
  obtain ⟨e, low, h, _, hlow⟩ := hL j hj
  rw [h]
  refine entry_zero fun x hx => ?_
  rcases List.mem_cons.mp hx with rfl | hx
  · exact hij.ne'
  · have := (hlow x hx).1; omega

theorem entry_diag (hL : LowerCols L n) {j : ℕ} (hj : j < n) : 0 < entry (L j) j := by
  obtain ⟨e, low, h, he, hlow⟩ := hL j hj
  rw [h, entry_cons, if_pos rfl, entry_zero fun x hx => (hlow x hx).1.ne', add_zero]
  exact he

theorem forward_inv (hL : LowerCols L n) (b : ℕ → ℝ) : ∀ j ≤ n, ∀ i,
    ∑ k ∈ Finset.range j, entry (L k) i * forward L j b k + (if j ≤ i then forward L j b i else 0) = b i := by
  intro j
  induction j with
  | zero => intro _ i; simp [forward]
  | succ j ih =>
    intro hj i
    obtain ⟨e, low, hc, he, hlow⟩ := hL j (by omega)
    set x := forward L j b with hx
    have hstep : forward L (j + 1) b = forwardStep L x j := by
      unfold forward at hx ⊢
      rw [List.range_succ, List.foldl_append, ← hx]
      rfl
    have hval : ∀ k, forward L (j + 1) b k = (if k = j then x j / e else x k) - entry low k * (x j / e) := by
      intro k
      rw [hstep]
      unfold forwardStep
      rw [hc]
      simp only
      rw [subtract_fold]
      congr 1
      by_cases hk : k = j
      · subst hk; rw [Function.update_self, if_pos rfl]
      · rw [Function.update_of_ne hk, if_neg hk]
    have hle : ∀ k ≤ j, entry low k = 0 := fun k hk => entry_zero fun y hy => by
      have := (hlow y hy).1; omega
    have hold : ∀ k, k < j → forward L (j + 1) b k = x k := fun k hk => by
      rw [hval, if_neg hk.ne, hle k hk.le]; ring
    have hself : forward L (j + 1) b j = x j / e := by
      rw [hval, if_pos rfl, hle j le_rfl]; ring
    rw [Finset.sum_range_succ, hself, Finset.sum_congr rfl fun k hk => by rw [hold k (Finset.mem_range.mp hk)]]
    have h := ih (by omega) i
    rw [hc, entry_cons]
    rcases lt_trichotomy i j with hij | hij | hij
    · have c1 : ¬ j ≤ i := by omega
      have c2 : ¬ j + 1 ≤ i := by omega
      have c3 : ¬ j = i := by omega
      simp only [c1, c2, c3, if_false] at h ⊢
      rw [hle i hij.le, ← h]
      ring
    · subst hij
      have c2 : ¬ i + 1 ≤ i := by omega
      simp only [le_refl, if_true] at h
      simp only [c2, if_true, if_false]
      rw [hle i le_rfl, ← h, add_zero, add_zero, mul_div_cancel₀ _ he.ne']
    · have c1 : j ≤ i := by omega
      have c2 : j + 1 ≤ i := by omega
      have c3 : ¬ j = i := by omega
      simp only [c1, if_true] at h
      simp only [c2, c3, if_false, if_true]
      rw [hval, if_neg hij.ne', ← h]
      ring

/-- Forward substitution solves the lower triangular system. -/
theorem forward_solves (hL : LowerCols L n) (b : ℕ → ℝ) (i : ℕ) (hi : i < n) :
    ∑ k ∈ Finset.range n, entry (L k) i * forward L n b k = b i := by
  have h := forward_inv hL b n le_rfl i
  rwa [if_neg (by omega), add_zero] at h

theorem backward_inv (hL : LowerCols L n) : ∀ m ≤ n, ∀ x : ℕ → ℝ,
    (∀ i, m ≤ i → backward L m x i = x i) ∧
    ∀ i < m, ∑ k ∈ Finset.range n, entry (L i) k * backward L m x k = x i := by
  intro m
  induction m with
  | zero => intro _ x; exact ⟨fun _ _ => rfl, fun i hi => absurd hi (Nat.not_lt_zero _)⟩
  | succ m ih =>
    intro hm x
    obtain ⟨e, low, hc, he, hlow⟩ := hL m (by omega)
    have hstep : backward L (m + 1) x = backward L m (backwardStep L x m) := by
      unfold backward
      rw [List.range_succ, List.reverse_append]
      rfl
    obtain ⟨h1, h2⟩ := ih (by omega) (backwardStep L x m)
    have hv : backwardStep L x m = Function.update x m ((x m - (low.map fun e => e.2 * x e.1).sum) / e) := by
      unfold backwardStep
      rw [hc]
      simp only
      rw [dot_fold]
    have hne : ∀ i, i ≠ m → backwardStep L x m i = x i := fun i hi => by rw [hv, Function.update_of_ne hi]
    rw [hstep]
    refine ⟨fun i hi => by rw [h1 i (by omega), hne i (by omega)], fun i hi => ?_⟩
    rcases Nat.lt_succ_iff_lt_or_eq.mp hi with hlt | rfl
    · rw [h2 i hlt, hne i hlt.ne]
    · rw [hc, entry_sum (fun y hy => by
        rcases List.mem_cons.mp hy with rfl | hy
        · exact hm
        · exact (hlow y hy).2), List.map_cons, List.sum_cons]
      rw [h1 i le_rfl, hv, Function.update_self]
      have : (low.map fun e => e.2 * backward L i (backwardStep L x i) e.1) = low.map fun e => e.2 * x e.1 :=
        List.map_congr_left fun y hy => by
          have := (hlow y hy).1
          rw [h1 _ this.le, hne _ this.ne']
      rw [hv] at this
      rw [this]
      simp only
      rw [mul_div_cancel₀ _ he.ne']
      ring

/-- Back substitution solves the transposed system. -/
theorem backward_solves (hL : LowerCols L n) (y : ℕ → ℝ) (i : ℕ) (hi : i < n) :
    ∑ k ∈ Finset.range n, entry (L i) k * backward L n y k = y i := (backward_inv hL n le_rfl y).2 i hi

theorem factor_unit (hL : LowerCols L n) : IsUnit (factor L n).det := by
  have h : (factor L n).det = ∏ i, factor L n i i := det_of_lowerTriangular _ fun i j hij => entry_upper hL j.isLt (by
    simpa using hij)
  rw [h]
  refine (Finset.prod_ne_zero_iff.mpr fun i _ => ?_).isUnit
  exact (entry_diag hL i.isLt).ne'

/-- C52: applying a stored factor with positive diagonal solves the system `L * L^T * z = b`. -/
theorem C52_cholesky_solves (hL : LowerCols L n) (b : Fin n → ℝ) :
    (factor L n * (factor L n)ᵀ) *ᵥ (fun i : Fin n => cholApply L n (arr b) i) = b := by
  have h1 : (factor L n)ᵀ *ᵥ (fun i : Fin n => cholApply L n (arr b) i) = fun i : Fin n => forward L n (arr b) i := by
    funext i
    rw [mulVec, dotProduct, ← backward_solves hL (forward L n (arr b)) i i.isLt, ← Fin.sum_univ_eq_sum_range
      (fun k => entry (L i) k * backward L n (forward L n (arr b)) k)]
    rfl
  rw [← mulVec_mulVec, h1]
  funext i
  have : arr b i = b i := by rw [arr, dif_pos i.isLt]
  rw [mulVec, dotProduct, ← this, ← forward_solves hL (arr b) i i.isLt, ← Fin.sum_univ_eq_sum_range
      (fun k => entry (L k) i * forward L n (arr b) k)]
  rfl

/-- C52: it is linear, symmetric and positive definite. -/
theorem C52_cholesky_spd (hL : LowerCols L n) : SPD fun b : Fin n → ℝ => fun i : Fin n => cholApply L n (arr b) i := by
  have hu : IsUnit (factor L n)ᵀ := (isUnit_iff_isUnit_det _).mpr (by rw [det_transpose]; exact factor_unit hL)
  have hp : (factor L n * (factor L n)ᵀ).PosDef := by
    rw [← conjTranspose_eq_transpose_of_trivial]
    refine PosDef.mul_conjTranspose_self _ ?_
    intro x y h
    have h' := congrArg (fun z => z ᵥ* (factor L n)⁻¹) h
    simpa [vecMul_vecMul, mul_nonsing_inv _ (factor_unit hL)] using h'
  refine ⟨(factor L n * (factor L n)ᵀ)⁻¹, hp.inv, fun b => ?_⟩
  have h := congrArg (fun z => (factor L n * (factor L n)ᵀ)⁻¹ *ᵥ z) (C52_cholesky_solves hL b)
  simp only [mulVec_mulVec] at h
  rw [← h, nonsing_inv_mul _ ((isUnit_iff_isUnit_det _).mp hp.isUnit), one_mulVec]

end Pytwoway.Precond
