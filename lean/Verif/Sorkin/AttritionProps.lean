import Mathlib.Tactic.FieldSimp
import Mathlib.Tactic.Positivity
import Mathlib.Tactic.Linarith
import Mathlib.Algebra.Order.Chebyshev
import Verif.Sorkin.Attrition

/-! # C102: the correlations reported by SorkinAttrition -/

namespace Pytwoway.SorkinAttrition

open Finset Attrition

/-! ## Specification -/

/-- `n` times the sum of products minus the product of sums: `n²` times the covariance. -/
def Spec.moment (n : ℕ) (x y : ℕ → ℝ) : ℝ :=
  n * (∑ i ∈ range n, x i * y i) - (∑ i ∈ range n, x i) * ∑ i ∈ range n, y i

/-- `r` is the correlation of two vectors of length `n` that both vary. -/
def Spec.IsCorrelation (n : ℕ) (x y : ℕ → ℝ) (r : ℝ) : Prop :=
  (∃ i < n, ∃ j < n, x i ≠ x j) ∧ (∃ i < n, ∃ j < n, y i ≠ y j) ∧
  r * Real.sqrt (Spec.moment n x x * Spec.moment n y y) = Spec.moment n x y

/-- Entry `i` of a list. -/
def Spec.entry (l : List ℝ) (i : ℕ) : ℝ := l.getD i 0

/-! ## Correlations -/

theorem centred (n : ℕ) (hn : n ≠ 0) (x y : ℕ → ℝ) :
    (n : ℝ) * (∑ i ∈ range n, (x i - mean n x) * (y i - mean n y)) = Spec.moment n x y := by
  have h0 : (n : ℝ) ≠ 0 := by exact_mod_cast hn
  have h1 : ∑ i ∈ range n, (x i - mean n x) * (y i - mean n y) =
      (∑ i ∈ range n, x i * y i) - mean n y * (∑ i ∈ range n, x i) - mean n x * (∑ i ∈ range n, y i) +
        n * (mean n x * mean n y) := by
    have : ∀ i ∈ range n, (x i - mean n x) * (y i - mean n y) =
        x i * y i - mean n y * x i - mean n x * y i + mean n x * mean n y := fun i _ => by ring
    rw [sum_congr rfl this, sum_add_distrib, sum_sub_distrib, sum_sub_distrib, ← mul_sum, ← mul_sum]
    simp
  rw [h1]
  unfold Spec.moment mean
  field_simp
  ring

theorem cov_eq {n : ℕ} (hn : 2 ≤ n) (x y : ℕ → ℝ) : cov n x y = Spec.moment n x y / ((n : ℝ) * ((n : ℝ) - 1)) := by
  have h2 : (2 : ℝ) ≤ n := by exact_mod_cast hn
  have h0 : (n : ℝ) ≠ 0 := by linarith
  have h1 : (n : ℝ) - 1 ≠ 0 := by intro h; linarith
  unfold cov
  rw [← centred n (by omega)]
  field_simp

theorem moment_self_nonneg (n : ℕ) (x : ℕ → ℝ) : 0 ≤ Spec.moment n x x := by
  by_cases hn : n = 0
  · subst hn; simp [Spec.moment]
  · rw [← centred n hn]
    exact mul_nonneg (by positivity) (sum_nonneg fun i _ => mul_self_nonneg _)

theorem moment_self_zero {n : ℕ} (hn : n ≠ 0) (x : ℕ → ℝ) :
    Spec.moment n x x = 0 ↔ ∀ i < n, ∀ j < n, x i = x j := by
  have h0 : (n : ℝ) ≠ 0 := by exact_mod_cast hn
  constructor
  · intro h
    rw [← centred n hn] at h
    have h1 := (mul_eq_zero.mp h).resolve_left h0
    rw [sum_eq_zero_iff_of_nonneg fun i _ => mul_self_nonneg _] at h1
    have h2 : ∀ i < n, x i = mean n x := fun i hi => by
      have := mul_self_eq_zero.mp (h1 i (mem_range.mpr hi))
      linarith
    intro i hi j hj
    rw [h2 i hi, h2 j hj]
  · intro h
    have h1 : ∀ i ∈ range n, x i = x 0 := fun i hi => h i (mem_range.mp hi) 0 (by omega)
    have h2 : ∀ i ∈ range n, x i * x i = x 0 * x 0 := fun i hi => by rw [h1 i hi]
    unfold Spec.moment
    rw [sum_congr rfl h1, sum_congr rfl h2]
    simp only [sum_const, card_range, nsmul_eq_mul]
    ring

theorem moment_cauchy (n : ℕ) (x y : ℕ → ℝ) :
    Spec.moment n x y ^ 2 ≤ Spec.moment n x x * Spec.moment n y y := by
  by_cases hn : n = 0
  · subst hn; simp [Spec.moment]
  · rw [← centred n hn, ← centred n hn, ← centred n hn]
    have := sum_mul_sq_le_sq_mul_sq (range n) (fun i => x i - mean n x) (fun i => y i - mean n y)
    simp only [sq] at this ⊢
    have hp : (0 : ℝ) ≤ (n : ℝ) * n := by positivity
    have := mul_le_mul_of_nonneg_left this hp
    linarith [this]

theorem varies_iff {n : ℕ} (hn : n ≠ 0) (x : ℕ → ℝ) :
    (∃ i < n, ∃ j < n, x i ≠ x j) ↔ 0 < Spec.moment n x x := by
  rw [lt_iff_le_and_ne]
  constructor
  · rintro ⟨i, hi, j, hj, h⟩
    exact ⟨moment_self_nonneg n x, fun h0 => h ((moment_self_zero hn x).mp h0.symm i hi j hj)⟩
  · rintro ⟨-, h⟩
    by_contra hc
    push Not at hc
    exact h ((moment_self_zero hn x).mpr hc).symm

/-- C102: the number `np.corrcoef` gives is the correlation; it lies between -1 and 1, and it is `nan` exactly if one
of the vectors does not vary. -/
theorem C102_correlation (n : ℕ) (x y : ℕ → ℝ) :
    (∀ r, corr n x y = some r ↔ Spec.IsCorrelation n x y r) ∧
    (∀ r, corr n x y = some r → -1 ≤ r ∧ r ≤ 1) ∧
    (corr n x y = none ↔ (∀ i < n, ∀ j < n, x i = x j) ∨ (∀ i < n, ∀ j < n, y i = y j)) := by
  have hsome : ∀ r, corr n x y = some r → -1 ≤ r ∧ r ≤ 1 := by
    intro r h
    unfold corr at h
    split at h
    · cases h
    · rw [← Option.some.inj h]
      exact ⟨le_max_left _ _, max_le (by norm_num) (min_le_left _ _)⟩
  by_cases hn : n ≤ 1
  · have hc : ∀ z : ℕ → ℝ, ∀ i < n, ∀ j < n, z i = z j := fun z i hi j hj => by
      rw [show i = j by omega]
    have h0 : corr n x y = none := by unfold corr; rw [if_pos (Or.inl hn)]
    refine ⟨fun r => ?_, hsome, by simp only [h0, true_iff]; exact Or.inl (hc x)⟩
    rw [h0]
    constructor
    · intro h; cases h
    · rintro ⟨⟨i, hi, j, hj, h⟩, -⟩
      exact absurd (hc x i hi j hj) h
  have hn2 : 2 ≤ n := by omega
  have hn0 : n ≠ 0 := by omega
  have h2 : (2 : ℝ) ≤ n := by exact_mod_cast hn2
  have hD : (0 : ℝ) < (n : ℝ) * ((n : ℝ) - 1) := mul_pos (by linarith) (by linarith)
  have hz : ∀ z : ℕ → ℝ, cov n z z = 0 ↔ Spec.moment n z z = 0 := fun z => by
    rw [cov_eq hn2, div_eq_zero_iff]
    exact ⟨fun h => h.resolve_right hD.ne', Or.inl⟩
  by_cases hx : Spec.moment n x x = 0
  · have h0 : corr n x y = none := by unfold corr; rw [if_pos (Or.inr (Or.inl ((hz x).mpr hx)))]
    have hcx := (moment_self_zero hn0 x).mp hx
    refine ⟨fun r => ?_, hsome, by simp only [h0, true_iff]; exact Or.inl hcx⟩
    rw [h0]
    constructor
    · intro h; cases h
    · rintro ⟨⟨i, hi, j, hj, h⟩, -⟩
      exact absurd (hcx i hi j hj) h
  by_cases hy : Spec.moment n y y = 0
  · have h0 : corr n x y = none := by unfold corr; rw [if_pos (Or.inr (Or.inr ((hz y).mpr hy)))]
    have hcy := (moment_self_zero hn0 y).mp hy
    refine ⟨fun r => ?_, hsome, by simp only [h0, true_iff]; exact Or.inr hcy⟩
    rw [h0]
    constructor
    · intro h; cases h
    · rintro ⟨-, ⟨i, hi, j, hj, h⟩, -⟩
      exact absurd (hcy i hi j hj) h
  have px : 0 < Spec.moment n x x := lt_of_le_of_ne (moment_self_nonneg n x) (Ne.symm hx)
  have py : 0 < Spec.moment n y y := lt_of_le_of_ne (moment_self_nonneg n y) (Ne.symm hy)
  have hs : 0 < Real.sqrt (Spec.moment n x x * Spec.moment n y y) := Real.sqrt_pos.mpr (mul_pos px py)
  have hval : cov n x y / Real.sqrt (cov n x x) / Real.sqrt (cov n y y) =
      Spec.moment n x y / Real.sqrt (Spec.moment n x x * Spec.moment n y y) := by
    rw [div_div, ← Real.sqrt_mul (by rw [cov_eq hn2]; positivity), cov_eq hn2, cov_eq hn2, cov_eq hn2,
      div_mul_div_comm, Real.sqrt_div (by positivity), Real.sqrt_mul_self hD.le]
    have h1 : (n : ℝ) - 1 ≠ 0 := by intro h; linarith
    field_simp
  have habs : |Spec.moment n x y| ≤ Real.sqrt (Spec.moment n x x * Spec.moment n y y) :=
    Real.abs_le_sqrt (moment_cauchy n x y)
  have hb := abs_le.mp habs
  have hlo : -1 ≤ Spec.moment n x y / Real.sqrt (Spec.moment n x x * Spec.moment n y y) := by
    rw [le_div_iff₀ hs]; linarith [hb.1]
  have hhi : Spec.moment n x y / Real.sqrt (Spec.moment n x x * Spec.moment n y y) ≤ 1 := by
    rw [div_le_one hs]; exact hb.2
  have hc : corr n x y = some (Spec.moment n x y / Real.sqrt (Spec.moment n x x * Spec.moment n y y)) := by
    unfold corr
    rw [if_neg (by rw [hz, hz]; tauto), hval, min_eq_right hhi, max_eq_right hlo]
  refine ⟨fun r => ?_, hsome, ?_⟩
  · rw [hc, Option.some.injEq]
    constructor
    · rintro rfl
      exact ⟨(varies_iff hn0 x).mpr px, (varies_iff hn0 y).mpr py, by field_simp⟩
    · rintro ⟨-, -, h⟩
      rw [← h]
      field_simp
  · rw [hc]
    simp only [reduceCtorEq, false_iff, not_or]
    exact ⟨fun h => hx ((moment_self_zero hn0 x).mpr h), fun h => hy ((moment_self_zero hn0 y).mpr h)⟩

/-- C102: the correlation does not change if the firm values are all multiplied by a positive constant before the
logarithm (a constant is added to `V`), or if the effects are measured from another firm or in other units. -/
theorem C102_units (n : ℕ) (x y : ℕ → ℝ) (a b c : ℝ) (hb : 0 < b) :
    corr n (fun i => x i + a) (fun i => b * y i + c) = corr n x y := by
  have hm1 : ∀ z : ℕ → ℝ, Spec.moment n (fun i => x i + a) z = Spec.moment n x z := fun z => by
    simp only [Spec.moment, add_mul, sum_add_distrib, sum_const, card_range, nsmul_eq_mul, ← mul_sum]
    ring
  have hm2 : ∀ z : ℕ → ℝ, Spec.moment n z (fun i => x i + a) = Spec.moment n z x := fun z => by
    simp only [Spec.moment, mul_add, sum_add_distrib, sum_const, card_range, nsmul_eq_mul, ← sum_mul]
    ring
  have hm3 : ∀ z : ℕ → ℝ, Spec.moment n z (fun i => b * y i + c) = b * Spec.moment n z y := fun z => by
    have e : ∀ i ∈ range n, z i * (b * y i + c) = b * (z i * y i) + c * z i := fun i _ => by ring
    simp only [Spec.moment]
    rw [sum_congr rfl e]
    simp only [sum_add_distrib, sum_const, card_range, nsmul_eq_mul, ← mul_sum]
    ring
  have hm4 : ∀ z : ℕ → ℝ, Spec.moment n (fun i => b * y i + c) z = b * Spec.moment n y z := fun z => by
    have e : ∀ i ∈ range n, (b * y i + c) * z i = b * (y i * z i) + c * z i := fun i _ => by ring
    simp only [Spec.moment]
    rw [sum_congr rfl e]
    simp only [sum_add_distrib, sum_const, card_range, nsmul_eq_mul, ← mul_sum]
    ring
  have key : ∀ r, Spec.IsCorrelation n (fun i => x i + a) (fun i => b * y i + c) r ↔ Spec.IsCorrelation n x y r := by
    intro r
    unfold Spec.IsCorrelation
    rw [hm1, hm2, hm1, hm3, hm3, hm4]
    have e : Spec.moment n x x * (b * (b * Spec.moment n y y)) = b ^ 2 * (Spec.moment n x x * Spec.moment n y y) := by
      ring
    rw [e, Real.sqrt_mul (by positivity), Real.sqrt_sq hb.le]
    have h1 : ∀ i j, (x i + a ≠ x j + a) ↔ x i ≠ x j := fun i j => by simp
    have h2 : ∀ i j, (b * y i + c ≠ b * y j + c) ↔ y i ≠ y j := fun i j => by simp [hb.ne']
    simp only [h1, h2]
    refine and_congr_right fun _ => and_congr_right fun _ => ?_
    constructor
    · intro h
      have : b * (r * Real.sqrt (Spec.moment n x x * Spec.moment n y y)) = b * Spec.moment n x y := by linarith
      exact mul_left_cancel₀ hb.ne' this
    · intro h
      rw [← h]; ring
  have h1 := (C102_correlation n (fun i => x i + a) (fun i => b * y i + c)).1
  have h2 := (C102_correlation n x y).1
  cases h : corr n x y with
  | some r => exact (h1 r).mpr ((key r).mpr ((h2 r).mp h))
  | none =>
    cases h' : corr n (fun i => x i + a) (fun i => b * y i + c) with
    | none => rfl
    | some r =>
      have := (h2 r).mpr ((key r).mp ((h1 r).mp h'))
      rw [h] at this
      cases this

/-- Two varying vectors of length three. -/
theorem C102_demo : corr 3 (fun i => [0, 1, 0].getD i 0) (fun i => [1, 0, 0].getD i 0) = some (-1 / 2) := by
  rw [(C102_correlation _ _ _).1]
  refine ⟨⟨0, by norm_num, 1, by norm_num, by simp⟩, ⟨0, by norm_num, 1, by norm_num, by simp⟩, ?_⟩
  simp only [Spec.moment, sum_range_succ, sum_range_zero]
  norm_num
  rw [show (4 : ℝ) = 2 * 2 by norm_num, Real.sqrt_mul_self (by norm_num)]
  norm_num

end Pytwoway.SorkinAttrition
