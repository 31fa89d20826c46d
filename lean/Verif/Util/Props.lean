import Verif.Util.ScrambleLemmas
import Verif.Util.MomentLemmas

/-!
# Properties C01, C02 of `pytwoway/util.py`
-/

namespace Pytwoway.Util

open scoped BigOperators

/-! ## C01 -/

section C01
variable {α β : Type*}

/-- C01: `scramble` only reorders. -/
theorem C01_scramble_perm (l : List α) : (scramble l).Perm l := scramble_perm_aux l

/-- C01: `unscramble` undoes `scramble`, for every length. -/
theorem C01_unscramble_scramble (l : List α) : unscramble (scramble l) = l :=
  unscramble_scramble_aux l

/-- C01: `scramble` undoes `unscramble`, so the two are inverse bijections. -/
theorem C01_scramble_unscramble (l : List α) : scramble (unscramble l) = l :=
  scramble_unscramble_aux l

/-- C01, as used in attrition.py:250 and sorkin.py:169-171: `unscramble(pool.starmap(f, scramble(l)))`
(starmap keeps order) lists the results in the order of the original work list. -/
theorem C01_scrambled_work_in_order (f : α → β) (l : List α) :
    unscramble ((scramble l).map f) = l.map f := by
  rw [← scramble_map, unscramble_scramble_aux]

/-- The documented example of util.py:409. -/
example : scramble ["a", "b", "c", "d", "e"] = ["a", "e", "b", "d", "c"] := by decide

end C01

/-! ## C02 -/

section C02
variable {ι : Type*} [Fintype ι]

/-- C02: covariance of a vector with itself (one array of nonnegative weights) is its variance, for
every `dof`. -/
theorem C02_cov_self (v : ι → ℝ) (w : ι → ℝ) (hw : ∀ i, 0 ≤ w i) (dof : ℝ) :
    weightedCov v v (.vec w) (.vec w) dof = weightedVar v (.vec w) dof := by
  have h : ∀ i, Real.sqrt (w i * w i) = w i := fun i => Real.sqrt_mul_self (hw i)
  simp only [weightedCov, weightedVar, Weight.at, h]
  congr 1; apply Finset.sum_congr rfl; intros; ring

/-- C02: the same without weights. -/
theorem C02_cov_self_unweighted (v : ι → ℝ) (c c' dof : ℝ) :
    weightedCov v v (.scalar c) (.scalar c') dof = weightedVar v (.scalar c) dof := by
  simp only [weightedCov, weightedVar, weightedMean]
  congr 1; apply Finset.sum_congr rfl; intros; ring

/-- The nonnegativity of the weights matters: with a negative weight the two functions differ. -/
theorem C02_cov_self_negative_weight :
    ∃ (v w : Fin 3 → ℝ), weightedCov v v (.vec w) (.vec w) 0 ≠ weightedVar v (.vec w) 0 := by
  refine ⟨![0, 0, 1], ![1, 1, -1], ?_⟩
  have h1 : Real.sqrt (1 : ℝ) = 1 := Real.sqrt_one
  simp [weightedCov, weightedVar, weightedMean, Weight.at, Fin.sum_univ_three]
  norm_num

/-- C02: symmetry. -/
theorem C02_cov_symm (x y : ι → ℝ) (w w' : Weight ι) (dof : ℝ) :
    weightedCov x y w w' dof = weightedCov y x w' w dof := by
  cases w <;> cases w' <;> simp only [weightedCov, Weight.at, mul_comm, mul_left_comm, mul_assoc]

/-- C02: adding a constant to a vector does not change a covariance. -/
theorem C02_cov_shift (x y : ι → ℝ) (w w' : Weight ι) (dof c d : ℝ)
    (h : w.Usable) (h' : w'.Usable) :
    weightedCov (fun i => x i + c) (fun i => y i + d) w w' dof = weightedCov x y w w' dof := by
  cases w <;> cases w' <;>
    simp only [weightedCov, weightedMean_shift _ _ _ h, weightedMean_shift _ _ _ h'] <;>
    congr 1 <;> apply Finset.sum_congr rfl <;> intros <;> ring

/-- C02: linear in the first argument (hence, by symmetry, bilinear). -/
theorem C02_cov_linear (x x' y : ι → ℝ) (a b : ℝ) (w w' : Weight ι) (dof : ℝ) :
    weightedCov (fun i => a * x i + b * x' i) y w w' dof =
      a * weightedCov x y w w' dof + b * weightedCov x' y w w' dof := by
  have hm : weightedMean (fun i => a * x i + b * x' i) w =
      a * weightedMean x w + b * weightedMean x' w := by
    rw [weightedMean_add (fun i => a * x i) (fun i => b * x' i), weightedMean_smul,
      weightedMean_smul]
  cases w <;> cases w' <;>
    simp only [weightedCov, hm, ← mul_div_assoc, ← add_div, Finset.mul_sum,
      ← Finset.sum_add_distrib] <;>
    congr 1 <;> apply Finset.sum_congr rfl <;> intros <;> ring

/-- C02: with `dof = 0`, multiplying all weights by a positive constant changes nothing. -/
theorem C02_cov_weight_scale (x y : ι → ℝ) (w w' : ι → ℝ) (c : ℝ) (hc : 0 < c) :
    weightedCov x y (.vec fun i => c * w i) (.vec fun i => c * w' i) 0 =
      weightedCov x y (.vec w) (.vec w') 0 := by
  have hm : ∀ (v u : ι → ℝ), weightedMean v (.vec fun i => c * u i) = weightedMean v (.vec u) := by
    intro v u
    simp only [weightedMean, mul_assoc, ← Finset.mul_sum]
    rw [mul_div_mul_left _ _ hc.ne']
  have hs : ∀ i, Real.sqrt (c * w i * (c * w' i)) = c * Real.sqrt (w i * w' i) := by
    intro i
    rw [show c * w i * (c * w' i) = c ^ 2 * (w i * w' i) by ring,
      Real.sqrt_mul (by positivity), Real.sqrt_sq hc.le]
  simp only [weightedCov, hm, Weight.at, hs, sub_zero]
  simp only [mul_assoc, ← Finset.mul_sum]
  rw [mul_div_mul_left _ _ hc.ne']

/-- C02: `var(x + y) = var(x) + var(y) + 2 cov(x, y)` for one array of nonnegative weights. -/
theorem C02_var_add (x y : ι → ℝ) (w : ι → ℝ) (hw : ∀ i, 0 ≤ w i) (dof : ℝ) :
    weightedVar (fun i => x i + y i) (.vec w) dof =
      weightedVar x (.vec w) dof + weightedVar y (.vec w) dof +
        2 * weightedCov x y (.vec w) (.vec w) dof := by
  have h : ∀ i, Real.sqrt (w i * w i) = w i := fun i => Real.sqrt_mul_self (hw i)
  simp only [weightedVar, weightedCov, weightedMean_add, Weight.at, h, ← mul_div_assoc, ← add_div,
    Finset.mul_sum, ← Finset.sum_add_distrib]
  congr 1; apply Finset.sum_congr rfl; intros; ring

/-- C02: the same without weights. -/
theorem C02_var_add_unweighted (x y : ι → ℝ) (c dof : ℝ) :
    weightedVar (fun i => x i + y i) (.scalar c) dof =
      weightedVar x (.scalar c) dof + weightedVar y (.scalar c) dof +
        2 * weightedCov x y (.scalar c) (.scalar c) dof := by
  simp only [weightedVar, weightedCov, weightedMean_add, ← mul_div_assoc, ← add_div,
    Finset.mul_sum, ← Finset.sum_add_distrib]
  congr 1; apply Finset.sum_congr rfl; intros; ring

/-- C02: variances are nonnegative when the weights are and `dof` is below their total. -/
theorem C02_var_nonneg (x : ι → ℝ) (w : ι → ℝ) (hw : ∀ i, 0 ≤ w i) (dof : ℝ)
    (hd : dof < ∑ i, w i) : 0 ≤ weightedVar x (.vec w) dof := by
  apply div_nonneg
  · exact Finset.sum_nonneg fun i _ => mul_nonneg (hw i) (sq_nonneg _)
  · linarith

/-- C02: a variance is zero exactly for a vector that is constant where the weights are positive. -/
theorem C02_var_eq_zero_iff (x : ι → ℝ) (w : ι → ℝ) (hw : ∀ i, 0 ≤ w i) (dof : ℝ)
    (hd0 : 0 ≤ dof) (hd : dof < ∑ i, w i) :
    weightedVar x (.vec w) dof = 0 ↔ ∃ c, ∀ i, 0 < w i → x i = c := by
  have hden : (∑ i, w i) - dof ≠ 0 := by linarith
  have hsum : ∑ i, w i ≠ 0 := by linarith
  simp only [weightedVar, div_eq_zero_iff, hden, or_false]
  rw [Finset.sum_eq_zero_iff_of_nonneg fun i _ => mul_nonneg (hw i) (sq_nonneg _)]
  constructor
  · intro h
    refine ⟨weightedMean x (.vec w), fun i hi => ?_⟩
    have := h i (Finset.mem_univ i)
    rcases mul_eq_zero.mp this with h0 | h0
    · exact absurd h0 hi.ne'
    · have := pow_eq_zero_iff (two_ne_zero) |>.mp h0
      linarith
  · rintro ⟨c, hc⟩ i _
    have hm : weightedMean x (.vec w) = c := by
      simp only [weightedMean]
      rw [div_eq_iff hsum, Finset.mul_sum]
      apply Finset.sum_congr rfl
      intro k _
      rcases (hw k).lt_or_eq with h | h
      · rw [hc k h]; ring
      · rw [← h]; ring
    rcases (hw i).lt_or_eq with h | h
    · rw [hm, hc i h]; ring
    · rw [← h]; ring

/-- Non-vacuity: weights and data satisfying all the hypotheses above, with a nonzero variance. -/
example : (∀ i, (0 : ℝ) ≤ (![1, 3] : Fin 2 → ℝ) i) ∧ (0 : ℝ) < ∑ i, (![1, 3] : Fin 2 → ℝ) i ∧
    (Weight.vec (![1, 3] : Fin 2 → ℝ)).Usable ∧
    weightedVar (![0, 4] : Fin 2 → ℝ) (.vec ![1, 3]) 0 = 3 := by
  refine ⟨?_, ?_, ?_, ?_⟩
  · intro i; fin_cases i <;> simp
  · simp [Fin.sum_univ_two]; norm_num
  · simp [Weight.Usable, Fin.sum_univ_two]; norm_num
  · simp [weightedVar, weightedMean, Fin.sum_univ_two]; norm_num

end C02

end Pytwoway.Util
