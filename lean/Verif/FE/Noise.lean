import Verif.FE.Props
import Mathlib.Probability.Independence.Integration
import Mathlib.MeasureTheory.Integral.Bochner.Basic
import Mathlib.MeasureTheory.Function.L2Space
import Mathlib.Probability.Independence.Basic
import Mathlib.Probability.ProbabilityMassFunction.Integrals
import Mathlib.Probability.Distributions.Uniform

/-! # Random errors and expectations of quadratic forms (specification and helper lemmas) -/

namespace Pytwoway.FE

open Matrix Pytwoway.Util MeasureTheory
open scoped BigOperators

variable {Ω : Type*} [MeasurableSpace Ω] {κ : Type*} [Fintype κ] [DecidableEq κ]

/-- Errors with mean zero, uncorrelated across observations, with variance `s2 o` for observation
`o`.  The distribution is otherwise arbitrary. -/
structure Noise (μ : Measure Ω) (eps : Ω → κ → ℝ) (s2 : κ → ℝ) : Prop where
  prob : IsProbabilityMeasure μ
  int1 : ∀ a, Integrable (fun ω => eps ω a) μ
  int2 : ∀ a b, Integrable (fun ω => eps ω a * eps ω b) μ
  mean : ∀ a, ∫ ω, eps ω a ∂μ = 0
  cov : ∀ a b, ∫ ω, eps ω a * eps ω b ∂μ = if a = b then s2 a else 0

/-- Independent square-integrable mean-zero errors are `Noise`. -/
theorem noise_of_indep (μ : Measure Ω) [IsProbabilityMeasure μ] (eps : Ω → κ → ℝ) (s2 : κ → ℝ)
    (hL2 : ∀ a, MemLp (fun ω => eps ω a) 2 μ)
    (hind : Pairwise fun a b => ProbabilityTheory.IndepFun (fun ω => eps ω a) (fun ω => eps ω b) μ)
    (hmean : ∀ a, ∫ ω, eps ω a ∂μ = 0) (hvar : ∀ a, ∫ ω, eps ω a ^ 2 ∂μ = s2 a) :
    Noise μ eps s2 where
  prob := inferInstance
  int1 a := (hL2 a).integrable (by norm_num)
  int2 a b := (hL2 a).integrable_mul (hL2 b)
  mean := hmean
  cov a b := by
    by_cases h : a = b
    · subst h; rw [if_pos rfl, ← hvar a]; congr 1; ext ω; ring
    · rw [if_neg h]
      have := (hind h).integral_mul_eq_mul_integral (hL2 a).1 (hL2 b).1
      have h2 : ∫ ω, eps ω a * eps ω b ∂μ = (∫ ω, eps ω a ∂μ) * ∫ ω, eps ω b ∂μ := this
      rw [h2, hmean a, zero_mul]

variable {μ : Measure Ω} {eps : Ω → κ → ℝ} {s2 : κ → ℝ}

/-- Product of two affine functions of the errors: integrable, with the expected expectation. -/
theorem Noise.integral_mul (h : Noise μ eps s2) (a b : ℝ) (A B : κ → ℝ) :
    Integrable (fun ω => (a + ∑ o, A o * eps ω o) * (b + ∑ o, B o * eps ω o)) μ ∧
    ∫ ω, (a + ∑ o, A o * eps ω o) * (b + ∑ o, B o * eps ω o) ∂μ = a * b + ∑ o, A o * B o * s2 o := by
  haveI := h.prob
  have hexp : (fun ω => (a + ∑ o, A o * eps ω o) * (b + ∑ o, B o * eps ω o))
      = fun ω => a * b + ∑ o, (a * B o + b * A o) * eps ω o
          + ∑ o, ∑ o', A o * B o' * (eps ω o * eps ω o') := by
    ext ω
    have h1 : (∑ o, A o * eps ω o) * (∑ o, B o * eps ω o)
        = ∑ o, ∑ o', A o * B o' * (eps ω o * eps ω o') := by
      rw [Finset.sum_mul_sum]
      refine Finset.sum_congr rfl fun o _ => Finset.sum_congr rfl fun o' _ => ?_
      ring
    have h2 : ∑ o, (a * B o + b * A o) * eps ω o
        = a * ∑ o, B o * eps ω o + b * ∑ o, A o * eps ω o := by
      rw [Finset.mul_sum, Finset.mul_sum, ← Finset.sum_add_distrib]
      exact Finset.sum_congr rfl fun o _ => by ring
    rw [h2, ← h1]; ring
  have i1 : Integrable (fun ω => ∑ o, (a * B o + b * A o) * eps ω o) μ :=
    integrable_finsetSum _ fun o _ => (h.int1 o).const_mul _
  have i2' : ∀ o, Integrable (fun ω => ∑ o', A o * B o' * (eps ω o * eps ω o')) μ := fun o =>
    integrable_finsetSum _ fun o' _ => (h.int2 o o').const_mul _
  have i2 : Integrable (fun ω => ∑ o, ∑ o', A o * B o' * (eps ω o * eps ω o')) μ :=
    integrable_finsetSum _ fun o _ => i2' o
  have i0 : Integrable (fun _ : Ω => a * b) μ := integrable_const _
  rw [hexp]
  refine ⟨(i0.add i1).add i2, ?_⟩
  have e1 : ∫ ω, (∑ o, (a * B o + b * A o) * eps ω o) ∂μ = 0 := by
    rw [integral_finsetSum _ fun o _ => (h.int1 o).const_mul _]
    refine Finset.sum_eq_zero fun o _ => ?_
    rw [integral_const_mul, h.mean, mul_zero]
  have e2 : ∫ ω, (∑ o, ∑ o', A o * B o' * (eps ω o * eps ω o')) ∂μ = ∑ o, A o * B o * s2 o := by
    rw [integral_finsetSum _ fun o _ => i2' o]
    refine Finset.sum_congr rfl fun o _ => ?_
    rw [integral_finsetSum _ fun o' _ => (h.int2 o o').const_mul _]
    simp only [integral_const_mul, h.cov, mul_ite, mul_zero]
    simp
  have e0 : ∫ _ : Ω, a * b ∂μ = a * b := by simp
  have step1 : ∫ ω, (a * b + ∑ o, (a * B o + b * A o) * eps ω o) ∂μ = a * b := by
    rw [integral_add i0 i1, e0, e1, add_zero]
  have i01 : Integrable (fun ω => a * b + ∑ o, (a * B o + b * A o) * eps ω o) μ := i0.add i1
  rw [integral_add i01 i2, e2, step1]

/-- A finite weighted sum of such products. -/
theorem Noise.integral_sum_mul (h : Noise μ eps s2) {ι : Type*} [Fintype ι] (c a b : ι → ℝ)
    (A B : ι → κ → ℝ) :
    Integrable (fun ω => ∑ i, c i * ((a i + ∑ o, A i o * eps ω o) * (b i + ∑ o, B i o * eps ω o))) μ ∧
    ∫ ω, (∑ i, c i * ((a i + ∑ o, A i o * eps ω o) * (b i + ∑ o, B i o * eps ω o))) ∂μ
      = ∑ i, c i * (a i * b i + ∑ o, A i o * B i o * s2 o) := by
  have hi : ∀ i ∈ Finset.univ, Integrable (fun ω => c i * ((a i + ∑ o, A i o * eps ω o) * (b i + ∑ o, B i o * eps ω o))) μ :=
    fun i _ => (h.integral_mul (a i) (b i) (A i) (B i)).1.const_mul _
  refine ⟨integrable_finsetSum _ hi, ?_⟩
  rw [integral_finsetSum _ hi]
  refine Finset.sum_congr rfl fun i _ => ?_
  rw [integral_const_mul, (h.integral_mul (a i) (b i) (A i) (B i)).2]

/-! ## Sign vectors -/

/-- `2 * binomial(1, 0.5) - 1` for an outcome `b` of the coin. -/
def sgn (b : Bool) : ℝ := if b then 1 else -1

theorem sgn_sq (b : Bool) : sgn b * sgn b = 1 := by cases b <;> simp [sgn]

theorem sgn_not (b : Bool) : sgn (!b) = - sgn b := by cases b <;> simp [sgn]

/-- Over all sign vectors, products of two different signs cancel. -/
theorem sum_sgn_mul {ι : Type*} [Fintype ι] [DecidableEq ι] (a b : ι) :
    ∑ z : ι → Bool, sgn (z a) * sgn (z b) = if a = b then (2 : ℝ) ^ Fintype.card ι else 0 := by
  split
  · rename_i h; subst h
    simp only [sgn_sq]
    simp
  · rename_i h
    have hinv : Function.Involutive fun z : ι → Bool => Function.update z a (!z a) := by
      intro z; funext k
      by_cases hk : k = a
      · subst hk; simp
      · simp [hk]
    have h1 := Equiv.sum_comp (hinv.toPerm _) fun z : ι → Bool => sgn (z a) * sgn (z b)
    have h2 : ∑ z : ι → Bool, sgn ((hinv.toPerm _ : Equiv.Perm (ι → Bool)) z a) * sgn ((hinv.toPerm _ : Equiv.Perm (ι → Bool)) z b)
        = - ∑ z : ι → Bool, sgn (z a) * sgn (z b) := by
      rw [← Finset.sum_neg_distrib]
      refine Finset.sum_congr rfl fun z _ => ?_
      simp [Function.Involutive.toPerm, Function.update_of_ne (Ne.symm h), sgn_not]
    linarith

theorem sum_sgn {ι : Type*} [Fintype ι] [DecidableEq ι] (a : ι) :
    ∑ z : ι → Bool, sgn (z a) = 0 := by
  have hinv : Function.Involutive fun z : ι → Bool => Function.update z a (!z a) := by
    intro z; funext k
    by_cases hk : k = a
    · subst hk; simp
    · simp [hk]
  have h1 := Equiv.sum_comp (hinv.toPerm _) fun z : ι → Bool => sgn (z a)
  have h2 : ∑ z : ι → Bool, sgn ((hinv.toPerm _ : Equiv.Perm (ι → Bool)) z a) = - ∑ z : ι → Bool, sgn (z a) := by
    rw [← Finset.sum_neg_distrib]
    refine Finset.sum_congr rfl fun z _ => ?_
    simp [Function.Involutive.toPerm, sgn_not]
  linarith

/-- Errors `± sqrt (s2 o)` with independent fair signs are `Noise`, whatever the variances.  (Used to
show that the hypotheses of the theorems can be met.) -/
theorem sign_noise (s2 : κ → ℝ) (h0 : ∀ o, 0 ≤ s2 o) :
    Noise (PMF.uniformOfFintype (κ → Bool)).toMeasure
      (fun z o => Real.sqrt (s2 o) * sgn (z o)) s2 := by
  have hint : ∀ f : (κ → Bool) → ℝ, ∫ z, f z ∂(PMF.uniformOfFintype (κ → Bool)).toMeasure
      = (∑ z, f z) / (2 : ℝ) ^ Fintype.card κ := by
    intro f
    rw [PMF.integral_eq_sum, Finset.sum_div]
    refine Finset.sum_congr rfl fun z _ => ?_
    rw [PMF.uniformOfFintype_apply]
    simp [div_eq_inv_mul]
  refine ⟨inferInstance, fun a => Integrable.of_finite, fun a b => Integrable.of_finite, fun a => ?_,
    fun a b => ?_⟩
  · rw [hint, ← Finset.mul_sum, sum_sgn]; simp
  · rw [hint]
    have : ∀ z : κ → Bool, Real.sqrt (s2 a) * sgn (z a) * (Real.sqrt (s2 b) * sgn (z b))
        = Real.sqrt (s2 a) * Real.sqrt (s2 b) * (sgn (z a) * sgn (z b)) := fun z => by ring
    simp only [this]
    rw [← Finset.mul_sum, sum_sgn_mul]
    split
    · rename_i h; subst h
      rw [Real.mul_self_sqrt (h0 a)]
      simp
    · simp

end Pytwoway.FE
