import Verif.FE.Model
import Mathlib.Tactic.FieldSimp
import Mathlib.Tactic.Ring
import Mathlib.Tactic.Linarith
import Mathlib.Tactic.FinCases
import Mathlib.Algebra.BigOperators.Field
import Mathlib.Algebra.BigOperators.Fin

/-! # C66: the non-linearity correction of approximate leverages

With random probes an observation's leverage `P` is estimated by `p / (p + m)`, where `p` and `m` are averages over
`ndraw` draws with expectations `P` and `1 - P`.  The variance estimate divides by `1 - p / (p + m) = m / (p + m)`.
Dividing by a noisy number is biased; the factor is there to remove that bias to second order. -/

namespace Pytwoway.FE

open scoped BigOperators

/-- Second-order term of `(p + m) / m` around `(P, 1 - P)` in the direction `(a, b)`. -/
noncomputable def secondOrder (P a b : ℝ) : ℝ := P * b ^ 2 / (1 - P) ^ 3 - a * b / (1 - P) ^ 2

/-- The expansion behind `secondOrder`, with its exact third-order remainder. -/
theorem inverse_expansion (P a b : ℝ) (hP : 1 - P ≠ 0) (hb : 1 - P + b ≠ 0) :
    (P + a + (1 - P + b)) / (1 - P + b) = 1 / (1 - P) + (a / (1 - P) - P * b / (1 - P) ^ 2) + secondOrder P a b
      + b ^ 2 * ((1 - P) * a - P * b) / ((1 - P) ^ 3 * (1 - P + b)) := by
  unfold secondOrder
  field_simp
  ring

/-- Equally likely draws `(p k, m k)` with averages `P` and `1 - P`; the factor that removes the second-order bias of
`1 / (1 - P)` when `ndraw` independent draws are averaged. -/
noncomputable def idealFactor {N : ℕ} (ndraw : ℕ) (P : ℝ) (p m : Fin N → ℝ) : ℝ :=
  1 - (1 / (ndraw : ℝ)) * ((1 - P) * ((∑ k, secondOrder P (p k - P) (m k - (1 - P))) / (N : ℝ)))

/-- C66 fails: the factor the code applies differs from the one that removes the second-order bias by
`-(1/ndraw) (2 M E[p²] - 2 P E[m²] + 3 (M - P) E[p m]) / M`, with `M = 1 - P`: a term enters with the wrong sign and a
cross term twice. -/
theorem C66_factor {N : ℕ} (hN : 0 < N) (ndraw : ℕ) (P : ℝ) (hP : 1 - P ≠ 0) (p m : Fin N → ℝ)
    (hp : (∑ k, p k) / (N : ℝ) = P) (hm : (∑ k, m k) / (N : ℝ) = 1 - P) :
    Panel.jlaFactor ndraw P ((∑ k, p k ^ 2) / (N : ℝ)) ((∑ k, m k ^ 2) / (N : ℝ)) ((∑ k, p k * m k) / (N : ℝ))
      = idealFactor ndraw P p m - (1 / (ndraw : ℝ)) * ((2 * (1 - P) * ((∑ k, p k ^ 2) / (N : ℝ))
          - 2 * P * ((∑ k, m k ^ 2) / (N : ℝ)) + 3 * ((1 - P) - P) * ((∑ k, p k * m k) / (N : ℝ))) / (1 - P)) := by
  have hN' : (N : ℝ) ≠ 0 := by exact_mod_cast hN.ne'
  have e : (∑ k, secondOrder P (p k - P) (m k - (1 - P))) / (N : ℝ)
      = P * ((∑ k, m k ^ 2) / (N : ℝ) - (1 - P) ^ 2) / (1 - P) ^ 3
        - ((∑ k, p k * m k) / (N : ℝ) - P * (1 - P)) / (1 - P) ^ 2 := by
    have : ∀ k, secondOrder P (p k - P) (m k - (1 - P)) = P / (1 - P) ^ 3 * m k ^ 2
        - 1 / (1 - P) ^ 2 * (p k * m k) + (P / (1 - P) ^ 2 - 2 * P / (1 - P) ^ 2) * m k + (1 / (1 - P)) * p k
        + (P / (1 - P) - P / (1 - P)) := by
      intro k; unfold secondOrder; field_simp; ring
    simp only [this, Finset.sum_add_distrib, Finset.sum_sub_distrib, ← Finset.mul_sum, Finset.sum_const, sub_self,
      smul_zero, add_zero]
    rw [show ∑ k, m k = (1 - P) * N by rw [← hm]; field_simp, show ∑ k, p k = P * N by
      rw [div_eq_iff hN'] at hp; exact hp]
    field_simp
    ring
  unfold Panel.jlaFactor idealFactor
  rw [e]
  generalize (∑ k, p k ^ 2) / (N : ℝ) = A
  generalize (∑ k, m k ^ 2) / (N : ℝ) = B
  generalize (∑ k, p k * m k) / (N : ℝ) = C
  simp only
  field_simp
  ring

/-- C66, a concrete case: draws `(1/2, 1/2)` and `(0, 1)`, leverage 1/4, 200 draws.  The right factor is `1799/1800`, the
code's `1 - 7/7200`. -/
theorem C66_wrong_example :
    idealFactor 200 (1 / 4) ![1 / 2, 0] ![1 / 2, 1] = 1 - 4 / 7200 ∧
    Panel.jlaFactor 200 (1 / 4) ((∑ k, (![1 / 2, 0] : Fin 2 → ℝ) k ^ 2) / 2) ((∑ k, (![1 / 2, 1] : Fin 2 → ℝ) k ^ 2) / 2)
      ((∑ k, (![1 / 2, 0] : Fin 2 → ℝ) k * (![1 / 2, 1] : Fin 2 → ℝ) k) / 2) = 1 - 7 / 7200 := by
  constructor
  · simp [idealFactor, secondOrder, Fin.sum_univ_two]; norm_num
  · simp [Panel.jlaFactor, Fin.sum_univ_two]; norm_num

/-- C66: what holds is that the factor is right where the misplaced terms cancel: draws with `E[p²] = E[m²]` and
leverage one half. -/
theorem C66_half_partial {N : ℕ} (hN : 0 < N) (ndraw : ℕ) (p m : Fin N → ℝ) (hp : (∑ k, p k) / (N : ℝ) = 1 / 2)
    (hm : (∑ k, m k) / (N : ℝ) = 1 / 2) (h2 : ∑ k, p k ^ 2 = ∑ k, m k ^ 2) :
    Panel.jlaFactor ndraw (1 / 2) ((∑ k, p k ^ 2) / (N : ℝ)) ((∑ k, m k ^ 2) / (N : ℝ)) ((∑ k, p k * m k) / (N : ℝ))
      = idealFactor ndraw (1 / 2) p m := by
  rw [C66_factor hN ndraw (1 / 2) (by norm_num) p m hp (by rw [hm]; norm_num), h2]
  ring

example : (∑ k, (![1, 0] : Fin 2 → ℝ) k) / ((2 : ℕ) : ℝ) = 1 / 2 ∧ (∑ k, (![0, 1] : Fin 2 → ℝ) k) / ((2 : ℕ) : ℝ) = 1 / 2 ∧
    ∑ k, (![1, 0] : Fin 2 → ℝ) k ^ 2 = ∑ k, (![0, 1] : Fin 2 → ℝ) k ^ 2 := by
  simp [Fin.sum_univ_two]

end Pytwoway.FE
