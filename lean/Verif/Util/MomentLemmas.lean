import Verif.Util.Model
import Mathlib.Tactic.FieldSimp
import Mathlib.Tactic.Ring
import Mathlib.Tactic.Linarith
import Mathlib.Algebra.Order.BigOperators.Group.Finset
import Mathlib.Algebra.BigOperators.Field
import Mathlib.Algebra.BigOperators.Ring.Finset

/-! Helper lemmas about the weighted moments. -/

namespace Pytwoway.Util

open scoped BigOperators

variable {ι : Type*} [Fintype ι]

theorem weightedMean_add (x y : ι → ℝ) (w : Weight ι) :
    weightedMean (fun i => x i + y i) w = weightedMean x w + weightedMean y w := by
  cases w with
  | scalar c => simp [weightedMean, Finset.sum_add_distrib, add_div]
  | vec w => simp [weightedMean, mul_add, Finset.sum_add_distrib, add_div]

theorem weightedMean_smul (a : ℝ) (x : ι → ℝ) (w : Weight ι) :
    weightedMean (fun i => a * x i) w = a * weightedMean x w := by
  cases w with
  | scalar c => simp [weightedMean, ← Finset.mul_sum, mul_div_assoc]
  | vec w =>
    simp only [weightedMean, ← mul_div_assoc, Finset.mul_sum]
    congr 1; apply Finset.sum_congr rfl; intros; ring

/-- The weights are usable: some observation, and for an array a nonzero total. -/
def Weight.Usable : Weight ι → Prop
  | .scalar _ => 0 < Fintype.card ι
  | .vec w => ∑ i, w i ≠ 0

theorem weightedMean_const (c : ℝ) (w : Weight ι) (h : w.Usable) :
    weightedMean (fun _ : ι => c) w = c := by
  cases w with
  | scalar _ =>
    have : (Fintype.card ι : ℝ) ≠ 0 := by
      have : 0 < Fintype.card ι := h
      positivity
    simp [weightedMean]; field_simp
  | vec w =>
    have : ∑ i, w i ≠ 0 := h
    simp only [weightedMean, ← Finset.sum_mul]; field_simp

theorem weightedMean_shift (c : ℝ) (x : ι → ℝ) (w : Weight ι) (h : w.Usable) :
    weightedMean (fun i => x i + c) w = weightedMean x w + c := by
  rw [weightedMean_add x (fun _ => c), weightedMean_const c w h]

end Pytwoway.Util
