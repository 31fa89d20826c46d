import Mathlib.Tactic.FieldSimp
import Mathlib.Tactic.FinCases
import Mathlib.Tactic.Linarith
import Mathlib.Algebra.BigOperators.Group.Finset.Sigma
import Mathlib.Algebra.Order.BigOperators.Ring.Finset
import Mathlib.LinearAlgebra.Matrix.ToLinearEquiv
import Mathlib.LinearAlgebra.Eigenspace.Minpoly
import Verif.Interacted.Model

/-! # C41: the linear moment conditions of the interacted model -/

namespace Pytwoway.Interacted

open Finset

variable {ni nf : ℕ}

/-! ## Specification -/

/-- The moment of one mover: the worker effect implied by the second wage less the one implied by the
first. -/
noncomputable def Spec.moment (d : Data ni nf) (x : Effects nf) (i : Fin ni) : ℝ :=
  (d.Y2 i - x.A2 (d.J2 i)) / x.B2 (d.J2 i) - (d.Y1 i - x.A1 (d.J1 i)) / x.B1 (d.J1 i)

/-- Parameters of the kind the estimator looks for: non-zero slopes, the intercept of firm 0 in period
one is zero, and the chosen restrictions hold. -/
structure Spec.Admissible (o : Opts) (x : Effects nf) : Prop where
  b1 : ∀ j, x.B1 j ≠ 0
  b2 : ∀ j, x.B2 j ≠ 0
  a0 : ∀ j : Fin nf, j.val = 0 → x.A1 j = 0
  statB : o.statB = true → x.B2 = x.B1
  statA : o.statA = true → ∀ j, x.A2 j / x.B2 j = x.A1 j / x.B1 j

/-! ## Sums of stacked matrices -/

theorem sum_hcat (wa wb : ℕ) (A B : Fin ni → ℕ → ℝ) (i : Fin ni) (β : ℕ → ℝ) :
    ∑ c ∈ range (wa + wb), hcat wa A B i c * β c =
      ∑ c ∈ range wa, A i c * β c + ∑ c ∈ range wb, B i c * β (wa + c) := by
  rw [sum_range_add]
  congr 1
  · exact sum_congr rfl fun c hc => by rw [hcat, if_pos (mem_range.mp hc)]
  · refine sum_congr rfl fun c _ => ?_
    rw [hcat, if_neg (by omega), Nat.add_sub_cancel_left]

theorem sum_YY (Y : Fin ni → ℝ) (J : Fin ni → Fin nf) (i : Fin ni) (β : ℕ → ℝ) :
    ∑ c ∈ range nf, YY Y J i c * β c = Y i * β (J i).val := by
  simp only [YY, ite_mul, zero_mul, sum_ite_eq', mem_range, (J i).isLt, if_true]

theorem sum_JJ (J : Fin ni → Fin nf) (i : Fin ni) (β : ℕ → ℝ) :
    ∑ c ∈ range nf, JJ J i c * β c = β (J i).val := by
  simp only [JJ, ite_mul, one_mul, zero_mul, sum_ite_eq', mem_range, (J i).isLt, if_true]

theorem sum_drop1_JJ (J : Fin ni → Fin nf) (i : Fin ni) (β : ℕ → ℝ) :
    ∑ c ∈ range (nf - 1), drop1 (JJ J) i c * β c =
      if (J i).val = 0 then 0 else β ((J i).val - 1) := by
  simp only [drop1, JJ]
  split
  · rename_i h
    refine sum_eq_zero fun c _ => ?_
    rw [h, if_neg (by omega), zero_mul]
  · rename_i h
    rw [sum_eq_single ((J i).val - 1)]
    · rw [if_pos (by omega), one_mul]
    · intro c _ hc
      rw [if_neg (by omega), zero_mul]
    · intro hc
      exact absurd (mem_range.mpr (by have := (J i).isLt; omega)) hc

theorem sum_X2 (d : Data ni nf) (statA : Bool) (i : Fin ni) (β : ℕ → ℝ) :
    ∑ c ∈ range (w2 nf statA), X2 d statA i c * β c =
      (if (d.J1 i).val = 0 then 0 else β ((d.J1 i).val - 1)) -
      if statA then (if (d.J2 i).val = 0 then 0 else β ((d.J2 i).val - 1))
      else β (nf - 1 + (d.J2 i).val) := by
  cases statA
  · simp only [w2, X2, Bool.false_eq_true, if_false]
    rw [sum_hcat, sum_drop1_JJ]
    simp only [neg_mul, sum_neg_distrib]
    rw [sum_JJ d.J2 i fun c => β (nf - 1 + c), sub_eq_add_neg]
  · simp only [w2, X2, if_true]
    rw [← sum_drop1_JJ, ← sum_drop1_JJ, ← sum_sub_distrib]
    exact sum_congr rfl fun c _ => by simp only [drop1]; ring

theorem sum_X1 (d : Data ni nf) (statB : Bool) (i : Fin ni) (β : ℕ → ℝ) :
    ∑ c ∈ range (w1 nf statB), X1 d statB i c * β c =
      d.Y2 i * (if statB then β (d.J2 i).val else β (nf + (d.J2 i).val)) - d.Y1 i * β (d.J1 i).val := by
  cases statB
  · simp only [w1, X1, Bool.false_eq_true, if_false]
    rw [sum_hcat]
    simp only [neg_mul, sum_neg_distrib]
    rw [sum_YY, sum_YY d.Y2 d.J2 i fun c => β (nf + c)]
    ring
  · simp only [w1, X1, if_true]
    rw [← sum_YY, ← sum_YY, ← sum_sub_distrib]
    exact sum_congr rfl fun c _ => by ring

/-! ## Layout -/

/-- The regression residual of row `i` at coefficients `β`. -/
def resid (d : Data ni nf) (o : Opts) (β : ℕ → ℝ) (i : Fin ni) : ℝ :=
  ∑ c ∈ range (ncol nf o), XX d o i c * β c

/-- C41, layout: without profiling, whatever the method that produced the coefficients, the regression
residual of every mover at `beta_hat` is the moment of that mover at the effects returned, provided the
slope coefficients are not zero. -/
theorem C41_layout (d : Data ni nf) (o : Opts) (hprof : o.profiling = false) (β : ℕ → ℝ)
    (hβ : ∀ c < w1 nf o.statB, β c ≠ 0) (i : Fin ni) :
    ∑ c ∈ range (ncol nf o), XX d o i c * β c = Spec.moment d (extract nf o β) i := by
  have h1 : (d.J1 i).val < nf := (d.J1 i).isLt
  have h2 : (d.J2 i).val < nf := (d.J2 i).isLt
  have e : ∑ c ∈ range (ncol nf o), XX d o i c * β c =
      ∑ c ∈ range (w1 nf o.statB), X1 d o.statB i c * β c +
        ∑ c ∈ range (w2 nf o.statA), X2 d o.statA i c * β (w1 nf o.statB + c) := sum_hcat _ _ _ _ _ _
  rw [e, sum_X1, sum_X2 d o.statA i fun c => β (w1 nf o.statB + c)]
  have n1 : β (d.J1 i).val ≠ 0 := hβ _ (by unfold w1; split <;> omega)
  have n2 : β (d.J2 i).val ≠ 0 := hβ _ (by unfold w1; split <;> omega)
  unfold Spec.moment extract
  simp only [hprof, Bool.or_false]
  cases hB : o.statB
  · have n3 : β (nf + (d.J2 i).val) ≠ 0 := hβ _ (by rw [hB]; simp only [w1, Bool.false_eq_true, if_false]; omega)
    cases hA : o.statA
    · simp only [w1, Bool.false_eq_true, if_false]
      have : nf + nf + (nf - 1 + (d.J2 i).val) = nf + nf + (nf - 1) + (d.J2 i).val := by omega
      rw [this]
      field_simp
      ring
    · simp only [w1, Bool.false_eq_true, if_false, if_true]
      field_simp
      ring
  · cases hA : o.statA
    · simp only [w1, Bool.false_eq_true, if_false, if_true]
      have : nf + (nf - 1 + (d.J2 i).val) = nf + (nf - 1) + (d.J2 i).val := by omega
      rw [this]
      field_simp
      ring
    · simp only [w1, if_true]
      field_simp
      ring

/-- The coefficients of given effects. -/
noncomputable def coeffs (o : Opts) (x : Effects nf) (c : ℕ) : ℝ :=
  if c < nf then ext nf (fun j => 1 / x.B1 j) c
  else if c < w1 nf o.statB then ext nf (fun j => 1 / x.B2 j) (c - nf)
  else if c < w1 nf o.statB + (nf - 1) then ext nf (fun j => x.A1 j / x.B1 j) (c - w1 nf o.statB + 1)
  else ext nf (fun j => x.A2 j / x.B2 j) (c - w1 nf o.statB - (nf - 1))

theorem ext_lt {n : ℕ} (v : Fin n → ℝ) (j : Fin n) : ext n v j.val = v j := by
  simp [ext]

theorem coeffs_b1 (o : Opts) (x : Effects nf) (j : Fin nf) : coeffs o x j.val = 1 / x.B1 j := by
  rw [coeffs, if_pos j.isLt, ext_lt]

theorem coeffs_b2 (o : Opts) (hB : o.statB = false) (x : Effects nf) (j : Fin nf) :
    coeffs o x (nf + j.val) = 1 / x.B2 j := by
  have := j.isLt
  rw [coeffs, if_neg (by omega), if_pos (by simp only [w1, hB, Bool.false_eq_true, if_false]; omega),
    Nat.add_sub_cancel_left, ext_lt]

theorem w1_ge (nf : ℕ) (b : Bool) : nf ≤ w1 nf b := by unfold w1; split <;> omega

theorem coeffs_a1 (o : Opts) (x : Effects nf) (j : Fin nf) (hj : j.val ≠ 0) :
    coeffs o x (w1 nf o.statB + (j.val - 1)) = x.A1 j / x.B1 j := by
  have := j.isLt
  have := w1_ge nf o.statB
  rw [coeffs, if_neg (by omega), if_neg (by omega), if_pos (by omega)]
  have : w1 nf o.statB + (j.val - 1) - w1 nf o.statB + 1 = j.val := by omega
  rw [this, ext_lt]

theorem coeffs_a2 (o : Opts) (x : Effects nf) (j : Fin nf) :
    coeffs o x (w1 nf o.statB + (nf - 1) + j.val) = x.A2 j / x.B2 j := by
  have := j.isLt
  have := w1_ge nf o.statB
  rw [coeffs, if_neg (by omega), if_neg (by omega), if_neg (by omega)]
  have : w1 nf o.statB + (nf - 1) + j.val - w1 nf o.statB - (nf - 1) = j.val := by omega
  rw [this, ext_lt]

/-- C41, layout, converse: every admissible set of effects is read back from its own coefficients. -/
theorem C41_extract_coeffs (o : Opts) (hprof : o.profiling = false) (x : Effects nf)
    (hx : Spec.Admissible o x) : extract nf o (coeffs o x) = x := by
  have hB1 : ∀ j, x.B1 j ≠ 0 := hx.b1
  have hB2 : ∀ j, x.B2 j ≠ 0 := hx.b2
  have hA1 : ∀ j : Fin nf, (if j.val = 0 then 0 else coeffs o x (w1 nf o.statB + (j.val - 1))) *
      (1 / coeffs o x j.val) = x.A1 j := by
    intro j
    rw [coeffs_b1]
    have := hB1 j
    split
    · rename_i h; rw [hx.a0 j h, zero_mul]
    · rename_i h; rw [coeffs_a1 o x j h]; field_simp
  have hb1 : ∀ j : Fin nf, 1 / coeffs o x j.val = x.B1 j := fun j => by rw [coeffs_b1]; simp
  have hb2 : ∀ j : Fin nf, (if o.statB then fun j : Fin nf => 1 / coeffs o x j.val
      else fun j : Fin nf => 1 / coeffs o x (nf + j.val)) j = x.B2 j := by
    intro j
    cases hB : o.statB
    · simp only [Bool.false_eq_true, if_false]
      rw [coeffs_b2 o hB]; simp
    · simp only [if_true]
      rw [hb1, hx.statB hB]
  unfold extract
  simp only [hprof, Bool.or_false]
  ext j
  · exact hA1 j
  · cases hA : o.statA
    · simp only [Bool.false_eq_true, if_false]
      rw [hb2, coeffs_a2]
      have := hB2 j
      field_simp
    · simp only [if_true]
      rw [hb2, hA1, hb1]
      have h := hx.statA hA j
      have := hB2 j
      have := hB1 j
      field_simp at h ⊢
      linarith
  · exact hb1 j
  · exact hb2 j

theorem coeffs_ne (o : Opts) (x : Effects nf) (hx : Spec.Admissible o x) (c : ℕ)
    (hc : c < w1 nf o.statB) : coeffs o x c ≠ 0 := by
  by_cases h : c < nf
  · have := coeffs_b1 o x ⟨c, h⟩
    simp only at this
    rw [this]
    exact one_div_ne_zero (hx.b1 _)
  · cases hB : o.statB
    · rw [hB] at hc
      simp only [w1, Bool.false_eq_true, if_false] at hc
      have := coeffs_b2 o hB x ⟨c - nf, by omega⟩
      simp only at this
      rw [Nat.add_sub_cancel' (by omega)] at this
      rw [this]
      exact one_div_ne_zero (hx.b2 _)
    · rw [hB] at hc
      simp only [w1, if_true] at hc
      omega

theorem extract_congr (o : Opts) (hprof : o.profiling = false) (β β' : ℕ → ℝ)
    (hβ : ∀ c < ncol nf o, β c = β' c) : extract nf o β = extract nf o β' := by
  unfold extract
  simp only [hprof, Bool.or_false]
  have hw1 := w1_ge nf o.statB
  have hw2 : nf - 1 ≤ w2 nf o.statA := by unfold w2; split <;> omega
  have e1 : ∀ j : Fin nf, β j.val = β' j.val := fun j =>
    hβ _ (by have := j.isLt; unfold ncol; omega)
  have e2 : o.statB = false → ∀ j : Fin nf, β (nf + j.val) = β' (nf + j.val) := fun hB j =>
    hβ _ (by
      have := j.isLt
      simp only [ncol, w1, hB, Bool.false_eq_true, if_false]
      omega)
  have e3 : ∀ j : Fin nf, j.val ≠ 0 → β (w1 nf o.statB + (j.val - 1)) =
      β' (w1 nf o.statB + (j.val - 1)) := fun j hj =>
    hβ _ (by have := j.isLt; unfold ncol; omega)
  have e4 : o.statA = false → ∀ j : Fin nf, β (w1 nf o.statB + (nf - 1) + j.val) =
      β' (w1 nf o.statB + (nf - 1) + j.val) := fun hA j =>
    hβ _ (by
      have := j.isLt
      simp only [ncol, w2, hA, Bool.false_eq_true, if_false]
      omega)
  have f3 : ∀ j : Fin nf, (if j.val = 0 then (0 : ℝ) else β (w1 nf o.statB + (j.val - 1))) =
      if j.val = 0 then 0 else β' (w1 nf o.statB + (j.val - 1)) := by
    intro j
    by_cases hj : j.val = 0
    · simp [hj]
    · rw [if_neg hj, if_neg hj, e3 j hj]
  simp only [e1, f3]
  cases hB : o.statB
  · simp only [Bool.false_eq_true, if_false, e2 hB]
    cases hA : o.statA
    · rw [hB] at e4
      simp only [Bool.false_eq_true, if_false, e4 hA]
    · simp
  · simp only [if_true]
    cases hA : o.statA
    · rw [hB] at e4
      simp only [Bool.false_eq_true, if_false, e4 hA]
    · simp

theorem resid_coeffs (d : Data ni nf) (o : Opts) (hprof : o.profiling = false) (x : Effects nf)
    (hx : Spec.Admissible o x) (i : Fin ni) : resid d o (coeffs o x) i = Spec.moment d x i := by
  rw [resid, C41_layout d o hprof _ (coeffs_ne o x hx), C41_extract_coeffs o hprof x hx]

/-! ## Stationary intercepts -/

/-- `stationary_a` constrains `a / b`, not `a`: the returned intercepts satisfy
`A2 / B2 = A1 / B1`, and they are equal in both periods exactly when the slopes are or they are zero.
(The documentation says "constrain a1==a2".) -/
theorem C41_stationary_a (o : Opts) (hprof : o.profiling = false) (hA : o.statA = true) (β : ℕ → ℝ)
    (hβ : ∀ c < w1 nf o.statB, β c ≠ 0) (j : Fin nf) :
    let x := extract nf o β
    x.A2 j / x.B2 j = x.A1 j / x.B1 j ∧ (x.A2 j = x.A1 j ↔ x.B2 j = x.B1 j ∨ x.A1 j = 0) := by
  have h1 : (1 : ℝ) / β j.val ≠ 0 :=
    one_div_ne_zero (hβ _ (lt_of_lt_of_le j.isLt (w1_ge nf o.statB)))
  have key : ∀ (a b1 b2 : ℝ), b1 ≠ 0 → b2 ≠ 0 →
      a * (b2 / b1) / b2 = a / b1 ∧ (a * (b2 / b1) = a ↔ b2 = b1 ∨ a = 0) := by
    intro a b1 b2 h1 h2
    refine ⟨by field_simp, ?_⟩
    constructor
    · intro h
      by_cases ha : a = 0
      · exact Or.inr ha
      · left
        field_simp at h
        exact h
    · rintro (rfl | rfl)
      · field_simp
      · simp
  simp only [extract, hprof, Bool.or_false, hA, if_true]
  refine key _ _ _ h1 ?_
  split
  · exact h1
  · rename_i hB
    refine one_div_ne_zero (hβ _ ?_)
    have := j.isLt
    simp only [w1, hB, if_false]
    simp only [Bool.false_eq_true, if_false]
    omega

/-! ## `liml_1` -/

variable (key : Fin ni → ℕ)

theorem zsum_linear (u : Fin ni → ℝ) (n : ℕ) (F : Fin ni → ℕ → ℝ) (v : ℕ → ℝ) (z : ℕ) :
    ∑ c ∈ range n, zsum key u (fun i => F i c) z * v c =
      zsum key u (fun i => ∑ c ∈ range n, F i c * v c) z := by
  simp only [zsum, sum_mul, mul_sum]
  rw [sum_comm]
  exact sum_congr rfl fun i _ => sum_congr rfl fun c _ => by ring

theorem sum_fin_ext {n : ℕ} (f : ℕ → ℝ) (v : Fin n → ℝ) :
    ∑ c : Fin n, f c.val * v c = ∑ c ∈ range n, f c * ext n v c := by
  rw [← Fin.sum_univ_eq_sum_range fun c => f c * ext n v c]
  exact sum_congr rfl fun c _ => by rw [ext_lt]

/-- Group sums of residuals. -/
def groupMoment (d : Data ni nf) (o : Opts) (β : ℕ → ℝ) (z : ℕ) : ℝ := zsum key d.D (resid d o β) z

theorem Wx_mulVec (d : Data ni nf) (o : Opts) (v : Fin (ncol nf o) → ℝ) (a : Fin (ncol nf o)) :
    (Wx d o).mulVec v a = ∑ i, d.D i * XX d o i a.val * resid d o (ext _ v) i := by
  simp only [Matrix.mulVec, dotProduct, Wx, sum_mul, resid, mul_sum]
  rw [sum_comm]
  refine sum_congr rfl fun i _ => ?_
  rw [← Fin.sum_univ_eq_sum_range fun c => d.D i * XX d o i a.val * (XX d o i c * ext _ v c)]
  exact sum_congr rfl fun c _ => by rw [ext_lt]; ring

theorem Wx_quad (d : Data ni nf) (o : Opts) (v : Fin (ncol nf o) → ℝ) :
    ∑ a, v a * (Wx d o).mulVec v a = ∑ i, d.D i * resid d o (ext _ v) i ^ 2 := by
  simp only [Wx_mulVec, mul_sum]
  rw [sum_comm]
  refine sum_congr rfl fun i _ => ?_
  have : resid d o (ext _ v) i = ∑ a : Fin (ncol nf o), XX d o i a.val * v a := by
    rw [resid, sum_fin_ext (fun c => XX d o i c)]
  rw [sq, ← mul_assoc]
  nth_rewrite 3 [this]
  rw [mul_sum]
  exact sum_congr rfl fun a _ => by ring

theorem Wz_mulVec (d : Data ni nf) (o : Opts) (v : Fin (ncol nf o) → ℝ) (a : Fin (ncol nf o)) :
    (Wz d o key).mulVec v a = ∑ z ∈ univ.image key, zsum key d.D (fun i => XX d o i a.val) z *
      (1 / (zsum key d.D (fun _ => 1) z + o.tik)) * groupMoment key d o (ext _ v) z := by
  simp only [Matrix.mulVec, dotProduct, Wz, sum_mul]
  rw [sum_comm]
  refine sum_congr rfl fun z _ => ?_
  rw [groupMoment]
  have : resid d o (ext (ncol nf o) v) =
      fun i => ∑ c ∈ range (ncol nf o), XX d o i c * ext _ v c := rfl
  rw [this, ← zsum_linear, mul_sum,
    ← Fin.sum_univ_eq_sum_range fun c => zsum key d.D (fun i => XX d o i a.val) z *
      (1 / (zsum key d.D (fun _ => 1) z + o.tik)) * (zsum key d.D (fun i => XX d o i c) z * ext _ v c)]
  exact sum_congr rfl fun c _ => by rw [ext_lt]; ring

theorem Wz_quad (d : Data ni nf) (o : Opts) (v : Fin (ncol nf o) → ℝ) :
    ∑ a, v a * (Wz d o key).mulVec v a = ∑ z ∈ univ.image key,
      (1 / (zsum key d.D (fun _ => 1) z + o.tik)) * groupMoment key d o (ext _ v) z ^ 2 := by
  simp only [Wz_mulVec, mul_sum]
  rw [sum_comm]
  refine sum_congr rfl fun z _ => ?_
  have : groupMoment key d o (ext (ncol nf o) v) z =
      ∑ a : Fin (ncol nf o), zsum key d.D (fun i => XX d o i a.val) z * v a := by
    rw [sum_fin_ext (fun c => zsum key d.D (fun i => XX d o i c) z), zsum_linear]; rfl
  rw [sq, ← mul_assoc]
  nth_rewrite 3 [this]
  rw [mul_sum]
  exact sum_congr rfl fun a _ => by ring

theorem zsum_pos (d : Data ni nf) (hD : ∀ i, 0 < d.D i) (z : ℕ) (hz : z ∈ univ.image key) :
    0 < zsum key d.D (fun _ => 1) z := by
  obtain ⟨i, -, rfl⟩ := mem_image.mp hz
  refine sum_pos (fun i _ => by simpa using hD i) ⟨i, by simp⟩

/-- C41, `liml_1`: if, in every firm pair, the weighted average of the moments at the effects `x` is zero,
and no other direction of the coefficients has that property, then the effects returned are exactly
`x`.  (`Wx` singular is the case in which the method raises.) -/
theorem C41_liml1_recovers (e : EigVec) (he : e.Right) (d : Data ni nf) (o : Opts)
    (hprof : o.profiling = false) (hD : ∀ i, 0 < d.D i) (htik : 0 ≤ o.tik) (x : Effects nf)
    (hx : Spec.Admissible o x) (hn : o.normFid < nf) (hnorm : x.B1 ⟨o.normFid, hn⟩ = 1)
    (hmom : ∀ z, ∑ i with key i = z, d.D i * Spec.moment d x i = 0)
    (hid : ∀ β : ℕ → ℝ, (∀ z, ∑ i with key i = z,
        d.D i * ∑ c ∈ range (ncol nf o), XX d o i c * β c = 0) →
      ∃ r : ℝ, ∀ c < ncol nf o, β c = r * coeffs o x c)
    (β : ℕ → ℝ) (h : liml1 e d o key = .ok β) : extract nf o β = x := by
  unfold liml1 at h
  split at h
  · cases h
  rename_i hdet
  have hncol : nf ≤ ncol nf o := le_trans (w1_ge nf o.statB) (Nat.le_add_right _ _)
  -- the true direction is an eigenvector for zero
  set v0 : Fin (ncol nf o) → ℝ := fun c => coeffs o x c.val with hv0
  have hext0 : ∀ c < ncol nf o, ext _ v0 c = coeffs o x c := fun c hc => by simp [ext, hc, hv0]
  have hres0 : ∀ i, resid d o (ext _ v0) i = Spec.moment d x i := by
    intro i
    rw [← resid_coeffs d o hprof x hx i]
    exact sum_congr rfl fun c hc => by rw [hext0 c (mem_range.mp hc)]
  have hg0 : ∀ z, groupMoment key d o (ext _ v0) z = 0 := by
    intro z
    rw [groupMoment, zsum]
    simp only [hres0]
    exact hmom z
  have hz0 : (Wz d o key).mulVec v0 = 0 := by
    funext a
    rw [Wz_mulVec]
    exact sum_eq_zero fun z _ => by rw [hg0, mul_zero]
  have hc1 : coeffs o x o.normFid = 1 := by
    have := coeffs_b1 o x ⟨o.normFid, hn⟩
    simp only at this
    rw [this, hnorm]; norm_num
  have hv0ne : v0 ≠ 0 := by
    intro h0
    have := congrFun h0 ⟨o.normFid, by omega⟩
    rw [hv0] at this
    simp only [hc1, Pi.zero_apply] at this
    exact one_ne_zero this
  have heig0 : ((Wx d o)⁻¹ * Wz d o key).mulVec v0 = (0 : ℝ) • v0 := by
    rw [← Matrix.mulVec_mulVec, hz0, Matrix.mulVec_zero, zero_smul]
  obtain ⟨hpairs, hlist⟩ := he _ ((Wx d o)⁻¹ * Wz d o key)
  obtain ⟨p0, hp0, hp0z⟩ := hlist 0 v0 hv0ne heig0
  cases harg : (e.pairs ((Wx d o)⁻¹ * Wz d o key)).argmin Prod.fst with
  | none =>
    rw [List.argmin_eq_none] at harg
    rw [harg] at hp0; cases hp0
  | some p =>
    rw [harg] at h
    dsimp only at h
    rw [if_pos (show o.normFid < ncol nf o by omega)] at h
    cases h
    have hpmem : p ∈ e.pairs ((Wx d o)⁻¹ * Wz d o key) := List.argmin_mem harg
    have hple : p.1 ≤ 0 := by
      have := List.le_of_mem_argmin hp0 harg
      rwa [hp0z] at this
    obtain ⟨hpne, hpe⟩ := hpairs p hpmem
    have hunit : IsUnit (Wx d o).det := isUnit_iff_ne_zero.mpr hdet
    have hWz : (Wz d o key).mulVec p.2 = p.1 • (Wx d o).mulVec p.2 := by
      rw [← Matrix.mulVec_smul, ← hpe, Matrix.mulVec_mulVec, ← Matrix.mul_assoc,
        Matrix.mul_nonsing_inv _ hunit, Matrix.one_mul]
    have hq : ∑ z ∈ univ.image key, (1 / (zsum key d.D (fun _ => 1) z + o.tik)) *
        groupMoment key d o (ext _ p.2) z ^ 2 = p.1 * ∑ i, d.D i * resid d o (ext _ p.2) i ^ 2 := by
      rw [← Wz_quad, ← Wx_quad, hWz, mul_sum]
      exact sum_congr rfl fun a _ => by simp only [Pi.smul_apply, smul_eq_mul]; ring
    have hden : ∀ z ∈ univ.image key, 0 < 1 / (zsum key d.D (fun _ => 1) z + o.tik) := fun z hz =>
      one_div_pos.mpr (by linarith [zsum_pos key d hD z hz])
    have hterm : ∀ z ∈ univ.image key, 0 ≤ (1 / (zsum key d.D (fun _ => 1) z + o.tik)) *
        groupMoment key d o (ext _ p.2) z ^ 2 := fun z hz =>
      mul_nonneg (hden z hz).le (sq_nonneg _)
    have hrhs : p.1 * ∑ i, d.D i * resid d o (ext _ p.2) i ^ 2 ≤ 0 :=
      mul_nonpos_of_nonpos_of_nonneg hple
        (sum_nonneg fun i _ => mul_nonneg (hD i).le (sq_nonneg _))
    have hzero : ∑ z ∈ univ.image key, (1 / (zsum key d.D (fun _ => 1) z + o.tik)) *
        groupMoment key d o (ext _ p.2) z ^ 2 = 0 :=
      le_antisymm (by rw [hq]; exact hrhs) (sum_nonneg hterm)
    rw [sum_eq_zero_iff_of_nonneg hterm] at hzero
    have hg : ∀ z, groupMoment key d o (ext _ p.2) z = 0 := by
      intro z
      by_cases hz : z ∈ univ.image key
      · rcases mul_eq_zero.mp (hzero z hz) with h | h
        · exact absurd h (hden z hz).ne'
        · exact pow_eq_zero_iff (two_ne_zero) |>.mp h
      · rw [groupMoment, zsum, sum_eq_zero]
        intro i hi
        exact absurd (mem_image.mpr ⟨i, mem_univ i, (mem_filter.mp hi).2⟩) hz
    obtain ⟨r, hr⟩ := hid (ext _ p.2) hg
    have hrne : r ≠ 0 := by
      rintro rfl
      apply hpne
      funext c
      have := hr c.val c.isLt
      rw [ext_lt, zero_mul] at this
      exact this
    have hβ : ∀ c < ncol nf o, ext _ p.2 c / ext _ p.2 o.normFid = coeffs o x c := by
      intro c hc
      rw [hr c hc, hr o.normFid (by omega), hc1, mul_one, mul_div_cancel_left₀ _ hrne]
    rw [← C41_extract_coeffs o hprof x hx]
    exact extract_congr o hprof _ _ hβ

/-- C41: data without noise cannot be used: if the moments hold exactly for every mover, `Wx` is singular
and `liml_1` raises. -/
theorem C41_liml1_noiseless_raises (e : EigVec) (d : Data ni nf) (o : Opts)
    (hprof : o.profiling = false) (hnf : 0 < nf) (x : Effects nf) (hx : Spec.Admissible o x)
    (hmom : ∀ i, Spec.moment d x i = 0) : liml1 e d o key = .error "RuntimeError" := by
  unfold liml1
  rw [if_pos]
  set v0 : Fin (ncol nf o) → ℝ := fun c => coeffs o x c.val with hv0
  refine Matrix.exists_mulVec_eq_zero_iff.mp ⟨v0, ?_, ?_⟩
  · intro h0
    have hw := w1_ge nf o.statB
    have := congrFun h0 ⟨0, by unfold ncol; omega⟩
    exact coeffs_ne o x hx 0 (by omega) this
  · funext a
    rw [Wx_mulVec]
    refine sum_eq_zero fun i _ => ?_
    have : resid d o (ext _ v0) i = 0 := by
      rw [← hmom i, ← resid_coeffs d o hprof x hx i]
      exact sum_congr rfl fun c hc => by
        congr 1
        simp [ext, mem_range.mp hc, hv0]
    rw [this, mul_zero]

/-! ## `iv` -/

theorem sum_insert1 (f β : ℕ → ℝ) (norm n : ℕ) (hn : norm < n) :
    ∑ c ∈ range n, f c * insert1 norm β c = f norm + ∑ c ∈ range (n - 1), f (skip norm c) * β c := by
  obtain ⟨m, rfl⟩ : ∃ m, n = norm + 1 + m := ⟨n - norm - 1, by omega⟩
  have e : norm + 1 + m - 1 = norm + m := by omega
  rw [e, sum_range_add, sum_range_succ, sum_range_add]
  have h1 : ∑ c ∈ range norm, f c * insert1 norm β c = ∑ c ∈ range norm, f (skip norm c) * β c :=
    sum_congr rfl fun c hc => by
      have := mem_range.mp hc
      rw [insert1, if_pos this, skip, if_pos this]
  have h2 : ∑ c ∈ range m, f (norm + 1 + c) * insert1 norm β (norm + 1 + c) =
      ∑ c ∈ range m, f (skip norm (norm + c)) * β (norm + c) :=
    sum_congr rfl fun c _ => by
      rw [insert1, if_neg (by omega), if_neg (by omega), skip, if_neg (by omega)]
      have e1 : norm + 1 + c - 1 = norm + c := by omega
      have e2 : norm + c + 1 = norm + 1 + c := by omega
      rw [e1, e2]
  have h3 : insert1 norm β norm = 1 := by simp [insert1]
  rw [h1, h2, h3, mul_one]
  ring

/-- Group sums with the square roots of the weights, as used by `iv`. -/
noncomputable def rootMoment (d : Data ni nf) (o : Opts) (β : ℕ → ℝ) (z : ℕ) : ℝ :=
  zsum key (fun i => √(d.D i)) (resid d o β) z

theorem root_insert (d : Data ni nf) (o : Opts) (hn : o.normFid < ncol nf o) (β : ℕ → ℝ) (z : ℕ) :
    rootMoment key d o (insert1 o.normFid β) z =
      ∑ c ∈ range (ncol nf o - 1), zsum key (fun i => √(d.D i))
        (fun i => XX d o i (skip o.normFid c)) z * β c -
      zsum key (fun i => √(d.D i)) (fun i => - XX d o i o.normFid) z := by
  rw [zsum_linear key (fun i => √(d.D i)) (ncol nf o - 1) (fun i c => XX d o i (skip o.normFid c))]
  unfold rootMoment zsum
  rw [← sum_sub_distrib]
  refine sum_congr rfl fun i _ => ?_
  rw [resid, sum_insert1 _ _ _ _ hn]
  ring

theorem ivRR_mulVec (d : Data ni nf) (o : Opts) (hn : o.normFid < ncol nf o)
    (v : Fin (ncol nf o - 1) → ℝ) (a : Fin (ncol nf o - 1)) :
    (ivRR d o key).mulVec v a - ivRY d o key a = ∑ z ∈ univ.image key,
      zsum key (fun i => √(d.D i)) (fun i => XX d o i (skip o.normFid a.val)) z *
        (1 / (zsum key d.D (fun _ => 1) z + o.tik)) *
        rootMoment key d o (insert1 o.normFid (ext _ v)) z := by
  have e : (ivRR d o key).mulVec v a = ∑ z ∈ univ.image key,
      zsum key (fun i => √(d.D i)) (fun i => XX d o i (skip o.normFid a.val)) z *
        (1 / (zsum key d.D (fun _ => 1) z + o.tik)) *
        ∑ c ∈ range (ncol nf o - 1), zsum key (fun i => √(d.D i))
          (fun i => XX d o i (skip o.normFid c)) z * ext _ v c := by
    simp only [Matrix.mulVec, dotProduct, ivRR, sum_mul]
    rw [sum_comm]
    refine sum_congr rfl fun z _ => ?_
    rw [← sum_fin_ext, mul_sum]
    exact sum_congr rfl fun c _ => by ring
  rw [e, ivRY, ← sum_sub_distrib]
  refine sum_congr rfl fun z _ => ?_
  rw [root_insert key d o hn]
  ring

theorem PosDef.det_ne {n : ℕ} {G : Matrix (Fin n) (Fin n) ℝ} (h : PosDef G) : G.det ≠ 0 := by
  intro hdet
  obtain ⟨v, hv, h0⟩ := Matrix.exists_mulVec_eq_zero_iff.mpr hdet
  have := h v hv
  simp [h0] at this

theorem solveQP_eq {n : ℕ} {G : Matrix (Fin n) (Fin n) ℝ} (h : PosDef G) {a x : Fin n → ℝ} (hx : G.mulVec x = a) :
    solveQP G a = .ok x := by
  unfold solveQP
  rw [if_pos h, ← hx, Matrix.mulVec_mulVec, Matrix.nonsing_inv_mul _ (isUnit_iff_ne_zero.mpr h.det_ne), Matrix.one_mulVec]

theorem solveQP_ok {n : ℕ} {G : Matrix (Fin n) (Fin n) ℝ} {a x : Fin n → ℝ} (h : solveQP G a = .ok x) :
    PosDef G ∧ G.mulVec x = a := by
  unfold solveQP at h
  split at h
  · rename_i hG
    cases h
    refine ⟨hG, ?_⟩
    rw [Matrix.mulVec_mulVec, Matrix.mul_nonsing_inv _ (isUnit_iff_ne_zero.mpr hG.det_ne), Matrix.one_mulVec]
  · cases h

/-- `iv` returns the coefficients whose root-weighted group sums vanish. -/
theorem iv_solution (d : Data ni nf) (o : Opts) (hn : o.normFid < w1 nf o.statB)
    (hdet : PosDef (ivRR d o key)) (v0 : Fin (ncol nf o - 1) → ℝ)
    (hroot : ∀ z, rootMoment key d o (insert1 o.normFid (ext _ v0)) z = 0) :
    iv d o key = .ok (insert1 o.normFid (ext _ v0)) := by
  have hsol : (ivRR d o key).mulVec v0 = ivRY d o key := by
    funext a
    rw [← sub_eq_zero, ivRR_mulVec key d o (by unfold ncol; omega)]
    exact sum_eq_zero fun z _ => by rw [hroot, mul_zero]
  unfold iv
  rw [if_neg (by omega), solveQP_eq hdet hsol]
  rfl

theorem ivRR_posDef (d : Data ni nf) (o : Opts) (hD : ∀ i, 0 < d.D i) (htik : 0 ≤ o.tik)
    (hinj : ∀ v : Fin (ncol nf o - 1) → ℝ, (∀ z ∈ univ.image key, ∑ c : Fin (ncol nf o - 1),
      zsum key (fun i => √(d.D i)) (fun i => XX d o i (skip o.normFid c.val)) z * v c = 0) → v = 0) :
    PosDef (ivRR d o key) := by
  intro v hv
  have hden : ∀ z ∈ univ.image key, 0 < 1 / (zsum key d.D (fun _ => 1) z + o.tik) := fun z hz =>
    one_div_pos.mpr (by linarith [zsum_pos key d hD z hz])
  have hq : ∑ a, v a * (ivRR d o key).mulVec v a =
      ∑ z ∈ univ.image key, (1 / (zsum key d.D (fun _ => 1) z + o.tik)) *
      (∑ c : Fin (ncol nf o - 1), zsum key (fun i => √(d.D i))
        (fun i => XX d o i (skip o.normFid c.val)) z * v c) ^ 2 := by
    simp only [Matrix.mulVec, dotProduct, ivRR, sum_mul, mul_sum]
    rw [sum_comm_cycle]
    refine sum_congr rfl fun z _ => ?_
    rw [sq, sum_mul_sum, mul_sum]
    refine sum_congr rfl fun a _ => ?_
    rw [mul_sum]
    exact sum_congr rfl fun b _ => by ring
  rw [hq]
  refine lt_of_le_of_ne (sum_nonneg fun z hz => mul_nonneg (hden z hz).le (sq_nonneg _)) fun h => hv (hinj v ?_)
  rw [eq_comm, sum_eq_zero_iff_of_nonneg fun z hz => mul_nonneg (hden z hz).le (sq_nonneg _)] at h
  intro z hz
  rcases mul_eq_zero.mp (h z hz) with h | h
  · exact absurd h (hden z hz).ne'
  · exact pow_eq_zero_iff (two_ne_zero) |>.mp h

/-- C41, `iv`, without weights: if in every firm pair the average of the moments at the effects `x` is
zero, the effects returned are exactly `x`.  Missing: weights, for which `C41_iv_weighted_wrong` shows
it false. -/
theorem C41_iv_recovers_partial (d : Data ni nf) (o : Opts) (hprof : o.profiling = false)
    (hD : ∀ i, d.D i = 1) (x : Effects nf) (hx : Spec.Admissible o x) (hn : o.normFid < nf)
    (hnorm : x.B1 ⟨o.normFid, hn⟩ = 1)
    (hmom : ∀ z, ∑ i with key i = z, Spec.moment d x i = 0)
    (β : ℕ → ℝ) (h : iv d o key = .ok β) : extract nf o β = x := by
  have hw : o.normFid < w1 nf o.statB := by have := w1_ge nf o.statB; omega
  have hdet : PosDef (ivRR d o key) := by
    unfold iv at h
    rw [if_neg (by omega)] at h
    rcases hq : solveQP (ivRR d o key) (ivRY d o key) with err | y
    · rw [hq] at h; cases h
    · exact (solveQP_ok hq).1
  have hncol : nf ≤ ncol nf o := le_trans (w1_ge nf o.statB) (Nat.le_add_right _ _)
  have hc1 : coeffs o x o.normFid = 1 := by
    have := coeffs_b1 o x ⟨o.normFid, hn⟩
    simp only at this
    rw [this, hnorm]; norm_num
  set v0 : Fin (ncol nf o - 1) → ℝ := fun c => coeffs o x (skip o.normFid c.val) with hv0
  have hins : ∀ c < ncol nf o, insert1 o.normFid (ext _ v0) c = coeffs o x c := by
    intro c hc
    unfold insert1
    split
    · rename_i h1
      have h2 : c < ncol nf o - 1 := by omega
      simp [ext, h2, hv0, skip, h1]
    · rename_i h1
      split
      · rename_i h2; rw [h2, hc1]
      · rename_i h2
        have h3 : c - 1 < ncol nf o - 1 := by omega
        have h4 : ¬ c - 1 < o.normFid := by omega
        have h5 : c - 1 + 1 = c := by omega
        simp [ext, h3, hv0, skip, h4, h5]
  have hroot : ∀ z, rootMoment key d o (insert1 o.normFid (ext _ v0)) z = 0 := by
    intro z
    unfold rootMoment zsum
    rw [← hmom z]
    refine sum_congr rfl fun i _ => ?_
    beta_reduce
    rw [hD, Real.sqrt_one, one_mul, ← resid_coeffs d o hprof x hx i]
    exact sum_congr rfl fun c hc => by rw [hins c (mem_range.mp hc)]
  have hret := iv_solution key d o hw hdet v0 hroot
  rw [hret] at h
  cases h
  rw [← C41_extract_coeffs o hprof x hx]
  exact extract_congr o hprof _ _ hins

/-! ## `linear` -/

theorem lin_resid (d : Data ni nf) (statA : Bool) (x : ℕ → ℝ) (i : Fin ni) :
    ∑ c ∈ range (w2 nf statA), XXlin d statA i c * x c =
      (extractLin nf statA x).A1 (d.J1 i) - (extractLin nf statA x).A2 (d.J2 i) := by
  rw [XXlin, sum_X2]
  unfold extractLin
  cases statA <;> simp

/-- C41, `linear`: the intercepts returned minimise the weighted sum of squared deviations of
`y1 - y2` from `a1(j1) - a2(j2)` among all intercepts with firm 0 at zero in period one (and equal in
both periods under `stationary_a`), and both slopes are one. -/
theorem C41_linear_least_squares (d : Data ni nf) (statA : Bool) (hD : ∀ i, 0 ≤ d.D i) (hnf : 0 < nf)
    (x : ℕ → ℝ) (hsol : LinNormal d statA x) (a1 a2 : Fin nf → ℝ) (h0 : a1 ⟨0, hnf⟩ = 0)
    (hst : statA = true → a2 = a1) :
    let r := extractLin nf statA x
    r.A1 ⟨0, hnf⟩ = 0 ∧ (statA = true → r.A2 = r.A1) ∧ (∀ j, r.B1 j = 1 ∧ r.B2 j = 1) ∧
    ∑ i, d.D i * (d.Y1 i - d.Y2 i - (r.A1 (d.J1 i) - r.A2 (d.J2 i))) ^ 2 ≤
      ∑ i, d.D i * (d.Y1 i - d.Y2 i - (a1 (d.J1 i) - a2 (d.J2 i))) ^ 2 := by
  intro r
  refine ⟨by simp [r, extractLin], fun h => by simp [r, extractLin, h], fun j => ⟨rfl, rfl⟩, ?_⟩
  -- the competitor as a coefficient vector
  set y : ℕ → ℝ := fun c => if c < nf - 1 then ext nf a1 (c + 1) else ext nf a2 (c - (nf - 1)) with hy
  have hcomp : ∀ i, ∑ c ∈ range (w2 nf statA), XXlin d statA i c * y c =
      a1 (d.J1 i) - a2 (d.J2 i) := by
    intro i
    rw [XXlin, sum_X2]
    have e1 : ∀ j : Fin nf, (if j.val = 0 then (0 : ℝ) else y (j.val - 1)) = a1 j := by
      intro j
      split
      · rename_i hj
        rw [← h0]; congr 1; exact Fin.ext hj.symm
      · rename_i hj
        have := j.isLt
        simp only [hy]
        rw [if_pos (by omega), show j.val - 1 + 1 = j.val by omega, ext_lt]
    rw [e1]
    cases hA : statA
    · have e2 : y (nf - 1 + (d.J2 i).val) = a2 (d.J2 i) := by
        simp only [hy]
        rw [if_neg (by omega), Nat.add_sub_cancel_left, ext_lt]
      simp only [Bool.false_eq_true, if_false, e2]
    · simp only [if_true]
      rw [e1, hst hA]
  -- orthogonality
  have horth : ∀ a < w2 nf statA, ∑ i, d.D i * XXlin d statA i a *
      (d.Y1 i - d.Y2 i - (r.A1 (d.J1 i) - r.A2 (d.J2 i))) = 0 := by
    intro a ha
    have h := hsol a ha
    have e : ∑ b ∈ range (w2 nf statA), (∑ i, d.D i * XXlin d statA i a * XXlin d statA i b) * x b =
        ∑ i, d.D i * XXlin d statA i a * (r.A1 (d.J1 i) - r.A2 (d.J2 i)) := by
      simp only [sum_mul]
      rw [sum_comm]
      refine sum_congr rfl fun i _ => ?_
      rw [← lin_resid, mul_sum]
      exact sum_congr rfl fun b _ => by ring
    rw [e] at h
    simp only [mul_sub (_ * _), sum_sub_distrib] at h ⊢
    linarith
  set u : Fin ni → ℝ := fun i => d.Y1 i - d.Y2 i - (r.A1 (d.J1 i) - r.A2 (d.J2 i)) with hu
  set g : Fin ni → ℝ := fun i => (r.A1 (d.J1 i) - r.A2 (d.J2 i)) - (a1 (d.J1 i) - a2 (d.J2 i)) with hg
  have hcross : ∑ i, d.D i * u i * g i = 0 := by
    have : ∀ i, d.D i * u i * g i =
        ∑ c ∈ range (w2 nf statA), (d.D i * XXlin d statA i c * u i) * (x c - y c) := by
      intro i
      simp only [hg]
      rw [← hcomp i, ← lin_resid, ← sum_sub_distrib, mul_sum]
      exact sum_congr rfl fun c _ => by ring
    simp only [this]
    rw [sum_comm]
    refine sum_eq_zero fun c hc => ?_
    rw [← sum_mul, horth c (mem_range.mp hc), zero_mul]
  have hexp : ∑ i, d.D i * (d.Y1 i - d.Y2 i - (a1 (d.J1 i) - a2 (d.J2 i))) ^ 2 =
      ∑ i, d.D i * u i ^ 2 + 2 * ∑ i, d.D i * u i * g i + ∑ i, d.D i * g i ^ 2 := by
    rw [mul_sum, ← sum_add_distrib, ← sum_add_distrib]
    exact sum_congr rfl fun i _ => by simp only [hu, hg]; ring
  rw [hexp, hcross]
  have : 0 ≤ ∑ i, d.D i * g i ^ 2 := sum_nonneg fun i _ => mul_nonneg (hD i) (sq_nonneg _)
  linarith

/-! ## Errors -/

/-- C41: combinations of options that the method rejects. -/
theorem C41_rejects (e : EigVec) (rss : Data ni nf → Bool → ℕ → ℝ) (d : Data ni nf) (o : Opts)
    (W : Fin ni → ℕ) (nw : ℕ) (cz : Bool)
    (h : (o.statB = true ∧ (o.profiling = true ∨ o.method = .linear)) ∨
      (o.profiling = true ∧ o.method ≠ .liml1 ∧ o.method ≠ .hful) ∨ o.instrument = .other ∨
      o.method = .other) :
    fitLinear e rss d o W nw cz = .error "ValueError" := by
  have hv : validate o = .error "ValueError" := by
    unfold validate
    obtain ⟨m, nf', sa, sb, pr, ins, co, ti⟩ := o
    cases sb <;> cases pr <;> cases m <;> cases ins <;> simp_all
  unfold fitLinear
  rw [hv]; rfl

/-- C41: with `instrument='worker_ids'` a coarse instrument always raises (the array is read before it is
assigned), and so does the plain one if some mover's id is not below the number of movers, as happens
when a stayer has a smaller id than some mover. -/
theorem C41_worker_ids_raise (e : EigVec) (rss : Data ni nf → Bool → ℕ → ℝ) (d : Data ni nf) (o : Opts)
    (W : Fin ni → ℕ) (nw : ℕ) (cz : Bool) (hv : validate o = .ok ()) (hm : o.method ≠ .linear)
    (hi : o.instrument = .workerIds) (h : cz = false ∨ ∃ i, nw ≤ W i) :
    ∃ msg, fitLinear e rss d o W nw cz = .error msg := by
  have hk : ∃ msg, keyOf d o W nw cz = .error msg := by
    unfold keyOf
    rw [hi]
    rcases h with h | ⟨i, h⟩
    · rw [h]; exact ⟨_, rfl⟩
    · cases cz
      · exact ⟨_, rfl⟩
      · simp only [if_true]
        rw [if_neg (fun hh => absurd (hh i) (not_lt.mpr h))]
        exact ⟨_, rfl⟩
  obtain ⟨msg, hk⟩ := hk
  refine ⟨msg, ?_⟩
  unfold fitLinear
  simp only [hv, bind, Except.bind, hm, if_false, hk]

/-! ## Concrete cases -/

/-- An `eig` that is right exists. -/
theorem exists_eigVec : ∃ e : EigVec, e.Right := by
  classical
  have fin : ∀ (n : ℕ) (M : Matrix (Fin n) (Fin n) ℝ),
      {r : ℝ | ∃ v : Fin n → ℝ, v ≠ 0 ∧ M.mulVec v = r • v}.Finite := by
    intro n M
    refine (Module.End.finite_hasEigenvalue (Matrix.toLin' M)).subset ?_
    rintro r ⟨v, hv, h⟩
    exact Module.End.hasEigenvalue_of_hasEigenvector
      ⟨Module.End.mem_eigenspace_iff.mpr (by rw [Matrix.toLin'_apply, h]), hv⟩
  refine ⟨⟨fun {n} M => (fin n M).toFinset.toList.map fun r =>
    (r, if h : ∃ v : Fin n → ℝ, v ≠ 0 ∧ M.mulVec v = r • v then h.choose else 0)⟩, fun n M => ⟨?_, ?_⟩⟩
  · intro p hp
    simp only [List.mem_map, Finset.mem_toList, Set.Finite.mem_toFinset, Set.mem_ofPred_eq] at hp
    obtain ⟨r, hr, rfl⟩ := hp
    rw [dif_pos hr]
    exact hr.choose_spec
  · intro r v hv h
    refine ⟨_, List.mem_map.mpr ⟨r, ?_, rfl⟩, rfl⟩
    simp only [Finset.mem_toList, Set.Finite.mem_toFinset, Set.mem_ofPred_eq]
    exact ⟨v, hv, h⟩

/-- Options used in the examples. -/
def exOpts (m : Method) : Opts := ⟨m, 0, true, true, false, .firmPairs, 0, 0⟩

/-- Two firms, two movers in each direction, noise averaging out in each direction. -/
def exData : Data 4 2 where
  Y1 := ![1, 3, 1, 2]
  Y2 := ![3, 1, 2, 1]
  J1 := ![0, 0, 1, 1]
  J2 := ![1, 1, 0, 0]
  D := fun _ => 1

/-- Slopes one, intercepts zero. -/
def unitEffects : Effects 2 := ⟨fun _ => 0, fun _ => 0, fun _ => 1, fun _ => 1⟩

theorem unit_admissible (m : Method) : Spec.Admissible (exOpts m) unitEffects :=
  ⟨fun _ => one_ne_zero, fun _ => one_ne_zero, fun _ _ => rfl, fun _ => rfl, fun _ _ => rfl⟩

theorem exXX (d : Data ni 2) (m : Method) (i : Fin ni) (β : ℕ → ℝ) :
    ∑ c ∈ range (ncol 2 (exOpts m)), XX d (exOpts m) i c * β c =
      d.Y2 i * β (d.J2 i).val - d.Y1 i * β (d.J1 i).val +
      ((if (d.J1 i).val = 0 then 0 else β 2) - (if (d.J2 i).val = 0 then 0 else β 2)) := by
  have e : ∑ c ∈ range (ncol 2 (exOpts m)), XX d (exOpts m) i c * β c =
      ∑ c ∈ range (w1 2 true), X1 d true i c * β c +
        ∑ c ∈ range (w2 2 true), X2 d true i c * β (w1 2 true + c) := sum_hcat _ _ _ _ _ _
  rw [e, sum_X1, sum_X2 d true i fun c => β (w1 2 true + c)]
  have h1 : ∀ j : Fin 2, (if j.val = 0 then (0 : ℝ) else β (w1 2 true + (j.val - 1))) =
      if j.val = 0 then 0 else β 2 := by
    intro j; fin_cases j <;> rfl
  simp only [if_true, h1]

theorem coeffs_unit (m : Method) (c : ℕ) (hc : c < 3) :
    coeffs (exOpts m) unitEffects c = if c < 2 then 1 else 0 := by
  have : c = 0 ∨ c = 1 ∨ c = 2 := by omega
  rcases this with rfl | rfl | rfl <;> simp [coeffs, exOpts, w1, ext, unitEffects]

/-- Non-vacuity of `C41_liml1_recovers`: `exData` meets every hypothesis, and the method returns. -/
theorem exData_liml1 (e : EigVec) (he : e.Right) :
    ∃ β, liml1 e exData (exOpts .liml1) (pairKey exData) = .ok β ∧
      extract 2 (exOpts .liml1) β = unitEffects := by
  have hmom : ∀ z, ∑ i with pairKey exData i = z, exData.D i * Spec.moment exData unitEffects i = 0 := by
    intro z
    rw [sum_filter]
    simp only [Fin.sum_univ_succ, pairKey, exData, Spec.moment, unitEffects]
    simp
    split_ifs <;> norm_num
  have hid : ∀ β : ℕ → ℝ, (∀ z, ∑ i with pairKey exData i = z, exData.D i *
        ∑ c ∈ range (ncol 2 (exOpts .liml1)), XX exData (exOpts .liml1) i c * β c = 0) →
      ∃ r : ℝ, ∀ c < ncol 2 (exOpts .liml1), β c = r * coeffs (exOpts .liml1) unitEffects c := by
    intro β hβ
    have h2 := hβ 2
    have h1 := hβ 1
    simp only [exXX] at h1 h2
    rw [sum_filter] at h1 h2
    simp [Fin.sum_univ_succ, pairKey, exData] at h1 h2
    have e1 : β 2 = 0 := by linarith
    have e2 : β 1 = β 0 := by linarith
    refine ⟨β 0, fun c hc => ?_⟩
    have hc3 : c < 3 := hc
    rw [coeffs_unit _ c hc3]
    have : c = 0 ∨ c = 1 ∨ c = 2 := by omega
    rcases this with rfl | rfl | rfl <;> simp [e1, e2]
  have hdet : (Wx exData (exOpts .liml1)).det ≠ 0 := by
    intro hdet
    obtain ⟨v, hv, h0⟩ := Matrix.exists_mulVec_eq_zero_iff.mpr hdet
    have hq := Wx_quad exData (exOpts .liml1) v
    rw [h0] at hq
    simp only [Pi.zero_apply, mul_zero, sum_const_zero] at hq
    have hz := (sum_eq_zero_iff_of_nonneg fun i _ =>
      mul_nonneg (show (0 : ℝ) ≤ exData.D i from zero_le_one) (sq_nonneg _)).mp hq.symm
    have hr : ∀ i, resid exData (exOpts .liml1) (ext _ v) i = 0 := by
      intro i
      have := hz i (mem_univ i)
      simpa [exData] using this
    have r0 := hr 0
    have r1 := hr 1
    have r2 := hr 2
    rw [resid, exXX] at r0 r1 r2
    simp [exData] at r0 r1 r2
    apply hv
    funext c
    rw [← ext_lt v c]
    have : c.val = 0 ∨ c.val = 1 ∨ c.val = 2 := by
      have : c.val < 3 := c.isLt
      omega
    rcases this with h | h | h <;> rw [h] <;> simp only [Pi.zero_apply] <;> linarith
  have hret : ∃ β, liml1 e exData (exOpts .liml1) (pairKey exData) = .ok β := by
    unfold liml1
    rw [if_neg hdet]
    cases harg : (e.pairs ((Wx exData (exOpts .liml1))⁻¹ * Wz exData (exOpts .liml1)
      (pairKey exData))).argmin Prod.fst with
    | none =>
      rw [List.argmin_eq_none] at harg
      have hz : ((Wx exData (exOpts .liml1))⁻¹ * Wz exData (exOpts .liml1)
          (pairKey exData)).mulVec (fun c => coeffs (exOpts .liml1) unitEffects c.val) =
          (0 : ℝ) • fun c => coeffs (exOpts .liml1) unitEffects c.val := by
        rw [← Matrix.mulVec_mulVec]
        have : (Wz exData (exOpts .liml1) (pairKey exData)).mulVec
            (fun c => coeffs (exOpts .liml1) unitEffects c.val) = 0 := by
          funext a
          rw [Wz_mulVec]
          refine sum_eq_zero fun z _ => ?_
          have : groupMoment (pairKey exData) exData (exOpts .liml1)
              (ext (ncol 2 (exOpts .liml1)) fun c => coeffs (exOpts .liml1) unitEffects c.val) z = 0 := by
            rw [← hmom z]
            unfold groupMoment zsum
            refine sum_congr rfl fun i _ => ?_
            rw [← resid_coeffs exData (exOpts .liml1) rfl unitEffects (unit_admissible _) i]
            congr 1
          rw [this, mul_zero]
        rw [this, Matrix.mulVec_zero, zero_smul]
      obtain ⟨p, hp, -⟩ := (he _ _).2 0 _ (fun h => by
        have := congrFun h ⟨0, by decide⟩
        rw [coeffs_unit _ 0 (by norm_num)] at this
        simp at this) hz
      rw [harg] at hp
      cases hp
    | some p => exact ⟨_, rfl⟩
  obtain ⟨β, hβ⟩ := hret
  exact ⟨β, hβ, C41_liml1_recovers _ e he _ _ rfl (fun _ => one_pos) le_rfl unitEffects
    (unit_admissible _) (by decide) rfl hmom hid β hβ⟩

/-- Non-vacuity of `C41_linear_least_squares`: zero intercepts solve the normal equations of `exData`. -/
example : LinNormal exData true (fun _ => 0) ∧ LinNormal exData false (fun _ => 0) := by
  constructor <;> intro a ha
  · have : a = 0 := by have : a < 1 := ha; omega
    subst this
    simp [XXlin, X2, drop1, JJ, exData, Fin.sum_univ_succ]
  · have : a = 0 ∨ a = 1 ∨ a = 2 := by have : a < 3 := ha; omega
    rcases this with rfl | rfl | rfl <;>
      simp [XXlin, X2, hcat, drop1, JJ, exData, Fin.sum_univ_succ] <;> norm_num

/-- Three movers with weights 1, 4 and 1. -/
def wtData : Data 3 2 where
  Y1 := ![0, 1, 1]
  Y2 := ![4, 0, 1]
  J1 := ![0, 0, 1]
  J2 := ![1, 1, 0]
  D := ![1, 4, 1]

/-- `iv` with weights is wrong: in `wtData` the weighted moments of every firm pair vanish at slopes one
and intercepts zero, which are the only such effects, yet `iv` returns the slope -1 for firm 1. -/
theorem C41_iv_weighted_wrong :
    (∀ z, ∑ i with pairKey wtData i = z, wtData.D i * Spec.moment wtData unitEffects i = 0) ∧
    (∀ x, Spec.Admissible (exOpts .iv) x → x.B1 0 = 1 →
      (∀ z, ∑ i with pairKey wtData i = z, wtData.D i * Spec.moment wtData x i = 0) → x.B1 1 = 1) ∧
    ∃ β, iv wtData (exOpts .iv) (pairKey wtData) = .ok β ∧ (extract 2 (exOpts .iv) β).B1 1 = -1 := by
  have s4 : √(4 : ℝ) = 2 := by
    rw [show (4 : ℝ) = 2 ^ 2 by norm_num]; exact Real.sqrt_sq two_pos.le
  refine ⟨?_, ?_, ?_⟩
  · intro z
    rw [sum_filter]
    simp [Fin.sum_univ_succ, pairKey, wtData, Spec.moment, unitEffects]
    split_ifs <;> norm_num
  · intro x hx h0 hm
    have h2 := hm 2
    have h1 := hm 1
    have hB := hx.statB rfl
    have hA := hx.statA rfl
    have hA0 := hx.a0 0 rfl
    rw [sum_filter] at h1 h2
    simp [Fin.sum_univ_succ, pairKey, wtData, Spec.moment, hB, h0, hA0] at h1 h2
    have hA1 := hA 1
    have hA0' := hA 0
    rw [hB] at hA1 hA0'
    have hb := hx.b1 1
    rw [hA0, h0] at hA0'
    have ha20 : x.A2 0 = 0 := by simpa using hA0'
    rw [ha20] at h1
    have ha21 : x.A2 1 = x.A1 1 := by
      field_simp at hA1; exact hA1
    rw [ha21] at h2
    field_simp at h1 h2
    have e1 : x.A1 1 = 1 - x.B1 1 := by linarith
    have : x.B1 1 * 0 = 0 := mul_zero _
    nlinarith
  · have hdet : PosDef (ivRR wtData (exOpts .iv) (pairKey wtData)) := by
      refine ivRR_posDef _ _ _ (fun i => by fin_cases i <;> norm_num [wtData]) le_rfl ?_
      intro v hv
      have h2 := hv 2 (mem_image.mpr ⟨0, mem_univ _, by rfl⟩)
      have h1 := hv 1 (mem_image.mpr ⟨2, mem_univ _, by rfl⟩)
      change ∑ c : Fin 2, _ = 0 at h1 h2
      rw [Fin.sum_univ_two] at h1 h2
      simp only [zsum, sum_filter] at h1 h2
      simp [Fin.sum_univ_succ, pairKey, wtData, XX, hcat, X1, X2, drop1, YY, JJ, exOpts, w1, skip, s4] at h1 h2
      have e0 : v (0 : Fin 2) = 0 := by linarith
      have e1 : v (1 : Fin 2) = 0 := by linarith
      funext c
      change Fin 2 at c
      fin_cases c
      · exact e0
      · exact e1
    refine ⟨_, iv_solution _ _ _ (by decide) hdet (fun c => if c.val = 0 then -1 else -2) ?_, ?_⟩
    · intro z
      unfold rootMoment zsum resid
      simp only [exXX]
      rw [sum_filter]
      have i0 : insert1 (exOpts .iv).normFid (ext (ncol 2 (exOpts .iv) - 1) fun c => if c.val = 0 then -1 else -2) 0 = 1 := by
        simp [insert1, exOpts]
      have i1 : insert1 (exOpts .iv).normFid (ext (ncol 2 (exOpts .iv) - 1) fun c => if c.val = 0 then -1 else -2) 1 = -1 := by
        have : 0 < ncol 2 (exOpts .iv) - 1 := by decide
        simp [insert1, exOpts, ext] at this ⊢
        simp [this]
      have i2 : insert1 (exOpts .iv).normFid (ext (ncol 2 (exOpts .iv) - 1) fun c => if c.val = 0 then -1 else -2) 2 = -2 := by
        have : 1 < ncol 2 (exOpts .iv) - 1 := by decide
        simp only [insert1, ext, exOpts] at this ⊢
        simp [this]
      simp [Fin.sum_univ_succ, pairKey, wtData, s4, i0, i1, i2]
      split_ifs <;> norm_num
    · have : 0 < ncol 2 (exOpts .iv) - 1 := by decide
      simp [extract, insert1, exOpts, ext] at this ⊢
      simp [this]

end Pytwoway.Interacted
