import Mathlib.Topology.MetricSpace.ProperSpace.Real
import Mathlib.Analysis.Normed.Module.FiniteDimension
import Mathlib.Analysis.Normed.Module.RCLike.Real
import Mathlib.Tactic.Linarith
import Verif.Interacted.Other

/-! # Lemmas on the matrices of the linear interacted estimator -/

namespace Pytwoway.Interacted

open Finset

variable {ni nf n m : ℕ}

/-- `v' M v`. -/
def quad (M : Matrix (Fin n) (Fin n) ℝ) (v : Fin n → ℝ) : ℝ := ∑ a, v a * M.mulVec v a

/-- The fitted values of a design. -/
def lin (m : ℕ) (X : Fin ni → ℕ → ℝ) (v : Fin m → ℝ) (i : Fin ni) : ℝ := ∑ b : Fin m, X i b.val * v b

theorem cross_mulVec (u : Fin ni → ℝ) (A B : Fin ni → ℕ → ℝ) (v : Fin m → ℝ) (a : Fin n) :
    (cross n m u A B).mulVec v a = ∑ i, u i * A i a.val * lin m B v i := by
  simp only [Matrix.mulVec, dotProduct, cross, lin, sum_mul, mul_sum]
  rw [sum_comm]
  exact sum_congr rfl fun i _ => sum_congr rfl fun b _ => by ring

theorem cross_quad (u : Fin ni → ℝ) (A : Fin ni → ℕ → ℝ) (v : Fin n → ℝ) :
    quad (cross n n u A A) v = ∑ i, u i * lin n A v i ^ 2 := by
  unfold quad
  simp only [cross_mulVec, mul_sum]
  rw [sum_comm]
  refine sum_congr rfl fun i _ => ?_
  rw [sq]
  conv_rhs => rw [lin.eq_def n A v i]
  rw [sum_mul, mul_sum]
  exact sum_congr rfl fun a _ => by simp only [lin]; ring

theorem isum_linear (z : Instr ni) (u : Fin ni → ℝ) (B : Fin ni → ℕ → ℝ) (v : Fin m → ℝ) (c : ℕ × ℕ) :
    ∑ b : Fin m, z.sum u (fun i => B i b.val) c * v b = z.sum u (lin m B v) c := by
  simp only [Instr.sum, zsum, lin, sum_mul, mul_sum]
  rw [sum_comm]
  exact sum_congr rfl fun i _ => sum_congr rfl fun b _ => by ring

theorem crossZ_mulVec (z : Instr ni) (D : Fin ni → ℝ) (tik : ℝ) (u w : Fin ni → ℝ) (A B : Fin ni → ℕ → ℝ) (v : Fin m → ℝ)
    (a : Fin n) : (crossZ n m z D tik u w A B).mulVec v a =
      ∑ c ∈ z.cols, z.sum u (fun i => A i a.val) c * z.inv D tik c * z.sum w (lin m B v) c := by
  simp only [Matrix.mulVec, dotProduct, crossZ, sum_mul]
  rw [sum_comm]
  refine sum_congr rfl fun c _ => ?_
  rw [← isum_linear, mul_sum]
  exact sum_congr rfl fun b _ => by ring

theorem crossZ_quad (z : Instr ni) (D : Fin ni → ℝ) (tik : ℝ) (u : Fin ni → ℝ) (A : Fin ni → ℕ → ℝ) (v : Fin n → ℝ) :
    quad (crossZ n n z D tik u u A A) v = ∑ c ∈ z.cols, z.inv D tik c * z.sum u (lin n A v) c ^ 2 := by
  unfold quad
  simp only [crossZ_mulVec, mul_sum]
  rw [sum_comm]
  refine sum_congr rfl fun c _ => ?_
  rw [sq]
  nth_rewrite 2 [← isum_linear]
  rw [sum_mul, mul_sum]
  exact sum_congr rfl fun a _ => by ring

theorem cross_symm (u : Fin ni → ℝ) (A : Fin ni → ℕ → ℝ) (a b : Fin n) : cross n n u A A a b = cross n n u A A b a :=
  sum_congr rfl fun i _ => by ring

theorem crossZ_symm (z : Instr ni) (D : Fin ni → ℝ) (tik : ℝ) (u : Fin ni → ℝ) (A : Fin ni → ℕ → ℝ) (a b : Fin n) :
    crossZ n n z D tik u u A A a b = crossZ n n z D tik u u A A b a :=
  sum_congr rfl fun c _ => by ring

/-! ## Smallest eigenvalues -/

theorem quad_smul (M : Matrix (Fin n) (Fin n) ℝ) (s : ℝ) (v : Fin n → ℝ) : quad M (s • v) = s ^ 2 * quad M v := by
  unfold quad
  rw [Matrix.mulVec_smul, mul_sum]
  exact sum_congr rfl fun a _ => by simp only [Pi.smul_apply, smul_eq_mul]; ring

theorem quad_sub (M N : Matrix (Fin n) (Fin n) ℝ) (v : Fin n → ℝ) : quad (M - N) v = quad M v - quad N v := by
  unfold quad
  rw [Matrix.sub_mulVec, ← sum_sub_distrib]
  exact sum_congr rfl fun a _ => by simp only [Pi.sub_apply]; ring

theorem quad_smulM (M : Matrix (Fin n) (Fin n) ℝ) (s : ℝ) (v : Fin n → ℝ) : quad (s • M) v = s * quad M v := by
  unfold quad
  rw [Matrix.smul_mulVec, mul_sum]
  exact sum_congr rfl fun a _ => by simp only [Pi.smul_apply, smul_eq_mul]; ring

theorem quad_addM (M N : Matrix (Fin n) (Fin n) ℝ) (v : Fin n → ℝ) : quad (M + N) v = quad M v + quad N v := by
  unfold quad
  rw [Matrix.add_mulVec, ← sum_add_distrib]
  exact sum_congr rfl fun a _ => by simp only [Pi.add_apply]; ring

theorem quad_add (M : Matrix (Fin n) (Fin n) ℝ) (hM : ∀ a b, M a b = M b a) (v w : Fin n → ℝ) :
    quad M (v + w) = quad M v + 2 * (∑ a, w a * M.mulVec v a) + quad M w := by
  have hs : ∑ a, v a * M.mulVec w a = ∑ a, w a * M.mulVec v a := by
    simp only [Matrix.mulVec, dotProduct, mul_sum]
    rw [sum_comm]
    exact sum_congr rfl fun a _ => sum_congr rfl fun b _ => by rw [hM b a]; ring
  unfold quad
  rw [Matrix.mulVec_add]
  simp only [Pi.add_apply]
  have : ∀ a, (v a + w a) * (M.mulVec v a + M.mulVec w a) =
      v a * M.mulVec v a + w a * M.mulVec v a + (v a * M.mulVec w a + w a * M.mulVec w a) := fun a => by ring
  simp only [this, sum_add_distrib, hs]
  ring

/-- A nonnegative symmetric form vanishes at `v` only if the matrix does. -/
theorem null_of_quad (M : Matrix (Fin n) (Fin n) ℝ) (hM : ∀ a b, M a b = M b a) (h0 : ∀ w, 0 ≤ quad M w) (v : Fin n → ℝ)
    (hv : quad M v = 0) : M.mulVec v = 0 := by
  set g := M.mulVec v with hg
  have hs : ∀ s : ℝ, 0 ≤ 2 * s * (∑ a, g a * g a) + s ^ 2 * quad M g := by
    intro s
    have := h0 (v + s • g)
    rw [quad_add M hM, hv, quad_smul] at this
    have e : ∑ a, (s • g) a * M.mulVec v a = s * ∑ a, g a * g a := by
      rw [mul_sum]
      exact sum_congr rfl fun a _ => by simp only [Pi.smul_apply, smul_eq_mul, ← hg]; ring
    rw [e] at this
    linarith
  have hgg : ∑ a, g a * g a = 0 := by
    by_contra hne
    have hpos : 0 < ∑ a, g a * g a := lt_of_le_of_ne (sum_nonneg fun a _ => mul_self_nonneg _) (Ne.symm hne)
    have hq := h0 g
    rcases hq.lt_or_eq with hq | hq
    · have := hs (-(∑ a, g a * g a) / quad M g)
      have e : 2 * (-(∑ a, g a * g a) / quad M g) * (∑ a, g a * g a) +
          (-(∑ a, g a * g a) / quad M g) ^ 2 * quad M g = -((∑ a, g a * g a) ^ 2 / quad M g) := by
        field_simp; ring
      rw [e] at this
      have : 0 < (∑ a, g a * g a) ^ 2 / quad M g := by positivity
      linarith
    · have := hs (-1)
      rw [← hq] at this
      linarith
  funext a
  have := (sum_eq_zero_iff_of_nonneg fun a _ => mul_self_nonneg (g a)).mp hgg a (mem_univ a)
  simpa using this

/-- The smallest ratio of two forms is attained, at a generalised eigenvector. -/
theorem exists_min_ratio (A B : Matrix (Fin n) (Fin n) ℝ) (hA : ∀ a b, A a b = A b a) (hB : ∀ a b, B a b = B b a)
    (hpos : PosDef B) (hn : 0 < n) :
    ∃ (t : ℝ) (v : Fin n → ℝ), v ≠ 0 ∧ A.mulVec v = t • B.mulVec v ∧ ∀ w, t * quad B w ≤ quad A w := by
  have : Nonempty (Fin n) := ⟨⟨0, hn⟩⟩
  have hc : ∀ M : Matrix (Fin n) (Fin n) ℝ, Continuous (quad M) := by
    intro M
    unfold quad
    simp only [Matrix.mulVec, dotProduct]
    fun_prop
  have hS : (Metric.sphere (0 : Fin n → ℝ) 1).Nonempty := NormedSpace.sphere_nonempty.mpr zero_le_one
  have hne : ∀ v ∈ Metric.sphere (0 : Fin n → ℝ) 1, v ≠ 0 := by
    rintro v hv rfl
    simp at hv
  obtain ⟨v, hv, hmin⟩ := (isCompact_sphere (0 : Fin n → ℝ) 1).exists_isMinOn hS
    (f := fun v => quad A v / quad B v)
    ((hc A).continuousOn.div (hc B).continuousOn fun v hv => (hpos v (hne v hv)).ne')
  set t := quad A v / quad B v with ht
  have hge : ∀ w, t * quad B w ≤ quad A w := by
    intro w
    by_cases hw : w = 0
    · subst hw
      have z : ∀ M : Matrix (Fin n) (Fin n) ℝ, quad M 0 = 0 := fun M => by simp [quad]
      rw [z, z, mul_zero]
    · have hnorm : (0 : ℝ) < ‖w‖ := norm_pos_iff.mpr hw
      have hu : ‖w‖⁻¹ • w ∈ Metric.sphere (0 : Fin n → ℝ) 1 := by
        rw [mem_sphere_zero_iff_norm, norm_smul, norm_inv, norm_norm, inv_mul_cancel₀ hnorm.ne']
      have := hmin hu
      have hB' : 0 < quad B (‖w‖⁻¹ • w) := hpos _ (hne _ hu)
      change t ≤ quad A (‖w‖⁻¹ • w) / quad B (‖w‖⁻¹ • w) at this
      rw [le_div_iff₀ hB', quad_smul, quad_smul] at this
      have h2 : 0 < ‖w‖⁻¹ ^ 2 := by positivity
      nlinarith
  refine ⟨t, v, hne v hv, ?_, hge⟩
  have hz : quad (A - t • B) v = 0 := by
    have hq : quad B v ≠ 0 := (hpos v (hne v hv)).ne'
    rw [quad_sub, quad_smulM, ht, div_mul_cancel₀ _ hq, sub_self]
  have := null_of_quad (A - t • B) (fun a b => by simp [hA a b, hB a b])
    (fun w => by rw [quad_sub, quad_smulM]; linarith [hge w]) v hz
  rw [Matrix.sub_mulVec, Matrix.smul_mulVec, sub_eq_zero] at this
  exact this

theorem smallest_spec (e : EigVec) (he : e.Right) (M : Matrix (Fin n) (Fin n) ℝ) {p : ℝ × (Fin n → ℝ)}
    (h : smallest e M = .ok p) : p.2 ≠ 0 ∧ M.mulVec p.2 = p.1 • p.2 ∧
      ∀ (r : ℝ) (v : Fin n → ℝ), v ≠ 0 → M.mulVec v = r • v → p.1 ≤ r := by
  unfold smallest at h
  split at h
  · cases h
  · rename_i q hq
    cases h
    obtain ⟨h1, h2⟩ := (he n M).1 p (List.argmin_mem hq)
    refine ⟨h1, h2, fun r v hv hr => ?_⟩
    obtain ⟨p', hp', rfl⟩ := (he n M).2 r v hv hr
    exact List.le_of_mem_argmin hp' hq

theorem smallest_ok (e : EigVec) (he : e.Right) (M : Matrix (Fin n) (Fin n) ℝ) (r : ℝ) (v : Fin n → ℝ) (hv : v ≠ 0)
    (hr : M.mulVec v = r • v) : ∃ p, smallest e M = .ok p := by
  unfold smallest
  split
  · rename_i hq
    rw [List.argmin_eq_none] at hq
    obtain ⟨p, hp, -⟩ := (he n M).2 r v hv hr
    rw [hq] at hp
    cases hp
  · exact ⟨_, rfl⟩

theorem quad_pos_n {M : Matrix (Fin n) (Fin n) ℝ} {v : Fin n → ℝ} (hv : v ≠ 0) (_ : M = M) : 0 < n := by
  rcases Nat.eq_zero_or_pos n with h | h
  · subst h; exact absurd (funext fun a => a.elim0) hv
  · exact h

/-- The smallest eigenvalue of `B⁻¹ A` bounds the ratio of the forms. -/
theorem smallest_left (e : EigVec) (he : e.Right) (A B : Matrix (Fin n) (Fin n) ℝ) (hA : ∀ a b, A a b = A b a)
    (hB : ∀ a b, B a b = B b a) (hpos : PosDef B) {p : ℝ × (Fin n → ℝ)} (h : smallest e (B⁻¹ * A) = .ok p) :
    p.2 ≠ 0 ∧ A.mulVec p.2 = p.1 • B.mulVec p.2 ∧ ∀ w, p.1 * quad B w ≤ quad A w := by
  obtain ⟨h1, h2, h3⟩ := smallest_spec e he _ h
  have hu : IsUnit B.det := isUnit_iff_ne_zero.mpr hpos.det_ne
  refine ⟨h1, ?_, ?_⟩
  · have := congrArg B.mulVec h2
    rw [Matrix.mulVec_mulVec, ← Matrix.mul_assoc, Matrix.mul_nonsing_inv _ hu, Matrix.one_mul, Matrix.mulVec_smul] at this
    exact this
  · obtain ⟨t, v, hv, hAv, hge⟩ := exists_min_ratio A B hA hB hpos (quad_pos_n (M := A) h1 rfl)
    have : p.1 ≤ t := h3 t v hv (by
      rw [← Matrix.mulVec_mulVec, hAv, Matrix.mulVec_smul, Matrix.mulVec_mulVec, Matrix.nonsing_inv_mul _ hu,
        Matrix.one_mulVec])
    intro w
    have hBw : 0 ≤ quad B w := by
      by_cases hw : w = 0
      · subst hw; simp [quad]
      · exact (hpos w hw).le
    exact le_trans (mul_le_mul_of_nonneg_right this hBw) (hge w)

/-- The smallest eigenvalue of `A B⁻¹` likewise. -/
theorem smallest_right (e : EigVec) (he : e.Right) (A B : Matrix (Fin n) (Fin n) ℝ) (hA : ∀ a b, A a b = A b a)
    (hB : ∀ a b, B a b = B b a) (hpos : PosDef B) {p : ℝ × (Fin n → ℝ)} (h : smallest e (A * B⁻¹) = .ok p) :
    ∃ v, v ≠ 0 ∧ A.mulVec v = p.1 • B.mulVec v ∧ ∀ w, p.1 * quad B w ≤ quad A w := by
  obtain ⟨h1, h2, h3⟩ := smallest_spec e he _ h
  have hu : IsUnit B.det := isUnit_iff_ne_zero.mpr hpos.det_ne
  have hb : B.mulVec (B⁻¹.mulVec p.2) = p.2 := by
    rw [Matrix.mulVec_mulVec, Matrix.mul_nonsing_inv _ hu, Matrix.one_mulVec]
  refine ⟨B⁻¹.mulVec p.2, ?_, ?_, ?_⟩
  · intro h0
    rw [h0, Matrix.mulVec_zero] at hb
    exact h1 hb.symm
  · rw [hb, Matrix.mulVec_mulVec, h2]
  · obtain ⟨t, v, hv, hAv, hge⟩ := exists_min_ratio A B hA hB hpos (quad_pos_n (M := A) h1 rfl)
    have : p.1 ≤ t := h3 t (B.mulVec v) (by
      intro h0
      have := hpos v hv
      simp [h0] at this) (by
      rw [Matrix.mulVec_mulVec, Matrix.mul_assoc, Matrix.nonsing_inv_mul _ hu, Matrix.mul_one, hAv])
    intro w
    have hBw : 0 ≤ quad B w := by
      by_cases hw : w = 0
      · subst hw; simp [quad]
      · exact (hpos w hw).le
    exact le_trans (mul_le_mul_of_nonneg_right this hBw) (hge w)

theorem invOf_ok {M I : Matrix (Fin n) (Fin n) ℝ} (h : invOf M = .ok I) : M.det ≠ 0 ∧ I = M⁻¹ := by
  unfold invOf at h
  split at h
  · cases h
  · rename_i hd
    cases h
    exact ⟨hd, rfl⟩

/-- A nonnegative symmetric form with a nonsingular matrix is positive. -/
theorem posDef_of_det (M : Matrix (Fin n) (Fin n) ℝ) (hM : ∀ a b, M a b = M b a) (h0 : ∀ w, 0 ≤ quad M w)
    (hd : M.det ≠ 0) : PosDef M := by
  intro v hv
  refine lt_of_le_of_ne (h0 v) fun h => ?_
  exact hd (Matrix.exists_mulVec_eq_zero_iff.mp ⟨v, hv, null_of_quad M hM h0 v h.symm⟩)

end Pytwoway.Interacted
