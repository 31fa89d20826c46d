import Verif.BLMDyn.EMBad
import Mathlib.Topology.Order.Compact
import Mathlib.Analysis.Normed.Module.FiniteDimension

/-! # A right solver of quadratic programs exists

The theorems on the M-steps assume a right solver; here one is exhibited for every closed set of constraints, so
that the assumption can be met. -/

namespace Pytwoway.Dynamic

open Finset Pytwoway.Sim.Dyn Pytwoway.BLM

section
variable {ι : Type} [Fintype ι]

theorem quad_smul (P : ι → ι → ℝ) (c : ℝ) (x : ι → ℝ) :
    ∑ a, ∑ b, (c • x) a * P a b * (c • x) b = c ^ 2 * ∑ a, ∑ b, x a * P a b * x b := by
  rw [mul_sum]
  refine sum_congr rfl fun a _ => ?_
  rw [mul_sum]
  refine sum_congr rfl fun b _ => ?_
  simp only [Pi.smul_apply, smul_eq_mul]
  ring

theorem quad_coercive (P : ι → ι → ℝ) (hP : ∀ x : ι → ℝ, x ≠ 0 → 0 < ∑ a, ∑ b, x a * P a b * x b) :
    ∃ c > 0, ∀ x : ι → ℝ, c * ‖x‖ ^ 2 ≤ ∑ a, ∑ b, x a * P a b * x b := by
  have hcont : Continuous fun x : ι → ℝ => ∑ a, ∑ b, x a * P a b * x b := by fun_prop
  rcases (Metric.sphere (0 : ι → ℝ) 1).eq_empty_or_nonempty with he | hne
  · refine ⟨1, one_pos, fun x => ?_⟩
    have hx : x = 0 := by
      by_contra hx
      have : (‖x‖⁻¹ • x) ∈ Metric.sphere (0 : ι → ℝ) 1 := by
        rw [mem_sphere_zero_iff_norm, norm_smul, norm_inv, norm_norm, inv_mul_cancel₀ (norm_ne_zero_iff.mpr hx)]
      rw [he] at this
      exact this
    simp [hx]
  · obtain ⟨z, hz, hmin⟩ := (isCompact_sphere (0 : ι → ℝ) 1).exists_isMinOn hne hcont.continuousOn
    have hz0 : z ≠ 0 := by
      rintro rfl
      simp at hz
    refine ⟨_, hP z hz0, fun x => ?_⟩
    by_cases hx : x = 0
    · simp [hx]
    · have hn : 0 < ‖x‖ := norm_pos_iff.mpr hx
      have hs : (‖x‖⁻¹ • x) ∈ Metric.sphere (0 : ι → ℝ) 1 := by
        rw [mem_sphere_zero_iff_norm, norm_smul, norm_inv, norm_norm, inv_mul_cancel₀ hn.ne']
      have h1 := hmin hs
      simp only [Set.mem_setOf_eq] at h1
      rw [quad_smul, inv_pow] at h1
      rw [inv_mul_eq_div, le_div_iff₀ (by positivity)] at h1
      exact h1

/-- A positive definite quadratic program over a closed non-empty set has a solution. -/
theorem qp_min (feas : (ι → ℝ) → Prop) (hc : IsClosed {x | feas x}) (P : ι → ι → ℝ) (q : ι → ℝ)
    (hP : ∀ x : ι → ℝ, x ≠ 0 → 0 < ∑ a, ∑ b, x a * P a b * x b) (hne : ∃ x, feas x) :
    ∃ x, feas x ∧ ∀ y, feas y → qpVal P q x ≤ qpVal P q y := by
  obtain ⟨x0, hx0⟩ := hne
  obtain ⟨c, hc0, hcx⟩ := quad_coercive P hP
  have hcont : Continuous (qpVal P q) := by
    unfold qpVal
    fun_prop
  set B := ∑ a, |q a| with hB
  have hB0 : 0 ≤ B := sum_nonneg fun _ _ => abs_nonneg _
  have hlin : ∀ x : ι → ℝ, - (B * ‖x‖) ≤ ∑ a, q a * x a := by
    intro x
    rw [hB, sum_mul, ← sum_neg_distrib]
    refine sum_le_sum fun a _ => ?_
    have h1 : |x a| ≤ ‖x‖ := norm_le_pi_norm x a
    have h2 : |q a * x a| ≤ |q a| * ‖x‖ := by
      rw [abs_mul]
      exact mul_le_mul_of_nonneg_left h1 (abs_nonneg _)
    exact (abs_le.mp h2).1
  have hfar : ∀ᶠ x in Filter.cocompact (ι → ℝ), qpVal P q x0 ≤ qpVal P q x := by
    have ht := tendsto_norm_cocompact_atTop (E := ι → ℝ)
    filter_upwards [ht.eventually_ge_atTop ((2 * (B + |qpVal P q x0|)) / c + 1)] with x hx
    have hn : 1 ≤ ‖x‖ := by
      refine le_trans ?_ hx
      have : 0 ≤ (2 * (B + |qpVal P q x0|)) / c := by positivity
      linarith
    have h1 : 2 * (B + |qpVal P q x0|) ≤ c * ‖x‖ := by
      have : (2 * (B + |qpVal P q x0|)) / c ≤ ‖x‖ := by linarith
      rw [div_le_iff₀ hc0] at this
      linarith
    have h2 := hcx x
    have h3 := hlin x
    have h4 : qpVal P q x0 ≤ |qpVal P q x0| := le_abs_self _
    have h5 : |qpVal P q x0| ≤ |qpVal P q x0| * ‖x‖ := le_mul_of_one_le_right (abs_nonneg _) hn
    have h6 : 2 * (B + |qpVal P q x0|) * ‖x‖ ≤ c * ‖x‖ * ‖x‖ :=
      mul_le_mul_of_nonneg_right h1 (norm_nonneg _)
    have h7 : qpVal P q x = (∑ a, ∑ b, x a * P a b * x b) / 2 + ∑ a, q a * x a := rfl
    rw [h7]
    nlinarith
  obtain ⟨x, hx, hmin⟩ := hcont.continuousOn.exists_isMinOn' hc hx0 (hfar.filter_mono inf_le_left)
  exact ⟨x, hx, fun y hy => hmin hy⟩

open scoped Classical in
/-- A right solver exists for every closed set of constraints. -/
theorem rightQP_exists (feas : (ι → ℝ) → Prop) (hc : IsClosed {x | feas x}) :
    ∃ solve : QP ι, RightQP feas solve := by
  refine ⟨fun P q => if h : ∃ x, feas x ∧ ∀ y, feas y → qpVal P q x ≤ qpVal P q y then .ok (some h.choose)
    else .error "ValueError", ?_, ?_⟩
  · intro P q x hx
    split at hx
    · rename_i h
      simp only [Except.ok.injEq, Option.some.injEq] at hx
      rw [← hx]
      exact h.choose_spec
    · cases hx
  · intro P q hP hne
    rw [dif_pos (qp_min feas hc P q hP hne)]
    exact ⟨_, rfl⟩

end

/-- The solvers the M-steps assume: without constraints and with a lower bound. -/
theorem rightQP_free (ι : Type) [Fintype ι] : ∃ solve : QP ι, RightQP (fun _ => True) solve :=
  rightQP_exists _ (by simp)

theorem rightQP_bound (ι : Type) [Fintype ι] (lb : ℝ) : ∃ solve : QP ι, RightQP (fun x => ∀ a, lb ≤ x a) solve :=
  rightQP_exists _ (by
    rw [Set.ofPred_forall]
    exact isClosed_iInter fun a => isClosed_le continuous_const (continuous_apply a))

/-- The hypotheses of C77's theorems can be met: two firm types, all flows observed, admissible parameters and
proportions, a right solver, and the loop returns with at least one recorded value. -/
example : ∃ (d : DData 4 2) (b : DBase 2 2) (pk0 pk1 : ℕ → Fin 2 → ℝ) (sA : QP (Fin 2 × JS 2)),
    (∀ k k', ∃ i, d.G 0 i = k ∧ d.G 1 i = k') ∧ PosS b ∧ GoodPk 2 pk0 ∧ GoodPk (2 ^ 2) pk1 ∧
    RightQP (fun _ => True) sA ∧
    ∃ s', loopSt d ⟨true, false, false, true, 1, 0, 0, 0⟩ sA sA 5 0 none ⟨b, ⟨1 / 2, 1 / 3, 1⟩, pk0, []⟩ = .ok s' := by
  obtain ⟨sA, hsA⟩ := rightQP_free (Fin 2 × JS 2)
  have hall : ∀ k k' : Fin 2, ∃ i : Fin 4, (if i = 0 ∨ i = 1 then (0 : Fin 2) else 1) = k ∧
      (if i = 0 ∨ i = 2 then (0 : Fin 2) else 1) = k' := by decide
  refine ⟨⟨fun i => ⟨i, 0, 1, 2⟩, fun t i => if t = 0 then (if i = 0 ∨ i = 1 then 0 else 1)
    else (if i = 0 ∨ i = 2 then 0 else 1)⟩, ⟨fun _ l k => l + k, fun _ _ => 0, fun _ _ _ => 1, fun _ _ => 0⟩,
    fun _ _ => 1 / 2, fun _ _ => 1 / 2, sA, ?_, ?_, ?_, ?_, hsA, ?_⟩
  · intro k k'
    simpa using hall k k'
  · exact ⟨fun _ _ _ => one_pos, fun _ _ => le_rfl⟩
  · intro p _
    refine ⟨fun l => by norm_num, ?_⟩
    rw [Fin.sum_univ_two]; norm_num
  · intro p _
    refine ⟨fun l => by norm_num, ?_⟩
    rw [Fin.sum_univ_two]; norm_num
  · refine C77_stayers_returns _ _ _ _ le_rfl ?_ 5 0 none _
    intro _ k
    obtain ⟨i, hi, -⟩ := hall k k
    exact ⟨i, by simpa using hi⟩

end Pytwoway.Dynamic
