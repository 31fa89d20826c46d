import Verif.BLM.Ends
import Mathlib.Analysis.SpecialFunctions.Log.Deriv
import Mathlib.Analysis.SpecialFunctions.ExpDeriv

/-! # A fit that has stopped moving satisfies the first-order conditions of the likelihood (C134) -/

namespace Pytwoway.BLM

open Finset

variable {ni nl nk : ℕ}

/-- Average log likelihood of the movers of the mixture model: each mover's density is the sum over worker
types of the proportion of the type among movers between the two firm types times the two normal densities
(raised to the weights). -/
noncomputable def Spec.logLik (d : Data ni nk) (A S : Fin 2 → Fin nl → Fin nk → ℝ) (pk : ℕ → Fin nl → ℝ) :
    ℝ :=
  (∑ i, Real.log (∑ l, Real.exp (Real.log (pk ((d.G 0 i).val + nk * (d.G 1 i).val) l) +
    ∑ t, d.W t i * (-(1 / 2) * Real.log (2 * Real.pi) - Real.log (S t l (d.G t i)) -
      (d.Y t i - A t l (d.G t i)) ^ 2 / (2 * S t l (d.G t i) ^ 2))))) / ni

theorem logLik_eq [NeZero nl] (d : Data ni nk) (b : Base nl nk) (pk : ℕ → Fin nl → ℝ) :
    Spec.logLik d b.A b.S pk = meanLse (lpMovers d b [] pk) := by
  unfold Spec.logLik meanLse
  simp only [Util.C04_exact, lpMovers, lpWage_nil, Fin.sum_univ_two, KK, Util.logpi, add_assoc]
  norm_num

/-! ## The derivative -/

theorem hasDerivAt_lse {ι : Type*} [Fintype ι] [Nonempty ι] (f : ι → ℝ → ℝ) (f' : ι → ℝ)
    (hf : ∀ l, HasDerivAt (f l) (f' l) 0) :
    HasDerivAt (fun e => Real.log (∑ l, Real.exp (f l e)))
      (∑ l, Real.exp (f l 0) / (∑ l', Real.exp (f l' 0)) * f' l) 0 := by
  have h1 : HasDerivAt (fun e => ∑ l, Real.exp (f l e)) (∑ l, Real.exp (f l 0) * f' l) 0 :=
    HasDerivAt.fun_sum fun l _ => (hf l).exp
  have hp : ∑ l, Real.exp (f l 0) ≠ 0 := (sum_pos (fun l _ => Real.exp_pos _) univ_nonempty).ne'
  have := h1.log hp
  convert this using 1
  rw [sum_div]
  exact sum_congr rfl fun l _ => by ring

theorem hasDerivAt_logLik [NeZero nl] (d : Data ni nk) (b : Base nl nk) (pk : ℕ → Fin nl → ℝ)
    (vA vS : Fin 2 → Fin nl → Fin nk → ℝ) (vp : ℕ → Fin nl → ℝ) (hS : ∀ t l k, 0 < b.S t l k)
    (hp : ∀ p < nk ^ 2, ∀ l, 0 < pk p l) :
    HasDerivAt (fun e : ℝ => Spec.logLik d (fun t l k => b.A t l k + e * vA t l k)
        (fun t l k => b.S t l k + e * vS t l k) fun p l => pk p l + e * vp p l)
      ((∑ i, ∑ l, posterior (lpMovers d b [] pk) i l * (vp (KK d i) l / pk (KK d i) l + ∑ t, d.W t i *
        ((d.Y t i - b.A t l (d.G t i)) * vA t l (d.G t i) / b.S t l (d.G t i) ^ 2 +
          vS t l (d.G t i) * ((d.Y t i - b.A t l (d.G t i)) ^ 2 - b.S t l (d.G t i) ^ 2) /
            b.S t l (d.G t i) ^ 3))) / ni) 0 := by
  unfold Spec.logLik
  refine HasDerivAt.div_const (HasDerivAt.fun_sum fun i _ => ?_) _
  have hk := KK_lt d i
  have hlp : ∀ l, Real.log (pk (KK d i) l + 0 * vp (KK d i) l) + ∑ t, d.W t i *
      (-(1 / 2) * Real.log (2 * Real.pi) - Real.log (b.S t l (d.G t i) + 0 * vS t l (d.G t i)) -
        (d.Y t i - (b.A t l (d.G t i) + 0 * vA t l (d.G t i))) ^ 2 /
          (2 * (b.S t l (d.G t i) + 0 * vS t l (d.G t i)) ^ 2)) = lpMovers d b [] pk i l := by
    intro l
    simp only [zero_mul, add_zero, lpMovers, lpWage_nil, Fin.sum_univ_two, Util.logpi, add_assoc]
    norm_num
  have hlin : ∀ a v : ℝ, HasDerivAt (fun e : ℝ => a + e * v) v 0 := fun a v => by
    simpa using ((hasDerivAt_id (0 : ℝ)).mul_const v).const_add a
  have main := hasDerivAt_lse (fun (l : Fin nl) (e : ℝ) =>
    Real.log (pk (KK d i) l + e * vp (KK d i) l) + ∑ t, d.W t i *
      (-(1 / 2) * Real.log (2 * Real.pi) - Real.log (b.S t l (d.G t i) + e * vS t l (d.G t i)) -
        (d.Y t i - (b.A t l (d.G t i) + e * vA t l (d.G t i))) ^ 2 /
          (2 * (b.S t l (d.G t i) + e * vS t l (d.G t i)) ^ 2)))
    (fun l => vp (KK d i) l / pk (KK d i) l + ∑ t, d.W t i *
        ((d.Y t i - b.A t l (d.G t i)) * vA t l (d.G t i) / b.S t l (d.G t i) ^ 2 +
          vS t l (d.G t i) * ((d.Y t i - b.A t l (d.G t i)) ^ 2 - b.S t l (d.G t i) ^ 2) /
            b.S t l (d.G t i) ^ 3)) (fun l => ?_)
  · simp only [hlp, ← posterior_eq] at main
    exact main
  · have h1 : HasDerivAt (fun e : ℝ => Real.log (pk (KK d i) l + e * vp (KK d i) l))
        (vp (KK d i) l / pk (KK d i) l) 0 := by
      have := (hlin (pk (KK d i) l) (vp (KK d i) l)).log (by simpa using (hp _ hk l).ne')
      simpa using this
    refine h1.add (HasDerivAt.fun_sum fun t _ => HasDerivAt.const_mul _ ?_)
    have hs := hS t l (d.G t i)
    have h2 := (hlin (b.S t l (d.G t i)) (vS t l (d.G t i))).log (by simpa using hs.ne')
    have h3 := ((hlin (b.A t l (d.G t i)) (vA t l (d.G t i))).const_sub (d.Y t i)).pow 2
    have h4 := ((hlin (b.S t l (d.G t i)) (vS t l (d.G t i))).pow 2).const_mul 2
    have h5 := ((h2.const_sub (-(1 / 2) * Real.log (2 * Real.pi))).sub
      (h3.div h4 (by simp; exact hs.ne')))
    refine h5.congr_deriv ?_
    simp only [zero_mul, add_zero, Pi.pow_apply]
    field_simp
    ring

/-! ## The three parts of the derivative at a fixed point -/

/-- The derivative split into the parts of the proportions, the means and the standard deviations. -/
theorem split_derivative (d : Data ni nk) (q : Fin ni → Fin nl → ℝ) (b : Base nl nk) (pk : ℕ → Fin nl → ℝ)
    (vA vS : Fin 2 → Fin nl → Fin nk → ℝ) (vp : ℕ → Fin nl → ℝ) :
    ∑ i, ∑ l, q i l * (vp (KK d i) l / pk (KK d i) l + ∑ t, d.W t i *
        ((d.Y t i - b.A t l (d.G t i)) * vA t l (d.G t i) / b.S t l (d.G t i) ^ 2 +
          vS t l (d.G t i) * ((d.Y t i - b.A t l (d.G t i)) ^ 2 - b.S t l (d.G t i) ^ 2) /
            b.S t l (d.G t i) ^ 3)) =
      ∑ i, ∑ l, q i l * (vp (KK d i) l / pk (KK d i) l) +
      (∑ t, ∑ l, ∑ i, d.W t i * q i l / b.S t l (d.G t i) ^ 2 *
        ((d.Y t i - b.A t l (d.G t i)) * vA t l (d.G t i)) +
      ∑ t, ∑ l, ∑ i, d.W t i * q i l * (vS t l (d.G t i) *
        ((d.Y t i - b.A t l (d.G t i)) ^ 2 - b.S t l (d.G t i) ^ 2) / b.S t l (d.G t i) ^ 3)) := by
  have sw : ∀ f : Fin 2 → Fin nl → Fin ni → ℝ, ∑ t, ∑ l, ∑ i, f t l i = ∑ i, ∑ l, ∑ t, f t l i := by
    intro f
    rw [sum_comm]
    simp only [sum_comm (s := (univ : Finset (Fin 2)))]
    rw [sum_comm]
  rw [sw, sw, ← sum_add_distrib, ← sum_add_distrib]
  refine sum_congr rfl fun i _ => ?_
  rw [← sum_add_distrib, ← sum_add_distrib]
  refine sum_congr rfl fun l _ => ?_
  rw [← sum_add_distrib, mul_add, mul_sum]
  congr 1
  refine sum_congr rfl fun t _ => ?_
  ring

/-- Means: a minimiser of the weighted sum of squares over a convex set satisfies the variational
inequality. -/
theorem means_part (d : Data ni nk) (q : Fin ni → Fin nl → ℝ) (S A A' : Fin 2 → Fin nl → Fin nk → ℝ)
    (h : ∀ e : ℝ, 0 < e → e ≤ 1 →
      wsse d q S A ≤ wsse d q S fun t l k => A t l k + e * (A' t l k - A t l k)) :
    ∑ t, ∑ l, ∑ i, d.W t i * q i l / S t l (d.G t i) ^ 2 *
      ((d.Y t i - A t l (d.G t i)) * (A' t l (d.G t i) - A t l (d.G t i))) ≤ 0 := by
  set B := ∑ t, ∑ l, ∑ i, d.W t i * q i l / S t l (d.G t i) ^ 2 *
      ((d.Y t i - A t l (d.G t i)) * (A' t l (d.G t i) - A t l (d.G t i))) with hB
  set C := ∑ t, ∑ l, ∑ i, d.W t i * q i l / S t l (d.G t i) ^ 2 *
      (A' t l (d.G t i) - A t l (d.G t i)) ^ 2 with hC
  have hexp : ∀ e : ℝ, (wsse d q S fun t l k => A t l k + e * (A' t l k - A t l k)) =
      wsse d q S A - 2 * e * B + e ^ 2 * C := by
    intro e
    unfold wsse
    rw [hB, hC]
    simp only [mul_sum, ← sum_sub_distrib, ← sum_add_distrib]
    refine sum_congr rfl fun t _ => sum_congr rfl fun l _ => sum_congr rfl fun i _ => ?_
    ring
  by_contra hpos
  push Not at hpos
  have hCB : 0 < |C| + B := by have := abs_nonneg C; linarith
  have h1 := h (B / (|C| + B)) (by positivity) (by
    rw [div_le_one hCB]; have := abs_nonneg C; linarith)
  rw [hexp] at h1
  set e := B / (|C| + B) with he
  have hepos : 0 < e := by positivity
  have h2 : 2 * B ≤ e * C := by
    have : e * (2 * B) ≤ e * (e * C) := by nlinarith
    exact le_of_mul_le_mul_left this hepos
  have h3 : e * |C| ≤ B := by
    rw [he, div_mul_eq_mul_div, div_le_iff₀ hCB]
    have := abs_nonneg C
    nlinarith
  have h4 := mul_le_mul_of_nonneg_left (le_abs_self C) hepos.le
  linarith

/-- The variances after an M-step, whatever the constraints on the means. -/
theorem mstep_variances (d : Data ni nk) (q : Fin ni → Fin nl → ℝ) (b b' : Base nl nk) (lb : ℝ)
    (sA sS : Solver) (updA : Bool) (hsS : RightSolver (2 * (nl * nk)) (BoundS nl nk lb) sS) (hlb : 0 < lb)
    (htop : TopObserved d) (hS : ∀ t l k, 0 < b.S t l k) (hpos : ∀ t l k, 0 < cellW d q t l k)
    (h : mstep d q b updA true sA sS = .ok b') (t : Fin 2) (l : Fin nl) (k : Fin nk) :
    b'.S t l k ^ 2 = max lb
      ((∑ i with d.G t i = k, d.W t i * q i l * (d.Y t i - b'.A t l k) ^ 2) / cellW d q t l k) := by
  obtain ⟨X, hX, hXv⟩ := assemble_ok d htop fun t l i => wts d b.S q t l i
  obtain ⟨Yv, hY, hYv⟩ := assemble_ok d htop fun t l i => wts d b.S q t l i * d.Y t i
  obtain ⟨A', hA'⟩ : ∃ A', A' = (if updA then solveA sA X Yv b.A else b.A) := ⟨_, rfl⟩
  obtain ⟨Z, hZ, hZv⟩ := assemble_ok d htop fun t l i => wts d b.S q t l i *
    (d.Y t i - A' t l (d.G t i)) ^ 2
  have hb' : b' = ⟨A', solveS sS X Z b.S⟩ := by
    unfold mstep at h
    simp only [Bool.or_true, if_true, hX, hY, bind, Except.bind, pure, Except.pure] at h
    cases updA with
    | true =>
      simp only [if_true] at h hA'
      rw [← hA', hZ] at h
      simp only [Except.ok.injEq] at h
      exact h.symm
    | false =>
      simp only [Bool.false_eq_true, if_false] at h hA'
      rw [← hA', hZ] at h
      simp only [Except.ok.injEq] at h
      exact h.symm
  subst hb'
  have hS2 : ∀ t l k, 0 < b.S t l k ^ 2 := fun t l k => by have := hS t l k; positivity
  have hXc : ∀ (t : Fin 2) (l : Fin nl) (k : Fin nk), X (t.val * (nl * nk) + l.val * nk + k.val) =
      cellW d q t l k / b.S t l k ^ 2 := by
    intro t l k
    rw [hXv]
    unfold cellW wts
    rw [sum_div]
    exact sum_congr rfl fun i hi => by rw [(mem_filter.mp hi).2]
  have hP : ∀ p < 2 * (nl * nk), 0 < X p := by
    intro p hp
    obtain ⟨t, l, k, rfl⟩ := exists_pos hp
    rw [hXc]
    exact div_pos (hpos t l k) (hS2 t l k)
  obtain ⟨z, hz⟩ := hsS.complete X (fun p => - Z p) hP ⟨fun _ => lb, fun _ _ => le_refl _⟩
  have hsv : solveS sS X Z b.S = fun t l k => √(unflatten nl nk z t l k) := by
    unfold solveS; rw [hz]
  have hzlb : lb ≤ unflatten nl nk z t l k := (hsS.sound _ _ _ hz).1 _ (pos_lt t l k)
  simp only [hsv]
  rw [Real.sq_sqrt (hlb.le.trans hzlb)]
  have hzc := box_coord hsS hz (pos_lt t l k) (hP _ (pos_lt t l k))
  unfold unflatten
  rw [hzc, hZv, hXc]
  have hZc : ∑ i with d.G t i = k, wts d b.S q t l i * (d.Y t i - A' t l (d.G t i)) ^ 2 =
      (∑ i with d.G t i = k, d.W t i * q i l * (d.Y t i - A' t l k) ^ 2) / b.S t l k ^ 2 := by
    unfold wts
    rw [sum_div]
    refine sum_congr rfl fun i hi => ?_
    rw [(mem_filter.mp hi).2]; ring
  rw [hZc, div_div_div_cancel_right₀ (hS2 t l k).ne']

/-- Standard deviations: where the variance is above its bound the derivative vanishes, at the bound it is
not positive. -/
theorem sds_part (d : Data ni nk) (q : Fin ni → Fin nl → ℝ) (A S vS : Fin 2 → Fin nl → Fin nk → ℝ) (lb : ℝ)
    (hS : ∀ t l k, 0 < S t l k) (hpos : ∀ t l k, 0 < cellW d q t l k)
    (hfix : ∀ t l k, S t l k ^ 2 = max lb
      ((∑ i with d.G t i = k, d.W t i * q i l * (d.Y t i - A t l k) ^ 2) / cellW d q t l k))
    (hv : ∀ t l k, S t l k ^ 2 = lb → 0 ≤ vS t l k) :
    ∑ t, ∑ l, ∑ i, d.W t i * q i l * (vS t l (d.G t i) *
      ((d.Y t i - A t l (d.G t i)) ^ 2 - S t l (d.G t i) ^ 2) / S t l (d.G t i) ^ 3) ≤ 0 := by
  refine sum_nonpos fun t _ => sum_nonpos fun l _ => ?_
  rw [sum_cells d t fun i k => d.W t i * q i l * (vS t l k *
      ((d.Y t i - A t l k) ^ 2 - S t l k ^ 2) / S t l k ^ 3)]
  refine sum_nonpos fun k _ => ?_
  set M := ∑ i with d.G t i = k, d.W t i * q i l * (d.Y t i - A t l k) ^ 2 with hM
  have hc := hpos t l k
  have e : ∑ i with d.G t i = k, d.W t i * q i l * (vS t l k *
      ((d.Y t i - A t l k) ^ 2 - S t l k ^ 2) / S t l k ^ 3) =
      vS t l k / S t l k ^ 3 * (M - cellW d q t l k * S t l k ^ 2) := by
    rw [hM]
    unfold cellW
    rw [sum_mul, ← sum_sub_distrib, mul_sum]
    refine sum_congr rfl fun i _ => ?_
    ring
  rw [e]
  have hs3 : 0 < S t l k ^ 3 := by have := hS t l k; positivity
  have hf := hfix t l k
  rw [← hM] at hf
  rcases le_or_gt (M / cellW d q t l k) lb with hle | hgt
  · rw [max_eq_left hle] at hf
    have h1 : 0 ≤ vS t l k / S t l k ^ 3 := div_nonneg (hv t l k hf) hs3.le
    have h2 : M - cellW d q t l k * S t l k ^ 2 ≤ 0 := by
      rw [hf]
      have := (div_le_iff₀ hc).mp hle
      linarith
    nlinarith
  · rw [max_eq_right hgt.le] at hf
    rw [hf, mul_div_cancel₀ _ hc.ne', sub_self, mul_zero]

/-- Proportions: the derivative vanishes in every direction that keeps their sums. -/
theorem pk_part [NeZero nl] (d : Data ni nk) (q : Fin ni → Fin nl → ℝ) (pk pk' : ℕ → Fin nl → ℝ)
    (vp : ℕ → Fin nl → ℝ) (hnk : 0 < nk) (c : ℝ) (hW : ∀ t i, 0 < d.W t i)
    (hWc : ∀ i, d.W 0 i * d.W 1 i = c) (hq : ∀ i l, 0 < q i l) (hq1 : ∀ i, ∑ l, q i l = 1)
    (h : updatePk1 d q 1 = .ok pk') (hfix : ∀ p < nk ^ 2, pk' p = pk p)
    (hv : ∀ p, ∑ l, vp p l = 0) :
    ∑ i, ∑ l, q i l * (vp (KK d i) l / pk (KK d i) l) = 0 := by
  have hall := top_of_updatePk1 d q 1 pk' h
  obtain ⟨pk2, h2, hform⟩ := C32_movers d q 1 hW le_rfl (fun i l => (hq i l).le) hq1 hnk hall
  rw [h] at h2
  cases h2
  have hcp : 0 < √c := by
    obtain ⟨i, -⟩ := hall ⟨0, hnk⟩ ⟨0, hnk⟩
    rw [← hWc i]
    exact Real.sqrt_pos.mpr (mul_pos (hW 0 i) (hW 1 i))
  have e : ∑ i, ∑ l, q i l * (vp (KK d i) l / pk (KK d i) l) =
      ∑ k : Fin nk × Fin nk, ∑ i with (d.G 0 i, d.G 1 i) = k, ∑ l, q i l *
        (vp (k.1.val + nk * k.2.val) l / pk (k.1.val + nk * k.2.val) l) := by
    rw [← sum_fiberwise_of_maps_to (s := univ) (t := univ) (g := fun i => (d.G 0 i, d.G 1 i))
      (fun i _ => mem_univ _)]
    refine sum_congr rfl fun k _ => sum_congr rfl fun i hi => ?_
    rw [← (mem_filter.mp hi).2]
    rfl
  rw [e]
  refine sum_eq_zero fun k _ => ?_
  obtain ⟨k1, k2⟩ := k
  simp only [Prod.mk.injEq]
  rw [sum_comm]
  have hlt : k1.val + nk * k2.val < nk ^ 2 := by
    have h0 := k1.isLt; have h1 := k2.isLt; nlinarith
  set N : ℝ := ∑ i with d.G 0 i = k1 ∧ d.G 1 i = k2, (1 : ℝ) with hN
  have hNpos : 0 < N := by
    obtain ⟨i, hi⟩ := hall k1 k2
    exact sum_pos (fun _ _ => one_pos) ⟨i, by simp [hi]⟩
  have hpk : ∀ l, pk (k1.val + nk * k2.val) l =
      (∑ i with d.G 0 i = k1 ∧ d.G 1 i = k2, q i l) / N := by
    intro l
    rw [← hfix _ hlt, (hform k1 k2).1 l]
    simp only [hWc, sub_self, add_zero, mul_zero, mul_one, ← mul_sum]
    have : ∑ i with d.G 0 i = k1 ∧ d.G 1 i = k2, √c = √c * N := by rw [hN, mul_sum]; simp
    rw [this, mul_div_mul_left _ _ hcp.ne']
  have hQ : ∀ l, 0 < ∑ i with d.G 0 i = k1 ∧ d.G 1 i = k2, q i l := by
    intro l
    obtain ⟨i, hi⟩ := hall k1 k2
    exact sum_pos (fun i _ => hq i l) ⟨i, by simp [hi]⟩
  have : ∀ l, ∑ i with d.G 0 i = k1 ∧ d.G 1 i = k2,
      q i l * (vp (k1.val + nk * k2.val) l / pk (k1.val + nk * k2.val) l) =
      N * vp (k1.val + nk * k2.val) l := by
    intro l
    rw [← sum_mul, hpk]
    have := (hQ l).ne'
    field_simp
  simp only [this, ← mul_sum, hv, mul_zero]

/-! ## C134 -/

/-- What "one more iteration of `fit_movers` changes nothing" means: an iteration from the given means,
standard deviations and proportions, with everything updated and no Dirichlet prior, returns them. -/
def Spec.Settled [NeZero nl] (d : Data ni nk) (thr : ℝ) (sA sS : Solver) (b : Base nl nk)
    (pk1 : ℕ → Fin nl → ℝ) : Prop :=
  ∃ s', moversLoop d ⟨true, true, true, 1, thr⟩ sA sS (fun _ => 0) 1 true none 0 ⟨b, pk1, []⟩ = .ok s' ∧
    s'.base = b ∧ ∀ p < nk ^ 2, s'.pk1 p = pk1 p

/-- C134 for movers: where an iteration changes nothing, no admissible direction raises the likelihood to
first order: towards any other admissible means (`F` convex), with standard deviations moving up where
their variance is at its bound and in any direction elsewhere, and proportions moving so that they keep
their sums, the derivative of the average log likelihood is at most zero. -/
theorem C134_movers [NeZero nl] (d : Data ni nk) (thr : ℝ) (sA sS : Solver)
    (F : (Fin 2 → Fin nl → Fin nk → ℝ) → Prop)
    (hconv : ∀ A A', F A → F A' → ∀ e : ℝ, 0 ≤ e → e ≤ 1 →
      F fun t l k => A t l k + e * (A' t l k - A t l k))
    (lb c : ℝ) (hlb : 0 < lb) (hnk : 0 < nk)
    (hsA : RightSolver (2 * (nl * nk)) (fun x => F (unflatten nl nk x)) sA)
    (hsS : RightSolver (2 * (nl * nk)) (BoundS nl nk lb) sS)
    (hW : ∀ t i, 0 < d.W t i) (hWc : ∀ i, d.W 0 i * d.W 1 i = c)
    (b : Base nl nk) (pk1 : ℕ → Fin nl → ℝ) (hF : F b.A) (hS : ∀ t l k, 0 < b.S t l k)
    (hpos : ∀ p < nk ^ 2, ∀ l, 0 < pk1 p l) (hfix : Spec.Settled d thr sA sS b pk1)
    (A' : Fin 2 → Fin nl → Fin nk → ℝ) (hA' : F A') (vS : Fin 2 → Fin nl → Fin nk → ℝ)
    (hvS : ∀ t l k, b.S t l k ^ 2 = lb → 0 ≤ vS t l k)
    (vp : ℕ → Fin nl → ℝ) (hvp : ∀ p, ∑ l, vp p l = 0) :
    ∃ D ≤ 0, HasDerivAt (fun e : ℝ =>
      Spec.logLik d (fun t l k => b.A t l k + e * (A' t l k - b.A t l k))
        (fun t l k => b.S t l k + e * vS t l k) fun p l => pk1 p l + e * vp p l) D 0 := by
  refine ⟨_, ?_, hasDerivAt_logLik d b pk1 (fun t l k => A' t l k - b.A t l k) vS vp hS hpos⟩
  set q := posterior (lpMovers d b [] pk1) with hqdef
  have hq : ∀ i l, 0 < q i l := posterior_pos _
  have hq1 : ∀ i, ∑ l, q i l = 1 := posterior_sum _
  obtain ⟨s', h, hb, hpk⟩ := hfix
  unfold moversLoop at h
  dsimp only at h
  rw [if_neg (by simp [stop]), ← hqdef] at h
  cases hu : nextPk1 true d q 1 pk1 with
  | error m => rw [hu] at h; cases h
  | ok pk2 =>
    cases hm : mstep d q b true true sA sS with
    | error m => rw [hu, hm] at h; cases h
    | ok b2 =>
      rw [hu, hm] at h
      simp only [bind, Except.bind, moversLoop, Except.ok.injEq] at h
      subst h
      simp only at hb hpk
      subst hb
      simp only [nextPk1, if_true] at hu
      have hall := top_of_updatePk1 d q 1 pk2 hu
      have htop : TopObserved d := by
        intro t
        obtain ⟨i, h0, h1⟩ := hall ⟨nk - 1, by omega⟩ ⟨nk - 1, by omega⟩
        refine ⟨i, ?_⟩
        fin_cases t
        · exact congrArg Fin.val h0
        · exact congrArg Fin.val h1
      have hcell : ∀ t l k, 0 < cellW d q t l k := by
        intro t l k
        have : ∃ i, d.G t i = k := by
          obtain ⟨i, h0, h1⟩ := hall k k
          refine ⟨i, ?_⟩
          fin_cases t
          · exact h0
          · exact h1
        obtain ⟨i, hi⟩ := this
        exact sum_pos (fun i _ => mul_pos (hW t i) (hq i l)) ⟨i, by simp [hi]⟩
      have hmin := (C34_means_minimise d q b2 b2 true sA sS F hsA htop hS ⟨_, hF⟩ hcell hm).2
      have hA := means_part d q b2.S b2.A A' fun e he he1 => hmin _ (hconv _ _ hF hA' e he.le he1)
      have hs := sds_part d q b2.A b2.S vS lb hS hcell
        (mstep_variances d q b2 b2 lb sA sS true hsS hlb htop hS hcell hm) hvS
      have hp := pk_part d q pk1 pk2 vp hnk c hW hWc hq hq1 hu hpk hvp
      refine div_nonpos_of_nonpos_of_nonneg ?_ (Nat.cast_nonneg _)
      rw [split_derivative d q b2 pk1 (fun t l k => A' t l k - b2.A t l k) vS vp]
      linarith

/-- C134 for movers without constraints and with every variance above its bound: the gradient of the
likelihood is zero, that is, its derivative vanishes in every direction that keeps the sums of the
proportions. -/
theorem C134_movers_gradient [NeZero nl] (d : Data ni nk) (thr : ℝ) (sA sS : Solver)
    (lb c : ℝ) (hlb : 0 < lb) (hnk : 0 < nk)
    (hsA : RightSolver (2 * (nl * nk)) (fun _ => True) sA)
    (hsS : RightSolver (2 * (nl * nk)) (BoundS nl nk lb) sS)
    (hW : ∀ t i, 0 < d.W t i) (hWc : ∀ i, d.W 0 i * d.W 1 i = c)
    (b : Base nl nk) (pk1 : ℕ → Fin nl → ℝ) (hS : ∀ t l k, 0 < b.S t l k ∧ lb < b.S t l k ^ 2)
    (hpos : ∀ p < nk ^ 2, ∀ l, 0 < pk1 p l) (hfix : Spec.Settled d thr sA sS b pk1)
    (vA vS : Fin 2 → Fin nl → Fin nk → ℝ) (vp : ℕ → Fin nl → ℝ) (hvp : ∀ p, ∑ l, vp p l = 0) :
    HasDerivAt (fun e : ℝ => Spec.logLik d (fun t l k => b.A t l k + e * vA t l k)
        (fun t l k => b.S t l k + e * vS t l k) fun p l => pk1 p l + e * vp p l) 0 0 := by
  have hno : ∀ v : Fin 2 → Fin nl → Fin nk → ℝ, ∀ t l k, b.S t l k ^ 2 = lb → 0 ≤ v t l k :=
    fun v t l k h => absurd h (hS t l k).2.ne'
  obtain ⟨D, hD, h1⟩ := C134_movers d thr sA sS (fun _ => True) (fun _ _ _ _ _ _ _ => trivial) lb c hlb hnk
    hsA hsS hW hWc b pk1 trivial (fun t l k => (hS t l k).1) hpos hfix (fun t l k => b.A t l k + vA t l k)
    trivial vS (hno vS) vp hvp
  obtain ⟨D', hD', h2⟩ := C134_movers d thr sA sS (fun _ => True) (fun _ _ _ _ _ _ _ => trivial) lb c hlb
    hnk hsA hsS hW hWc b pk1 trivial (fun t l k => (hS t l k).1) hpos hfix
    (fun t l k => b.A t l k + -vA t l k) trivial (fun t l k => -vS t l k) (hno _) (fun p l => -vp p l)
    (fun p => by rw [sum_neg_distrib, hvp, neg_zero])
  simp only [add_sub_cancel_left] at h1 h2
  have h3 : HasDerivAt (fun e : ℝ => Spec.logLik d (fun t l k => b.A t l k + -e * vA t l k)
      (fun t l k => b.S t l k + -e * vS t l k) fun p l => pk1 p l + -e * vp p l) (D * -1) 0 :=
    HasDerivAt.comp (h₂ := fun e : ℝ => Spec.logLik d (fun t l k => b.A t l k + e * vA t l k)
      (fun t l k => b.S t l k + e * vS t l k) fun p l => pk1 p l + e * vp p l) 0
      (by simpa using h1) (hasDerivAt_neg (0 : ℝ))
  have h4 : D' = D * -1 := by
    refine h2.unique ?_
    simpa only [neg_mul, mul_neg] using h3
  have : D = 0 := by linarith
  rw [this] at h1
  exact h1

/-- C134, the converse: where every variance is at or above its bound, the proportions sum to one, every
pair of firm types is observed and the gradient of the likelihood is zero, an unconstrained iteration
changes nothing.  So the points at which `fit_movers` stays put are exactly the critical points. -/
theorem C134_movers_converse [NeZero nl] (d : Data ni nk) (thr : ℝ) (sA sS : Solver)
    (lb c : ℝ) (hlb : 0 < lb) (hnk : 0 < nk) (hni : 0 < ni)
    (hsA : RightSolver (2 * (nl * nk)) (fun _ => True) sA)
    (hsS : RightSolver (2 * (nl * nk)) (BoundS nl nk lb) sS)
    (hW : ∀ t i, 0 < d.W t i) (hWc : ∀ i, d.W 0 i * d.W 1 i = c) (hall : AllPairs d)
    (b : Base nl nk) (pk1 : ℕ → Fin nl → ℝ) (hS : ∀ t l k, 0 < b.S t l k ∧ lb ≤ b.S t l k ^ 2)
    (hpos : ∀ p < nk ^ 2, ∀ l, 0 < pk1 p l) (hsum : ∀ p < nk ^ 2, ∑ l, pk1 p l = 1)
    (hgrad : ∀ (vA vS : Fin 2 → Fin nl → Fin nk → ℝ) (vp : ℕ → Fin nl → ℝ), (∀ p, ∑ l, vp p l = 0) →
      HasDerivAt (fun e : ℝ => Spec.logLik d (fun t l k => b.A t l k + e * vA t l k)
        (fun t l k => b.S t l k + e * vS t l k) fun p l => pk1 p l + e * vp p l) 0 0) :
    Spec.Settled d thr sA sS b pk1 := by
  set q := posterior (lpMovers d b [] pk1) with hqdef
  have hq : ∀ i l, 0 < q i l := posterior_pos _
  have hq1 : ∀ i, ∑ l, q i l = 1 := posterior_sum _
  have hnr : (ni : ℝ) ≠ 0 := by exact_mod_cast hni.ne'
  have hparts : ∀ (vA vS : Fin 2 → Fin nl → Fin nk → ℝ) (vp : ℕ → Fin nl → ℝ), (∀ p, ∑ l, vp p l = 0) →
      ∑ i, ∑ l, q i l * (vp (KK d i) l / pk1 (KK d i) l) +
      (∑ t, ∑ l, ∑ i, d.W t i * q i l / b.S t l (d.G t i) ^ 2 *
        ((d.Y t i - b.A t l (d.G t i)) * vA t l (d.G t i)) +
      ∑ t, ∑ l, ∑ i, d.W t i * q i l * (vS t l (d.G t i) *
        ((d.Y t i - b.A t l (d.G t i)) ^ 2 - b.S t l (d.G t i) ^ 2) / b.S t l (d.G t i) ^ 3)) = 0 := by
    intro vA vS vp hvp
    have h1 := (hasDerivAt_logLik d b pk1 vA vS vp (fun t l k => (hS t l k).1) hpos).unique
      (hgrad vA vS vp hvp)
    rw [div_eq_zero_iff, split_derivative] at h1
    exact h1.resolve_right hnr
  have hcell : ∀ t l k, 0 < cellW d q t l k := by
    intro t l k
    have : ∃ i, d.G t i = k := by
      obtain ⟨i, h0, h1⟩ := hall k k
      refine ⟨i, ?_⟩
      fin_cases t
      · exact h0
      · exact h1
    obtain ⟨i, hi⟩ := this
    exact sum_pos (fun i _ => mul_pos (hW t i) (hq i l)) ⟨i, by simp [hi]⟩
  have hS2 : ∀ t l k, 0 < b.S t l k ^ 2 := fun t l k => hlb.trans_le (hS t l k).2
  -- a sum of squares over the cells that vanishes
  have hcells : ∀ R : Fin 2 → Fin nl → Fin nk → ℝ, ∑ t, ∑ l, ∑ k, R t l k * R t l k = 0 →
      ∀ t l k, R t l k = 0 := by
    intro R h0 t l k
    have h1 := (sum_eq_zero_iff_of_nonneg (fun t _ => sum_nonneg fun l _ => sum_nonneg fun k _ =>
      mul_self_nonneg _)).mp h0 t (mem_univ _)
    have h2 := (sum_eq_zero_iff_of_nonneg (fun l _ => sum_nonneg fun k _ => mul_self_nonneg _)).mp h1 l
      (mem_univ _)
    exact mul_self_eq_zero.mp ((sum_eq_zero_iff_of_nonneg fun k _ => mul_self_nonneg _).mp h2 k
      (mem_univ _))
  -- means
  set R : Fin 2 → Fin nl → Fin nk → ℝ := fun t l k => ∑ i with d.G t i = k,
    d.W t i * q i l / b.S t l k ^ 2 * (d.Y t i - b.A t l k) with hR
  have hR0 : ∀ t l k, R t l k = 0 := by
    refine hcells R ?_
    have h1 := hparts R (fun _ _ _ => 0) (fun _ _ => 0) (fun _ => by simp)
    simp only [zero_div, mul_zero, zero_mul, sum_const_zero, zero_add, add_zero] at h1
    rw [← h1]
    refine sum_congr rfl fun t _ => sum_congr rfl fun l _ => ?_
    rw [sum_cells d t fun i k => d.W t i * q i l / b.S t l k ^ 2 * ((d.Y t i - b.A t l k) * R t l k)]
    refine sum_congr rfl fun k _ => ?_
    conv_lhs => rw [hR]
    simp only
    rw [sum_mul]
    exact sum_congr rfl fun i _ => by ring
  -- standard deviations
  set Z : Fin 2 → Fin nl → Fin nk → ℝ := fun t l k => ∑ i with d.G t i = k,
    d.W t i * q i l * (((d.Y t i - b.A t l k) ^ 2 - b.S t l k ^ 2) / b.S t l k ^ 3) with hZ
  have hZ0 : ∀ t l k, Z t l k = 0 := by
    refine hcells Z ?_
    have h1 := hparts (fun _ _ _ => 0) Z (fun _ _ => 0) (fun _ => by simp)
    simp only [zero_div, mul_zero, sum_const_zero, zero_add] at h1
    rw [← h1]
    refine sum_congr rfl fun t _ => sum_congr rfl fun l _ => ?_
    rw [sum_cells d t fun i k => d.W t i * q i l * (Z t l k *
      ((d.Y t i - b.A t l k) ^ 2 - b.S t l k ^ 2) / b.S t l k ^ 3)]
    refine sum_congr rfl fun k _ => ?_
    conv_lhs => rw [hZ]
    simp only
    rw [sum_mul]
    exact sum_congr rfl fun i _ => by ring
  -- proportions
  set Q : ℕ → Fin nl → ℝ := fun p l => ∑ i with KK d i = p, q i l with hQ
  set v : ℕ → Fin nl → ℝ := fun p l => Q p l / pk1 p l - (∑ l', Q p l' / pk1 p l') / nl with hv
  have hnl : (nl : ℝ) ≠ 0 := by exact_mod_cast NeZero.ne nl
  have hvsum : ∀ p, ∑ l, v p l = 0 := by
    intro p
    simp only [hv, sum_sub_distrib, sum_const, card_univ, Fintype.card_fin, nsmul_eq_mul]
    rw [mul_div_cancel₀ _ hnl, sub_self]
  have hflow : ∀ f : Fin ni → ℕ → ℝ, ∑ i, f i (KK d i) =
      ∑ p ∈ range (nk ^ 2), ∑ i with KK d i = p, f i p := by
    intro f
    rw [← sum_fiberwise_of_maps_to (s := univ) (t := range (nk ^ 2)) (g := KK d)
      (fun i _ => mem_range.mpr (KK_lt d i))]
    refine sum_congr rfl fun p _ => sum_congr rfl fun i hi => ?_
    rw [(mem_filter.mp hi).2]
  have hv0 : ∀ p < nk ^ 2, ∀ l, v p l = 0 := by
    have h1 := hparts (fun _ _ _ => 0) (fun _ _ _ => 0) v hvsum
    simp only [mul_zero, zero_mul, zero_div, sum_const_zero, add_zero] at h1
    have h2 : ∑ p ∈ range (nk ^ 2), ∑ l, v p l * v p l = 0 := by
      rw [← h1, hflow fun i p => ∑ l, q i l * (v p l / pk1 p l)]
      refine sum_congr rfl fun p _ => ?_
      rw [sum_comm]
      have e : ∀ l, ∑ i with KK d i = p, q i l * (v p l / pk1 p l) =
          v p l * v p l + (∑ l', Q p l' / pk1 p l') / nl * v p l := by
        intro l
        rw [← sum_mul]
        have : (∑ i with KK d i = p, q i l) = Q p l := rfl
        rw [this]
        have : Q p l / pk1 p l = v p l + (∑ l', Q p l' / pk1 p l') / nl := by
          simp only [hv]; ring
        calc Q p l * (v p l / pk1 p l) = Q p l / pk1 p l * v p l := by ring
          _ = _ := by rw [this]; ring
      simp only [e, sum_add_distrib, ← mul_sum, hvsum, mul_zero, add_zero]
    intro p hp l
    have h3 := (sum_eq_zero_iff_of_nonneg (fun p _ => sum_nonneg fun l _ => mul_self_nonneg _)).mp h2 p
      (mem_range.mpr hp)
    exact mul_self_eq_zero.mp ((sum_eq_zero_iff_of_nonneg fun l _ => mul_self_nonneg _).mp h3 l
      (mem_univ _))
  have hpkv : ∀ p < nk ^ 2, ∀ l, Q p l = pk1 p l * ∑ l', Q p l' := by
    intro p hp l
    set κ := (∑ l', Q p l' / pk1 p l') / nl with hκ
    have h1 : ∀ l, Q p l = κ * pk1 p l := by
      intro l
      have h2 := hv0 p hp l
      simp only [hv] at h2
      have h3 : Q p l / pk1 p l = κ := by rw [hκ]; linarith
      rw [div_eq_iff (hpos p hp l).ne'] at h3
      exact h3
    have h2 : ∑ l', Q p l' = κ := by
      simp only [h1, ← mul_sum, hsum p hp, mul_one]
    rw [h2, h1]; ring
  -- the iteration
  obtain ⟨pk', hpk', hform⟩ := C32_movers d q 1 hW le_rfl (fun i l => (hq i l).le) hq1 hnk hall
  obtain ⟨b', hb', hbf⟩ := C34_closed_form d q b lb sA sS hnk hsA hsS hlb.le (fun t l k => (hS t l k).1)
    hcell
  have hA : ∀ t l k, b'.A t l k = b.A t l k := by
    intro t l k
    rw [(hbf t l k).1, div_eq_iff (hcell t l k).ne']
    have h1 : R t l k = (∑ i with d.G t i = k, d.W t i * q i l * d.Y t i -
        b.A t l k * cellW d q t l k) / b.S t l k ^ 2 := by
      simp only [hR]
      unfold cellW
      rw [mul_sum, ← sum_sub_distrib, sum_div]
      exact sum_congr rfl fun i _ => by ring
    have h2 := hR0 t l k
    rw [h1, div_eq_zero_iff] at h2
    have := h2.resolve_right (hS2 t l k).ne'
    linarith
  have hSv : ∀ t l k, b'.S t l k = b.S t l k := by
    intro t l k
    obtain ⟨-, h0, h1⟩ := hbf t l k
    have h2 : Z t l k = (∑ i with d.G t i = k, d.W t i * q i l * (d.Y t i - b'.A t l k) ^ 2 -
        b.S t l k ^ 2 * cellW d q t l k) / b.S t l k ^ 3 := by
      simp only [hZ, hA]
      unfold cellW
      rw [mul_sum, ← sum_sub_distrib, sum_div]
      exact sum_congr rfl fun i _ => by ring
    have h3 := hZ0 t l k
    have hs3 : b.S t l k ^ 3 ≠ 0 := pow_ne_zero _ (hS t l k).1.ne'
    rw [h2, div_eq_zero_iff] at h3
    have h4 := h3.resolve_right hs3
    have h5 : (∑ i with d.G t i = k, d.W t i * q i l * (d.Y t i - b'.A t l k) ^ 2) / cellW d q t l k =
        b.S t l k ^ 2 := by
      rw [div_eq_iff (hcell t l k).ne']; linarith
    rw [h5, max_eq_right (hS t l k).2] at h1
    have := (sq_eq_sq₀ h0 (hS t l k).1.le).mp h1
    exact this
  have hbe : b' = b := by
    have h1 : b'.A = b.A := by funext t l k; exact hA t l k
    have h2 : b'.S = b.S := by funext t l k; exact hSv t l k
    cases b'; cases b
    simp only at h1 h2
    subst h1 h2
    rfl
  refine ⟨⟨b', pk', [likMovers d b [] pk1 true true 1]⟩, ?_, hbe, ?_⟩
  · unfold moversLoop
    dsimp only
    rw [if_neg (by simp [stop]), ← hqdef, hb']
    simp only [nextPk1, if_true, hpk', bind, Except.bind, moversLoop, List.nil_append]
  · intro p hp
    obtain ⟨k1, k2, rfl⟩ := pair_of_lt hp
    funext l
    change pk' (k1.val + nk * k2.val) l = pk1 (k1.val + nk * k2.val) l
    have hcp : 0 < √c := by
      obtain ⟨i, -⟩ := hall k1 k2
      rw [← hWc i]
      exact Real.sqrt_pos.mpr (mul_pos (hW 0 i) (hW 1 i))
    have hset : (univ.filter fun i => d.G 0 i = k1 ∧ d.G 1 i = k2) =
        univ.filter fun i => KK d i = k1.val + nk * k2.val := by
      ext i
      simp only [mem_filter, mem_univ, true_and]
      exact (KK_eq_iff d i k1 k2).symm
    rw [(hform k1 k2).1 l, hset]
    simp only [hWc, sub_self, add_zero, mul_zero, mul_one, ← mul_sum]
    have hN : ∑ i with KK d i = k1.val + nk * k2.val, √c =
        √c * ∑ l', Q (k1.val + nk * k2.val) l' := by
      simp only [hQ]
      rw [sum_comm]
      simp only [hq1]
      rw [mul_sum]; simp
    rw [hN, mul_div_mul_left _ _ hcp.ne']
    have hNpos : 0 < ∑ l', Q (k1.val + nk * k2.val) l' := by
      obtain ⟨i, hi⟩ := hall k1 k2
      refine sum_pos (fun l _ => sum_pos (fun i _ => hq i l) ⟨i, ?_⟩) univ_nonempty
      simp [(KK_eq_iff d i k1 k2).mpr hi]
    rw [div_eq_iff hNpos.ne']
    exact hpkv _ hp l

/-- Two movers of one firm type with wages of 1 and -1, for the case below. -/
def exOpposite : Data 2 1 := ⟨fun _ i => if i = 0 then 1 else -1, fun _ _ => 0, fun _ _ => 1⟩

/-- Means zero, standard deviations one. -/
def exUnit : Base 2 1 := ⟨fun _ _ _ => 0, fun _ _ _ => 1⟩

/-- Non-vacuity: with two worker types, means of zero, unit standard deviations and even proportions, an
iteration on two movers with wages 1 and -1 changes nothing, the variances being above the bound. -/
theorem C134_case (thr : ℝ) : ∃ sA sS, RightSolver (2 * (2 * 1)) (fun _ => True) sA ∧
    RightSolver (2 * (2 * 1)) (BoundS 2 1 (1 / 10000000)) sS ∧
    (∀ t l k, 0 < exUnit.S t l k ∧ 1 / 10000000 < exUnit.S t l k ^ 2) ∧
    Spec.Settled exOpposite thr sA sS exUnit (fun _ _ => 1 / 2) := by
  obtain ⟨sA, hsA⟩ := rightSolver_free (2 * (2 * 1))
  obtain ⟨sS, hsS⟩ := rightSolver_box (2 * (2 * 1)) (1 / 10000000)
  refine ⟨sA, sS, hsA, hsS, fun _ _ _ => by simp only [exUnit]; norm_num, ?_⟩
  set q := posterior (lpMovers exOpposite exUnit [] (fun _ _ => 1 / 2)) with hq
  have hqv : ∀ i l, q i l = 1 / 2 := by
    intro i l
    rw [hq, posterior_eq]
    have : ∀ l', lpMovers exOpposite exUnit [] (fun _ _ => 1 / 2) i l' =
        lpMovers exOpposite exUnit [] (fun _ _ => 1 / 2) i 0 := fun _ => rfl
    simp only [this, sum_const, card_univ, Fintype.card_fin, nsmul_eq_mul]
    have := (Real.exp_pos (lpMovers exOpposite exUnit [] (fun _ _ => 1 / 2) i 0)).ne'
    push_cast
    field_simp
  have hk : ∀ k : Fin 1, (0 : Fin 1) = k := fun k => Subsingleton.elim _ _
  have hcell : ∀ t l k, cellW exOpposite q t l k = 1 := by
    intro t l k
    simp [cellW, exOpposite, hqv, hk k]
  have hall : AllPairs exOpposite := fun _ _ => ⟨0, Subsingleton.elim _ _, Subsingleton.elim _ _⟩
  obtain ⟨pk, hpk, hv⟩ := C32_movers exOpposite q 1 (fun _ _ => one_pos) le_rfl
    (fun i l => by rw [hqv]; norm_num) (fun i => by simp [hqv]) one_pos hall
  obtain ⟨b', hb', hform⟩ := C34_closed_form exOpposite q exUnit (1 / 10000000) sA sS one_pos hsA hsS
    (by norm_num) (fun _ _ _ => one_pos) (fun t l k => by rw [hcell]; exact one_pos)
  have hA : ∀ t l k, b'.A t l k = 0 := by
    intro t l k
    rw [(hform t l k).1, hcell]
    simp [exOpposite, hqv, hk k]
  have hSv : ∀ t l k, b'.S t l k = 1 := by
    intro t l k
    obtain ⟨-, h0, h1⟩ := hform t l k
    have hM : ∑ i with exOpposite.G t i = k, exOpposite.W t i * q i l *
        (exOpposite.Y t i - b'.A t l k) ^ 2 = 1 := by
      simp [exOpposite, hqv, hA, hk k]
    rw [hM, hcell] at h1
    norm_num at h1
    rcases h1 with h1 | h1
    · exact h1
    · linarith
  have hbe : b' = exUnit := by
    have h1 : b'.A = exUnit.A := by funext t l k; exact hA t l k
    have h2 : b'.S = exUnit.S := by funext t l k; exact hSv t l k
    cases b'
    simp only at h1 h2
    subst h1 h2
    rfl
  refine ⟨⟨b', pk, [likMovers exOpposite exUnit [] (fun _ _ => 1 / 2) true true 1]⟩, ?_, hbe, ?_⟩
  · unfold moversLoop
    dsimp only
    rw [if_neg (by simp [stop]), ← hq, hb']
    simp only [nextPk1, if_true, hpk, bind, Except.bind, moversLoop, List.nil_append]
  · intro p hp
    obtain ⟨k1, k2, rfl⟩ := pair_of_lt hp
    funext l
    change pk (k1.val + 1 * k2.val) l = 1 / 2
    rw [(hv k1 k2).1 l]
    obtain rfl := hk k1
    obtain rfl := hk k2
    simp [exOpposite, hqv]

/-! ## Stayers: the fixed point is the global maximum -/

/-- Average log likelihood of the stayers for proportions `p`, the wage parameters being fixed: each
stayer's density is the sum over worker types of the proportion times the density raised to the weight. -/
noncomputable def Spec.logLikStayers (d : Data ni nk) (b : Base nl nk) (cs : List (Ctrl ni nl))
    (p : Fin nk → Fin nl → ℝ) : ℝ :=
  (∑ i, Real.log (∑ l, p (d.G 0 i) l * Real.exp (d.W 0 i * lpWage d b cs 0 l i))) / ni

theorem stayers_ratio [NeZero nl] (d : Data ni nk) (b : Base nl nk) (cs : List (Ctrl ni nl))
    (p p' : Fin nk → Fin nl → ℝ) (hp : ∀ k l, 0 < p k l) (hp' : ∀ k l, 0 ≤ p' k l)
    (hs' : ∀ k, ∑ l, p' k l = 1) (i : Fin ni) :
    Real.log (∑ l, p' (d.G 0 i) l * Real.exp (d.W 0 i * lpWage d b cs 0 l i)) -
      Real.log (∑ l, p (d.G 0 i) l * Real.exp (d.W 0 i * lpWage d b cs 0 l i)) ≤
    ∑ l, posterior (lpStayers d b cs fun k => some (p k)) i l * (p' (d.G 0 i) l / p (d.G 0 i) l) - 1 := by
  set f : Fin nl → ℝ := fun l => Real.exp (d.W 0 i * lpWage d b cs 0 l i) with hf
  have hfp : ∀ l, 0 < f l := fun l => Real.exp_pos _
  have hD : 0 < ∑ l, p (d.G 0 i) l * f l :=
    sum_pos (fun l _ => mul_pos (hp _ l) (hfp l)) univ_nonempty
  have hN : 0 < ∑ l, p' (d.G 0 i) l * f l := by
    obtain ⟨l, -, hl⟩ := exists_ne_zero_of_sum_ne_zero (s := univ) (f := fun l => p' (d.G 0 i) l)
      (by rw [hs']; exact one_ne_zero)
    exact sum_pos' (fun l _ => mul_nonneg (hp' _ l) (hfp l).le)
      ⟨l, mem_univ _, mul_pos (lt_of_le_of_ne (hp' _ l) (Ne.symm hl)) (hfp l)⟩
  have hq : ∀ l, posterior (lpStayers d b cs fun k => some (p k)) i l =
      p (d.G 0 i) l * f l / ∑ l', p (d.G 0 i) l' * f l' := by
    intro l
    rw [posterior_eq]
    have : ∀ l, Real.exp (lpStayers d b cs (fun k => some (p k)) i l) = p (d.G 0 i) l * f l := by
      intro l
      simp only [lpStayers, Option.getD_some]
      rw [Real.exp_add, Real.exp_log (hp _ l), mul_comm]
    simp only [this]
  have e : ∑ l, posterior (lpStayers d b cs fun k => some (p k)) i l *
      (p' (d.G 0 i) l / p (d.G 0 i) l) =
      (∑ l, p' (d.G 0 i) l * f l) / ∑ l, p (d.G 0 i) l * f l := by
    rw [sum_div]
    refine sum_congr rfl fun l _ => ?_
    rw [hq]
    have := (hp (d.G 0 i) l).ne'
    field_simp
  rw [e, ← Real.log_div hN.ne' hD.ne']
  exact Real.log_le_sub_one_of_pos (div_pos hN hD)

/-- C134 for stayers, a certificate: if the next iteration of `fit_stayers` raises no proportion by more
than the fraction `ε` of itself, then no proportions whatsoever have an average log likelihood more than
`ε` above the present one.  (No Dirichlet prior, equal weights, every firm type observed, any controls.) -/
theorem C134_stayers_gap [NeZero nl] (d : Data ni nk) (b : Base nl nk) (cs : List (Ctrl ni nl))
    (c thr ε : ℝ) (hc : 0 < c) (hW : ∀ i, d.W 0 i = c) (hall : ∀ k, ∃ i, d.G 0 i = k) (hε : 0 ≤ ε)
    (pk0 : Fin nk → Fin nl → ℝ) (hpos : ∀ k l, 0 < pk0 k l)
    (pk0' : Fin nk → Option (Fin nl → ℝ)) (liks : List (Option ℝ))
    (h : fitStayers d b cs 1 thr 1 pk0 = .ok (pk0', liks))
    (hnear : ∀ k row, pk0' k = some row → ∀ l, row l ≤ (1 + ε) * pk0 k l)
    (p' : Fin nk → Fin nl → ℝ) (hp' : ∀ k l, 0 ≤ p' k l) (hs' : ∀ k, ∑ l, p' k l = 1) :
    Spec.logLikStayers d b cs p' ≤ Spec.logLikStayers d b cs pk0 + ε := by
  set q := posterior (lpStayers d b cs fun k => some (pk0 k)) with hqdef
  have hq : ∀ i l, 0 < q i l := posterior_pos _
  have hq1 : ∀ i, ∑ l, q i l = 1 := posterior_sum _
  have hu : updatePk0 d q 1 = .ok pk0' := by
    unfold fitStayers stayersLoop at h
    dsimp only at h
    rw [if_neg (by simp [stopStayers]), ← hqdef] at h
    cases hu : updatePk0 d q 1 with
    | error m => rw [hu] at h; cases h
    | ok pk2 =>
      rw [hu] at h
      simp only [bind, Except.bind, stayersLoop, Except.ok.injEq, Prod.mk.injEq] at h
      rw [h.1]
  have hrow := updatePk0_row d q c hc hW hq hq1 hall pk0' hu
  have htot : ∀ k, ∑ l', ∑ i with d.G 0 i = k, q i l' = ∑ i with d.G 0 i = k, (1 : ℝ) := by
    intro k
    rw [sum_comm]
    exact sum_congr rfl fun i _ => hq1 i
  have hNpos : ∀ k, 0 < ∑ i with d.G 0 i = k, (1 : ℝ) := by
    intro k
    obtain ⟨i, hi⟩ := hall k
    exact sum_pos (fun _ _ => one_pos) ⟨i, by simp [hi]⟩
  have hcell : ∀ k l, (∑ i with d.G 0 i = k, q i l) / pk0 k l ≤
      (1 + ε) * ∑ i with d.G 0 i = k, (1 : ℝ) := by
    intro k l
    have h1 := hnear k _ (hrow k) l
    rw [htot, div_le_iff₀ (hNpos k)] at h1
    rw [div_le_iff₀ (hpos k l)]
    linarith
  have hsum : ∑ i, (∑ l, q i l * (p' (d.G 0 i) l / pk0 (d.G 0 i) l) - 1) ≤ ε * ni := by
    rw [sum_sub_distrib]
    rw [sum_cells d 0 fun i k => ∑ l, q i l * (p' k l / pk0 k l)]
    have h2 : ∀ k, ∑ i with d.G 0 i = k, ∑ l, q i l * (p' k l / pk0 k l) ≤
        (1 + ε) * ∑ i with d.G 0 i = k, (1 : ℝ) := by
      intro k
      rw [sum_comm]
      calc ∑ l, ∑ i with d.G 0 i = k, q i l * (p' k l / pk0 k l)
          = ∑ l, p' k l * ((∑ i with d.G 0 i = k, q i l) / pk0 k l) := by
            refine sum_congr rfl fun l _ => ?_
            rw [← sum_mul]; ring
        _ ≤ ∑ l, p' k l * ((1 + ε) * ∑ i with d.G 0 i = k, (1 : ℝ)) :=
            sum_le_sum fun l _ => mul_le_mul_of_nonneg_left (hcell k l) (hp' k l)
        _ = (1 + ε) * ∑ i with d.G 0 i = k, (1 : ℝ) := by rw [← sum_mul, hs', one_mul]
    have h3 := sum_le_sum fun k (_ : k ∈ (univ : Finset (Fin nk))) => h2 k
    rw [← mul_sum, ← sum_cells d 0 fun _ _ => (1 : ℝ)] at h3
    simp only [sum_const, card_univ, Fintype.card_fin, nsmul_eq_mul, mul_one] at h3 ⊢
    linarith
  have hdiff : Spec.logLikStayers d b cs p' - Spec.logLikStayers d b cs pk0 ≤ ε := by
    unfold Spec.logLikStayers
    rw [← sub_div, ← sum_sub_distrib]
    have h4 := (sum_le_sum fun i (_ : i ∈ (univ : Finset (Fin ni))) =>
      stayers_ratio d b cs pk0 p' hpos hp' hs' i).trans hsum
    rcases Nat.eq_zero_or_pos ni with h0 | h0
    · subst h0; simpa using hε
    · have : (0 : ℝ) < ni := by exact_mod_cast h0
      rw [div_le_iff₀ this]
      exact h4
  linarith

/-- C134 for stayers: proportions that an iteration of `fit_stayers` leaves unchanged maximise the average
log likelihood over all proportions. -/
theorem C134_stayers_maximum [NeZero nl] (d : Data ni nk) (b : Base nl nk) (cs : List (Ctrl ni nl))
    (c thr : ℝ) (hc : 0 < c) (hW : ∀ i, d.W 0 i = c) (hall : ∀ k, ∃ i, d.G 0 i = k)
    (pk0 : Fin nk → Fin nl → ℝ) (hpos : ∀ k l, 0 < pk0 k l) (liks : List (Option ℝ))
    (h : fitStayers d b cs 1 thr 1 pk0 = .ok (fun k => some (pk0 k), liks))
    (p' : Fin nk → Fin nl → ℝ) (hp' : ∀ k l, 0 ≤ p' k l) (hs' : ∀ k, ∑ l, p' k l = 1) :
    Spec.logLikStayers d b cs p' ≤ Spec.logLikStayers d b cs pk0 := by
  have := C134_stayers_gap d b cs c thr 0 hc hW hall le_rfl pk0 hpos _ liks h
    (fun k row hr l => by cases hr; linarith) p' hp' hs'
  linarith

/-- Non-vacuity: every proportion can at most be raised by a finite fraction, so the certificate applies
to the first iteration on `exData` with some `ε`. -/
theorem C134_case_stayers (b : Base 2 2) (thr : ℝ) : ∃ pk0' liks ε, 0 ≤ ε ∧
    fitStayers exData b [] 1 thr 1 exHalf = .ok (pk0', liks) ∧
    ∀ k row, pk0' k = some row → ∀ l, row l ≤ (1 + ε) * exHalf k l := by
  have hall : ∀ k, ∃ i, exData.G 0 i = k := by
    intro k
    fin_cases k
    · exact ⟨0, by simp [exData]⟩
    · exact ⟨1, by simp [exData]⟩
  obtain ⟨⟨pk, liks⟩, h⟩ := C33_stayers_returns exData b [] 1 thr (by norm_num) hall 1 exHalf
  refine ⟨pk, liks, ∑ k, ∑ l, 2 * |((pk k).getD 0) l|, by positivity, h, fun k row hr l => ?_⟩
  have h1 : |row l| ≤ ∑ k, ∑ l, |((pk k).getD 0) l| := by
    have h2 : |row l| = |((pk k).getD 0) l| := by rw [hr]; rfl
    rw [h2]
    exact (single_le_sum (f := fun l => |((pk k).getD 0) l|) (fun _ _ => abs_nonneg _) (mem_univ l)).trans
      (single_le_sum (f := fun k => ∑ l, |((pk k).getD 0) l|)
        (fun _ _ => sum_nonneg fun _ _ => abs_nonneg _) (mem_univ k))
  have h3 := le_abs_self (row l)
  simp only [exHalf, ← mul_sum]
  linarith

end Pytwoway.BLM
