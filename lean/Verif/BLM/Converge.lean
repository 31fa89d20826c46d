import Verif.BLM.Range
import Mathlib.Topology.MetricSpace.Sequences
import Mathlib.Topology.Order.MonotoneConvergence
import Mathlib.Analysis.SpecialFunctions.Log.Basic
import Mathlib.Analysis.Convex.StdSimplex

/-! # The proportions of `fit_stayers` converge (C138) -/

namespace Pytwoway.BLM

open Finset Filter Topology

variable {ni nl nk : ℕ}

/-! ## Analysis -/

theorem kl_term_nonneg {y p : ℝ} (hy : 0 ≤ y) (hp : 0 ≤ p) (h : p = 0 → y = 0) :
    0 ≤ y * (Real.log y - Real.log p) - y + p := by
  rcases hy.lt_or_eq with hy' | rfl
  · have hp' : 0 < p := lt_of_le_of_ne hp fun e => hy'.ne' (h e.symm)
    have h1 := Real.log_le_sub_one_of_pos (div_pos hp' hy')
    rw [Real.log_div hp'.ne' hy'.ne'] at h1
    have h2 := mul_le_mul_of_nonneg_left h1 hy
    rw [mul_sub y (p / y) 1, mul_div_cancel₀ _ hy'.ne'] at h2
    linarith
  · simpa using hp

theorem kl_term_eq {y p : ℝ} (hy : 0 ≤ y) (hp : 0 ≤ p) (h : p = 0 → y = 0)
    (h0 : y * (Real.log y - Real.log p) - y + p ≤ 0) : y = p := by
  rcases hy.lt_or_eq with hy' | rfl
  · have hp' : 0 < p := lt_of_le_of_ne hp fun e => hy'.ne' (h e.symm)
    by_contra hne
    have h1 := Real.log_lt_sub_one_of_pos (div_pos hp' hy')
      (fun e => hne (by rw [div_eq_one_iff_eq hy'.ne'] at e; exact e.symm))
    rw [Real.log_div hp'.ne' hy'.ne'] at h1
    have h2 := mul_lt_mul_of_pos_left h1 hy'
    rw [mul_sub y (p / y) 1, mul_div_cancel₀ _ hy'.ne'] at h2
    linarith
  · simp at h0
    linarith

/-- Divergence bounds the distance of the square roots. -/
theorem hellinger_le {p x : ℝ} (hp : 0 ≤ p) (hx : 0 < x) :
    (√p - √x) ^ 2 ≤ p * (Real.log p - Real.log x) - p + x := by
  rcases hp.lt_or_eq with hp' | rfl
  · have sp := Real.sqrt_pos.mpr hp'
    have sx := Real.sqrt_pos.mpr hx
    have h1 := Real.log_le_sub_one_of_pos (div_pos sx sp)
    rw [Real.log_div sx.ne' sp.ne', Real.log_sqrt hx.le, Real.log_sqrt hp'.le] at h1
    have h2 := mul_le_mul_of_nonneg_left h1 hp
    have e : p * (√x / √p - 1) = √p * √x - p := by
      have : p = √p * √p := (Real.mul_self_sqrt hp).symm
      rw [mul_sub, mul_one]
      congr 1
      nth_rewrite 1 [this]
      field_simp
    rw [e] at h2
    have e1 := Real.sq_sqrt hp
    have e2 := Real.sq_sqrt hx.le
    nlinarith
  · simp [Real.sq_sqrt hx.le]

/-- A sequence of positive rows of total one with a limit point `P`, along which the weighted logs at `P` never
fall, converges to `P`. -/
theorem converge_of_logs (N : Fin nk → ℝ) (hN : ∀ k, 0 < N k) (x : ℕ → Fin nk → Fin nl → ℝ)
    (hx : ∀ n k l, 0 < x n k l) (hxs : ∀ n k, ∑ l, x n k l = 1) (P : Fin nk → Fin nl → ℝ)
    (hP : ∀ k l, 0 ≤ P k l) (hPs : ∀ k, ∑ l, P k l = 1) (φ : ℕ → ℕ) (hφ : StrictMono φ)
    (hlim : Tendsto (x ∘ φ) atTop (𝓝 P))
    (hmono : Monotone fun n => ∑ k, ∑ l, N k * P k l * Real.log (x n k l)) :
    Tendsto x atTop (𝓝 P) := by
  have hsub : ∀ k l, Tendsto (fun n => x (φ n) k l) atTop (𝓝 (P k l)) := fun k l => by
    have h1 := (tendsto_pi_nhds.mp hlim) k
    exact (tendsto_pi_nhds.mp h1) l
  have hVsub : Tendsto (fun n => ∑ k, ∑ l, N k * P k l * Real.log (x (φ n) k l)) atTop
      (𝓝 (∑ k, ∑ l, N k * P k l * Real.log (P k l))) := by
    refine tendsto_finset_sum _ fun k _ => tendsto_finset_sum _ fun l _ => ?_
    rcases eq_or_ne (P k l) 0 with h | h
    · simp only [h, mul_zero, zero_mul]
      exact tendsto_const_nhds
    · exact ((hsub k l).log h).const_mul _
  have hV : Tendsto (fun n => ∑ k, ∑ l, N k * P k l * Real.log (x n k l)) atTop
      (𝓝 (∑ k, ∑ l, N k * P k l * Real.log (P k l))) :=
    (tendsto_iff_tendsto_subseq_of_monotone hmono hφ.tendsto_atTop).mpr hVsub
  have hKL : Tendsto (fun n => ∑ k, ∑ l, N k * P k l * Real.log (P k l) -
      ∑ k, ∑ l, N k * P k l * Real.log (x n k l)) atTop (𝓝 0) := by
    simpa using hV.const_sub (∑ k, ∑ l, N k * P k l * Real.log (P k l))
  have hbound : ∀ n k l, N k * (√(P k l) - √(x n k l)) ^ 2 ≤
      ∑ k, ∑ l, N k * P k l * Real.log (P k l) - ∑ k, ∑ l, N k * P k l * Real.log (x n k l) := by
    intro n k l
    have e : ∑ k, ∑ l, N k * P k l * Real.log (P k l) - ∑ k, ∑ l, N k * P k l * Real.log (x n k l) =
        ∑ k, ∑ l, N k * (P k l * (Real.log (P k l) - Real.log (x n k l)) - P k l + x n k l) := by
      rw [← sum_sub_distrib]
      refine sum_congr rfl fun k _ => ?_
      have e2 : ∑ l, N k * (P k l * (Real.log (P k l) - Real.log (x n k l)) - P k l + x n k l) =
          ∑ l, N k * (P k l * (Real.log (P k l) - Real.log (x n k l))) := by
        rw [← mul_sum, ← mul_sum, sum_add_distrib, sum_sub_distrib, hPs, hxs, sub_add_cancel]
      rw [e2, ← sum_sub_distrib]
      exact sum_congr rfl fun l _ => by ring
    rw [e]
    have hnn : ∀ k l, 0 ≤ N k * (P k l * (Real.log (P k l) - Real.log (x n k l)) - P k l + x n k l) :=
      fun k l => mul_nonneg (hN k).le ((sq_nonneg _).trans (hellinger_le (hP k l) (hx n k l)))
    calc _ ≤ N k * (P k l * (Real.log (P k l) - Real.log (x n k l)) - P k l + x n k l) :=
          mul_le_mul_of_nonneg_left (hellinger_le (hP k l) (hx n k l)) (hN k).le
      _ ≤ ∑ l, N k * (P k l * (Real.log (P k l) - Real.log (x n k l)) - P k l + x n k l) :=
          single_le_sum (f := fun l => N k * (P k l * (Real.log (P k l) - Real.log (x n k l)) - P k l +
            x n k l)) (fun l _ => hnn k l) (mem_univ l)
      _ ≤ _ := single_le_sum (f := fun k => ∑ l, N k * (P k l * (Real.log (P k l) - Real.log (x n k l)) -
            P k l + x n k l)) (fun k _ => sum_nonneg fun l _ => hnn k l) (mem_univ k)
  refine tendsto_pi_nhds.mpr fun k => tendsto_pi_nhds.mpr fun l => ?_
  have h1 : Tendsto (fun n => N k * (√(P k l) - √(x n k l)) ^ 2) atTop (𝓝 0) :=
    squeeze_zero (fun n => mul_nonneg (hN k).le (sq_nonneg _)) (fun n => hbound n k l) hKL
  have h2 : Tendsto (fun n => (√(P k l) - √(x n k l)) ^ 2) atTop (𝓝 0) := by
    have := h1.const_mul (N k)⁻¹
    simp only [mul_zero, inv_mul_cancel_left₀ (hN k).ne'] at this
    exact this
  have h3 : Tendsto (fun n => |√(P k l) - √(x n k l)|) atTop (𝓝 0) := by
    have := h2.sqrt
    simp only [Real.sqrt_sq_eq_abs, Real.sqrt_zero] at this
    exact this
  have h4 : Tendsto (fun n => √(x n k l)) atTop (𝓝 (√(P k l))) := by
    have h5 := tendsto_zero_iff_abs_tendsto_zero _ |>.mpr h3
    have := h5.const_sub (√(P k l))
    simpa using this
  have h6 := h4.pow 2
  rw [Real.sq_sqrt (hP k l)] at h6
  refine h6.congr fun n => Real.sq_sqrt (hx n k l).le

/-! ## The maximum is a fixed point -/

/-- Proportions with the highest penalised likelihood reproduce themselves. -/
theorem max_is_fixed [NeZero nl] (d : Data ni nk) (b : Base nl nk) (cs : List (Ctrl ni nl)) (dp : ℝ)
    (hdp : 1 ≤ dp) (hni : 0 < ni) (hall : ∀ k, ∃ i, d.G 0 i = k)
    (P : Fin nk → Fin nl → ℝ) (hP : ∀ k l, 0 ≤ P k l) (hPs : ∀ k, ∑ l, P k l = 1)
    (hPp : 1 < dp → ∀ k l, 0 < P k l)
    (hmax : ∀ p' : Fin nk → Fin nl → ℝ, (∀ k l, 0 ≤ p' k l) → (1 < dp → ∀ k l, 0 < p' k l) →
      (∀ k, ∑ l, p' k l = 1) → Spec.penLikStayers d b cs dp p' ≤ Spec.penLikStayers d b cs dp P)
    (k : Fin nk) (l : Fin nl) :
    ∑ i with d.G 0 i = k, (refPost d b cs P i l + (dp - 1)) =
      (∑ i with d.G 0 i = k, (1 : ℝ)) * (1 + nl * (dp - 1)) * P k l := by
  set δ := dp - 1 with hδ
  have hδ0 : 0 ≤ δ := by rw [hδ]; linarith
  set f : Fin ni → Fin nl → ℝ := fun i l => Real.exp (d.W 0 i * lpWage d b cs 0 l i) with hf
  have hfp : ∀ i l, 0 < f i l := fun i l => Real.exp_pos _
  set D : Fin ni → ℝ := fun i => ∑ l, P (d.G 0 i) l * f i l with hD
  have hDp : ∀ i, 0 < D i := ref_pos d b cs P hP hPs
  have hR : ∀ i l, refPost d b cs P i l = P (d.G 0 i) l * f i l / D i := fun i l => rfl
  have hRs : ∀ i, ∑ l, refPost d b cs P i l = 1 := by
    intro i
    simp only [hR]
    rw [← sum_div]
    exact div_self (hDp i).ne'
  have hRn : ∀ i l, 0 ≤ refPost d b cs P i l := fun i l => by
    rw [hR]; exact div_nonneg (mul_nonneg (hP _ l) (hfp i l).le) (hDp i).le
  set N : Fin nk → ℝ := fun k => ∑ i with d.G 0 i = k, (1 : ℝ) with hN
  have hNp : ∀ k, 0 < N k := by
    intro k
    obtain ⟨i, hi⟩ := hall k
    exact sum_pos (fun _ _ => one_pos) ⟨i, by simp [hi]⟩
  set T : ℝ := 1 + nl * δ with hT
  have hTp : 0 < T := by
    have := mul_nonneg (Nat.cast_nonneg (α := ℝ) nl) hδ0
    rw [hT]; linarith
  set y : Fin nk → Fin nl → ℝ := fun k l => (∑ i with d.G 0 i = k, (refPost d b cs P i l + δ)) / (N k * T)
    with hy
  have hyv : ∀ k l, ∑ i with d.G 0 i = k, (refPost d b cs P i l + δ) = N k * T * y k l := by
    intro k l
    exact (mul_div_cancel₀ _ (mul_pos (hNp k) hTp).ne').symm
  have hy0 : ∀ k l, 0 ≤ y k l := fun k l =>
    div_nonneg (sum_nonneg fun i _ => add_nonneg (hRn i l) hδ0) (mul_pos (hNp k) hTp).le
  have hyP : ∀ k l, 0 < P k l → 0 < y k l := by
    intro k l h
    obtain ⟨i, hi⟩ := hall k
    refine div_pos (sum_pos (fun i hi => ?_) ⟨i, by simp [hi]⟩) (mul_pos (hNp k) hTp)
    have e := (mem_filter.mp hi).2
    have : 0 < refPost d b cs P i l := by
      rw [hR, e]; exact div_pos (mul_pos h (hfp i l)) (hDp i)
    linarith
  have hys : ∀ k, ∑ l, y k l = 1 := by
    intro k
    simp only [hy]
    rw [← sum_div, sum_comm, div_eq_one_iff_eq (mul_pos (hNp k) hTp).ne', hN, sum_mul]
    refine sum_congr rfl fun i _ => ?_
    rw [sum_add_distrib, hRs]
    simp [hT]
  have hzero : ∀ k l, P k l = 0 → y k l = 0 := by
    intro k l h
    have hδ1 : δ = 0 := by
      rcases hdp.lt_or_eq with h1 | h1
      · exact absurd h (hPp h1 k l).ne'
      · rw [hδ, ← h1]; ring
    simp only [hy]
    rw [sum_eq_zero, zero_div]
    intro i hi
    rw [hR, (mem_filter.mp hi).2, h, hδ1]
    simp
  have hmy := hmax y hy0 (fun h k l => hyP k l (hPp h k l)) hys
  -- the usual EM inequality, from P to y
  set D' : Fin ni → ℝ := fun i => ∑ l, y (d.G 0 i) l * f i l with hD'
  have hDp' : ∀ i, 0 < D' i := ref_pos d b cs y hy0 hys
  have hterm : ∀ i l, refPost d b cs P i l * (Real.log (y (d.G 0 i) l) - Real.log (P (d.G 0 i) l)) -
      refPost d b cs P i l * (Real.log (D' i) - Real.log (D i)) ≤
      y (d.G 0 i) l * f i l / D' i - refPost d b cs P i l := by
    intro i l
    rcases (hP (d.G 0 i) l).lt_or_eq with h | h
    · have hyp := hyP _ _ h
      have hx : 0 < y (d.G 0 i) l * D i / (P (d.G 0 i) l * D' i) :=
        div_pos (mul_pos hyp (hDp i)) (mul_pos h (hDp' i))
      have h1 := Real.log_le_sub_one_of_pos hx
      rw [Real.log_div (mul_pos hyp (hDp i)).ne' (mul_pos h (hDp' i)).ne', Real.log_mul hyp.ne' (hDp i).ne',
        Real.log_mul h.ne' (hDp' i).ne'] at h1
      have h3 := mul_le_mul_of_nonneg_left h1 (hRn i l)
      have h4 : refPost d b cs P i l * (y (d.G 0 i) l * D i / (P (d.G 0 i) l * D' i) - 1) =
          y (d.G 0 i) l * f i l / D' i - refPost d b cs P i l := by
        rw [hR]
        have := (hDp' i).ne'
        have := (hDp i).ne'
        have := h.ne'
        field_simp
      rw [h4] at h3
      linarith
    · have h1 : refPost d b cs P i l = 0 := by rw [hR, ← h]; simp
      rw [h1, hzero _ _ h.symm]
      simp
  have hrow : ∀ i, ∑ l, refPost d b cs P i l * (Real.log (y (d.G 0 i) l) - Real.log (P (d.G 0 i) l)) ≤
      Real.log (D' i) - Real.log (D i) := by
    intro i
    have h1 := sum_le_sum fun l (_ : l ∈ (univ : Finset (Fin nl))) => hterm i l
    rw [sum_sub_distrib, sum_sub_distrib, hRs, ← sum_div, ← sum_mul, hRs, div_self (hDp' i).ne'] at h1
    linarith
  have hKL : ∑ k, ∑ l, N k * T * (y k l * (Real.log (y k l) - Real.log (P k l)) - y k l + P k l) ≤ 0 := by
    have e : ∑ k, ∑ l, N k * T * (y k l * (Real.log (y k l) - Real.log (P k l)) - y k l + P k l) =
        ∑ i, ∑ l, (refPost d b cs P i l + δ) *
          (Real.log (y (d.G 0 i) l) - Real.log (P (d.G 0 i) l)) := by
      rw [sum_cells d 0 fun i k => ∑ l, (refPost d b cs P i l + δ) *
        (Real.log (y k l) - Real.log (P k l))]
      refine sum_congr rfl fun k _ => ?_
      rw [sum_comm]
      simp only [← sum_mul, hyv]
      rw [← mul_sum, sum_add_distrib, sum_sub_distrib, hys, hPs, sub_add_cancel, mul_sum]
      exact sum_congr rfl fun l _ => by ring
    rw [e]
    have hnr : (0 : ℝ) < ni := by exact_mod_cast hni
    have h1 := sum_le_sum fun i (_ : i ∈ (univ : Finset (Fin ni))) => hrow i
    unfold Spec.penLikStayers at hmy
    rw [div_le_div_iff_of_pos_right hnr] at hmy
    simp only [sum_add_distrib, ← hδ, mul_sum] at hmy
    simp only [add_mul, mul_sub, sum_add_distrib, sum_sub_distrib] at h1 ⊢
    linarith
  have hnn : ∀ k l, 0 ≤ N k * T * (y k l * (Real.log (y k l) - Real.log (P k l)) - y k l + P k l) :=
    fun k l => mul_nonneg (mul_pos (hNp k) hTp).le (kl_term_nonneg (hy0 k l) (hP k l) (hzero k l))
  have h1 : N k * T * (y k l * (Real.log (y k l) - Real.log (P k l)) - y k l + P k l) ≤ 0 := by
    refine le_trans (single_le_sum (f := fun l => N k * T * (y k l * (Real.log (y k l) -
      Real.log (P k l)) - y k l + P k l)) (fun l _ => hnn k l) (mem_univ l)) (le_trans ?_ hKL)
    exact single_le_sum (f := fun k => ∑ l, N k * T * (y k l * (Real.log (y k l) -
      Real.log (P k l)) - y k l + P k l)) (fun k _ => sum_nonneg fun l _ => hnn k l) (mem_univ k)
  have h2 : y k l * (Real.log (y k l) - Real.log (P k l)) - y k l + P k l ≤ 0 := by
    by_contra hc
    push Not at hc
    exact absurd h1 (not_le.mpr (mul_pos (mul_pos (hNp k) hTp) hc))
  rw [hyv, kl_term_eq (hy0 k l) (hP k l) (hzero k l) h2]

/-! ## The loop -/

theorem stopStayers_nonpos (lik prev : Option ℝ) {thr : ℝ} (h : thr ≤ 0) : stopStayers lik prev thr = false := by
  unfold stopStayers
  rcases lik with _ | a <;> rcases prev with _ | b <;> simp
  exact h.trans (abs_nonneg _)

theorem stayersLoop_next [NeZero nl] (d : Data ni nk) (b : Base nl nk) (cs : List (Ctrl ni nl))
    (dp : ℝ) {thr : ℝ} (hthr : thr ≤ 0) (fuel : ℕ) :
    ∀ (first : Bool) (prev : Option ℝ) (pk : Fin nk → Option (Fin nl → ℝ)) (acc : List (Option ℝ))
      (pk1 pk2 : Fin nk → Option (Fin nl → ℝ)) (l1 l2 : List (Option ℝ)),
      stayersLoop d b cs dp thr fuel first prev pk acc = .ok (pk1, l1) →
      stayersLoop d b cs dp thr (fuel + 1) first prev pk acc = .ok (pk2, l2) →
      updatePk0 d (posterior (lpStayers d b cs pk1)) dp = .ok pk2 := by
  induction fuel with
  | zero =>
    intro first prev pk acc pk1 pk2 l1 l2 h1 h2
    simp only [stayersLoop, Except.ok.injEq, Prod.mk.injEq] at h1
    obtain ⟨rfl, rfl⟩ := h1
    unfold stayersLoop at h2
    dsimp only at h2
    rw [stopStayers_nonpos _ _ hthr] at h2
    cases hu : updatePk0 d (posterior (lpStayers d b cs pk)) dp with
    | error m => rw [hu] at h2; cases h2
    | ok pk3 =>
      rw [hu] at h2
      simp only [Bind.bind, Except.bind, stayersLoop, Bool.false_eq_true, if_false, Except.ok.injEq,
        Prod.mk.injEq] at h2
      rw [h2.1]
  | succ fuel ih =>
    intro first prev pk acc pk1 pk2 l1 l2 h1 h2
    unfold stayersLoop at h1 h2
    dsimp only at h1 h2
    rw [stopStayers_nonpos _ _ hthr] at h1 h2
    cases hu : updatePk0 d (posterior (lpStayers d b cs pk)) dp with
    | error m => rw [hu] at h2; cases h2
    | ok pk3 =>
      rw [hu] at h1 h2
      exact ih false _ pk3 _ pk1 pk2 l1 l2 h1 h2

/-- C138: without early stopping, with equal weights, every firm type observed, any prior of at least one,
any wage parameters and controls and any positive starting proportions, the proportions returned by
`fit_stayers` converge as the number of iterations grows, and their limit has the highest penalised
likelihood of all proportions (for `d_prior = 1`, the highest likelihood, boundary included). -/
theorem C138_stayers_converge [NeZero nl] (d : Data ni nk) (b : Base nl nk) (cs : List (Ctrl ni nl))
    (c dp thr : ℝ) (hc : 0 < c) (hdp : 1 ≤ dp) (hthr : thr ≤ 0) (hW : ∀ i, d.W 0 i = c) (hnk : 0 < nk)
    (hall : ∀ k, ∃ i, d.G 0 i = k) (pk0 : Fin nk → Fin nl → ℝ) (hpos : ∀ k l, 0 < pk0 k l)
    (hsum : ∀ k, ∑ l, pk0 k l ≤ 1) :
    ∃ (rows : ℕ → Fin nk → Fin nl → ℝ) (P : Fin nk → Fin nl → ℝ),
      (∀ n, ∃ liks, fitStayers d b cs dp thr n pk0 = .ok (fun k => some (rows n k), liks)) ∧
      (∀ k l, Tendsto (fun n => rows n k l) atTop (𝓝 (P k l))) ∧
      (∀ k l, 0 ≤ P k l) ∧ (1 < dp → ∀ k l, 0 < P k l) ∧ (∀ k, ∑ l, P k l = 1) ∧
      ∀ p' : Fin nk → Fin nl → ℝ, (∀ k l, 0 ≤ p' k l) → (1 < dp → ∀ k l, 0 < p' k l) →
        (∀ k, ∑ l, p' k l = 1) →
        Spec.penLikStayers d b cs dp p' ≤ Spec.penLikStayers d b cs dp P := by
  have hnl : (0 : ℝ) < nl := by exact_mod_cast Nat.pos_of_neZero nl
  obtain ⟨i0, -⟩ := hall ⟨0, hnk⟩
  have hni : 0 < ni := Fin.pos i0
  have hex := fun n => C33_stayers_returns d b cs dp thr hnk hall n pk0
  choose r hr using hex
  have hg0 : GoodPk0 (fun k => some (pk0 k)) := fun k => ⟨pk0 k, rfl, hpos k, hsum k⟩
  have hgood : ∀ n, GoodPk0 (r n).1 := fun n =>
    (stayersLoop_prior d b cs c dp thr hc hdp hW hall (fun _ _ => 1 / nl) (fun _ _ => by positivity)
      (fun _ => by simp [mul_inv_cancel₀ hnl.ne']) n true none _ [] (r n).1 (r n).2 hg0 (hr n)).1
  set x : ℕ → Fin nk → Fin nl → ℝ := fun n => rowsOf (r n).1 with hx
  have hrx : ∀ n, (r n).1 = fun k => some (x n k) := fun n => funext (rowsOf_spec (hgood n)).1
  have hxp : ∀ n k l, 0 < x n k l := fun n => (rowsOf_spec (hgood n)).2.1
  set z : ℕ → Fin nk → Fin nl → ℝ := fun n => x (n + 1) with hz
  have hzb : ∀ n k, ∑ l, z n k l = 1 ∧ ∀ l, (dp - 1) / (1 + nl * (dp - 1)) ≤ z n k l := by
    intro n k
    obtain ⟨row, h1, h2, h3⟩ := C137_stayers d b cs dp thr hdp (fun i => by rw [hW]; exact hc) (n + 1)
      (Nat.succ_pos n) pk0 (r (n + 1)).1 (r (n + 1)).2 (hr (n + 1)) k (hall k)
    have e : z n k = row := by
      rw [hrx] at h1
      exact Option.some.inj h1
    rw [e]
    exact ⟨h2, fun l => (h3 l).1⟩
  have hstep : ∀ n, updatePk0 d (posterior (lpStayers d b cs (r n).1)) dp = .ok (r (n + 1)).1 := fun n =>
    stayersLoop_next d b cs dp hthr n true none _ [] (r n).1 (r (n + 1)).1 (r n).2 (r (n + 1)).2 (hr n)
      (hr (n + 1))
  -- a limit point
  have hcomp : IsCompact (Set.pi Set.univ fun _ : Fin nk => stdSimplex ℝ (Fin nl)) :=
    isCompact_univ_pi fun _ => isCompact_stdSimplex ℝ (Fin nl)
  obtain ⟨P, hPm, φ, hφ, hlim⟩ := hcomp.tendsto_subseq (x := z)
    (fun n k _ => ⟨fun l => (hxp _ k l).le, (hzb n k).1⟩)
  have hP : ∀ k l, 0 ≤ P k l := fun k => (hPm k (Set.mem_univ k)).1
  have hPs : ∀ k, ∑ l, P k l = 1 := fun k => (hPm k (Set.mem_univ k)).2
  have hsub : ∀ k l, Tendsto (fun n => z (φ n) k l) atTop (𝓝 (P k l)) := fun k l =>
    (tendsto_pi_nhds.mp ((tendsto_pi_nhds.mp hlim) k)) l
  have hPp : 1 < dp → ∀ k l, 0 < P k l := by
    intro h k l
    have h1 : 0 < (dp - 1) / (1 + nl * (dp - 1)) := by
      have h2 : 0 < dp - 1 := by linarith
      positivity
    exact h1.trans_le (ge_of_tendsto' (hsub k l) fun n => (hzb (φ n) k).2 l)
  have hcont : Tendsto (fun n => Spec.penLikStayers d b cs dp (z (φ n))) atTop
      (𝓝 (Spec.penLikStayers d b cs dp P)) := by
    unfold Spec.penLikStayers
    refine Tendsto.div_const (tendsto_finset_sum _ fun i _ => Tendsto.add ?_ ?_) _
    · exact (tendsto_finset_sum _ fun l _ => (hsub (d.G 0 i) l).mul_const _).log
        (ref_pos d b cs P hP hPs i).ne'
    · rcases hdp.lt_or_eq with h | h
      · exact (tendsto_finset_sum _ fun l _ => (hsub (d.G 0 i) l).log (hPp h _ l).ne').const_mul _
      · simp only [← h, sub_self, zero_mul]
        exact tendsto_const_nhds
  have hlen : ∀ n, (r (n + 1)).2.length = n + 1 := by
    intro n
    obtain ⟨h1, h2, -⟩ := C68_stayers_stop d b cs dp thr (n + 1) _ (r (n + 1)).1 (r (n + 1)).2 (hr (n + 1))
    by_contra hne
    obtain ⟨pre, u, v, -, hlt⟩ := h2 (lt_of_le_of_ne h1 hne)
    have := abs_nonneg (v - u)
    linarith
  set K : ℝ := ∑ k, ∑ l, |Real.log (pk0 k l)| with hK
  have hKb : ∀ k l, Real.exp (-K) ≤ pk0 k l := by
    intro k l
    rw [← Real.le_log_iff_exp_le (hpos k l)]
    have h1 : |Real.log (pk0 k l)| ≤ K := le_trans
      (single_le_sum (f := fun l => |Real.log (pk0 k l)|) (fun l _ => abs_nonneg _) (mem_univ l))
      (single_le_sum (f := fun k => ∑ l, |Real.log (pk0 k l)|) (fun k _ => sum_nonneg fun l _ => abs_nonneg _)
        (mem_univ k))
    have := neg_abs_le (Real.log (pk0 k l))
    linarith
  have hpen1 : dp = 1 → ∀ p, Spec.penLikStayers d b cs dp p = Spec.logLikStayers d b cs p := by
    rintro h p
    unfold Spec.penLikStayers Spec.logLikStayers
    simp [h]
  have hmax : ∀ p' : Fin nk → Fin nl → ℝ, (∀ k l, 0 ≤ p' k l) → (1 < dp → ∀ k l, 0 < p' k l) →
      (∀ k, ∑ l, p' k l = 1) → Spec.penLikStayers d b cs dp p' ≤ Spec.penLikStayers d b cs dp P := by
    intro p' hp' hpp' hs'
    have hrate : ∀ n, 0 < n → Spec.penLikStayers d b cs dp p' ≤
        Spec.penLikStayers d b cs dp (z n) + (1 + nl * (dp - 1)) * K / n := by
      intro n hn
      rcases hdp.lt_or_eq with h | h
      · obtain ⟨rows, h1, h2⟩ := C136_stayers_rate d b cs c dp thr K hc hdp hW hnk hall (n + 1) pk0 hKb hsum
          (r (n + 1)).1 (r (n + 1)).2 (hr (n + 1)) n hn (hlen n) p' (hpp' h) hs'
        have e : rows = z n := by
          funext k
          have := h1 k
          rw [hrx] at this
          exact (Option.some.inj this).symm
        rwa [e] at h2
      · have hr1 := hr (n + 1)
        rw [← h] at hr1
        obtain ⟨rows, h1, h2⟩ := C135_stayers_rate d b cs c thr K hc hW hnk hall (n + 1) pk0 hKb hsum
          (r (n + 1)).1 (r (n + 1)).2 hr1 n hn (hlen n) p' hp' hs'
        have e : rows = z n := by
          funext k
          have := h1 k
          rw [hrx] at this
          exact (Option.some.inj this).symm
        rw [e] at h2
        rw [hpen1 h.symm, hpen1 h.symm]
        simpa [← h] using h2
    have h1 : Tendsto (fun n => Spec.penLikStayers d b cs dp (z (φ n)) +
        (1 + nl * (dp - 1)) * K / (φ n : ℕ)) atTop (𝓝 (Spec.penLikStayers d b cs dp P + 0)) :=
      hcont.add ((tendsto_const_div_atTop_nhds_zero_nat _).comp hφ.tendsto_atTop)
    rw [add_zero] at h1
    refine ge_of_tendsto h1 ?_
    filter_upwards [eventually_gt_atTop 0] with n hn
    exact hrate (φ n) (lt_of_lt_of_le hn (hφ.id_le n))
  have hfix := max_is_fixed d b cs dp hdp hni hall P hP hPs hPp hmax
  have hN : ∀ k, 0 < (∑ i with d.G 0 i = k, (1 : ℝ)) * (1 + nl * (dp - 1)) := by
    intro k
    obtain ⟨i, hi⟩ := hall k
    have h1 : 0 < ∑ i with d.G 0 i = k, (1 : ℝ) := sum_pos (fun _ _ => one_pos) ⟨i, by simp [hi]⟩
    have h2 : 0 ≤ (nl : ℝ) * (dp - 1) := mul_nonneg hnl.le (by linarith)
    have h3 : 0 < 1 + nl * (dp - 1) := by linarith
    exact mul_pos h1 h3
  have hV : ∀ y : Fin nk → Fin nl → ℝ, ∑ k, ∑ l, (∑ i with d.G 0 i = k, (1 : ℝ)) * (1 + nl * (dp - 1)) *
      P k l * Real.log (y k l) = ∑ i, ∑ l, (refPost d b cs P i l + (dp - 1)) * Real.log (y (d.G 0 i) l) := by
    intro y
    rw [sum_cells d 0 fun i k => ∑ l, (refPost d b cs P i l + (dp - 1)) * Real.log (y k l)]
    refine sum_congr rfl fun k _ => ?_
    rw [sum_comm]
    exact sum_congr rfl fun l _ => by rw [← sum_mul, hfix]
  have hmono : Monotone fun n => ∑ k, ∑ l, (∑ i with d.G 0 i = k, (1 : ℝ)) * (1 + nl * (dp - 1)) *
      P k l * Real.log (z n k l) := by
    refine monotone_nat_of_le_succ fun n => ?_
    rw [hV, hV, ← sub_nonneg, ← sum_sub_distrib]
    have hge : 0 ≤ (ni : ℝ) * (Spec.penLikStayers d b cs dp P - Spec.penLikStayers d b cs dp (z n)) :=
      mul_nonneg (Nat.cast_nonneg _) (sub_nonneg.mpr (hmax (z n) (fun k l => (hxp _ k l).le)
        (fun _ k l => hxp _ k l) fun k => (hzb n k).1))
    refine hge.trans ?_
    have e : ∀ i, ∑ l, (refPost d b cs P i l + (dp - 1)) * Real.log (z (n + 1) (d.G 0 i) l) -
        ∑ l, (refPost d b cs P i l + (dp - 1)) * Real.log (z n (d.G 0 i) l) =
        ∑ l, (refPost d b cs P i l + (dp - 1)) *
          (Real.log (z (n + 1) (d.G 0 i) l) - Real.log (z n (d.G 0 i) l)) := fun i => by
      rw [← sum_sub_distrib]
      exact sum_congr rfl fun l _ => by ring
    rw [sum_congr rfl fun i _ => e i]
    rcases hdp.lt_or_eq with h | h
    · exact stayers_progress_prior d b cs c dp hc hdp hW hall (r (n + 1)).1 (r (n + 2)).1 (hgood _)
        (hstep (n + 1)) P (hPp h) hPs
    · have hu := hstep (n + 1)
      rw [← h] at hu
      have h1 := stayers_progress d b cs c hc hW hall (r (n + 1)).1 (r (n + 2)).1 (hgood _) (hgood _) hu P hP
        hPs
      rw [hpen1 h.symm, hpen1 h.symm]
      simpa [← h] using h1
  have hconv := converge_of_logs _ hN z (fun n => hxp _) (fun n k => (hzb n k).1) P hP hPs φ hφ hlim hmono
  refine ⟨x, P, fun n => ⟨(r n).2, ?_⟩, fun k l => ?_, hP, hPp, hPs, hmax⟩
  · rw [hr n, ← hrx n]
  · have h1 := (tendsto_pi_nhds.mp ((tendsto_pi_nhds.mp hconv) k)) l
    exact (tendsto_add_atTop_iff_nat 1).mp h1

theorem log_mid {a b : ℝ} (ha : 0 < a) (hb : 0 < b) :
    (Real.log a + Real.log b) / 2 ≤ Real.log ((a + b) / 2) := by
  have h : Real.log (a * b) ≤ Real.log (((a + b) / 2) ^ 2) :=
    Real.log_le_log (mul_pos ha hb) (by nlinarith [sq_nonneg (a - b)])
  rw [Real.log_mul ha.ne' hb.ne', Real.log_pow] at h
  push_cast at h
  linarith

theorem log_mid_strict {a b : ℝ} (ha : 0 < a) (hb : 0 < b) (hne : a ≠ b) :
    (Real.log a + Real.log b) / 2 < Real.log ((a + b) / 2) := by
  have h : Real.log (a * b) < Real.log (((a + b) / 2) ^ 2) :=
    Real.log_lt_log (mul_pos ha hb) (by nlinarith [sq_pos_of_ne_zero (sub_ne_zero.mpr hne)])
  rw [Real.log_mul ha.ne' hb.ne', Real.log_pow] at h
  push_cast at h
  linarith

/-- Spec: no positive proportions have a higher penalised likelihood. -/
def Spec.Best (d : Data ni nk) (b : Base nl nk) (cs : List (Ctrl ni nl)) (dp : ℝ) (P : Fin nk → Fin nl → ℝ) :
    Prop :=
  (∀ k l, 0 < P k l) ∧ (∀ k, ∑ l, P k l = 1) ∧
    ∀ p' : Fin nk → Fin nl → ℝ, (∀ k l, 0 < p' k l) → (∀ k, ∑ l, p' k l = 1) →
      Spec.penLikStayers d b cs dp p' ≤ Spec.penLikStayers d b cs dp P

/-- With a prior above one there is at most one best set of proportions. -/
theorem best_unique [NeZero nl] (d : Data ni nk) (b : Base nl nk) (cs : List (Ctrl ni nl)) (dp : ℝ)
    (hdp : 1 < dp) (hall : ∀ k, ∃ i, d.G 0 i = k) (P Q : Fin nk → Fin nl → ℝ)
    (hP : Spec.Best d b cs dp P) (hQ : Spec.Best d b cs dp Q) : P = Q := by
  by_contra hne
  obtain ⟨k, hk⟩ := Function.ne_iff.mp hne
  obtain ⟨l, hl⟩ := Function.ne_iff.mp hk
  obtain ⟨i0, hi0⟩ := hall k
  have hnr : (0 : ℝ) < ni := by exact_mod_cast Fin.pos i0
  have hM := hP.2.2 (fun k l => (P k l + Q k l) / 2)
    (fun k l => by have := hP.1 k l; have := hQ.1 k l; positivity)
    (fun k => by rw [← sum_div, sum_add_distrib, hP.2.1, hQ.2.1]; norm_num)
  have hPQ := hP.2.2 Q hQ.1 hQ.2.1
  have hQP := hQ.2.2 P hP.1 hP.2.1
  have hD : ∀ p : Fin nk → Fin nl → ℝ, (∀ k l, 0 < p k l) → (∀ k, ∑ l, p k l = 1) → ∀ i,
      0 < ∑ l, p (d.G 0 i) l * Real.exp (d.W 0 i * lpWage d b cs 0 l i) := fun p hp hs =>
    ref_pos d b cs p (fun k l => (hp k l).le) hs
  have hterm : ∀ i, ((Real.log (∑ l, P (d.G 0 i) l * Real.exp (d.W 0 i * lpWage d b cs 0 l i)) +
      (dp - 1) * ∑ l, Real.log (P (d.G 0 i) l)) +
      (Real.log (∑ l, Q (d.G 0 i) l * Real.exp (d.W 0 i * lpWage d b cs 0 l i)) +
      (dp - 1) * ∑ l, Real.log (Q (d.G 0 i) l))) / 2 ≤
      Real.log (∑ l, (P (d.G 0 i) l + Q (d.G 0 i) l) / 2 * Real.exp (d.W 0 i * lpWage d b cs 0 l i)) +
      (dp - 1) * ∑ l, Real.log ((P (d.G 0 i) l + Q (d.G 0 i) l) / 2) ∧
      (d.G 0 i = k → ((Real.log (∑ l, P (d.G 0 i) l * Real.exp (d.W 0 i * lpWage d b cs 0 l i)) +
      (dp - 1) * ∑ l, Real.log (P (d.G 0 i) l)) +
      (Real.log (∑ l, Q (d.G 0 i) l * Real.exp (d.W 0 i * lpWage d b cs 0 l i)) +
      (dp - 1) * ∑ l, Real.log (Q (d.G 0 i) l))) / 2 <
      Real.log (∑ l, (P (d.G 0 i) l + Q (d.G 0 i) l) / 2 * Real.exp (d.W 0 i * lpWage d b cs 0 l i)) +
      (dp - 1) * ∑ l, Real.log ((P (d.G 0 i) l + Q (d.G 0 i) l) / 2)) := by
    intro i
    have h1 := log_mid (hD P hP.1 hP.2.1 i) (hD Q hQ.1 hQ.2.1 i)
    have e : (∑ l, P (d.G 0 i) l * Real.exp (d.W 0 i * lpWage d b cs 0 l i) +
        ∑ l, Q (d.G 0 i) l * Real.exp (d.W 0 i * lpWage d b cs 0 l i)) / 2 =
        ∑ l, (P (d.G 0 i) l + Q (d.G 0 i) l) / 2 * Real.exp (d.W 0 i * lpWage d b cs 0 l i) := by
      rw [← sum_add_distrib, sum_div]
      exact sum_congr rfl fun l _ => by ring
    rw [e] at h1
    have h2 : (∑ l, Real.log (P (d.G 0 i) l) + ∑ l, Real.log (Q (d.G 0 i) l)) / 2 ≤
        ∑ l, Real.log ((P (d.G 0 i) l + Q (d.G 0 i) l) / 2) := by
      rw [← sum_add_distrib, sum_div]
      exact sum_le_sum fun l _ => log_mid (hP.1 _ l) (hQ.1 _ l)
    have h3 : 0 < dp - 1 := by linarith
    refine ⟨by nlinarith, fun hik => ?_⟩
    have h4 : (∑ l, Real.log (P (d.G 0 i) l) + ∑ l, Real.log (Q (d.G 0 i) l)) / 2 <
        ∑ l, Real.log ((P (d.G 0 i) l + Q (d.G 0 i) l) / 2) := by
      rw [← sum_add_distrib, sum_div]
      exact sum_lt_sum (fun l _ => log_mid (hP.1 _ l) (hQ.1 _ l))
        ⟨l, mem_univ _, log_mid_strict (hP.1 _ l) (hQ.1 _ l) (by rw [hik]; exact hl)⟩
    nlinarith
  have hlt := sum_lt_sum (s := univ) (fun i _ => (hterm i).1) ⟨i0, mem_univ _, (hterm i0).2 hi0⟩
  rw [← sum_div, sum_add_distrib] at hlt
  unfold Spec.penLikStayers at hM hPQ hQP
  rw [div_le_div_iff_of_pos_right hnr] at hM hPQ hQP
  linarith

/-- C138: with a prior above one (the default) the limit does not depend on the starting proportions: there is
one set of proportions that the results of `fit_stayers` approach from every positive start. -/
theorem C138_stayers_one_limit [NeZero nl] (d : Data ni nk) (b : Base nl nk) (cs : List (Ctrl ni nl))
    (c dp thr : ℝ) (hc : 0 < c) (hdp : 1 < dp) (hthr : thr ≤ 0) (hW : ∀ i, d.W 0 i = c) (hnk : 0 < nk)
    (hall : ∀ k, ∃ i, d.G 0 i = k) :
    ∃ P : Fin nk → Fin nl → ℝ, Spec.Best d b cs dp P ∧
      ∀ pk0 : Fin nk → Fin nl → ℝ, (∀ k l, 0 < pk0 k l) → (∀ k, ∑ l, pk0 k l ≤ 1) →
        ∃ rows : ℕ → Fin nk → Fin nl → ℝ,
          (∀ n, ∃ liks, fitStayers d b cs dp thr n pk0 = .ok (fun k => some (rows n k), liks)) ∧
          ∀ k l, Tendsto (fun n => rows n k l) atTop (𝓝 (P k l)) := by
  have hnl : (0 : ℝ) < nl := by exact_mod_cast Nat.pos_of_neZero nl
  have key : ∀ pk0 : Fin nk → Fin nl → ℝ, (∀ k l, 0 < pk0 k l) → (∀ k, ∑ l, pk0 k l ≤ 1) →
      ∃ (rows : ℕ → Fin nk → Fin nl → ℝ) (P : Fin nk → Fin nl → ℝ), Spec.Best d b cs dp P ∧
          (∀ n, ∃ liks, fitStayers d b cs dp thr n pk0 = .ok (fun k => some (rows n k), liks)) ∧
          ∀ k l, Tendsto (fun n => rows n k l) atTop (𝓝 (P k l)) := by
    intro pk0 hpos hsum
    obtain ⟨rows, P, h1, h2, -, h4, h5, h6⟩ := C138_stayers_converge d b cs c dp thr hc hdp.le hthr hW hnk
      hall pk0 hpos hsum
    exact ⟨rows, P, ⟨h4 hdp, h5, fun p' hp' hs' => h6 p' (fun k l => (hp' k l).le) (fun _ => hp') hs'⟩, h1, h2⟩
  obtain ⟨-, P, hP, -, -⟩ := key (fun _ _ => 1 / nl) (fun _ _ => by positivity)
    (fun k => by simp [mul_inv_cancel₀ hnl.ne'])
  refine ⟨P, hP, fun pk0 hpos hsum => ?_⟩
  obtain ⟨rows, Q, hQ, h1, h2⟩ := key pk0 hpos hsum
  have := best_unique d b cs dp hdp hall P Q hP hQ
  subst this
  exact ⟨rows, h1, h2⟩

/-- Non-vacuity: the conditions hold for `exData` with controls and the default prior. -/
theorem C138_case : ∃ (rows : ℕ → Fin 2 → Fin 2 → ℝ) (P : Fin 2 → Fin 2 → ℝ),
    (∀ n, ∃ liks, fitStayers exData exBase exCtrls (1 + 1 / 10000000) 0 n exHalf =
      .ok (fun k => some (rows n k), liks)) ∧
    ∀ k l, Tendsto (fun n => rows n k l) atTop (𝓝 (P k l)) := by
  obtain ⟨rows, P, h1, h2, -⟩ := C138_stayers_converge exData exBase exCtrls 1 (1 + 1 / 10000000) 0 one_pos
    (by norm_num) le_rfl (fun _ => rfl) (by norm_num) (fun k => by
      fin_cases k
      · exact ⟨0, by simp [exData]⟩
      · exact ⟨1, by simp [exData]⟩) exHalf (fun _ _ => by norm_num [exHalf])
    (fun _ => by norm_num [exHalf])
  exact ⟨rows, P, h1, h2⟩

end Pytwoway.BLM
