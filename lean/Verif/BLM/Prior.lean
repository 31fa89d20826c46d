import Verif.BLM.Rate

/-! # What the Dirichlet prior does to the EM loops (C136)

The loops add `d_prior - 1` to the posterior of every observation before averaging.  The recorded likelihood
adds the prior with another scale (C33 shows it may fall), but there is a penalised likelihood that never
falls: each observation adds `d_prior - 1` times the sum of the logs of the proportions it is described by. -/

namespace Pytwoway.BLM

open Finset

variable {ni nl nk : ℕ}

/-- Penalised average log likelihood of the stayers for proportions `p`. -/
noncomputable def Spec.penLikStayers (d : Data ni nk) (b : Base nl nk) (cs : List (Ctrl ni nl)) (dp : ℝ)
    (p : Fin nk → Fin nl → ℝ) : ℝ :=
  (∑ i, (Real.log (∑ l, p (d.G 0 i) l * Real.exp (d.W 0 i * lpWage d b cs 0 l i)) +
    (dp - 1) * ∑ l, Real.log (p (d.G 0 i) l))) / ni

/-- Penalised average log likelihood of the movers. -/
noncomputable def Spec.penLikMovers (d : Data ni nk) (dp : ℝ) (A S : Fin 2 → Fin nl → Fin nk → ℝ)
    (pk : ℕ → Fin nl → ℝ) : ℝ :=
  Spec.logLik d A S pk +
    (∑ i, (dp - 1) * ∑ l, Real.log (pk ((d.G 0 i).val + nk * (d.G 1 i).val) l)) / ni

/-! ## Stayers -/

theorem updatePk0_row_prior [NeZero nl] (d : Data ni nk) (q : Fin ni → Fin nl → ℝ) (c dp : ℝ) (hc : 0 < c)
    (hdp : 1 ≤ dp) (hW : ∀ i, d.W 0 i = c) (hq : ∀ i l, 0 < q i l) (hq1 : ∀ i, ∑ l, q i l = 1)
    (hall : ∀ k, ∃ i, d.G 0 i = k) (pk : Fin nk → Option (Fin nl → ℝ))
    (h : updatePk0 d q dp = .ok pk) :
    GoodPk0 pk ∧ ∀ k l, (∑ i with d.G 0 i = k, (1 : ℝ)) * (1 + nl * (dp - 1)) * rowsOf pk k l =
      ∑ i with d.G 0 i = k, (q i l + (dp - 1)) := by
  have hNp : ∀ k, 0 < ∑ i with d.G 0 i = k, (1 : ℝ) := by
    intro k
    obtain ⟨i, hi⟩ := hall k
    exact sum_pos (fun _ _ => one_pos) ⟨i, by simp [hi]⟩
  have hT : (0 : ℝ) < 1 + nl * (dp - 1) := by
    have : (0 : ℝ) ≤ nl * (dp - 1) := mul_nonneg (Nat.cast_nonneg _) (by linarith)
    linarith
  have key : ∀ k, ∃ row, pk k = some row ∧ (∀ l, (∑ i with d.G 0 i = k, (1 : ℝ)) *
      (1 + nl * (dp - 1)) * row l = ∑ i with d.G 0 i = k, (q i l + (dp - 1))) ∧ ∑ l, row l = 1 := by
    intro k
    obtain ⟨row, hrow, hv, -, hs⟩ := C32_stayers d q dp (fun i => by rw [hW]; exact hc) hdp
      (fun i l => (hq i l).le) hq1 pk h k (hall k)
    refine ⟨row, hrow, fun l => ?_, hs⟩
    rw [hv]
    simp only [hW, ← mul_sum]
    have e : ∑ i with d.G 0 i = k, c = c * ∑ i with d.G 0 i = k, (1 : ℝ) := by rw [mul_sum]; simp
    rw [e]
    have := hc.ne'
    have := (hNp k).ne'
    have := hT.ne'
    field_simp
  constructor
  · intro k
    obtain ⟨row, hr, hv, hs⟩ := key k
    refine ⟨row, hr, fun l => ?_, hs.le⟩
    have h1 : 0 < ∑ i with d.G 0 i = k, (q i l + (dp - 1)) := by
      obtain ⟨i, hi⟩ := hall k
      exact sum_pos (fun i _ => by have := hq i l; linarith) ⟨i, by simp [hi]⟩
    rw [← hv l] at h1
    exact (mul_pos_iff_of_pos_left (mul_pos (hNp k) hT)).mp h1
  · intro k l
    obtain ⟨row, hr, hv, -⟩ := key k
    have : rowsOf pk k = row := by simp [rowsOf, hr]
    rw [this]
    exact hv l

theorem stayers_progress_prior [NeZero nl] (d : Data ni nk) (b : Base nl nk) (cs : List (Ctrl ni nl))
    (c dp : ℝ) (hc : 0 < c) (hdp : 1 ≤ dp) (hW : ∀ i, d.W 0 i = c) (hall : ∀ k, ∃ i, d.G 0 i = k)
    (pk pk2 : Fin nk → Option (Fin nl → ℝ)) (hg : GoodPk0 pk)
    (h : updatePk0 d (posterior (lpStayers d b cs pk)) dp = .ok pk2)
    (p' : Fin nk → Fin nl → ℝ) (hp' : ∀ k l, 0 < p' k l) (hs' : ∀ k, ∑ l, p' k l = 1) :
    ni * (Spec.penLikStayers d b cs dp p' - Spec.penLikStayers d b cs dp (rowsOf pk)) ≤
      ∑ i, ∑ l, (refPost d b cs p' i l + (dp - 1)) *
        (Real.log (rowsOf pk2 (d.G 0 i) l) - Real.log (rowsOf pk (d.G 0 i) l)) := by
  set q := posterior (lpStayers d b cs pk) with hqdef
  have hq : ∀ i l, 0 < q i l := posterior_pos _
  have hq1 : ∀ i, ∑ l, q i l = 1 := posterior_sum _
  obtain ⟨hg2, hrow⟩ := updatePk0_row_prior d q c dp hc hdp hW hq hq1 hall pk2 h
  obtain ⟨hr, hp, -⟩ := rowsOf_spec hg
  obtain ⟨hr2, hp2, -⟩ := rowsOf_spec hg2
  set δ := dp - 1 with hδ
  have hδ0 : 0 ≤ δ := by rw [hδ]; linarith
  set f : Fin ni → Fin nl → ℝ := fun i l => Real.exp (d.W 0 i * lpWage d b cs 0 l i) with hf
  have hfp : ∀ i l, 0 < f i l := fun i l => Real.exp_pos _
  set D : Fin ni → ℝ := fun i => ∑ l, rowsOf pk (d.G 0 i) l * f i l with hD
  set D' : Fin ni → ℝ := fun i => ∑ l, p' (d.G 0 i) l * f i l with hD'
  have hDp : ∀ i, 0 < D i := fun i => sum_pos (fun l _ => mul_pos (hp _ l) (hfp i l)) univ_nonempty
  have hDp' : ∀ i, 0 < D' i := fun i => sum_pos (fun l _ => mul_pos (hp' _ l) (hfp i l)) univ_nonempty
  have hqv : ∀ i l, q i l = rowsOf pk (d.G 0 i) l * f i l / D i := by
    intro i l
    rw [hqdef, posterior_eq]
    simp only [exp_lpStayers_rows d b cs hg]
    rfl
  have hR : ∀ i l, refPost d b cs p' i l = p' (d.G 0 i) l * f i l / D' i := fun i l => rfl
  have hRs : ∀ i, ∑ l, refPost d b cs p' i l = 1 := by
    intro i
    simp only [hR]
    rw [← sum_div]
    exact div_self (hDp' i).ne'
  have hRn : ∀ i l, 0 ≤ refPost d b cs p' i l := fun i l => by
    rw [hR]; exact div_nonneg (mul_pos (hp' _ l) (hfp i l)).le (hDp' i).le
  have hterm : ∀ i l, refPost d b cs p' i l * (Real.log (D' i) - Real.log (D i)) +
      δ * (Real.log (p' (d.G 0 i) l) - Real.log (rowsOf pk (d.G 0 i) l)) -
      (refPost d b cs p' i l + δ) *
        (Real.log (rowsOf pk2 (d.G 0 i) l) - Real.log (rowsOf pk (d.G 0 i) l)) ≤
      p' (d.G 0 i) l / rowsOf pk2 (d.G 0 i) l * (q i l + δ) - (refPost d b cs p' i l + δ) := by
    intro i l
    have hx : 0 < D' i * rowsOf pk (d.G 0 i) l / (D i * rowsOf pk2 (d.G 0 i) l) :=
      div_pos (mul_pos (hDp' i) (hp _ l)) (mul_pos (hDp i) (hp2 _ l))
    have h1 := Real.log_le_sub_one_of_pos hx
    rw [Real.log_div (mul_pos (hDp' i) (hp _ l)).ne' (mul_pos (hDp i) (hp2 _ l)).ne',
      Real.log_mul (hDp i).ne' (hp2 _ l).ne', Real.log_mul (hDp' i).ne' (hp _ l).ne'] at h1
    have h3 := mul_le_mul_of_nonneg_left h1 (hRn i l)
    have h4 : refPost d b cs p' i l *
        (D' i * rowsOf pk (d.G 0 i) l / (D i * rowsOf pk2 (d.G 0 i) l) - 1) =
        p' (d.G 0 i) l / rowsOf pk2 (d.G 0 i) l * q i l - refPost d b cs p' i l := by
      rw [hR, hqv]
      have := (hDp' i).ne'
      have := (hDp i).ne'
      have := (hp2 (d.G 0 i) l).ne'
      field_simp
    rw [h4] at h3
    have hy : 0 < p' (d.G 0 i) l / rowsOf pk2 (d.G 0 i) l := div_pos (hp' _ l) (hp2 _ l)
    have h5 := Real.log_le_sub_one_of_pos hy
    rw [Real.log_div (hp' _ l).ne' (hp2 _ l).ne'] at h5
    have h6 := mul_le_mul_of_nonneg_left h5 hδ0
    nlinarith
  have hzero : ∑ i, ∑ l, (p' (d.G 0 i) l / rowsOf pk2 (d.G 0 i) l * (q i l + δ) -
      (refPost d b cs p' i l + δ)) = 0 := by
    have e1 : ∀ i, ∑ l, (refPost d b cs p' i l + δ) = 1 + nl * δ := fun i => by
      rw [sum_add_distrib, hRs]; simp
    simp only [sum_sub_distrib]
    simp only [e1]
    rw [sum_cells d 0 fun i k => ∑ l, p' k l / rowsOf pk2 k l * (q i l + δ),
      sum_cells d 0 fun _ _ => (1 + nl * δ : ℝ), ← sum_sub_distrib]
    refine sum_eq_zero fun k _ => ?_
    rw [sum_comm]
    have e : ∀ l, ∑ i with d.G 0 i = k, p' k l / rowsOf pk2 k l * (q i l + δ) =
        (∑ i with d.G 0 i = k, (1 : ℝ)) * (1 + nl * δ) * p' k l := by
      intro l
      rw [← mul_sum, ← hrow k l]
      have := (hp2 k l).ne'
      field_simp
    simp only [e, ← mul_sum, hs', mul_one]
    rw [sum_mul]
    simp
  have hsum := sum_le_sum fun i (_ : i ∈ (univ : Finset (Fin ni))) =>
    sum_le_sum fun l (_ : l ∈ (univ : Finset (Fin nl))) => hterm i l
  rw [hzero] at hsum
  simp only [sum_sub_distrib, sum_add_distrib, ← sum_mul, hRs, one_mul, ← mul_sum] at hsum
  rcases Nat.eq_zero_or_pos ni with h0 | h0
  · subst h0; simp
  · have hnr : (ni : ℝ) ≠ 0 := by exact_mod_cast h0.ne'
    unfold Spec.penLikStayers
    rw [← sub_div, mul_div_cancel₀ _ hnr]
    simp only [← hδ, sum_add_distrib, ← mul_sum]
    linarith

theorem stayers_step_prior [NeZero nl] (d : Data ni nk) (b : Base nl nk) (cs : List (Ctrl ni nl))
    (c dp : ℝ) (hc : 0 < c) (hdp : 1 ≤ dp) (hW : ∀ i, d.W 0 i = c) (hall : ∀ k, ∃ i, d.G 0 i = k)
    (pk pk2 : Fin nk → Option (Fin nl → ℝ)) (hg : GoodPk0 pk)
    (h : updatePk0 d (posterior (lpStayers d b cs pk)) dp = .ok pk2) :
    GoodPk0 pk2 ∧ Spec.penLikStayers d b cs dp (rowsOf pk) ≤ Spec.penLikStayers d b cs dp (rowsOf pk2) := by
  set q := posterior (lpStayers d b cs pk) with hqdef
  have hq : ∀ i l, 0 < q i l := posterior_pos _
  have hq1 : ∀ i, ∑ l, q i l = 1 := posterior_sum _
  obtain ⟨hg2, hrow⟩ := updatePk0_row_prior d q c dp hc hdp hW hq hq1 hall pk2 h
  obtain ⟨hr, hp, hps⟩ := rowsOf_spec hg
  obtain ⟨hr2, hp2, -⟩ := rowsOf_spec hg2
  refine ⟨hg2, ?_⟩
  set δ := dp - 1 with hδ
  have hδ0 : 0 ≤ δ := by rw [hδ]; linarith
  have hT : (0 : ℝ) < 1 + nl * δ := by
    have : (0 : ℝ) ≤ nl * δ := mul_nonneg (Nat.cast_nonneg _) hδ0
    linarith
  have hcount : ∀ k l, 0 < ∑ i with d.G 0 i = k, (q i l + δ) := by
    intro k l
    obtain ⟨i, hi⟩ := hall k
    exact sum_pos (fun i _ => by have := hq i l; linarith) ⟨i, by simp [hi]⟩
  have htot : ∀ k, ∑ l, ∑ i with d.G 0 i = k, (q i l + δ) =
      (∑ i with d.G 0 i = k, (1 : ℝ)) * (1 + nl * δ) := by
    intro k
    rw [sum_comm, sum_mul]
    refine sum_congr rfl fun i _ => ?_
    rw [sum_add_distrib, hq1]; simp
  have hrow' : ∀ k l, rowsOf pk2 k l = (∑ i with d.G 0 i = k, (q i l + δ)) /
      ∑ l', ∑ i with d.G 0 i = k, (q i l' + δ) := by
    intro k l
    rw [htot, ← hrow k l]
    obtain ⟨i, hi⟩ := hall k
    have hN : 0 < ∑ i with d.G 0 i = k, (1 : ℝ) := sum_pos (fun _ _ => one_pos) ⟨i, by simp [hi]⟩
    have := (mul_pos hN hT).ne'
    field_simp
  have hgibbs : 0 ≤ ∑ i, ∑ l, (q i l + δ) *
      (Real.log (rowsOf pk2 (d.G 0 i) l) - Real.log (rowsOf pk (d.G 0 i) l)) := by
    rw [sum_cells d 0 fun i k => ∑ l, (q i l + δ) * (Real.log (rowsOf pk2 k l) - Real.log (rowsOf pk k l))]
    refine sum_nonneg fun k _ => ?_
    rw [sum_comm]
    have := gibbs (fun l => ∑ i with d.G 0 i = k, (q i l + δ)) (rowsOf pk k) (hcount k) (hp k) (hps k)
    simp only [hrow']
    simpa only [sum_mul] using this
  have hem := sum_le_sum fun i (_ : i ∈ (univ : Finset (Fin ni))) =>
    em_row (lpStayers d b cs pk) (lpStayers d b cs pk2) i
  have e1 : ∀ i l, lpStayers d b cs pk2 i l - lpStayers d b cs pk i l =
      Real.log (rowsOf pk2 (d.G 0 i) l) - Real.log (rowsOf pk (d.G 0 i) l) := by
    intro i l
    unfold lpStayers rowsOf
    ring
  simp only [e1, ← hqdef] at hem
  unfold Spec.penLikStayers
  refine div_le_div_of_nonneg_right ?_ (Nat.cast_nonneg _)
  have e2 : ∀ (pk : Fin nk → Option (Fin nl → ℝ)), GoodPk0 pk → ∀ i,
      Real.log (∑ l, rowsOf pk (d.G 0 i) l * Real.exp (d.W 0 i * lpWage d b cs 0 l i)) =
      Util.logsumexp (lpStayers d b cs pk i) := by
    intro pk hg i
    rw [Util.C04_exact]
    simp only [exp_lpStayers_rows d b cs hg]
  simp only [e2 pk hg, e2 pk2 hg2]
  simp only [add_mul, mul_sub, sum_add_distrib, sum_sub_distrib] at hgibbs hem
  simp only [sum_add_distrib, mul_sum]
  linarith

theorem stayersLoop_prior [NeZero nl] (d : Data ni nk) (b : Base nl nk) (cs : List (Ctrl ni nl))
    (c dp thr : ℝ) (hc : 0 < c) (hdp : 1 ≤ dp) (hW : ∀ i, d.W 0 i = c) (hall : ∀ k, ∃ i, d.G 0 i = k)
    (p' : Fin nk → Fin nl → ℝ) (hp' : ∀ k l, 0 < p' k l) (hs' : ∀ k, ∑ l, p' k l = 1) (fuel : ℕ) :
    ∀ (first : Bool) (prev : Option ℝ) (pk : Fin nk → Option (Fin nl → ℝ)) (acc : List (Option ℝ))
      (pk' : Fin nk → Option (Fin nl → ℝ)) (liks : List (Option ℝ)), GoodPk0 pk →
      stayersLoop d b cs dp thr fuel first prev pk acc = .ok (pk', liks) →
      GoodPk0 pk' ∧
      Spec.penLikStayers d b cs dp (rowsOf pk) ≤ Spec.penLikStayers d b cs dp (rowsOf pk') ∧
      ∃ u : ℕ, liks.length ≤ acc.length + u + 1 ∧
        u * (ni * (Spec.penLikStayers d b cs dp p' - Spec.penLikStayers d b cs dp (rowsOf pk'))) ≤
          ∑ i, ∑ l, (refPost d b cs p' i l + (dp - 1)) *
            (Real.log (rowsOf pk' (d.G 0 i) l) - Real.log (rowsOf pk (d.G 0 i) l)) := by
  induction fuel with
  | zero =>
    intro first prev pk acc pk' liks hg h
    simp only [stayersLoop, Except.ok.injEq, Prod.mk.injEq] at h
    obtain ⟨rfl, rfl⟩ := h
    exact ⟨hg, le_rfl, 0, by omega, by simp⟩
  | succ fuel ih =>
    intro first prev pk acc pk' liks hg h
    unfold stayersLoop at h
    dsimp only at h
    split at h
    · simp only [Except.ok.injEq, Prod.mk.injEq] at h
      obtain ⟨rfl, rfl⟩ := h
      exact ⟨hg, le_rfl, 0, by simp, by simp⟩
    · cases hu : updatePk0 d (posterior (lpStayers d b cs pk)) dp with
      | error m => rw [hu] at h; cases h
      | ok pk2 =>
        rw [hu] at h
        simp only [bind, Except.bind] at h
        obtain ⟨hg2, hm⟩ := stayers_step_prior d b cs c dp hc hdp hW hall pk pk2 hg hu
        obtain ⟨hg', hm', u, hl, hb⟩ := ih false _ pk2 _ pk' liks hg2 h
        have hprog := stayers_progress_prior d b cs c dp hc hdp hW hall pk pk2 hg hu p' hp' hs'
        refine ⟨hg', hm.trans hm', u + 1, ?_, ?_⟩
        · simp only [List.length_append, List.length_singleton] at hl
          omega
        · have h1 : (ni : ℝ) *
              (Spec.penLikStayers d b cs dp p' - Spec.penLikStayers d b cs dp (rowsOf pk')) ≤
              ni * (Spec.penLikStayers d b cs dp p' - Spec.penLikStayers d b cs dp (rowsOf pk)) :=
            mul_le_mul_of_nonneg_left (by linarith [hm.trans hm']) (Nat.cast_nonneg _)
          have e : ∑ i, ∑ l, (refPost d b cs p' i l + (dp - 1)) *
              (Real.log (rowsOf pk' (d.G 0 i) l) - Real.log (rowsOf pk (d.G 0 i) l)) =
              ∑ i, ∑ l, (refPost d b cs p' i l + (dp - 1)) *
                (Real.log (rowsOf pk' (d.G 0 i) l) - Real.log (rowsOf pk2 (d.G 0 i) l)) +
              ∑ i, ∑ l, (refPost d b cs p' i l + (dp - 1)) *
                (Real.log (rowsOf pk2 (d.G 0 i) l) - Real.log (rowsOf pk (d.G 0 i) l)) := by
            rw [← sum_add_distrib]
            refine sum_congr rfl fun i _ => ?_
            rw [← sum_add_distrib]
            exact sum_congr rfl fun l _ => by ring
          rw [e]
          push_cast
          linarith

/-- More iterations continue from the state reached with fewer (or return it, once stopped). -/
theorem stayersLoop_continue [NeZero nl] (d : Data ni nk) (b : Base nl nk) (cs : List (Ctrl ni nl))
    (dp thr : ℝ) (fuel k : ℕ) :
    ∀ (first : Bool) (prev : Option ℝ) (pk : Fin nk → Option (Fin nl → ℝ)) (acc : List (Option ℝ))
      (pk' : Fin nk → Option (Fin nl → ℝ)) (liks : List (Option ℝ)),
      stayersLoop d b cs dp thr fuel first prev pk acc = .ok (pk', liks) →
      ∃ fuel' first' prev', stayersLoop d b cs dp thr (fuel + k) first prev pk acc =
        stayersLoop d b cs dp thr fuel' first' prev' pk' liks := by
  induction fuel with
  | zero =>
    intro first prev pk acc pk' liks h
    simp only [stayersLoop, Except.ok.injEq, Prod.mk.injEq] at h
    obtain ⟨rfl, rfl⟩ := h
    exact ⟨k, first, prev, by rw [zero_add]⟩
  | succ fuel ih =>
    intro first prev pk acc pk' liks h
    rw [show fuel + 1 + k = fuel + k + 1 by ring]
    unfold stayersLoop at h
    dsimp only at h
    split at h
    · rename_i hs
      refine ⟨0, first, prev, ?_⟩
      change _ = Except.ok (pk', liks)
      unfold stayersLoop
      dsimp only
      rw [if_pos hs]
      exact h
    · rename_i hs
      cases hu : updatePk0 d (posterior (lpStayers d b cs pk)) dp with
      | error m => rw [hu] at h; cases h
      | ok pk2 =>
        rw [hu] at h
        simp only [bind, Except.bind] at h
        obtain ⟨f', fi', pr', he⟩ := ih false _ pk2 _ pk' liks h
        refine ⟨f', fi', pr', ?_⟩
        rw [← he]
        conv_lhs => unfold stayersLoop
        dsimp only
        rw [if_neg hs, hu]
        rfl

/-- C136 for stayers: for every `d_prior` of at least one (the default is `1 + 1e-7`), equal weights and
every firm type observed, the penalised likelihood never falls: allowing more iterations never returns
proportions with a lower one, and none is below that of the starting values. -/
theorem C136_stayers_monotone [NeZero nl] (d : Data ni nk) (b : Base nl nk) (cs : List (Ctrl ni nl))
    (c dp thr : ℝ) (hc : 0 < c) (hdp : 1 ≤ dp) (hW : ∀ i, d.W 0 i = c) (hall : ∀ k, ∃ i, d.G 0 i = k)
    (nIters more : ℕ) (pk0 : Fin nk → Fin nl → ℝ) (hpos : ∀ k l, 0 < pk0 k l)
    (hsum : ∀ k, ∑ l, pk0 k l ≤ 1) (pk1 pk2 : Fin nk → Option (Fin nl → ℝ)) (l1 l2 : List (Option ℝ))
    (h1 : fitStayers d b cs dp thr nIters pk0 = .ok (pk1, l1))
    (h2 : fitStayers d b cs dp thr (nIters + more) pk0 = .ok (pk2, l2)) :
    ∃ r1 r2 : Fin nk → Fin nl → ℝ, (∀ k, pk1 k = some (r1 k)) ∧ (∀ k, pk2 k = some (r2 k)) ∧
      Spec.penLikStayers d b cs dp pk0 ≤ Spec.penLikStayers d b cs dp r1 ∧
      Spec.penLikStayers d b cs dp r1 ≤ Spec.penLikStayers d b cs dp r2 := by
  have hg : GoodPk0 (fun k => some (pk0 k)) := fun k => ⟨pk0 k, rfl, hpos k, hsum k⟩
  have hnl : (0 : ℝ) < nl := by exact_mod_cast Nat.pos_of_neZero nl
  have hun : ∀ k : Fin nk, ∑ _l : Fin nl, (1 / (nl : ℝ)) = 1 := fun k => by
    simp [mul_inv_cancel₀ hnl.ne']
  have hup : ∀ (_ : Fin nk) (_ : Fin nl), (0 : ℝ) < 1 / nl := fun _ _ => by positivity
  obtain ⟨hg1, hm1, -⟩ := stayersLoop_prior d b cs c dp thr hc hdp hW hall (fun _ _ => 1 / nl) hup hun
    nIters true none _ [] pk1 l1 hg h1
  obtain ⟨f', fi', pr', he⟩ := stayersLoop_continue d b cs dp thr nIters more _ _ _ _ _ _ h1
  have h2' : stayersLoop d b cs dp thr (nIters + more) true none (fun k => some (pk0 k)) [] =
    .ok (pk2, l2) := h2
  rw [he] at h2'
  obtain ⟨hg2, hm2, -⟩ := stayersLoop_prior d b cs c dp thr hc hdp hW hall (fun _ _ => 1 / nl) hup hun
    f' fi' pr' pk1 l1 pk2 l2 hg1 h2'
  exact ⟨rowsOf pk1, rowsOf pk2, (rowsOf_spec hg1).1, (rowsOf_spec hg2).1, hm1, hm2⟩

/-- C136 for stayers: the rate of C135 with a prior.  After recording `n + 1` likelihoods from proportions
of at least `exp(-K)`, the penalised likelihood is within `(1 + nl (d_prior - 1)) K / n` of that of any
positive proportions. -/
theorem C136_stayers_rate [NeZero nl] (d : Data ni nk) (b : Base nl nk) (cs : List (Ctrl ni nl))
    (c dp thr K : ℝ) (hc : 0 < c) (hdp : 1 ≤ dp) (hW : ∀ i, d.W 0 i = c) (hnk : 0 < nk)
    (hall : ∀ k, ∃ i, d.G 0 i = k) (nIters : ℕ) (pk0 : Fin nk → Fin nl → ℝ)
    (hpos : ∀ k l, Real.exp (-K) ≤ pk0 k l) (hsum : ∀ k, ∑ l, pk0 k l ≤ 1)
    (pk0' : Fin nk → Option (Fin nl → ℝ)) (liks : List (Option ℝ))
    (h : fitStayers d b cs dp thr nIters pk0 = .ok (pk0', liks)) (n : ℕ) (hn : 0 < n)
    (hlen : liks.length = n + 1)
    (p' : Fin nk → Fin nl → ℝ) (hp' : ∀ k l, 0 < p' k l) (hs' : ∀ k, ∑ l, p' k l = 1) :
    ∃ rows : Fin nk → Fin nl → ℝ, (∀ k, pk0' k = some (rows k)) ∧
      Spec.penLikStayers d b cs dp p' ≤
        Spec.penLikStayers d b cs dp rows + (1 + nl * (dp - 1)) * K / n := by
  have hp0 : ∀ k l, 0 < pk0 k l := fun k l => (Real.exp_pos _).trans_le (hpos k l)
  have hg : GoodPk0 (fun k => some (pk0 k)) := fun k => ⟨pk0 k, rfl, hp0 k, hsum k⟩
  obtain ⟨hg', hm, u, hl, hb⟩ := stayersLoop_prior d b cs c dp thr hc hdp hW hall p' hp' hs' nIters true
    none _ [] pk0' liks hg h
  obtain ⟨hr, hrp, hrs⟩ := rowsOf_spec hg'
  refine ⟨rowsOf pk0', hr, ?_⟩
  have hD := ref_pos d b cs p' (fun k l => (hp' k l).le) hs'
  have hRs : ∀ i, ∑ l, refPost d b cs p' i l = 1 := by
    intro i
    unfold refPost
    rw [← sum_div]
    exact div_self (hD i).ne'
  have hRn : ∀ i l, 0 ≤ refPost d b cs p' i l + (dp - 1) := fun i l =>
    add_nonneg (div_nonneg (mul_pos (hp' _ l) (Real.exp_pos _)).le (hD i).le) (by linarith)
  have hK : ∑ i, ∑ l, (refPost d b cs p' i l + (dp - 1)) * (Real.log (rowsOf pk0' (d.G 0 i) l) -
      Real.log (rowsOf (fun k => some (pk0 k)) (d.G 0 i) l)) ≤ ni * ((1 + nl * (dp - 1)) * K) := by
    calc _ ≤ ∑ i, ∑ l, (refPost d b cs p' i l + (dp - 1)) * K := by
          refine sum_le_sum fun i _ => sum_le_sum fun l _ => mul_le_mul_of_nonneg_left ?_ (hRn i l)
          have h1 : rowsOf pk0' (d.G 0 i) l ≤ 1 :=
            (single_le_sum (f := fun l => rowsOf pk0' (d.G 0 i) l) (fun l _ => (hrp _ l).le)
              (mem_univ l)).trans (hrs _)
          have h2 := Real.log_nonpos (hrp _ l).le h1
          have h3 : -K ≤ Real.log (pk0 (d.G 0 i) l) := by
            rw [← Real.log_exp (-K)]
            exact Real.log_le_log (Real.exp_pos _) (hpos _ l)
          have h4 : rowsOf (fun k => some (pk0 k)) (d.G 0 i) l = pk0 (d.G 0 i) l := rfl
          rw [h4]
          linarith
      _ = ni * ((1 + nl * (dp - 1)) * K) := by
          simp only [← sum_mul, sum_add_distrib, hRs]
          simp
          ring
  have hun : n ≤ u := by simp at hl; omega
  set g := Spec.penLikStayers d b cs dp p' - Spec.penLikStayers d b cs dp (rowsOf pk0') with hgdef
  have hn0 : (0 : ℝ) < ni := by
    obtain ⟨i, -⟩ := hall ⟨0, hnk⟩
    exact_mod_cast Fin.pos i
  have hnr : (0 : ℝ) < n := by exact_mod_cast hn
  set K' := (1 + nl * (dp - 1)) * K with hK'
  have h5 : (u : ℝ) * g ≤ K' := by
    have h6 : ni * (u * g) ≤ ni * K' := by
      calc ni * (u * g) = u * (ni * g) := by ring
        _ ≤ _ := hb.trans hK
    exact le_of_mul_le_mul_left h6 hn0
  have hK0 : 0 ≤ K' := by
    have h6 : pk0 ⟨0, hnk⟩ ⟨0, Nat.pos_of_neZero nl⟩ ≤ 1 :=
      (single_le_sum (f := fun l => pk0 ⟨0, hnk⟩ l) (fun l _ => (hp0 _ l).le) (mem_univ _)).trans (hsum _)
    have h7 := (hpos ⟨0, hnk⟩ ⟨0, Nat.pos_of_neZero nl⟩).trans h6
    rw [Real.exp_le_one_iff] at h7
    have h8 : (0 : ℝ) ≤ nl * (dp - 1) := mul_nonneg (Nat.cast_nonneg _) (by linarith)
    exact mul_nonneg (by linarith) (by linarith)
  have h8 : g ≤ K' / n := by
    rw [le_div_iff₀ hnr]
    rcases le_or_gt g 0 with h9 | h9
    · nlinarith
    · have : (n : ℝ) ≤ u := by exact_mod_cast hun
      nlinarith
  linarith

/-! ## Movers -/

theorem pk1_improves_prior [NeZero nl] (d : Data ni nk) (q : Fin ni → Fin nl → ℝ)
    (pk pk' : ℕ → Fin nl → ℝ) (dp : ℝ) (hdp : 1 ≤ dp)
    (hnk : 0 < nk) (c : ℝ) (hW : ∀ t i, 0 < d.W t i) (hWc : ∀ i, d.W 0 i * d.W 1 i = c)
    (hq : ∀ i l, 0 < q i l) (hq1 : ∀ i, ∑ l, q i l = 1)
    (hpos : ∀ p < nk ^ 2, ∀ l, 0 < pk p l) (hsum : ∀ p < nk ^ 2, ∑ l, pk p l ≤ 1)
    (h : updatePk1 d q dp = .ok pk') :
    (∀ p < nk ^ 2, ∀ l, 0 < pk' p l) ∧ (∀ p < nk ^ 2, ∑ l, pk' p l ≤ 1) ∧
    0 ≤ ∑ i, ∑ l, (q i l + (dp - 1)) * (Real.log (pk' (KK d i) l) - Real.log (pk (KK d i) l)) := by
  have hall := top_of_updatePk1 d q dp pk' h
  obtain ⟨pk2, h2, hv⟩ := C32_movers d q dp hW hdp (fun i l => (hq i l).le) hq1 hnk hall
  rw [h] at h2
  cases h2
  have hcp : 0 < √c := by
    obtain ⟨i, -⟩ := hall ⟨0, hnk⟩ ⟨0, hnk⟩
    rw [← hWc i]
    exact Real.sqrt_pos.mpr (mul_pos (hW 0 i) (hW 1 i))
  set δ := dp - 1 with hδ
  have hδ0 : 0 ≤ δ := by rw [hδ]; linarith
  have hform : ∀ (k1 k2 : Fin nk) (l : Fin nl), pk' (k1.val + nk * k2.val) l =
      (∑ i with d.G 0 i = k1 ∧ d.G 1 i = k2, (q i l + δ)) /
        ∑ l', ∑ i with d.G 0 i = k1 ∧ d.G 1 i = k2, (q i l' + δ) := by
    intro k1 k2 l
    rw [(hv k1 k2).1 l]
    simp only [hWc, ← mul_sum]
    rw [sum_comm (s := univ)]
    simp only [sum_add_distrib (s := (univ : Finset (Fin nl))), hq1, sum_const, card_univ, Fintype.card_fin,
      nsmul_eq_mul]
    rw [show (((univ.filter fun i => d.G 0 i = k1 ∧ d.G 1 i = k2).card : ℝ) * √c) * (1 + nl * δ) =
      √c * (((univ.filter fun i => d.G 0 i = k1 ∧ d.G 1 i = k2).card : ℝ) * (1 + nl * δ)) by ring,
      mul_div_mul_left _ _ hcp.ne']
  have hcpos : ∀ (k1 k2 : Fin nk) (l : Fin nl),
      0 < ∑ i with d.G 0 i = k1 ∧ d.G 1 i = k2, (q i l + δ) := by
    intro k1 k2 l
    obtain ⟨i, hi⟩ := hall k1 k2
    exact sum_pos (fun i _ => by have := hq i l; linarith) ⟨i, by simp [hi]⟩
  have htot : ∀ k1 k2 : Fin nk, 0 < ∑ l', ∑ i with d.G 0 i = k1 ∧ d.G 1 i = k2, (q i l' + δ) :=
    fun k1 k2 => sum_pos (fun l _ => hcpos k1 k2 l) univ_nonempty
  refine ⟨?_, ?_, ?_⟩
  · intro p hp l
    obtain ⟨k1, k2, rfl⟩ := pair_of_lt hp
    rw [hform]
    exact div_pos (hcpos k1 k2 l) (htot k1 k2)
  · intro p hp
    obtain ⟨k1, k2, rfl⟩ := pair_of_lt hp
    exact (hv k1 k2).2.2.le
  · have e : ∑ i, ∑ l, (q i l + δ) * (Real.log (pk' (KK d i) l) - Real.log (pk (KK d i) l)) =
        ∑ k : Fin nk × Fin nk, ∑ i with (d.G 0 i, d.G 1 i) = k, ∑ l, (q i l + δ) *
          (Real.log (pk' (k.1.val + nk * k.2.val) l) - Real.log (pk (k.1.val + nk * k.2.val) l)) := by
      rw [← sum_fiberwise_of_maps_to (s := univ) (t := univ) (g := fun i => (d.G 0 i, d.G 1 i))
        (fun i _ => mem_univ _)]
      refine sum_congr rfl fun k _ => sum_congr rfl fun i hi => ?_
      rw [← (mem_filter.mp hi).2]
      rfl
    rw [e]
    refine sum_nonneg fun k _ => ?_
    obtain ⟨k1, k2⟩ := k
    rw [sum_comm]
    have hlt : k1.val + nk * k2.val < nk ^ 2 := by
      have h0 := k1.isLt; have h1 := k2.isLt; nlinarith
    have := gibbs (fun l => ∑ i with d.G 0 i = k1 ∧ d.G 1 i = k2, (q i l + δ))
      (pk (k1.val + nk * k2.val)) (hcpos k1 k2) (hpos _ hlt) (hsum _ hlt)
    simp only [Prod.mk.injEq]
    simp only [hform]
    simpa only [sum_mul] using this

theorem movers_step_prior [NeZero nl] (d : Data ni nk) (b b' : Base nl nk) (pk pk' : ℕ → Fin nl → ℝ)
    (updA updS updPk : Bool) (sA sS : Solver) (F : (Fin 2 → Fin nl → Fin nk → ℝ) → Prop) (lb c dp : ℝ)
    (hlb : 0 < lb) (hnk : 0 < nk) (hdp : 1 ≤ dp)
    (hsA : ∀ P r x, sA P r = .ok (some x) → F (unflatten nl nk x) ∧
      ∀ y, F (unflatten nl nk y) → qpObj (2 * (nl * nk)) P r x ≤ qpObj (2 * (nl * nk)) P r y)
    (hsS : RightSolver (2 * (nl * nk)) (BoundS nl nk lb) sS)
    (htop : TopObserved d) (hW : ∀ t i, 0 < d.W t i)
    (hWc : updPk = true → ∀ i, d.W 0 i * d.W 1 i = c) (hg : GoodState F lb b pk)
    (hpk : nextPk1 updPk d (posterior (lpMovers d b [] pk)) dp pk = .ok pk')
    (hm : mstep d (posterior (lpMovers d b [] pk)) b updA updS sA sS = .ok b') :
    GoodState F lb b' pk' ∧ Spec.penLikMovers d dp b.A b.S pk ≤ Spec.penLikMovers d dp b'.A b'.S pk' := by
  set q := posterior (lpMovers d b [] pk) with hqdef
  have hq : ∀ i l, 0 < q i l := posterior_pos _
  have hq1 : ∀ i, ∑ l, q i l = 1 := posterior_sum _
  obtain ⟨hF, hS, hQ⟩ := mstep_improves d q b b' updA updS sA sS F lb hlb hsA hsS htop hW hq hg.feas
    hg.sds hm
  have hP : (∀ p < nk ^ 2, ∀ l, 0 < pk' p l) ∧ (∀ p < nk ^ 2, ∑ l, pk' p l ≤ 1) ∧
      0 ≤ ∑ i, ∑ l, (q i l + (dp - 1)) * (Real.log (pk' (KK d i) l) - Real.log (pk (KK d i) l)) := by
    cases updPk with
    | true =>
      simp only [nextPk1, if_true] at hpk
      exact pk1_improves_prior d q pk pk' dp hdp hnk c hW (hWc rfl) hq hq1 hg.pos hg.sum hpk
    | false =>
      simp only [nextPk1, Bool.false_eq_true, if_false, Except.ok.injEq] at hpk
      subst hpk
      exact ⟨hg.pos, hg.sum, by simp⟩
  refine ⟨⟨hF, hS, hP.1, hP.2.1⟩, ?_⟩
  unfold Spec.penLikMovers
  rw [logLik_eq, logLik_eq]
  unfold meanLse
  rw [← add_div, ← add_div]
  refine div_le_div_of_nonneg_right ?_ (Nat.cast_nonneg _)
  have hem := sum_le_sum fun i (_ : i ∈ (univ : Finset (Fin ni))) =>
    em_row (lpMovers d b [] pk) (lpMovers d b' [] pk') i
  rw [← hqdef] at hem
  have e : ∑ i, ∑ l, q i l * (lpMovers d b' [] pk' i l - lpMovers d b [] pk i l) =
      ∑ i, ∑ l, q i l * (Real.log (pk' (KK d i) l) - Real.log (pk (KK d i) l)) +
        (wageQ d q b' - wageQ d q b) := by
    unfold wageQ
    rw [← sum_sub_distrib, Fin.sum_univ_two]
    simp only [← sum_sub_distrib]
    rw [sum_comm (s := (univ : Finset (Fin nl))) (f := fun l i => d.W 0 i * q i l * lpWage d b' [] 0 l i - _),
      sum_comm (s := (univ : Finset (Fin nl))) (f := fun l i => d.W 1 i * q i l * lpWage d b' [] 1 l i - _),
      ← sum_add_distrib, ← sum_add_distrib]
    refine sum_congr rfl fun i _ => ?_
    rw [← sum_add_distrib, ← sum_add_distrib]
    refine sum_congr rfl fun l _ => ?_
    unfold lpMovers
    ring
  rw [e] at hem
  have h3 := hP.2.2
  simp only [add_mul, mul_sub, sum_add_distrib, sum_sub_distrib] at h3 hem
  have hK : ∀ i, (d.G 0 i).val + nk * (d.G 1 i).val = KK d i := fun i => rfl
  simp only [hK, mul_sum]
  linarith

theorem moversLoop_prior [NeZero nl] (d : Data ni nk) (o : MoverOpts) (sA sS : Solver)
    (minType : (Fin 2 → Fin nl → Fin nk → ℝ) → ℕ)
    (F : (Fin 2 → Fin nl → Fin nk → ℝ) → Prop) (lb c : ℝ) (hlb : 0 < lb) (hnk : 0 < nk)
    (hsA : ∀ P r x, sA P r = .ok (some x) → F (unflatten nl nk x) ∧
      ∀ y, F (unflatten nl nk y) → qpObj (2 * (nl * nk)) P r x ≤ qpObj (2 * (nl * nk)) P r y)
    (hsS : RightSolver (2 * (nl * nk)) (BoundS nl nk lb) sS)
    (htop : TopObserved d) (hW : ∀ t i, 0 < d.W t i)
    (hWc : o.updPk = true → ∀ i, d.W 0 i * d.W 1 i = c) (hd : 1 ≤ o.dprior) (fuel : ℕ) :
    ∀ (first : Bool) (prev : Option ℝ) (pm : ℕ) (s s' : MoverState nl nk),
      GoodState F lb s.base s.pk1 →
      moversLoop d o sA sS minType fuel first prev pm s = .ok s' →
      GoodState F lb s'.base s'.pk1 ∧ Spec.penLikMovers d o.dprior s.base.A s.base.S s.pk1 ≤
        Spec.penLikMovers d o.dprior s'.base.A s'.base.S s'.pk1 := by
  induction fuel with
  | zero =>
    intro first prev pm s s' hg h
    simp only [moversLoop, Except.ok.injEq] at h
    subst h
    exact ⟨hg, le_rfl⟩
  | succ fuel ih =>
    intro first prev pm s s' hg h
    unfold moversLoop at h
    dsimp only at h
    split at h
    · simp only [Except.ok.injEq] at h
      subst h
      exact ⟨hg, le_rfl⟩
    · cases hu : nextPk1 o.updPk d (posterior (lpMovers d s.base [] s.pk1)) o.dprior s.pk1 with
      | error m => rw [hu] at h; simp [bind, Except.bind] at h
      | ok pk2 =>
        cases hm : mstep d (posterior (lpMovers d s.base [] s.pk1)) s.base o.updA o.updS sA sS with
        | error m => rw [hu, hm] at h; simp [bind, Except.bind] at h
        | ok b2 =>
          rw [hu, hm] at h
          simp only [bind, Except.bind] at h
          obtain ⟨hg2, hmm⟩ := movers_step_prior d s.base b2 s.pk1 pk2 o.updA o.updS o.updPk sA sS F lb c
            o.dprior hlb hnk hd hsA hsS htop hW hWc hg hu hm
          obtain ⟨hg', hm'⟩ := ih false _ _ ⟨b2, pk2, _⟩ s' hg2 h
          exact ⟨hg', hmm.trans hm'⟩

theorem moversLoop_continue [NeZero nl] (d : Data ni nk) (o : MoverOpts) (sA sS : Solver)
    (minType : (Fin 2 → Fin nl → Fin nk → ℝ) → ℕ) (fuel k : ℕ) :
    ∀ (first : Bool) (prev : Option ℝ) (pm : ℕ) (s s' : MoverState nl nk),
      moversLoop d o sA sS minType fuel first prev pm s = .ok s' →
      ∃ fuel' first' prev' pm', moversLoop d o sA sS minType (fuel + k) first prev pm s =
        moversLoop d o sA sS minType fuel' first' prev' pm' s' := by
  induction fuel with
  | zero =>
    intro first prev pm s s' h
    simp only [moversLoop, Except.ok.injEq] at h
    subst h
    exact ⟨k, first, prev, pm, by rw [zero_add]⟩
  | succ fuel ih =>
    intro first prev pm s s' h
    rw [show fuel + 1 + k = fuel + k + 1 by ring]
    unfold moversLoop at h
    dsimp only at h
    split at h
    · rename_i hs
      refine ⟨0, first, prev, pm, ?_⟩
      change _ = Except.ok s'
      unfold moversLoop
      dsimp only
      rw [if_pos hs]
      exact h
    · rename_i hs
      cases hu : nextPk1 o.updPk d (posterior (lpMovers d s.base [] s.pk1)) o.dprior s.pk1 with
      | error m => rw [hu] at h; cases h
      | ok pk2 =>
        cases hb : mstep d (posterior (lpMovers d s.base [] s.pk1)) s.base o.updA o.updS sA sS with
        | error m => rw [hu, hb] at h; cases h
        | ok b2 =>
          rw [hu, hb] at h
          simp only [bind, Except.bind] at h
          obtain ⟨f', fi', pr', pm', he⟩ := ih false _ _ _ s' h
          refine ⟨f', fi', pr', pm', ?_⟩
          rw [← he]
          conv_lhs => unfold moversLoop
          dsimp only
          rw [if_neg hs, hu, hb]
          rfl

/-- C136 for movers: for every `d_prior` of at least one, without controls, under the conditions of C33 on
weights, variances, proportions and constraints, the penalised likelihood of the means, standard deviations
and proportions returned never falls as more iterations are allowed, and is never below that of the
starting values. -/
theorem C136_movers_monotone [NeZero nl] (d : Data ni nk) (o : MoverOpts) (sA sS : Solver)
    (minType : (Fin 2 → Fin nl → Fin nk → ℝ) → ℕ)
    (F : (Fin 2 → Fin nl → Fin nk → ℝ) → Prop) (lb c : ℝ) (hlb : 0 < lb) (hnk : 0 < nk)
    (hsA : RightSolver (2 * (nl * nk)) (fun x => F (unflatten nl nk x)) sA)
    (hsS : RightSolver (2 * (nl * nk)) (BoundS nl nk lb) sS)
    (htop : TopObserved d) (hW : ∀ t i, 0 < d.W t i)
    (hWc : o.updPk = true → ∀ i, d.W 0 i * d.W 1 i = c) (hd : 1 ≤ o.dprior) (nIters more pm : ℕ)
    (b : Base nl nk) (pk1 : ℕ → Fin nl → ℝ) (hF : F b.A)
    (hS : ∀ t l k, 0 < b.S t l k ∧ lb ≤ b.S t l k ^ 2)
    (hpos : ∀ p < nk ^ 2, ∀ l, 0 < pk1 p l) (hsum : ∀ p < nk ^ 2, ∑ l, pk1 p l ≤ 1)
    (s1 s2 : MoverState nl nk)
    (h1 : moversLoop d o sA sS minType nIters true none pm ⟨b, pk1, []⟩ = .ok s1)
    (h2 : moversLoop d o sA sS minType (nIters + more) true none pm ⟨b, pk1, []⟩ = .ok s2) :
    Spec.penLikMovers d o.dprior b.A b.S pk1 ≤
      Spec.penLikMovers d o.dprior s1.base.A s1.base.S s1.pk1 ∧
    Spec.penLikMovers d o.dprior s1.base.A s1.base.S s1.pk1 ≤
      Spec.penLikMovers d o.dprior s2.base.A s2.base.S s2.pk1 := by
  obtain ⟨hg1, hm1⟩ := moversLoop_prior d o sA sS minType F lb c hlb hnk hsA.sound hsS htop hW hWc hd nIters
    true none pm ⟨b, pk1, []⟩ s1 ⟨hF, hS, hpos, hsum⟩ h1
  obtain ⟨f', fi', pr', pm', he⟩ := moversLoop_continue d o sA sS minType nIters more _ _ _ _ _ h1
  rw [he] at h2
  obtain ⟨-, hm2⟩ := moversLoop_prior d o sA sS minType F lb c hlb hnk hsA.sound hsS htop hW hWc hd f' fi'
    pr' pm' s1 s2 hg1 h2
  exact ⟨hm1, hm2⟩

/-- Non-vacuity: both fits return on the example data with the default prior, whatever the wages. -/
theorem C136_case (thr : ℝ) (n : ℕ) (Y : Fin 2 → Fin 4 → ℝ) (sA sS : Solver) :
    (∃ r, fitStayers exData exBase exCtrls (1 + 1 / 10000000) thr n exHalf = .ok r) ∧
    ∃ s, moversLoop (exPairs Y) ⟨true, true, true, 1 + 1 / 10000000, thr⟩ sA sS (fun _ => 0) n true none 0
      ⟨exBase, fun _ _ => 1 / 2, []⟩ = .ok s := by
  constructor
  · refine C33_stayers_returns _ _ _ _ _ (by norm_num) (fun k => ?_) _ _
    fin_cases k
    · exact ⟨0, by simp [exData]⟩
    · exact ⟨1, by simp [exData]⟩
  · exact C33_movers_returns (exPairs Y) ⟨true, true, true, 1 + 1 / 10000000, thr⟩ sA sS (fun _ => 0)
      (by norm_num) (exPairs_all Y) (fun _ _ => one_pos) (by norm_num) rfl n true none 0 _

end Pytwoway.BLM
