import Verif.FE.Props4

/-!
# Which way the corrections go, and whether corrected components add up (C129)

The homoskedastic correction of fe.py:1165-1182 with the exact traces of fe.py:815-875 and with the approximate traces of
fe.py:877-938; the heteroskedastic correction with the approximate traces of fe.py:1061-1131.
-/

namespace Pytwoway.FE

open Matrix Pytwoway.Util MeasureTheory
open scoped BigOperators

variable {n m nw R : ℕ} {d : Panel n m nw} {solve : (Fin m → ℝ) → (Fin m → ℝ)}

/-! ## Lemmas -/

theorem meanDp (hv : d.Valid) (x : Fin n → ℝ) : weightedMean x d.DpW = (∑ o, d.Dp o * x o) / ∑ o, d.Dp o := by
  unfold Panel.DpW Panel.Dp
  by_cases hw : d.weighted <;> simp [hw, weightedMean]

theorem covDp (hv : d.Valid) (x y : Fin n → ℝ) : weightedCov x y d.DpW d.DpW 0
    = (∑ o, d.Dp o * ((x o - weightedMean x d.DpW) * (y o - weightedMean y d.DpW))) / ∑ o, d.Dp o := by
  have := hv.wpos
  unfold Panel.DpW
  unfold Panel.Dp at this ⊢
  by_cases hw : d.weighted
  · simp only [hw, if_true] at this ⊢
    have hs : ∀ o, Real.sqrt (d.w o * d.w o) = d.w o := fun o => Real.sqrt_mul_self (this o).le
    simp [weightedCov, Weight.at, hs, mul_assoc]
  · simp [hw, weightedCov]

theorem sum_workers (d : Panel n m nw) (f : Fin n → ℝ) : ∑ o, f o = ∑ i, ∑ o with d.i o = i, f o :=
  (Finset.sum_fiberwise_of_maps_to (t := Finset.univ) (g := d.i) (fun _ _ => Finset.mem_univ _) f).symm

/-- A covariance with something that is the same for all rows of a worker only uses averages by worker. -/
theorem cov_workerMean (hv : d.Valid) (u : Fin n → ℝ) (a ub : Fin nw → ℝ)
    (hub : ∀ i, ∑ o with d.i o = i, d.Dp o * u o = ∑ o with d.i o = i, d.Dp o * ub i) :
    weightedCov u (fun o => a (d.i o)) d.DpW d.DpW 0
      = weightedCov (fun o => ub (d.i o)) (fun o => a (d.i o)) d.DpW d.DpW 0 := by
  have hub' : ∀ i, ∑ o with d.i o = i, d.Dp o * u o = ∑ o with d.i o = i, d.Dp o * ub (d.i o) := fun i => by
    rw [hub]; exact Finset.sum_congr rfl fun o ho => by rw [(Finset.mem_filter.mp ho).2]
  have hm : weightedMean u d.DpW = weightedMean (fun o => ub (d.i o)) d.DpW := by
    rw [meanDp hv, meanDp hv, sum_workers d fun o => d.Dp o * u o, sum_workers d fun o => d.Dp o * ub (d.i o)]
    simp only [hub']
  rw [covDp hv, covDp hv, hm]
  congr 1
  rw [sum_workers d, sum_workers d fun o => d.Dp o * ((ub (d.i o) - _) * (a (d.i o) - _))]
  refine Finset.sum_congr rfl fun i _ => ?_
  set c := weightedMean (fun o => ub (d.i o)) d.DpW
  set e := weightedMean (fun o => a (d.i o)) d.DpW
  have h1 : ∀ f : Fin n → ℝ, ∑ o with d.i o = i, d.Dp o * ((f o - c) * (a (d.i o) - e))
      = ((∑ o with d.i o = i, d.Dp o * f o) - c * ∑ o with d.i o = i, d.Dp o) * (a i - e) := by
    intro f
    rw [Finset.mul_sum, ← Finset.sum_sub_distrib, Finset.sum_mul]
    refine Finset.sum_congr rfl fun o ho => ?_
    rw [(Finset.mem_filter.mp ho).2]; ring
  rw [h1, h1 fun o => ub (d.i o), hub']

/-- `DwinvWtDpJ` averages firm effects by worker. -/
theorem DwinvWtDpJ_mean (hv : d.Valid) (x : Fin m → ℝ) (i : Fin nw) :
    ∑ o with d.i o = i, d.Dp o * (d.J *ᵥ x) o = ∑ o with d.i o = i, d.Dp o * (d.DwinvWtDpJ *ᵥ x) i := by
  have h1 : (d.DwinvWtDpJ *ᵥ x) i = d.Dwinv i * ∑ o with d.i o = i, d.Dp o * (d.J *ᵥ x) o := by
    rw [d.DwinvWtDpJ_eq, ← mulVec_mulVec, mulVec_diagonal, Panel.WtDpJ, ← mulVec_mulVec]
    congr 1
    have h2 : ∀ o, (d.DpJ *ᵥ x) o = d.Dp o * (d.J *ᵥ x) o := fun o => by
      simp [mulVec, dotProduct, Panel.DpJ, Finset.mul_sum, mul_assoc]
    rw [mulVec, dotProduct, Finset.sum_filter]
    refine Finset.sum_congr rfl fun o _ => ?_
    rw [h2, transpose_apply, Panel.W, of_apply]
    split <;> simp
  have h3 := d.Dw_pos hv i
  rw [← Finset.sum_mul, h1, d.Dwinv_eq]
  change _ = d.Dw i * _
  field_simp

/-- Firm effects averaged by worker, as a component. -/
noncomputable def Panel.qMeanPsi (d : Panel n m nw) : Panel.QHalf n m nw := .psi (d.W * d.DwinvWtDpJ) d.DpW

theorem gram_mean (hv : d.Valid) :
    d.Jᵀ * kmat (Panel.wvec d.DpW) (Panel.wvec d.DpW) * (d.W * d.DwinvWtDpJ)
      = (d.W * d.DwinvWtDpJ)ᵀ * kmat (Panel.wvec d.DpW) (Panel.wvec d.DpW) * (d.W * d.DwinvWtDpJ) := by
  have hstd := stdWeight_DpW hv
  ext a b
  have e : ∀ M : Matrix (Fin n) (Fin m) ℝ, (Mᵀ * kmat (Panel.wvec d.DpW) (Panel.wvec d.DpW) * (d.W * d.DwinvWtDpJ)) a b
      = weightedCov (M *ᵥ Pi.single a 1) (fun o => (d.DwinvWtDpJ *ᵥ Pi.single b 1) (d.i o)) d.DpW d.DpW 0 := by
    intro M
    have : (fun o => (d.DwinvWtDpJ *ᵥ Pi.single b 1) (d.i o)) = (d.W * d.DwinvWtDpJ) *ᵥ Pi.single b 1 := by
      funext o; rw [← mulVec_mulVec, d.W_mulVec]
    rw [this, weightedCov_kmat _ _ hstd hstd, form_assoc, mulVec_single_one, single_one_dotProduct]
    rfl
  rw [e, e, cov_workerMean hv _ _ (d.DwinvWtDpJ *ᵥ Pi.single a 1) (DwinvWtDpJ_mean hv _)]
  congr 1
  funext o
  rw [← mulVec_mulVec, d.W_mulVec]

theorem unitCov_self_nonneg (hv : d.Valid) (q : Panel.QHalf n m nw) (hq : q.wt = d.DpW) (o : Fin n) :
    0 ≤ d.unitCov solve q q o := by
  rw [Panel.unitCov, Panel.covFe, hq, covDp hv]
  refine div_nonneg (Finset.sum_nonneg fun o _ => mul_nonneg (hv.wpos o).le (mul_self_nonneg _))
    (Finset.sum_nonneg fun o _ => (hv.wpos o).le)

/-- The exact trace for the variance of averaged firm effects. -/
noncomputable def meanTrace (d : Panel n m nw) : ℝ :=
  ∑ k, diagOfProd m m (Panel.qCovMat (d.W * d.DwinvWtDpJ) (d.W * d.DwinvWtDpJ) (Panel.wvec d.DpW) (Panel.wvec d.DpW))
    d.blocksFull.A k

theorem meanTrace_trace (d : Panel n m nw) : meanTrace d
    = ((d.W * d.DwinvWtDpJ)ᵀ * kmat (Panel.wvec d.DpW) (Panel.wvec d.DpW) * (d.W * d.DwinvWtDpJ) * d.blocksFull.A).trace := by
  rw [meanTrace, trace]
  refine Finset.sum_congr rfl fun k _ => ?_
  rw [C05_diag_of_prod, qCovMat_eq, diag_apply]

theorem meanTrace_nonneg (hv : d.Valid) (hc : d.Connected) (hs : d.GoodSolver solve) : 0 ≤ meanTrace d := by
  have hstd := stdWeight_DpW hv
  rw [exactTraceHo_correct hv hc hs d.qMeanPsi d.qMeanPsi hstd hstd (tr := meanTrace d) rfl
    (by rintro ⟨⟨M, w, h⟩, -⟩; cases h)]
  exact Finset.sum_nonneg fun o _ => mul_nonneg (one_div_nonneg.mpr (hv.wpos o).le) (unitCov_self_nonneg hv _ rfl o)

theorem blocksFull_C_mean : d.blocksFull.C = -(d.DwinvWtDpJ * d.blocksFull.A) := by
  rw [d.blocksFull_C, d.DwinvWtDpJ_eq, d.blocksFull_A]

theorem traceCov_mean (hv : d.Valid) : Panel.exactTraceCovHo d.blocksFull d.qPsi d.qAlpha = .ok (-meanTrace d) := by
  change Except.ok (∑ k, diagOfProd nw nw (Panel.qCovMat d.J d.W (Panel.wvec d.DpW) (Panel.wvec d.DpW)) d.blocksFull.C k) = _
  congr 1
  simp only [C05_diag_of_prod, qCovMat_eq]
  rw [meanTrace_trace, ← gram_mean hv, ← trace_neg]
  change (d.Jᵀ * kmat _ _ * d.W * d.blocksFull.C).trace = _
  rw [blocksFull_C_mean, Matrix.mul_neg]
  simp only [Matrix.mul_assoc]

theorem alpha_row_sum (hv : d.Valid) (hn : 0 < n) (k : Fin nw) :
    ∑ c, (d.Wᵀ * kmat (Panel.wvec d.DpW) (Panel.wvec d.DpW) * d.W) k c = 0 := by
  have hstd := stdWeight_DpW hv
  set Q := d.Wᵀ * kmat (Panel.wvec d.DpW) (Panel.wvec d.DpW) * d.W with hQ
  have hcol : d.W *ᵥ Pi.single k 1 = fun o => if d.i o = k then 1 else 0 := by
    ext o; rw [d.W_mulVec]; simp [Pi.single_apply]
  have hone : d.W *ᵥ 1 = fun _ => 1 := by ext o; rw [d.W_mulVec]; rfl
  have h1 : ∑ c, Q k c = weightedCov (fun o => if d.i o = k then 1 else 0) (fun _ => 1) d.DpW d.DpW 0 := by
    rw [weightedCov_kmat _ _ hstd hstd, ← hcol, ← hone, form_assoc, single_one_dotProduct, ← hQ]
    simp [mulVec, dotProduct]
  rw [h1, covDp hv, weightedMean_const 1 _ (usable_DpW hv hn)]
  simp

theorem traceVar_mean (hv : d.Valid) (hc : d.Connected) (hn : 0 < n) :
    Panel.exactTraceVarHo d.blocksFull d.qAlpha = .ok (meanTrace d) := by
  have hstd := stdWeight_DpW hv
  change Except.ok (∑ k, diagOfProd nw nw (Panel.qVarMat d.W (Panel.wvec d.DpW)) d.blocksFull.D k) = _
  congr 1
  have hM := d.Minv_unit hv (d.nmat_unit hv hc)
  have hCB : d.blocksFull.C * d.Minv * d.blocksFull.B = d.DwinvWtDpJ * d.blocksFull.A * d.DwinvWtDpJᵀ := by
    rw [d.blocksFull_B, blocksFull_C_mean, d.blocksFull_A, d.DwinvWtDpJ_eq, transpose_mul, diagonal_transpose,
      Matrix.neg_mul, Matrix.neg_mul, Matrix.mul_neg, neg_neg, Matrix.mul_assoc _ _ d.Minv, nonsing_inv_mul _ hM]
    simp only [Matrix.mul_assoc, Matrix.one_mul]
  set Q := d.Wᵀ * kmat (Panel.wvec d.DpW) (Panel.wvec d.DpW) * d.W with hQ
  have hk : ∀ k, diagOfProd nw nw (Panel.qVarMat d.W (Panel.wvec d.DpW)) d.blocksFull.D k
      = (Q * (d.DwinvWtDpJ * d.blocksFull.A * d.DwinvWtDpJᵀ)) k k := by
    intro k
    rw [C05_diag_of_prod, qVarMat_eq _ _ (wvec_nonneg hstd), ← hQ, mul_apply, mul_apply, ← hCB]
    have hD : ∀ r c, d.blocksFull.D r c = d.Dwinv c + (d.blocksFull.C * d.Minv * d.blocksFull.B) r c := fun _ _ => rfl
    simp only [hD, mul_add, Finset.sum_add_distrib, ← Finset.sum_mul, hQ, alpha_row_sum hv hn, zero_mul, zero_add]
  simp only [hk]
  change (Q * (d.DwinvWtDpJ * d.blocksFull.A * d.DwinvWtDpJᵀ)).trace = _
  rw [meanTrace_trace, ← Matrix.mul_assoc, trace_mul_comm, hQ, transpose_mul]
  simp only [Matrix.mul_assoc]

/-- The error variance is not negative. -/
theorem sigma2ho_nonneg (hv : d.Valid) (hc : d.Connected) : 0 ≤ d.sigma2ho solve (d.exactTraceSigma2 d.blocksFull) := by
  have hu := d.nmat_unit hv hc
  have hT : 0 ≤ ∑ o, (1 - hat d.X d.Dp o o) / d.Dp o :=
    Finset.sum_nonneg fun b _ => div_nonneg (by linarith [(hat_diag_mem d.X d.Dp hv.wpos hu b).2]) (hv.wpos b).le
  have hden : 0 ≤ ∑ o, d.Dp o := Finset.sum_nonneg fun o _ => (hv.wpos o).le
  rw [Panel.sigma2ho]
  by_cases hw : d.weighted = true
  · have h1 : (∑ o, 1 / d.Dp o) - d.exactTraceSigma2 d.blocksFull = ∑ o, (1 - hat d.X d.Dp o o) / d.Dp o := by
      rw [exactTraceSigma2_eq hv hc, ← Finset.sum_sub_distrib]
      exact Finset.sum_congr rfl fun o _ => (sub_div _ _ _).symm
    rw [if_pos hw, h1]
    refine div_nonneg (mul_nonneg (Nat.cast_nonneg _) (div_nonneg ?_ (Nat.cast_nonneg _))) hT
    exact Finset.sum_nonneg fun o _ => sq_nonneg _
  · have hD1 : ∀ o, d.Dp o = 1 := fun o => by simp [Panel.Dp, hw]
    have h1 : (n : ℝ) - ((nw : ℝ) + ((m : ℝ) + 1) - 1) = ∑ o, (1 - hat d.X d.Dp o o) / d.Dp o := by
      simp only [hD1, div_one, Finset.sum_sub_distrib]
      rw [hat_trace _ _ hu]
      simp; ring
    rw [if_neg hw, h1]
    refine div_nonneg (mul_nonneg (Nat.cast_nonneg _) ?_) hT
    rw [Panel.sigma2fe, meanDp hv]
    exact div_nonneg (Finset.sum_nonneg fun o _ => mul_nonneg (hv.wpos o).le
      (mul_nonneg (hv.wpos o).le (sq_nonneg _))) hden

theorem tracePsi_nonneg (hv : d.Valid) (hc : d.Connected) (hs : d.GoodSolver solve) {tr : ℝ}
    (h : Panel.exactTraceVarHo d.blocksFull d.qPsi = .ok tr) : 0 ≤ tr := by
  have hstd := stdWeight_DpW hv
  rw [exactTraceVarHo_eq_cov _ d.qPsi hstd] at h
  rw [exactTraceHo_correct hv hc hs d.qPsi d.qPsi hstd hstd h (by rintro ⟨⟨M, w, h⟩, -⟩; cases h)]
  exact Finset.sum_nonneg fun o _ => mul_nonneg (one_div_nonneg.mpr (hv.wpos o).le) (unitCov_self_nonneg hv _ rfl o)

/-! ## Exact traces -/

/-- **C129**, exact traces: whatever the outcomes, the homoskedastic correction does not raise the variance of firm effects
or of worker effects, and does not lower their covariance. -/
theorem C129_direction (hv : d.Valid) (hc : d.Connected) (hs : d.GoodSolver solve)
    (hdf : ∃ o, d.computePii d.blocksFull o < 1) {tp ta tc : ℝ}
    (hp : Panel.exactTraceVarHo d.blocksFull d.qPsi = .ok tp) (ha : Panel.exactTraceVarHo d.blocksFull d.qAlpha = .ok ta)
    (hpa : Panel.exactTraceCovHo d.blocksFull d.qPsi d.qAlpha = .ok tc) :
    d.varHo solve d.qPsi (d.exactTraceSigma2 d.blocksFull) tp ≤ d.varFe solve d.qPsi ∧
    d.varHo solve d.qAlpha (d.exactTraceSigma2 d.blocksFull) ta ≤ d.varFe solve d.qAlpha ∧
    d.covFe solve d.qPsi d.qAlpha ≤ d.covHo solve d.qPsi d.qAlpha (d.exactTraceSigma2 d.blocksFull) tc := by
  have hn : 0 < n := by obtain ⟨o, -⟩ := hdf; exact o.pos
  have hσ := sigma2ho_nonneg (solve := solve) hv hc
  have h1 := tracePsi_nonneg hv hc hs hp
  have h2 := meanTrace_nonneg hv hc hs
  rw [traceVar_mean hv hc hn] at ha
  rw [traceCov_mean hv] at hpa
  cases ha; cases hpa
  simp only [Panel.varHo, Panel.covHo]
  have h3 := mul_nonneg hσ h1
  have h4 := mul_nonneg hσ h2
  exact ⟨by linarith, by linarith, by linarith⟩

theorem firm_seen (hc : d.Connected) (hm : 0 < m) (k : Fin (m + 1)) : ∃ o, d.j o = k := by
  obtain ⟨k', hk'⟩ : ∃ k' : Fin (m + 1), k' ≠ k := by
    haveI : Nontrivial (Fin (m + 1)) := Fin.nontrivial_iff_two_le.mpr (by omega)
    exact exists_ne k
  rcases Relation.ReflTransGen.cases_tail (hc k' k) with h | ⟨c, -, o, o', -, -, h⟩
  · exact absurd h.symm hk'
  · exact ⟨o', h⟩

theorem psiCol_sum_unit (hv : d.Valid) (hc : d.Connected) (hs : d.GoodSolver solve) (y : Fin n → ℝ) (o' : Fin n) :
    (d.withY y).psiCol solve o' = ∑ o, y o * (d.withY (Pi.single o 1)).psiCol solve o' := by
  have h : ∀ y k, ((d.withY y).ols solve).1 k = (d.lmat *ᵥ y) (.inl k) := fun y k => by
    rw [← ols_lmat hv hc hs]; rfl
  have hj : ∀ y, (d.withY y).psiCol solve o' = (d.J *ᵥ ((d.withY y).ols solve).1) o' := fun y => by
    rw [d.J_mulVec]; rfl
  have e : ∀ y, ((d.withY y).ols solve).1 = (of fun k o => d.lmat (.inl k) o) *ᵥ y := fun y => by
    funext k; rw [h]; rfl
  simp only [hj, e, mulVec_mulVec]
  rw [mulVec, dotProduct]
  refine Finset.sum_congr rfl fun o _ => ?_
  rw [mulVec_single_one, mul_comm]; rfl

theorem tracePsi_pos (hv : d.Valid) (hc : d.Connected) (hs : d.GoodSolver solve) (hm : 0 < m) {tr : ℝ}
    (h : Panel.exactTraceVarHo d.blocksFull d.qPsi = .ok tr) : 0 < tr := by
  have hstd := stdWeight_DpW hv
  have h' := h
  rw [exactTraceVarHo_eq_cov _ d.qPsi hstd] at h'
  refine lt_of_le_of_ne (tracePsi_nonneg hv hc hs h) fun h0 => ?_
  rw [exactTraceHo_correct hv hc hs d.qPsi d.qPsi hstd hstd h' (by rintro ⟨⟨M, w, h⟩, -⟩; cases h)] at h0
  have hz := (Finset.sum_eq_zero_iff_of_nonneg fun o _ =>
    mul_nonneg (one_div_nonneg.mpr (hv.wpos o).le) (unitCov_self_nonneg hv d.qPsi rfl o)).mp h0.symm
  have hden : 0 < ∑ o, d.Dp o := by
    obtain ⟨o, -⟩ := firm_seen hc hm 0
    exact Finset.sum_pos (fun o _ => hv.wpos o) ⟨o, Finset.mem_univ o⟩
  -- firm effects estimated from a unit change are the same for all rows
  have hconst : ∀ o a b, (d.withY (Pi.single o 1)).psiCol solve a = (d.withY (Pi.single o 1)).psiCol solve b := by
    intro o
    have h1 := (mul_eq_zero.mp (hz o (Finset.mem_univ o))).resolve_left (one_div_pos.mpr (hv.wpos o)).ne'
    have hq : d.qPsi.mult ((d.withY (Pi.single o 1)).ols solve).1 ((d.withY (Pi.single o 1)).ols solve).2
        = (d.withY (Pi.single o 1)).psiCol solve := by
      funext a; change (d.J *ᵥ _) a = _; rw [d.J_mulVec]; rfl
    rw [Panel.unitCov, Panel.covFe, hq, show d.qPsi.wt = d.DpW from rfl, covDp hv] at h1
    have h2 := (div_eq_zero_iff.mp h1).resolve_right hden.ne'
    have h3 := (Finset.sum_eq_zero_iff_of_nonneg fun o _ => mul_nonneg (hv.wpos o).le (mul_self_nonneg _)).mp h2
    have h4 : ∀ a, (d.withY (Pi.single o 1)).psiCol solve a
        = weightedMean ((d.withY (Pi.single o 1)).psiCol solve) d.DpW := fun a => by
      have := mul_self_eq_zero.mp ((mul_eq_zero.mp (h3 a (Finset.mem_univ a))).resolve_left (hv.wpos a).ne')
      linarith
    intro a b; rw [h4 a, h4 b]
  obtain ⟨a, ha⟩ := firm_seen hc hm 0
  obtain ⟨b, hb⟩ := firm_seen hc hm ⟨1, by omega⟩
  set psi : Fin (m + 1) → ℝ := fun k => if k = 0 then 0 else 1 with hpsi
  have hnf := (C16_noise_free (d := d.withY fun o => psi (d.j o)) (solve := solve)
    ⟨hv.wpos, hv.seen⟩ hc hs psi (fun _ => 0)
    (fun o => (zero_add _).symm)).1
  have hpc : ∀ o, (d.withY fun o => psi (d.j o)).psiCol solve o = psi (d.j o) := fun o => by
    rw [Panel.psiCol, hnf]; simp [hpsi, Panel.withY]
  have hab : psi (d.j a) = psi (d.j b) := by
    rw [← hpc a, ← hpc b, psiCol_sum_unit hv hc hs, psiCol_sum_unit hv hc hs]
    exact Finset.sum_congr rfl fun o _ => by rw [hconst o a b]
  rw [ha, hb, hpsi] at hab
  have h01 : (⟨1, by omega⟩ : Fin (m + 1)) ≠ 0 := fun h => by cases congrArg Fin.val h
  dsimp only at hab
  rw [if_pos rfl, if_neg h01] at hab
  exact zero_ne_one hab

/-- **C129**: with at least two firms and residuals that are not all zero, the variance of firm effects is lowered. -/
theorem C129_strict (hv : d.Valid) (hc : d.Connected) (hs : d.GoodSolver solve) (hm : 0 < m)
    (hdf : ∃ o, d.computePii d.blocksFull o < 1) (hE : ∃ o, d.E solve o ≠ 0) {tp : ℝ}
    (hp : Panel.exactTraceVarHo d.blocksFull d.qPsi = .ok tp) :
    d.varHo solve d.qPsi (d.exactTraceSigma2 d.blocksFull) tp < d.varFe solve d.qPsi := by
  have ht := tracePsi_pos hv hc hs hm hp
  have hu := d.nmat_unit hv hc
  have hT : 0 < ∑ o, (1 - hat d.X d.Dp o o) / d.Dp o := by
    obtain ⟨o, ho⟩ := hdf
    rw [d.computePii_eq hv hu] at ho
    refine Finset.sum_pos' (fun b _ => div_nonneg ?_ (hv.wpos b).le) ⟨o, Finset.mem_univ o,
      div_pos (by linarith) (hv.wpos o)⟩
    linarith [(hat_diag_mem d.X d.Dp hv.wpos hu b).2]
  obtain ⟨o, ho⟩ := hE
  have hn : (0 : ℝ) < n := by exact_mod_cast o.pos
  have hσ : 0 < d.sigma2ho solve (d.exactTraceSigma2 d.blocksFull) := by
    rw [Panel.sigma2ho]
    by_cases hw : d.weighted = true
    · have h1 : (∑ o, 1 / d.Dp o) - d.exactTraceSigma2 d.blocksFull = ∑ o, (1 - hat d.X d.Dp o o) / d.Dp o := by
        rw [exactTraceSigma2_eq hv hc, ← Finset.sum_sub_distrib]
        exact Finset.sum_congr rfl fun o _ => (sub_div _ _ _).symm
      rw [if_pos hw, h1]
      refine div_pos (mul_pos hn (div_pos ?_ hn)) hT
      exact Finset.sum_pos' (fun o _ => sq_nonneg _) ⟨o, Finset.mem_univ o, by positivity⟩
    · have hD1 : ∀ o, d.Dp o = 1 := fun o => by simp [Panel.Dp, hw]
      have h1 : (n : ℝ) - ((nw : ℝ) + ((m : ℝ) + 1) - 1) = ∑ o, (1 - hat d.X d.Dp o o) / d.Dp o := by
        simp only [hD1, div_one, Finset.sum_sub_distrib]
        rw [hat_trace _ _ hu]
        simp; ring
      rw [if_neg hw, h1]
      refine div_pos (mul_pos hn ?_) hT
      rw [Panel.sigma2fe, meanDp hv]
      refine div_pos (Finset.sum_pos' (fun o _ => mul_nonneg (hv.wpos o).le (mul_nonneg (hv.wpos o).le (sq_nonneg _)))
        ⟨o, Finset.mem_univ o, mul_pos (hv.wpos o) (mul_pos (hv.wpos o) (by positivity))⟩)
        (Finset.sum_pos (fun o _ => hv.wpos o) ⟨o, Finset.mem_univ o⟩)
  have := mul_pos hσ ht
  rw [Panel.varHo]
  linarith

/-- **C129**, a consequence of line 1280 of fe.py: with exact traces what is taken off `var(alpha)` is what is put on
`cov(psi, alpha)`, so that their sum is left as it was, although the first should be larger (`C19_var_alpha_bias`). -/
theorem C129_alpha_and_cov (hv : d.Valid) (hc : d.Connected) (hn : 0 < n) {ta tc : ℝ} (ts : ℝ)
    (ha : Panel.exactTraceVarHo d.blocksFull d.qAlpha = .ok ta)
    (hpa : Panel.exactTraceCovHo d.blocksFull d.qPsi d.qAlpha = .ok tc) :
    d.varHo solve d.qAlpha ts ta + d.covHo solve d.qPsi d.qAlpha ts tc
      = d.varFe solve d.qAlpha + d.covFe solve d.qPsi d.qAlpha := by
  rw [traceVar_mean hv hc hn] at ha
  rw [traceCov_mean hv] at hpa
  cases ha; cases hpa
  simp only [Panel.varHo, Panel.covHo]
  ring

/-! ## Approximate traces -/

variable {Ω : Type*} [MeasurableSpace Ω] {μ : Measure Ω}

/-- **C129**, approximate traces: on average over the probes the traces have the signs of `C129_direction`. -/
theorem C129_direction_probes (hv : d.Valid) (hc : d.Connected) (hs : d.GoodSolver solve) (hR : 0 < R)
    (z : Fin R → Ω → Fin m ⊕ Fin nw → ℝ) (hz : ∀ k, Noise μ (z k) fun _ => 1) :
    0 ≤ ∫ ω, Panel.meanDraws (fun k => d.drawTraceHo solve d.qPsi d.qPsi (halves (z k ω))) ∂μ ∧
    0 ≤ ∫ ω, Panel.meanDraws (fun k => d.drawTraceHo solve d.qAlpha d.qAlpha (halves (z k ω))) ∂μ ∧
    ∫ ω, Panel.meanDraws (fun k => d.drawTraceHo solve d.qPsi d.qAlpha (halves (z k ω))) ∂μ ≤ 0 := by
  have hstd := stdWeight_DpW hv
  refine ⟨?_, ?_, ?_⟩
  · rw [(C21_ho_draws hv hc hs d.qPsi d.qPsi hstd hstd hR z hz).2]
    exact Finset.sum_nonneg fun o _ => mul_nonneg (one_div_nonneg.mpr (hv.wpos o).le) (unitCov_self_nonneg hv _ rfl o)
  · rw [(C21_ho_draws hv hc hs d.qAlpha d.qAlpha hstd hstd hR z hz).2]
    exact Finset.sum_nonneg fun o _ => mul_nonneg (one_div_nonneg.mpr (hv.wpos o).le) (unitCov_self_nonneg hv _ rfl o)
  · rw [C21_ho_agrees hv hc hs d.qPsi d.qAlpha hstd hstd hR z hz (traceCov_mean hv)
      (by rintro ⟨⟨M, w, h⟩, -⟩; cases h)]
    linarith [meanTrace_nonneg hv hc hs]

theorem gamma_mult (d : Panel n m nw) (p : Fin m → ℝ) (a : Fin nw → ℝ) :
    d.qGamma.mult p a = fun o => 1 * d.qPsi.mult p a o + 1 * d.qAlpha.mult p a o := by
  funext o
  change (fromCols d.J d.W *ᵥ Sum.elim p a) o = 1 * (d.J *ᵥ p) o + 1 * (d.W *ᵥ a) o
  rw [fromCols_mulVec]; simp

theorem cov_add (x x' y y' : Fin n → ℝ) (w : Weight (Fin n)) :
    weightedCov (fun o => 1 * x o + 1 * x' o) (fun o => 1 * y o + 1 * y' o) w w 0
      = weightedCov x y w w 0 + weightedCov x' y' w w 0 + weightedCov x y' w w 0 + weightedCov x' y w w 0 := by
  rw [C02_cov_linear, C02_cov_symm x, C02_cov_linear, C02_cov_symm x', C02_cov_linear, C02_cov_symm y, C02_cov_symm y',
    C02_cov_symm y, C02_cov_symm y']
  ring

theorem meanDraws_add (f g : Fin R → ℝ) :
    Panel.meanDraws (fun k => f k + g k) = Panel.meanDraws f + Panel.meanDraws g := by
  simp only [Panel.meanDraws, Finset.sum_add_distrib, add_div]

/-- **C129**, homoskedastic, approximate traces: the corrected `var(psi + alpha)` is the sum of the corrected `var(psi)`,
`var(alpha)` and twice `cov(psi, alpha)`, up to the difference between two approximations of one trace. -/
theorem C129_adds_up_ho (hv : d.Valid) (z : Fin R → (Fin m → ℝ) × (Fin nw → ℝ)) (ts : ℝ) :
    let tr := fun ql qr => Panel.meanDraws fun k => d.drawTraceHo solve ql qr (z k)
    d.varHo solve d.qGamma ts (tr d.qGamma d.qGamma)
      = d.varHo solve d.qPsi ts (tr d.qPsi d.qPsi) + d.varHo solve d.qAlpha ts (tr d.qAlpha d.qAlpha)
        + 2 * d.covHo solve d.qPsi d.qAlpha ts (tr d.qPsi d.qAlpha)
        + d.sigma2ho solve ts * (tr d.qPsi d.qAlpha - tr d.qAlpha d.qPsi) := by
  intro tr
  have h1 : tr d.qGamma d.qGamma
      = tr d.qPsi d.qPsi + tr d.qAlpha d.qAlpha + tr d.qPsi d.qAlpha + tr d.qAlpha d.qPsi := by
    simp only [tr, ← meanDraws_add]
    congr 1
    funext k
    simp only [Panel.drawTraceHo, gamma_mult]
    exact cov_add _ _ _ _ _
  simp only [Panel.varHo, Panel.covHo, h1, (C23_identity solve hv).1]
  ring

/-- **C129**, heteroskedastic, approximate traces. -/
theorem C129_adds_up_he (hv : d.Valid) (Sii : Fin n → ℝ) (z : Fin R → (Fin m → ℝ) × (Fin nw → ℝ)) :
    let tr := fun ql qr => Panel.meanDraws fun k => d.drawTraceHe solve Sii ql qr (z k)
    d.varHe solve d.qGamma (tr d.qGamma d.qGamma)
      = d.varHe solve d.qPsi (tr d.qPsi d.qPsi) + d.varHe solve d.qAlpha (tr d.qAlpha d.qAlpha)
        + 2 * d.covHe solve d.qPsi d.qAlpha (tr d.qPsi d.qAlpha) + (tr d.qPsi d.qAlpha - tr d.qAlpha d.qPsi) := by
  intro tr
  have h1 : tr d.qGamma d.qGamma
      = tr d.qPsi d.qPsi + tr d.qAlpha d.qAlpha + tr d.qPsi d.qAlpha + tr d.qAlpha d.qPsi := by
    simp only [tr, ← meanDraws_add]
    congr 1
    funext k
    simp only [Panel.drawTraceHe, gamma_mult]
    exact cov_add _ _ _ _ _
  simp only [Panel.varHe, Panel.covHe, h1, (C23_identity solve hv).1]
  ring

/-- **C129**: the differences in `C129_adds_up_ho` and `C129_adds_up_he` average to zero over the probes. -/
theorem C129_adds_up_mean (hv : d.Valid) (hc : d.Connected) (hs : d.GoodSolver solve) (hR : 0 < R) (Sii : Fin n → ℝ)
    (z : Fin R → Ω → Fin m ⊕ Fin nw → ℝ) (hz : ∀ k, Noise μ (z k) fun _ => 1) :
    ∫ ω, (Panel.meanDraws (fun k => d.drawTraceHo solve d.qPsi d.qAlpha (halves (z k ω)))
        - Panel.meanDraws (fun k => d.drawTraceHo solve d.qAlpha d.qPsi (halves (z k ω)))) ∂μ = 0 ∧
    ∫ ω, (Panel.meanDraws (fun k => d.drawTraceHe solve Sii d.qPsi d.qAlpha (halves (z k ω)))
        - Panel.meanDraws (fun k => d.drawTraceHe solve Sii d.qAlpha d.qPsi (halves (z k ω)))) ∂μ = 0 := by
  have hstd := stdWeight_DpW hv
  obtain ⟨i1, e1⟩ := C21_ho_draws hv hc hs d.qPsi d.qAlpha hstd hstd hR z hz
  obtain ⟨i2, e2⟩ := C21_ho_draws hv hc hs d.qAlpha d.qPsi hstd hstd hR z hz
  obtain ⟨i3, e3⟩ := C21_he_draws hv hc hs Sii d.qPsi d.qAlpha hstd hstd hR z hz
  obtain ⟨i4, e4⟩ := C21_he_draws hv hc hs Sii d.qAlpha d.qPsi hstd hstd hR z hz
  have hsym : ∀ o, (d.withY (Pi.single o 1)).covFe solve d.qPsi d.qAlpha
      = (d.withY (Pi.single o 1)).covFe solve d.qAlpha d.qPsi := fun o => C02_cov_symm _ _ _ _ _
  constructor
  · rw [integral_sub i1 i2, e1, e2]; simp only [hsym, sub_self]
  · rw [integral_sub i3 i4, e3, e4]; simp only [hsym, sub_self]

/-! ## Examples -/

/-- Five rows: worker 0 at firms 0 and 1, worker 1 at firm 0 and twice at firm 1, with different outcomes. -/
def exAdd : Panel 5 1 2 := ⟨![0, 1, 0, 1, 1], ![0, 0, 1, 1, 1], ![0, 0, 0, 1, 0], false, ![1, 1, 1, 1, 1]⟩

theorem exAdd_valid : exAdd.Valid where
  wpos := by intro o; simp [Panel.Dp, exAdd]
  seen := by intro i; fin_cases i; exacts [⟨0, rfl⟩, ⟨2, rfl⟩]

theorem exAdd_connected : exAdd.Connected := by
  have h : ∀ a b : Fin 2, ∃ o o', exAdd.i o = exAdd.i o' ∧ exAdd.j o = a ∧ exAdd.j o' = b := by decide
  exact fun a b => .single (h a b)

theorem exAdd_Dw : exAdd.Dw = ![2, 3] := by
  have h0 : (Finset.univ.filter fun o => exAdd.i o = 0).card = 2 := by decide
  have h1 : (Finset.univ.filter fun o => exAdd.i o = 1).card = 3 := by decide
  have e : ∀ i, exAdd.Dw i = (Finset.univ.filter fun o => exAdd.i o = i).card := fun i => by
    simp [Panel.Dw, Panel.Dp, show exAdd.weighted = false from rfl]
  funext i
  fin_cases i
  · change exAdd.Dw 0 = 2; rw [e, h0]; norm_num
  · change exAdd.Dw 1 = 3; rw [e, h1]; norm_num

theorem exAdd_T : exAdd.DwinvWtDpJ = !![1 / 2; 2 / 3] := by
  have h0 : exAdd.Dwinv 0 = 1 / 2 := by rw [Panel.Dwinv_eq, exAdd_Dw]; rfl
  have h1 : exAdd.Dwinv 1 = 1 / 3 := by rw [Panel.Dwinv_eq, exAdd_Dw]; rfl
  have hT : exAdd.WtDpJ = !![1; 2] := by
    ext i k
    fin_cases i <;> fin_cases k <;>
    simp [Panel.WtDpJ, mul_apply, Fin.sum_univ_succ, Panel.W, Panel.DpJ, Panel.J, Panel.Jfull, exAdd, Panel.Dp]
    norm_num
  ext i k
  fin_cases i <;> fin_cases k
  · simp [Panel.DwinvWtDpJ, h0, hT]
  · simp [Panel.DwinvWtDpJ, h1, hT]; norm_num

/-- **C129**: with one draw the corrected components can fail to add up. -/
theorem C129_adds_up_fails : ∃ (z : (Fin 1 → ℝ) × (Fin 2 → ℝ)), (∀ k, z.1 k = 1 ∨ z.1 k = -1) ∧
    (∀ k, z.2 k = 1 ∨ z.2 k = -1) ∧ ∀ solve, exAdd.GoodSolver solve →
    let tr := fun ql qr => Panel.meanDraws fun _ : Fin 1 => exAdd.drawTraceHo solve ql qr z
    let ts := exAdd.exactTraceSigma2 exAdd.blocksFull
    exAdd.varHo solve exAdd.qGamma ts (tr exAdd.qGamma exAdd.qGamma)
      ≠ exAdd.varHo solve exAdd.qPsi ts (tr exAdd.qPsi exAdd.qPsi)
        + exAdd.varHo solve exAdd.qAlpha ts (tr exAdd.qAlpha exAdd.qAlpha)
        + 2 * exAdd.covHo solve exAdd.qPsi exAdd.qAlpha ts (tr exAdd.qPsi exAdd.qAlpha) := by
  refine ⟨(fun _ => 1, fun _ => 1), fun _ => .inl rfl, fun _ => .inl rfl, fun solve hs => ?_⟩
  intro tr ts
  have hadd := C129_adds_up_ho (solve := solve) exAdd_valid (fun _ : Fin 1 => ((fun _ => 1, fun _ => 1) : (Fin 1 → ℝ) × (Fin 2 → ℝ))) ts
  dsimp only at hadd
  rw [hadd]
  have hM : exAdd.Minv = !![7 / 6] := by
    rw [Panel.Minv, exAdd_T]
    ext i k
    fin_cases i; fin_cases k
    simp [Panel.WtDpJ, mul_apply, Fin.sum_univ_succ, Panel.W, Panel.DpJ, Panel.J, Panel.Jfull, exAdd, Panel.Dp]
    norm_num
  have hsol : ∀ b, solve b 0 = 6 / 7 * b 0 := by
    intro b
    have := congrFun (hs b ⟨fun _ => 6 / 7 * b 0, by
      funext k; fin_cases k; simp [hM, mulVec, dotProduct]; ring⟩) 0
    simp [hM, mulVec, dotProduct] at this
    linarith
  have hpsi : (exAdd.multAAinv solve (fun _ => 1, fun _ => 1)).1 = fun _ => -1 / 7 := by
    funext k; fin_cases k
    simp [Panel.multAAinv, hsol, exAdd_T, mulVec, dotProduct, Fin.sum_univ_succ]
    norm_num
  have hal : (exAdd.multAAinv solve (fun _ => 1, fun _ => 1)).2 = ![4 / 7, 3 / 7] := by
    funext k
    change exAdd.Dwinv k * 1 - (exAdd.DwinvWtDpJ *ᵥ (exAdd.multAAinv solve (fun _ => 1, fun _ => 1)).1) k = _
    rw [hpsi, Panel.Dwinv_eq, exAdd_Dw, exAdd_T]
    fin_cases k <;> simp [mulVec, dotProduct] <;> norm_num
  have hW : exAdd.DpW = .scalar 1 := rfl
  have h1 : tr exAdd.qPsi exAdd.qAlpha = -1 / 175 := by
    have e1 : exAdd.J *ᵥ (fun _ => 1) = ![0, 1, 0, 1, 1] := by
      funext o; rw [exAdd.J_mulVec]; fin_cases o <;> rfl
    have e2 : exAdd.W *ᵥ ![4 / 7, 3 / 7] = ![4 / 7, 4 / 7, 3 / 7, 3 / 7, 3 / 7] := by
      funext o; rw [exAdd.W_mulVec]; fin_cases o <;> rfl
    simp only [tr, Panel.meanDraws, Panel.drawTraceHo]
    change (∑ _k : Fin 1, weightedCov (exAdd.J *ᵥ _) (exAdd.W *ᵥ (exAdd.multAAinv solve _).2) exAdd.DpW exAdd.DpW 0) / _ = _
    rw [hal, e1, e2, hW]
    simp [weightedCov, weightedMean, Fin.sum_univ_succ]
    norm_num
  have h2 : tr exAdd.qAlpha exAdd.qPsi = 0 := by
    have e1 : exAdd.W *ᵥ (fun _ => 1) = fun _ => 1 := by funext o; rw [exAdd.W_mulVec]
    simp only [tr, Panel.meanDraws, Panel.drawTraceHo]
    change (∑ _k : Fin 1, weightedCov (exAdd.W *ᵥ _) (exAdd.J *ᵥ (exAdd.multAAinv solve _).1) exAdd.DpW exAdd.DpW 0) / _ = _
    rw [e1, hpsi, hW]
    simp [weightedCov, weightedMean]
  have hσ : exAdd.sigma2ho solve ts ≠ 0 := by
    have hE : exAdd.E solve 3 - exAdd.E solve 4 = 1 := by
      simp only [Panel.E, Panel.multA, Pi.add_apply, exAdd.J_mulVec, exAdd.W_mulVec]
      have y3 : exAdd.y 3 = 1 := rfl
      have y4 : exAdd.y 4 = 0 := rfl
      have i3 : exAdd.i 3 = exAdd.i 4 := rfl
      have j3 : exAdd.j 3 = exAdd.j 4 := rfl
      rw [y3, y4, i3, j3]; ring
    have hpos : 0 < ∑ o, exAdd.E solve o ^ 2 := by
      by_contra hcon
      have h0 : ∑ o, exAdd.E solve o ^ 2 = 0 := le_antisymm (not_lt.mp hcon) (Finset.sum_nonneg fun o _ => sq_nonneg _)
      have hz := (Finset.sum_eq_zero_iff_of_nonneg fun o _ => sq_nonneg _).mp h0
      have z3 := pow_eq_zero_iff (two_ne_zero) |>.mp (hz 3 (Finset.mem_univ _))
      have z4 := pow_eq_zero_iff (two_ne_zero) |>.mp (hz 4 (Finset.mem_univ _))
      rw [z3, z4] at hE
      norm_num at hE
    have hs2 : exAdd.sigma2fe solve = (∑ o, exAdd.E solve o ^ 2) / 5 := by
      rw [Panel.sigma2fe, hW]
      simp [weightedMean, Panel.Dp, show exAdd.weighted = false from rfl]
    rw [Panel.sigma2ho, if_neg (by decide), hs2]
    have : (0 : ℝ) < ∑ o, exAdd.E solve o ^ 2 := hpos
    norm_num
    exact this.ne'
  intro hcon
  have h3 : exAdd.sigma2ho solve ts * (tr exAdd.qPsi exAdd.qAlpha - tr exAdd.qAlpha exAdd.qPsi) = 0 := by
    have := hcon
    simp only [tr, ts] at this ⊢
    linarith
  rw [h1, h2] at h3
  rcases mul_eq_zero.mp h3 with h | h
  · exact hσ h
  · norm_num at h

/-- The hypotheses of the theorems above on a weighted panel. -/
example : ex.Valid ∧ ex.Connected ∧ (∃ s, ex.GoodSolver s) ∧ (∃ o, ex.computePii ex.blocksFull o < 1) ∧
    (∃ tp, Panel.exactTraceVarHo ex.blocksFull ex.qPsi = .ok tp) ∧
    (∃ ta, Panel.exactTraceVarHo ex.blocksFull ex.qAlpha = .ok ta) ∧
    ∃ tc, Panel.exactTraceCovHo ex.blocksFull ex.qPsi ex.qAlpha = .ok tc := by
  refine ⟨ex_valid, ex_connected, exists_goodSolver _, ?_, ⟨_, rfl⟩, ⟨_, rfl⟩, ⟨_, rfl⟩⟩
  by_contra hcon
  push Not at hcon
  have h1 := C17_sum_all_rows ex_valid ex_connected
  have h2 : ∑ _o : Fin 5, (1 : ℝ) ≤ ∑ o, ex.computePii ex.blocksFull o := Finset.sum_le_sum fun o _ => hcon o
  rw [h1] at h2
  norm_num at h2

/-- Probes as in `C129_direction_probes`, on the panel of `C129_adds_up_fails`. -/
example : exAdd.Valid ∧ exAdd.Connected ∧ (∃ s, exAdd.GoodSolver s) ∧
    ∃ (μ : Measure (Fin 1 ⊕ Fin 2 → Bool)) (z : (Fin 1 ⊕ Fin 2 → Bool) → Fin 1 ⊕ Fin 2 → ℝ), Noise μ z fun _ => 1 :=
  ⟨exAdd_valid, exAdd_connected, exists_goodSolver _, _, _, sign_noise _ fun _ => zero_le_one⟩

end Pytwoway.FE
