import Verif.FE.Props3

/-! # Random probes: approximate traces (C21) and approximate leverages (C22)

A random probe is a vector of mean-zero, unit-variance, uncorrelated entries, `Noise μ z 1`.  Uniform
`±1` entries, which the code draws, are the case proved in `sign_probe`. -/

namespace Pytwoway.FE

open Matrix Pytwoway.Util MeasureTheory
open scoped BigOperators
open Panel (QHalf)

variable {n m nw r R : ℕ} {d : Panel n m nw} {solve : (Fin m → ℝ) → (Fin m → ℝ)}
variable {Ω : Type*} [MeasurableSpace Ω] {μ : Measure Ω}

/-- The vector of signs drawn by `2 * rng.binomial(1, 0.5, n) - 1` is a probe. -/
theorem sign_probe (κ : Type) [Fintype κ] [DecidableEq κ] :
    Noise (PMF.uniformOfFintype (κ → Bool)).toMeasure (fun z o => sgn (z o)) (fun _ : κ => 1) := by
  have h := sign_noise (κ := κ) (fun _ => 1) (fun _ => by norm_num)
  simpa using h

/-! ## C21 -/

section C21

/-- The two halves of a stacked probe. -/
def halves (z : Fin m ⊕ Fin nw → ℝ) : (Fin m → ℝ) × (Fin nw → ℝ) := (z ∘ Sum.inl, z ∘ Sum.inr)

theorem elim_halves (z : Fin m ⊕ Fin nw → ℝ) : Sum.elim (halves z).1 (halves z).2 = z := by
  ext k; rcases k with k | k <;> rfl

theorem multAAinv_inv (hv : d.Valid) (hc : d.Connected) (hs : d.GoodSolver solve)
    (p : (Fin m → ℝ) × (Fin nw → ℝ)) :
    Sum.elim (d.multAAinv solve p).1 (d.multAAinv solve p).2 = (nmat d.X d.Dp)⁻¹ *ᵥ Sum.elim p.1 p.2 := by
  have hu := d.nmat_unit hv hc
  have hM := d.Minv_unit hv hu
  have h := d.multAAinv_spec hv solve p.1 p.2 (hs _ ⟨d.Minv⁻¹ *ᵥ (p.1 - d.DwinvWtDpJᵀ *ᵥ p.2), by
    rw [mulVec_mulVec, mul_nonsing_inv _ hM, one_mulVec]⟩)
  rw [← h, mulVec_mulVec, nonsing_inv_mul _ hu, one_mulVec]

theorem probe_form {κ : Type*} [Fintype κ] [DecidableEq κ]
    {z : Ω → κ → ℝ} (h : Noise μ z (fun _ => 1)) (K : Matrix κ κ ℝ) :
    Integrable (fun ω => z ω ⬝ᵥ (K *ᵥ z ω)) μ ∧ ∫ ω, z ω ⬝ᵥ (K *ᵥ z ω) ∂μ = K.trace := by
  have := h.integral_form K 0
  simpa [trace] using this

theorem drawTraceHo_form (hv : d.Valid) (hc : d.Connected) (hs : d.GoodSolver solve) (ql qr : QHalf r m nw)
    (hl : StdWeight ql.wt) (hr : StdWeight qr.wt) (z : Fin m ⊕ Fin nw → ℝ) :
    d.drawTraceHo solve ql qr (halves z)
      = z ⬝ᵥ ((ql.matᵀ * kmat (Panel.wvec ql.wt) (Panel.wvec qr.wt) * qr.mat * (nmat d.X d.Dp)⁻¹) *ᵥ z) := by
  rw [Panel.drawTraceHo, weightedCov_kmat _ _ hl hr, QHalf.mult_eq, QHalf.mult_eq, elim_halves,
    multAAinv_inv hv hc hs, elim_halves, mulVec_mulVec z qr.mat, form_assoc, ← Matrix.mul_assoc _ qr.mat]

/-- `multA` / `multAT` with weights on the stacked vector. -/
theorem multA_yes (p : (Fin m → ℝ) × (Fin nw → ℝ)) :
    d.multA p.1 p.2 .yes = (diagonal d.Dp * d.X) *ᵥ Sum.elim p.1 p.2 := by
  rw [Panel.multA, Panel.X, ← mulVec_mulVec, fromCols_mulVec, mulVec_add, mulVec_mulVec, mulVec_mulVec,
    d.DpJ_eq, d.DpWm_eq]
  rfl

theorem multA_no (p : (Fin m → ℝ) × (Fin nw → ℝ)) :
    d.multA p.1 p.2 .no = d.X *ᵥ Sum.elim p.1 p.2 := by
  rw [Panel.multA, Panel.X, fromCols_mulVec]
  rfl

theorem multA_sqrt (p : (Fin m → ℝ) × (Fin nw → ℝ)) :
    d.multA p.1 p.2 .sqrt = (diagonal (fun o => Real.sqrt (d.Dp o)) * d.X) *ᵥ Sum.elim p.1 p.2 := by
  rw [Panel.multA, Panel.X, ← mulVec_mulVec, fromCols_mulVec, mulVec_add, mulVec_mulVec, mulVec_mulVec,
    d.sqrtDpJ_eq, d.sqrtDpW_eq]
  rfl

theorem multAT_yes (v : Fin n → ℝ) :
    Sum.elim (d.multAT v .yes).1 (d.multAT v .yes).2 = (diagonal d.Dp * d.X)ᵀ *ᵥ v := by
  rw [Panel.X, mul_fromCols, transpose_fromCols, fromRows_mulVec, ← d.DpJ_eq, ← d.DpWm_eq]
  rfl

theorem multAT_no (v : Fin n → ℝ) :
    Sum.elim (d.multAT v .no).1 (d.multAT v .no).2 = d.Xᵀ *ᵥ v := by
  rw [Panel.X, transpose_fromCols, fromRows_mulVec]
  rfl

theorem multAT_sqrt (v : Fin n → ℝ) :
    Sum.elim (d.multAT v .sqrt).1 (d.multAT v .sqrt).2
      = (diagonal (fun o => Real.sqrt (d.Dp o)) * d.X)ᵀ *ᵥ v := by
  rw [Panel.X, mul_fromCols, transpose_fromCols, fromRows_mulVec, ← d.sqrtDpJ_eq, ← d.sqrtDpW_eq]
  rfl

theorem drawTraceHe_form (hv : d.Valid) (hc : d.Connected) (hs : d.GoodSolver solve) (Sii : Fin n → ℝ)
    (ql qr : QHalf r m nw) (hl : StdWeight ql.wt) (hr : StdWeight qr.wt) (z : Fin m ⊕ Fin nw → ℝ) :
    d.drawTraceHe solve Sii ql qr (halves z)
      = z ⬝ᵥ ((ql.matᵀ * kmat (Panel.wvec ql.wt) (Panel.wvec qr.wt) * qr.mat
          * (d.lmat * diagonal Sii * d.lmatᵀ)) *ᵥ z) := by
  have hsii : ∀ v : Fin n → ℝ, (fun o => Sii o * v o) = diagonal Sii *ᵥ v := fun v => by
    ext o; rw [mulVec_diagonal]
  rw [Panel.drawTraceHe, weightedCov_kmat _ _ hl hr, QHalf.mult_eq, QHalf.mult_eq, elim_halves]
  rw [multAAinv_inv hv hc hs, multAT_yes, hsii, multA_yes, multAAinv_inv hv hc hs, elim_halves,
    mulVec_mulVec z, mulVec_mulVec z, mulVec_mulVec z, mulVec_mulVec z, mulVec_mulVec z qr.mat, form_assoc]
  have hL : d.lmat * diagonal Sii * d.lmatᵀ
      = (nmat d.X d.Dp)⁻¹ * (diagonal d.Dp * d.X)ᵀ * diagonal Sii
        * (diagonal d.Dp * d.X * (nmat d.X d.Dp)⁻¹) := by
    rw [Panel.lmat]
    simp only [transpose_mul, diagonal_transpose, transpose_transpose, nmat_inv_symm, Matrix.mul_assoc]
  rw [hL]
  simp only [Matrix.mul_assoc]

theorem unitCov_trace_he (hv : d.Valid) (hc : d.Connected) (hs : d.GoodSolver solve) (ql qr : QHalf r m nw)
    (hl : StdWeight ql.wt) (hr : StdWeight qr.wt) (Sii : Fin n → ℝ) :
    ∑ o, Sii o * d.unitCov solve ql qr o
      = (ql.matᵀ * kmat (Panel.wvec ql.wt) (Panel.wvec qr.wt) * qr.mat
          * (d.lmat * diagonal Sii * d.lmatᵀ)).trace := by
  rw [← Matrix.mul_assoc, trace_mul_comm, ← Matrix.mul_assoc, ← Matrix.mul_assoc]
  refine Finset.sum_congr rfl fun o _ => ?_
  rw [unitCov_eq hv hc hs ql qr hl hr, diag_apply, mul_diagonal, bmat, mul_comm]

theorem mean_of_draws {f : Fin R → Ω → ℝ} {t : ℝ} (hR : 0 < R)
    (h : ∀ k, Integrable (f k) μ ∧ ∫ ω, f k ω ∂μ = t) :
    Integrable (fun ω => Panel.meanDraws fun k => f k ω) μ ∧
    ∫ ω, Panel.meanDraws (fun k => f k ω) ∂μ = t := by
  have hi : Integrable (fun ω => ∑ k, f k ω) μ := integrable_finsetSum _ fun k _ => (h k).1
  refine ⟨hi.div_const _, ?_⟩
  simp only [Panel.meanDraws]
  rw [integral_div, integral_finsetSum _ fun k _ => (h k).1]
  simp only [(h _).2, Finset.sum_const, Finset.card_univ, Fintype.card_fin, nsmul_eq_mul]
  have : (R : ℝ) ≠ 0 := by exact_mod_cast hR.ne'
  field_simp

/-- C21, homoskedastic correction: for any number of draws and every pair of components, the approximate
trace averages to the sum over observations of (1 / weight) times the component estimated from a unit
change in that observation's outcome. -/
theorem C21_ho_draws (hv : d.Valid) (hc : d.Connected) (hs : d.GoodSolver solve) (ql qr : QHalf r m nw)
    (hl : StdWeight ql.wt) (hr : StdWeight qr.wt) (hR : 0 < R)
    (z : Fin R → Ω → Fin m ⊕ Fin nw → ℝ) (hz : ∀ k, Noise μ (z k) fun _ => 1) :
    Integrable (fun ω => Panel.meanDraws fun k => d.drawTraceHo solve ql qr (halves (z k ω))) μ ∧
    ∫ ω, Panel.meanDraws (fun k => d.drawTraceHo solve ql qr (halves (z k ω))) ∂μ
      = ∑ o, 1 / d.Dp o * (d.withY (Pi.single o 1)).covFe solve ql qr := by
  apply mean_of_draws hR
  intro k
  simp only [drawTraceHo_form hv hc hs ql qr hl hr]
  have := probe_form (hz k)
    (ql.matᵀ * kmat (Panel.wvec ql.wt) (Panel.wvec qr.wt) * qr.mat * (nmat d.X d.Dp)⁻¹)
  rw [← unitCov_trace hv hc hs ql qr hl hr] at this
  exact this

/-- C21: where the analytical homoskedastic trace is right, the approximation averages to it. -/
theorem C21_ho_agrees (hv : d.Valid) (hc : d.Connected) (hs : d.GoodSolver solve) (ql qr : QHalf r m nw)
    (hl : StdWeight ql.wt) (hr : StdWeight qr.wt) (hR : 0 < R)
    (z : Fin R → Ω → Fin m ⊕ Fin nw → ℝ) (hz : ∀ k, Noise μ (z k) fun _ => 1) {tr : ℝ}
    (htr : Panel.exactTraceCovHo d.blocksFull ql qr = .ok tr)
    (hblock : ¬ ((∃ M w, ql = .alpha M w) ∧ ∃ M w, qr = .alpha M w)) :
    ∫ ω, Panel.meanDraws (fun k => d.drawTraceHo solve ql qr (halves (z k ω))) ∂μ = tr := by
  rw [(C21_ho_draws hv hc hs ql qr hl hr hR z hz).2, exactTraceHo_correct hv hc hs ql qr hl hr htr hblock]
  rfl

/-- C21, heteroskedastic correction: the approximate trace averages to the sum over observations of its
variance estimate times the component estimated from a unit change in its outcome. -/
theorem C21_he_draws (hv : d.Valid) (hc : d.Connected) (hs : d.GoodSolver solve) (Sii : Fin n → ℝ)
    (ql qr : QHalf r m nw) (hl : StdWeight ql.wt) (hr : StdWeight qr.wt) (hR : 0 < R)
    (z : Fin R → Ω → Fin m ⊕ Fin nw → ℝ) (hz : ∀ k, Noise μ (z k) fun _ => 1) :
    Integrable (fun ω => Panel.meanDraws fun k => d.drawTraceHe solve Sii ql qr (halves (z k ω))) μ ∧
    ∫ ω, Panel.meanDraws (fun k => d.drawTraceHe solve Sii ql qr (halves (z k ω))) ∂μ
      = ∑ o, Sii o * (d.withY (Pi.single o 1)).covFe solve ql qr := by
  apply mean_of_draws hR
  intro k
  simp only [drawTraceHe_form hv hc hs Sii ql qr hl hr]
  have := probe_form (hz k)
    (ql.matᵀ * kmat (Panel.wvec ql.wt) (Panel.wvec qr.wt) * qr.mat * (d.lmat * diagonal Sii * d.lmatᵀ))
  rw [← unitCov_trace_he hv hc hs ql qr hl hr] at this
  exact this

theorem sigma2Apply_eq (hv : d.Valid) (hc : d.Connected) (hs : d.GoodSolver solve) (v : Fin n → ℝ) :
    d.sigma2Apply solve v = (d.X * (nmat d.X d.Dp)⁻¹ * d.Xᵀ) *ᵥ v := by
  rw [Panel.sigma2Apply]
  rw [multA_no, Panel.solveLS, multAAinv_inv hv hc hs, multAT_no, mulVec_mulVec, mulVec_mulVec]

theorem gmat_trace (hv : d.Valid) (hc : d.Connected) :
    (d.X * (nmat d.X d.Dp)⁻¹ * d.Xᵀ).trace = d.exactTraceSigma2 d.blocksFull := by
  rw [exactTraceSigma2_eq hv hc, trace]
  refine Finset.sum_congr rfl fun o _ => ?_
  rw [hat_apply, mul_div_assoc, div_self (hv.wpos o).ne', mul_one]
  rfl

/-- C21, `tr_method_sigma_2='hutchinson'`: the approximate trace for the error variance averages to the
analytical one. -/
theorem C21_sigma2_hutchinson (hv : d.Valid) (hc : d.Connected) (hs : d.GoodSolver solve) (hR : 0 < R)
    (z : Fin R → Ω → Fin n → ℝ) (hz : ∀ k, Noise μ (z k) fun _ => 1) :
    Integrable (fun ω => Panel.meanDraws fun k => d.drawTraceSigma2 solve (z k ω)) μ ∧
    ∫ ω, Panel.meanDraws (fun k => d.drawTraceSigma2 solve (z k ω)) ∂μ
      = d.exactTraceSigma2 d.blocksFull := by
  apply mean_of_draws hR
  intro k
  simp only [Panel.drawTraceSigma2, sigma2Apply_eq hv hc hs]
  have := probe_form (hz k) (d.X * (nmat d.X d.Dp)⁻¹ * d.Xᵀ)
  rwa [gmat_trace hv hc] at this

/-- C21, `tr_method_sigma_2='hutch++'`: whatever orthonormal `Q` the first stage produced, the estimate
averages over the second set of probes to the analytical trace. -/
theorem C21_sigma2_hutchPP (hv : d.Valid) (hc : d.Connected) (hs : d.GoodSolver solve) (hR : 0 < R)
    (hn : R ≤ n) (Q : Matrix (Fin n) (Fin R) ℝ) (hQ : Qᵀ * Q = 1) (Z : Ω → Matrix (Fin n) (Fin R) ℝ)
    (hZ : ∀ k, Noise μ (fun ω o => Z ω o k) fun _ => 1) :
    ∃ f : Ω → ℝ, (∀ ω, d.hutchPP solve Q (Z ω) = some (f ω)) ∧ Integrable f μ ∧
      ∫ ω, f ω ∂μ = d.exactTraceSigma2 d.blocksFull := by
  set A := d.X * (nmat d.X d.Dp)⁻¹ * d.Xᵀ with hA
  set P : Matrix (Fin n) (Fin n) ℝ := 1 - Q * Qᵀ with hP
  have hPt : Pᵀ = P := by rw [hP]; simp
  have hPP : P * P = P := by
    have hq : Q * Qᵀ * (Q * Qᵀ) = Q * Qᵀ := by
      rw [Matrix.mul_assoc, ← Matrix.mul_assoc Qᵀ, hQ, Matrix.one_mul]
    rw [hP, Matrix.mul_sub, Matrix.mul_one, Matrix.sub_mul, Matrix.one_mul, hq, sub_self, sub_zero]
  refine ⟨fun ω => (∑ k, (Qᵀ * (A * Q)) k k)
    + Panel.meanDraws (fun k => (fun o => Z ω o k) ⬝ᵥ ((P * A * P) *ᵥ fun o => Z ω o k)), fun ω => ?_, ?_⟩
  · have hcol : ∀ M : Matrix (Fin n) (Fin R) ℝ,
        (of fun o k => d.sigma2Apply solve (fun b => M b k) o) = A * M := by
      intro M; ext o k
      rw [of_apply, sigma2Apply_eq hv hc hs]; rfl
    rw [Panel.hutchPP, if_pos hn]
    simp only [hcol, C05_diag_of_prod, Panel.meanDraws]
    congr 2
    rw [one_div_mul_eq_div]
    congr 1
    refine Finset.sum_congr rfl fun k _ => ?_
    have hG : Z ω - Q * (Qᵀ * Z ω) = P * Z ω := by
      rw [hP, Matrix.sub_mul, Matrix.one_mul, Matrix.mul_assoc]
    rw [hG, transpose_mul, hPt]
    have : (Z ω)ᵀ * P * (A * (P * Z ω)) = (Z ω)ᵀ * ((P * A * P) * Z ω) := by simp only [Matrix.mul_assoc]
    rw [this, mul_apply]
    rfl
  · have key := mean_of_draws (μ := μ) (R := R) hR fun k => probe_form (hZ k) (P * A * P)
    have := (hZ ⟨0, hR⟩).prob
    refine ⟨(integrable_const _).add key.1, ?_⟩
    rw [integral_add (integrable_const _) key.1, key.2, integral_const, probReal_univ, one_smul]
    change (Qᵀ * (A * Q)).trace + (P * A * P).trace = _
    rw [← gmat_trace hv hc, trace_mul_comm (P * A) P, ← Matrix.mul_assoc P, hPP, trace_mul_comm Qᵀ,
      Matrix.mul_assoc A, trace_mul_comm A, ← trace_add, ← Matrix.add_mul, hP, add_sub_cancel, Matrix.one_mul]

/-- With more draws than observations `'hutch++'` fails. -/
theorem C21_sigma2_hutchPP_refused (Q Z : Matrix (Fin n) (Fin R) ℝ) (hR : n < R) :
    d.hutchPP solve Q Z = none := by
  rw [Panel.hutchPP, if_neg (by omega)]

variable {eps : Ω → Fin n → ℝ} {Ω' : Type*} [MeasurableSpace Ω'] {ν : Measure Ω'}

/-- C19 with approximate traces: averaging over the errors and over the probes, the HO-corrected estimate
of every pair of components, worker effects and stacked effects included, is the true one. -/
theorem C21_ho_corrected (hv : d.Valid) (hc : d.Connected) (hs : d.GoodSolver solve) {σ2 : ℝ}
    (h : Noise μ eps fun o => σ2 / d.Dp o) (psi : Fin (m + 1) → ℝ) (alpha : Fin nw → ℝ)
    (hdf : ∃ o, d.computePii d.blocksFull o < 1) (ql qr : QHalf r m nw) (hl : StdWeight ql.wt)
    (hr : StdWeight qr.wt) (hR : 0 < R) (z : Fin R → Ω' → Fin m ⊕ Fin nw → ℝ)
    (hz : ∀ k, Noise ν (z k) fun _ => 1) :
    ∫ ω, (∫ ω', (d.obs psi alpha (eps ω)).covHo solve ql qr (d.exactTraceSigma2 d.blocksFull)
        (Panel.meanDraws fun k => d.drawTraceHo solve ql qr (halves (z k ω'))) ∂ν) ∂μ
      = weightedCov (ql.mult (relPsi psi) (relAlpha psi alpha)) (qr.mult (relPsi psi) (relAlpha psi alpha))
          ql.wt qr.wt 0 := by
  obtain ⟨i0, e0⟩ := C21_ho_draws hv hc hs ql qr hl hr hR z hz
  have := (hz ⟨0, hR⟩).prob
  simp only [Panel.covHo]
  have hin : ∀ ω, ∫ ω', ((d.obs psi alpha (eps ω)).covFe solve ql qr
        - (d.obs psi alpha (eps ω)).sigma2ho solve (d.exactTraceSigma2 d.blocksFull)
          * (Panel.meanDraws fun k => d.drawTraceHo solve ql qr (halves (z k ω')))) ∂ν
      = (d.obs psi alpha (eps ω)).covFe solve ql qr
        - (d.obs psi alpha (eps ω)).sigma2ho solve (d.exactTraceSigma2 d.blocksFull)
          * ∑ o, 1 / d.Dp o * (d.withY (Pi.single o 1)).covFe solve ql qr := by
    intro ω
    rw [integral_sub (integrable_const _) (i0.const_mul _), integral_const_mul, e0, integral_const,
      probReal_univ, one_smul]
  simp only [hin]
  obtain ⟨i1, e1⟩ := plugin_expectation hv hc hs h psi alpha ql qr hl hr
  obtain ⟨i2, e2⟩ := C19_sigma2_unbiased hv hc hs h psi alpha hdf
  rw [integral_sub i1 (i2.mul_const _), e1, integral_mul_const, e2, Finset.mul_sum]
  have : ∀ o, σ2 / d.Dp o * d.unitCov solve ql qr o
      = σ2 * (1 / d.Dp o * (d.withY (Pi.single o 1)).covFe solve ql qr) := fun o => by
    change σ2 / d.Dp o * (d.withY (Pi.single o 1)).covFe solve ql qr = _
    ring
  simp only [this]
  ring

/-- C20 (partial) with approximate traces: error variances inversely proportional to weights, every worker
a mover. -/
theorem C20_probe_partial (hv : d.Valid) (hc : d.Connected) (hs : d.GoodSolver solve) {σ2 : ℝ}
    (h : Noise μ eps fun o => σ2 / d.Dp o) (psi : Fin (m + 1) → ℝ) (alpha : Fin nw → ℝ)
    (hP : ∀ o, d.computePii d.blocksFull o ≠ 1) (st : Panel.Stayers) (hm : ∀ o, d.workerM o)
    (Sii : Ω → Fin n → ℝ)
    (hS : ∀ ω o, (d.obs psi alpha (eps ω)).siiHe solve st d.exactPii o = some (Sii ω o))
    (ql qr : QHalf r m nw) (hl : StdWeight ql.wt) (hr : StdWeight qr.wt) (hR : 0 < R)
    (z : Fin R → Ω' → Fin m ⊕ Fin nw → ℝ) (hz : ∀ k, Noise ν (z k) fun _ => 1) :
    ∫ ω, (∫ ω', (d.obs psi alpha (eps ω)).covHe solve ql qr
        (Panel.meanDraws fun k => d.drawTraceHe solve (Sii ω) ql qr (halves (z k ω'))) ∂ν) ∂μ
      = weightedCov (ql.mult (relPsi psi) (relAlpha psi alpha)) (qr.mult (relPsi psi) (relAlpha psi alpha))
          ql.wt qr.wt 0 := by
  have := (hz ⟨0, hR⟩).prob
  rw [← C20_right_trace_partial hv hc hs h psi alpha hP st hm Sii hS ql qr hl hr]
  congr 1
  ext ω
  obtain ⟨i0, e0⟩ := C21_he_draws hv hc hs (Sii ω) ql qr hl hr hR z hz
  simp only [Panel.covHe]
  rw [integral_sub (integrable_const _) i0, e0, integral_const, probReal_univ, one_smul]

/-- The probe hypotheses are met by the signs the code draws. -/
example : ∀ R > 0, ∃ (Ω : Type) (_ : MeasurableSpace Ω) (μ : Measure Ω) (z : Fin R → Ω → Fin 1 ⊕ Fin 2 → ℝ),
    (∀ k, Noise μ (z k) fun _ => 1) ∧
    ∫ ω, Panel.meanDraws (fun k => ex20.drawTraceHo (exists_goodSolver ex20).choose ex20.qAlpha ex20.qAlpha
        (halves (z k ω))) ∂μ
      = ∑ o, 1 / ex20.Dp o * (ex20.withY (Pi.single o 1)).covFe (exists_goodSolver ex20).choose
          ex20.qAlpha ex20.qAlpha := fun R hR =>
  ⟨_, _, _, fun _ => _, fun _ => sign_probe (Fin 1 ⊕ Fin 2),
    (C21_ho_draws ex20_valid ex20_connected (exists_goodSolver ex20).choose_spec ex20.qAlpha ex20.qAlpha
      (stdWeight_DpW ex20_valid) (stdWeight_DpW ex20_valid) hR _ fun _ => sign_probe _).2⟩

/-- Orthonormal columns exist (`hutch++`, two draws, five observations). -/
example : ∃ Q : Matrix (Fin 5) (Fin 2) ℝ, Qᵀ * Q = 1 :=
  ⟨of fun o k => if o.val = k.val then 1 else 0, by
    ext a b; fin_cases a <;> fin_cases b <;> simp [mul_apply, Fin.sum_univ_succ]⟩

end C21

/-! ## C22 -/

section C22

theorem foldl_add_eq_sum {α : Type*} (f : α → ℝ) (l : List α) (a : ℝ) :
    l.foldl (fun acc x => acc + f x) a = a + (l.map f).sum := by
  induction l generalizing a with
  | nil => simp
  | cons x l ih => simp [ih, add_assoc]

/-- Each field of `_leverage_approx` is an average over the draws. -/
theorem levAvg_fields (draws : List (Fin n → ℝ)) :
    let q := fun R2 => d.proj solve R2 .sqrt .sqrt
    let v := d.leverageApprox solve draws
    (∀ o, v.Pii o = (draws.map fun z => q z o ^ 2).sum / draws.length) ∧
    (∀ o, v.PiiSq o = (draws.map fun z => (q z o ^ 2) ^ 2).sum / draws.length) ∧
    (∀ o, v.Mii o = (draws.map fun z => (z o - q z o) ^ 2).sum / draws.length) ∧
    (∀ o, v.MiiSq o = (draws.map fun z => ((z o - q z o) ^ 2) ^ 2).sum / draws.length) ∧
    (∀ o, v.PiiMii o = (draws.map fun z => q z o ^ 2 * (z o - q z o) ^ 2).sum / draws.length) := by
  refine ⟨?_, ?_, ?_, ?_, ?_⟩ <;> intro o <;> simp only [Panel.leverageApprox, foldl_add_eq_sum, zero_add]

theorem avg_batches (f : (Fin n → ℝ) → ℝ) (b : ℕ) (batches : List (List (Fin n → ℝ)))
    (hb : ∀ l ∈ batches, l.length = b) :
    (batches.map fun l => (l.map f).sum / (l.length : ℝ)).sum / (batches.length : ℝ)
      = (batches.flatten.map f).sum / (batches.flatten.length : ℝ) := by
  have hlen : batches.flatten.length = batches.length * b := by
    induction batches with
    | nil => simp
    | cons l ls ih =>
      rw [List.flatten_cons, List.length_append, ih fun x hx => hb x (List.mem_cons_of_mem _ hx),
        hb l List.mem_cons_self, List.length_cons]
      ring
  have hsum : (batches.map fun l => (l.map f).sum / (l.length : ℝ)).sum = (batches.flatten.map f).sum / b := by
    clear hlen
    induction batches with
    | nil => simp
    | cons l ls ih =>
      rw [List.map_cons, List.sum_cons, ih fun x hx => hb x (List.mem_cons_of_mem _ hx),
        hb l List.mem_cons_self, List.flatten_cons, List.map_append, List.sum_append]
      ring
  rw [hsum, hlen, div_div]
  push_cast
  rw [mul_comm]

/-- C22: splitting the same draws into equal batches over any number of cores gives the same averages as
one pass over all of them. -/
theorem C22_batching (b : ℕ) (batches : List (List (Fin n → ℝ))) (hb : ∀ l ∈ batches, l.length = b) :
    Panel.combineCores (batches.map (d.leverageApprox solve)) = d.leverageApprox solve batches.flatten := by
  have f := fun draws => levAvg_fields (d := d) (solve := solve) draws
  rw [Panel.combineCores]
  have ext5 : ∀ v w : Panel.LevAvg n, v.Pii = w.Pii → v.PiiSq = w.PiiSq → v.Mii = w.Mii → v.MiiSq = w.MiiSq →
      v.PiiMii = w.PiiMii → v = w := by
    rintro ⟨⟩ ⟨⟩ rfl rfl rfl rfl rfl; rfl
  apply ext5 <;> ext o <;> simp only [List.map_map, List.length_map, Function.comp_def]
  · simp only [(f _).1, avg_batches _ b batches hb]
  · simp only [(f _).2.1, avg_batches _ b batches hb]
  · simp only [(f _).2.2.1, avg_batches _ b batches hb]
  · simp only [(f _).2.2.2.1, avg_batches _ b batches hb]
  · simp only [(f _).2.2.2.2, avg_batches _ b batches hb]

theorem lev_pos (draws : List (Fin n → ℝ)) (hne : draws ≠ []) (hsgn : ∀ z ∈ draws, ∀ o, z o = 1 ∨ z o = -1)
    (o : Fin n) :
    0 ≤ (d.leverageApprox solve draws).Pii o ∧ 0 ≤ (d.leverageApprox solve draws).Mii o ∧
    0 < (d.leverageApprox solve draws).Pii o + (d.leverageApprox solve draws).Mii o := by
  obtain ⟨h1, -, h3, -, -⟩ := levAvg_fields (d := d) (solve := solve) draws
  have hlen : (0 : ℝ) < draws.length := by exact_mod_cast List.length_pos_iff.mpr hne
  rw [h1, h3]
  refine ⟨div_nonneg (List.sum_nonneg ?_) hlen.le, div_nonneg (List.sum_nonneg ?_) hlen.le, ?_⟩
  · intro x hx; obtain ⟨z, -, rfl⟩ := List.mem_map.mp hx; exact sq_nonneg _
  · intro x hx; obtain ⟨z, -, rfl⟩ := List.mem_map.mp hx; exact sq_nonneg _
  · rw [← add_div]
    refine div_pos ?_ hlen
    rw [← List.sum_map_add]
    apply List.sum_pos
    · intro x hx
      obtain ⟨z, hz, rfl⟩ := List.mem_map.mp hx
      rcases hsgn z hz o with h | h <;> rw [h] <;>
        nlinarith [sq_nonneg (d.proj solve z .sqrt .sqrt o), sq_nonneg (1 - d.proj solve z .sqrt .sqrt o),
          sq_nonneg (2 * d.proj solve z .sqrt .sqrt o - 1), sq_nonneg (2 * d.proj solve z .sqrt .sqrt o + 1)]
    · simpa using hne

/-- C22: for sign draws the normalisation never divides by zero; a normalised leverage lies in `[0, 1]`
and together with the normalised `1 - leverage` sums to one. -/
theorem C22_range (draws : List (Fin n → ℝ)) (hne : draws ≠ [])
    (hsgn : ∀ z ∈ draws, ∀ o, z o = 1 ∨ z o = -1) (st : Panel.Stayers) (o : Fin n)
    (hnorm : (d.weighted = false ∧ st = .upperBound) ∨ d.workerM o) :
    let v := d.leverageApprox solve draws
    v.Pii o + v.Mii o ≠ 0 ∧ d.normPii st v o = v.Pii o / (v.Pii o + v.Mii o) ∧
    0 ≤ d.normPii st v o ∧ d.normPii st v o ≤ 1 ∧
    d.normPii st v o + v.Mii o / (v.Pii o + v.Mii o) = 1 := by
  intro v
  obtain ⟨hP, hM, hPM⟩ := lev_pos (d := d) (solve := solve) draws hne hsgn o
  have hn : d.normPii st v o = v.Pii o / (v.Pii o + v.Mii o) := by
    unfold Panel.normPii
    rcases hnorm with ⟨h1, h2⟩ | h
    · simp only [h1, h2]
    · cases d.weighted <;> cases st <;> simp only [h, if_true]
  refine ⟨hPM.ne', hn, ?_, ?_, ?_⟩
  · rw [hn]; exact div_nonneg hP hPM.le
  · rw [hn, div_le_one hPM]; linarith
  · rw [hn, ← add_div, div_self hPM.ne']

/-- The stayers' entries are not normalised when only movers' leverages are used. -/
theorem C22_stayers_raw (st : Panel.Stayers) (v : Panel.LevAvg n) (o : Fin n)
    (h : ¬ (d.weighted = false ∧ st = .upperBound)) (hm : ¬ d.workerM o) : d.normPii st v o = v.Pii o := by
  unfold Panel.normPii
  cases hw : d.weighted <;> cases st <;> simp only [hm, if_false]
  exact absurd ⟨hw, rfl⟩ h

/-- `sqrt(D) X (X'DX)⁻¹ X' sqrt(D)`. -/
noncomputable def smat (d : Panel n m nw) : Matrix (Fin n) (Fin n) ℝ :=
  of fun a b => Real.sqrt (d.Dp a) * (d.X * (nmat d.X d.Dp)⁻¹ * d.Xᵀ) a b * Real.sqrt (d.Dp b)

theorem proj_sqrt (hv : d.Valid) (hc : d.Connected) (hs : d.GoodSolver solve) (v : Fin n → ℝ) :
    d.proj solve v .sqrt .sqrt = smat d *ᵥ v := by
  have hS : smat d = diagonal (fun o => Real.sqrt (d.Dp o)) * (d.X * (nmat d.X d.Dp)⁻¹ * d.Xᵀ)
      * diagonal (fun o => Real.sqrt (d.Dp o)) := by
    ext a b; rw [mul_diagonal, diagonal_mul]; rfl
  rw [Panel.proj, multA_sqrt, Panel.solveLS, multAAinv_inv hv hc hs, multAT_sqrt, mulVec_mulVec, mulVec_mulVec, hS]
  simp only [transpose_mul, diagonal_transpose, Matrix.mul_assoc]

theorem smat_diag (hv : d.Valid) (o : Fin n) : smat d o o = hat d.X d.Dp o o := by
  have h : smat d o o = Real.sqrt (d.Dp o) * Real.sqrt (d.Dp o) * (d.X * (nmat d.X d.Dp)⁻¹ * d.Xᵀ) o o := by
    rw [smat, of_apply]; ring
  rw [h, Real.mul_self_sqrt (hv.wpos o).le, hat_apply, mul_comm]

theorem smat_sq (hv : d.Valid) (hc : d.Connected) (o : Fin n) : ∑ b, smat d o b ^ 2 = hat d.X d.Dp o o := by
  conv_rhs => rw [← hat_idem d.X d.Dp (d.nmat_unit hv hc), mul_apply]
  refine Finset.sum_congr rfl fun b _ => ?_
  rw [hat_apply, hat_apply, gmat_symm d.X d.Dp b o, smat, of_apply, mul_pow, mul_pow,
    Real.sq_sqrt (hv.wpos o).le, Real.sq_sqrt (hv.wpos b).le]
  ring

/-- C22: the averages of `P` and `M` over the draws have expectations the leverage and one minus the
leverage. -/
theorem C22_expectation (hv : d.Valid) (hc : d.Connected) (hs : d.GoodSolver solve) (hR : 0 < R)
    (z : Fin R → Ω → Fin n → ℝ) (hz : ∀ k, Noise μ (z k) fun _ => 1) (o : Fin n) :
    ∫ ω, (d.leverageApprox solve (List.ofFn fun k => z k ω)).Pii o ∂μ = d.computePii d.blocksFull o ∧
    ∫ ω, (d.leverageApprox solve (List.ofFn fun k => z k ω)).Mii o ∂μ = 1 - d.computePii d.blocksFull o := by
  have f := fun draws => levAvg_fields (d := d) (solve := solve) draws
  have hmean : ∀ (g : (Fin n → ℝ) → ℝ) ω, ((List.ofFn fun k => z k ω).map g).sum
      / ((List.ofFn fun k => z k ω).length : ℝ) = Panel.meanDraws fun k => g (z k ω) := by
    intro g ω
    rw [List.map_ofFn, List.sum_ofFn, List.length_ofFn]; rfl
  rw [d.computePii_eq hv (d.nmat_unit hv hc)]
  constructor
  · simp only [(f _).1, hmean]
    refine (mean_of_draws hR fun k => ?_).2
    have := (hz k).integral_mul 0 0 (smat d o) (smat d o)
    simp only [proj_sqrt hv hc hs, mulVec, dotProduct]
    simp only [zero_add, mul_one, ← pow_two] at this
    rwa [smat_sq hv hc, zero_pow two_ne_zero, zero_add] at this
  · simp only [(f _).2.2.1, hmean]
    refine (mean_of_draws hR fun k => ?_).2
    set c : Fin n → ℝ := fun b => (if o = b then 1 else 0) - smat d o b with hc'
    have := (hz k).integral_mul 0 0 c c
    simp only [zero_add, mul_one, ← pow_two] at this
    have h1 : ∀ ω, z k ω o - d.proj solve (z k ω) .sqrt .sqrt o = ∑ b, c b * z k ω b := by
      intro ω
      simp only [hc', sub_mul, Finset.sum_sub_distrib, ite_mul, one_mul, zero_mul, Finset.sum_ite_eq,
        Finset.mem_univ, if_true, proj_sqrt hv hc hs]
      rfl
    have h2 : ∑ b, c b ^ 2 = 1 - hat d.X d.Dp o o := by
      have : ∀ b, c b ^ 2 = (if o = b then 1 - 2 * smat d o o else 0) + smat d o b ^ 2 := by
        intro b; simp only [hc']
        split
        · next h => subst h; ring
        · ring
      simp only [this, Finset.sum_add_distrib, Finset.sum_ite_eq, Finset.mem_univ, if_true, smat_sq hv hc,
        smat_diag hv]
      ring
    simp only [h1]
    rwa [h2, zero_pow two_ne_zero, zero_add] at this

/-- Sign draws of the required kind exist, and a two-core split of four of them is covered. -/
example : ∃ batches : List (List (Fin 5 → ℝ)), (∀ l ∈ batches, l.length = 2) ∧ batches.length = 2 ∧
    batches.flatten ≠ [] ∧ ∀ z ∈ batches.flatten, ∀ o, z o = 1 ∨ z o = -1 :=
  ⟨[[fun _ => 1, fun _ => -1], [fun o => if o = 0 then 1 else -1, fun _ => 1]], by simp, by simp, by simp, by
    simp; intro o; by_cases h : o = 0 <;> simp [h]⟩

end C22

end Pytwoway.FE
