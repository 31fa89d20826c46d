import Verif.FE.Props2

/-! # The heteroskedastic correction: C20 -/

namespace Pytwoway.FE

open Matrix Pytwoway.Util MeasureTheory
open scoped BigOperators
open Panel (QHalf)

variable {n m nw r : ℕ} {d : Panel n m nw} {solve : (Fin m → ℝ) → (Fin m → ℝ)}
variable {Ω : Type*} [MeasurableSpace Ω] {μ : Measure Ω} {eps : Ω → Fin n → ℝ} {s2 : Fin n → ℝ}

/-! ## C20 -/

section C20

/-- Rows of `L` for firms and for workers. -/
noncomputable def lpsi (d : Panel n m nw) : Matrix (Fin m) (Fin n) ℝ := of fun k o => d.lmat (Sum.inl k) o
noncomputable def lalpha (d : Panel n m nw) : Matrix (Fin nw) (Fin n) ℝ := of fun k o => d.lmat (Sum.inr k) o

theorem fromCols_lmat (M : Matrix (Fin r) (Fin m) ℝ) (M' : Matrix (Fin r) (Fin nw) ℝ) :
    fromCols M M' * d.lmat = M * lpsi d + M' * lalpha d := by
  ext a o
  simp [mul_apply, Fintype.sum_sum_type, lpsi, lalpha]

theorem bmat_split (ql qr : QHalf r m nw) :
    bmat d ql qr = (ql.mat * d.lmat)ᵀ * kmat (Panel.wvec ql.wt) (Panel.wvec qr.wt) * (qr.mat * d.lmat) := by
  rw [bmat, transpose_mul]; simp only [Matrix.mul_assoc]

/-- `X (X'DX)⁻¹ = D⁻¹ L'`. -/
theorem X_inv_apply (hv : d.Valid) (o : Fin n) (k : Fin m ⊕ Fin nw) :
    (d.X * (nmat d.X d.Dp)⁻¹) o k = d.lmat k o / d.Dp o := by
  have h : d.lmat k o = ((nmat d.X d.Dp)⁻¹ * d.Xᵀ) k o * d.Dp o := by rw [Panel.lmat, mul_diagonal]
  have h2 : ((nmat d.X d.Dp)⁻¹ * d.Xᵀ) k o = (d.X * (nmat d.X d.Dp)⁻¹) o k := by
    have : (d.X * (nmat d.X d.Dp)⁻¹)ᵀ = (nmat d.X d.Dp)⁻¹ * d.Xᵀ := by rw [transpose_mul, nmat_inv_symm]
    rw [← this]; rfl
  rw [h, h2, mul_div_assoc, div_self (hv.wpos o).ne', mul_one]

theorem JA_WC (hv : d.Valid) (hc : d.Connected) (o : Fin n) (k : Fin m) :
    (d.J * d.blocksFull.A + d.W * d.blocksFull.C) o k = lpsi d k o / d.Dp o := by
  have := X_inv_apply hv o (Sum.inl k)
  rw [d.nmat_inv hv (d.nmat_unit hv hc), Panel.X, fromCols_mul_fromBlocks] at this
  exact this

theorem JB_WD (hv : d.Valid) (hc : d.Connected) (o : Fin n) (k : Fin nw) :
    (d.J * d.blocksFull.B + d.W * d.trueD) o k = lalpha d k o / d.Dp o := by
  have := X_inv_apply hv o (Sum.inr k)
  rw [d.nmat_inv hv (d.nmat_unit hv hc), Panel.X, fromCols_mul_fromBlocks] at this
  exact this

theorem trace_diag_form {k l : ℕ} (Q : Matrix (Fin k) (Fin l) ℝ) (P : Matrix (Fin l) (Fin n) ℝ)
    (R : Matrix (Fin k) (Fin n) ℝ) (v : Fin n → ℝ) :
    ∑ a, (Q * (P * diagonal v * Rᵀ)) a a = ∑ o, v o * (Rᵀ * Q * P) o o := by
  change (Q * (P * diagonal v * Rᵀ)).trace = _
  rw [← Matrix.mul_assoc, ← Matrix.mul_assoc, trace_mul_comm, ← Matrix.mul_assoc, ← Matrix.mul_assoc, trace]
  exact Finset.sum_congr rfl fun o _ => by rw [diag_apply, mul_diagonal, mul_comm]

/-- The exact HE trace of two firm-effect halves: each `Sii` is divided by the weight. -/
theorem exactTraceHe_psi (hv : d.Valid) (hc : d.Connected) (hs : d.GoodSolver solve) (Sii : Fin n → ℝ)
    (Ml Mr : Matrix (Fin r) (Fin m) ℝ) (wl wr : Weight (Fin r)) (hl : StdWeight wl) (hr : StdWeight wr) :
    d.exactTraceCovHe d.blocksFull Sii (.psi Ml wl) (.psi Mr wr)
      = .ok (∑ o, Sii o / d.Dp o * d.unitCov solve (.psi Ml wl) (.psi Mr wr) o) := by
  have hX : ∀ o k, (d.sqrtDpJ * d.blocksFull.A + d.sqrtDpW * d.blocksFull.C) o k
      = Real.sqrt (d.Dp o) * (lpsi d k o / d.Dp o) := by
    intro o k
    rw [← JA_WC hv hc, d.sqrtDpJ_eq, d.sqrtDpW_eq, Matrix.mul_assoc, Matrix.mul_assoc, ← Matrix.mul_add,
      diagonal_mul]
  have hXX : ((d.sqrtDpJ * d.blocksFull.A + d.sqrtDpW * d.blocksFull.C)ᵀ *
      of fun o c => Sii o * (d.sqrtDpJ * d.blocksFull.A + d.sqrtDpW * d.blocksFull.C) o c)
      = lpsi d * diagonal (fun o => Sii o / d.Dp o) * (lpsi d)ᵀ := by
    ext a b
    rw [mul_apply, mul_apply]
    refine Finset.sum_congr rfl fun o _ => ?_
    rw [transpose_apply, of_apply, hX, hX, mul_diagonal, transpose_apply]
    have h1 := Real.mul_self_sqrt (hv.wpos o).le
    have h2 := (hv.wpos o).ne'
    calc Real.sqrt (d.Dp o) * (lpsi d a o / d.Dp o) * (Sii o * (Real.sqrt (d.Dp o) * (lpsi d b o / d.Dp o)))
        = (Real.sqrt (d.Dp o) * Real.sqrt (d.Dp o)) * (lpsi d a o / d.Dp o * (Sii o * (lpsi d b o / d.Dp o))) := by ring
      _ = _ := by rw [h1]; field_simp
  simp only [Panel.exactTraceCovHe]
  rw [hXX]
  congr 1
  simp only [C05_diag_of_prod]
  rw [trace_diag_form]
  refine Finset.sum_congr rfl fun o _ => ?_
  rw [unitCov_eq hv hc hs (.psi Ml wl) (.psi Mr wr) hl hr, bmat_split]
  simp only [QHalf.mat, QHalf.wt]
  rw [fromCols_lmat, fromCols_lmat, Matrix.zero_mul, add_zero, add_zero, qCovMat_eq, transpose_mul]
  simp only [Matrix.mul_assoc]

theorem exactTraceVarHe_eq_cov (b : Panel.Blocks m nw) (Sii : Fin n → ℝ) (q : QHalf r m nw) (hq : StdWeight q.wt) :
    d.exactTraceVarHe b Sii q = d.exactTraceCovHe b Sii q q := by
  cases q with
  | psi M w => simp only [Panel.exactTraceVarHe, Panel.exactTraceCovHe, qCovMat_eq, qVarMat_eq M (Panel.wvec w) (wvec_nonneg (w := w) hq)]
  | alpha M w => simp only [Panel.exactTraceVarHe, Panel.exactTraceCovHe, qCovMat_eq, qVarMat_eq M (Panel.wvec w) (wvec_nonneg (w := w) hq)]
  | gamma M w => rfl

/-- C20, exact trace for `var(psi)`: it is the noise contribution for variances `Sii / weight`. -/
theorem C20_exact_trace_var_psi (hv : d.Valid) (hc : d.Connected) (hs : d.GoodSolver solve) (Sii : Fin n → ℝ) :
    d.exactTraceVarHe d.blocksFull Sii d.qPsi
      = .ok (∑ o, Sii o / d.Dp o * (d.withY (Pi.single o 1)).varFe solve d.qPsi) := by
  have hstd := stdWeight_DpW hv
  rw [exactTraceVarHe_eq_cov _ _ d.qPsi hstd, Panel.qPsi, exactTraceHe_psi hv hc hs _ _ _ _ _ hstd hstd]
  simp only [varFe_eq_covFe (d := d.withY _) (.psi d.J d.DpW) hstd]
  rfl

/-- The noise contribution to every component, for arbitrary error variances: this is what the
correction must remove. -/
theorem C20_plug_in_bias (hv : d.Valid) (hc : d.Connected) (hs : d.GoodSolver solve)
    (h : Noise μ eps s2) (psi : Fin (m + 1) → ℝ) (alpha : Fin nw → ℝ) (ql qr : QHalf r m nw)
    (hl : StdWeight ql.wt) (hr : StdWeight qr.wt) :
    ∫ ω, (d.obs psi alpha (eps ω)).covFe solve ql qr ∂μ
      = weightedCov (ql.mult (relPsi psi) (relAlpha psi alpha)) (qr.mult (relPsi psi) (relAlpha psi alpha))
          ql.wt qr.wt 0 + ∑ o, s2 o * (d.withY (Pi.single o 1)).covFe solve ql qr :=
  (plugin_expectation hv hc hs h psi alpha ql qr hl hr).2

/-- Rows for which the code uses the leave-one-out estimate. -/
theorem siiHe_eq_loo (st : Panel.Stayers) (P : Fin n → ℝ) (o : Fin n) (v : ℝ) (hw : d.weighted = false)
    (hst : st = .upperBound ∨ d.workerM o) (h : d.siiHe solve st P o = some v) : v = d.looSii solve P o := by
  cases st with
  | firmMean =>
    have hm : d.workerM o := hst.resolve_left (by intro h; cases h)
    simp only [Panel.siiHe, hm, if_true, Option.some.injEq] at h
    exact h.symm
  | upperBound =>
    simp only [Panel.siiHe, hw] at h
    simp only [Bool.false_eq_true, if_false] at h
    split at h
    · cases h
    · exact (Option.some.inj h).symm

theorem siiHe_mover (st : Panel.Stayers) (P : Fin n → ℝ) (o : Fin n) (v : ℝ)
    (hm : d.workerM o) (h : d.siiHe solve st P o = some v) : v = d.looSii solve P o := by
  cases st with
  | firmMean =>
    simp only [Panel.siiHe, hm, if_true, Option.some.injEq] at h
    exact h.symm
  | upperBound =>
    simp only [Panel.siiHe] at h
    split at h
    · split at h
      · cases h
      · first | rw [if_pos hm] at h | skip
        exact (Option.some.inj h).symm
    · split at h
      · cases h
      · exact (Option.some.inj h).symm

/-- Expectation of a correction that is linear in the variance estimates. -/
theorem he_expectation (hv : d.Valid) (hc : d.Connected) (hs : d.GoodSolver solve)
    (h : Noise μ eps s2) (psi : Fin (m + 1) → ℝ) (alpha : Fin nw → ℝ)
    (hP : ∀ o, d.computePii d.blocksFull o ≠ 1) (hst : ∀ o, d.weighted = false ∨ d.workerM o)
    (ql qr : QHalf r m nw) (hl : StdWeight ql.wt) (hr : StdWeight qr.wt) (c : Fin n → ℝ) :
    ∫ ω, (d.obs psi alpha (eps ω)).covHe solve ql qr
        (∑ o, c o * (d.obs psi alpha (eps ω)).looSii solve d.exactPii o) ∂μ
      = weightedCov (ql.mult (relPsi psi) (relAlpha psi alpha)) (qr.mult (relPsi psi) (relAlpha psi alpha))
          ql.wt qr.wt 0 + ∑ o, s2 o * d.unitCov solve ql qr o
        - ∑ o, c o * (s2 o - (d.Dp o * s2 o - ∑ b, hat d.X d.Dp o b * (d.Dp b * s2 b))
          / ((∑ b, d.Dp b) * (1 - d.computePii d.blocksFull o))) := by
  obtain ⟨i1, e1⟩ := plugin_expectation hv hc hs h psi alpha ql qr hl hr
  have hS := fun o => C18_expectation hv hc hs h psi alpha o (hP o) (hst o)
  have hi : ∀ o ∈ Finset.univ, Integrable (fun ω => c o * (d.obs psi alpha (eps ω)).looSii solve d.exactPii o) μ :=
    fun o _ => (hS o).1.const_mul _
  simp only [Panel.covHe]
  rw [integral_sub i1 (integrable_finsetSum _ hi), e1, integral_finsetSum _ hi]
  congr 1
  refine Finset.sum_congr rfl fun o _ => ?_
  rw [integral_const_mul, (hS o).2]

/-- C20, expectation of the HE-corrected `var(psi)` without weights, for arbitrary error variances.  The
variance estimates are those the code uses: leave-one-out for every row under `upper_bound`, and for
`firm_mean` when every worker is a mover. -/
theorem C20_var_psi_expectation (hv : d.Valid) (hc : d.Connected) (hs : d.GoodSolver solve)
    (hw : d.weighted = false) (h : Noise μ eps s2) (psi : Fin (m + 1) → ℝ) (alpha : Fin nw → ℝ)
    (hP : ∀ o, d.computePii d.blocksFull o ≠ 1) (st : Panel.Stayers)
    (hst : st = .upperBound ∨ ∀ o, d.workerM o) (Sii : Ω → Fin n → ℝ)
    (hS : ∀ ω o, (d.obs psi alpha (eps ω)).siiHe solve st d.exactPii o = some (Sii ω o))
    (tr : Ω → ℝ) (htr : ∀ ω, d.exactTraceVarHe d.blocksFull (Sii ω) d.qPsi = .ok (tr ω)) (hn : 0 < n) :
    ∫ ω, (d.obs psi alpha (eps ω)).varHe solve d.qPsi (tr ω) ∂μ
      = weightedVar (fun o => psi (d.j o)) d.DpW 0
        + ∑ o, (d.withY (Pi.single o 1)).varFe solve d.qPsi
            * ((s2 o - ∑ b, hat d.X d.Dp o b * s2 b) / (n * (1 - d.computePii d.blocksFull o))) := by
  have hstd := stdWeight_DpW hv
  have hD1 : ∀ o, d.Dp o = 1 := fun o => by simp [Panel.Dp, hw]
  obtain ⟨p1, -, -, -⟩ := C23_plug_in (d := d) psi alpha (usable_DpW hv hn)
  have hu : ∀ o, (d.withY (Pi.single o 1)).varFe solve d.qPsi = d.unitCov solve d.qPsi d.qPsi o := fun o =>
    varFe_eq_covFe (d := d.withY _) d.qPsi hstd
  have htr' : ∀ ω, tr ω = ∑ o, d.unitCov solve d.qPsi d.qPsi o * (d.obs psi alpha (eps ω)).looSii solve d.exactPii o := by
    intro ω
    have h1 := htr ω
    rw [C20_exact_trace_var_psi hv hc hs] at h1
    have h2 := (Except.ok.inj h1).symm
    rw [h2]
    refine Finset.sum_congr rfl fun o _ => ?_
    have hwm : st = .upperBound ∨ (d.obs psi alpha (eps ω)).workerM o := hst.imp id fun h => h o
    have hw' : (d.obs psi alpha (eps ω)).weighted = false := hw
    rw [siiHe_eq_loo (d := d.obs psi alpha (eps ω)) st _ o _ hw' hwm (hS ω o), hD1, div_one, hu, mul_comm]
  have key := he_expectation hv hc hs h psi alpha hP (fun o => Or.inl hw) d.qPsi d.qPsi hstd hstd
    (fun o => d.unitCov solve d.qPsi d.qPsi o)
  rw [← p1, weightedVar_eq_cov _ (w := d.qPsi.wt) hstd]
  have hlhs : ∫ ω, (d.obs psi alpha (eps ω)).varHe solve d.qPsi (tr ω) ∂μ
      = ∫ ω, (d.obs psi alpha (eps ω)).covHe solve d.qPsi d.qPsi
        (∑ o, d.unitCov solve d.qPsi d.qPsi o * (d.obs psi alpha (eps ω)).looSii solve d.exactPii o) ∂μ := by
    congr 1; ext ω
    rw [Panel.varHe, Panel.covHe, htr', varFe_eq_covFe (d := d.obs psi alpha (eps ω)) d.qPsi hstd]
  rw [hlhs, key]
  change weightedCov _ _ _ _ 0 + _ - _ = weightedCov _ _ _ _ 0 + _
  rw [add_sub_assoc, ← Finset.sum_sub_distrib]
  congr 1
  refine Finset.sum_congr rfl fun o _ => ?_
  rw [hu]
  simp only [hD1, one_mul]
  have : ∑ _b : Fin n, (1 : ℝ) = n := by simp
  rw [this]
  ring

/-- C20 (partial): without weights and with equal error variances the HE-corrected `var(psi)` is
unbiased.  Missing: unequal variances (`C20_heteroskedastic_biased`), weights (`C20_weighted_biased`),
components using worker effects (`C20_exact_trace_cov`). -/
theorem C20_var_psi_partial (hv : d.Valid) (hc : d.Connected) (hs : d.GoodSolver solve)
    (hw : d.weighted = false) {σ2 : ℝ} (h : Noise μ eps fun _ => σ2) (psi : Fin (m + 1) → ℝ)
    (alpha : Fin nw → ℝ) (hP : ∀ o, d.computePii d.blocksFull o ≠ 1) (st : Panel.Stayers)
    (hst : st = .upperBound ∨ ∀ o, d.workerM o) (Sii : Ω → Fin n → ℝ)
    (hS : ∀ ω o, (d.obs psi alpha (eps ω)).siiHe solve st d.exactPii o = some (Sii ω o))
    (tr : Ω → ℝ) (htr : ∀ ω, d.exactTraceVarHe d.blocksFull (Sii ω) d.qPsi = .ok (tr ω)) (hn : 0 < n) :
    ∫ ω, (d.obs psi alpha (eps ω)).varHe solve d.qPsi (tr ω) ∂μ = weightedVar (fun o => psi (d.j o)) d.DpW 0 := by
  rw [C20_var_psi_expectation hv hc hs hw h psi alpha hP st hst Sii hS tr htr hn]
  simp only [← Finset.sum_mul, hat_row_sum hv hc, one_mul, sub_self, zero_div, mul_zero,
    Finset.sum_const_zero, add_zero]

/-- C20 (partial), any weights and any components, when the correction uses the right trace (which is what
the random-probe approximation averages to, `C21_he_draws`), every worker is a mover and error variances
are inversely proportional to weights. -/
theorem C20_right_trace_partial (hv : d.Valid) (hc : d.Connected) (hs : d.GoodSolver solve) {σ2 : ℝ}
    (h : Noise μ eps fun o => σ2 / d.Dp o) (psi : Fin (m + 1) → ℝ) (alpha : Fin nw → ℝ)
    (hP : ∀ o, d.computePii d.blocksFull o ≠ 1) (st : Panel.Stayers) (hm : ∀ o, d.workerM o)
    (Sii : Ω → Fin n → ℝ)
    (hS : ∀ ω o, (d.obs psi alpha (eps ω)).siiHe solve st d.exactPii o = some (Sii ω o))
    (ql qr : QHalf r m nw) (hl : StdWeight ql.wt) (hr : StdWeight qr.wt) :
    ∫ ω, (d.obs psi alpha (eps ω)).covHe solve ql qr
        (∑ o, Sii ω o * (d.withY (Pi.single o 1)).covFe solve ql qr) ∂μ
      = weightedCov (ql.mult (relPsi psi) (relAlpha psi alpha)) (qr.mult (relPsi psi) (relAlpha psi alpha))
          ql.wt qr.wt 0 := by
  have key := he_expectation hv hc hs h psi alpha hP (fun o => Or.inr (hm o)) ql qr hl hr
    (fun o => d.unitCov solve ql qr o)
  have hlhs : ∀ ω, (∑ o, Sii ω o * (d.withY (Pi.single o 1)).covFe solve ql qr)
      = ∑ o, d.unitCov solve ql qr o * (d.obs psi alpha (eps ω)).looSii solve d.exactPii o := fun ω =>
    Finset.sum_congr rfl fun o _ => by
      have hmo : (d.obs psi alpha (eps ω)).workerM o := hm o
      rw [siiHe_mover (d := d.obs psi alpha (eps ω)) st _ o _ hmo (hS ω o), mul_comm]; rfl
  simp only [hlhs]
  rw [key, add_sub_assoc, ← Finset.sum_sub_distrib]
  have h1 : ∀ b, d.Dp b * (σ2 / d.Dp b) = σ2 := fun b => by
    rw [mul_div_assoc', mul_div_cancel_left₀ _ (hv.wpos b).ne']
  simp only [h1, ← Finset.sum_mul, hat_row_sum hv hc, one_mul, sub_self, zero_div, sub_zero]
  rw [Finset.sum_eq_zero, add_zero]
  intro o _; ring

theorem ols_unit (hv : d.Valid) (hc : d.Connected) (hs : d.GoodSolver solve) (o : Fin n) (k : Fin m) :
    ((d.withY (Pi.single o 1)).ols solve).1 k = lpsi d k o := by
  have h := congrFun (ols_lmat hv hc hs (Pi.single o 1)) (Sum.inl k)
  rw [mulVec_single_one] at h
  exact h

theorem psiCol_unit (hv : d.Valid) (hc : d.Connected) (hs : d.GoodSolver solve) (o : Fin n) :
    (d.withY (Pi.single o 1)).psiCol solve = d.J *ᵥ (fun k => lpsi d k o) := by
  ext b
  rw [d.J_mulVec, Panel.psiCol]
  have : ((d.withY (Pi.single o 1)).ols solve).1 = fun k => lpsi d k o := funext fun k => ols_unit hv hc hs o k
  rw [this]; rfl

/-- C20, exact trace for `cov(psi, alpha)`: besides dividing by the weights it subtracts a spurious term,
so it is not the trace needed even without weights. -/
theorem C20_exact_trace_cov (hv : d.Valid) (hc : d.Connected) (hs : d.GoodSolver solve) (Sii : Fin n → ℝ)
    (hn : 0 < n) :
    d.exactTraceCovHe d.blocksFull Sii d.qPsi d.qAlpha
      = .ok ((∑ o, Sii o / d.Dp o * (d.withY (Pi.single o 1)).covFe solve d.qPsi d.qAlpha)
        - ∑ o, Sii o / (∑ b with d.i b = d.i o, d.Dp b)
            * weightedCov ((d.withY (Pi.single o 1)).psiCol solve) (fun b => if d.i b = d.i o then 1 else 0)
                d.DpW d.DpW 0) := by
  have hstd := stdWeight_DpW hv
  set F : Matrix (Fin nw) (Fin n) ℝ := of fun r o => if r = d.i o then 0 else d.Dwinv (d.i o) with hF
  have hWrow : ∀ o, d.W o = Pi.single (d.i o) 1 := fun o => by
    ext i; simp [Panel.W, Pi.single_apply, eq_comm]
  have hleft : d.blocksFull.C * d.Jᵀ + d.blocksFull.D * d.Wᵀ
      = lalpha d * diagonal (fun o => 1 / d.Dp o) + F := by
    have h1 : d.blocksFull.C * d.Jᵀ + d.trueD * d.Wᵀ = lalpha d * diagonal (fun o => 1 / d.Dp o) := by
      have hN : (nmat d.X d.Dp)⁻¹ * d.Xᵀ = d.lmat * diagonal (fun o => 1 / d.Dp o) := by
        rw [Panel.lmat, Matrix.mul_assoc, diagonal_mul_diagonal]
        have : (fun i => d.Dp i * (1 / d.Dp i)) = 1 := by
          ext i; rw [mul_one_div, div_self (hv.wpos i).ne']; rfl
        rw [this]
        simp
      rw [d.nmat_inv hv (d.nmat_unit hv hc), Panel.X, transpose_fromCols, fromBlocks_mul_fromRows] at hN
      ext k o
      have := congrFun (congrFun hN (Sum.inr k)) o
      rw [mul_diagonal] at this ⊢
      exact this
    have h2 : d.blocksFull.D * d.Wᵀ = d.trueD * d.Wᵀ + F := by
      ext k o
      rw [Matrix.add_apply, mul_apply, mul_apply]
      simp only [transpose_apply, hWrow, Pi.single_apply, mul_ite, mul_one, mul_zero, Finset.sum_ite_eq',
        Finset.mem_univ, if_true, d.blocksFull_D]
      rw [hF, of_apply]
    rw [h2, ← add_assoc, h1]
  have hright : (of fun o c => d.Dp o * Sii o * (d.J * d.blocksFull.A + d.W * d.blocksFull.C) o c)
      = diagonal Sii * (lpsi d)ᵀ := by
    ext o c
    rw [of_apply, JA_WC hv hc, diagonal_mul, transpose_apply]
    have := (hv.wpos o).ne'
    field_simp
  simp only [Panel.qPsi, Panel.qAlpha, Panel.exactTraceCovHe]
  rw [hleft, hright]
  congr 1
  simp only [C05_diag_of_prod]
  set Q := Panel.qCovMat d.J d.W (Panel.wvec d.DpW) (Panel.wvec d.DpW) with hQ
  have hsplit : (lalpha d * diagonal (fun o => 1 / d.Dp o) + F) * (diagonal Sii * (lpsi d)ᵀ)
      = lalpha d * diagonal (fun o => Sii o / d.Dp o) * (lpsi d)ᵀ + F * diagonal Sii * (lpsi d)ᵀ := by
    rw [Matrix.add_mul, ← Matrix.mul_assoc, ← Matrix.mul_assoc, Matrix.mul_assoc (lalpha d),
      diagonal_mul_diagonal]
    congr 4
    ext o; ring
  rw [hsplit, Matrix.mul_add]
  simp only [Matrix.add_apply, Finset.sum_add_distrib]
  rw [trace_diag_form, trace_diag_form, sub_eq_add_neg, ← Finset.sum_neg_distrib]
  congr 1
  · refine Finset.sum_congr rfl fun o _ => ?_
    change _ = _ * d.unitCov solve d.qPsi d.qAlpha o
    rw [unitCov_eq hv hc hs d.qPsi d.qAlpha hstd hstd, bmat_split]
    simp only [Panel.qPsi, Panel.qAlpha, QHalf.mat, QHalf.wt]
    rw [fromCols_lmat, fromCols_lmat, Matrix.zero_mul, Matrix.zero_mul, add_zero, zero_add, hQ, qCovMat_eq,
      transpose_mul]
    simp only [Matrix.mul_assoc]
  · refine Finset.sum_congr rfl fun o _ => ?_
    have hcov : ∀ g : Fin nw → ℝ, ((lpsi d)ᵀ * Q) o ⬝ᵥ g
        = weightedCov ((d.withY (Pi.single o 1)).psiCol solve) (d.W *ᵥ g) d.DpW d.DpW 0 := by
      intro g
      rw [weightedCov_kmat _ _ hstd hstd, psiCol_unit hv hc hs,
        form_assoc d.J (kmat (Panel.wvec d.DpW) (Panel.wvec d.DpW)) d.W (fun k => lpsi d k o) g,
        ← qCovMat_eq, ← hQ]
      have : ((lpsi d)ᵀ * Q) o = (fun k => lpsi d k o) ᵥ* Q := by
        ext c; simp [mul_apply, vecMul, dotProduct]
      rw [this, ← dotProduct_mulVec]
    have hone : ((lpsi d)ᵀ * Q) o ⬝ᵥ 1 = 0 := by
      rw [hcov]
      have h1 : d.W *ᵥ 1 = fun _ => 1 := by ext o; rw [d.W_mulVec]; rfl
      rw [h1, weightedCov_kmat _ _ hstd hstd, kmat_form]
      have h2 : Panel.demean (Panel.wvec d.DpW) *ᵥ (fun _ : Fin n => (1 : ℝ)) = 0 := by
        ext o
        rw [demean_mulVec, ← weightedMean_wvec, weightedMean_const 1 _ (usable_DpW hv hn)]
        simp
      rw [h2]; simp
    have hind : ((lpsi d)ᵀ * Q) o (d.i o)
        = weightedCov ((d.withY (Pi.single o 1)).psiCol solve) (fun b => if d.i b = d.i o then 1 else 0)
            d.DpW d.DpW 0 := by
      rw [← dotProduct_single_one (((lpsi d)ᵀ * Q) o) (d.i o), hcov]
      congr 1
      ext b; rw [d.W_mulVec]; simp [Pi.single_apply]
    rw [← hind]
    have hexp : ((lpsi d)ᵀ * Q * F) o o = - (d.Dwinv (d.i o) * ((lpsi d)ᵀ * Q) o (d.i o)) := by
      rw [mul_apply]
      have : ∀ c, ((lpsi d)ᵀ * Q) o c * F c o = d.Dwinv (d.i o) * ((lpsi d)ᵀ * Q) o c
          - (if c = d.i o then d.Dwinv (d.i o) * ((lpsi d)ᵀ * Q) o (d.i o) else 0) := by
        intro c
        rw [hF, of_apply]
        by_cases hcc : c = d.i o
        · subst hcc; simp
        · simp [hcc]; ring
      simp only [this, Finset.sum_sub_distrib, ← Finset.mul_sum, Finset.sum_ite_eq', Finset.mem_univ, if_true]
      have h1 : ∑ c, ((lpsi d)ᵀ * Q) o c = 0 := by rw [← hone]; simp [dotProduct]
      rw [h1]; ring
    rw [hexp, d.Dwinv_eq]
    change _ = -(Sii o / d.Dw (d.i o) * _)
    ring

/-- Some single-outcome change moves the estimated firm effects, if there are two firms. -/
theorem unit_var_pos (hv : d.Valid) (hc : d.Connected) (hs : d.GoodSolver solve) (hm : 1 ≤ m) :
    (∀ o, 0 ≤ (d.withY (Pi.single o 1)).varFe solve d.qPsi) ∧
    ∃ o, 0 < (d.withY (Pi.single o 1)).varFe solve d.qPsi := by
  obtain ⟨k, rfl⟩ : ∃ k, m = k + 1 := ⟨m - 1, by omega⟩
  have hstd := stdWeight_DpW hv
  -- every firm is observed
  have hseen : ∀ a : Fin (k + 1 + 1), ∃ o, d.j o = a := by
    intro a
    obtain ⟨b, hb⟩ : ∃ b : Fin (k + 1 + 1), b ≠ a := exists_ne a
    rcases Relation.ReflTransGen.cases_head (hc a b) with h | ⟨c, ⟨o, -, -, ho, -⟩, -⟩
    · exact absurd h.symm hb
    · exact ⟨o, ho⟩
  obtain ⟨o0, ho0⟩ := hseen 0
  obtain ⟨o1, ho1⟩ := hseen 1
  have hn : 0 < n := o0.pos
  have hvar : ∀ o, (d.withY (Pi.single o 1)).varFe solve d.qPsi
      = weightedVar ((d.withY (Pi.single o 1)).psiCol solve) d.DpW 0 := fun o =>
    (C23_attached (d := d.withY (Pi.single o 1)) solve).1
  have hnn : ∀ v : Fin n → ℝ, 0 ≤ weightedVar v d.DpW 0 ∧
      (weightedVar v d.DpW 0 = 0 → ∀ b, v b = weightedMean v d.DpW) := by
    intro v
    have hwpos := hv.wpos
    unfold Panel.Dp at hwpos
    unfold Panel.DpW
    by_cases hw : d.weighted = true
    · simp only [hw, if_true] at hwpos ⊢
      simp only [weightedVar, sub_zero]
      have hW : 0 < ∑ i, d.w i := Finset.sum_pos (fun c _ => hwpos c) ⟨o0, Finset.mem_univ o0⟩
      have ht : ∀ i ∈ Finset.univ, 0 ≤ d.w i * (v i - weightedMean v (.vec d.w)) ^ 2 :=
        fun i _ => mul_nonneg (hwpos i).le (sq_nonneg _)
      refine ⟨div_nonneg (Finset.sum_nonneg ht) hW.le, fun h b => ?_⟩
      have h0 := (div_eq_zero_iff.mp h).resolve_right hW.ne'
      have h1 := (Finset.sum_eq_zero_iff_of_nonneg ht).mp h0 b (Finset.mem_univ b)
      have h2 := (mul_eq_zero.mp h1).resolve_left (hwpos b).ne'
      have h3 : v b - weightedMean v (.vec d.w) = 0 := by simpa using h2
      linarith
    · simp only [hw]
      simp only [Bool.false_eq_true, if_false, weightedVar, sub_zero]
      have hW : 0 < (Fintype.card (Fin n) : ℝ) := by simpa using hn
      have ht : ∀ i ∈ Finset.univ, 0 ≤ (v i - weightedMean v (.scalar 1)) ^ 2 := fun i _ => sq_nonneg _
      refine ⟨div_nonneg (Finset.sum_nonneg ht) hW.le, fun h b => ?_⟩
      have h0 := (div_eq_zero_iff.mp h).resolve_right hW.ne'
      have h1 := (Finset.sum_eq_zero_iff_of_nonneg ht).mp h0 b (Finset.mem_univ b)
      have h3 : v b - weightedMean v (.scalar 1) = 0 := by simpa using h1
      linarith
  refine ⟨fun o => by rw [hvar]; exact (hnn _).1, ?_⟩
  by_contra hcon
  push Not at hcon
  have hz : ∀ o, weightedVar ((d.withY (Pi.single o 1)).psiCol solve) d.DpW 0 = 0 := fun o =>
    le_antisymm (by rw [← hvar]; exact hcon o) (hnn _).1
  -- all single-outcome firm effects vanish
  have hzero : ∀ o k', lpsi d k' o = 0 := by
    intro o k'
    obtain ⟨b, hb⟩ := hseen k'.succ
    have e := (hnn _).2 (hz o)
    have e1 := e b
    have e0 := e o0
    rw [psiCol_unit hv hc hs, d.J_mulVec] at e0 e1
    rw [← e0] at e1
    rw [hb, ho0] at e1
    simpa [Panel.withZero] using e1
  have hLX := lmat_mul_X hv hc
  have h11 := congrFun (congrFun hLX (Sum.inl 0)) (Sum.inl 0)
  rw [mul_apply, one_apply_eq] at h11
  have : ∀ o, d.lmat (Sum.inl 0) o = 0 := fun o => hzero o 0
  simp [this] at h11

/-- C20 with weights, equal error variances up to the weights, every worker a mover: the exact trace
divides by the weight once too often, so the corrected `var(psi)` is off. -/
theorem C20_weighted_expectation (hv : d.Valid) (hc : d.Connected) (hs : d.GoodSolver solve) {σ2 : ℝ}
    (h : Noise μ eps fun o => σ2 / d.Dp o) (psi : Fin (m + 1) → ℝ) (alpha : Fin nw → ℝ)
    (hP : ∀ o, d.computePii d.blocksFull o ≠ 1) (st : Panel.Stayers) (hm : ∀ o, d.workerM o)
    (Sii : Ω → Fin n → ℝ)
    (hS : ∀ ω o, (d.obs psi alpha (eps ω)).siiHe solve st d.exactPii o = some (Sii ω o))
    (tr : Ω → ℝ) (htr : ∀ ω, d.exactTraceVarHe d.blocksFull (Sii ω) d.qPsi = .ok (tr ω)) (hn : 0 < n) :
    ∫ ω, (d.obs psi alpha (eps ω)).varHe solve d.qPsi (tr ω) ∂μ
      = weightedVar (fun o => psi (d.j o)) d.DpW 0
        + ∑ o, σ2 / d.Dp o * (1 - 1 / d.Dp o) * (d.withY (Pi.single o 1)).varFe solve d.qPsi := by
  have hstd := stdWeight_DpW hv
  obtain ⟨p1, -, -, -⟩ := C23_plug_in (d := d) psi alpha (usable_DpW hv hn)
  have hu : ∀ o, (d.withY (Pi.single o 1)).varFe solve d.qPsi = d.unitCov solve d.qPsi d.qPsi o := fun o =>
    varFe_eq_covFe (d := d.withY _) d.qPsi hstd
  have htr' : ∀ ω, tr ω = ∑ o, (d.unitCov solve d.qPsi d.qPsi o / d.Dp o)
      * (d.obs psi alpha (eps ω)).looSii solve d.exactPii o := by
    intro ω
    have h1 := htr ω
    rw [C20_exact_trace_var_psi hv hc hs] at h1
    rw [(Except.ok.inj h1).symm]
    refine Finset.sum_congr rfl fun o _ => ?_
    have hmo : (d.obs psi alpha (eps ω)).workerM o := hm o
    rw [siiHe_mover (d := d.obs psi alpha (eps ω)) st _ o _ hmo (hS ω o), hu]; ring
  have key := he_expectation hv hc hs h psi alpha hP (fun o => Or.inr (hm o)) d.qPsi d.qPsi hstd hstd
    (fun o => d.unitCov solve d.qPsi d.qPsi o / d.Dp o)
  rw [← p1, weightedVar_eq_cov _ (w := d.qPsi.wt) hstd]
  have hlhs : ∫ ω, (d.obs psi alpha (eps ω)).varHe solve d.qPsi (tr ω) ∂μ
      = ∫ ω, (d.obs psi alpha (eps ω)).covHe solve d.qPsi d.qPsi
        (∑ o, (d.unitCov solve d.qPsi d.qPsi o / d.Dp o)
          * (d.obs psi alpha (eps ω)).looSii solve d.exactPii o) ∂μ := by
    congr 1; ext ω
    rw [Panel.varHe, Panel.covHe, htr', varFe_eq_covFe (d := d.obs psi alpha (eps ω)) d.qPsi hstd]
  rw [hlhs, key]
  change weightedCov _ _ _ _ 0 + _ - _ = weightedCov _ _ _ _ 0 + _
  rw [add_sub_assoc, ← Finset.sum_sub_distrib]
  congr 1
  have h1 : ∀ b, d.Dp b * (σ2 / d.Dp b) = σ2 := fun b => by
    rw [mul_div_assoc', mul_div_cancel_left₀ _ (hv.wpos b).ne']
  simp only [h1, ← Finset.sum_mul, hat_row_sum hv hc, one_mul, sub_self, zero_div, sub_zero]
  refine Finset.sum_congr rfl fun o _ => ?_
  rw [hu]; ring

/-- C20 is false of the code with weights: if all weights exceed one the corrected `var(psi)` is too
large in expectation. -/
theorem C20_weighted_biased (hv : d.Valid) (hc : d.Connected) (hs : d.GoodSolver solve) {σ2 : ℝ}
    (hσ : 0 < σ2) (hw : ∀ o, 1 < d.Dp o) (hfirms : 1 ≤ m)
    (h : Noise μ eps fun o => σ2 / d.Dp o) (psi : Fin (m + 1) → ℝ) (alpha : Fin nw → ℝ)
    (hP : ∀ o, d.computePii d.blocksFull o ≠ 1) (st : Panel.Stayers) (hm : ∀ o, d.workerM o)
    (Sii : Ω → Fin n → ℝ)
    (hS : ∀ ω o, (d.obs psi alpha (eps ω)).siiHe solve st d.exactPii o = some (Sii ω o))
    (tr : Ω → ℝ) (htr : ∀ ω, d.exactTraceVarHe d.blocksFull (Sii ω) d.qPsi = .ok (tr ω)) :
    weightedVar (fun o => psi (d.j o)) d.DpW 0
      < ∫ ω, (d.obs psi alpha (eps ω)).varHe solve d.qPsi (tr ω) ∂μ := by
  obtain ⟨h0, o, ho⟩ := unit_var_pos hv hc hs hfirms
  rw [C20_weighted_expectation hv hc hs h psi alpha hP st hm Sii hS tr htr o.pos]
  have hfac : ∀ b, 0 < σ2 / d.Dp b * (1 - 1 / d.Dp b) := fun b => by
    refine mul_pos (div_pos hσ (hv.wpos b)) ?_
    rw [sub_pos, div_lt_one (hv.wpos b)]; exact hw b
  have : 0 < ∑ o, σ2 / d.Dp o * (1 - 1 / d.Dp o) * (d.withY (Pi.single o 1)).varFe solve d.qPsi :=
    Finset.sum_pos' (fun b _ => mul_nonneg (hfac b).le (h0 b)) ⟨o, Finset.mem_univ o, mul_pos (hfac o) ho⟩
  linarith

/-- Two firms, two workers, both movers, five unweighted observations. -/
def ex20 : Panel 5 1 2 := ⟨![0, 0, 1, 0, 1], ![0, 0, 0, 1, 1], ![0, 0, 0, 0, 0], false, ![1, 1, 1, 1, 1]⟩

theorem ex20_valid : ex20.Valid where
  wpos := by intro o; simp [Panel.Dp, ex20]
  seen := by intro i; fin_cases i; exacts [⟨0, rfl⟩, ⟨3, rfl⟩]

theorem ex20_connected : ex20.Connected := by
  intro a b
  have h : ∀ a b : Fin 2, (∃ o o', ex20.i o = ex20.i o' ∧ ex20.j o = a ∧ ex20.j o' = b) := by decide
  obtain ⟨o, o', h1, h2, h3⟩ := h a b
  exact Relation.ReflTransGen.single ⟨o, o', h1, h2, h3⟩

theorem ex20_movers (o : Fin 5) : ex20.workerM o := by revert o; decide

noncomputable def ex20_inv : Matrix (Fin 1 ⊕ Fin 2) (Fin 1 ⊕ Fin 2) ℝ :=
  fromBlocks !![6 / 7] !![-2 / 7, -3 / 7] !![-2 / 7; -3 / 7] !![3 / 7, 1 / 7; 1 / 7, 5 / 7]

theorem ex20_Dp (o : Fin 5) : ex20.Dp o = 1 := by simp [Panel.Dp, ex20]

theorem ex20_X : ex20.X = fromCols !![0; 0; 1; 0; 1] !![1, 0; 1, 0; 1, 0; 0, 1; 0, 1] := by
  ext o k
  rcases k with k | k <;> fin_cases o <;> fin_cases k <;> simp [Panel.X, Panel.J, Panel.Jfull, Panel.W, ex20]

theorem ex20_nmat_inv : (nmat ex20.X ex20.Dp)⁻¹ = ex20_inv := by
  apply inv_eq_right_inv
  have hD : ex20.Dp = fun _ => 1 := funext ex20_Dp
  have hN : nmat ex20.X ex20.Dp = fromBlocks !![2] !![1, 1] !![1; 1] !![3, 0; 0, 2] := by
    rw [nmat, hD, ex20_X]
    ext a b
    rcases a with a | a <;> rcases b with b | b <;> fin_cases a <;> fin_cases b <;>
      simp [mul_apply, Fin.sum_univ_succ, diagonal_apply] <;> norm_num
  rw [hN, ex20_inv]
  ext a b
  rcases a with a | a <;> rcases b with b | b <;> fin_cases a <;> fin_cases b <;>
    simp [mul_apply, Fintype.sum_sum_type, Fin.sum_univ_succ] <;> norm_num

theorem ex20_lmat : ex20.lmat = fromRows !![-2 / 7, -2 / 7, 4 / 7, -3 / 7, 3 / 7]
    !![3 / 7, 3 / 7, 1 / 7, 1 / 7, -1 / 7; 1 / 7, 1 / 7, -2 / 7, 5 / 7, 2 / 7] := by
  have hD : ex20.Dp = fun _ => 1 := funext ex20_Dp
  rw [Panel.lmat, ex20_nmat_inv, ex20_X, hD, ex20_inv, diagonal_one, Matrix.mul_one]
  ext a b
  rcases a with a | a <;> fin_cases a <;> fin_cases b <;>
    simp [mul_apply, Fintype.sum_sum_type, Fin.sum_univ_succ, diagonal_apply] <;> norm_num

theorem ex20_hat (o b : Fin 5) : hat ex20.X ex20.Dp o b =
    !![3 / 7, 3 / 7, 1 / 7, 1 / 7, -1 / 7; 3 / 7, 3 / 7, 1 / 7, 1 / 7, -1 / 7;
       1 / 7, 1 / 7, 5 / 7, -2 / 7, 2 / 7; 1 / 7, 1 / 7, -2 / 7, 5 / 7, 2 / 7;
       -1 / 7, -1 / 7, 2 / 7, 2 / 7, 5 / 7] o b := by
  rw [← X_mul_lmat, ex20_lmat, ex20_X]
  fin_cases o <;> fin_cases b <;>
    simp [mul_apply, Fintype.sum_sum_type, Fin.sum_univ_succ] <;> norm_num

theorem ex20_unit {solve} (hs : ex20.GoodSolver solve) (o : Fin 5) :
    (ex20.withY (Pi.single o 1)).varFe solve ex20.qPsi = ![24, 24, 96, 54, 54] o / 1225 := by
  rw [show (ex20.withY (Pi.single o 1)).varFe solve ex20.qPsi = _ from
    (C23_attached (d := ex20.withY (Pi.single o 1)) solve).1, psiCol_unit ex20_valid ex20_connected hs]
  have hJ : ex20.J = !![0; 0; 1; 0; 1] := by
    ext o k; fin_cases o <;> fin_cases k <;> simp [Panel.J, Panel.Jfull, ex20]
  have hw : (ex20.withY (Pi.single o 1)).DpW = .scalar 1 := by simp [Panel.DpW, ex20, Panel.withY]
  rw [hw, hJ]
  simp only [weightedVar, weightedMean, lpsi, ex20_lmat]
  fin_cases o <;> simp [mulVec, dotProduct, Fin.sum_univ_succ] <;> norm_num

/-- C20 is false of the code with unequal error variances: on this panel of movers, with an error on the
third observation only, the corrected `var(psi)` is too large by 12/875 in expectation, whatever the
true effects. -/
theorem C20_heteroskedastic_biased : ∃ (s2 : Fin 5 → ℝ) (μ : Measure (Fin 5 → Bool))
    (eps : (Fin 5 → Bool) → Fin 5 → ℝ) (solve : (Fin 1 → ℝ) → (Fin 1 → ℝ)),
    ex20.GoodSolver solve ∧ Noise μ eps s2 ∧ (∀ o, ex20.computePii ex20.blocksFull o ≠ 1) ∧
    ∀ (psi : Fin 2 → ℝ) (alpha : Fin 2 → ℝ), ∃ (Sii : (Fin 5 → Bool) → Fin 5 → ℝ) (tr : (Fin 5 → Bool) → ℝ),
      (∀ ω o, (ex20.obs psi alpha (eps ω)).siiHe solve .firmMean ex20.exactPii o = some (Sii ω o)) ∧
      (∀ ω, ex20.exactTraceVarHe ex20.blocksFull (Sii ω) ex20.qPsi = .ok (tr ω)) ∧
      ∫ ω, (ex20.obs psi alpha (eps ω)).varHe solve ex20.qPsi (tr ω) ∂μ
        = weightedVar (fun o => psi (ex20.j o)) ex20.DpW 0 + 12 / 875 := by
  obtain ⟨s, hs⟩ := exists_goodSolver ex20
  have hu := ex20.nmat_unit ex20_valid ex20_connected
  have hnoise := sign_noise (κ := Fin 5) ![0, 0, 1, 0, 0] (by intro o; fin_cases o <;> simp)
  have hPii : ∀ o, ex20.computePii ex20.blocksFull o = ![3 / 7, 3 / 7, 5 / 7, 5 / 7, 5 / 7] o := by
    intro o
    rw [ex20.computePii_eq ex20_valid hu, ex20_hat]
    fin_cases o <;> rfl
  have hP : ∀ o, ex20.computePii ex20.blocksFull o ≠ 1 := by
    intro o; rw [hPii]; fin_cases o <;> simp <;> norm_num
  refine ⟨![0, 0, 1, 0, 0], _, _, s, hs, hnoise, hP, fun psi alpha => ?_⟩
  refine ⟨fun ω => (ex20.obs psi alpha
    (fun o => Real.sqrt ((![0, 0, 1, 0, 0] : Fin 5 → ℝ) o) * sgn (ω o))).looSii s ex20.exactPii, fun ω => _,
    fun ω o => ?_, fun ω => rfl, ?_⟩
  · have hm : (ex20.obs psi alpha (fun o => Real.sqrt ((![0, 0, 1, 0, 0] : Fin 5 → ℝ) o) * sgn (ω o))).workerM o :=
      ex20_movers o
    rw [Panel.siiHe, if_pos hm]
  · rw [C20_var_psi_expectation ex20_valid ex20_connected hs rfl hnoise psi alpha hP .firmMean
      (Or.inr ex20_movers) _ (fun ω o => by
        have hm : (ex20.obs psi alpha (fun o => Real.sqrt ((![0, 0, 1, 0, 0] : Fin 5 → ℝ) o) * sgn (ω o))).workerM o :=
          ex20_movers o
        rw [Panel.siiHe, if_pos hm]) _ (fun ω => rfl) (by norm_num)]
    congr 1
    simp only [ex20_unit hs, hPii, ex20_hat]
    simp [Fin.sum_univ_succ]
    norm_num

/-- The hypotheses of the C20 theorems can be met: this panel with equal error variances, and a weighted
version of it with all weights 2. -/
example : ex20.Valid ∧ ex20.Connected ∧ (∃ s, ex20.GoodSolver s) ∧ (∀ o, ex20.workerM o) ∧
    (∃ (μ : Measure (Fin 5 → Bool)) (eps : (Fin 5 → Bool) → Fin 5 → ℝ), Noise μ eps (fun _ => 3)) :=
  ⟨ex20_valid, ex20_connected, exists_goodSolver ex20, ex20_movers, _, _, sign_noise _ fun _ => by norm_num⟩

def ex20w : Panel 5 1 2 := { ex20 with weighted := true, w := fun _ => 2 }

theorem ex20w_valid : ex20w.Valid where
  wpos := by intro o; simp [Panel.Dp, ex20w]
  seen := ex20_valid.seen

theorem ex20w_hat (o b : Fin 5) : hat ex20w.X ex20w.Dp o b = hat ex20.X ex20.Dp o b := by
  have hN : nmat ex20w.X ex20w.Dp = (2 : ℝ) • nmat ex20.X ex20.Dp := by
    have h1 : diagonal ex20w.Dp = (2 : ℝ) • diagonal ex20.Dp := by
      rw [← diagonal_smul]; congr 1; ext o; simp [Panel.Dp, ex20w, ex20]
    have h2 : ex20w.X = ex20.X := rfl
    rw [nmat, nmat, h1, h2]; simp
  have hinv : (nmat ex20w.X ex20w.Dp)⁻¹ = (1 / 2 : ℝ) • (nmat ex20.X ex20.Dp)⁻¹ := by
    apply inv_eq_right_inv
    rw [hN, smul_mul_smul_comm, mul_nonsing_inv _ (ex20.nmat_unit ex20_valid ex20_connected)]
    norm_num
  have h2 : ex20w.X = ex20.X := rfl
  rw [hat_apply, hat_apply, hinv, h2]
  have hd : ex20w.Dp b = 2 := by simp [Panel.Dp, ex20w]
  rw [hd, ex20_Dp]
  simp only [Matrix.mul_smul, Matrix.smul_mul, Matrix.smul_apply, smul_eq_mul]
  ring

example : ex20w.Valid ∧ ex20w.Connected ∧ (∃ s, ex20w.GoodSolver s) ∧ (∀ o, ex20w.workerM o) ∧
    (∀ o, 1 < ex20w.Dp o) ∧ (∀ o, ex20w.computePii ex20w.blocksFull o ≠ 1) ∧
    (∃ (μ : Measure (Fin 5 → Bool)) (eps : (Fin 5 → Bool) → Fin 5 → ℝ), Noise μ eps (fun o => 3 / ex20w.Dp o)) := by
  have hc : ex20w.Connected := ex20_connected
  refine ⟨ex20w_valid, hc, exists_goodSolver ex20w, ex20_movers, fun o => by simp [Panel.Dp, ex20w], fun o => ?_,
    _, _, sign_noise _ fun o => div_nonneg (by norm_num) (ex20w_valid.wpos o).le⟩
  rw [ex20w.computePii_eq ex20w_valid (ex20w.nmat_unit ex20w_valid hc), ex20w_hat, ex20_hat]
  fin_cases o <;> simp <;> norm_num

end C20

end Pytwoway.FE
