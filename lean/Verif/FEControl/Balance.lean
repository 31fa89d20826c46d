import Verif.FEControl.Mobility

/-! # What the plug-in variances gain the plug-in covariance loses (C148) -/

namespace Pytwoway.FE

open Matrix MeasureTheory Util
open scoped BigOperators

variable {n m nw : ℕ} {d : Panel n m nw} {solve : (Fin m → ℝ) → (Fin m → ℝ)}
  {Ω : Type*} [MeasurableSpace Ω] {μ : Measure Ω} {eps : Ω → Fin n → ℝ}

/-! ## Lemmas -/

theorem mean_Dp (d : Panel n m nw) (x : Fin n → ℝ) : weightedMean x d.DpW = (∑ o, d.Dp o * x o) / ∑ o, d.Dp o := by
  by_cases hw : d.weighted <;> simp [weightedMean, Panel.DpW, Panel.Dp, hw]

theorem cov_Dp (hv : d.Valid) (hn : 0 < n) (x y : Fin n → ℝ) : weightedCov x y d.DpW d.DpW 0 =
    (∑ o, d.Dp o * (x o * y o)) / (∑ o, d.Dp o) -
      ((∑ o, d.Dp o * x o) / ∑ o, d.Dp o) * ((∑ o, d.Dp o * y o) / ∑ o, d.Dp o) := by
  have hW : 0 < ∑ o, d.Dp o := Finset.sum_pos (fun o _ => hv.wpos o) ⟨⟨0, hn⟩, Finset.mem_univ _⟩
  rw [covDp hv, mean_Dp, mean_Dp]
  set W := ∑ o, d.Dp o
  set S := ∑ o, d.Dp o * x o with hS
  set T := ∑ o, d.Dp o * y o with hT
  have : ∀ o, d.Dp o * ((x o - S / W) * (y o - T / W)) = d.Dp o * (x o * y o) - T / W * (d.Dp o * x o) -
      S / W * (d.Dp o * y o) + S / W * (T / W) * d.Dp o := fun o => by ring
  simp only [this, Finset.sum_add_distrib, Finset.sum_sub_distrib, ← Finset.mul_sum]
  change (_ - T / W * S - S / W * T + S / W * (T / W) * W) / W = _
  field_simp
  ring

/-- The firm effects' part of the fit, as a matrix on outcomes. -/
noncomputable def firmPart (d : Panel n m nw) : Matrix (Fin n) (Fin n) ℝ := d.J * of fun k o => lgen d.X d.Dp (Sum.inl k) o

theorem firmPart_X (d : Panel n m nw) :
    firmPart d = d.X * of fun c o => Sum.elim (fun k => lgen d.X d.Dp (Sum.inl k) o) (fun _ => 0) c := by
  ext a o
  simp [firmPart, mul_apply, Panel.X, Fintype.sum_sum_type]

theorem hat_firmPart (hv : d.Valid) (hc : d.Connected) : hat d.X d.Dp * firmPart d = firmPart d := by
  rw [firmPart_X, ← Matrix.mul_assoc, hat_mul_X _ _ (d.nmat_unit hv hc)]

theorem firmPart_trace (hv : d.Valid) (hc : d.Connected) : ∑ o, firmPart d o o = m := by
  change (firmPart d).trace = _
  rw [firmPart, trace_mul_comm]
  have h1 := lgen_mul_X (X := d.X) (w := d.Dp) (d.nmat_unit hv hc)
  have : (of fun (k : Fin m) o => lgen d.X d.Dp (Sum.inl k) o) * d.J = 1 := by
    ext k l
    have := congrFun (congrFun h1 (Sum.inl k)) (Sum.inl l)
    rw [mul_apply] at this
    rw [mul_apply]
    simpa [Panel.X, one_apply] using this
  rw [this]
  simp

theorem firmPart_one (hv : d.Valid) (hc : d.Connected) (a : Fin n) : ∑ o, firmPart d a o = 0 := by
  have h1 : d.X *ᵥ Sum.elim 0 1 = 1 := by
    ext o; rw [d.X_mulVec]
    simp [Panel.withZero]
    refine Fin.cases ?_ (fun k => ?_) (d.j o) <;> simp
  have h2 : lgen d.X d.Dp *ᵥ (1 : Fin n → ℝ) = Sum.elim (0 : Fin m → ℝ) (1 : Fin nw → ℝ) := by
    rw [← h1, mulVec_mulVec, lgen_mul_X (d.nmat_unit hv hc), one_mulVec]
  have h3 : ∀ k : Fin m, ∑ o, lgen d.X d.Dp (Sum.inl k) o = 0 := fun k => by
    have := congrFun h2 (Sum.inl k)
    simpa [mulVec, dotProduct] using this
  simp only [firmPart, mul_apply, of_apply]
  rw [Finset.sum_comm]
  simp [← Finset.mul_sum, h3]

theorem hat_flip (a b : Fin n) : d.Dp a * hat d.X d.Dp a b = d.Dp b * hat d.X d.Dp b a := by
  rw [hat_apply, hat_apply, gmat_symm]
  ring

theorem unit_firm_fit (hv : d.Valid) (hc : d.Connected) (hs : d.GoodSolver solve) (hn : 0 < n) (o : Fin n) :
    d.unitCov solve d.qPsi d.qGamma o = d.Dp o * firmPart d o o / (∑ b, d.Dp b) -
      (∑ b, d.Dp b * firmPart d b o) / (∑ b, d.Dp b) * (d.Dp o / ∑ b, d.Dp b) := by
  have hols := ols_lmat hv hc hs (Pi.single o 1)
  have hp : d.J *ᵥ ((d.withY (Pi.single o 1)).ols solve).1 = fun b => firmPart d b o := by
    have h1 : ((d.withY (Pi.single o 1)).ols solve).1 = fun k => lgen d.X d.Dp (Sum.inl k) o := by
      funext k
      have := congrFun hols (Sum.inl k)
      rw [mulVec_single_one] at this
      exact this
    rw [h1]
    rfl
  have hf : d.X *ᵥ Sum.elim ((d.withY (Pi.single o 1)).ols solve).1 ((d.withY (Pi.single o 1)).ols solve).2 =
      fun b => hat d.X d.Dp b o := by
    rw [hols, mulVec_mulVec, mulVec_single_one]
    have e1 : d.X * d.lmat = hat d.X d.Dp := by simp only [Panel.lmat, hat, Matrix.mul_assoc]
    rw [e1]
    rfl
  change weightedCov (d.J *ᵥ ((d.withY (Pi.single o 1)).ols solve).1)
    (d.X *ᵥ Sum.elim ((d.withY (Pi.single o 1)).ols solve).1 ((d.withY (Pi.single o 1)).ols solve).2) d.DpW d.DpW 0 = _
  rw [hp, hf, cov_Dp hv hn]
  have e2 : ∑ b, d.Dp b * hat d.X d.Dp b o = d.Dp o := by
    simp only [hat_flip _ o, ← Finset.mul_sum, hat_row_sum hv hc, mul_one]
  have e3 : ∑ b, d.Dp b * (firmPart d b o * hat d.X d.Dp b o) = d.Dp o * firmPart d o o := by
    have h1 := congrFun (congrFun (hat_firmPart hv hc) o) o
    rw [mul_apply] at h1
    rw [← h1, Finset.mul_sum]
    refine Finset.sum_congr rfl fun b _ => ?_
    have := hat_flip (d := d) b o
    linear_combination firmPart d b o * this
  rw [e2, e3]

theorem firm_fit_bias (hv : d.Valid) (hc : d.Connected) (hs : d.GoodSolver solve) (hn : 0 < n) (σ2 : ℝ) :
    ∑ o, σ2 / d.Dp o * d.unitCov solve d.qPsi d.qGamma o = σ2 * m / ∑ o, d.Dp o := by
  have hW : 0 < ∑ o, d.Dp o := Finset.sum_pos (fun o _ => hv.wpos o) ⟨⟨0, hn⟩, Finset.mem_univ _⟩
  set W := ∑ o, d.Dp o with hWdef
  have e : ∀ o, σ2 / d.Dp o * d.unitCov solve d.qPsi d.qGamma o =
      σ2 / W * firmPart d o o - σ2 / W ^ 2 * ∑ b, d.Dp b * firmPart d b o := fun o => by
    have := (hv.wpos o).ne'
    rw [unit_firm_fit hv hc hs hn, ← hWdef]
    field_simp
  simp only [e, Finset.sum_sub_distrib, ← Finset.mul_sum, firmPart_trace hv hc]
  rw [Finset.sum_comm]
  simp only [← Finset.mul_sum, firmPart_one hv hc, mul_zero, Finset.sum_const_zero, sub_zero]
  ring

/-! ## C148 -/

/-- C148: with error variances `σ2` over the weight, the average plug-in variance of firm effects plus the average
plug-in covariance exceeds the sum of the true ones by exactly `σ2` times the number of firms less one, over the total
weight; likewise for workers. -/
theorem C148_balance (hv : d.Valid) (hc : d.Connected) (hs : d.GoodSolver solve) (hn : 0 < n) {σ2 : ℝ}
    (h : Noise μ eps fun o => σ2 / d.Dp o) (psi : Fin (m + 1) → ℝ) (alpha : Fin nw → ℝ) :
    (∫ ω, (d.obs psi alpha (eps ω)).varFe solve d.qPsi ∂μ) +
        ∫ ω, (d.obs psi alpha (eps ω)).covFe solve d.qPsi d.qAlpha ∂μ =
      weightedVar (fun o => psi (d.j o)) d.DpW 0 +
        weightedCov (fun o => psi (d.j o)) (fun o => alpha (d.i o)) d.DpW d.DpW 0 + σ2 * m / ∑ o, d.Dp o ∧
    (∫ ω, (d.obs psi alpha (eps ω)).varFe solve d.qAlpha ∂μ) +
        ∫ ω, (d.obs psi alpha (eps ω)).covFe solve d.qPsi d.qAlpha ∂μ =
      weightedVar (fun o => alpha (d.i o)) d.DpW 0 +
        weightedCov (fun o => psi (d.j o)) (fun o => alpha (d.i o)) d.DpW d.DpW 0 + σ2 * (nw - 1) / ∑ o, d.Dp o := by
  have hstd := stdWeight_DpW hv
  have hi := fun ql qr hl hr => plugin_expectation (r := n) hv hc hs h psi alpha ql qr hl hr
  have hself : ∀ (q : Panel.QHalf n m nw), StdWeight q.wt → ∀ u,
      (d.obs psi alpha u).varFe solve q = (d.obs psi alpha u).covFe solve q q :=
    fun q hq u => weightedVar_eq_cov _ hq
  have i1 : Integrable (fun ω => (d.obs psi alpha (eps ω)).varFe solve d.qPsi) μ := by
    simp only [hself d.qPsi hstd]; exact (hi d.qPsi d.qPsi hstd hstd).1
  have i2 : Integrable (fun ω => (d.obs psi alpha (eps ω)).varFe solve d.qAlpha) μ := by
    simp only [hself d.qAlpha hstd]; exact (hi d.qAlpha d.qAlpha hstd hstd).1
  have i3 := (hi d.qPsi d.qAlpha hstd hstd).1
  -- linearity in the second argument
  have hlin : ∀ x y : Fin n → ℝ, weightedCov x (fun o => 1 * x o + 1 * y o) d.DpW d.DpW 0 =
      weightedVar x d.DpW 0 + weightedCov x y d.DpW d.DpW 0 := fun x y => by
    rw [weightedVar_eq_cov _ hstd, cov_Dp hv hn, cov_Dp hv hn, cov_Dp hv hn]
    simp only [one_mul, mul_add, Finset.sum_add_distrib]
    ring
  have hfe : ∀ u, (d.obs psi alpha u).covFe solve d.qPsi d.qGamma =
      (d.obs psi alpha u).varFe solve d.qPsi + (d.obs psi alpha u).covFe solve d.qPsi d.qAlpha := fun u => by
    simp only [Panel.covFe, Panel.varFe, gamma_mult]
    exact hlin _ _
  have h1 := (hi d.qPsi d.qGamma hstd hstd).2
  simp only [hfe] at h1
  rw [integral_add i1 i3, firm_fit_bias hv hc hs hn, gamma_mult] at h1
  have hpl := C23_plug_in (d := d) psi alpha (usable_DpW hv hn)
  have htrue : weightedCov (d.qPsi.mult (relPsi psi) (relAlpha psi alpha)) (fun o =>
      1 * d.qPsi.mult (relPsi psi) (relAlpha psi alpha) o + 1 * d.qAlpha.mult (relPsi psi) (relAlpha psi alpha) o)
      d.qPsi.wt d.qGamma.wt 0 = weightedVar (fun o => psi (d.j o)) d.DpW 0 +
        weightedCov (fun o => psi (d.j o)) (fun o => alpha (d.i o)) d.DpW d.DpW 0 := by
    rw [← hpl.1, ← hpl.2.2.2]
    exact hlin _ _
  rw [htrue] at h1
  have h3 := C146_total hv hc hs hn h psi alpha
  have hid : ∀ ω, (d.obs psi alpha (eps ω)).varFe solve d.qGamma = (d.obs psi alpha (eps ω)).varFe solve d.qPsi +
      (d.obs psi alpha (eps ω)).varFe solve d.qAlpha + 2 * (d.obs psi alpha (eps ω)).covFe solve d.qPsi d.qAlpha :=
    fun ω => (C23_identity (d := d.obs psi alpha (eps ω)) solve ⟨hv.wpos, hv.seen⟩).1
  have i12 : Integrable (fun ω => (d.obs psi alpha (eps ω)).varFe solve d.qPsi +
      (d.obs psi alpha (eps ω)).varFe solve d.qAlpha) μ := i1.add i2
  simp only [hid] at h3
  rw [integral_add i12 (i3.const_mul _), integral_add i1 i2, integral_const_mul] at h3
  have ht := cov_add (fun o => psi (d.j o)) (fun o => alpha (d.i o)) (fun o => psi (d.j o)) (fun o => alpha (d.i o)) d.DpW
  simp only [one_mul] at ht
  rw [← weightedVar_eq_cov _ hstd, ← weightedVar_eq_cov _ hstd, ← weightedVar_eq_cov _ hstd,
    C02_cov_symm (fun o => alpha (d.i o)) (fun o => psi (d.j o))] at ht
  rw [ht] at h3
  have hsplit : σ2 * (m + nw - 1) / ∑ o, d.Dp o = σ2 * m / ∑ o, d.Dp o + σ2 * (nw - 1) / ∑ o, d.Dp o := by ring
  exact ⟨h1, by linarith⟩

/-- C148: so if any two firms are linked by at most `L` pairs of firms with `K` movers each and no weight is below `w0`,
the plug-in covariance is on average too small by at most `L² σ2 / (w0 K)`, and the plug-in variance of worker effects
too large by at most that plus `σ2` times the number of workers less one, over the total weight. -/
theorem C148_mobility (hv : d.Valid) (hc : d.Connected) (hs : d.GoodSolver solve) (hn : 0 < n) {σ2 w0 : ℝ} (hσ : 0 ≤ σ2)
    (h0 : 0 < w0) (hw : ∀ o, w0 ≤ d.Dp o) (h : Noise μ eps fun o => σ2 / d.Dp o)
    (psi : Fin (m + 1) → ℝ) (alpha : Fin nw → ℝ) {L K : ℕ} (hK : 0 < K) (hl : Spec.WellLinked d L K) :
    weightedCov (fun o => psi (d.j o)) (fun o => alpha (d.i o)) d.DpW d.DpW 0 - L ^ 2 * σ2 / (w0 * K) ≤
      ∫ ω, (d.obs psi alpha (eps ω)).covFe solve d.qPsi d.qAlpha ∂μ ∧
    ∫ ω, (d.obs psi alpha (eps ω)).varFe solve d.qAlpha ∂μ ≤
      weightedVar (fun o => alpha (d.i o)) d.DpW 0 + σ2 * (nw - 1) / (∑ o, d.Dp o) + L ^ 2 * σ2 / (w0 * K) := by
  obtain ⟨h1, h2⟩ := C148_balance hv hc hs hn h psi alpha
  have h3 := (C147_bias hv hc hs hn hσ h0 hw (fun _ => le_rfl) h psi alpha hK hl).2
  have hpos : 0 ≤ σ2 * m / ∑ o, d.Dp o :=
    div_nonneg (by positivity) (Finset.sum_nonneg fun o _ => (hv.wpos o).le)
  constructor <;> linarith

/-- The conditions hold for two workers at two firms (`C147_case`). -/
example : Spec.WellLinked ex20 1 2 ∧ ex20.Valid ∧ ex20.Connected := ⟨C147_case.1, C147_case.2.1, C147_case.2.2.1⟩

end Pytwoway.FE
