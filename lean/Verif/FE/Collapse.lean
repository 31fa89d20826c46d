import Verif.FE.Invariance

/-!
# Collapsing a panel (C116)

A panel is often collapsed (by the `collapse` method of bipartitepandas, which is not modelled) before it is passed to
`FEEstimator`: rows of the same worker at the same firm become one row with their (weighted) mean outcome and their total
weight, which the estimator then reads (fe.py:200, 452-464; without weights every row counts once, fe.py:465-476).  An
integer weight `k` is the special case of `k` identical rows.
-/

namespace Pytwoway.FE

open Matrix Pytwoway.Util
open scoped BigOperators

variable {n N m nw : ℕ}

/-- What a user means by `d` being a collapsed version of `e`: row `s` of `e` goes into row `ρ s` of `d`, which is of the
same worker at the same firm; a row of `d` has the total weight of the rows that went into it, and their weighted mean
outcome. -/
structure Spec.Collapsed (e : Panel N m nw) (d : Panel n m nw) (ρ : Fin N → Fin n) : Prop where
  firm : ∀ s, e.j s = d.j (ρ s)
  worker : ∀ s, e.i s = d.i (ρ s)
  weight : ∀ o, d.Dp o = ∑ s with ρ s = o, e.Dp s
  outcome : ∀ o, d.y o = (∑ s with ρ s = o, e.Dp s * e.y s) / ∑ s with ρ s = o, e.Dp s

variable {e : Panel N m nw} {d : Panel n m nw} {ρ : Fin N → Fin n} {solve solve' : (Fin m → ℝ) → (Fin m → ℝ)}

namespace Spec.Collapsed

/-- A weighted sum over the rows of `e` of something known per row of `d`. -/
theorem sum (h : Spec.Collapsed e d ρ) (F : Fin n → ℝ) : ∑ s, e.Dp s * F (ρ s) = ∑ o, d.Dp o * F o := by
  rw [← Finset.sum_fiberwise Finset.univ ρ]
  refine Finset.sum_congr rfl fun o _ => ?_
  rw [h.weight, Finset.sum_mul]
  refine Finset.sum_congr rfl fun s hs => ?_
  rw [(Finset.mem_filter.mp hs).2]

theorem sumY (h : Spec.Collapsed e d ρ) (hd : ∀ o, d.Dp o ≠ 0) (F : Fin n → ℝ) :
    ∑ s, e.Dp s * e.y s * F (ρ s) = ∑ o, d.Dp o * d.y o * F o := by
  rw [← Finset.sum_fiberwise Finset.univ ρ]
  refine Finset.sum_congr rfl fun o _ => ?_
  have h1 : d.Dp o * d.y o = ∑ s with ρ s = o, e.Dp s * e.y s := by
    rw [h.outcome, ← h.weight, mul_div_cancel₀ _ (hd o)]
  rw [h1, Finset.sum_mul]
  refine Finset.sum_congr rfl fun s hs => ?_
  rw [(Finset.mem_filter.mp hs).2]

theorem ssr (h : Spec.Collapsed e d ρ) (hd : ∀ o, d.Dp o ≠ 0) (psi : Fin (m + 1) → ℝ) (alpha : Fin nw → ℝ) :
    e.SSR psi alpha = d.SSR psi alpha + (∑ s, e.Dp s * e.y s ^ 2 - ∑ o, d.Dp o * d.y o ^ 2) := by
  have h1 := h.sumY hd fun o => -2 * (alpha (d.i o) + psi (d.j o))
  have h2 := h.sum fun o => (alpha (d.i o) + psi (d.j o)) ^ 2
  have e1 : e.SSR psi alpha = ∑ s, e.Dp s * e.y s ^ 2 + ∑ s, e.Dp s * e.y s * (-2 * (alpha (d.i (ρ s)) + psi (d.j (ρ s))))
      + ∑ s, e.Dp s * (alpha (d.i (ρ s)) + psi (d.j (ρ s))) ^ 2 := by
    rw [Panel.SSR, ← Finset.sum_add_distrib, ← Finset.sum_add_distrib]
    refine Finset.sum_congr rfl fun s _ => ?_
    rw [h.firm, h.worker]; ring
  have e2 : d.SSR psi alpha = ∑ o, d.Dp o * d.y o ^ 2 + ∑ o, d.Dp o * d.y o * (-2 * (alpha (d.i o) + psi (d.j o)))
      + ∑ o, d.Dp o * (alpha (d.i o) + psi (d.j o)) ^ 2 := by
    rw [Panel.SSR, ← Finset.sum_add_distrib, ← Finset.sum_add_distrib]
    refine Finset.sum_congr rfl fun s _ => ?_
    ring
  rw [e1, e2, h1, h2]; ring

theorem surj (h : Spec.Collapsed e d ρ) (hv : d.Valid) (o : Fin n) : ∃ s, ρ s = o := by
  by_contra hne
  have h1 := hv.wpos o
  rw [h.weight, Finset.filter_false_of_mem (fun s _ hs => hne ⟨s, hs⟩), Finset.sum_empty] at h1
  exact lt_irrefl _ h1

/-- Collapsing does not lose a worker, and does not disconnect the firms; the other way round too. -/
theorem connected (h : Spec.Collapsed e d ρ) (hv : d.Valid) : e.Connected ↔ d.Connected := by
  have hl : ∀ u v, e.Linked u v ↔ d.Linked u v := by
    intro u v
    constructor
    · rintro ⟨s, s', h1, h2, h3⟩
      exact ⟨ρ s, ρ s', by rw [← h.worker, ← h.worker, h1], by rw [← h.firm, h2], by rw [← h.firm, h3]⟩
    · rintro ⟨o, o', h1, h2, h3⟩
      obtain ⟨s, rfl⟩ := h.surj hv o
      obtain ⟨s', rfl⟩ := h.surj hv o'
      exact ⟨s, s', by rw [h.worker, h.worker, h1], by rw [h.firm, h2], by rw [h.firm, h3]⟩
  have : e.Linked = d.Linked := by funext u v; exact propext (hl u v)
  unfold Panel.Connected
  rw [this]

theorem valid (h : Spec.Collapsed e d ρ) (hv : d.Valid) (hw : ∀ s, 0 < e.Dp s) : e.Valid where
  wpos := hw
  seen := by
    intro i
    obtain ⟨o, ho⟩ := hv.seen i
    obtain ⟨s, rfl⟩ := h.surj hv o
    exact ⟨s, by rw [h.worker, ho]⟩

end Spec.Collapsed

/-- C116, effects: a panel and its collapsed version get the same effect for every firm and for every worker. -/
theorem C116_effects (h : Spec.Collapsed e d ρ) (hv : d.Valid) (hw : ∀ s, 0 < e.Dp s) (hc : d.Connected)
    (hs : d.GoodSolver solve) (hs' : e.GoodSolver solve') : e.ols solve' = d.ols solve := by
  have hu := C16_unique (h.valid hv hw) ((h.connected hv).mpr hc) hs' (Panel.withZero (d.ols solve).1) (d.ols solve).2
    rfl (by
      intro psi' alpha'
      have hd : ∀ o, d.Dp o ≠ 0 := fun o => (hv.wpos o).ne'
      rw [h.ssr hd, h.ssr hd]
      exact add_le_add_left (C15_optimal hv hs psi' alpha') _)
  refine Prod.ext ?_ hu.2.symm
  funext k
  exact (congrFun hu.1 k.succ).symm

theorem weightedCov_DpW (d : Panel n m nw) (hv : ∀ o, 0 < d.Dp o) (x y : Fin n → ℝ) :
    weightedCov x y d.DpW d.DpW 0 =
      (∑ o, d.Dp o * ((x o - (∑ o, d.Dp o * x o) / ∑ o, d.Dp o) * (y o - (∑ o, d.Dp o * y o) / ∑ o, d.Dp o))) /
        ∑ o, d.Dp o := by
  unfold Panel.DpW
  by_cases hw : d.weighted = true
  · have hD : d.Dp = d.w := by funext o; simp [Panel.Dp, hw]
    have hq : ∀ o, Real.sqrt (d.w o * d.w o) = d.w o := fun o => Real.sqrt_mul_self (by rw [← hD]; exact (hv o).le)
    simp only [hw, if_true, weightedCov, weightedMean, Weight.at, hq, sub_zero, hD, mul_assoc]
  · have hD : d.Dp = fun _ => 1 := by funext o; simp [Panel.Dp, hw]
    simp [hw, weightedCov, weightedMean, hD]

theorem Spec.Collapsed.cov (h : Spec.Collapsed e d ρ) (hv : d.Valid) (hw : ∀ s, 0 < e.Dp s) (x y : Fin n → ℝ) :
    weightedCov (fun s => x (ρ s)) (fun s => y (ρ s)) e.DpW e.DpW 0 = weightedCov x y d.DpW d.DpW 0 := by
  have h1 : ∑ s, e.Dp s = ∑ o, d.Dp o := by simpa using h.sum fun _ => 1
  rw [weightedCov_DpW _ hw, weightedCov_DpW _ hv.wpos, h.sum x, h.sum y, h1,
    h.sum fun o => (x o - (∑ o, d.Dp o * x o) / ∑ o, d.Dp o) * (y o - (∑ o, d.Dp o * y o) / ∑ o, d.Dp o)]

/-- C116, plug-in components: a panel and its collapsed version get the same variances and covariance. -/
theorem C116_plug_in (h : Spec.Collapsed e d ρ) (hv : d.Valid) (hw : ∀ s, 0 < e.Dp s) (hc : d.Connected)
    (hs : d.GoodSolver solve) (hs' : e.GoodSolver solve') :
    e.varFe solve' e.qPsi = d.varFe solve d.qPsi ∧
    e.varFe solve' e.qAlpha = d.varFe solve d.qAlpha ∧
    e.varFe solve' e.qGamma = d.varFe solve d.qGamma ∧
    e.covFe solve' e.qPsi e.qAlpha = d.covFe solve d.qPsi d.qAlpha := by
  have ho := C116_effects h hv hw hc hs hs'
  obtain ⟨p1, p2, p3, p4⟩ := C23_attached (d := d) solve
  obtain ⟨q1, q2, q3, q4⟩ := C23_attached (d := e) solve'
  have h1 : e.psiCol solve' = fun s => d.psiCol solve (ρ s) := by
    funext s; simp only [Panel.psiCol, ho, h.firm]
  have h2 : e.alphaCol solve' = fun s => d.alphaCol solve (ρ s) := by
    funext s; simp only [Panel.alphaCol, ho, h.worker]
  have hstd := stdWeight_DpW hv
  have hstd' := stdWeight_DpW (h.valid hv hw)
  rw [p1, p2, p3, p4, q1, q2, q3, q4]
  simp only [weightedVar_eq_cov _ hstd, weightedVar_eq_cov _ hstd', h1, h2]
  exact ⟨h.cov hv hw _ _, h.cov hv hw _ _, h.cov hv hw (fun o => d.psiCol solve o + d.alphaCol solve o)
    (fun o => d.psiCol solve o + d.alphaCol solve o), h.cov hv hw _ _⟩

/-! ## Leverages -/

/-- Leverages do not depend on the outcomes, so any outcomes may be collapsed along. -/
theorem Spec.Collapsed.withY (h : Spec.Collapsed e d ρ) (y : Fin N → ℝ) :
    Spec.Collapsed (e.withY y) (d.withY fun o => (∑ s with ρ s = o, e.Dp s * y s) / ∑ s with ρ s = o, e.Dp s) ρ :=
  ⟨h.firm, h.worker, h.weight, fun _ => rfl⟩

/-- C116, leverages: the leverage of a collapsed row is shared among the rows that went into it in proportion to their
weights. -/
theorem C116_leverage (h : Spec.Collapsed e d ρ) (hv : d.Valid) (hw : ∀ s, 0 < e.Dp s) (hc : d.Connected) (s : Fin N) :
    e.computePii e.blocksFull s = e.Dp s / d.Dp (ρ s) * d.computePii d.blocksFull (ρ s) := by
  obtain ⟨solve, hs⟩ := exists_goodSolver d
  obtain ⟨solve', hs'⟩ := exists_goodSolver e
  have hve := h.valid hv hw
  have hce := (h.connected hv).mpr hc
  have k1 := C17_leverage_is_sensitivity solve hv hc (ρ s) hs (e.Dp s / d.Dp (ρ s)) 0
  have k2 := C17_leverage_is_sensitivity solve' hve hce s hs' 1 0
  have step : ∀ v : Fin N → ℝ, e.proj solve' v .no .yes s =
      d.proj solve (fun o => (∑ s with ρ s = o, e.Dp s * v s) / ∑ s with ρ s = o, e.Dp s) .no .yes (ρ s) := by
    intro v
    have ho := C116_effects (h.withY v) (valid_withY hv _) hw hc (solve := solve) (solve' := solve') hs hs'
    rw [proj_cols, proj_cols]
    simp only [Panel.psiCol, Panel.alphaCol, ho]
    have e1 : (e.withY v).j s = d.j (ρ s) := h.firm s
    have e2 : (e.withY v).i s = d.i (ρ s) := h.worker s
    rw [e1, e2]; rfl
  rw [step, step] at k2
  rw [one_mul] at k2
  rw [← k2, mul_comm, ← mul_comm, ← k1]
  congr 1
  · congr 1
    funext o
    by_cases hx : o = ρ s
    · subst hx
      rw [Function.update_self, ← h.weight]
      simp only [Pi.zero_apply, zero_add, Function.update_apply, mul_ite, mul_one, mul_zero]
      rw [Finset.sum_ite_eq' _ s]
      simp
    · rw [Function.update_of_ne hx]
      simp only [Pi.zero_apply, Function.update_apply, zero_add, mul_ite, mul_one, mul_zero]
      rw [Finset.sum_ite_eq' _ s]
      simp [Ne.symm hx]
  · simp only [Pi.zero_apply, mul_zero, Finset.sum_const_zero, zero_div]
    rfl

/-! ## Traces of the homoskedastic correction -/

namespace Spec.Collapsed

theorem gram (h : Spec.Collapsed e d ρ) {k l : ℕ} {A : Matrix (Fin N) (Fin k) ℝ} {A' : Matrix (Fin n) (Fin k) ℝ}
    {B B₀ : Matrix (Fin N) (Fin l) ℝ} {B' B₀' : Matrix (Fin n) (Fin l) ℝ} (hA : ∀ s, A s = A' (ρ s))
    (hB : ∀ s c, B s c = e.Dp s * B₀ s c) (hB' : ∀ o c, B' o c = d.Dp o * B₀' o c) (h0 : ∀ s, B₀ s = B₀' (ρ s)) :
    Aᵀ * B = A'ᵀ * B' := by
  ext a c
  simp only [mul_apply, transpose_apply]
  calc ∑ s, A s a * B s c = ∑ s, e.Dp s * (A' (ρ s) a * B₀' (ρ s) c) :=
        Finset.sum_congr rfl fun s _ => by rw [hA, hB, h0]; ring
    _ = ∑ o, d.Dp o * (A' o a * B₀' o c) := h.sum fun o => A' o a * B₀' o c
    _ = _ := Finset.sum_congr rfl fun o _ => by rw [hB']; ring

theorem J (h : Spec.Collapsed e d ρ) (s : Fin N) : e.J s = d.J (ρ s) := by
  funext k; simp only [Panel.J, Panel.Jfull, of_apply, h.firm]

theorem W (h : Spec.Collapsed e d ρ) (s : Fin N) : e.W s = d.W (ρ s) := by
  funext k; simp only [Panel.W, of_apply, h.worker]

theorem WtDpJ (h : Spec.Collapsed e d ρ) : e.WtDpJ = d.WtDpJ :=
  h.gram h.W (fun _ _ => rfl) (fun _ _ => rfl) h.J

theorem Dwinv (h : Spec.Collapsed e d ρ) : e.Dwinv = d.Dwinv := by
  have key := h.gram (A := e.W) (A' := d.W) (B := e.DpWm) (B' := d.DpWm) h.W (fun _ _ => rfl) (fun _ _ => rfl) h.W
  funext i
  rw [Panel.Dwinv, Panel.Dwinv, C05_diag_of_prod, C05_diag_of_prod, key]

theorem Minv (h : Spec.Collapsed e d ρ) : e.Minv = d.Minv := by
  have key : e.Jᵀ * e.DpJ = d.Jᵀ * d.DpJ := h.gram h.J (fun _ _ => rfl) (fun _ _ => rfl) h.J
  unfold Panel.Minv
  rw [key, h.WtDpJ]
  congr 2
  unfold Panel.DwinvWtDpJ
  rw [h.Dwinv, h.WtDpJ]

theorem blocksFull (h : Spec.Collapsed e d ρ) : e.blocksFull = d.blocksFull := by
  have key : e.Jᵀ * (of fun o i => e.DpWm o i * e.Dwinv i) = d.Jᵀ * (of fun o i => d.DpWm o i * d.Dwinv i) := by
    refine h.gram (B₀ := of fun o i => e.W o i * e.Dwinv i) (B₀' := of fun o i => d.W o i * d.Dwinv i) h.J
      (fun s c => ?_) (fun s c => ?_) (fun s => ?_)
    · simp only [of_apply, Panel.DpWm, mul_assoc]
    · simp only [of_apply, Panel.DpWm, mul_assoc]
    · funext c; simp only [of_apply, h.W, h.Dwinv]
  rw [h.Dwinv] at key
  unfold Panel.blocksFull
  simp only [Matrix.mul_assoc, h.Minv, h.Dwinv, key]

theorem form (h : Spec.Collapsed e d ρ) (hv : d.Valid) (hw : ∀ s, 0 < e.Dp s) {k l : ℕ} {A : Matrix (Fin N) (Fin k) ℝ}
    {A' : Matrix (Fin n) (Fin k) ℝ} {B : Matrix (Fin N) (Fin l) ℝ} {B' : Matrix (Fin n) (Fin l) ℝ}
    (hA : ∀ s, A s = A' (ρ s)) (hB : ∀ s, B s = B' (ρ s)) :
    Aᵀ * kmat (Panel.wvec e.DpW) (Panel.wvec e.DpW) * B = A'ᵀ * kmat (Panel.wvec d.DpW) (Panel.wvec d.DpW) * B' := by
  have hstd := stdWeight_DpW hv
  have hstd' := stdWeight_DpW (h.valid hv hw)
  have key : ∀ {r k l : ℕ} (A : Matrix (Fin r) (Fin k) ℝ) (B : Matrix (Fin r) (Fin l) ℝ) (K : Matrix (Fin r) (Fin r) ℝ) a b,
      (Aᵀ * K * B) a b = (fun s => A s a) ⬝ᵥ (K *ᵥ fun s => B s b) := by
    intro r k l A B K a b
    rw [Matrix.mul_assoc, mul_apply]
    rfl
  ext a b
  rw [key, key, ← weightedCov_kmat _ _ hstd' hstd', ← weightedCov_kmat _ _ hstd hstd, ← h.cov hv hw]
  simp only [hA, hB]

end Spec.Collapsed

/-- C116, exact traces of the homoskedastic correction: the same for a panel and its collapsed version, so the corrections
differ only by the estimates of the noise variance. -/
theorem C116_exact_trace (h : Spec.Collapsed e d ρ) (hv : d.Valid) (hw : ∀ s, 0 < e.Dp s) :
    Panel.exactTraceVarHo e.blocksFull e.qPsi = Panel.exactTraceVarHo d.blocksFull d.qPsi ∧
    Panel.exactTraceVarHo e.blocksFull e.qAlpha = Panel.exactTraceVarHo d.blocksFull d.qAlpha ∧
    Panel.exactTraceCovHo e.blocksFull e.qPsi e.qAlpha = Panel.exactTraceCovHo d.blocksFull d.qPsi d.qAlpha := by
  have hstd := wvec_nonneg (stdWeight_DpW hv)
  have hstd' := wvec_nonneg (stdWeight_DpW (h.valid hv hw))
  simp only [Panel.exactTraceVarHo, Panel.exactTraceCovHo, Panel.qPsi, Panel.qAlpha, qCovMat_eq, qVarMat_eq _ _ hstd,
    qVarMat_eq _ _ hstd', h.blocksFull, h.form hv hw h.J h.J, h.form hv hw h.W h.W, h.form hv hw h.J h.W, and_self]

/-- C116, approximate traces of the homoskedastic correction: with the same draw, the same for a panel and its collapsed
version. -/
theorem C116_draw_trace (h : Spec.Collapsed e d ρ) (hv : d.Valid) (hw : ∀ s, 0 < e.Dp s) (hc : d.Connected)
    (hs : d.GoodSolver solve) (hs' : e.GoodSolver solve') (z : (Fin m → ℝ) × (Fin nw → ℝ)) :
    e.drawTraceHo solve' e.qPsi e.qPsi z = d.drawTraceHo solve d.qPsi d.qPsi z ∧
    e.drawTraceHo solve' e.qAlpha e.qAlpha z = d.drawTraceHo solve d.qAlpha d.qAlpha z ∧
    e.drawTraceHo solve' e.qGamma e.qGamma z = d.drawTraceHo solve d.qGamma d.qGamma z ∧
    e.drawTraceHo solve' e.qPsi e.qAlpha z = d.drawTraceHo solve d.qPsi d.qAlpha z := by
  have hM := d.Minv_unit hv (d.nmat_unit hv hc)
  have hsol : ∀ b, solve' b = solve b := by
    intro b
    have hb : ∃ x, d.Minv *ᵥ x = b := ⟨d.Minv⁻¹ *ᵥ b, by rw [mulVec_mulVec, mul_nonsing_inv _ hM, one_mulVec]⟩
    have h1 := hs b hb
    have h2 := hs' b (by rw [h.Minv]; exact hb)
    rw [h.Minv] at h2
    have h4 : d.Minv *ᵥ solve' b = d.Minv *ᵥ solve b := h2.trans h1.symm
    have h3 := congrArg (d.Minv⁻¹ *ᵥ ·) h4
    simpa only [mulVec_mulVec, nonsing_inv_mul _ hM, one_mulVec] using h3
  have hDW : e.DwinvWtDpJ = d.DwinvWtDpJ := by
    unfold Panel.DwinvWtDpJ
    rw [h.Dwinv, h.WtDpJ]
  have hA : e.multAAinv solve' z = d.multAAinv solve z := by
    simp only [Panel.multAAinv, hsol, h.Dwinv, hDW]
  have m1 : ∀ p a, e.qPsi.mult p a = fun s => d.qPsi.mult p a (ρ s) := by
    intro p a; funext s; simp only [Panel.qPsi, Panel.QHalf.mult, mulVec, h.J]
  have m2 : ∀ p a, e.qAlpha.mult p a = fun s => d.qAlpha.mult p a (ρ s) := by
    intro p a; funext s; simp only [Panel.qAlpha, Panel.QHalf.mult, mulVec, h.W]
  have m3 : ∀ p a, e.qGamma.mult p a = fun s => d.qGamma.mult p a (ρ s) := by
    intro p a; funext s
    have e1 : fromCols e.J e.W s = fromCols d.J d.W (ρ s) := by
      funext j
      cases j with
      | inl k => exact congrFun (h.J s) k
      | inr k => exact congrFun (h.W s) k
    simp only [Panel.qGamma, Panel.QHalf.mult, mulVec, e1]
  simp only [Panel.drawTraceHo, hA, m1, m2, m3]
  exact ⟨h.cov hv hw _ _, h.cov hv hw _ _, h.cov hv hw _ _, h.cov hv hw _ _⟩

/-! ## A case -/

/-- Worker 0 is seen twice at firm 0 and once at firm 1, worker 1 once at each, without weights. -/
def exLong : Panel 5 1 2 := { ex20 with y := ![1, 4, 2, 0, 5] }

/-- The two rows of worker 0 at firm 0 are one row of weight 2. -/
noncomputable def exShort : Panel 4 1 2 := ⟨![0, 1, 0, 1], ![0, 0, 1, 1], ![5 / 2, 2, 0, 5], true, ![2, 1, 1, 1]⟩

theorem exRows : ∀ o : Fin 4, (Finset.univ.filter fun x : Fin 5 => (![0, 0, 1, 2, 3] : Fin 5 → Fin 4) x = o).card
    = ![2, 1, 1, 1] o := by decide

theorem exShort_collapsed : Spec.Collapsed exLong exShort ![0, 0, 1, 2, 3] where
  firm := by intro s; fin_cases s <;> rfl
  worker := by intro s; fin_cases s <;> rfl
  weight := by
    intro o
    fin_cases o <;> simp [exLong, exShort, ex20, Panel.Dp, exRows]
  outcome := by
    intro o
    rw [Finset.sum_filter]
    fin_cases o <;> simp [exLong, exShort, ex20, Panel.Dp, Fin.sum_univ_succ, exRows]; all_goals norm_num

/-- The hypotheses of the C116 theorems can be met. -/
example : exShort.Valid ∧ (∀ s, 0 < exLong.Dp s) ∧ exShort.Connected ∧ (∃ s, exShort.GoodSolver s) ∧
    (∃ s, exLong.GoodSolver s) ∧ Spec.Collapsed exLong exShort ![0, 0, 1, 2, 3] := by
  have hv : exShort.Valid := by
    refine ⟨fun o => ?_, fun i => ?_⟩
    · fin_cases o <;> simp [exShort, Panel.Dp]
    · fin_cases i; exacts [⟨0, rfl⟩, ⟨2, rfl⟩]
  exact ⟨hv, fun s => ex20_valid.wpos s, (exShort_collapsed.connected hv).mp ex20_connected, exists_goodSolver _,
    exists_goodSolver _, exShort_collapsed⟩

end Pytwoway.FE
