import Verif.FE.Props5
import Verif.FEControl.Traces2

/-! # Heteroskedastic correction with stayers: C20, C60 -/

namespace Pytwoway.FE

open Matrix Pytwoway.Util MeasureTheory
open scoped BigOperators
open Panel (QHalf)

variable {n m nw r R : ℕ} {d : Panel n m nw} {solve : (Fin m → ℝ) → (Fin m → ℝ)}
variable {Ω : Type*} [MeasurableSpace Ω] {μ : Measure Ω} {eps : Ω → Fin n → ℝ}
variable {Ω' : Type*} [MeasurableSpace Ω'] {ν : Measure Ω'}

/-- Rows whose variance estimate uses their own leverage. -/
def Panel.UsesLeverage (d : Panel n m nw) (st : Panel.Stayers) (o : Fin n) : Prop :=
  (d.weighted = false ∧ st = .upperBound) ∨ d.workerM o

/-- C60, expectation: if error variances are inversely proportional to the weights, the variance estimate of
every row is unbiased under `firm_mean` (stayers included), under unweighted `upper_bound`, and for movers. -/
theorem C60_unbiased (hv : d.Valid) (hc : d.Connected) (hs : d.GoodSolver solve) {σ2 : ℝ}
    (h : Noise μ eps fun o => σ2 / d.Dp o) (psi : Fin (m + 1) → ℝ) (alpha : Fin nw → ℝ) (st : Panel.Stayers)
    (hP : ∀ o, d.UsesLeverage st o → d.computePii d.blocksFull o ≠ 1) (o : Fin n)
    (hst : d.UsesLeverage st o ∨ st = .firmMean) (S : Ω → ℝ)
    (hS : ∀ ω, (d.obs psi alpha (eps ω)).siiHe solve st d.exactPii o = some (S ω)) :
    Integrable S μ ∧ ∫ ω, S ω ∂μ = σ2 / d.Dp o := by
  have h1 : ∀ b, d.Dp b * (σ2 / d.Dp b) = σ2 := fun b => by
    rw [mul_div_assoc', mul_div_cancel_left₀ _ (hv.wpos b).ne']
  have hloo : ∀ o, d.UsesLeverage st o → Integrable (fun ω => (d.obs psi alpha (eps ω)).looSii solve d.exactPii o) μ ∧
      ∫ ω, (d.obs psi alpha (eps ω)).looSii solve d.exactPii o ∂μ = σ2 / d.Dp o := by
    intro o ho
    have hstored : d.weighted = false ∨ d.workerM o := ho.imp And.left id
    exact ⟨(C18_expectation hv hc hs h psi alpha o (hP o ho) hstored).1,
      C18_unbiased_partial hv hc hs h psi alpha o (hP o ho) hstored⟩
  have hm' : ∀ ω o, (d.obs psi alpha (eps ω)).workerM o ↔ d.workerM o := fun _ _ => Iff.rfl
  have hj' : ∀ ω, (d.obs psi alpha (eps ω)).j = d.j := fun _ => rfl
  have hw' : ∀ ω, (d.obs psi alpha (eps ω)).weighted = d.weighted := fun _ => rfl
  have hD' : ∀ ω, (d.obs psi alpha (eps ω)).Dp = d.Dp := fun _ => rfl
  by_cases hm : d.workerM o
  · have : S = fun ω => (d.obs psi alpha (eps ω)).looSii solve d.exactPii o := by
      ext ω
      exact siiHe_mover (d := d.obs psi alpha (eps ω)) st _ o _ hm (hS ω)
    rw [this]; exact hloo o (Or.inr hm)
  · cases st with
    | upperBound =>
      have hw : d.weighted = false := by
        rcases hst with (⟨hw, -⟩ | h3) | h3
        · exact hw
        · exact absurd h3 hm
        · cases h3
      have : S = fun ω => (d.obs psi alpha (eps ω)).looSii solve d.exactPii o := by
        ext ω
        exact siiHe_eq_loo (d := d.obs psi alpha (eps ω)) .upperBound _ o _ hw (Or.inl rfl) (hS ω)
      rw [this]; exact hloo o (Or.inl ⟨hw, rfl⟩)
    | firmMean =>
      have hmov : ∀ o', d.workerM o' → Integrable (fun ω => (d.obs psi alpha (eps ω)).looSii solve d.exactPii o') μ ∧
          ∫ ω, (d.obs psi alpha (eps ω)).looSii solve d.exactPii o' ∂μ = σ2 / d.Dp o' := fun o' h3 =>
        hloo o' (Or.inr h3)
      have := h.prob
      obtain ⟨ω0⟩ := nonempty_of_isProbabilityMeasure μ
      have hex : ∃ o', d.workerM o' ∧ d.j o' = d.j o := by
        by_contra hc
        have h2 := hS ω0
        simp only [Panel.siiHe, hm', hm, hj', if_false, hc] at h2
        cases h2
      set F := Finset.univ.filter fun o' => d.workerM o' ∧ d.j o' = d.j o with hF
      have hFne : F.Nonempty := by
        obtain ⟨o', h3⟩ := hex; exact ⟨o', by simp [hF, h3.1, h3.2]⟩
      have hFm : ∀ o' ∈ F, d.workerM o' := fun o' h3 => (Finset.mem_filter.1 h3).2.1
      cases hw : d.weighted with
      | true =>
        have hSe : S = fun ω => (∑ o' ∈ F, d.Dp o' ^ 2 * (d.obs psi alpha (eps ω)).looSii solve d.exactPii o')
            * (1 / (∑ o' ∈ F, d.Dp o') / d.Dp o) := by
          ext ω
          have h2 := hS ω
          simp only [Panel.siiHe, hm', hm, hj', if_false, hex, if_true, hw', hw, hD', Option.some.injEq] at h2
          rw [← h2]; ring
        have hi : ∀ o' ∈ F, Integrable (fun ω => d.Dp o' ^ 2 * (d.obs psi alpha (eps ω)).looSii solve d.exactPii o') μ :=
          fun o' h3 => ((hmov o' (hFm o' h3)).1).const_mul _
        have hsum : ∑ o' ∈ F, d.Dp o' ≠ 0 := (Finset.sum_pos (fun o' _ => hv.wpos o') hFne).ne'
        rw [hSe]
        refine ⟨(integrable_finsetSum _ hi).mul_const _, ?_⟩
        rw [integral_mul_const, integral_finsetSum _ hi]
        have : ∀ o' ∈ F, ∫ ω, d.Dp o' ^ 2 * (d.obs psi alpha (eps ω)).looSii solve d.exactPii o' ∂μ = d.Dp o' * σ2 := by
          intro o' h3
          rw [integral_const_mul, (hmov o' (hFm o' h3)).2, pow_two, mul_assoc, h1]
        rw [Finset.sum_congr rfl this, ← Finset.sum_mul]
        have := (hv.wpos o).ne'
        field_simp
      | false =>
        have hSe : S = fun ω => (∑ o' ∈ F, (d.obs psi alpha (eps ω)).looSii solve d.exactPii o') * (1 / (F.card : ℝ)) := by
          ext ω
          have h2 := hS ω
          simp only [Panel.siiHe, hm', hm, hj', if_false, hex, if_true, hw', hw, Bool.false_eq_true,
            Option.some.injEq] at h2
          rw [← h2, mul_one_div]
        have hi : ∀ o' ∈ F, Integrable (fun ω => (d.obs psi alpha (eps ω)).looSii solve d.exactPii o') μ :=
          fun o' h3 => (hmov o' (hFm o' h3)).1
        have hcard : (F.card : ℝ) ≠ 0 := by exact_mod_cast hFne.card_pos.ne'
        have hD1 : ∀ o, d.Dp o = 1 := fun o => by simp [Panel.Dp, hw]
        rw [hSe]
        refine ⟨(integrable_finsetSum _ hi).mul_const _, ?_⟩
        rw [integral_mul_const, integral_finsetSum _ hi,
          Finset.sum_congr rfl fun o' h3 => (hmov o' (hFm o' h3)).2]
        simp only [hD1, div_one, Finset.sum_const, nsmul_eq_mul]
        field_simp

/-- C20 (partial) with stayers and approximate traces: error variances inversely proportional to the weights;
`firm_mean`, unweighted `upper_bound`, or every worker a mover.  Missing: other variance profiles, weighted
`upper_bound` with stayers, the analytical traces of components other than var(psi). -/
theorem C20_stayers_partial (hv : d.Valid) (hc : d.Connected) (hs : d.GoodSolver solve) {σ2 : ℝ}
    (h : Noise μ eps fun o => σ2 / d.Dp o) (psi : Fin (m + 1) → ℝ) (alpha : Fin nw → ℝ) (st : Panel.Stayers)
    (hP : ∀ o, d.UsesLeverage st o → d.computePii d.blocksFull o ≠ 1)
    (hst : st = .firmMean ∨ d.weighted = false ∨ ∀ o, d.workerM o)
    (Sii : Ω → Fin n → ℝ)
    (hS : ∀ ω o, (d.obs psi alpha (eps ω)).siiHe solve st d.exactPii o = some (Sii ω o))
    (ql qr : QHalf r m nw) (hl : StdWeight ql.wt) (hr : StdWeight qr.wt) (hR : 0 < R)
    (z : Fin R → Ω' → Fin m ⊕ Fin nw → ℝ) (hz : ∀ k, Noise ν (z k) fun _ => 1) :
    ∫ ω, (∫ ω', (d.obs psi alpha (eps ω)).covHe solve ql qr
        (Panel.meanDraws fun k => d.drawTraceHe solve (Sii ω) ql qr (halves (z k ω'))) ∂ν) ∂μ
      = weightedCov (ql.mult (relPsi psi) (relAlpha psi alpha)) (qr.mult (relPsi psi) (relAlpha psi alpha))
          ql.wt qr.wt 0 := by
  have hst' : ∀ o, d.UsesLeverage st o ∨ st = .firmMean := by
    intro o
    rcases hst with h1 | h1 | h1
    · exact Or.inr h1
    · cases st with
      | firmMean => exact Or.inr rfl
      | upperBound => exact Or.inl (Or.inl ⟨h1, rfl⟩)
    · exact Or.inl (Or.inr (h1 o))
  have hu := fun o => C60_unbiased hv hc hs h psi alpha st hP o (hst' o) (fun ω => Sii ω o) fun ω => hS ω o
  have := (hz ⟨0, hR⟩).prob
  obtain ⟨i1, e1⟩ := plugin_expectation hv hc hs h psi alpha ql qr hl hr
  have hin : ∀ ω, ∫ ω', (d.obs psi alpha (eps ω)).covHe solve ql qr
        (Panel.meanDraws fun k => d.drawTraceHe solve (Sii ω) ql qr (halves (z k ω'))) ∂ν
      = (d.obs psi alpha (eps ω)).covFe solve ql qr - ∑ o, Sii ω o * (d.withY (Pi.single o 1)).covFe solve ql qr := by
    intro ω
    obtain ⟨i0, e0⟩ := C21_he_draws hv hc hs (Sii ω) ql qr hl hr hR z hz
    simp only [Panel.covHe]
    rw [integral_sub (integrable_const _) i0, e0, integral_const, probReal_univ, one_smul]
  simp only [hin]
  have hi : ∀ o ∈ Finset.univ, Integrable (fun ω => Sii ω o * (d.withY (Pi.single o 1)).covFe solve ql qr) μ :=
    fun o _ => (hu o).1.mul_const _
  rw [integral_sub i1 (integrable_finsetSum _ hi), e1, integral_finsetSum _ hi, add_sub_assoc]
  simp only [integral_mul_const, (hu _).2]
  have : ∀ o, d.unitCov solve ql qr o = (d.withY (Pi.single o 1)).covFe solve ql qr := fun _ => rfl
  simp only [this, sub_self, add_zero]

/-- Two movers between two firms and a stayer at the first firm; weighted. -/
def exStay : Panel 6 1 3 where
  j := ![0, 1, 0, 1, 0, 0]
  i := ![0, 0, 1, 1, 2, 2]
  y := ![1, 3, 2, 7, 5, 4]
  weighted := true
  w := ![1, 2, 1, 3, 1, 2]

theorem exStay_valid : exStay.Valid where
  wpos := by intro o; fin_cases o <;> norm_num [Panel.Dp, exStay]
  seen := by intro i; fin_cases i; exacts [⟨0, rfl⟩, ⟨2, rfl⟩, ⟨4, rfl⟩]

theorem exStay_connected : exStay.Connected := by
  intro a b
  have h : ∀ a b : Fin 2, (∃ o o', exStay.i o = exStay.i o' ∧ exStay.j o = a ∧ exStay.j o' = b) := by decide
  obtain ⟨o, o', h1, h2, h3⟩ := h a b
  exact Relation.ReflTransGen.single ⟨o, o', h1, h2, h3⟩

theorem exStay_movers (o : Fin 6) : exStay.workerM o ↔ o.val < 4 := by revert o; decide

/-- The hypotheses of C20_stayers_partial are met with a stayer: no mover's leverage is one, and every row has
a variance estimate. -/
example : exStay.Valid ∧ exStay.Connected ∧ ¬ exStay.workerM 4 ∧
    (∀ o, exStay.UsesLeverage .firmMean o → exStay.computePii exStay.blocksFull o ≠ 1) ∧
    (∃ (μ : Measure (Fin 6 → Bool)) (eps : (Fin 6 → Bool) → Fin 6 → ℝ), Noise μ eps fun o => 2 / exStay.Dp o) ∧
    ∀ solve psi alpha e o, ∃ v, (exStay.obs psi alpha e).siiHe solve .firmMean exStay.exactPii o = some v := by
  refine ⟨exStay_valid, exStay_connected, by rw [exStay_movers]; decide, ?_, ⟨_, _, sign_noise _ fun o => ?_⟩, ?_⟩
  · intro o ho h
    have ho : o.val < 4 := by
      rcases ho with ⟨h, -⟩ | h
      · cases h
      · exact (exStay_movers o).1 h
    rw [exStay.computePii_eq exStay_valid (exStay.nmat_unit exStay_valid exStay_connected)] at h
    obtain ⟨t, ht⟩ := fit_of_hat_one exStay_valid.wpos (exStay.nmat_unit exStay_valid exStay_connected) o h
    have hf : ∀ b, Panel.withZero (t ∘ Sum.inl) (exStay.j b) + (t ∘ Sum.inr) (exStay.i b)
        = (Pi.single o 1 : Fin 6 → ℝ) b := fun b => by
      rw [← exStay.X_mulVec, Sum.elim_comp_inl_inr, ht]
    have h0 := hf 0; have h1 := hf 1; have h2 := hf 2; have h3 := hf 3
    have j0 : exStay.j 0 = 0 := rfl
    have j1 : exStay.j 1 = 1 := rfl
    have j2 : exStay.j 2 = 0 := rfl
    have j3 : exStay.j 3 = 1 := rfl
    have i0 : exStay.i 0 = 0 := rfl
    have i1 : exStay.i 1 = 0 := rfl
    have i2 : exStay.i 2 = 1 := rfl
    have i3 : exStay.i 3 = 1 := rfl
    rw [j0, i0] at h0; rw [j1, i1] at h1; rw [j2, i2] at h2; rw [j3, i3] at h3
    fin_cases o <;> simp at h0 h1 h2 h3 ho <;> linarith
  · have := exStay_valid.wpos o; positivity
  · intro solve psi alpha e o
    have hm : ∀ o, (exStay.obs psi alpha e).workerM o ↔ o.val < 4 := exStay_movers
    by_cases h : o.val < 4
    · rw [Panel.siiHe, if_pos ((hm o).2 h)]; exact ⟨_, rfl⟩
    · have hex : ∃ o', (exStay.obs psi alpha e).workerM o' ∧ (exStay.obs psi alpha e).j o' = (exStay.obs psi alpha e).j o := by
        refine ⟨0, (hm 0).2 (by decide), ?_⟩
        change exStay.j 0 = exStay.j o
        revert h; revert o; decide
      have hw : (exStay.obs psi alpha e).weighted = true := rfl
      rw [Panel.siiHe, if_neg (fun h' => h ((hm o).1 h')), if_pos hex, if_pos hw]
      exact ⟨_, rfl⟩

end Pytwoway.FE
