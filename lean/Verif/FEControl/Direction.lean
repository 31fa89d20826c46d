import Verif.FEControl.Traces3

/-!
# Which way the homoskedastic correction with controls goes (C129)

The correction of fecontrol.py:1199-1210 with the approximate traces of fecontrol.py:1029-1090.
-/

namespace Pytwoway.FEControl

open Matrix Pytwoway.Util MeasureTheory FE
open scoped BigOperators

variable {n m nw R : ℕ} {d : CData n m nw} {solve : List ℝ → List ℝ}
variable {Ω' : Type*} [MeasurableSpace Ω'] {ν : Measure Ω'}

theorem varFe_covFe (hd : d.Ok) (l : List String) : d.varFe solve l = d.covFe solve l l := by
  have hstd := stdWeight_DpW hd
  simp only [CData.varFe, CData.covFe]
  cases d.qCol (d.unpack (d.gammaHat solve)) l (d.gammaHat solve) with
  | none => rfl
  | some a => simp [weightedVar_eq_cov _ hstd]

theorem weightedVar_DpW_nonneg (hd : d.Ok) (x : Fin n → ℝ) : 0 ≤ weightedVar x d.DpW 0 := by
  have := stdWeight_DpW hd
  rw [CData.DpW] at this ⊢
  split at this <;> rename_i hw
  · rw [if_pos hw]
    simp only [weightedVar, sub_zero]
    exact div_nonneg (Finset.sum_nonneg fun o _ => mul_nonneg (this o) (sq_nonneg _)) (Finset.sum_nonneg fun o _ => this o)
  · rw [if_neg hw]
    simp only [weightedVar, sub_zero]
    exact div_nonneg (Finset.sum_nonneg fun o _ => sq_nonneg _) (Nat.cast_nonneg _)

/-- The error variance with controls is not negative. -/
theorem sigma2ho_controls_nonneg (hd : d.Ok) : 0 ≤ d.sigma2ho solve d.exactTraceSigma2 := by
  have hu := hd.unit
  have hT : 0 ≤ ∑ o, (1 - hat d.amat d.Dp o o) / d.Dp o :=
    Finset.sum_nonneg fun b _ => div_nonneg (by linarith [(hat_diag_mem d.amat d.Dp hd.pos hu b).2]) (hd.pos b).le
  rw [CData.sigma2ho]
  by_cases hw : d.weighted = true
  · have h1 : (∑ o, 1 / d.Dp o) - d.exactTraceSigma2 = ∑ o, (1 - hat d.amat d.Dp o o) / d.Dp o := by
      rw [exactTraceSigma2_eq hd, ← Finset.sum_sub_distrib]
      exact Finset.sum_congr rfl fun o _ => (sub_div _ _ _).symm
    rw [if_pos hw, h1]
    exact div_nonneg (mul_nonneg (Nat.cast_nonneg _) (div_nonneg (Finset.sum_nonneg fun o _ => sq_nonneg _)
      (Nat.cast_nonneg _))) hT
  · have hD1 : ∀ o, d.Dp o = 1 := fun o => by simp [CData.Dp, hw]
    have h1 : (n : ℝ) - (d.nCov : ℝ) = ∑ o, (1 - hat d.amat d.Dp o o) / d.Dp o := by
      simp only [hD1, div_one, Finset.sum_sub_distrib]
      rw [hat_trace _ _ hu]
      simp
    rw [if_neg hw, h1]
    refine div_nonneg (mul_nonneg (Nat.cast_nonneg _) ?_) hT
    have hW : d.DpW = .scalar 1 := by simp [CData.DpW, hw]
    rw [CData.sigma2fe, hW, weightedMean]
    exact div_nonneg (Finset.sum_nonneg fun o _ => mul_nonneg (hd.pos o).le (sq_nonneg _)) (Nat.cast_nonneg _)

/-- **C129**, with controls: whatever the outcomes, on average over the probes the homoskedastic correction does not raise
the variance of any sum of covariates. -/
theorem C129_controls (hd : d.Ok) (hs : d.GoodSolver solve) (hdf : d.nCov < n) (l : List String)
    (hl : ∀ s ∈ l, s ∈ d.names) (hR : 0 < R)
    (z : Fin R → Ω' → Fin d.nCov → ℝ) (hz : ∀ k, Noise ν (z k) fun _ => 1) :
    ∃ (v : ℝ) (f : Ω' → ℝ), d.varFe solve l = some v ∧
      (∀ ω, d.varHo solve l d.exactTraceSigma2 (fun k => List.ofFn (z k ω)) = some (f ω)) ∧
      Integrable f ν ∧ ∫ ω, f ω ∂ν ≤ v := by
  have hpr := (hz ⟨0, hR⟩).prob
  obtain ⟨q, u, hq, hu, iq, eq⟩ := C85_draws hd hs hR l l hl hl z hz
  obtain ⟨M, hM⟩ := qCol_mat hd.names l hl
  have hfe := covFe_form hd hs hM hM d.y
  set v := d.y ⬝ᵥ (((lgen d.amat d.Dp)ᵀ * cmat d M M * lgen d.amat d.Dp) *ᵥ d.y) with hvdef
  change d.covFe solve l l = some v at hfe
  have hpos : ∀ o, 0 ≤ u o := by
    intro o
    have hd' : (d.withY (Pi.single o 1)).Ok := ⟨hd.names, hd.pos, hd.ident⟩
    have h := hu o
    rw [← varFe_covFe hd', CData.varFe] at h
    cases hc : (d.withY (Pi.single o 1)).qCol ((d.withY (Pi.single o 1)).unpack ((d.withY (Pi.single o 1)).gammaHat solve)) l
        ((d.withY (Pi.single o 1)).gammaHat solve) with
    | none => rw [hc] at h; cases h
    | some a =>
      rw [hc] at h
      have := Option.some_inj.1 h
      rw [← this]
      exact weightedVar_DpW_nonneg hd' a
  refine ⟨v, fun ω => v - d.sigma2ho solve d.exactTraceSigma2 * ((∑ k, q k ω) / (R : ℝ)), by rw [varFe_covFe hd, hfe],
    fun ω => ?_, (integrable_const _).sub (iq.const_mul _), ?_⟩
  · rw [varHo_eq hd, CData.covHo, hfe, mapM_ofFn _ _ (fun k => q k ω) fun k => hq k ω]
    simp [List.sum_ofFn]
  · rw [integral_sub (integrable_const _) (iq.const_mul _), integral_const_mul, eq, integral_const, probReal_univ, one_smul]
    have := mul_nonneg (sigma2ho_controls_nonneg (solve := solve) hd)
      (Finset.sum_nonneg fun o _ => mul_nonneg (one_div_nonneg.mpr (hd.pos o).le) (hpos o) :
        0 ≤ ∑ o, 1 / d.Dp o * u o)
    linarith

/-- The hypotheses of `C129_controls` on data with controls. -/
example (R : ℕ) : exT.Ok ∧ exT.nCov < 8 ∧ (∃ solve, exT.GoodSolver solve) ∧ (∀ s ∈ ["psi", "region"], s ∈ exT.names) ∧
    ∃ (ν : Measure (Fin exT.nCov → Bool)) (z : Fin R → (Fin exT.nCov → Bool) → Fin exT.nCov → ℝ),
      ∀ k, Noise ν (z k) fun _ => 1 :=
  ⟨exT_ok, by decide, exists_goodSolver exT, by decide, ⟨_, fun _ => _, fun _ => sign_probe _⟩⟩

end Pytwoway.FEControl
