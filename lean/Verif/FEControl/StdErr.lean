import Verif.FEControl.Efficient
import Verif.FEControl.Invariance
import Verif.FEControl.Traces3

/-! # Standard errors compared with the error they estimate (C142) -/

namespace Pytwoway.FEControl

open Matrix MeasureTheory FE
open scoped BigOperators
open Tol (effects gammaTrue_effects)

variable {n m nw : ℕ} {d : CData n m nw} {solve : List ℝ → List ℝ}
  {Ω : Type*} [MeasurableSpace Ω] {μ : Measure Ω} {eps : Ω → Fin n → ℝ} {σ2 : ℝ}

/-! ## Specification -/

namespace Spec

/-- `coef` and `se2` are the reported coefficient of the control `name` and the square of its reported standard error
(no clusters), as functions of the outcomes. -/
def Reports (d : CData n m nw) (solve : List ℝ → List ℝ) (name : String) (coef se2 : (Fin n → ℝ) → ℝ) : Prop :=
  ∀ y, dget ((d.withY y).unpack ((d.withY y).gammaHat solve)).gamma name = some (.num (coef y)) ∧
    (d.withY y).standardSq solve name = some (se2 y)

end Spec

/-! ## Lemmas -/

theorem unit_solvable (hd : d.Ok) (p : ℕ) : ∃ x, x.length = d.nCov ∧ d.AtDpA x = CData.unitVec d.nCov p := by
  have hl : (CData.unitVec d.nCov p).length = d.nCov := by simp [CData.unitVec]
  obtain ⟨b, hb⟩ : ∃ b : Fin d.nCov → ℝ, CData.unitVec d.nCov p = List.ofFn b :=
    ⟨fun c => (CData.unitVec d.nCov p)[c]'(by rw [hl]; exact c.2), by
      apply List.ext_getElem
      · simp [hl]
      · intro k h1 h2; simp⟩
  refine ⟨List.ofFn ((nmat d.amat d.Dp)⁻¹ *ᵥ b), by simp, ?_⟩
  rw [AtDpA_ofFn hd.names, mulVec_mulVec, mul_nonsing_inv _ hd.unit, one_mulVec, hb]

/-- The coefficients on outcomes do not depend on the outcomes. -/
theorem standard_fixed (hd : d.Ok) (hwt : d.weighted = false) (hs : d.GoodSolver solve) (c : Cts n) (hc : c ∈ d.cts) :
    ∃ a : Fin n → ℝ, Spec.Reports d solve c.name (fun y => ∑ o, a o * y o)
      fun y => (∑ o, (d.withY y).E solve o ^ 2) / n * ∑ o, a o ^ 2 := by
  obtain ⟨pre, post, hsp⟩ := mem_of_split (show Cov.cts c ∈ d.covs by simp [CData.covs, hc])
  refine ⟨d.multA (solve (CData.unitVec d.nCov (start m nw pre))), fun y => ?_⟩
  have hD : ∀ o, (d.withY y).Dp o = 1 := fun o => by
    change d.Dp o = 1
    simp [CData.Dp, hwt]
  have hw : ∀ o, 0 ≤ (d.withY y).Dp o := fun o => by rw [hD]; norm_num
  have hs' : (d.withY y).GoodSolver solve := hs
  have hn' : (d.withY y).names.Nodup := hd.names
  obtain ⟨hl, hN⟩ := gammaHat_spec hn' hw hs'
  obtain ⟨p, x, hp, hx, hpx⟩ := (C24_unpack hn' ((d.withY y).gammaHat solve) hl).2.2.2 c hc
  have hp0 := idx_of_split hn' ((d.withY y).gammaHat solve) (d := d.withY y) (c := Cov.cts c) hsp
  have hpp : p = start m nw pre := by
    have := hp.symm.trans hp0
    simp only [Option.some.injEq, Prod.mk.injEq] at this
    exact this.1
  subst hpp
  have hb : start m nw pre + 1 ≤ d.nCov := bound_of_split hd.names hsp
  generalize start m nw pre = p at *
  obtain ⟨hz1, hz2⟩ := hs _ (unit_solvable hd p)
  have h4 : (d.withY y).multAT (fun o => d.multA (solve (CData.unitVec d.nCov p)) o) = CData.unitVec d.nCov p := hz2
  refine ⟨?_, ?_⟩
  · have h1 := dotR_unit ((d.withY y).gammaHat solve) d.nCov p (by omega) hl
    rw [hpx, Option.some_inj] at h1
    have h3 := dotR_multAT (d := d.withY y) ((d.withY y).gammaHat solve)
      fun o => d.multA (solve (CData.unitVec d.nCov p)) o
    rw [h4] at h3
    rw [hx, h1, h3]
    have h2 := congrArg (dotR (solve (CData.unitVec d.nCov p))) hN
    rw [CData.AtDpA, dotR_multAT, dotR_multAT] at h2
    simp only [hD, one_mul] at h2 ⊢
    have e : ∑ o, d.multA (solve (CData.unitVec d.nCov p)) o * y o =
        ∑ o, (d.withY y).multA (solve (CData.unitVec d.nCov p)) o * (d.withY y).y o := rfl
    rw [e, ← h2]
    congr 2
    exact Finset.sum_congr rfl fun o _ => mul_comm _ _
  · have h1 := dotR_unit (solve (CData.unitVec d.nCov p)) d.nCov p (by omega) hz1
    have h3 := dotR_multAT (d := d.withY y) (solve (CData.unitVec d.nCov p))
      fun o => d.multA (solve (CData.unitVec d.nCov p)) o
    rw [h4] at h3
    rw [h3] at h1
    have hsig : (d.withY y).sigma2fe solve = (∑ o, (d.withY y).E solve o ^ 2) / n := by
      have hwt' : (d.withY y).weighted = false := hwt
      simp [CData.sigma2fe, CData.DpW, hwt', hD, Util.weightedMean]
    have hwt' : (d.withY y).weighted = false := hwt
    have hc' : (d.withY y).nCov = d.nCov := rfl
    have hm : (d.withY y).multA = d.multA := rfl
    simp only [CData.standardSq, hp, hwt', Option.bind_eq_bind, Option.bind_some]
    simp only [Bool.false_eq_true, if_false, hc', h1, Option.bind_some, hsig, hD, hm, one_mul, Option.pure_def,
      pow_two]

theorem Spec.Reports.unique {name : String} {coef se2 coef' se2' : (Fin n → ℝ) → ℝ}
    (h : Spec.Reports d solve name coef se2) (h' : Spec.Reports d solve name coef' se2') : coef = coef' ∧ se2 = se2' := by
  constructor <;> funext y
  · have := (h y).1.symm.trans (h' y).1
    simpa using this
  · have := (h y).2.symm.trans (h' y).2
    simpa using this

/-- Without errors the coefficient is the true one. -/
theorem coef_noiseless (hd : d.Ok) (hs : d.GoodSolver solve) (c : Cts n) (hc : c ∈ d.cts) (t : Truth m nw)
    {coef se2 : (Fin n → ℝ) → ℝ} (h : Spec.Reports d solve c.name coef se2) :
    coef (d.obs t 0).y = t.coef c.name := by
  obtain ⟨g, hg, hobs⟩ := exists_true hd t
  have h1 : (d.obs t 0).gammaHat solve = d.gammaTrue t := by
    rw [hobs 0, gammaHat_ofFn (d := d.withY (d.amat *ᵥ g + 0)) hd.names hd.unit hs, hg]
    congr 1
    change lgen d.amat d.Dp *ᵥ (d.amat *ᵥ g + 0) = g
    rw [add_zero, mulVec_mulVec, lgen_mul_X hd.unit, one_mulVec]
  have h2 := (h (d.obs t 0).y).1
  have h3 := coef_gammaTrue hd.names t hc
  change dget (d.unpack ((d.obs t 0).gammaHat solve)).gamma c.name = _ at h2
  rw [h1, h3] at h2
  simpa using h2.symm

/-! ## C142 -/

/-- C142: with errors of one variance and no weights, the coefficient of a control is right on average, but the square
of its reported standard error is on average only `(n - k) / n` times the mean squared error of the coefficient, where
`n` is the number of rows and `k` the number of estimated parameters (all worker and firm effects included). -/
theorem C142_average (hd : d.Ok) (hwt : d.weighted = false) (hs : d.GoodSolver solve) (c : Cts n) (hc : c ∈ d.cts)
    (t : Truth m nw) (h : Noise μ eps fun _ => σ2) :
    ∃ coef se2 : (Fin n → ℝ) → ℝ, Spec.Reports d solve c.name coef se2 ∧
      ∫ ω, coef (d.obs t (eps ω)).y ∂μ = t.coef c.name ∧
      Integrable (fun ω => se2 (d.obs t (eps ω)).y) μ ∧
      Integrable (fun ω => (coef (d.obs t (eps ω)).y - t.coef c.name) ^ 2) μ ∧
      ∫ ω, se2 (d.obs t (eps ω)).y ∂μ =
        ((n : ℝ) - d.nCov) / n * ∫ ω, (coef (d.obs t (eps ω)).y - t.coef c.name) ^ 2 ∂μ := by
  obtain ⟨a, ha⟩ := standard_fixed hd hwt hs c hc
  have h0 := coef_noiseless hd hs c hc t ha
  have hD : ∀ o, d.Dp o = 1 := fun o => by simp [CData.Dp, hwt]
  have hlin : ∀ u : Fin n → ℝ, ∑ o, a o * (d.obs t u).y o = t.coef c.name + ∑ o, a o * u o := by
    intro u
    rw [← h0, ← Finset.sum_add_distrib]
    obtain ⟨g, -, hobs⟩ := exists_true hd t
    refine Finset.sum_congr rfl fun o _ => ?_
    rw [hobs u, hobs 0]
    change a o * ((d.amat *ᵥ g) o + u o) = a o * ((d.amat *ᵥ g) o + 0) + _
    ring
  have hpr := h.prob
  have hN : Noise μ eps fun o => σ2 / d.Dp o := by simpa only [hD, div_one] using h
  obtain ⟨i1, e1⟩ := ssr_expectation hd hs hN t
  obtain ⟨i2, e2⟩ := h.linear a
  obtain ⟨i3, e3⟩ := h.square a
  refine ⟨_, _, ha, ?_, ?_, ?_, ?_⟩
  · simp only [hlin]
    rw [integral_add (integrable_const _) i2, e2]
    simp
  · exact (i1.div_const _).mul_const _
  · simpa only [hlin, add_sub_cancel_left] using i3
  · simp only [hlin, add_sub_cancel_left]
    rw [e3]
    change ∫ ω, (∑ o, (d.obs t (eps ω)).E solve o ^ 2) / (n : ℝ) * ∑ o, a o ^ 2 ∂μ = _
    rw [integral_mul_const, integral_div, e1]
    have htr : ∑ o, (1 - hat d.amat d.Dp o o) / d.Dp o = (n : ℝ) - d.nCov := by
      simp only [hD, div_one, Finset.sum_sub_distrib]
      rw [hat_trace _ _ hd.unit]
      simp
    rw [htr, ← Finset.sum_mul]
    ring

theorem nw_le_nCov (hd : d.Ok) {c : Cts n} (hc : c ∈ d.cts) : nw + 1 ≤ d.nCov := by
  obtain ⟨p, q, hpq⟩ := mem_of_split hc
  rw [nCov_eq hd.names]
  simp only [CData.covs, hpq, List.map_cons, List.map_append, List.map_map, List.sum_cons, List.sum_append, Cov.size]
  simp only [Function.comp_def, Cov.size]
  omega

/-- C142: so the reported standard error is too small on average as soon as errors matter, and with no more than two
rows per worker its square is below half of the mean squared error of the coefficient. -/
theorem C142_too_small (hd : d.Ok) (hwt : d.weighted = false) (hs : d.GoodSolver solve) (c : Cts n) (hc : c ∈ d.cts)
    (t : Truth m nw) (h : Noise μ eps fun _ => σ2) (hσ : 0 < σ2) (coef se2 : (Fin n → ℝ) → ℝ)
    (hr : Spec.Reports d solve c.name coef se2) :
    (∫ ω, se2 (d.obs t (eps ω)).y ∂μ < ∫ ω, (coef (d.obs t (eps ω)).y - t.coef c.name) ^ 2 ∂μ) ∧
    (n ≤ 2 * nw → ∫ ω, se2 (d.obs t (eps ω)).y ∂μ <
      1 / 2 * ∫ ω, (coef (d.obs t (eps ω)).y - t.coef c.name) ^ 2 ∂μ) := by
  obtain ⟨coef', se2', hr', -, -, -, e⟩ := C142_average hd hwt hs c hc t h
  obtain ⟨rfl, rfl⟩ := hr.unique hr'
  obtain ⟨a, ha⟩ := standard_fixed hd hwt hs c hc
  obtain ⟨rfl, -⟩ := hr.unique ha
  -- the coefficient depends on the outcomes
  have hpos : 0 < ∫ ω, (∑ o, a o * (d.obs t (eps ω)).y o - t.coef c.name) ^ 2 ∂μ := by
    have h0 := fun t => coef_noiseless hd hs c hc t ha
    have hlin : ∀ u : Fin n → ℝ, ∑ o, a o * (d.obs t u).y o - t.coef c.name = ∑ o, a o * u o := by
      intro u
      rw [← h0 t, ← Finset.sum_sub_distrib]
      obtain ⟨g, -, hobs⟩ := exists_true hd t
      refine Finset.sum_congr rfl fun o _ => ?_
      rw [hobs u, hobs 0]
      change a o * ((d.amat *ᵥ g) o + u o) - a o * ((d.amat *ᵥ g) o + 0) = _
      ring
    simp only [hlin]
    rw [(h.square a).2, ← Finset.sum_mul]
    refine mul_pos ?_ hσ
    by_contra hneg
    have hz : ∀ o, a o = 0 := by
      intro o
      have h1 : ∑ o, a o ^ 2 = 0 := le_antisymm (not_lt.1 hneg) (Finset.sum_nonneg fun o _ => sq_nonneg _)
      have := (Finset.sum_eq_zero_iff_of_nonneg fun o _ => sq_nonneg (a o)).1 h1 o (Finset.mem_univ o)
      exact pow_eq_zero_iff (two_ne_zero) |>.1 this
    have := h0 ⟨fun _ => 0, fun _ => 0, fun _ _ => 0, fun _ => 1⟩
    simp only [hz, zero_mul, Finset.sum_const_zero] at this
    exact zero_ne_one this
  have hk := nw_le_nCov hd hc
  have hn : d.nCov ≤ n := by
    have h1 := hat_trace d.amat d.Dp hd.unit
    have h2 : ∑ o, hat d.amat d.Dp o o ≤ ∑ _o : Fin n, (1 : ℝ) :=
      Finset.sum_le_sum fun o _ => (hat_diag_mem d.amat d.Dp hd.pos hd.unit o).2
    rw [h1] at h2
    simpa using h2
  have hn0 : (0 : ℝ) < n := by
    have : 0 < n := by omega
    exact_mod_cast this
  have hk' : (nw : ℝ) + 1 ≤ d.nCov := by exact_mod_cast hk
  rw [e]
  constructor
  · refine mul_lt_of_lt_one_left hpos ?_
    rw [div_lt_one hn0]
    have : (0 : ℝ) ≤ nw := Nat.cast_nonneg _
    linarith
  · intro h2
    refine mul_lt_mul_of_pos_right ?_ hpos
    rw [div_lt_iff₀ hn0]
    have : (n : ℝ) ≤ 2 * nw := by exact_mod_cast h2
    linarith

/-! ## Clusters by worker -/

/-- The same coefficients, in the span of the regressors, with the squared standard error clustered by worker. -/
theorem clustered_fixed (hd : d.Ok) (hwt : d.weighted = false) (hs : d.GoodSolver solve) (c : Cts n) (hc : c ∈ d.cts) :
    ∃ z : Fin d.nCov → ℝ, ∀ y,
      dget ((d.withY y).unpack ((d.withY y).gammaHat solve)).gamma c.name =
        some (.num (∑ o, (d.amat *ᵥ z) o * y o)) ∧
      (d.withY y).clusteredSq solve (some ["i"]) c.name =
        some (∑ k, (∑ o, (if d.i o = k then (d.amat *ᵥ z) o else 0) * (d.withY y).E solve o) ^ 2) := by
  obtain ⟨pre, post, hsp⟩ := mem_of_split (show Cov.cts c ∈ d.covs by simp [CData.covs, hc])
  obtain ⟨hz1, hz2⟩ := hs _ (unit_solvable hd (start m nw pre))
  obtain ⟨z, hz⟩ : ∃ z : Fin d.nCov → ℝ, solve (CData.unitVec d.nCov (start m nw pre)) = List.ofFn z :=
    ⟨fun c => (solve (CData.unitVec d.nCov (start m nw pre)))[c]'(by rw [hz1]; exact c.2), by
      apply List.ext_getElem
      · simp [hz1]
      · intro k h1 h2; simp⟩
  have hm : ∀ o, d.multA (solve (CData.unitVec d.nCov (start m nw pre))) o = (d.amat *ᵥ z) o := fun o => by
    rw [hz, multA_ofFn hd.names]
  refine ⟨z, fun y => ?_⟩
  have hD : ∀ o, (d.withY y).Dp o = 1 := fun o => by
    change d.Dp o = 1
    simp [CData.Dp, hwt]
  have hw : ∀ o, 0 ≤ (d.withY y).Dp o := fun o => by rw [hD]; norm_num
  have hs' : (d.withY y).GoodSolver solve := hs
  have hn' : (d.withY y).names.Nodup := hd.names
  obtain ⟨hl, hN⟩ := gammaHat_spec hn' hw hs'
  obtain ⟨p, x, hp, hx, hpx⟩ := (C24_unpack hn' ((d.withY y).gammaHat solve) hl).2.2.2 c hc
  have hp0 := idx_of_split hn' ((d.withY y).gammaHat solve) (d := d.withY y) (c := Cov.cts c) hsp
  have hpp : p = start m nw pre := by
    have := hp.symm.trans hp0
    simp only [Option.some.injEq, Prod.mk.injEq] at this
    exact this.1
  subst hpp
  have hb : start m nw pre + 1 ≤ d.nCov := bound_of_split hd.names hsp
  generalize start m nw pre = p at *
  have h4 : (d.withY y).multAT (fun o => d.multA (solve (CData.unitVec d.nCov p)) o) = CData.unitVec d.nCov p := hz2
  refine ⟨?_, ?_⟩
  · have h1 := dotR_unit ((d.withY y).gammaHat solve) d.nCov p (by omega) hl
    rw [hpx, Option.some_inj] at h1
    have h3 := dotR_multAT (d := d.withY y) ((d.withY y).gammaHat solve)
      fun o => d.multA (solve (CData.unitVec d.nCov p)) o
    rw [h4] at h3
    rw [hx, h1, h3]
    have h2 := congrArg (dotR (solve (CData.unitVec d.nCov p))) hN
    rw [CData.AtDpA, dotR_multAT, dotR_multAT] at h2
    simp only [hD, one_mul] at h2 ⊢
    have e : ∑ o, (d.amat *ᵥ z) o * y o =
        ∑ o, (d.withY y).multA (solve (CData.unitVec d.nCov p)) o * (d.withY y).y o :=
      Finset.sum_congr rfl fun o _ => by rw [← hm]; rfl
    rw [e, ← h2]
    congr 2
    exact Finset.sum_congr rfl fun o _ => mul_comm _ _
  · have hcl : (d.withY y).Clusters (CData.clusterNames (some ["i"])) := by
      simp [CData.Clusters, CData.clusterNames]
    obtain ⟨M, hM⟩ := subA_isSome hn' ((d.withY y).gammaHat solve) _ hcl
    have hS : ∀ o b, ((d.withY y).S ((d.withY y).unpack ((d.withY y).gammaHat solve))
        (CData.clusterNames (some ["i"])) o b).getD 0 = if d.i o = d.i b then 1 else 0 := by
      intro o b
      split
      · rename_i hob
        rw [C25_own_cluster hn' _ _ hcl (by simp [CData.clusterNames]) o b hob]; rfl
      · rename_i hob
        obtain ⟨h1, h2⟩ := C25_pairs_partial hn' ((d.withY y).gammaHat solve) _ hcl o b
        rcases h1 with h1 | h1
        · exfalso
          obtain ⟨nm, hnm, hsh, -⟩ := h2.1 h1
          have hnm' : nm = "alpha" := by simpa [CData.clusterNames] using hnm
          subst hnm'
          rcases hsh with ⟨-, e⟩ | ⟨e, -⟩ | ⟨c', hc', e, -⟩
          · exact hob e
          · simp at e
          · have hd' := hd.names
            simp only [CData.names, List.nodup_cons, List.mem_append, not_or] at hd'
            exact hd'.2.1.1 (e ▸ List.mem_map_of_mem hc')
        · rw [h1]; rfl
    have hc' : (d.withY y).nCov = d.nCov := rfl
    have hmA : (d.withY y).multA = d.multA := rfl
    simp only [CData.clusteredSq, hM, hp]
    simp only [Option.bind_eq_bind, Option.bind_some, Option.pure_def, Option.some_inj, hS, CData.epsA, hc', hmA, hm]
    have e1 : ∀ k, (∑ o, (if d.i o = k then (d.amat *ᵥ z) o else 0) * (d.withY y).E solve o) ^ 2 =
        ∑ o, ∑ b, (if d.i o = k then 1 else 0) * (if d.i b = k then 1 else 0) *
          (((d.withY y).E solve o * (d.amat *ᵥ z) o) * ((d.withY y).E solve b * (d.amat *ᵥ z) b)) := by
      intro k
      rw [sq, Finset.sum_mul_sum]
      refine Finset.sum_congr rfl fun o _ => Finset.sum_congr rfl fun b _ => ?_
      by_cases h1 : d.i o = k <;> by_cases h2 : d.i b = k <;> simp [h1, h2]
      ring
    simp only [e1]
    rw [Finset.sum_comm (s := (Finset.univ : Finset (Fin nw)))]
    refine Finset.sum_congr rfl fun o _ => ?_
    rw [Finset.sum_comm (s := (Finset.univ : Finset (Fin nw)))]
    refine Finset.sum_congr rfl fun b _ => ?_
    rw [← Finset.sum_mul]
    have : ∑ k, (if d.i o = k then (1 : ℝ) else 0) * (if d.i b = k then 1 else 0) = if d.i o = d.i b then 1 else 0 := by
      simp [eq_comm]
    rw [this]
    ring

theorem hat_symm (hwt : d.weighted = false) (o b : Fin n) : hat d.amat d.Dp o b = hat d.amat d.Dp b o := by
  have hD : d.Dp = fun _ => 1 := by funext o; simp [CData.Dp, hwt]
  have : (hat d.amat d.Dp)ᵀ = hat d.amat d.Dp := by
    simp only [hat, hD, transpose_mul, transpose_transpose, nmat_inv_symm, diagonal_transpose]
    simp only [show (diagonal fun _ : Fin n => (1 : ℝ)) = 1 from diagonal_one, Matrix.mul_one, Matrix.one_mul,
      Matrix.mul_assoc]
  exact congrFun (congrFun this b) o |>.symm ▸ rfl

/-- Expected square of a sum of residuals. -/
theorem resid_square (hd : d.Ok) (hwt : d.weighted = false) (hs : d.GoodSolver solve) (t : Truth m nw)
    (h : Noise μ eps fun _ => σ2) (v : Fin n → ℝ) :
    Integrable (fun ω => (∑ o, v o * (d.obs t (eps ω)).E solve o) ^ 2) μ ∧
    ∫ ω, (∑ o, v o * (d.obs t (eps ω)).E solve o) ^ 2 ∂μ =
      σ2 * (∑ o, v o ^ 2 - ∑ o, (hat d.amat d.Dp *ᵥ v) o ^ 2) := by
  set H := hat d.amat d.Dp with hH
  have e : ∀ ω, ∑ o, v o * (d.obs t (eps ω)).E solve o = ∑ b, (v b - (H *ᵥ v) b) * eps ω b := by
    intro ω
    simp only [E_obs hd hs]
    simp only [Finset.mul_sum, ← hH]
    rw [Finset.sum_comm]
    refine Finset.sum_congr rfl fun b _ => ?_
    have : (H *ᵥ v) b = ∑ o, v o * H o b := by
      simp only [mulVec, dotProduct]
      exact Finset.sum_congr rfl fun o _ => by rw [hH, hat_symm hwt b o, mul_comm]
    rw [this, sub_mul, Finset.sum_mul]
    simp only [sub_mul, mul_sub, Finset.sum_sub_distrib, ite_mul, one_mul, zero_mul, mul_ite, mul_zero,
      Finset.sum_ite_eq', Finset.mem_univ, if_true]
    congr 1
    exact Finset.sum_congr rfl fun o _ => by ring
  simp only [e]
  refine ⟨(h.square _).1, (h.square _).2.trans ?_⟩
  rw [← Finset.sum_mul, mul_comm]
  congr 1
  have hid : ∑ o, v o * (H *ᵥ v) o = ∑ o, (H *ᵥ v) o ^ 2 := by
    have h2 : H *ᵥ (H *ᵥ v) = H *ᵥ v := by rw [mulVec_mulVec, hH, hat_idem _ _ hd.unit]
    have hT : Hᵀ = H := by
      ext a b
      exact hat_symm hwt b a
    calc ∑ o, v o * (H *ᵥ v) o = v ⬝ᵥ (H *ᵥ (H *ᵥ v)) := by rw [h2]; rfl
      _ = (H *ᵥ v) ⬝ᵥ (H *ᵥ v) := by rw [dotProduct_mulVec, ← mulVec_transpose, hT]
      _ = _ := Finset.sum_congr rfl fun o _ => (sq _).symm
  have : ∀ b, (v b - (H *ᵥ v) b) ^ 2 = v b ^ 2 - 2 * (v b * (H *ᵥ v) b) + (H *ᵥ v) b ^ 2 := fun b => by ring
  simp only [this, Finset.sum_add_distrib, Finset.sum_sub_distrib, ← Finset.mul_sum]
  rw [hid]
  ring

/-- C142, clusters: with uncorrelated errors of one variance the standard error clustered by worker is too small on
average as well. -/
theorem C142_clustered (hd : d.Ok) (hwt : d.weighted = false) (hs : d.GoodSolver solve) (c : Cts n) (hc : c ∈ d.cts)
    (t : Truth m nw) (h : Noise μ eps fun _ => σ2) (hσ : 0 < σ2) :
    ∃ coef se2 : (Fin n → ℝ) → ℝ,
      (∀ y, dget ((d.withY y).unpack ((d.withY y).gammaHat solve)).gamma c.name = some (.num (coef y)) ∧
        (d.withY y).clusteredSq solve (some ["i"]) c.name = some (se2 y)) ∧
      Integrable (fun ω => se2 (d.obs t (eps ω)).y) μ ∧
      Integrable (fun ω => (coef (d.obs t (eps ω)).y - t.coef c.name) ^ 2) μ ∧
      ∫ ω, se2 (d.obs t (eps ω)).y ∂μ < ∫ ω, (coef (d.obs t (eps ω)).y - t.coef c.name) ^ 2 ∂μ := by
  obtain ⟨z, hz⟩ := clustered_fixed hd hwt hs c hc
  obtain ⟨a, ha⟩ := standard_fixed hd hwt hs c hc
  have hza : ∀ y : Fin n → ℝ, ∑ o, (d.amat *ᵥ z) o * y o = ∑ o, a o * y o := fun y => by
    have := (hz y).1.symm.trans (ha y).1
    simpa using this
  obtain ⟨coef, se, hr, -, -, i1, e⟩ := C142_average hd hwt hs c hc t h
  obtain ⟨hlt, -⟩ := C142_too_small hd hwt hs c hc t h hσ coef se hr
  obtain ⟨rfl, -⟩ := hr.unique ha
  simp only [← hza] at i1 hlt e
  have h0 := fun t => coef_noiseless hd hs c hc t ha
  simp only [← hza] at h0
  have hlin : ∀ u : Fin n → ℝ, ∑ o, (d.amat *ᵥ z) o * (d.obs t u).y o - t.coef c.name =
      ∑ o, (d.amat *ᵥ z) o * u o := by
    intro u
    rw [← h0 t, ← Finset.sum_sub_distrib]
    obtain ⟨g, -, hobs⟩ := exists_true hd t
    refine Finset.sum_congr rfl fun o _ => ?_
    rw [hobs u, hobs 0]
    change (d.amat *ᵥ z) o * ((d.amat *ᵥ g) o + u o) - (d.amat *ᵥ z) o * ((d.amat *ᵥ g) o + 0) = _
    ring
  refine ⟨_, _, hz, ?_, i1, ?_⟩
  · exact integrable_finsetSum _ fun k _ => (resid_square hd hwt hs t h _).1
  · have hI : ∀ k, ∫ ω, (∑ o, (if d.i o = k then (d.amat *ᵥ z) o else 0) * (d.obs t (eps ω)).E solve o) ^ 2 ∂μ = _ :=
      fun k => (resid_square hd hwt hs t h fun o => if d.i o = k then (d.amat *ᵥ z) o else 0).2
    change ∫ ω, ∑ k, (∑ o, (if d.i o = k then (d.amat *ᵥ z) o else 0) * (d.obs t (eps ω)).E solve o) ^ 2 ∂μ < _
    rw [integral_finsetSum _ fun k _ => (resid_square hd hwt hs t h _).1]
    simp only [hI, hlin]
    rw [(h.square _).2, ← Finset.sum_mul, mul_comm, ← Finset.mul_sum]
    refine mul_lt_mul_of_pos_left ?_ hσ
    rw [Finset.sum_sub_distrib]
    have hsum : ∑ k, ∑ o, (if d.i o = k then (d.amat *ᵥ z) o else 0) ^ 2 = ∑ o, (d.amat *ᵥ z) o ^ 2 := by
      rw [Finset.sum_comm]
      refine Finset.sum_congr rfl fun o _ => ?_
      simp [ite_pow]
    rw [hsum]
    refine sub_lt_self _ ?_
    by_contra hneg
    have hz0 : ∑ k, ∑ o, (hat d.amat d.Dp *ᵥ fun o => if d.i o = k then (d.amat *ᵥ z) o else 0) o ^ 2 = 0 :=
      le_antisymm (not_lt.1 hneg) (Finset.sum_nonneg fun _ _ => Finset.sum_nonneg fun _ _ => sq_nonneg _)
    have hk : ∀ k o, (hat d.amat d.Dp *ᵥ fun o => if d.i o = k then (d.amat *ᵥ z) o else 0) o = 0 := by
      intro k o
      have h1 := (Finset.sum_eq_zero_iff_of_nonneg fun k _ => Finset.sum_nonneg fun o _ =>
        sq_nonneg ((hat d.amat d.Dp *ᵥ fun o => if d.i o = k then (d.amat *ᵥ z) o else 0) o)).1 hz0 k (Finset.mem_univ k)
      have h2 := (Finset.sum_eq_zero_iff_of_nonneg fun o _ => sq_nonneg _).1 h1 o (Finset.mem_univ o)
      exact pow_eq_zero_iff two_ne_zero |>.1 h2
    have hAz : ∀ o, (d.amat *ᵥ z) o = 0 := by
      intro o
      have h1 : hat d.amat d.Dp *ᵥ (d.amat *ᵥ z) = d.amat *ᵥ z := by
        rw [mulVec_mulVec, hat_mul_X _ _ hd.unit]
      have h2 : d.amat *ᵥ z = ∑ k, fun o => if d.i o = k then (d.amat *ᵥ z) o else 0 := by
        funext o
        simp
      rw [← h1]
      conv_lhs => rw [h2]
      rw [mulVec_sum, Finset.sum_apply]
      exact Finset.sum_eq_zero fun k _ => hk k o
    have := h0 ⟨fun _ => 0, fun _ => 0, fun _ _ => 0, fun _ => 1⟩
    simp only [hAz, zero_mul, Finset.sum_const_zero] at this
    exact zero_ne_one this

/-! ## C141 for the coefficient of a control -/

theorem num_at (h : d.names.Nodup) {c : Cts n} (hc : c ∈ d.cts) :
    ∃ p : Fin d.nCov, ∀ g : Fin d.nCov → ℝ, dget (d.unpack (List.ofFn g)).gamma c.name = some (.num (g p)) := by
  obtain ⟨pre, post, hsp⟩ := mem_of_split (show Cov.cts c ∈ d.covs by simp [CData.covs, hc])
  have hb : start m nw pre + 1 ≤ d.nCov := bound_of_split h hsp
  refine ⟨⟨start m nw pre, hb⟩, fun g => ?_⟩
  obtain ⟨p, x, hp, hx, hpx⟩ := (C24_unpack h (List.ofFn g) (by simp)).2.2.2 c hc
  have hp0 := idx_of_split h (List.ofFn g) hsp
  have hpp : p = start m nw pre := by
    have := hp.symm.trans hp0
    simp only [Option.some.injEq, Prod.mk.injEq] at this
    exact this.1
  subst hpp
  rw [hx]
  rw [List.getElem?_eq_getElem (by simp; exact hb)] at hpx
  simp only [List.getElem_ofFn, Option.some.injEq] at hpx
  rw [hpx]

/-- C141 for a control: with error variances inversely proportional to the weights, no sum of outcomes that gives the
coefficient of a control without error, whatever the effects, has a smaller mean squared error than the estimate. -/
theorem C141_coefficient (hd : d.Ok) (hs : d.GoodSolver solve) (c : Cts n) (hc : c ∈ d.cts) (t : Truth m nw)
    (hσ : 0 ≤ σ2) (h : Noise μ eps fun o => σ2 / d.Dp o) (coef : (Fin n → ℝ) → ℝ)
    (hr : ∀ y, dget ((d.withY y).unpack ((d.withY y).gammaHat solve)).gamma c.name = some (.num (coef y)))
    (a : Fin n → ℝ) (ha : ∀ t', ∑ o, a o * (d.obs t' 0).y o = t'.coef c.name) :
    ∫ ω, coef (d.obs t (eps ω)).y ∂μ = t.coef c.name ∧
    ∫ ω, (coef (d.obs t (eps ω)).y - t.coef c.name) ^ 2 ∂μ ≤
      ∫ ω, (∑ o, a o * (d.obs t (eps ω)).y o - t.coef c.name) ^ 2 ∂μ := by
  obtain ⟨p, hp⟩ := num_at hd.names hc
  have htr : ∀ (t' : Truth m nw) (g : Fin d.nCov → ℝ), d.gammaTrue t' = List.ofFn g → g p = t'.coef c.name := by
    intro t' g hg
    have h1 := coef_gammaTrue hd.names t' hc
    rw [hg, hp] at h1
    simpa using h1
  obtain ⟨g, hg, hobs⟩ := exists_true hd t
  obtain ⟨x, hx, h1, h2⟩ := C141_controls (μ := μ) (eps := eps) hd hs t (Pi.single p 1) g hg
  have hsum : ∀ b : Fin d.nCov → ℝ, ∑ k, (Pi.single p 1 : Fin d.nCov → ℝ) k * b k = b p := by
    intro b
    simp [Pi.single_apply]
  have hco : ∀ u, coef (d.obs t u).y = x u p := by
    intro u
    have h3 := hr (d.obs t u).y
    change dget (d.unpack ((d.obs t u).gammaHat solve)).gamma c.name = _ at h3
    rw [hx, hp] at h3
    simpa using h3.symm
  simp only [hsum, htr t g hg] at h1 h2
  simp only [hco]
  refine ⟨(h1 h).2, h2 σ2 hσ h a fun b => ?_⟩
  have hb := gammaTrue_effects hd.names (List.ofFn b) (by simp)
  obtain ⟨b', hb', hobs'⟩ := exists_true hd (effects d (List.ofFn b))
  obtain rfl : b' = b := List.ofFn_injective (hb'.symm.trans hb)
  rw [htr _ _ hb, ← ha, hobs' 0]
  refine Finset.sum_congr rfl fun o _ => ?_
  rw [multA_ofFn hd.names]
  change _ = a o * ((d.amat *ᵥ b') o + 0)
  rw [add_zero]

/-! ## Non-vacuity -/

/-- Two workers with two rows each at one firm, one continuous control, no weights. -/
def exV : CData 4 0 2 where
  j := fun _ => 0
  i := ![0, 0, 1, 1]
  y := ![1, 2, 4, 6]
  weighted := false
  w := fun _ => 1
  cats := []
  cts := [⟨"x", ![0, 1, 0, 1]⟩]

theorem exV_A : exV.A = [![1, 1, 0, 0], ![0, 0, 1, 1], ![0, 1, 0, 1]] := by
  simp only [CData.A, exV, indicators]
  simp
  constructor <;> (funext o; fin_cases o <;> rfl)

theorem exV_ok : exV.Ok where
  names := by simp [CData.names, exV]
  pos := by intro o; simp [CData.Dp, exV]
  ident := by
    intro x y hx hy h
    have hc : exV.nCov = 3 := by simp [CData.nCov, CData.nDict, exV, dset]
    rw [hc] at hx hy
    match x, y, hx, hy with
    | [x0, x1, x2], [y0, y1, y2], _, _ =>
      have h0 := h 0
      have h1 := h 1
      have h2 := h 2
      simp [CData.multA, exV_A] at h0 h1 h2
      simp [h0, h2]; linarith

/-- The hypotheses of the C142 theorems hold for two workers with two rows each. -/
example : exV.Ok ∧ exV.weighted = false ∧ (∃ solve, exV.GoodSolver solve) ∧ (∃ c, c ∈ exV.cts) ∧ 4 ≤ 2 * 2 ∧
    ∃ (μ : Measure (Fin 4 → Bool)) (eps : (Fin 4 → Bool) → Fin 4 → ℝ), Noise μ eps fun _ => 3 :=
  ⟨exV_ok, rfl, exists_goodSolver _, ⟨_, List.mem_singleton.2 rfl⟩, le_rfl, _, _, sign_noise _ fun _ => by norm_num⟩

/-- The change between the two rows of the first worker gives the coefficient without error, so `C141_coefficient`
compares the estimate with it. -/
example (t : Truth 0 2) : ∑ o, (![-1, 1, 0, 0] : Fin 4 → ℝ) o * (exV.obs t 0).y o = t.coef "x" := by
  simp [Fin.sum_univ_four, CData.obs, CData.withY, exV]
  ring

end Pytwoway.FEControl
