import Verif.FEControl.Traces

/-! # Heteroskedastic correction with controls: C86 -/

namespace Pytwoway.FE

open Matrix

variable {ι κ : Type*} [Fintype ι] [DecidableEq ι] [Fintype κ] [DecidableEq κ]
variable {X : Matrix ι κ ℝ} {w : ι → ℝ}

/-- A leverage of one means the covariates fit the observation by themselves. -/
theorem fit_of_hat_one (hw : ∀ o, 0 < w o) (hu : IsUnit (nmat X w).det) (o : ι) (h : hat X w o o = 1) :
    ∃ t, X *ᵥ t = Pi.single o 1 := by
  have hz : ∀ b, (if o = b then 1 else 0) - hat X w o b = 0 := by
    have h0 := resid_var_gen hw hu o
    rw [h, sub_self, zero_div] at h0
    intro b
    have := (Finset.sum_eq_zero_iff_of_nonneg fun b _ => mul_nonneg (sq_nonneg _) (by
      have := hw b; positivity)).1 h0 b (Finset.mem_univ b)
    rcases mul_eq_zero.1 this with h1 | h1
    · exact pow_eq_zero_iff two_ne_zero |>.1 h1
    · exact absurd h1 (one_div_pos.2 (hw b)).ne'
  refine ⟨lgen X w *ᵥ Pi.single o 1, ?_⟩
  rw [mulVec_mulVec, X_mul_lgen, mulVec_single_one]
  ext b
  have h1 := hz b
  have h2 : hat X w b o * w b = hat X w o b * w o := by
    rw [hat_apply, hat_apply, gmat_symm X w b o]; ring
  have hb := (hw b).ne'
  change hat X w b o = _
  by_cases hbo : o = b
  · subst hbo; simp [h]
  · rw [if_neg hbo] at h1
    have h3 : hat X w o b = 0 := by linarith
    rw [h3, zero_mul] at h2
    rw [Pi.single_eq_of_ne (Ne.symm hbo)]
    exact (mul_eq_zero.1 h2).resolve_right hb

end Pytwoway.FE

namespace Pytwoway.FEControl

open Matrix Pytwoway.Util MeasureTheory FE
open scoped BigOperators
open FE.Panel (WOpt Stayers LevAvg)

variable {n m nw R : ℕ} {d : CData n m nw} {solve : List ℝ → List ℝ}
variable {Ω : Type*} [MeasurableSpace Ω] {μ : Measure Ω} {eps : Ω → Fin n → ℝ} {s2 : Fin n → ℝ}
variable {Ω' : Type*} [MeasurableSpace Ω'] {ν : Measure Ω'}

/-! ## Specification -/

/-- The fitted value of row `o` by the row `b`'s outcome: the weight of `y b` in the fitted value of `o`. -/
noncomputable def CData.influence (d : CData n m nw) (solve : List ℝ → List ℝ) (o b : Fin n) : ℝ :=
  (d.withY (Pi.single b 1)).multA ((d.withY (Pi.single b 1)).gammaHat solve) o

/-- Leverage of a row: how much its fitted value moves when its own outcome moves by one. -/
noncomputable def CData.leverage (d : CData n m nw) (solve : List ℝ → List ℝ) (o : Fin n) : ℝ :=
  d.influence solve o o

theorem influence_eq (hd : d.Ok) (hs : d.GoodSolver solve) (o b : Fin n) :
    d.influence solve o b = hat d.amat d.Dp o b := by
  have hg : (d.withY (Pi.single b 1)).gammaHat solve = List.ofFn (lgen d.amat d.Dp *ᵥ Pi.single b 1) :=
    gammaHat_ofFn (d := d.withY _) hd.names hd.unit hs
  have hA : ∀ g, (d.withY (Pi.single b 1)).multA g o = d.multA g o := fun _ => rfl
  rw [CData.influence, hA, hg, multA_ofFn hd.names, mulVec_mulVec, X_mul_lgen, mulVec_single_one]
  rfl

theorem leverage_eq (hd : d.Ok) (hs : d.GoodSolver solve) (o : Fin n) :
    d.leverage solve o = hat d.amat d.Dp o o := influence_eq hd hs o o

/-! ## Approximate leverages -/

theorem levAvg_fields (draws : List (Fin n → ℝ)) :
    let q := fun R2 => d.proj solve R2 .sqrt .sqrt
    let v := d.leverageApprox solve draws
    (∀ o, v.Pii o = (draws.map fun z => q z o ^ 2).sum / draws.length) ∧
    (∀ o, v.Mii o = (draws.map fun z => (z o - q z o) ^ 2).sum / draws.length) := by
  refine ⟨?_, ?_⟩ <;> intro o <;> simp only [CData.leverageApprox, foldl_add_eq_sum, zero_add]

theorem proj_sqrt (hd : d.Ok) (hs : d.GoodSolver solve) (v : Fin n → ℝ) :
    d.proj solve v .sqrt .sqrt = sgen d.amat d.Dp *ᵥ v := by
  have hS : sgen d.amat d.Dp = diagonal (fun o => Real.sqrt (d.Dp o)) * (d.amat * (nmat d.amat d.Dp)⁻¹ * d.amatᵀ)
      * diagonal (fun o => Real.sqrt (d.Dp o)) := by
    ext a b; rw [mul_diagonal, diagonal_mul]; rfl
  ext o
  rw [CData.proj, CData.solveLS, multATw_eq hd.names, solve_ofFn hd.names hd.unit hs, multAw_ofFn hd.names, hS]
  simp only [CData.wt]
  have h1 : ∀ t, Real.sqrt (d.Dp o) * (d.amat *ᵥ t) o = ((diagonal fun o => Real.sqrt (d.Dp o)) *ᵥ (d.amat *ᵥ t)) o :=
    fun t => by rw [mulVec_diagonal]
  have h2 : (fun o => Real.sqrt (d.Dp o) * v o) = (diagonal fun o => Real.sqrt (d.Dp o)) *ᵥ v := by
    ext o; rw [mulVec_diagonal]
  rw [h1, h2]
  simp only [mulVec_mulVec, Matrix.mul_assoc]

/-- C86, approximate leverages: for any number of draws, the averages of `P` and `M` have expectations the
leverage and one minus the leverage. -/
theorem C86_leverage_expectation (hd : d.Ok) (hs : d.GoodSolver solve) (hR : 0 < R)
    (z : Fin R → Ω' → Fin n → ℝ) (hz : ∀ k, Noise ν (z k) fun _ => 1) (o : Fin n) :
    ∫ ω, (d.leverageApprox solve (List.ofFn fun k => z k ω)).Pii o ∂ν = d.leverage solve o ∧
    ∫ ω, (d.leverageApprox solve (List.ofFn fun k => z k ω)).Mii o ∂ν = 1 - d.leverage solve o := by
  have f := fun draws => levAvg_fields (d := d) (solve := solve) draws
  have hmean : ∀ (g : (Fin n → ℝ) → ℝ) ω, ((List.ofFn fun k => z k ω).map g).sum
      / ((List.ofFn fun k => z k ω).length : ℝ) = Panel.meanDraws fun k => g (z k ω) := by
    intro g ω
    rw [List.map_ofFn, List.sum_ofFn, List.length_ofFn]; rfl
  rw [leverage_eq hd hs]
  constructor
  · simp only [(f _).1, hmean]
    refine (mean_of_draws hR fun k => ?_).2
    have := (hz k).integral_mul 0 0 (sgen d.amat d.Dp o) (sgen d.amat d.Dp o)
    simp only [proj_sqrt hd hs, mulVec, dotProduct]
    simp only [zero_add, mul_one, ← pow_two] at this
    rwa [sgen_sq hd.pos hd.unit, zero_pow two_ne_zero, zero_add] at this
  · simp only [(f _).2, hmean]
    refine (mean_of_draws hR fun k => ?_).2
    set c : Fin n → ℝ := fun b => (if o = b then 1 else 0) - sgen d.amat d.Dp o b with hc'
    have := (hz k).integral_mul 0 0 c c
    simp only [zero_add, mul_one, ← pow_two] at this
    have h1 : ∀ ω, z k ω o - d.proj solve (z k ω) .sqrt .sqrt o = ∑ b, c b * z k ω b := by
      intro ω
      simp only [hc', sub_mul, Finset.sum_sub_distrib, ite_mul, one_mul, zero_mul, Finset.sum_ite_eq,
        Finset.mem_univ, if_true, proj_sqrt hd hs]
      rfl
    have h2 : ∑ b, c b ^ 2 = 1 - hat d.amat d.Dp o o := by
      have : ∀ b, c b ^ 2 = (if o = b then 1 - 2 * sgen d.amat d.Dp o o else 0) + sgen d.amat d.Dp o b ^ 2 := by
        intro b; simp only [hc']
        split
        · next h => subst h; ring
        · ring
      simp only [this, Finset.sum_add_distrib, Finset.sum_ite_eq, Finset.mem_univ, if_true,
        sgen_sq hd.pos hd.unit, sgen_diag hd.pos]
      ring
    simp only [h1]
    rwa [h2, zero_pow two_ne_zero, zero_add] at this

/-- C86: leverages lie in `[0, 1]`, and so do the normalised averages of sign draws, which never divide by
zero. -/
theorem C86_leverage_range (hd : d.Ok) (hs : d.GoodSolver solve) (o : Fin n) (draws : List (Fin n → ℝ))
    (hne : draws ≠ []) (hsgn : ∀ z ∈ draws, ∀ o, z o = 1 ∨ z o = -1) :
    let v := d.leverageApprox solve draws
    (0 ≤ d.leverage solve o ∧ d.leverage solve o ≤ 1) ∧ v.Pii o + v.Mii o ≠ 0 ∧
    0 ≤ v.Pii o / (v.Pii o + v.Mii o) ∧ v.Pii o / (v.Pii o + v.Mii o) ≤ 1 ∧
    v.Pii o / (v.Pii o + v.Mii o) + v.Mii o / (v.Pii o + v.Mii o) = 1 := by
  intro v
  obtain ⟨h1, h3⟩ := levAvg_fields (d := d) (solve := solve) draws
  have hlen : (0 : ℝ) < draws.length := by exact_mod_cast List.length_pos_iff.mpr hne
  have hP : 0 ≤ v.Pii o := by
    simp only [v, h1]
    refine div_nonneg (List.sum_nonneg ?_) hlen.le
    intro x hx; obtain ⟨z, -, rfl⟩ := List.mem_map.mp hx; exact sq_nonneg _
  have hM : 0 ≤ v.Mii o := by
    simp only [v, h3]
    refine div_nonneg (List.sum_nonneg ?_) hlen.le
    intro x hx; obtain ⟨z, -, rfl⟩ := List.mem_map.mp hx; exact sq_nonneg _
  have hPM : 0 < v.Pii o + v.Mii o := by
    simp only [v, h1, h3]
    rw [← add_div]
    refine div_pos ?_ hlen
    rw [← List.sum_map_add]
    apply List.sum_pos
    · intro x hx
      obtain ⟨z, hz, rfl⟩ := List.mem_map.mp hx
      rcases hsgn z hz o with h | h <;> rw [h] <;>
        nlinarith [sq_nonneg (d.proj solve z .sqrt .sqrt o), sq_nonneg (1 - d.proj solve z .sqrt .sqrt o),
          sq_nonneg (2 * d.proj solve z .sqrt .sqrt o - 1), sq_nonneg (2 * d.proj solve z .sqrt .sqrt o + 1)]
    · simpa using hne
  refine ⟨?_, hPM.ne', div_nonneg hP hPM.le, ?_, ?_⟩
  · rw [leverage_eq hd hs]; exact hat_diag_mem d.amat d.Dp hd.pos hd.unit o
  · rw [div_le_one hPM]; linarith
  · rw [← add_div, div_self hPM.ne']

/-- C86, precomputed leverages: the files are averaged. -/
theorem C86_files (files : List (Fin n → ℝ)) (hne : files ≠ []) (o : Fin n) :
    CData.filesPii files o = (files.map fun pp => pp o).sum / files.length := by
  rw [CData.filesPii, foldl_add_eq_sum (fun pp : Fin n → ℝ => pp o / (files.length : ℝ)), zero_add]
  generalize hk : (files.length : ℝ) = k
  clear hk hne
  induction files with
  | nil => simp
  | cons f l ih => simp only [List.map_cons, List.sum_cons, ih]; ring

/-! ## Leave-one-out variances -/

/-- C86, leave-one-out: with the true leverage, the variance estimate is the deviation of `y o` from the
weighted mean times the error of predicting row `o` from any weighted least-squares fit, with all controls, of
all *other* rows. -/
theorem C86_leave_one_out (hd : d.Ok) (hs : d.GoodSolver solve) (o : Fin n) (P : Fin n → ℝ)
    (hP : P o = d.leverage solve o) (h1 : d.leverage solve o ≠ 1) (x : List ℝ) (hx : x.length = d.nCov)
    (hopt : ∀ x' : List ℝ, x'.length = d.nCov → ∑ b with b ≠ o, d.Dp b * (d.y b - d.multA x b) ^ 2
        ≤ ∑ b with b ≠ o, d.Dp b * (d.y b - d.multA x' b) ^ 2) :
    d.looSii solve P o = (d.y o - (∑ b, d.Dp b * d.y b) / ∑ b, d.Dp b) * (d.y o - d.multA x o) := by
  have hu := hd.unit
  rw [leverage_eq hd hs] at hP h1
  set f := d.multA x o with hf
  set y' := Function.update d.y o f with hy'
  -- `x` is the fit of the outcomes with `y o` replaced by its prediction
  obtain ⟨t, rfl⟩ : ∃ t : Fin d.nCov → ℝ, x = List.ofFn t :=
    ⟨fun c => x[c]'(by rw [hx]; exact c.2), by
      apply List.ext_getElem
      · simp [hx]
      · intro k h1 h2; simp⟩
  have hfit : (hat d.amat d.Dp *ᵥ y') o = f := by
    set s := lgen d.amat d.Dp *ᵥ y' with hs'
    have hnorm : nmat d.amat d.Dp *ᵥ s = d.amatᵀ *ᵥ (fun b => d.Dp b * y' b) := by
      rw [hs', lgen, mulVec_mulVec, ← Matrix.mul_assoc, ← Matrix.mul_assoc, mul_nonsing_inv _ hu, Matrix.one_mul,
        ← mulVec_mulVec]
      congr 1; ext b; rw [mulVec_diagonal]
    -- both are optimal for `y'`
    have hsplit : ∀ g : Fin d.nCov → ℝ, ∑ b, d.Dp b * (y' b - (d.amat *ᵥ g) b) ^ 2
        = d.Dp o * (f - (d.amat *ᵥ g) o) ^ 2 + ∑ b with b ≠ o, d.Dp b * (d.y b - (d.amat *ᵥ g) b) ^ 2 := by
      intro g
      rw [← Finset.add_sum_erase _ _ (Finset.mem_univ o)]
      have : (Finset.univ.filter fun b => b ≠ o) = Finset.univ.erase o := by ext b; simp
      rw [this]
      congr 1
      · rw [hy', Function.update_self]
      · exact Finset.sum_congr rfl fun b hb => by rw [hy', Function.update_of_ne (Finset.ne_of_mem_erase hb)]
    have hpyth : ∑ b, d.Dp b * (y' b - (d.amat *ᵥ t) b) ^ 2
        = ∑ b, d.Dp b * (y' b - (d.amat *ᵥ s) b) ^ 2 + ∑ b, d.Dp b * ((d.amat *ᵥ (s - t)) b) ^ 2 := by
      have horth : ∑ b, d.Dp b * (y' b - (d.amat *ᵥ s) b) * (d.amat *ᵥ (s - t)) b = 0 := by
        have e1 : ∑ b, d.Dp b * (y' b - (d.amat *ᵥ s) b) * (d.amat *ᵥ (s - t)) b
            = (fun b => d.Dp b * (y' b - (d.amat *ᵥ s) b)) ⬝ᵥ (d.amat *ᵥ (s - t)) := rfl
        have e2 : (fun b => d.Dp b * (y' b - (d.amat *ᵥ s) b))
            = (fun b => d.Dp b * y' b) - diagonal d.Dp *ᵥ (d.amat *ᵥ s) := by
          ext b; rw [Pi.sub_apply, mulVec_diagonal]; ring
        have e4 : ∀ s, d.amatᵀ *ᵥ (diagonal d.Dp *ᵥ (d.amat *ᵥ s)) = nmat d.amat d.Dp *ᵥ s := by
          intro s; rw [nmat]; simp only [mulVec_mulVec, Matrix.mul_assoc]
        rw [e1, dotProduct_mulVec, ← mulVec_transpose, e2, mulVec_sub, ← hnorm, e4, sub_self, zero_dotProduct]
      have e3 : ∀ b, d.Dp b * (y' b - (d.amat *ᵥ t) b) ^ 2 = d.Dp b * (y' b - (d.amat *ᵥ s) b) ^ 2
          + d.Dp b * ((d.amat *ᵥ (s - t)) b) ^ 2 + 2 * (d.Dp b * (y' b - (d.amat *ᵥ s) b) * (d.amat *ᵥ (s - t)) b) := by
        intro b; rw [mulVec_sub, Pi.sub_apply]; ring
      rw [Finset.sum_congr rfl fun b _ => e3 b, Finset.sum_add_distrib, Finset.sum_add_distrib, ← Finset.mul_sum,
        horth]
      ring
    have hle := hopt (List.ofFn s) (by simp)
    simp only [multA_ofFn hd.names] at hle hf
    rw [hsplit, hsplit, ← hf, sub_self, zero_pow two_ne_zero, mul_zero, zero_add] at hpyth
    have hge : 0 ≤ d.Dp o * (f - (d.amat *ᵥ s) o) ^ 2 := mul_nonneg (hd.pos o).le (sq_nonneg _)
    have hterm : ∀ b ∈ Finset.univ, 0 ≤ d.Dp b * ((d.amat *ᵥ (s - t)) b) ^ 2 := fun b _ =>
      mul_nonneg (hd.pos b).le (sq_nonneg _)
    have hz : ∑ b, d.Dp b * ((d.amat *ᵥ (s - t)) b) ^ 2 = 0 :=
      le_antisymm (by linarith) (Finset.sum_nonneg hterm)
    have hzo := (Finset.sum_eq_zero_iff_of_nonneg hterm).1 hz o (Finset.mem_univ o)
    have h0 := pow_eq_zero_iff two_ne_zero |>.1 ((mul_eq_zero.1 hzo).resolve_left (hd.pos o).ne')
    rw [mulVec_sub, Pi.sub_apply] at h0
    rw [← X_mul_lgen, ← mulVec_mulVec, ← hs', hf]
    linarith
  have hupd : y' = d.y + Pi.single o (f - d.y o) := by
    ext b
    by_cases hb : b = o
    · subst hb; simp [hy']
    · simp [hy', hb]
  rw [hupd, mulVec_add, Pi.add_apply] at hfit
  have hsing : (hat d.amat d.Dp *ᵥ Pi.single o (f - d.y o)) o = hat d.amat d.Dp o o * (f - d.y o) := by
    simp [mulVec, dotProduct_single]
  rw [hsing] at hfit
  have hE : d.E solve o = d.y o - (hat d.amat d.Dp *ᵥ d.y) o := by
    rw [CData.E, gammaHat_ofFn hd.names hu hs, multA_ofFn hd.names, mulVec_mulVec, X_mul_lgen]
  have hne : 1 - hat d.amat d.Dp o o ≠ 0 := fun h => h1 (by linarith)
  rw [CData.looSii, hP, hE, weightedMean]
  congr 1
  rw [div_eq_iff hne]
  linarith

/-- Expectation of deviation times residual. -/
theorem dev_resid (hd : d.Ok) (hs : d.GoodSolver solve) (h : Noise μ eps s2) (t : Truth m nw) (o : Fin n) :
    Integrable (fun ω => ((d.obs t (eps ω)).y o - weightedMean (d.obs t (eps ω)).y (.vec (d.obs t (eps ω)).Dp))
      * (d.obs t (eps ω)).E solve o) μ ∧
    ∫ ω, ((d.obs t (eps ω)).y o - weightedMean (d.obs t (eps ω)).y (.vec (d.obs t (eps ω)).Dp))
        * (d.obs t (eps ω)).E solve o ∂μ
      = (1 - hat d.amat d.Dp o o) * s2 o
        - (d.Dp o * s2 o - ∑ b, hat d.amat d.Dp o b * (d.Dp b * s2 b)) / ∑ b, d.Dp b := by
  have hW : ∑ b, d.Dp b ≠ 0 := (Finset.sum_pos (fun b _ => hd.pos b) ⟨o, Finset.mem_univ o⟩).ne'
  obtain ⟨g, -, hobs⟩ := exists_true hd t
  set x : Fin n → ℝ := d.amat *ᵥ g with hx
  set W := ∑ b, d.Dp b with hWdef
  have hrw : ∀ ω, ((d.obs t (eps ω)).y o - weightedMean (d.obs t (eps ω)).y (.vec (d.obs t (eps ω)).Dp))
        * (d.obs t (eps ω)).E solve o
      = ((x o - (∑ b, d.Dp b * x b) / W)
            + ∑ b, ((if o = b then 1 else 0) - d.Dp b / W) * eps ω b)
          * (0 + ∑ b, ((if o = b then 1 else 0) - hat d.amat d.Dp o b) * eps ω b) := by
    intro ω
    rw [E_obs hd hs]
    have hm : weightedMean (d.obs t (eps ω)).y (.vec (d.obs t (eps ω)).Dp)
        = (∑ b, d.Dp b * x b) / W + ∑ b, d.Dp b / W * eps ω b := by
      have : ∑ b, d.Dp b / W * eps ω b = (∑ b, d.Dp b * eps ω b) / W := by
        rw [Finset.sum_div]; exact Finset.sum_congr rfl fun b _ => by ring
      rw [this, ← add_div, ← Finset.sum_add_distrib, hobs]
      change (∑ b, d.Dp b * (x b + eps ω b)) / W = _
      congr 1
      exact Finset.sum_congr rfl fun b _ => by ring
    rw [hm]
    have hy : (d.obs t (eps ω)).y o = x o + eps ω o := by rw [hobs]; rfl
    have hs1 : ∑ b, ((if o = b then 1 else 0) - d.Dp b / W) * eps ω b
        = eps ω o - ∑ b, d.Dp b / W * eps ω b := by
      simp [sub_mul, Finset.sum_sub_distrib]
    rw [hy, hs1]
    ring
  simp only [hrw]
  have key := h.integral_mul (x o - (∑ b, d.Dp b * x b) / W) 0
    (fun b => (if o = b then 1 else 0) - d.Dp b / W) (fun b => (if o = b then 1 else 0) - hat d.amat d.Dp o b)
  refine ⟨key.1, ?_⟩
  rw [key.2]
  have : ∀ b, ((if o = b then 1 else 0) - d.Dp b / W) * ((if o = b then 1 else 0) - hat d.amat d.Dp o b) * s2 b
      = (if o = b then (1 - hat d.amat d.Dp o o) * s2 o - d.Dp o * s2 o / W else 0)
        + hat d.amat d.Dp o b * (d.Dp b * s2 b) / W := by
    intro b
    by_cases hb : o = b
    · subst hb; simp only [if_true]; ring
    · simp only [hb, if_false]; ring
  simp only [this, Finset.sum_add_distrib, Finset.sum_ite_eq, Finset.mem_univ, if_true, ← Finset.sum_div]
  ring

/-- C86, expectation of the leave-one-out variance for any error variances: it is off by a term that comes from
subtracting the mean of `y`. -/
theorem C86_variance_expectation (hd : d.Ok) (hs : d.GoodSolver solve) (h : Noise μ eps s2) (t : Truth m nw)
    (o : Fin n) (P : Fin n → ℝ) (hP : P o = d.leverage solve o) (h1 : d.leverage solve o ≠ 1) :
    Integrable (fun ω => (d.obs t (eps ω)).looSii solve P o) μ ∧
    ∫ ω, (d.obs t (eps ω)).looSii solve P o ∂μ
      = s2 o - (d.Dp o * s2 o - ∑ b, d.influence solve o b * (d.Dp b * s2 b))
          / ((∑ b, d.Dp b) * (1 - d.leverage solve o)) := by
  have hW : ∑ b, d.Dp b ≠ 0 := (Finset.sum_pos (fun b _ => hd.pos b) ⟨o, Finset.mem_univ o⟩).ne'
  obtain ⟨i1, e1⟩ := dev_resid hd hs h t o
  simp only [influence_eq hd hs]
  rw [leverage_eq hd hs] at hP h1 ⊢
  have hne : 1 - hat d.amat d.Dp o o ≠ 0 := fun h => h1 (by linarith)
  have hrw : ∀ ω, (d.obs t (eps ω)).looSii solve P o = (1 / (1 - hat d.amat d.Dp o o)) *
      (((d.obs t (eps ω)).y o - weightedMean (d.obs t (eps ω)).y (.vec (d.obs t (eps ω)).Dp))
        * (d.obs t (eps ω)).E solve o) := fun ω => by
    rw [CData.looSii, hP]; ring
  simp only [hrw]
  refine ⟨i1.const_mul _, ?_⟩
  rw [integral_const_mul, e1]
  field_simp

/-- The workers' indicators sum to a constant, so a constant is fitted exactly. -/
theorem hat_row_sum (hd : d.Ok) (o : Fin n) : ∑ b, hat d.amat d.Dp o b = 1 := by
  set t : Truth m nw := ⟨fun _ => 0, fun _ => 1, fun _ _ => 0, fun _ => 0⟩ with ht
  obtain ⟨g, hg, -⟩ := exists_true hd t
  have h1 : d.amat *ᵥ g = fun _ => 1 := by
    ext b
    rw [← multA_ofFn hd.names, ← hg, multA_gammaTrue]
    simp [ht]
  have h2 : hat d.amat d.Dp *ᵥ (d.amat *ᵥ g) = d.amat *ᵥ g := by rw [mulVec_mulVec, hat_mul_X _ _ hd.unit]
  rw [h1] at h2
  have := congrFun h2 o
  simpa [mulVec, dotProduct] using this

/-- Rows whose variance estimate uses their own leverage. -/
def CData.UsesLeverage (d : CData n m nw) (st : Stayers) (o : Fin n) : Prop :=
  (d.weighted = false ∧ st = .upperBound) ∨ d.workerM o

/-- C86 (partial), variance of every row: if error variances are inversely proportional to the weights, the
variance estimates are unbiased for movers, for all rows under unweighted `upper_bound`, and for stayers under
`firm_mean`.  Missing: other variance profiles (`C86_heteroskedastic_biased`) and stayers under weighted
`upper_bound` (`C86_stayers_upper_bound`). -/
theorem C86_variance_partial (hd : d.Ok) (hs : d.GoodSolver solve) {σ2 : ℝ}
    (h : Noise μ eps fun o => σ2 / d.Dp o) (t : Truth m nw) (P : Fin n → ℝ) (st : Stayers)
    (hP : ∀ o, d.UsesLeverage st o → P o = d.leverage solve o ∧ d.leverage solve o ≠ 1) (o : Fin n)
    (hst : d.UsesLeverage st o ∨ st = .firmMean) (S : Ω → ℝ)
    (hS : ∀ ω, (d.obs t (eps ω)).siiHe solve st P o = some (S ω)) :
    Integrable S μ ∧ ∫ ω, S ω ∂μ = σ2 / d.Dp o := by
  have h1 : ∀ b, d.Dp b * (σ2 / d.Dp b) = σ2 := fun b => by
    rw [mul_div_assoc', mul_div_cancel_left₀ _ (hd.pos b).ne']
  have hloo : ∀ o, d.UsesLeverage st o → Integrable (fun ω => (d.obs t (eps ω)).looSii solve P o) μ ∧
      ∫ ω, (d.obs t (eps ω)).looSii solve P o ∂μ = σ2 / d.Dp o := by
    intro o ho
    obtain ⟨i, e⟩ := C86_variance_expectation hd hs h t o P (hP o ho).1 (hP o ho).2
    refine ⟨i, e.trans ?_⟩
    simp only [h1, influence_eq hd hs]
    rw [← Finset.sum_mul, hat_row_sum hd, one_mul, sub_self, zero_div, sub_zero]
  have hm' : ∀ ω o, (d.obs t (eps ω)).workerM o ↔ d.workerM o := fun _ _ => Iff.rfl
  have hj' : ∀ ω, (d.obs t (eps ω)).j = d.j := fun _ => rfl
  have hw' : ∀ ω, (d.obs t (eps ω)).weighted = d.weighted := fun _ => rfl
  have hD' : ∀ ω, (d.obs t (eps ω)).Dp = d.Dp := fun _ => rfl
  by_cases hm : d.workerM o
  · have : S = fun ω => (d.obs t (eps ω)).looSii solve P o := by
      ext ω
      have h2 := hS ω
      cases st with
      | firmMean => simp only [CData.siiHe, hm', hm, if_true, Option.some.injEq] at h2; exact h2.symm
      | upperBound =>
        simp only [CData.siiHe] at h2
        split at h2
        · split at h2
          · cases h2
          · rw [if_pos ((hm' ω o).2 hm)] at h2
            exact (Option.some.inj h2).symm
        · split at h2
          · cases h2
          · exact (Option.some.inj h2).symm
    rw [this]; exact hloo o (Or.inr hm)
  · cases st with
    | upperBound =>
      have hw : d.weighted = false := by
        rcases hst with (⟨hw, -⟩ | h3) | h3
        · exact hw
        · exact absurd h3 hm
        · cases h3
      have : S = fun ω => (d.obs t (eps ω)).looSii solve P o := by
        ext ω
        have h2 := hS ω
        simp only [CData.siiHe, hw', hw, Bool.false_eq_true, if_false] at h2
        split at h2
        · cases h2
        · exact (Option.some.inj h2).symm
      rw [this]; exact hloo o (Or.inl ⟨hw, rfl⟩)
    | firmMean =>
      have hmov : ∀ o', d.workerM o' → Integrable (fun ω => (d.obs t (eps ω)).looSii solve P o') μ ∧
          ∫ ω, (d.obs t (eps ω)).looSii solve P o' ∂μ = σ2 / d.Dp o' := fun o' h3 => hloo o' (Or.inr h3)
      have := h.prob
      obtain ⟨ω0⟩ := nonempty_of_isProbabilityMeasure μ
      have hex : ∃ o', d.workerM o' ∧ d.j o' = d.j o := by
        by_contra hc
        have h2 := hS ω0
        simp only [CData.siiHe, hm', hm, hj', if_false, hc] at h2
        cases h2
      set F := Finset.univ.filter fun o' => d.workerM o' ∧ d.j o' = d.j o with hF
      have hFne : F.Nonempty := by
        obtain ⟨o', h3⟩ := hex; exact ⟨o', by simp [hF, h3.1, h3.2]⟩
      have hFm : ∀ o' ∈ F, d.workerM o' := fun o' h3 => (Finset.mem_filter.1 h3).2.1
      cases hw : d.weighted with
      | true =>
        have hSe : S = fun ω => (∑ o' ∈ F, d.Dp o' ^ 2 * (d.obs t (eps ω)).looSii solve P o')
            * (1 / (∑ o' ∈ F, d.Dp o') / d.Dp o) := by
          ext ω
          have h2 := hS ω
          simp only [CData.siiHe, hm', hm, hj', if_false, hex, if_true, hw', hw, hD', Option.some.injEq] at h2
          rw [← h2]; ring
        have hi : ∀ o' ∈ F, Integrable (fun ω => d.Dp o' ^ 2 * (d.obs t (eps ω)).looSii solve P o') μ :=
          fun o' h3 => ((hmov o' (hFm o' h3)).1).const_mul _
        have hsum : ∑ o' ∈ F, d.Dp o' ≠ 0 := (Finset.sum_pos (fun o' _ => hd.pos o') hFne).ne'
        rw [hSe]
        refine ⟨(integrable_finsetSum _ hi).mul_const _, ?_⟩
        rw [integral_mul_const, integral_finsetSum _ hi]
        have : ∀ o' ∈ F, ∫ ω, d.Dp o' ^ 2 * (d.obs t (eps ω)).looSii solve P o' ∂μ = d.Dp o' * σ2 := by
          intro o' h3
          rw [integral_const_mul, (hmov o' (hFm o' h3)).2, pow_two, mul_assoc, h1]
        rw [Finset.sum_congr rfl this, ← Finset.sum_mul]
        have := (hd.pos o).ne'
        field_simp
      | false =>
        have hSe : S = fun ω => (∑ o' ∈ F, (d.obs t (eps ω)).looSii solve P o') * (1 / (F.card : ℝ)) := by
          ext ω
          have h2 := hS ω
          simp only [CData.siiHe, hm', hm, hj', if_false, hex, if_true, hw', hw, Bool.false_eq_true,
            Option.some.injEq] at h2
          rw [← h2, mul_one_div]
        have hi : ∀ o' ∈ F, Integrable (fun ω => (d.obs t (eps ω)).looSii solve P o') μ :=
          fun o' h3 => (hmov o' (hFm o' h3)).1
        have hcard : (F.card : ℝ) ≠ 0 := by exact_mod_cast hFne.card_pos.ne'
        have hD1 : ∀ o, d.Dp o = 1 := fun o => by simp [CData.Dp, hw]
        rw [hSe]
        refine ⟨(integrable_finsetSum _ hi).mul_const _, ?_⟩
        rw [integral_mul_const, integral_finsetSum _ hi,
          Finset.sum_congr rfl fun o' h3 => (hmov o' (hFm o' h3)).2]
        simp only [hD1, div_one, Finset.sum_const, nsmul_eq_mul]
        field_simp

/-- C86, stayers under weighted `upper_bound`: the leverage is replaced by the inverse of the worker's total
weight, whatever the controls, and the estimate is divided by the weight; with error variances `σ2 / weight`
its expectation is `σ2 / weight² · (1 − leverage) / (1 − 1 / total weight)`. -/
theorem C86_stayers_upper_bound (hd : d.Ok) (hs : d.GoodSolver solve) (hw : d.weighted = true) {σ2 : ℝ}
    (h : Noise μ eps fun o => σ2 / d.Dp o) (t : Truth m nw) (P : Fin n → ℝ) (o : Fin n) (hm : ¬ d.workerM o)
    (S : Ω → ℝ) (hS : ∀ ω, (d.obs t (eps ω)).siiHe solve .upperBound P o = some (S ω)) :
    ∫ ω, S ω ∂μ = σ2 / d.Dp o ^ 2 * ((1 - d.leverage solve o)
      / (1 - 1 / ∑ b with ¬ d.workerM b ∧ d.i b = d.i o, d.Dp b)) := by
  have h1 : ∀ b, d.Dp b * (σ2 / d.Dp b) = σ2 := fun b => by
    rw [mul_div_assoc', mul_div_cancel_left₀ _ (hd.pos b).ne']
  obtain ⟨-, e1⟩ := dev_resid hd hs h t o
  set T := ∑ b with ¬ d.workerM b ∧ d.i b = d.i o, d.Dp b with hT
  have hSe : S = fun ω => (1 / (1 - 1 / T) / d.Dp o) *
      (((d.obs t (eps ω)).y o - weightedMean (d.obs t (eps ω)).y (.vec (d.obs t (eps ω)).Dp))
        * (d.obs t (eps ω)).E solve o) := by
    ext ω
    have h2 := hS ω
    have hm' : ¬ (d.obs t (eps ω)).workerM o := hm
    have hw' : (d.obs t (eps ω)).weighted = true := hw
    simp only [CData.siiHe, hw', if_true, hm', if_false] at h2
    split at h2
    · cases h2
    · have h3 := (Option.some.inj h2).symm
      rw [h3]
      change ((d.obs t (eps ω)).y o - weightedMean (d.obs t (eps ω)).y (.vec (d.obs t (eps ω)).Dp))
        * ((d.obs t (eps ω)).E solve o / (1 - 1 / T)) / d.Dp o = _
      ring
  rw [hSe, integral_const_mul, e1]
  simp only [h1]
  rw [← Finset.sum_mul, hat_row_sum hd, one_mul, sub_self, zero_div, sub_zero, leverage_eq hd hs]
  have := (hd.pos o).ne'
  field_simp

/-! ## Trace and corrected components -/

theorem drawTraceHe_form (hd : d.Ok) (hs : d.GoodSolver solve) (Sii : Fin n → ℝ) {l1 l2 : List String}
    {M1 M2 : Matrix (Fin n) (Fin d.nCov) ℝ}
    (h1 : ∀ gh (t : Fin d.nCov → ℝ), d.qCol (d.unpack gh) l1 (List.ofFn t) = some (M1 *ᵥ t))
    (h2 : ∀ gh (t : Fin d.nCov → ℝ), d.qCol (d.unpack gh) l2 (List.ofFn t) = some (M2 *ᵥ t))
    (z : Fin d.nCov → ℝ) :
    d.drawTraceHe solve Sii l1 l2 (List.ofFn z)
      = some (z ⬝ᵥ ((cmat d M1 M2 * (lgen d.amat d.Dp * diagonal Sii * (lgen d.amat d.Dp)ᵀ)) *ᵥ z)) := by
  have hstd := stdWeight_DpW hd
  have hZ2 : solve (d.multATw .yes fun o => Sii o * d.multAw .yes (solve (List.ofFn z)) o)
      = List.ofFn ((lgen d.amat d.Dp * diagonal Sii * (lgen d.amat d.Dp)ᵀ) *ᵥ z) := by
    rw [solve_ofFn hd.names hd.unit hs z, multATw_eq hd.names, solve_ofFn hd.names hd.unit hs]
    congr 1
    have h3 : (fun o => d.wt .yes o * (Sii o * d.multAw .yes (List.ofFn ((nmat d.amat d.Dp)⁻¹ *ᵥ z)) o))
        = diagonal d.Dp *ᵥ (diagonal Sii *ᵥ (diagonal d.Dp *ᵥ (d.amat *ᵥ ((nmat d.amat d.Dp)⁻¹ *ᵥ z)))) := by
      ext o
      rw [multAw_ofFn hd.names]
      simp only [mulVec_diagonal, CData.wt]
    rw [h3, lgen_transpose, lgen]
    simp only [mulVec_mulVec, Matrix.mul_assoc]
  simp only [CData.drawTraceHe, hZ2, h1, h2, Option.bind_eq_bind, Option.bind_some, Option.pure_def,
    Option.some.injEq]
  rw [weightedCov_kmat _ _ hstd hstd, form_assoc, cmat]
  simp only [mulVec_mulVec]

/-- C86, trace: whatever the variance estimates, the approximate trace averages to the sum over observations of
the variance estimate times the covariance estimated from a unit change in that observation's outcome. -/
theorem C86_draws (hd : d.Ok) (hs : d.GoodSolver solve) (Sii : Fin n → ℝ) (hR : 0 < R) (l1 l2 : List String)
    (hl1 : ∀ s ∈ l1, s ∈ d.names) (hl2 : ∀ s ∈ l2, s ∈ d.names)
    (z : Fin R → Ω' → Fin d.nCov → ℝ) (hz : ∀ k, Noise ν (z k) fun _ => 1) :
    ∃ (f : Fin R → Ω' → ℝ) (u : Fin n → ℝ),
      (∀ k ω, d.drawTraceHe solve Sii l1 l2 (List.ofFn (z k ω)) = some (f k ω)) ∧
      (∀ o, (d.withY (Pi.single o 1)).covFe solve l1 l2 = some (u o)) ∧
      Integrable (fun ω => (∑ k, f k ω) / (R : ℝ)) ν ∧
      ∫ ω, (∑ k, f k ω) / (R : ℝ) ∂ν = ∑ o, Sii o * u o := by
  obtain ⟨M1, h1⟩ := qCol_mat hd.names l1 hl1
  obtain ⟨M2, h2⟩ := qCol_mat hd.names l2 hl2
  have key := mean_of_draws (μ := ν) hR fun k => probe_form (hz k)
    (cmat d M1 M2 * (lgen d.amat d.Dp * diagonal Sii * (lgen d.amat d.Dp)ᵀ))
  refine ⟨_, _, fun k ω => drawTraceHe_form hd hs Sii h1 h2 (z k ω), unit_form hd hs h1 h2, key.1, key.2.trans ?_⟩
  rw [unit_trace hd hs h1 h2 _ (unit_form hd hs h1 h2)]

/-- C86, corrected covariance for any error variances and any way of estimating them: averaging over errors and
probes it is the truth plus the sum over observations of (error variance − expected estimate) times the
covariance estimated from a unit change of the outcome. -/
theorem C86_he_expectation (hd : d.Ok) (hs : d.GoodSolver solve) (hn : 0 < n) (h : Noise μ eps s2)
    (t : Truth m nw) (l1 l2 : List String) (hl1 : ∀ s ∈ l1, s ∈ d.names) (hl2 : ∀ s ∈ l2, s ∈ d.names)
    (hR : 0 < R) (z : Fin R → Ω' → Fin d.nCov → ℝ) (hz : ∀ k, Noise ν (z k) fun _ => 1)
    (S : Ω → Fin n → ℝ) (hSi : ∀ o, Integrable (fun ω => S ω o) μ) :
    ∃ (f : Ω → Ω' → ℝ) (u : Fin n → ℝ),
      (∀ ω ω', (d.obs t (eps ω)).covHe solve l1 l2 (S ω) (fun k => List.ofFn (z k ω')) = some (f ω ω')) ∧
      (∀ o, (d.withY (Pi.single o 1)).covFe solve l1 l2 = some (u o)) ∧
      ∫ ω, (∫ ω', f ω ω' ∂ν) ∂μ = d.trueCov t l1 l2 + ∑ o, (s2 o - ∫ ω, S ω o ∂μ) * u o := by
  obtain ⟨p, u, hp, hu, ip, ep⟩ := C85_plug_in hd hs hn h t l1 l2 hl1 hl2
  have hdraw := fun ω => C86_draws hd hs (S ω) hR l1 l2 hl1 hl2 z hz
  choose q u' hq hu' iq eq using hdraw
  have huu : ∀ ω, u' ω = u := fun ω => by
    ext o; have := (hu' ω o).symm.trans (hu o); exact Option.some_inj.1 this
  have := (hz ⟨0, hR⟩).prob
  have hq' : ∀ ω k ω', (d.obs t (eps ω)).drawTraceHe solve (S ω) l1 l2 (List.ofFn (z k ω')) = some (q ω k ω') := by
    intro ω k ω'
    rw [← hq ω k ω']
    obtain ⟨M1, h1⟩ := qCol_mat hd.names l1 hl1
    obtain ⟨M2, h2⟩ := qCol_mat hd.names l2 hl2
    have hd' : (d.obs t (eps ω)).Ok := ⟨hd.names, hd.pos, hd.ident⟩
    exact (drawTraceHe_form hd' hs (S ω) h1 h2 (z k ω')).trans (drawTraceHe_form hd hs (S ω) h1 h2 (z k ω')).symm
  refine ⟨fun ω ω' => p ω - (∑ k, q ω k ω') / (R : ℝ), u, fun ω ω' => ?_, hu, ?_⟩
  · rw [CData.covHe, hp, mapM_ofFn _ _ (fun k => q ω k ω') fun k => hq' ω k ω']
    simp [List.sum_ofFn]
  · have hin : ∀ ω, ∫ ω', (p ω - (∑ k, q ω k ω') / (R : ℝ)) ∂ν = p ω - ∑ o, S ω o * u o := by
      intro ω
      rw [integral_sub (integrable_const _) (iq ω), eq, huu, integral_const, probReal_univ, one_smul]
    simp only [hin]
    have hi : ∀ o ∈ Finset.univ, Integrable (fun ω => S ω o * u o) μ := fun o _ => (hSi o).mul_const _
    rw [integral_sub ip (integrable_finsetSum _ hi), ep, integral_finsetSum _ hi, add_sub_assoc,
      ← Finset.sum_sub_distrib]
    congr 1
    refine Finset.sum_congr rfl fun o _ => ?_
    rw [integral_mul_const]; ring

/-- C86 (partial): if error variances are inversely proportional to the weights and the leverages used are the
true ones and not one, the HE-corrected covariance of any two lists of covariates is unbiased — under
`firm_mean`, under unweighted `upper_bound`, and for any option when every worker is a mover.  Missing: other
variance profiles (`C86_heteroskedastic_biased`), stayers under weighted `upper_bound`
(`C86_not_upper_bound`), random leverages. -/
theorem C86_he_unbiased_partial (hd : d.Ok) (hs : d.GoodSolver solve) (hn : 0 < n) {σ2 : ℝ}
    (h : Noise μ eps fun o => σ2 / d.Dp o) (t : Truth m nw) (l1 l2 : List String)
    (hl1 : ∀ s ∈ l1, s ∈ d.names) (hl2 : ∀ s ∈ l2, s ∈ d.names) (hR : 0 < R)
    (z : Fin R → Ω' → Fin d.nCov → ℝ) (hz : ∀ k, Noise ν (z k) fun _ => 1) (P : Fin n → ℝ) (st : Stayers)
    (hP : ∀ o, d.UsesLeverage st o → P o = d.leverage solve o ∧ d.leverage solve o ≠ 1)
    (hst : st = .firmMean ∨ d.weighted = false ∨ ∀ o, d.workerM o) (S : Ω → Fin n → ℝ)
    (hS : ∀ ω o, (d.obs t (eps ω)).siiHe solve st P o = some (S ω o)) :
    ∃ f : Ω → Ω' → ℝ,
      (∀ ω ω', (d.obs t (eps ω)).covHe solve l1 l2 (S ω) (fun k => List.ofFn (z k ω')) = some (f ω ω')) ∧
      ∫ ω, (∫ ω', f ω ω' ∂ν) ∂μ = d.trueCov t l1 l2 := by
  have hst' : ∀ o, d.UsesLeverage st o ∨ st = .firmMean := by
    intro o
    rcases hst with h1 | h1 | h1
    · exact Or.inr h1
    · cases st with
      | firmMean => exact Or.inr rfl
      | upperBound => exact Or.inl (Or.inl ⟨h1, rfl⟩)
    · exact Or.inl (Or.inr (h1 o))
  have hv := fun o => C86_variance_partial hd hs h t P st hP o (hst' o) (fun ω => S ω o) fun ω => hS ω o
  obtain ⟨f, u, hf, -, he⟩ := C86_he_expectation hd hs hn h t l1 l2 hl1 hl2 hR z hz S fun o => (hv o).1
  refine ⟨f, hf, he.trans ?_⟩
  simp only [(hv _).2, sub_self, zero_mul, Finset.sum_const_zero, add_zero]

end Pytwoway.FEControl
