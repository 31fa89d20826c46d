import Mathlib.Algebra.Order.BigOperators.Ring.Finset
import Verif.FEControl.ManyMovers

/-! # Effects of workers and firms with few observations stay imprecise (C145) -/

namespace Pytwoway.FE

open Matrix MeasureTheory
open scoped BigOperators

variable {n m nw : ℕ} {d : Panel n m nw} {solve : (Fin m → ℝ) → (Fin m → ℝ)}
  {Ω : Type*} [MeasurableSpace Ω] {μ : Measure Ω} {eps : Ω → Fin n → ℝ}

/-! ## Specification -/

/-- The total weight of a worker's observations. -/
noncomputable def Spec.workerWeight (d : Panel n m nw) (i : Fin nw) : ℝ := ∑ o with d.i o = i, d.Dp o

/-- The total weight of a firm's observations. -/
noncomputable def Spec.firmWeight (d : Panel n m nw) (k : Fin (m + 1)) : ℝ := ∑ o with d.j o = k, d.Dp o

/-! ## Lemmas -/

theorem grouped_le {κ : Type*} [Fintype κ] [DecidableEq κ] (key : Fin n → κ) (a : Fin n → ℝ) {w : Fin n → ℝ}
    (hw : ∀ o, 0 < w o) :
    ∑ k, (∑ o with key o = k, a o) ^ 2 / (∑ o with key o = k, w o) ≤ ∑ o, a o ^ 2 / w o := by
  rw [← Finset.sum_fiberwise Finset.univ key fun o => a o ^ 2 / w o]
  exact Finset.sum_le_sum fun k _ => Finset.sq_sum_div_le_sum_sq_div _ _ fun o _ => hw o

theorem fit_unbiased (hv : d.Valid) (hc : d.Connected) (c : Fin (m + 1) → ℝ) (e : Fin nw → ℝ) :
    Spec.LinearUnbiased d c e ((lgen d.X d.Dp)ᵀ *ᵥ coefs c e) := by
  rw [linearUnbiased_iff, mulVec_mulVec, ← transpose_mul, lgen_mul_X (d.nmat_unit hv hc), transpose_one, one_mulVec]

theorem fit_mse (hv : d.Valid) (hc : d.Connected) (hs : d.GoodSolver solve) {σ2 : ℝ} {s2 : Fin n → ℝ}
    (hlow : ∀ o, σ2 / d.Dp o ≤ s2 o) (h : Noise μ eps s2) (psi : Fin (m + 1) → ℝ) (alpha : Fin nw → ℝ)
    (c : Fin (m + 1) → ℝ) (e : Fin nw → ℝ) :
    σ2 * ∑ o, ((lgen d.X d.Dp)ᵀ *ᵥ coefs c e) o ^ 2 / d.Dp o ≤
      ∫ ω, (Spec.estimate (d.obs psi alpha (eps ω)) solve c e - Spec.combination c e psi alpha) ^ 2 ∂μ := by
  simp only [estimate_obs hv hc hs]
  rw [(h.square _).2, Finset.mul_sum]
  refine Finset.sum_le_sum fun o _ => (le_of_eq ?_).trans (mul_le_mul_of_nonneg_left (hlow o) (sq_nonneg _))
  ring

theorem worker_share {c : Fin (m + 1) → ℝ} {e : Fin nw → ℝ} {a : Fin n → ℝ} (ha : Spec.LinearUnbiased d c e a)
    (i : Fin nw) : ∑ o with d.i o = i, a o = e i := by
  have := ha 0 (Pi.single i 1)
  simpa [Spec.combination, Pi.single_apply, Finset.sum_filter] using this

theorem firm_share {k l : Fin (m + 1)} {a : Fin n → ℝ}
    (ha : Spec.LinearUnbiased d (Pi.single k 1 - Pi.single l 1) 0 a) (f : Fin (m + 1)) :
    ∑ o with d.j o = f, a o = (if k = f then 1 else 0) - if l = f then 1 else 0 := by
  have := ha (Pi.single f 1) 0
  rw [gap_combination] at this
  simpa [Pi.single_apply, Finset.sum_filter] using this

/-! ## C145 -/

/-- C145, workers: if no error variance is below `σ2` over the weight, the mean squared error of any combination of estimated
effects is at least the sum over workers of the squared coefficient times `σ2` over the total weight of that worker's
observations, however large the data. -/
theorem C145_workers (hv : d.Valid) (hc : d.Connected) (hs : d.GoodSolver solve) {σ2 : ℝ} (hσ : 0 ≤ σ2)
    {s2 : Fin n → ℝ} (hlow : ∀ o, σ2 / d.Dp o ≤ s2 o) (h : Noise μ eps s2)
    (psi : Fin (m + 1) → ℝ) (alpha : Fin nw → ℝ) (c : Fin (m + 1) → ℝ)
    (e : Fin nw → ℝ) :
    ∑ i, e i ^ 2 * (σ2 / Spec.workerWeight d i) ≤
      ∫ ω, (Spec.estimate (d.obs psi alpha (eps ω)) solve c e - Spec.combination c e psi alpha) ^ 2 ∂μ := by
  refine le_trans ?_ (fit_mse hv hc hs hlow h psi alpha c e)
  have := grouped_le d.i ((lgen d.X d.Dp)ᵀ *ᵥ coefs c e) hv.wpos
  simp only [worker_share (fit_unbiased hv hc c e)] at this
  refine le_trans (le_of_eq ?_) (mul_le_mul_of_nonneg_left this hσ)
  rw [Finset.mul_sum]
  exact Finset.sum_congr rfl fun i _ => by rw [Spec.workerWeight]; ring

/-- C145, one worker: the mean squared error of the estimated effect of a worker is at least `σ2` over the total weight
of the worker's observations. -/
theorem C145_worker (hv : d.Valid) (hc : d.Connected) (hs : d.GoodSolver solve) {σ2 : ℝ} (hσ : 0 ≤ σ2)
    {s2 : Fin n → ℝ} (hlow : ∀ o, σ2 / d.Dp o ≤ s2 o) (h : Noise μ eps s2)
    (psi : Fin (m + 1) → ℝ) (alpha : Fin nw → ℝ) (i : Fin nw) :
    σ2 / Spec.workerWeight d i ≤
      ∫ ω, (((d.obs psi alpha (eps ω)).ols solve).2 i - (alpha i + psi 0)) ^ 2 ∂μ := by
  have := C145_workers hv hc hs hσ hlow h psi alpha 0 (Pi.single i 1)
  simpa [Spec.estimate, Spec.combination, Pi.single_apply] using this

/-- C145, two workers: the mean squared error of the estimated difference is at least the sum of the two bounds. -/
theorem C145_worker_gap (hv : d.Valid) (hc : d.Connected) (hs : d.GoodSolver solve) {σ2 : ℝ} (hσ : 0 ≤ σ2)
    {s2 : Fin n → ℝ} (hlow : ∀ o, σ2 / d.Dp o ≤ s2 o) (h : Noise μ eps s2)
    (psi : Fin (m + 1) → ℝ) (alpha : Fin nw → ℝ) {i i' : Fin nw} (hi : i ≠ i') :
    σ2 / Spec.workerWeight d i + σ2 / Spec.workerWeight d i' ≤
      ∫ ω, (((d.obs psi alpha (eps ω)).ols solve).2 i - ((d.obs psi alpha (eps ω)).ols solve).2 i' -
        (alpha i - alpha i')) ^ 2 ∂μ := by
  have := C145_workers hv hc hs hσ hlow h psi alpha 0 (Pi.single i 1 - Pi.single i' 1)
  have e1 : ∀ x, (Pi.single i 1 - Pi.single i' 1 : Fin nw → ℝ) x ^ 2 * (σ2 / Spec.workerWeight d x) =
      (if x = i then σ2 / Spec.workerWeight d x else 0) + if x = i' then σ2 / Spec.workerWeight d x else 0 := by
    intro x
    by_cases h1 : x = i
    · subst h1; simp [hi]
    · by_cases h2 : x = i' <;> simp [h1, h2, Pi.single_apply, hi.symm]
  simp only [e1, Finset.sum_add_distrib, Finset.sum_ite_eq', Finset.mem_univ, if_true] at this
  simpa [Spec.estimate, Spec.combination, Pi.single_apply, sub_mul, Finset.sum_sub_distrib] using this

/-- C145, firms: the mean squared error of the estimated difference between two firms is at least `σ2` over the total
weight of the observations of the one plus `σ2` over that of the other. -/
theorem C145_firm_gap (hv : d.Valid) (hc : d.Connected) (hs : d.GoodSolver solve) {σ2 : ℝ} (hσ : 0 ≤ σ2)
    {s2 : Fin n → ℝ} (hlow : ∀ o, σ2 / d.Dp o ≤ s2 o) (h : Noise μ eps s2)
    (psi : Fin (m + 1) → ℝ) (alpha : Fin nw → ℝ) {k l : Fin (m + 1)}
    (hkl : k ≠ l) :
    σ2 / Spec.firmWeight d k + σ2 / Spec.firmWeight d l ≤
      ∫ ω, (Spec.firmGap (d.obs psi alpha (eps ω)) solve k l - (psi k - psi l)) ^ 2 ∂μ := by
  have hm := fit_mse hv hc hs hlow h psi alpha (Pi.single k 1 - Pi.single l 1) 0
  simp only [gap_combination, ← firmGap_eq] at hm
  refine le_trans ?_ hm
  have := grouped_le d.j ((lgen d.X d.Dp)ᵀ *ᵥ coefs (Pi.single k 1 - Pi.single l 1) (0 : Fin nw → ℝ)) hv.wpos
  simp only [firm_share (fit_unbiased hv hc (Pi.single k 1 - Pi.single l 1) 0)] at this
  refine le_trans (le_of_eq ?_) (mul_le_mul_of_nonneg_left this hσ)
  have e1 : ∀ f, ((if k = f then (1 : ℝ) else 0) - if l = f then 1 else 0) ^ 2 / (∑ o with d.j o = f, d.Dp o) =
      (if k = f then 1 / Spec.firmWeight d f else 0) + if l = f then 1 / Spec.firmWeight d f else 0 := by
    intro f
    by_cases h1 : k = f
    · subst h1; simp [hkl.symm, Spec.firmWeight]
    · by_cases h2 : l = f <;> simp [h1, h2, Spec.firmWeight]
  simp only [e1, Finset.sum_add_distrib, Finset.sum_ite_eq, Finset.mem_univ, if_true]
  ring

/-- The conditions hold for two workers at two firms; the bound for the second worker, seen twice, is a half. -/
example : (∃ solve, ex20.GoodSolver solve) ∧ ex20.Valid ∧ ex20.Connected ∧ (1 : ℝ) / Spec.workerWeight ex20 1 = 1 / 2 ∧
    Noise (PMF.uniformOfFintype (Fin 5 → Bool)).toMeasure (fun z o => √(1 / ex20.Dp o) * sgn (z o))
      fun o => 1 / ex20.Dp o := by
  refine ⟨exists_goodSolver ex20, ex20_valid, ex20_connected, ?_, sign_noise _ fun o => by simp [ex20_Dp]⟩
  simp only [Spec.workerWeight, ex20_Dp, Finset.sum_filter, Fin.sum_univ_five]
  simp [ex20]
  norm_num

end Pytwoway.FE

/-! ## C145 with controls -/

namespace Pytwoway.FEControl

open Matrix MeasureTheory FE
open scoped BigOperators

variable {n m nw : ℕ} {d : CData n m nw} {solve : List ℝ → List ℝ}
  {Ω : Type*} [MeasurableSpace Ω] {μ : Measure Ω} {eps : Ω → Fin n → ℝ} {s2 : Fin n → ℝ}

/-- C145 with controls: the mean squared error of each estimated coefficient is at least `σ2` over the weighted sum of
squares of its column of regressors, `A @ e_k`, whatever the other regressors. -/
theorem C145_controls (hd : d.Ok) (hs : d.GoodSolver solve) (t : Truth m nw) (g : Fin d.nCov → ℝ)
    (hg : d.gammaTrue t = List.ofFn g) {σ2 : ℝ} (hσ : 0 ≤ σ2) (hlow : ∀ o, σ2 / d.Dp o ≤ s2 o) (h : Noise μ eps s2)
    (k : Fin d.nCov) :
    ∃ x : (Fin n → ℝ) → Fin d.nCov → ℝ, (∀ u, (d.obs t u).gammaHat solve = List.ofFn (x u)) ∧
      σ2 / ∑ o, d.Dp o * d.multA (List.ofFn (Pi.single k 1)) o ^ 2 ≤ ∫ ω, (x (eps ω) k - g k) ^ 2 ∂μ := by
  obtain ⟨g', hg', hobs⟩ := exists_true hd t
  obtain rfl : g' = g := List.ofFn_injective (hg'.symm.trans hg)
  refine ⟨fun u => lgen d.amat d.Dp *ᵥ (d.amat *ᵥ g' + u), fun u => ?_, ?_⟩
  · rw [hobs]; exact gammaHat_ofFn (d := d.withY _) hd.names hd.unit hs
  have hx : ∀ u, (lgen d.amat d.Dp *ᵥ (d.amat *ᵥ g' + u)) k - g' k = ∑ o, lgen d.amat d.Dp k o * u o := by
    intro u
    rw [mulVec_add, mulVec_mulVec, lgen_mul_X hd.unit, one_mulVec, Pi.add_apply, add_sub_cancel_left]; rfl
  have hcol : ∀ o, d.multA (List.ofFn (Pi.single k 1)) o = d.amat o k := fun o => by
    rw [multA_ofFn hd.names]; simp
  simp only [hx, hcol]
  rw [(h.square _).2]
  have hone : ∑ o, lgen d.amat d.Dp k o * d.amat o k = 1 := by
    have := congrFun (congrFun (lgen_mul_X (w := d.Dp) hd.unit) k) k
    rwa [mul_apply, one_apply_eq] at this
  have hcs := Finset.sum_mul_sq_le_sq_mul_sq Finset.univ (fun o => lgen d.amat d.Dp k o / √(d.Dp o))
    (fun o => √(d.Dp o) * d.amat o k)
  have e1 : ∀ o, lgen d.amat d.Dp k o / √(d.Dp o) * (√(d.Dp o) * d.amat o k) = lgen d.amat d.Dp k o * d.amat o k :=
    fun o => by
      have := (Real.sqrt_pos.2 (hd.pos o)).ne'
      field_simp
  have e2 : ∀ o, (lgen d.amat d.Dp k o / √(d.Dp o)) ^ 2 = lgen d.amat d.Dp k o ^ 2 / d.Dp o := fun o => by
    rw [div_pow, Real.sq_sqrt (hd.pos o).le]
  have e3 : ∀ o, (√(d.Dp o) * d.amat o k) ^ 2 = d.Dp o * d.amat o k ^ 2 := fun o => by
    rw [mul_pow, Real.sq_sqrt (hd.pos o).le]
  simp only [e1, e2, e3, hone, one_pow] at hcs
  set S := ∑ o, d.Dp o * d.amat o k ^ 2 with hS
  have hS0 : 0 ≤ S := Finset.sum_nonneg fun o _ => mul_nonneg (hd.pos o).le (sq_nonneg _)
  have hSpos : 0 < S := lt_of_le_of_ne hS0 fun h0 => by rw [← h0, mul_zero] at hcs; linarith
  calc σ2 / S ≤ σ2 * ∑ o, lgen d.amat d.Dp k o ^ 2 / d.Dp o := by
        rw [div_eq_mul_inv]
        refine mul_le_mul_of_nonneg_left ?_ hσ
        rw [inv_eq_one_div, div_le_iff₀ hSpos]
        exact hcs
    _ ≤ _ := by
        rw [Finset.mul_sum]
        refine Finset.sum_le_sum fun o _ => (le_of_eq ?_).trans (mul_le_mul_of_nonneg_left (hlow o) (sq_nonneg _))
        ring

/-- The conditions hold for one worker twice at one firm. -/
example : exTwoC.Ok ∧ (∃ solve, exTwoC.GoodSolver solve) ∧ 0 < exTwoC.nCov ∧
    (∃ (μ : Measure (Fin 2 → Bool)) (eps : (Fin 2 → Bool) → Fin 2 → ℝ), Noise μ eps fun o => 2 / exTwoC.Dp o) ∧
    ∀ t, ∃ g : Fin exTwoC.nCov → ℝ, exTwoC.gammaTrue t = List.ofFn g :=
  ⟨exTwoC_ok, exists_goodSolver _, by decide, ⟨_, _, sign_noise _ fun o => div_nonneg zero_le_two (exTwoC_ok.pos o).le⟩,
    fun t => (exists_true exTwoC_ok t).imp fun _ h => h.1⟩

end Pytwoway.FEControl
