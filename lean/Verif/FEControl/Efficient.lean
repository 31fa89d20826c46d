import Verif.FEControl.Probes

/-! # The FE estimates are the best linear unbiased ones (C141) -/

namespace Pytwoway.FE

open Matrix MeasureTheory
open scoped BigOperators

/-! ## Specification -/

namespace Spec

variable {n m nw : ℕ}

/-- A combination of effects, relative to the first firm. -/
def combination (c : Fin (m + 1) → ℝ) (e : Fin nw → ℝ) (psi : Fin (m + 1) → ℝ) (alpha : Fin nw → ℝ) : ℝ :=
  ∑ k, c k * (psi k - psi 0) + ∑ i, e i * (alpha i + psi 0)

/-- The same combination of the estimates. -/
noncomputable def estimate (d : Panel n m nw) (solve : (Fin m → ℝ) → (Fin m → ℝ)) (c : Fin (m + 1) → ℝ)
    (e : Fin nw → ℝ) : ℝ :=
  ∑ k, c k * Panel.withZero (d.ols solve).1 k + ∑ i, e i * (d.ols solve).2 i

/-- The sum of outcomes with coefficients `a` is unbiased for the combination whatever the effects. -/
def LinearUnbiased (d : Panel n m nw) (c : Fin (m + 1) → ℝ) (e : Fin nw → ℝ) (a : Fin n → ℝ) : Prop :=
  ∀ psi alpha, ∑ o, a o * (alpha (d.i o) + psi (d.j o)) = combination c e psi alpha

end Spec

/-! ## Least squares -/

section General

variable {ι κ : Type*} [Fintype ι] [DecidableEq ι] [Fintype κ] [DecidableEq κ]
  {X : Matrix ι κ ℝ} {w : ι → ℝ}

/-- Any other unbiased combination of outcomes adds the square of how it differs. -/
theorem gauss_markov (hw : ∀ o, 0 < w o) (c : κ → ℝ) (hu : IsUnit (nmat X w).det)
    (a : ι → ℝ) (ha : Xᵀ *ᵥ a = c) :
    ∑ o, a o ^ 2 / w o = ∑ o, ((lgen X w)ᵀ *ᵥ c) o ^ 2 / w o + ∑ o, (a o - ((lgen X w)ᵀ *ᵥ c) o) ^ 2 / w o := by
  set b := (lgen X w)ᵀ *ᵥ c with hb
  have hXb : Xᵀ *ᵥ b = c := by
    rw [hb, mulVec_mulVec, ← transpose_mul, lgen_mul_X hu, transpose_one, one_mulVec]
  have hbw : ∀ o, b o / w o = (X *ᵥ ((nmat X w)⁻¹ *ᵥ c)) o := by
    intro o
    rw [hb, lgen_transpose, ← mulVec_mulVec, ← mulVec_mulVec, mulVec_diagonal, mul_div_cancel_left₀ _ (hw o).ne']
  have h0 : ∑ o, (a o - b o) * (b o / w o) = 0 := by
    simp only [hbw]
    change (a - b) ⬝ᵥ (X *ᵥ ((nmat X w)⁻¹ *ᵥ c)) = 0
    rw [dotProduct_mulVec, ← mulVec_transpose, mulVec_sub, ha, hXb, sub_self, zero_dotProduct]
  have : ∑ o, a o ^ 2 / w o = ∑ o, (b o ^ 2 / w o + (a o - b o) ^ 2 / w o + 2 * ((a o - b o) * (b o / w o))) := by
    refine Finset.sum_congr rfl fun o _ => ?_
    ring
  rw [this, Finset.sum_add_distrib, Finset.sum_add_distrib, ← Finset.mul_sum, h0, mul_zero, add_zero]

variable {Ω : Type*} [MeasurableSpace Ω] {μ : Measure Ω} {eps : Ω → ι → ℝ}

theorem Noise.square {s2 : ι → ℝ} (h : Noise μ eps s2) (a : ι → ℝ) :
    Integrable (fun ω => (∑ o, a o * eps ω o) ^ 2) μ ∧ ∫ ω, (∑ o, a o * eps ω o) ^ 2 ∂μ = ∑ o, a o ^ 2 * s2 o := by
  have := h.integral_mul 0 0 a a
  simpa only [zero_add, mul_zero, ← sq, ne_eq, OfNat.ofNat_ne_zero, not_false_eq_true, zero_pow] using this

theorem Noise.linear {s2 : ι → ℝ} (h : Noise μ eps s2) (a : ι → ℝ) :
    Integrable (fun ω => ∑ o, a o * eps ω o) μ ∧ ∫ ω, ∑ o, a o * eps ω o ∂μ = 0 := by
  refine ⟨integrable_finsetSum _ fun o _ => (h.int1 o).const_mul _, ?_⟩
  rw [integral_finsetSum _ fun o _ => (h.int1 o).const_mul _]
  refine Finset.sum_eq_zero fun o _ => ?_
  rw [integral_const_mul, h.mean, mul_zero]

end General

/-! ## C141 without controls -/

section FE

variable {n m nw : ℕ} {d : Panel n m nw} {solve : (Fin m → ℝ) → (Fin m → ℝ)}
  {Ω : Type*} [MeasurableSpace Ω] {μ : Measure Ω} {eps : Ω → Fin n → ℝ} {s2 : Fin n → ℝ}

/-- Coefficients of the combination on the estimated parameters. -/
def coefs (c : Fin (m + 1) → ℝ) (e : Fin nw → ℝ) : Fin m ⊕ Fin nw → ℝ := Sum.elim (fun k => c k.succ) e

theorem combination_eq (c : Fin (m + 1) → ℝ) (e : Fin nw → ℝ) (psi : Fin (m + 1) → ℝ) (alpha : Fin nw → ℝ) :
    Spec.combination c e psi alpha = coefs c e ⬝ᵥ Sum.elim (relPsi psi) (relAlpha psi alpha) := by
  simp [Spec.combination, coefs, dotProduct, relPsi, relAlpha, Fin.sum_univ_succ]

theorem estimate_eq (hv : d.Valid) (hc : d.Connected) (hs : d.GoodSolver solve) (c : Fin (m + 1) → ℝ)
    (e : Fin nw → ℝ) (y : Fin n → ℝ) :
    Spec.estimate (d.withY y) solve c e = ∑ o, ((lgen d.X d.Dp)ᵀ *ᵥ coefs c e) o * y o := by
  have h : Spec.estimate (d.withY y) solve c e =
      coefs c e ⬝ᵥ Sum.elim ((d.withY y).ols solve).1 ((d.withY y).ols solve).2 := by
    simp [Spec.estimate, coefs, dotProduct, Fin.sum_univ_succ, Panel.withZero]
  rw [h, ols_lmat hv hc hs, dotProduct_mulVec, ← mulVec_transpose]
  rfl

theorem estimate_obs (hv : d.Valid) (hc : d.Connected) (hs : d.GoodSolver solve) (c : Fin (m + 1) → ℝ)
    (e : Fin nw → ℝ) (psi : Fin (m + 1) → ℝ) (alpha : Fin nw → ℝ) (u : Fin n → ℝ) :
    Spec.estimate (d.obs psi alpha u) solve c e - Spec.combination c e psi alpha =
      ∑ o, ((lgen d.X d.Dp)ᵀ *ᵥ coefs c e) o * u o := by
  rw [obs_eq, estimate_eq hv hc hs, combination_eq]
  simp only [Pi.add_apply, mul_add, Finset.sum_add_distrib]
  have : ∑ o, ((lgen d.X d.Dp)ᵀ *ᵥ coefs c e) o * (d.X *ᵥ Sum.elim (relPsi psi) (relAlpha psi alpha)) o =
      coefs c e ⬝ᵥ Sum.elim (relPsi psi) (relAlpha psi alpha) := by
    change ((lgen d.X d.Dp)ᵀ *ᵥ coefs c e) ⬝ᵥ (d.X *ᵥ Sum.elim (relPsi psi) (relAlpha psi alpha)) = _
    rw [mulVec_transpose, ← dotProduct_mulVec, mulVec_mulVec, lgen_mul_X (d.nmat_unit hv hc), one_mulVec]
  rw [this]
  ring

theorem linearUnbiased_iff (c : Fin (m + 1) → ℝ) (e : Fin nw → ℝ) (a : Fin n → ℝ) :
    Spec.LinearUnbiased d c e a ↔ d.Xᵀ *ᵥ a = coefs c e := by
  have hfit : ∀ psi alpha, ∑ o, a o * (alpha (d.i o) + psi (d.j o)) =
      (d.Xᵀ *ᵥ a) ⬝ᵥ Sum.elim (relPsi psi) (relAlpha psi alpha) := by
    intro psi alpha
    rw [mulVec_transpose, ← dotProduct_mulVec]
    refine Finset.sum_congr rfl fun o _ => ?_
    congr 1
    rw [d.X_mulVec]
    have := withZero_shift psi (d.j o)
    change _ = Panel.withZero (fun k => psi k.succ - psi 0) (d.j o) + (alpha (d.i o) + psi 0)
    rw [this]; ring
  constructor
  · intro h
    have key : ∀ t : Fin m ⊕ Fin nw → ℝ, (d.Xᵀ *ᵥ a) ⬝ᵥ t = coefs c e ⬝ᵥ t := by
      intro t
      have h1 := h (Panel.withZero (t ∘ Sum.inl)) (t ∘ Sum.inr)
      rw [hfit, combination_eq] at h1
      have e1 : Sum.elim (relPsi (Panel.withZero (t ∘ Sum.inl)))
          (relAlpha (Panel.withZero (t ∘ Sum.inl)) (t ∘ Sum.inr)) = t := by
        funext x
        rcases x with x | x <;> simp [relPsi, relAlpha, Panel.withZero]
      rwa [e1] at h1
    funext x
    have := key (Pi.single x 1)
    simpa using this
  · intro h psi alpha
    rw [hfit, h, combination_eq]

/-- C141: the estimates are right on average, whatever the variances of the errors. -/
theorem C141_unbiased (hv : d.Valid) (hc : d.Connected) (hs : d.GoodSolver solve) (h : Noise μ eps s2)
    (psi : Fin (m + 1) → ℝ) (alpha : Fin nw → ℝ) (c : Fin (m + 1) → ℝ) (e : Fin nw → ℝ) :
    Integrable (fun ω => Spec.estimate (d.obs psi alpha (eps ω)) solve c e) μ ∧
    ∫ ω, Spec.estimate (d.obs psi alpha (eps ω)) solve c e ∂μ = Spec.combination c e psi alpha := by
  have := h.prob
  have e1 : ∀ ω, Spec.estimate (d.obs psi alpha (eps ω)) solve c e = Spec.combination c e psi alpha +
      ∑ o, ((lgen d.X d.Dp)ᵀ *ᵥ coefs c e) o * eps ω o := fun ω => by
    rw [← estimate_obs hv hc hs c e psi alpha]; ring
  obtain ⟨h1, h2⟩ := h.linear ((lgen d.X d.Dp)ᵀ *ᵥ coefs c e)
  simp only [e1]
  refine ⟨(integrable_const _).add h1, ?_⟩
  rw [integral_add (integrable_const _) h1, h2]
  simp

/-- C141: with error variances inversely proportional to the weights no linear unbiased estimate of any
combination of effects has a smaller mean squared error. -/
theorem C141_best (hv : d.Valid) (hc : d.Connected) (hs : d.GoodSolver solve) {σ2 : ℝ} (hσ : 0 ≤ σ2)
    (h : Noise μ eps fun o => σ2 / d.Dp o) (psi : Fin (m + 1) → ℝ) (alpha : Fin nw → ℝ) (c : Fin (m + 1) → ℝ)
    (e : Fin nw → ℝ) (a : Fin n → ℝ) (ha : Spec.LinearUnbiased d c e a) :
    ∫ ω, (Spec.estimate (d.obs psi alpha (eps ω)) solve c e - Spec.combination c e psi alpha) ^ 2 ∂μ ≤
      ∫ ω, (∑ o, a o * (d.obs psi alpha (eps ω)).y o - Spec.combination c e psi alpha) ^ 2 ∂μ ∧
    (0 < σ2 →
      ∫ ω, (Spec.estimate (d.obs psi alpha (eps ω)) solve c e - Spec.combination c e psi alpha) ^ 2 ∂μ =
        ∫ ω, (∑ o, a o * (d.obs psi alpha (eps ω)).y o - Spec.combination c e psi alpha) ^ 2 ∂μ →
      ∀ y, ∑ o, a o * y o = Spec.estimate (d.withY y) solve c e) := by
  have e2 : ∀ ω, ∑ o, a o * (d.obs psi alpha (eps ω)).y o - Spec.combination c e psi alpha =
      ∑ o, a o * eps ω o := by
    intro ω
    rw [← ha psi alpha, ← Finset.sum_sub_distrib]
    refine Finset.sum_congr rfl fun o _ => ?_
    change a o * (psi (d.j o) + alpha (d.i o) + eps ω o) - _ = _
    ring
  simp only [estimate_obs hv hc hs, e2]
  rw [(h.square _).2, (h.square _).2]
  have hgm := gauss_markov hv.wpos (coefs c e) (d.nmat_unit hv hc) a ((linearUnbiased_iff c e a).1 ha)
  have r : ∀ b : Fin n → ℝ, ∑ o, b o ^ 2 * (σ2 / d.Dp o) = σ2 * ∑ o, b o ^ 2 / d.Dp o := by
    intro b
    rw [Finset.mul_sum]
    exact Finset.sum_congr rfl fun o _ => by ring
  have hnn : ∀ o, 0 ≤ (a o - ((lgen d.X d.Dp)ᵀ *ᵥ coefs c e) o) ^ 2 / d.Dp o :=
    fun o => div_nonneg (sq_nonneg _) (hv.wpos o).le
  rw [r, r, hgm, mul_add]
  refine ⟨le_add_of_nonneg_right (mul_nonneg hσ (Finset.sum_nonneg fun o _ => hnn o)), fun hp he y => ?_⟩
  have h0 : ∑ o, (a o - ((lgen d.X d.Dp)ᵀ *ᵥ coefs c e) o) ^ 2 / d.Dp o = 0 := by
    have : σ2 * ∑ o, (a o - ((lgen d.X d.Dp)ᵀ *ᵥ coefs c e) o) ^ 2 / d.Dp o = 0 := by linarith
    exact (mul_eq_zero.1 this).resolve_left hp.ne'
  rw [estimate_eq hv hc hs]
  refine Finset.sum_congr rfl fun o _ => ?_
  have := (Finset.sum_eq_zero_iff_of_nonneg fun o _ => hnn o).1 h0 o (Finset.mem_univ _)
  rw [div_eq_zero_iff, or_iff_left (hv.wpos o).ne', sq_eq_zero_iff, sub_eq_zero] at this
  rw [this]

/-- The data `d` are part of the data `d'`: observation `o` is observation `ι o`, firm `k` is firm `f k`,
worker `i` is worker `g i`.  Outcomes and weights do not matter here. -/
structure Spec.Enlarged {n' m' nw' : ℕ} (d : Panel n m nw) (d' : Panel n' m' nw') (ι : Fin n → Fin n')
    (f : Fin (m + 1) → Fin (m' + 1)) (g : Fin nw → Fin nw') : Prop where
  inj : Function.Injective ι
  firm : ∀ o, d'.j (ι o) = f (d.j o)
  worker : ∀ o, d'.i (ι o) = g (d.i o)

/-- The estimated difference between the effects of two firms. -/
noncomputable def Spec.firmGap (d : Panel n m nw) (solve : (Fin m → ℝ) → (Fin m → ℝ)) (k l : Fin (m + 1)) : ℝ :=
  Panel.withZero (d.ols solve).1 k - Panel.withZero (d.ols solve).1 l

theorem firmGap_eq (d : Panel n m nw) (k l : Fin (m + 1)) :
    Spec.firmGap d solve k l = Spec.estimate d solve (Pi.single k 1 - Pi.single l 1) 0 := by
  simp [Spec.firmGap, Spec.estimate, sub_mul, Finset.sum_sub_distrib, Pi.single_apply]

theorem gap_combination (k l : Fin (m + 1)) (psi : Fin (m + 1) → ℝ) (alpha : Fin nw → ℝ) :
    Spec.combination (Pi.single k 1 - Pi.single l 1) 0 psi alpha = psi k - psi l := by
  simp [Spec.combination, sub_mul, Finset.sum_sub_distrib, Pi.single_apply]

/-- C141: more data never make the estimated difference between two firms' effects less precise: more
observations, of the same or further workers at the same or further firms. -/
theorem C141_more_data {n' m' nw' : ℕ} {d' : Panel n' m' nw'} {solve' : (Fin m' → ℝ) → (Fin m' → ℝ)}
    {eps' : Ω → Fin n' → ℝ} {ι : Fin n → Fin n'} {f : Fin (m + 1) → Fin (m' + 1)} {g : Fin nw → Fin nw'}
    (hp : Spec.Enlarged d d' ι f g) (hv : d.Valid) (hc : d.Connected) (hs : d.GoodSolver solve) (hv' : d'.Valid)
    (hc' : d'.Connected) (hs' : d'.GoodSolver solve') {σ2 : ℝ} (hσ : 0 ≤ σ2)
    (h : Noise μ eps' fun o => σ2 / d'.Dp o) (psi : Fin (m' + 1) → ℝ) (alpha : Fin nw' → ℝ) (k l : Fin (m + 1)) :
    ∫ ω, (Spec.firmGap (d'.obs psi alpha (eps' ω)) solve' (f k) (f l) - (psi (f k) - psi (f l))) ^ 2 ∂μ ≤
      ∫ ω, (Spec.firmGap (d.obs (psi ∘ f) (alpha ∘ g) (eps' ω ∘ ι)) solve k l
        - (psi (f k) - psi (f l))) ^ 2 ∂μ := by
  set b := (lgen d.X d.Dp)ᵀ *ᵥ coefs (nw := nw) (Pi.single k 1 - Pi.single l 1) 0 with hb
  let a : Fin n' → ℝ := Function.extend ι b 0
  have hsum : ∀ x : Fin n' → ℝ, ∑ o, a o * x o = ∑ o, b o * x (ι o) := by
    intro x
    have e1 : ∑ o, b o * x (ι o) = ∑ o ∈ Finset.univ.image ι, a o * x o := by
      rw [Finset.sum_image hp.inj.injOn]
      refine Finset.sum_congr rfl fun o _ => ?_
      change _ = Function.extend ι b 0 (ι o) * _
      rw [hp.inj.extend_apply]
    rw [e1]
    refine (Finset.sum_subset (Finset.subset_univ _) fun o _ ho => ?_).symm
    have : ¬ ∃ q, ι q = o := fun ⟨q, hq⟩ => ho (Finset.mem_image.2 ⟨q, Finset.mem_univ _, hq⟩)
    change Function.extend ι b 0 o * x o = 0
    rw [Function.extend_apply' _ _ _ this]
    simp
  have hbu : Spec.LinearUnbiased d (Pi.single k 1 - Pi.single l 1) 0 b := by
    rw [linearUnbiased_iff, hb, mulVec_mulVec, ← transpose_mul, lgen_mul_X (d.nmat_unit hv hc), transpose_one,
      one_mulVec]
  have hau : Spec.LinearUnbiased d' (Pi.single (f k) 1 - Pi.single (f l) 1) 0 a := by
    intro psi' alpha'
    rw [hsum, gap_combination]
    have := hbu (psi' ∘ f) (alpha' ∘ g)
    rw [gap_combination] at this
    refine Eq.trans ?_ this
    refine Finset.sum_congr rfl fun o _ => ?_
    rw [hp.firm, hp.worker]; rfl
  have hbest := (C141_best hv' hc' hs' hσ h psi alpha _ _ a hau).1
  simp only [gap_combination, ← firmGap_eq] at hbest
  refine hbest.trans (le_of_eq ?_)
  refine integral_congr_ae (Filter.Eventually.of_forall fun ω => ?_)
  simp only
  congr 1
  have h1 := estimate_obs hv hc hs (Pi.single k 1 - Pi.single l 1) 0 (psi ∘ f) (alpha ∘ g) (eps' ω ∘ ι)
  rw [gap_combination, ← firmGap_eq] at h1
  refine Eq.trans ?_ h1.symm
  rw [hsum]
  have h2 := hbu (psi ∘ f) (alpha ∘ g)
  rw [gap_combination] at h2
  change _ - ((psi ∘ f) k - (psi ∘ f) l) = _
  rw [← h2, ← Finset.sum_sub_distrib]
  refine Finset.sum_congr rfl fun o _ => ?_
  change b o * (psi (d'.j (ι o)) + alpha (d'.i (ι o)) + eps' ω (ι o)) - _ = _
  rw [hp.firm, hp.worker]
  simp only [Function.comp]
  ring

/-- C141: with other variances it is not the best: one worker seen twice without weights, the second error with
twice the standard deviation.  The first outcome alone estimates the worker's effect more precisely. -/
theorem C141_unequal_variances (solve : (Fin 0 → ℝ) → (Fin 0 → ℝ))
    {eps : Ω → Fin 2 → ℝ} (h : Noise μ eps ![1, 4]) (psi : Fin 1 → ℝ) (alpha : Fin 1 → ℝ) :
    Spec.LinearUnbiased exTwo 0 1 ![1, 0] ∧
    ∫ ω, (∑ o, ![1, 0] o * (exTwo.obs psi alpha (eps ω)).y o - Spec.combination 0 1 psi alpha) ^ 2 ∂μ <
      ∫ ω, (Spec.estimate (exTwo.obs psi alpha (eps ω)) solve 0 1 - Spec.combination 0 1 psi alpha) ^ 2 ∂μ := by
  have hD : ∀ o, exTwo.Dp o = 1 := fun _ => rfl
  have hi : ∀ o, exTwo.i o = 0 := fun _ => Subsingleton.elim _ _
  have hj : ∀ o, exTwo.j o = 0 := fun _ => Fin.ext (by omega)
  have hw : ∀ i, exTwo.Dwinv i = 1 / 2 := fun i => by
    rw [Panel.Dwinv_eq, Subsingleton.elim i 0]
    simp [Panel.Dw, hD, hi]
  have hu : Spec.LinearUnbiased exTwo 0 1 ![1, 0] := by
    intro psi alpha
    simp [Fin.sum_univ_two, Spec.combination, hi, hj]
  refine ⟨hu, ?_⟩
  have e1 : ∀ ω, ∑ o, ![1, 0] o * (exTwo.obs psi alpha (eps ω)).y o - Spec.combination 0 1 psi alpha =
      ∑ o, (![1, 0] : Fin 2 → ℝ) o * eps ω o := by
    intro ω
    rw [← hu psi alpha, ← Finset.sum_sub_distrib]
    refine Finset.sum_congr rfl fun o _ => ?_
    change _ * (psi (exTwo.j o) + alpha (exTwo.i o) + eps ω o) - _ = _
    ring
  have e2 : ∀ ω, Spec.estimate (exTwo.obs psi alpha (eps ω)) solve 0 1 - Spec.combination 0 1 psi alpha =
      ∑ o, (![1 / 2, 1 / 2] : Fin 2 → ℝ) o * eps ω o := by
    intro ω
    have e4 : ∀ y : Fin 2 → ℝ, Spec.estimate (exTwo.withY y) solve 0 1 = (y 0 + y 1) / 2 := by
      intro y
      have hD' : ∀ i, (exTwo.withY y).Dwinv i = 1 / 2 := hw
      have hy : (exTwo.withY y).y = y := rfl
      have hW : ∀ o i, (exTwo.withY y).DpWm o i = 1 := fun o i => by
        rw [Subsingleton.elim i 0]
        simp [Panel.DpWm_eq, Panel.W, Matrix.diagonal_mul, show (exTwo.withY y).i o = 0 from hi o,
          show (exTwo.withY y).Dp o = 1 from hD o]
      simp [Spec.estimate, Panel.ols, Panel.solveLS, Panel.multAAinv, Panel.multAT, hD', hy, hW,
        Matrix.mulVec, dotProduct, Fin.sum_univ_succ]
      ring
    rw [obs_eq, e4, combination_eq]
    simp [Fin.sum_univ_two, Panel.X_mulVec, coefs, hi, hj, dotProduct, Panel.withZero]
    ring
  simp only [e1, e2]
  rw [(h.square _).2, (h.square _).2]
  simp [Fin.sum_univ_two]
  norm_num

/-- The conditions of the theorems hold for one worker seen twice, as part of the data with that worker seen
three times. -/
example : ∃ (d' : Panel 3 0 1) (s : (Fin 0 → ℝ) → (Fin 0 → ℝ)), Spec.Enlarged exTwo d' Fin.castSucc id id ∧
    exTwo.Valid ∧ exTwo.Connected ∧ exTwo.GoodSolver s ∧ d'.Valid ∧ d'.Connected ∧
    Noise (PMF.uniformOfFintype (Fin 3 → Bool)).toMeasure (fun z o => √(2 / d'.Dp o) * sgn (z o))
      fun o => 2 / d'.Dp o := by
  obtain ⟨s, hs⟩ := exists_goodSolver exTwo
  refine ⟨⟨fun _ => 0, fun _ => 0, ![1, 3, 2], false, ![1, 1, 1]⟩, s,
    ⟨Fin.castSucc_injective 2, fun o => Fin.ext (by simp), fun o => Subsingleton.elim _ _⟩, exTwo_valid,
    exTwo_connected, hs, ⟨fun o => by simp [Panel.Dp], fun i => ⟨0, Subsingleton.elim _ _⟩⟩, fun a b => ?_,
    sign_noise _ fun o => by simp [Panel.Dp]⟩
  rw [show a = b from Fin.ext (by omega)]

end FE

end Pytwoway.FE

/-! ## C141 with controls -/

namespace Pytwoway.FEControl

open Matrix MeasureTheory FE
open scoped BigOperators

variable {n m nw : ℕ} {d : CData n m nw} {solve : List ℝ → List ℝ}
  {Ω : Type*} [MeasurableSpace Ω] {μ : Measure Ω} {eps : Ω → Fin n → ℝ} {s2 : Fin n → ℝ}

/-- C141 with controls: every combination of the estimated coefficients is right on average and, with error
variances inversely proportional to the weights, no less precise than any sum of outcomes with coefficients `a`
that has the right average for every vector of coefficients. -/
theorem C141_controls (hd : d.Ok) (hs : d.GoodSolver solve) (t : Truth m nw) (c g : Fin d.nCov → ℝ)
    (hg : d.gammaTrue t = List.ofFn g) :
    ∃ x : (Fin n → ℝ) → Fin d.nCov → ℝ, (∀ u, (d.obs t u).gammaHat solve = List.ofFn (x u)) ∧
      (Noise μ eps s2 → Integrable (fun ω => ∑ k, c k * x (eps ω) k) μ ∧
        ∫ ω, ∑ k, c k * x (eps ω) k ∂μ = ∑ k, c k * g k) ∧
      ∀ (σ2 : ℝ), 0 ≤ σ2 → (Noise μ eps fun o => σ2 / d.Dp o) →
        ∀ a : Fin n → ℝ, (∀ b : Fin d.nCov → ℝ, ∑ o, a o * d.multA (List.ofFn b) o = ∑ k, c k * b k) →
          ∫ ω, (∑ k, c k * x (eps ω) k - ∑ k, c k * g k) ^ 2 ∂μ ≤
            ∫ ω, (∑ o, a o * (d.obs t (eps ω)).y o - ∑ k, c k * g k) ^ 2 ∂μ := by
  obtain ⟨g', hg', hobs⟩ := exists_true hd t
  obtain rfl : g' = g := List.ofFn_injective (hg'.symm.trans hg)
  have hx : ∀ u k, (lgen d.amat d.Dp *ᵥ (d.amat *ᵥ g' + u)) k = g' k + (lgen d.amat d.Dp *ᵥ u) k := by
    intro u k
    rw [mulVec_add, mulVec_mulVec, lgen_mul_X hd.unit, one_mulVec]; rfl
  have hlin : ∀ u : Fin n → ℝ, ∑ k, c k * (lgen d.amat d.Dp *ᵥ (d.amat *ᵥ g' + u)) k =
      ∑ k, c k * g' k + ∑ o, ((lgen d.amat d.Dp)ᵀ *ᵥ c) o * u o := by
    intro u
    simp only [hx, mul_add, Finset.sum_add_distrib]
    congr 1
    change c ⬝ᵥ (lgen d.amat d.Dp *ᵥ u) = ((lgen d.amat d.Dp)ᵀ *ᵥ c) ⬝ᵥ u
    rw [mulVec_transpose, dotProduct_mulVec]
  refine ⟨fun u => lgen d.amat d.Dp *ᵥ (d.amat *ᵥ g' + u), fun u => ?_, fun h => ?_, fun σ2 hσ h a ha => ?_⟩
  · rw [hobs]; exact gammaHat_ofFn (d := d.withY _) hd.names hd.unit hs
  · have := h.prob
    obtain ⟨h1, h2⟩ := h.linear ((lgen d.amat d.Dp)ᵀ *ᵥ c)
    simp only [hlin]
    refine ⟨(integrable_const _).add h1, ?_⟩
    rw [integral_add (integrable_const _) h1, h2]
    simp
  · have hA : ∀ b : Fin d.nCov → ℝ, ∑ o, a o * d.multA (List.ofFn b) o = (d.amatᵀ *ᵥ a) ⬝ᵥ b := by
      intro b
      rw [mulVec_transpose, ← dotProduct_mulVec]
      exact Finset.sum_congr rfl fun o _ => by rw [multA_ofFn hd.names]
    have ha' : d.amatᵀ *ᵥ a = c := by
      funext k
      have := (hA (Pi.single k 1)).symm.trans (ha (Pi.single k 1))
      simpa [Pi.single_apply] using this
    have e2 : ∀ ω, ∑ o, a o * (d.obs t (eps ω)).y o - ∑ k, c k * g' k = ∑ o, a o * eps ω o := by
      intro ω
      rw [← ha g', hobs, ← Finset.sum_sub_distrib]
      refine Finset.sum_congr rfl fun o _ => ?_
      rw [multA_ofFn hd.names]
      change a o * ((d.amat *ᵥ g') o + eps ω o) - _ = _
      ring
    simp only [hlin, e2, add_sub_cancel_left]
    rw [(h.square _).2, (h.square _).2]
    have hgm := gauss_markov hd.pos c hd.unit a ha'
    have r : ∀ b : Fin n → ℝ, ∑ o, b o ^ 2 * (σ2 / d.Dp o) = σ2 * ∑ o, b o ^ 2 / d.Dp o := by
      intro b
      rw [Finset.mul_sum]
      exact Finset.sum_congr rfl fun o _ => by ring
    rw [r, r, hgm, mul_add]
    exact le_add_of_nonneg_right (mul_nonneg hσ (Finset.sum_nonneg fun o _ =>
      div_nonneg (sq_nonneg _) (hd.pos o).le))

/-- The conditions hold for one worker twice at one firm. -/
example : exTwoC.Ok ∧ (∃ solve, exTwoC.GoodSolver solve) ∧
    ∀ t, ∃ g : Fin exTwoC.nCov → ℝ, exTwoC.gammaTrue t = List.ofFn g :=
  ⟨exTwoC_ok, exists_goodSolver _, fun t => (exists_true exTwoC_ok t).imp fun _ h => h.1⟩

end Pytwoway.FEControl
