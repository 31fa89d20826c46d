import Verif.FEControl.FewObs
import Verif.FE.Direction

/-! # How much the plug-in variances overstate (C146) -/

namespace Pytwoway.FE

open Matrix MeasureTheory Util
open scoped BigOperators

variable {n m nw : ℕ} {d : Panel n m nw} {solve : (Fin m → ℝ) → (Fin m → ℝ)}
  {Ω : Type*} [MeasurableSpace Ω] {μ : Measure Ω} {eps : Ω → Fin n → ℝ}

/-! ## Lemmas -/

theorem var_pairs (hv : d.Valid) (hn : 0 < n) (x : Fin n → ℝ) :
    weightedVar x d.DpW 0 = (∑ a, ∑ b, d.Dp a * d.Dp b * (x a - x b) ^ 2) / (2 * (∑ o, d.Dp o) ^ 2) := by
  have hW : 0 < ∑ o, d.Dp o := Finset.sum_pos (fun o _ => hv.wpos o) ⟨⟨0, hn⟩, Finset.mem_univ _⟩
  have h1 : weightedVar x d.DpW 0 =
      (∑ o, d.Dp o * (x o - (∑ b, d.Dp b * x b) / ∑ b, d.Dp b) ^ 2) / ∑ o, d.Dp o := by
    by_cases hw : d.weighted <;> simp [weightedVar, weightedMean, Panel.DpW, Panel.Dp, hw]
  rw [h1]
  set W := ∑ o, d.Dp o
  set S := ∑ b, d.Dp b * x b with hS
  set Q := ∑ b, d.Dp b * x b ^ 2 with hQ
  have e1 : ∑ o, d.Dp o * (x o - S / W) ^ 2 = Q - S ^ 2 / W := by
    have : ∀ o, d.Dp o * (x o - S / W) ^ 2 = d.Dp o * x o ^ 2 - 2 * (S / W) * (d.Dp o * x o) + (S / W) ^ 2 * d.Dp o :=
      fun o => by ring
    simp only [this, Finset.sum_add_distrib, Finset.sum_sub_distrib, ← Finset.mul_sum]
    change Q - 2 * (S / W) * S + (S / W) ^ 2 * W = _
    field_simp
    ring
  have e2 : ∑ a, ∑ b, d.Dp a * d.Dp b * (x a - x b) ^ 2 = 2 * (W * Q - S ^ 2) := by
    have : ∀ a b, d.Dp a * d.Dp b * (x a - x b) ^ 2 = d.Dp a * x a ^ 2 * d.Dp b - 2 * (d.Dp a * x a) * (d.Dp b * x b) +
        d.Dp a * (d.Dp b * x b ^ 2) := fun a b => by ring
    simp only [this, Finset.sum_add_distrib, Finset.sum_sub_distrib, ← Finset.mul_sum, ← Finset.sum_mul]
    change Q * W - 2 * S * S + W * Q = _
    ring
  rw [e1, e2]
  field_simp

theorem group_count {κ : Type*} [Fintype κ] [DecidableEq κ] (key : Fin n → κ) (hk : Function.Surjective key)
    {w : Fin n → ℝ} (hw : ∀ o, 0 < w o) :
    ∑ a, ∑ b, w a * w b * (if key a = key b then 0 else
      1 / (∑ o with key o = key a, w o) + 1 / (∑ o with key o = key b, w o)) =
      2 * (∑ o, w o) * (Fintype.card κ - 1) := by
  set G : κ → ℝ := fun k => ∑ o with key o = k, w o with hG
  have hGpos : ∀ k, 0 < G k := fun k => by
    obtain ⟨o, ho⟩ := hk k
    exact Finset.sum_pos (fun o _ => hw o) ⟨o, by simp [ho]⟩
  have hone : ∑ a, w a / G (key a) = Fintype.card κ := by
    rw [← Finset.sum_fiberwise Finset.univ key fun a => w a / G (key a)]
    have : ∀ k, ∑ a with key a = k, w a / G (key a) = 1 := fun k => by
      rw [Finset.sum_congr rfl fun a ha => by rw [(Finset.mem_filter.1 ha).2], ← Finset.sum_div]
      exact div_self (hGpos k).ne'
    simp [this]
  have half : ∑ a, ∑ b, w a * w b * (if key a = key b then 0 else 1 / G (key a)) =
      (∑ o, w o) * (Fintype.card κ - 1) := by
    have : ∀ a, ∑ b, w a * w b * (if key a = key b then 0 else 1 / G (key a)) =
        w a / G (key a) * (∑ o, w o) - w a := fun a => by
      have h1 : ∀ b, w a * w b * (if key a = key b then 0 else 1 / G (key a)) =
          w a / G (key a) * w b - w a / G (key a) * (if key b = key a then w b else 0) := fun b => by
        by_cases h : key a = key b
        · simp [h]
        · simp [h, Ne.symm h]; ring
      simp only [h1, Finset.sum_sub_distrib, ← Finset.mul_sum, ← Finset.sum_filter]
      change _ - w a / G (key a) * G (key a) = _
      rw [div_mul_cancel₀ _ (hGpos _).ne']
    simp only [this, Finset.sum_sub_distrib, ← Finset.sum_mul, hone]
    ring
  have split : ∀ a b, w a * w b * (if key a = key b then 0 else 1 / G (key a) + 1 / G (key b)) =
      w a * w b * (if key a = key b then 0 else 1 / G (key a)) +
        w b * w a * (if key b = key a then 0 else 1 / G (key b)) := fun a b => by
    by_cases h : key a = key b
    · simp [h]
    · simp only [if_neg h, if_neg (Ne.symm h)]; ring
  change ∑ a, ∑ b, w a * w b * (if key a = key b then 0 else 1 / G (key a) + 1 / G (key b)) = _
  rw [Finset.sum_congr rfl fun a _ => Finset.sum_congr rfl fun b _ => split a b]
  simp only [Finset.sum_add_distrib]
  rw [Finset.sum_comm (f := fun a b => w b * w a * (if key b = key a then 0 else 1 / G (key b))), half]
  ring

/-- If differences are estimated without bias and with at least the errors of C145, the variance of the estimates is on
average too large by at least `σ2` times the number of groups less one, over the total weight. -/
theorem plug_bias {κ : Type*} [Fintype κ] [DecidableEq κ] (hv : d.Valid) (hn : 0 < n) (key : Fin n → κ)
    (hk : Function.Surjective key) [IsProbabilityMeasure μ] {σ2 : ℝ} (θ : κ → ℝ) (X : Ω → κ → ℝ)
    (hi : ∀ k l, Integrable (fun ω => X ω k - X ω l - (θ k - θ l)) μ)
    (hi2 : ∀ k l, Integrable (fun ω => (X ω k - X ω l - (θ k - θ l)) ^ 2) μ)
    (h0 : ∀ k l, ∫ ω, (X ω k - X ω l - (θ k - θ l)) ∂μ = 0)
    (hlow : ∀ k l, k ≠ l → σ2 / (∑ o with key o = k, d.Dp o) + σ2 / (∑ o with key o = l, d.Dp o) ≤
      ∫ ω, (X ω k - X ω l - (θ k - θ l)) ^ 2 ∂μ) :
    weightedVar (fun o => θ (key o)) d.DpW 0 + σ2 * (Fintype.card κ - 1) / ∑ o, d.Dp o ≤
      ∫ ω, weightedVar (fun o => X ω (key o)) d.DpW 0 ∂μ := by
  have hW : 0 < ∑ o, d.Dp o := Finset.sum_pos (fun o _ => hv.wpos o) ⟨⟨0, hn⟩, Finset.mem_univ _⟩
  have hexp : ∀ k l ω, (X ω k - X ω l) ^ 2 = (θ k - θ l) ^ 2 + 2 * (θ k - θ l) * (X ω k - X ω l - (θ k - θ l)) +
      (X ω k - X ω l - (θ k - θ l)) ^ 2 := fun k l ω => by ring
  have hI : ∀ k l, Integrable (fun ω => (X ω k - X ω l) ^ 2) μ := fun k l => by
    simp only [hexp]
    exact ((integrable_const _).add ((hi k l).const_mul _)).add (hi2 k l)
  have hE : ∀ k l, ∫ ω, (X ω k - X ω l) ^ 2 ∂μ = (θ k - θ l) ^ 2 + ∫ ω, (X ω k - X ω l - (θ k - θ l)) ^ 2 ∂μ := fun k l => by
    have j1 : Integrable (fun ω => (θ k - θ l) ^ 2 + 2 * (θ k - θ l) * (X ω k - X ω l - (θ k - θ l))) μ :=
      (integrable_const _).add ((hi k l).const_mul _)
    rw [integral_congr_ae (Filter.Eventually.of_forall (hexp k l)), integral_add j1 (hi2 k l),
      integral_add (integrable_const _) ((hi k l).const_mul _), integral_const_mul, h0]
    simp
  simp only [var_pairs hv hn]
  rw [integral_div, integral_finsetSum _ fun a _ => integrable_finsetSum _ fun b _ => (hI _ _).const_mul _]
  simp only [integral_finsetSum _ fun b _ => (hI _ _).const_mul _, integral_const_mul, hE]
  have hge : ∑ a, ∑ b, d.Dp a * d.Dp b * (θ (key a) - θ (key b)) ^ 2 + σ2 * (2 * (∑ o, d.Dp o) * (Fintype.card κ - 1)) ≤
      ∑ a, ∑ b, d.Dp a * d.Dp b * ((θ (key a) - θ (key b)) ^ 2 +
        ∫ ω, (X ω (key a) - X ω (key b) - (θ (key a) - θ (key b))) ^ 2 ∂μ) := by
    rw [← group_count key hk hv.wpos, Finset.mul_sum, ← Finset.sum_add_distrib]
    refine Finset.sum_le_sum fun a _ => ?_
    rw [Finset.mul_sum, ← Finset.sum_add_distrib]
    refine Finset.sum_le_sum fun b _ => ?_
    have hp : 0 ≤ d.Dp a * d.Dp b := (mul_pos (hv.wpos a) (hv.wpos b)).le
    by_cases h : key a = key b
    · simp only [if_pos h, mul_zero, add_zero]
      exact mul_le_mul_of_nonneg_left (le_add_of_nonneg_right (integral_nonneg fun ω => sq_nonneg _)) hp
    · rw [if_neg h]
      have := mul_le_mul_of_nonneg_left (hlow _ _ h) hp
      rw [mul_add _ ((θ (key a) - θ (key b)) ^ 2)]
      refine add_le_add le_rfl (le_trans (le_of_eq ?_) this)
      ring
  calc _ = (∑ a, ∑ b, d.Dp a * d.Dp b * (θ (key a) - θ (key b)) ^ 2 +
        σ2 * (2 * (∑ o, d.Dp o) * (Fintype.card κ - 1))) / (2 * (∑ o, d.Dp o) ^ 2) := by
        field_simp
    _ ≤ _ := div_le_div_of_nonneg_right hge (by positivity)

theorem fit_gap (hv : d.Valid) (hc : d.Connected) {σ2 : ℝ} (a b : Fin n) :
    ∑ o, (hat d.X d.Dp a o - hat d.X d.Dp b o) ^ 2 * (σ2 / d.Dp o) = σ2 *
      ((d.X * (nmat d.X d.Dp)⁻¹ * d.Xᵀ) a a + (d.X * (nmat d.X d.Dp)⁻¹ * d.Xᵀ) b b -
        2 * (d.X * (nmat d.X d.Dp)⁻¹ * d.Xᵀ) a b) := by
  have hu := d.nmat_unit hv hc
  set G := d.X * (nmat d.X d.Dp)⁻¹ * d.Xᵀ with hG
  have hsym : ∀ a b, G a b = G b a := gmat_symm d.X d.Dp
  have hH : ∀ a b, hat d.X d.Dp a b = G a b * d.Dp b := hat_apply d.X d.Dp
  have hp : ∀ a b, ∑ o, G a o * d.Dp o * G b o = G a b := fun a b => by
    have h1 := congrFun (congrFun (hat_idem d.X d.Dp hu) a) b
    rw [mul_apply] at h1
    simp only [hH] at h1
    have h2 : (∑ o, G a o * d.Dp o * G b o) * d.Dp b = G a b * d.Dp b := by
      rw [← h1, Finset.sum_mul]
      exact Finset.sum_congr rfl fun o _ => by rw [hsym b o]; ring
    exact mul_right_cancel₀ (hv.wpos b).ne' h2
  have e : ∀ o, (hat d.X d.Dp a o - hat d.X d.Dp b o) ^ 2 * (σ2 / d.Dp o) =
      σ2 * (G a o * d.Dp o * G a o + G b o * d.Dp o * G b o - 2 * (G a o * d.Dp o * G b o)) := fun o => by
    have := (hv.wpos o).ne'
    rw [hH, hH]
    field_simp
    ring
  simp only [e, ← Finset.mul_sum, Finset.sum_sub_distrib, Finset.sum_add_distrib, hp]

theorem fit_count (hv : d.Valid) (hc : d.Connected) :
    ∑ a, ∑ b, d.Dp a * d.Dp b * ((d.X * (nmat d.X d.Dp)⁻¹ * d.Xᵀ) a a + (d.X * (nmat d.X d.Dp)⁻¹ * d.Xᵀ) b b -
        2 * (d.X * (nmat d.X d.Dp)⁻¹ * d.Xᵀ) a b) = 2 * (∑ o, d.Dp o) * (m + nw - 1) := by
  have hu := d.nmat_unit hv hc
  set G := d.X * (nmat d.X d.Dp)⁻¹ * d.Xᵀ with hG
  have hH : ∀ a b, hat d.X d.Dp a b = G a b * d.Dp b := hat_apply d.X d.Dp
  have htr : ∑ a, G a a * d.Dp a = m + nw := by
    simp only [← hH]
    rw [hat_trace _ _ hu]
    simp
  have hrow : ∀ a, ∑ b, G a b * d.Dp b = 1 := fun a => by
    simp only [← hH]
    exact hat_row_sum hv hc a
  have e : ∀ a b, d.Dp a * d.Dp b * (G a a + G b b - 2 * G a b) =
      G a a * d.Dp a * d.Dp b + d.Dp a * (G b b * d.Dp b) - 2 * d.Dp a * (G a b * d.Dp b) := fun a b => by ring
  simp only [e, Finset.sum_sub_distrib, Finset.sum_add_distrib, ← Finset.mul_sum, ← Finset.sum_mul, htr, hrow, mul_one]
  ring

/-! ## C146 -/

/-- C146, firms: with error variances `σ2` over the weight, the plug-in variance of firm effects is on average too large
by at least `σ2` times the number of firms less one, over the total weight. -/
theorem C146_firms (hv : d.Valid) (hc : d.Connected) (hs : d.GoodSolver solve) (hn : 0 < n) {σ2 : ℝ} (hσ : 0 ≤ σ2)
    (h : Noise μ eps fun o => σ2 / d.Dp o) (psi : Fin (m + 1) → ℝ) (alpha : Fin nw → ℝ) :
    weightedVar (fun o => psi (d.j o)) d.DpW 0 + σ2 * m / ∑ o, d.Dp o ≤
      ∫ ω, (d.obs psi alpha (eps ω)).varFe solve d.qPsi ∂μ := by
  have := h.prob
  have hk : Function.Surjective d.j := by
    intro k
    rcases Nat.eq_zero_or_pos m with rfl | hm
    · exact ⟨⟨0, hn⟩, Fin.ext (by omega)⟩
    · exact firm_seen hc hm k
  have e : ∀ k l ω, Panel.withZero ((d.obs psi alpha (eps ω)).ols solve).1 k -
      Panel.withZero ((d.obs psi alpha (eps ω)).ols solve).1 l - (psi k - psi l) =
      ∑ o, ((lgen d.X d.Dp)ᵀ *ᵥ coefs (Pi.single k 1 - Pi.single l 1) 0) o * eps ω o := fun k l ω => by
    change Spec.firmGap (d.obs psi alpha (eps ω)) solve k l - _ = _
    rw [firmGap_eq, ← gap_combination k l psi alpha]
    exact estimate_obs hv hc hs _ _ psi alpha (eps ω)
  have key := plug_bias (μ := μ) (σ2 := σ2) hv hn d.j hk psi
    (fun ω k => Panel.withZero ((d.obs psi alpha (eps ω)).ols solve).1 k)
    (fun k l => by simp only [e]; exact (h.linear _).1) (fun k l => by simp only [e]; exact (h.square _).1)
    (fun k l => by simp only [e]; exact (h.linear _).2)
    (fun k l hkl => C145_firm_gap hv hc hs hσ (fun _ => le_rfl) h psi alpha hkl)
  have e2 : ∀ ω, (d.obs psi alpha (eps ω)).varFe solve d.qPsi =
      weightedVar (fun o => Panel.withZero ((d.obs psi alpha (eps ω)).ols solve).1 (d.j o)) d.DpW 0 := fun ω => by
    change weightedVar (d.J *ᵥ _) d.DpW 0 = _
    congr 1
    ext o
    rw [d.J_mulVec]
  simp only [e2]
  simpa using key

/-- C146, workers: the plug-in variance of worker effects is on average too large by at least `σ2` times the number of
workers less one, over the total weight. -/
theorem C146_workers (hv : d.Valid) (hc : d.Connected) (hs : d.GoodSolver solve) (hn : 0 < n) {σ2 : ℝ} (hσ : 0 ≤ σ2)
    (h : Noise μ eps fun o => σ2 / d.Dp o) (psi : Fin (m + 1) → ℝ) (alpha : Fin nw → ℝ) :
    weightedVar (fun o => alpha (d.i o)) d.DpW 0 + σ2 * (nw - 1) / ∑ o, d.Dp o ≤
      ∫ ω, (d.obs psi alpha (eps ω)).varFe solve d.qAlpha ∂μ := by
  have := h.prob
  have e : ∀ k l ω, ((d.obs psi alpha (eps ω)).ols solve).2 k - ((d.obs psi alpha (eps ω)).ols solve).2 l -
      (alpha k - alpha l) =
      ∑ o, ((lgen d.X d.Dp)ᵀ *ᵥ coefs 0 (Pi.single k 1 - Pi.single l 1)) o * eps ω o := fun k l ω => by
    rw [← estimate_obs hv hc hs 0 _ psi alpha (eps ω)]
    simp [Spec.estimate, Spec.combination, sub_mul, Finset.sum_sub_distrib, Pi.single_apply]
  have key := plug_bias (μ := μ) (σ2 := σ2) hv hn d.i hv.seen alpha
    (fun ω k => ((d.obs psi alpha (eps ω)).ols solve).2 k)
    (fun k l => by simp only [e]; exact (h.linear _).1) (fun k l => by simp only [e]; exact (h.square _).1)
    (fun k l => by simp only [e]; exact (h.linear _).2)
    (fun k l hkl => C145_worker_gap hv hc hs hσ (fun _ => le_rfl) h psi alpha hkl)
  have e2 : ∀ ω, (d.obs psi alpha (eps ω)).varFe solve d.qAlpha =
      weightedVar (fun o => ((d.obs psi alpha (eps ω)).ols solve).2 (d.i o)) d.DpW 0 := fun ω => by
    change weightedVar (d.W *ᵥ _) d.DpW 0 = _
    congr 1
    ext o
    rw [d.W_mulVec]
  simp only [e2]
  simpa using key

/-- C146, both together: the plug-in variance of the sum of the effects is on average too large by exactly `σ2` times the
number of firms plus the number of workers less two, over the total weight (`m + 1` firms, `nw` workers). -/
theorem C146_total (hv : d.Valid) (hc : d.Connected) (hs : d.GoodSolver solve) (hn : 0 < n) {σ2 : ℝ}
    (h : Noise μ eps fun o => σ2 / d.Dp o) (psi : Fin (m + 1) → ℝ) (alpha : Fin nw → ℝ) :
    ∫ ω, (d.obs psi alpha (eps ω)).varFe solve d.qGamma ∂μ =
      weightedVar (fun o => psi (d.j o) + alpha (d.i o)) d.DpW 0 + σ2 * (m + nw - 1) / ∑ o, d.Dp o := by
  have := h.prob
  have hu := d.nmat_unit hv hc
  have hW : 0 < ∑ o, d.Dp o := Finset.sum_pos (fun o _ => hv.wpos o) ⟨⟨0, hn⟩, Finset.mem_univ _⟩
  set θ : Fin n → ℝ := fun o => psi (d.j o) + alpha (d.i o) with hθ
  have hX : d.X *ᵥ Sum.elim (relPsi psi) (relAlpha psi alpha) = θ := by
    ext o
    rw [d.X_mulVec]
    have := withZero_shift psi (d.j o)
    change Panel.withZero (fun k => psi k.succ - psi 0) (d.j o) + (alpha (d.i o) + psi 0) = _
    rw [this, hθ]
    ring
  have hfit : ∀ ω, (d.obs psi alpha (eps ω)).varFe solve d.qGamma =
      weightedVar (fun o => θ o + (hat d.X d.Dp *ᵥ eps ω) o) d.DpW 0 := fun ω => by
    change weightedVar (d.X *ᵥ Sum.elim ((d.obs psi alpha (eps ω)).ols solve).1
      ((d.obs psi alpha (eps ω)).ols solve).2) d.DpW 0 = _
    congr 1
    rw [obs_eq, ols_lmat hv hc hs, mulVec_mulVec]
    have e1 : d.X * d.lmat = hat d.X d.Dp := by
      simp only [Panel.lmat, hat, Matrix.mul_assoc]
    rw [e1, mulVec_add, mulVec_mulVec, hat_mul_X _ _ hu, hX]
    rfl
  have hdiff : ∀ ω a b, θ a + (hat d.X d.Dp *ᵥ eps ω) a - (θ b + (hat d.X d.Dp *ᵥ eps ω) b) =
      (θ a - θ b) + ∑ o, (hat d.X d.Dp a o - hat d.X d.Dp b o) * eps ω o := fun ω a b => by
    simp only [sub_mul, Finset.sum_sub_distrib]
    change θ a + (∑ o, hat d.X d.Dp a o * eps ω o) - (θ b + ∑ o, hat d.X d.Dp b o * eps ω o) = _
    ring
  have hI : ∀ a b, Integrable (fun ω => ((θ a - θ b) + ∑ o, (hat d.X d.Dp a o - hat d.X d.Dp b o) * eps ω o) ^ 2) μ ∧
      ∫ ω, ((θ a - θ b) + ∑ o, (hat d.X d.Dp a o - hat d.X d.Dp b o) * eps ω o) ^ 2 ∂μ = (θ a - θ b) ^ 2 +
        ∑ o, (hat d.X d.Dp a o - hat d.X d.Dp b o) ^ 2 * (σ2 / d.Dp o) := fun a b => by
    have := h.integral_mul (θ a - θ b) (θ a - θ b) (fun o => hat d.X d.Dp a o - hat d.X d.Dp b o)
      (fun o => hat d.X d.Dp a o - hat d.X d.Dp b o)
    simpa only [← sq] using this
  simp only [hfit, var_pairs hv hn, hdiff]
  rw [integral_div, integral_finsetSum _ fun a _ => integrable_finsetSum _ fun b _ => (hI a b).1.const_mul _]
  simp only [integral_finsetSum _ fun b _ => (hI _ b).1.const_mul _, integral_const_mul, (hI _ _).2, fit_gap hv hc]
  have e3 : ∑ a, ∑ b, d.Dp a * d.Dp b * ((θ a - θ b) ^ 2 + σ2 *
      ((d.X * (nmat d.X d.Dp)⁻¹ * d.Xᵀ) a a + (d.X * (nmat d.X d.Dp)⁻¹ * d.Xᵀ) b b -
        2 * (d.X * (nmat d.X d.Dp)⁻¹ * d.Xᵀ) a b)) =
      ∑ a, ∑ b, d.Dp a * d.Dp b * (θ a - θ b) ^ 2 + σ2 * (2 * (∑ o, d.Dp o) * (m + nw - 1)) := by
    rw [← fit_count hv hc, Finset.mul_sum, ← Finset.sum_add_distrib]
    refine Finset.sum_congr rfl fun a _ => ?_
    rw [Finset.mul_sum, ← Finset.sum_add_distrib]
    exact Finset.sum_congr rfl fun b _ => by ring
  rw [e3]
  field_simp

/-- C146, covariance: the plug-in covariance of firm and worker effects is on average no larger than the true one. -/
theorem C146_cov (hv : d.Valid) (hc : d.Connected) (hs : d.GoodSolver solve) (hn : 0 < n) {σ2 : ℝ} (hσ : 0 ≤ σ2)
    (h : Noise μ eps fun o => σ2 / d.Dp o) (psi : Fin (m + 1) → ℝ) (alpha : Fin nw → ℝ) :
    ∫ ω, (d.obs psi alpha (eps ω)).covFe solve d.qPsi d.qAlpha ∂μ ≤
      weightedCov (fun o => psi (d.j o)) (fun o => alpha (d.i o)) d.DpW d.DpW 0 := by
  have hstd := stdWeight_DpW hv
  have h1 := C146_firms hv hc hs hn hσ h psi alpha
  have h2 := C146_workers hv hc hs hn hσ h psi alpha
  have h3 := C146_total hv hc hs hn h psi alpha
  have hi := fun ql qr hl hr => (plugin_expectation (r := n) hv hc hs h psi alpha ql qr hl hr).1
  have hself : ∀ (q : Panel.QHalf n m nw), StdWeight q.wt → ∀ ω,
      (d.obs psi alpha (eps ω)).varFe solve q = (d.obs psi alpha (eps ω)).covFe solve q q :=
    fun q hq ω => weightedVar_eq_cov _ hq
  have i1 : Integrable (fun ω => (d.obs psi alpha (eps ω)).varFe solve d.qPsi) μ := by
    simp only [hself d.qPsi hstd]; exact hi _ _ hstd hstd
  have i2 : Integrable (fun ω => (d.obs psi alpha (eps ω)).varFe solve d.qAlpha) μ := by
    simp only [hself d.qAlpha hstd]; exact hi _ _ hstd hstd
  have i3 := hi d.qPsi d.qAlpha hstd hstd
  have hid : ∀ ω, (d.obs psi alpha (eps ω)).varFe solve d.qGamma = (d.obs psi alpha (eps ω)).varFe solve d.qPsi +
      (d.obs psi alpha (eps ω)).varFe solve d.qAlpha + 2 * (d.obs psi alpha (eps ω)).covFe solve d.qPsi d.qAlpha :=
    fun ω => (C23_identity (d := d.obs psi alpha (eps ω)) solve ⟨hv.wpos, hv.seen⟩).1
  have i12 : Integrable (fun ω => (d.obs psi alpha (eps ω)).varFe solve d.qPsi +
      (d.obs psi alpha (eps ω)).varFe solve d.qAlpha) μ := i1.add i2
  simp only [hid] at h3
  rw [integral_add i12 (i3.const_mul _), integral_add i1 i2, integral_const_mul] at h3
  have ht := cov_add (fun o => psi (d.j o)) (fun o => alpha (d.i o)) (fun o => psi (d.j o)) (fun o => alpha (d.i o)) d.DpW
  simp only [one_mul] at ht
  rw [← weightedVar_eq_cov _ hstd, ← weightedVar_eq_cov _ hstd, ← weightedVar_eq_cov _ hstd,
    C02_cov_symm (fun o => alpha (d.i o)) (fun o => psi (d.j o))] at ht
  rw [ht] at h3
  have : σ2 * (m + nw - 1) / ∑ o, d.Dp o = σ2 * m / ∑ o, d.Dp o + σ2 * (nw - 1) / ∑ o, d.Dp o := by ring
  linarith

/-- C146, unequal variances: the bounds for firms and workers hold with any `s` such that no error variance is below `s`
over the weight; with `s = 0`, plug-in variances are never too small on average. -/
theorem C146_unequal (hv : d.Valid) (hc : d.Connected) (hs : d.GoodSolver solve) (hn : 0 < n) {s : ℝ} (h0 : 0 ≤ s)
    {s2 : Fin n → ℝ} (hlow : ∀ o, s / d.Dp o ≤ s2 o) (h : Noise μ eps s2) (psi : Fin (m + 1) → ℝ) (alpha : Fin nw → ℝ) :
    weightedVar (fun o => psi (d.j o)) d.DpW 0 + s * m / ∑ o, d.Dp o ≤
      ∫ ω, (d.obs psi alpha (eps ω)).varFe solve d.qPsi ∂μ ∧
    weightedVar (fun o => alpha (d.i o)) d.DpW 0 + s * (nw - 1) / ∑ o, d.Dp o ≤
      ∫ ω, (d.obs psi alpha (eps ω)).varFe solve d.qAlpha ∂μ := by
  have hnoise := sign_noise (fun o => s / d.Dp o) fun o => div_nonneg h0 (hv.wpos o).le
  have hstd := stdWeight_DpW hv
  have key : ∀ q : Panel.QHalf n m nw, q.wt = d.DpW →
      ∫ z, (d.obs psi alpha (fun o => √(s / d.Dp o) * sgn (z o))).varFe solve q
        ∂(PMF.uniformOfFintype (Fin n → Bool)).toMeasure ≤ ∫ ω, (d.obs psi alpha (eps ω)).varFe solve q ∂μ := by
    intro q hq
    have hw : StdWeight q.wt := hq ▸ hstd
    have hself : ∀ u, (d.obs psi alpha u).varFe solve q = (d.obs psi alpha u).covFe solve q q :=
      fun u => weightedVar_eq_cov _ hw
    simp only [hself]
    rw [(plugin_expectation hv hc hs h psi alpha q q hw hw).2, (plugin_expectation hv hc hs hnoise psi alpha q q hw hw).2]
    exact add_le_add le_rfl (Finset.sum_le_sum fun o _ =>
      mul_le_mul_of_nonneg_right (hlow o) (unitCov_self_nonneg hv q hq o))
  exact ⟨(C146_firms hv hc hs hn h0 hnoise psi alpha).trans (key d.qPsi rfl),
    (C146_workers hv hc hs hn h0 hnoise psi alpha).trans (key d.qAlpha rfl)⟩

/-- C146: the bound for workers cannot be improved: it is the bias if there is one firm. -/
theorem C146_workers_tight {d : Panel n 0 nw} {solve : (Fin 0 → ℝ) → (Fin 0 → ℝ)} (hv : d.Valid) (hc : d.Connected)
    (hs : d.GoodSolver solve) (hn : 0 < n) {σ2 : ℝ}
    (h : Noise μ eps fun o => σ2 / d.Dp o) (psi : Fin (0 + 1) → ℝ) (alpha : Fin nw → ℝ) :
    ∫ ω, (d.obs psi alpha (eps ω)).varFe solve d.qAlpha ∂μ =
      weightedVar (fun o => alpha (d.i o)) d.DpW 0 + σ2 * (nw - 1) / ∑ o, d.Dp o := by
  have ht := C146_total hv hc hs hn h psi alpha
  have hj : ∀ k : Fin (0 + 1), k = 0 := fun k => Fin.ext (by omega)
  have e1 : ∀ ω, (d.obs psi alpha (eps ω)).varFe solve d.qGamma = (d.obs psi alpha (eps ω)).varFe solve d.qAlpha :=
    fun ω => by
      obtain ⟨-, h2, h3, -⟩ := C23_attached (d := d.obs psi alpha (eps ω)) solve
      refine h3.trans (Eq.trans ?_ h2.symm)
      congr 1
      funext o
      rw [Panel.psiCol, hj ((d.obs psi alpha (eps ω)).j o)]
      simp [Panel.withZero]
  have e2 : weightedVar (fun o => psi (d.j o) + alpha (d.i o)) d.DpW 0 = weightedVar (fun o => alpha (d.i o)) d.DpW 0 := by
    rw [← weightedVar_shift (fun o => alpha (d.i o)) d.DpW (psi 0) 0 (usable_DpW hv hn)]
    congr 1
    funext o
    rw [hj (d.j o), add_comm]
  simp only [e1, e2, Nat.cast_zero, zero_add] at ht
  exact ht

/-- C146: the bound for firms cannot be improved: it is the bias if there is one worker. -/
theorem C146_firms_tight {d : Panel n m 1} (hv : d.Valid) (hc : d.Connected)
    (hs : d.GoodSolver solve) (hn : 0 < n) {σ2 : ℝ}
    (h : Noise μ eps fun o => σ2 / d.Dp o) (psi : Fin (m + 1) → ℝ) (alpha : Fin 1 → ℝ) :
    ∫ ω, (d.obs psi alpha (eps ω)).varFe solve d.qPsi ∂μ =
      weightedVar (fun o => psi (d.j o)) d.DpW 0 + σ2 * m / ∑ o, d.Dp o := by
  have ht := C146_total hv hc hs hn h psi alpha
  have hi : ∀ k : Fin 1, k = 0 := fun k => Fin.ext (by omega)
  have e1 : ∀ ω, (d.obs psi alpha (eps ω)).varFe solve d.qGamma = (d.obs psi alpha (eps ω)).varFe solve d.qPsi :=
    fun ω => by
      obtain ⟨h1, -, h3, -⟩ := C23_attached (d := d.obs psi alpha (eps ω)) solve
      refine h3.trans (Eq.trans ?_ h1.symm)
      have hu : (d.obs psi alpha (eps ω)).DpW.Usable := usable_DpW (d := d.obs psi alpha (eps ω)) ⟨hv.wpos, hv.seen⟩ hn
      rw [← weightedVar_shift ((d.obs psi alpha (eps ω)).psiCol solve) _ (((d.obs psi alpha (eps ω)).ols solve).2 0) 0 hu]
      congr 1
      funext o
      rw [Panel.alphaCol, hi ((d.obs psi alpha (eps ω)).i o)]
  have e2 : weightedVar (fun o => psi (d.j o) + alpha (d.i o)) d.DpW 0 = weightedVar (fun o => psi (d.j o)) d.DpW 0 := by
    rw [← weightedVar_shift (fun o => psi (d.j o)) d.DpW (alpha 0) 0 (usable_DpW hv hn)]
    congr 1
    funext o
    rw [hi (d.i o)]
  simp only [e1, e2, Nat.cast_one, add_sub_cancel_right] at ht
  exact ht

/-- Two workers at one firm, and one worker at two firms, meet the conditions. -/
example : (∃ (d : Panel 2 0 2) (s : (Fin 0 → ℝ) → (Fin 0 → ℝ)), d.Valid ∧ d.Connected ∧ d.GoodSolver s) ∧
    ∃ (d : Panel 2 1 1) (s : (Fin 1 → ℝ) → (Fin 1 → ℝ)), d.Valid ∧ d.Connected ∧ d.GoodSolver s := by
  refine ⟨⟨⟨fun _ => 0, id, ![1, 3], false, ![1, 1]⟩, ?_⟩, ⟨⟨id, fun _ => 0, ![1, 3], false, ![1, 1]⟩, ?_⟩⟩
  · obtain ⟨s, hs⟩ := exists_goodSolver (⟨fun _ => 0, id, ![1, 3], false, ![1, 1]⟩ : Panel 2 0 2)
    refine ⟨s, ⟨fun o => by simp [Panel.Dp], fun i => ⟨i, rfl⟩⟩, fun a b => ?_, hs⟩
    rw [show a = b from Fin.ext (by omega)]
  · obtain ⟨s, hs⟩ := exists_goodSolver (⟨id, fun _ => 0, ![1, 3], false, ![1, 1]⟩ : Panel 2 1 1)
    exact ⟨s, ⟨fun o => by simp [Panel.Dp], fun i => ⟨0, Subsingleton.elim _ _⟩⟩,
      fun a b => Relation.ReflTransGen.single ⟨a, b, rfl, rfl, rfl⟩, hs⟩

/-- The conditions hold for two workers and two firms, and the plug-in variances are then on average too large by at
least a fifth of the error variance. -/
example : ∃ solve, ex20.GoodSolver solve ∧ ∀ psi alpha,
    weightedVar (fun o => psi (ex20.j o)) ex20.DpW 0 + 1 / 5 ≤
      ∫ z, (ex20.obs psi alpha (fun o => √(1 / ex20.Dp o) * sgn (z o))).varFe solve ex20.qPsi
        ∂(PMF.uniformOfFintype (Fin 5 → Bool)).toMeasure := by
  obtain ⟨s, hs⟩ := exists_goodSolver ex20
  refine ⟨s, hs, fun psi alpha => ?_⟩
  have := C146_firms ex20_valid ex20_connected hs (by norm_num) zero_le_one
    (sign_noise (fun o => 1 / ex20.Dp o) fun o => by simp [ex20_Dp]) psi alpha
  simpa [ex20_Dp] using this

end Pytwoway.FE
