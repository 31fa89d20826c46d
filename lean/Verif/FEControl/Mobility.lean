import Verif.FEControl.LimitedMobility

/-! # The plug-in variance of firm effects is right when mobility is high (C147) -/

namespace Pytwoway.FE

open Matrix MeasureTheory Util
open scoped BigOperators

variable {n m nw : ℕ} {d : Panel n m nw} {solve : (Fin m → ℝ) → (Fin m → ℝ)}
  {Ω : Type*} [MeasurableSpace Ω] {μ : Measure Ω} {eps : Ω → Fin n → ℝ} {s2 : Fin n → ℝ}

/-! ## Specification -/

/-- Any two firms are linked by a path of at most `L` pairs of firms, for each of which `K` workers have an observation
at both firms. -/
def Spec.WellLinked (d : Panel n m nw) (L K : ℕ) : Prop :=
  ∀ k l : Fin (m + 1), ∃ (L' : ℕ) (f : ℕ → Fin (m + 1)), L' ≤ L ∧ f 0 = k ∧ f L' = l ∧
    ∀ s < L', ∃ p q : Fin K → Fin n, Spec.Moves d (f s) (f (s + 1)) p q

/-! ## Lemmas -/

/-- The bias of the plug-in variance of firm effects, from the mean squared errors of differences. -/
theorem firm_bias (hv : d.Valid) (hc : d.Connected) (hs : d.GoodSolver solve) (hn : 0 < n) (h : Noise μ eps s2)
    (psi : Fin (m + 1) → ℝ) (alpha : Fin nw → ℝ) :
    ∫ ω, (d.obs psi alpha (eps ω)).varFe solve d.qPsi ∂μ = weightedVar (fun o => psi (d.j o)) d.DpW 0 +
      (∑ a, ∑ b, d.Dp a * d.Dp b * ∫ ω, (Spec.firmGap (d.obs psi alpha (eps ω)) solve (d.j a) (d.j b) -
        (psi (d.j a) - psi (d.j b))) ^ 2 ∂μ) / (2 * (∑ o, d.Dp o) ^ 2) := by
  have := h.prob
  have e : ∀ k l ω, Spec.firmGap (d.obs psi alpha (eps ω)) solve k l = (psi k - psi l) +
      ∑ o, ((lgen d.X d.Dp)ᵀ *ᵥ coefs (Pi.single k 1 - Pi.single l 1) 0) o * eps ω o := fun k l ω => by
    have h1 := estimate_obs hv hc hs (Pi.single k 1 - Pi.single l 1) 0 psi alpha (eps ω)
    rw [← firmGap_eq, gap_combination] at h1
    linarith
  have hI : ∀ k l, Integrable (fun ω => Spec.firmGap (d.obs psi alpha (eps ω)) solve k l ^ 2) μ ∧
      ∫ ω, Spec.firmGap (d.obs psi alpha (eps ω)) solve k l ^ 2 ∂μ = (psi k - psi l) ^ 2 +
        ∫ ω, (Spec.firmGap (d.obs psi alpha (eps ω)) solve k l - (psi k - psi l)) ^ 2 ∂μ := fun k l => by
    set c := (lgen d.X d.Dp)ᵀ *ᵥ coefs (Pi.single k 1 - Pi.single l 1) (0 : Fin nw → ℝ) with hcdef
    have h1 := h.integral_mul (psi k - psi l) (psi k - psi l) c c
    simp only [← sq] at h1
    simp only [e, ← hcdef, add_sub_cancel_left]
    rw [(h.square c).2]
    exact h1
  have e2 : ∀ ω, (d.obs psi alpha (eps ω)).varFe solve d.qPsi =
      weightedVar (fun o => Panel.withZero ((d.obs psi alpha (eps ω)).ols solve).1 (d.j o)) d.DpW 0 := fun ω => by
    change weightedVar (d.J *ᵥ _) d.DpW 0 = _
    congr 1
    ext o
    rw [d.J_mulVec]
  have e3 : ∀ ω a b, Panel.withZero ((d.obs psi alpha (eps ω)).ols solve).1 a -
      Panel.withZero ((d.obs psi alpha (eps ω)).ols solve).1 b = Spec.firmGap (d.obs psi alpha (eps ω)) solve a b :=
    fun _ _ _ => rfl
  simp only [e2, var_pairs hv hn, e3]
  rw [integral_div, integral_finsetSum _ fun a _ => integrable_finsetSum _ fun b _ => (hI _ _).1.const_mul _]
  simp only [integral_finsetSum _ fun b _ => (hI _ _).1.const_mul _, integral_const_mul, (hI _ _).2, mul_add,
    Finset.sum_add_distrib, add_div]

/-! ## C147 -/

/-- C147: if any two firms are linked by at most `L` pairs of firms with `K` movers each, no weight is below `w0` and no
error variance above `σ2` over the weight, the plug-in variance of firm effects is on average between the true one and
the true one plus `L² σ2 / (w0 K)`. -/
theorem C147_bias (hv : d.Valid) (hc : d.Connected) (hs : d.GoodSolver solve) (hn : 0 < n) {σ2 w0 : ℝ} (hσ : 0 ≤ σ2)
    (h0 : 0 < w0) (hw : ∀ o, w0 ≤ d.Dp o) (hup : ∀ o, s2 o ≤ σ2 / d.Dp o) (h : Noise μ eps s2)
    (psi : Fin (m + 1) → ℝ) (alpha : Fin nw → ℝ) {L K : ℕ} (hK : 0 < K) (hl : Spec.WellLinked d L K) :
    weightedVar (fun o => psi (d.j o)) d.DpW 0 ≤ ∫ ω, (d.obs psi alpha (eps ω)).varFe solve d.qPsi ∂μ ∧
    ∫ ω, (d.obs psi alpha (eps ω)).varFe solve d.qPsi ∂μ ≤
      weightedVar (fun o => psi (d.j o)) d.DpW 0 + L ^ 2 * σ2 / (w0 * K) := by
  have hKr : (0 : ℝ) < K := by exact_mod_cast hK
  have hW : 0 < ∑ o, d.Dp o := Finset.sum_pos (fun o _ => hv.wpos o) ⟨⟨0, hn⟩, Finset.mem_univ _⟩
  have hB : ∀ k l, ∫ ω, (Spec.firmGap (d.obs psi alpha (eps ω)) solve k l - (psi k - psi l)) ^ 2 ∂μ ≤
      2 * (L ^ 2 * σ2 / (w0 * K)) := by
    intro k l
    obtain ⟨L', f, hL, rfl, rfl, hm⟩ := hl k l
    refine (C144_path hv hc hs hσ h0 hw hup h psi alpha L' f (fun _ => K) (fun _ _ => hK) hm).trans ?_
    rw [Finset.sum_const, Finset.card_range, nsmul_eq_mul]
    have hLr : (L' : ℝ) ≤ L := by exact_mod_cast hL
    have hq : 0 ≤ σ2 / (w0 * K) := by positivity
    have h2 : (L' : ℝ) ^ 2 ≤ L ^ 2 := pow_le_pow_left₀ (Nat.cast_nonneg _) hLr 2
    calc (L' : ℝ) * (L' * (2 * σ2 / (w0 * K))) = 2 * (L' ^ 2 * (σ2 / (w0 * K))) := by ring
      _ ≤ 2 * (L ^ 2 * (σ2 / (w0 * K))) := by nlinarith [mul_le_mul_of_nonneg_right h2 hq]
      _ = _ := by ring
  rw [firm_bias hv hc hs hn h psi alpha]
  have hp : ∀ a b, 0 ≤ d.Dp a * d.Dp b := fun a b => (mul_pos (hv.wpos a) (hv.wpos b)).le
  refine ⟨le_add_of_nonneg_right (div_nonneg (Finset.sum_nonneg fun a _ => Finset.sum_nonneg fun b _ =>
    mul_nonneg (hp a b) (integral_nonneg fun ω => sq_nonneg _)) (by positivity)), add_le_add le_rfl ?_⟩
  rw [div_le_iff₀ (by positivity)]
  calc _ ≤ ∑ a, ∑ b, d.Dp a * d.Dp b * (2 * (L ^ 2 * σ2 / (w0 * K))) :=
        Finset.sum_le_sum fun a _ => Finset.sum_le_sum fun b _ => mul_le_mul_of_nonneg_left (hB _ _) (hp a b)
    _ = _ := by
        simp only [← Finset.sum_mul, ← Finset.mul_sum]
        ring

/-- C147: hence for every tolerance there is a number of movers that suffices whatever the data, effects and errors. -/
theorem C147_vanishes {σ2 w0 ε : ℝ} (hσ : 0 ≤ σ2) (h0 : 0 < w0) (hε : 0 < ε) (L : ℕ) :
    ∃ N : ℕ, ∀ {n m nw : ℕ} {d : Panel n m nw} {solve : (Fin m → ℝ) → (Fin m → ℝ)} {Ω : Type} [MeasurableSpace Ω]
      {μ : Measure Ω} {eps : Ω → Fin n → ℝ} {s2 : Fin n → ℝ} {K : ℕ}, d.Valid → d.Connected → d.GoodSolver solve →
      0 < n → (∀ o, w0 ≤ d.Dp o) → (∀ o, s2 o ≤ σ2 / d.Dp o) → Noise μ eps s2 → N ≤ K → Spec.WellLinked d L K →
      ∀ (psi : Fin (m + 1) → ℝ) (alpha : Fin nw → ℝ),
      |∫ ω, (d.obs psi alpha (eps ω)).varFe solve d.qPsi ∂μ - weightedVar (fun o => psi (d.j o)) d.DpW 0| ≤ ε := by
  obtain ⟨N, hN⟩ := exists_nat_ge (L ^ 2 * σ2 / (w0 * ε))
  refine ⟨N + 1, fun {n m nw d solve Ω _ μ eps s2 K} hv hc hs hn hw hup h hK hl psi alpha => ?_⟩
  obtain ⟨h1, h2⟩ := C147_bias hv hc hs hn hσ h0 hw hup h psi alpha (by omega : 0 < K) hl
  rw [abs_of_nonneg (by linarith)]
  have hKr : (0 : ℝ) < K := by exact_mod_cast (by omega : 0 < K)
  have hNK : (N : ℝ) ≤ K := by exact_mod_cast (by omega : N ≤ K)
  have h3 : L ^ 2 * σ2 / (w0 * K) ≤ ε := by
    rw [div_le_iff₀ (by positivity)] at hN ⊢
    have : (N : ℝ) * (w0 * ε) ≤ K * (w0 * ε) := mul_le_mul_of_nonneg_right hNK (by positivity)
    linarith
  linarith

/-- Two workers seen at both of two firms: any two firms are linked by at most one pair with two movers. -/
theorem C147_case : Spec.WellLinked ex20 1 2 ∧ ex20.Valid ∧ ex20.Connected ∧ (∃ s, ex20.GoodSolver s) ∧
    (∀ o, 1 ≤ ex20.Dp o) ∧ ∃ (μ : Measure (Fin 5 → Bool)) (eps : (Fin 5 → Bool) → Fin 5 → ℝ),
      Noise μ eps fun o => 2 / ex20.Dp o := by
  refine ⟨fun k l => ?_, ex20_valid, ex20_connected, exists_goodSolver ex20, fun o => (ex20_Dp o).ge, _, _,
    sign_noise _ fun o => by simp [ex20_Dp]⟩
  by_cases hkl : k = l
  · exact ⟨0, fun _ => k, by omega, rfl, hkl, fun s hs => absurd hs (by omega)⟩
  refine ⟨1, fun s => if s = 0 then k else l, le_rfl, rfl, rfl, fun s hs => ?_⟩
  obtain rfl : s = 0 := by omega
  have key : ∀ k l : Fin 2, k ≠ l → (k = 0 ∧ l = 1) ∨ (k = 1 ∧ l = 0) := by decide
  have inj : ∀ v : Fin 2 → Fin 5, ex20.i (v 0) ≠ ex20.i (v 1) → Function.Injective fun s => ex20.i (v s) := by
    intro v hne s t hst
    fin_cases s <;> fin_cases t
    exacts [rfl, absurd hst hne, absurd hst.symm hne, rfl]
  rcases key k l hkl with ⟨rfl, rfl⟩ | ⟨rfl, rfl⟩
  · refine ⟨![0, 3], ![2, 4], ⟨?_, ?_, ?_, inj _ (by decide)⟩⟩ <;> intro s <;> fin_cases s <;> rfl
  · refine ⟨![2, 4], ![0, 3], ⟨?_, ?_, ?_, inj _ (by decide)⟩⟩ <;> intro s <;> fin_cases s <;> rfl

end Pytwoway.FE
