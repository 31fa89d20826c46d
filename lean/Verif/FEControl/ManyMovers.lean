import Mathlib.Algebra.Order.Chebyshev
import Verif.FEControl.Efficient

/-! # Firm effects are precise when many workers move (C144) -/

namespace Pytwoway.FE

open Matrix MeasureTheory
open scoped BigOperators

variable {n m nw : ℕ} {d : Panel n m nw} {solve : (Fin m → ℝ) → (Fin m → ℝ)}
  {Ω : Type*} [MeasurableSpace Ω] {μ : Measure Ω} {eps : Ω → Fin n → ℝ}

/-! ## Specification -/

/-- `K` different workers with an observation at each of two firms: rows `p` at firm `k` and rows `q` at firm `l`. -/
structure Spec.Moves (d : Panel n m nw) (k l : Fin (m + 1)) {K : ℕ} (p q : Fin K → Fin n) : Prop where
  there : ∀ s, d.j (p s) = k
  here : ∀ s, d.j (q s) = l
  same : ∀ s, d.i (p s) = d.i (q s)
  distinct : Function.Injective fun s => d.i (p s)

/-! ## Lemmas -/

/-- The average difference of the movers' outcomes, as coefficients on outcomes. -/
noncomputable def avgDiff {K : ℕ} (p q : Fin K → Fin n) (o : Fin n) : ℝ :=
  (∑ s, ((if p s = o then (1 : ℝ) else 0) - if q s = o then 1 else 0)) / K

theorem avgDiff_sum {K : ℕ} (p q : Fin K → Fin n) (x : Fin n → ℝ) :
    ∑ o, avgDiff p q o * x o = (∑ s, (x (p s) - x (q s))) / K := by
  simp only [avgDiff, div_mul_eq_mul_div, ← Finset.sum_div, Finset.sum_mul]
  congr 1
  rw [Finset.sum_comm]
  refine Finset.sum_congr rfl fun s _ => ?_
  simp [sub_mul, Finset.sum_sub_distrib]

theorem count_le_one {K : ℕ} {p : Fin K → Fin n} (hp : Function.Injective p) (o : Fin n) :
    (∑ s, if p s = o then (1 : ℝ) else 0) ^ 2 = ∑ s, if p s = o then (1 : ℝ) else 0 := by
  by_cases h : ∃ s, p s = o
  · obtain ⟨s, rfl⟩ := h
    have : ∑ t, (if p t = p s then (1 : ℝ) else 0) = 1 := by simp [hp.eq_iff]
    rw [this]; norm_num
  · push Not at h
    simp [h]

theorem avgDiff_unbiased {k l : Fin (m + 1)} {K : ℕ} {p q : Fin K → Fin n} (hm : Spec.Moves d k l p q) (hK : 0 < K) :
    Spec.LinearUnbiased d (Pi.single k 1 - Pi.single l 1) 0 (avgDiff p q) := by
  intro psi alpha
  rw [avgDiff_sum, gap_combination]
  simp only [hm.there, hm.here, hm.same, add_sub_add_left_eq_sub]
  have : (K : ℝ) ≠ 0 := by positivity
  simp [Finset.sum_const]
  field_simp

theorem avgDiff_var {k l : Fin (m + 1)} (hkl : k ≠ l) {K : ℕ} {p q : Fin K → Fin n} (hm : Spec.Moves d k l p q)
    (hK : 0 < K) {w0 : ℝ} (h0 : 0 < w0) (hw : ∀ o, w0 ≤ d.Dp o) :
    ∑ o, avgDiff p q o ^ 2 / d.Dp o ≤ 2 / (w0 * K) := by
  have hp : Function.Injective p := fun s t h => hm.distinct (by simp [h])
  have hq : Function.Injective q := fun s t h => hm.distinct (by simp [hm.same, h])
  have hpq : ∀ s t, p s ≠ q t := fun s t h => hkl (by rw [← hm.there s, h, hm.here])
  have hKr : (0 : ℝ) < K := by exact_mod_cast hK
  have key : ∀ o, avgDiff p q o ^ 2 =
      ((∑ s, if p s = o then (1 : ℝ) else 0) + ∑ s, if q s = o then (1 : ℝ) else 0) / K ^ 2 := by
    intro o
    rw [avgDiff, div_pow, Finset.sum_sub_distrib, sub_sq, count_le_one hp, count_le_one hq]
    have : (∑ s, if p s = o then (1 : ℝ) else 0) * (∑ s, if q s = o then (1 : ℝ) else 0) = 0 := by
      by_cases h : ∃ s, p s = o
      · obtain ⟨s, rfl⟩ := h
        have : ∑ t, (if q t = p s then (1 : ℝ) else 0) = 0 :=
          Finset.sum_eq_zero fun t _ => if_neg fun h => hpq s t h.symm
        rw [this, mul_zero]
      · push Not at h
        simp [h]
    rw [mul_assoc, this]
    ring
  have hsum : ∀ r : Fin K → Fin n, ∑ o, ∑ s, (if r s = o then (1 : ℝ) else 0) = K := by
    intro r
    rw [Finset.sum_comm]
    simp
  calc ∑ o, avgDiff p q o ^ 2 / d.Dp o ≤ ∑ o, avgDiff p q o ^ 2 / w0 :=
        Finset.sum_le_sum fun o _ => div_le_div_of_nonneg_left (sq_nonneg _) h0 (hw o)
    _ = 2 / (w0 * K) := by
        simp only [key, ← Finset.sum_div, Finset.sum_add_distrib, hsum]
        field_simp
        norm_num

theorem gap_error (hv : d.Valid) (hc : d.Connected) (hs : d.GoodSolver solve) {s2 : Fin n → ℝ} (h : Noise μ eps s2)
    (psi : Fin (m + 1) → ℝ) (alpha : Fin nw → ℝ) (k l : Fin (m + 1)) :
    Integrable (fun ω => (Spec.firmGap (d.obs psi alpha (eps ω)) solve k l - (psi k - psi l)) ^ 2) μ := by
  have e : ∀ ω, Spec.firmGap (d.obs psi alpha (eps ω)) solve k l - (psi k - psi l) =
      ∑ o, ((lgen d.X d.Dp)ᵀ *ᵥ coefs (Pi.single k 1 - Pi.single l 1) 0) o * eps ω o := fun ω => by
    rw [firmGap_eq, ← gap_combination k l psi alpha]
    exact estimate_obs hv hc hs _ _ psi alpha (eps ω)
  simp only [e]
  exact (h.square _).1

theorem pair_equal (hv : d.Valid) (hc : d.Connected) (hs : d.GoodSolver solve) {σ2 w0 : ℝ} (hσ : 0 ≤ σ2) (h0 : 0 < w0)
    (hw : ∀ o, w0 ≤ d.Dp o) (h : Noise μ eps fun o => σ2 / d.Dp o) (psi : Fin (m + 1) → ℝ) (alpha : Fin nw → ℝ)
    (k l : Fin (m + 1)) {K : ℕ} (hK : 0 < K) (p q : Fin K → Fin n) (hm : Spec.Moves d k l p q) :
    ∫ ω, (Spec.firmGap (d.obs psi alpha (eps ω)) solve k l - (psi k - psi l)) ^ 2 ∂μ ≤ 2 * σ2 / (w0 * K) := by
  by_cases hkl : k = l
  · subst hkl
    have hKr : (0 : ℝ) < K := by exact_mod_cast hK
    simp only [Spec.firmGap, sub_self, ne_eq, OfNat.ofNat_ne_zero, not_false_eq_true, zero_pow, integral_zero]
    positivity
  · have hbest := (C141_best hv hc hs hσ h psi alpha _ _ _ (avgDiff_unbiased hm hK)).1
    simp only [gap_combination, ← firmGap_eq] at hbest
    refine hbest.trans ?_
    have hu := avgDiff_unbiased hm hK psi alpha
    rw [gap_combination] at hu
    have e : ∀ ω, ∑ o, avgDiff p q o * (d.obs psi alpha (eps ω)).y o - (psi k - psi l) =
        ∑ o, avgDiff p q o * eps ω o := by
      intro ω
      rw [← hu, ← Finset.sum_sub_distrib]
      refine Finset.sum_congr rfl fun o _ => ?_
      change avgDiff p q o * (psi (d.j o) + alpha (d.i o) + eps ω o) - _ = _
      ring
    simp only [e]
    rw [(h.square _).2]
    calc ∑ o, avgDiff p q o ^ 2 * (σ2 / d.Dp o) = σ2 * ∑ o, avgDiff p q o ^ 2 / d.Dp o := by
          rw [Finset.mul_sum]
          exact Finset.sum_congr rfl fun o _ => by ring
      _ ≤ σ2 * (2 / (w0 * K)) := mul_le_mul_of_nonneg_left (avgDiff_var hkl hm hK h0 hw) hσ
      _ = _ := by ring

theorem gap_mono (hv : d.Valid) (hc : d.Connected) (hs : d.GoodSolver solve) {s2 t2 : Fin n → ℝ} (hle : ∀ o, s2 o ≤ t2 o)
    (h : Noise μ eps s2) {Ω' : Type*} [MeasurableSpace Ω'] {μ' : Measure Ω'} {eps' : Ω' → Fin n → ℝ}
    (h' : Noise μ' eps' t2) (psi : Fin (m + 1) → ℝ) (alpha : Fin nw → ℝ) (k l : Fin (m + 1)) :
    ∫ ω, (Spec.firmGap (d.obs psi alpha (eps ω)) solve k l - (psi k - psi l)) ^ 2 ∂μ ≤
      ∫ ω, (Spec.firmGap (d.obs psi alpha (eps' ω)) solve k l - (psi k - psi l)) ^ 2 ∂μ' := by
  have e : ∀ u, Spec.firmGap (d.obs psi alpha u) solve k l - (psi k - psi l) =
      ∑ o, ((lgen d.X d.Dp)ᵀ *ᵥ coefs (Pi.single k 1 - Pi.single l 1) 0) o * u o := fun u => by
    rw [firmGap_eq, ← gap_combination k l psi alpha]
    exact estimate_obs hv hc hs _ _ psi alpha u
  simp only [e]
  rw [(h.square _).2, (h'.square _).2]
  exact Finset.sum_le_sum fun o _ => mul_le_mul_of_nonneg_left (hle o) (sq_nonneg _)

/-! ## C144 -/

/-- C144, two firms: if `K` workers have an observation at both, no weight is below `w0` and no error variance is above
`σ2` over the weight, the mean squared error of the estimated difference is at most `2 σ2 / (w0 K)`, whatever the rest
of the data. -/
theorem C144_pair (hv : d.Valid) (hc : d.Connected) (hs : d.GoodSolver solve) {σ2 w0 : ℝ} (hσ : 0 ≤ σ2) (h0 : 0 < w0)
    (hw : ∀ o, w0 ≤ d.Dp o) {s2 : Fin n → ℝ} (hup : ∀ o, s2 o ≤ σ2 / d.Dp o) (h : Noise μ eps s2)
    (psi : Fin (m + 1) → ℝ) (alpha : Fin nw → ℝ)
    (k l : Fin (m + 1)) {K : ℕ} (hK : 0 < K) (p q : Fin K → Fin n) (hm : Spec.Moves d k l p q) :
    ∫ ω, (Spec.firmGap (d.obs psi alpha (eps ω)) solve k l - (psi k - psi l)) ^ 2 ∂μ ≤ 2 * σ2 / (w0 * K) := by
  have hnoise := sign_noise (fun o => σ2 / d.Dp o) fun o => div_nonneg hσ (hv.wpos o).le
  exact (gap_mono hv hc hs hup h hnoise psi alpha k l).trans
    (pair_equal hv hc hs hσ h0 hw hnoise psi alpha k l hK p q hm)

/-- C144, any two firms: if they are linked by a path of `L` pairs of firms and `K s` workers have an observation at
both firms of pair `s`, the mean squared error of the estimated difference is at most `L` times the sum of
`2 σ2 / (w0 K s)`: it vanishes as the numbers of movers grow. -/
theorem C144_path (hv : d.Valid) (hc : d.Connected) (hs : d.GoodSolver solve) {σ2 w0 : ℝ} (hσ : 0 ≤ σ2) (h0 : 0 < w0)
    (hw : ∀ o, w0 ≤ d.Dp o) {s2 : Fin n → ℝ} (hup : ∀ o, s2 o ≤ σ2 / d.Dp o) (h : Noise μ eps s2)
    (psi : Fin (m + 1) → ℝ) (alpha : Fin nw → ℝ)
    (L : ℕ) (f : ℕ → Fin (m + 1)) (K : ℕ → ℕ) (hK : ∀ s < L, 0 < K s)
    (hm : ∀ s < L, ∃ p q : Fin (K s) → Fin n, Spec.Moves d (f s) (f (s + 1)) p q) :
    ∫ ω, (Spec.firmGap (d.obs psi alpha (eps ω)) solve (f 0) (f L) - (psi (f 0) - psi (f L))) ^ 2 ∂μ ≤
      L * ∑ s ∈ Finset.range L, 2 * σ2 / (w0 * K s) := by
  set g : ℕ → Ω → ℝ := fun s ω => Spec.firmGap (d.obs psi alpha (eps ω)) solve (f s) (f (s + 1)) -
    (psi (f s) - psi (f (s + 1))) with hg
  have htel : ∀ ω, Spec.firmGap (d.obs psi alpha (eps ω)) solve (f 0) (f L) - (psi (f 0) - psi (f L)) =
      ∑ s ∈ Finset.range L, g s ω := by
    intro ω
    have h1 := Finset.sum_range_sub' (fun s => Panel.withZero ((d.obs psi alpha (eps ω)).ols solve).1 (f s) - psi (f s)) L
    simp only [hg, Spec.firmGap]
    rw [show (∑ s ∈ Finset.range L, (Panel.withZero ((d.obs psi alpha (eps ω)).ols solve).1 (f s) -
        Panel.withZero ((d.obs psi alpha (eps ω)).ols solve).1 (f (s + 1)) - (psi (f s) - psi (f (s + 1))))) =
        ∑ s ∈ Finset.range L, ((Panel.withZero ((d.obs psi alpha (eps ω)).ols solve).1 (f s) - psi (f s)) -
          (Panel.withZero ((d.obs psi alpha (eps ω)).ols solve).1 (f (s + 1)) - psi (f (s + 1)))) from
      Finset.sum_congr rfl fun s _ => by ring, h1]
    ring
  have hi : ∀ s, Integrable (fun ω => g s ω ^ 2) μ := fun s => gap_error hv hc hs h psi alpha _ _
  calc ∫ ω, (Spec.firmGap (d.obs psi alpha (eps ω)) solve (f 0) (f L) - (psi (f 0) - psi (f L))) ^ 2 ∂μ
      ≤ ∫ ω, (L : ℝ) * ∑ s ∈ Finset.range L, g s ω ^ 2 ∂μ := by
        refine integral_mono (gap_error hv hc hs h psi alpha _ _)
          ((integrable_finsetSum _ fun s _ => hi s).const_mul _) fun ω => ?_
        simp only [htel]
        have := sq_sum_le_card_mul_sum_sq (s := Finset.range L) (f := fun s => g s ω)
        simpa using this
    _ = L * ∑ s ∈ Finset.range L, ∫ ω, g s ω ^ 2 ∂μ := by
        rw [integral_const_mul, integral_finsetSum _ fun s _ => hi s]
    _ ≤ L * ∑ s ∈ Finset.range L, 2 * σ2 / (w0 * K s) := by
        refine mul_le_mul_of_nonneg_left (Finset.sum_le_sum fun s hsL => ?_) (Nat.cast_nonneg _)
        have hsL' := Finset.mem_range.1 hsL
        obtain ⟨p, q, hpq⟩ := hm s hsL'
        exact C144_pair hv hc hs hσ h0 hw hup h psi alpha _ _ (hK s hsL') p q hpq

/-- C144, probability: hence an error of `δ` or more in the estimated difference has probability at most that bound
over `δ²`. -/
theorem C144_probability (hv : d.Valid) (hc : d.Connected) (hs : d.GoodSolver solve) {σ2 w0 δ : ℝ} (hσ : 0 ≤ σ2)
    (h0 : 0 < w0) (hδ : 0 < δ)
    (hw : ∀ o, w0 ≤ d.Dp o) {s2 : Fin n → ℝ} (hup : ∀ o, s2 o ≤ σ2 / d.Dp o) (h : Noise μ eps s2)
    (psi : Fin (m + 1) → ℝ) (alpha : Fin nw → ℝ)
    (L : ℕ) (f : ℕ → Fin (m + 1)) (K : ℕ → ℕ) (hK : ∀ s < L, 0 < K s)
    (hm : ∀ s < L, ∃ p q : Fin (K s) → Fin n, Spec.Moves d (f s) (f (s + 1)) p q) :
    μ.real {ω | δ ≤ |Spec.firmGap (d.obs psi alpha (eps ω)) solve (f 0) (f L) - (psi (f 0) - psi (f L))|} ≤
      (L * ∑ s ∈ Finset.range L, 2 * σ2 / (w0 * K s)) / δ ^ 2 := by
  have h1 := C144_path hv hc hs hσ h0 hw hup h psi alpha L f K hK hm
  have h2 := mul_meas_ge_le_integral_of_nonneg (μ := μ) (Filter.Eventually.of_forall fun ω => sq_nonneg
    (Spec.firmGap (d.obs psi alpha (eps ω)) solve (f 0) (f L) - (psi (f 0) - psi (f L))))
    (gap_error hv hc hs h psi alpha (f 0) (f L)) (δ ^ 2)
  rw [le_div_iff₀ (by positivity), mul_comm]
  refine le_trans (le_of_eq ?_) (h2.trans h1)
  congr 2
  ext ω
  simp only [Set.mem_ofPred_eq]
  rw [← sq_abs (Spec.firmGap _ _ _ _ - _)]
  exact (pow_le_pow_iff_left₀ hδ.le (abs_nonneg _) two_ne_zero).symm

/-- C144, consistency: for every tolerance and every probability there is a number of movers that suffices, whatever the
data, the true effects and the distribution of the errors: it depends only on the length of the path, the bound on
variances and the smallest weight. -/
theorem C144_consistent {σ2 w0 δ ε : ℝ} (hσ : 0 ≤ σ2) (h0 : 0 < w0) (hδ : 0 < δ) (hε : 0 < ε) (L : ℕ) :
    ∃ N : ℕ, ∀ {n m nw : ℕ} {d : Panel n m nw} {solve : (Fin m → ℝ) → (Fin m → ℝ)} {Ω : Type} [MeasurableSpace Ω]
      {μ : Measure Ω} {eps : Ω → Fin n → ℝ} {s2 : Fin n → ℝ}, d.Valid → d.Connected → d.GoodSolver solve →
      (∀ o, w0 ≤ d.Dp o) → (∀ o, s2 o ≤ σ2 / d.Dp o) → Noise μ eps s2 → ∀ (psi : Fin (m + 1) → ℝ) (alpha : Fin nw → ℝ) (f : ℕ → Fin (m + 1))
      (K : ℕ → ℕ), (∀ s < L, N ≤ K s) →
      (∀ s < L, ∃ p q : Fin (K s) → Fin n, Spec.Moves d (f s) (f (s + 1)) p q) →
      μ.real {ω | δ ≤ |Spec.firmGap (d.obs psi alpha (eps ω)) solve (f 0) (f L) - (psi (f 0) - psi (f L))|} ≤ ε := by
  obtain ⟨N, hN⟩ := exists_nat_ge (L * (L * (2 * σ2)) / (w0 * (ε * δ ^ 2)))
  refine ⟨N + 1, fun hv hc hs hw hup h psi alpha f K hK hm => ?_⟩
  refine (C144_probability hv hc hs hσ h0 hδ hw hup h psi alpha L f K (fun s hsL => by have := hK s hsL; omega) hm).trans ?_
  rw [div_le_iff₀ (by positivity)] at hN ⊢
  have h1 : ∑ s ∈ Finset.range L, 2 * σ2 / (w0 * K s) ≤ ∑ _s ∈ Finset.range L, 2 * σ2 / (w0 * (N + 1)) := by
    refine Finset.sum_le_sum fun s hsL => ?_
    have : ((N + 1 : ℕ) : ℝ) ≤ K s := by exact_mod_cast hK s (Finset.mem_range.1 hsL)
    push_cast at this
    exact div_le_div_of_nonneg_left (by positivity) (by positivity) (mul_le_mul_of_nonneg_left this h0.le)
  refine (mul_le_mul_of_nonneg_left h1 (Nat.cast_nonneg L)).trans ?_
  rw [Finset.sum_const, Finset.card_range, nsmul_eq_mul, mul_div_assoc', mul_div_assoc', div_le_iff₀ (by positivity)]
  have h2 : 0 ≤ w0 * (ε * δ ^ 2) := by positivity
  nlinarith

/-- The conditions hold for two workers seen at both of two firms, one of them twice at the first. -/
example : (∃ solve, ex20.GoodSolver solve) ∧ ex20.Valid ∧ ex20.Connected ∧ (∀ o, 1 ≤ ex20.Dp o) ∧
    Spec.Moves ex20 0 1 ![0, 3] ![2, 4] ∧
    Noise (PMF.uniformOfFintype (Fin 5 → Bool)).toMeasure (fun z o => √(2 / ex20.Dp o) * sgn (z o))
      fun o => 2 / ex20.Dp o := by
  refine ⟨exists_goodSolver ex20, ex20_valid, ex20_connected, fun o => (ex20_Dp o).ge, ⟨?_, ?_, ?_, ?_⟩,
    sign_noise _ fun o => by simp [ex20_Dp]⟩
  · intro s; fin_cases s <;> rfl
  · intro s; fin_cases s <;> rfl
  · intro s; fin_cases s <;> rfl
  · intro s t h
    fin_cases s <;> fin_cases t <;> simp_all [ex20]

end Pytwoway.FE
