import Verif.FEControl.Probes

/-! # Approximate traces: their spread, and what more draws buy (C140) -/

namespace Pytwoway.FE

open Matrix Probes Probes.Spec Filter Topology
open scoped BigOperators
open Panel (QHalf)

/-- `np.std` over the draws, fe.py:1166, 1172, 1197, 1203 and fecontrol.py:1194, 1200, 1225, 1231. -/
noncomputable def Panel.stdDraws {R : ℕ} (x : Fin R → ℝ) : ℝ :=
  √((∑ r, (x r - Panel.meanDraws x) ^ 2) / R)

namespace Spec

variable {κ : Type*} [Fintype κ] [DecidableEq κ]

/-- The signs of one probe. -/
def signs (z : κ → Bool) : κ → ℝ := fun i => sign (z i)

/-- How strongly the entries of a probe interact in a draw `f`: half the sum over pairs of different entries of
the square of what the pair does beyond what its entries do. -/
noncomputable def interaction (f : (κ → ℝ) → ℝ) : ℝ :=
  (∑ i, ∑ j with j ≠ i, (f (Pi.single i 1 + Pi.single j 1) - f (Pi.single i 1) - f (Pi.single j 1)) ^ 2) / 2

/-- What is claimed of the average of `N` independent draws `f` of random signs as an estimate of `t`. -/
structure Spread (f : (κ → ℝ) → ℝ) (t : ℝ) : Prop where
  /-- The mean squared error is the interaction over the number of draws. -/
  mse : ∀ N : ℕ, 0 < N → (mean fun ω : Fin N → κ → Bool =>
    (Panel.meanDraws (fun k => f (signs (ω k))) - t) ^ 2) = interaction f / N
  /-- The square of the reported standard deviation of the draws averages to the interaction, short of it by
  one `N`-th. -/
  std : ∀ N : ℕ, 0 < N → (mean fun ω : Fin N → κ → Bool =>
    Panel.stdDraws (fun k => f (signs (ω k))) ^ 2) = (N - 1) / N * interaction f
  /-- The probability of an error of at least `ε`. -/
  tail : ∀ N : ℕ, 0 < N → ∀ ε : ℝ, 0 < ε → (share fun ω : Fin N → κ → Bool =>
    ε ≤ |Panel.meanDraws (fun k => f (signs (ω k))) - t|) ≤ interaction f / (N * ε ^ 2)

end Spec

/-! ## Quadratic forms in random signs -/

section Quad

variable {κ : Type*} [Fintype κ] [DecidableEq κ]

theorem mean_flip (f : (κ → Bool) → ℝ) (p : κ)
    (h : ∀ z, f (Function.update z p (!z p)) = - f z) : mean f = 0 := by
  have hinv : Function.Involutive fun z : κ → Bool => Function.update z p (!z p) := by
    intro z
    funext i
    by_cases hi : i = p
    · subst hi; simp
    · simp [hi]
  have : ∑ z, f z = - ∑ z, f z := by
    conv_lhs => rw [← Equiv.sum_comp hinv.toPerm]
    rw [← Finset.sum_neg_distrib]
    exact Finset.sum_congr rfl fun z _ => h z
  have h0 : ∑ z, f z = 0 := by linarith
  unfold mean
  rw [h0, zero_div]

theorem sign_not (b : Bool) : sign (!b) = - sign b := by cases b <;> simp [sign]

theorem sign_mul_self (b : Bool) : sign b * sign b = 1 := by cases b <;> simp [sign]

theorem mean_two {i j : κ} (h : i ≠ j) : (mean fun z : κ → Bool => sign (z i) * sign (z j)) = 0 := by
  refine mean_flip _ i fun z => ?_
  simp [h.symm, sign_not]

theorem mean_four {i j k l : κ} (hij : i ≠ j) (hkl : k ≠ l) :
    (mean fun z : κ → Bool => sign (z i) * sign (z j) * (sign (z k) * sign (z l))) =
      (if i = k ∧ j = l then 1 else 0) + if i = l ∧ j = k then 1 else 0 := by
  by_cases h1 : i = k
  · subst h1
    have e : ∀ z : κ → Bool, sign (z i) * sign (z j) * (sign (z i) * sign (z l)) = sign (z j) * sign (z l) := by
      intro z
      rw [mul_mul_mul_comm, sign_mul_self, one_mul]
    simp only [e]
    rw [if_neg (fun h : i = l ∧ j = i => hkl h.1), add_zero]
    by_cases h2 : j = l
    · subst h2
      simp only [sign_mul_self]
      simp [mean_const]
    · rw [if_neg fun h => h2 h.2, mean_two h2]
  · rw [if_neg fun h => h1 h.1, zero_add]
    by_cases h2 : i = l
    · subst h2
      have e : ∀ z : κ → Bool, sign (z i) * sign (z j) * (sign (z k) * sign (z i)) = sign (z j) * sign (z k) := by
        intro z
        have := sign_mul_self (z i)
        calc _ = sign (z i) * sign (z i) * (sign (z j) * sign (z k)) := by ring
          _ = _ := by rw [this, one_mul]
      simp only [e]
      by_cases h3 : j = k
      · subst h3
        simp only [sign_mul_self]
        simp [mean_const]
      · rw [if_neg fun h => h3 h.2, mean_two h3]
    · rw [if_neg fun h => h2 h.1]
      refine mean_flip _ i fun z => ?_
      have hj : j ≠ i := hij.symm
      have hk : k ≠ i := fun h => h1 h.symm
      have hl : l ≠ i := fun h => h2 h.symm
      simp [hj, hk, hl, sign_not]

theorem mean_sum {ι α : Type*} [Fintype α] (s : Finset ι) (f : ι → α → ℝ) :
    (mean fun a => ∑ i ∈ s, f i a) = ∑ i ∈ s, mean (f i) := by
  unfold mean
  rw [Finset.sum_comm, Finset.sum_div]

theorem mean_coord {α : Type*} [Fintype α] [Nonempty α] (h : α → ℝ) : ∀ (N : ℕ) (k : Fin N),
    (mean fun ω : Fin N → α => h (ω k)) = mean h
  | 0, k => k.elim0
  | N + 1, k => by
    rw [mean_cons]
    refine Fin.cases ?_ (fun k => ?_) k
    · simp only [Fin.cons_zero, mean_const]
    · simp only [Fin.cons_succ, mean_coord h N k, mean_const]

theorem form_signs (K : Matrix κ κ ℝ) (z : κ → Bool) :
    Spec.signs z ⬝ᵥ (K *ᵥ Spec.signs z) - K.trace =
      ∑ p ∈ Finset.univ.filter (fun p : κ × κ => p.2 ≠ p.1), K p.1 p.2 * (sign (z p.1) * sign (z p.2)) := by
  have e : Spec.signs z ⬝ᵥ (K *ᵥ Spec.signs z) = ∑ p : κ × κ, K p.1 p.2 * (sign (z p.1) * sign (z p.2)) := by
    rw [Fintype.sum_prod_type]
    simp only [dotProduct, mulVec, Spec.signs, Finset.mul_sum]
    refine Finset.sum_congr rfl fun i _ => Finset.sum_congr rfl fun j _ => by ring
  rw [e, ← Finset.sum_filter_add_sum_filter_not Finset.univ fun p : κ × κ => p.2 ≠ p.1]
  have e2 : ∑ p ∈ Finset.univ.filter (fun p : κ × κ => ¬ p.2 ≠ p.1), K p.1 p.2 * (sign (z p.1) * sign (z p.2))
      = K.trace := by
    rw [trace, Finset.sum_filter, Fintype.sum_prod_type]
    refine Finset.sum_congr rfl fun i _ => ?_
    simp [sign_mul_self]
  rw [e2, add_sub_cancel_right]

theorem form_interaction (K : Matrix κ κ ℝ) (f : (κ → ℝ) → ℝ) (hf : ∀ z, f z = z ⬝ᵥ (K *ᵥ z)) :
    Spec.interaction f = ∑ p ∈ Finset.univ.filter (fun p : κ × κ => p.2 ≠ p.1),
      K p.1 p.2 * (K p.1 p.2 + K p.2 p.1) := by
  have hij : ∀ i j, f (Pi.single i 1 + Pi.single j 1) - f (Pi.single i 1) - f (Pi.single j 1) =
      K i j + K j i := by
    intro i j
    simp only [hf, mulVec_add, add_dotProduct, dotProduct_add, mulVec_single_one, single_one_dotProduct, col_apply]
    ring
  unfold Spec.interaction
  simp only [hij]
  have e : ∑ i, ∑ j with j ≠ i, (K i j + K j i) ^ 2 =
      ∑ p ∈ Finset.univ.filter (fun p : κ × κ => p.2 ≠ p.1), (K p.1 p.2 + K p.2 p.1) ^ 2 := by
    rw [Finset.sum_filter, Fintype.sum_prod_type]
    refine Finset.sum_congr rfl fun i _ => ?_
    rw [Finset.sum_filter]
  have sw : ∑ p ∈ Finset.univ.filter (fun p : κ × κ => p.2 ≠ p.1), K p.1 p.2 * (K p.1 p.2 + K p.2 p.1) =
      ∑ p ∈ Finset.univ.filter (fun p : κ × κ => p.2 ≠ p.1), K p.2 p.1 * (K p.1 p.2 + K p.2 p.1) := by
    refine Finset.sum_bij (fun p _ => (p.2, p.1)) ?_ ?_ ?_ ?_
    · intro p hp
      simp only [Finset.mem_filter, Finset.mem_univ, true_and] at hp ⊢
      exact hp.symm
    · rintro ⟨a, b⟩ _ ⟨c, d⟩ _ h
      simp only [Prod.mk.injEq] at h ⊢
      exact ⟨h.2, h.1⟩
    · intro p hp
      refine ⟨(p.2, p.1), ?_, rfl⟩
      simp only [Finset.mem_filter, Finset.mem_univ, true_and] at hp ⊢
      exact hp.symm
    · intro p _
      simp only
      ring
  rw [e, div_eq_iff two_ne_zero]
  nth_rewrite 1 [mul_two]
  nth_rewrite 2 [sw]
  rw [← Finset.sum_add_distrib]
  exact Finset.sum_congr rfl fun p _ => by ring

theorem form_moments (K : Matrix κ κ ℝ) (f : (κ → ℝ) → ℝ) (hf : ∀ z, f z = z ⬝ᵥ (K *ᵥ z)) :
    (mean fun z : κ → Bool => f (Spec.signs z)) = K.trace ∧
    (mean fun z : κ → Bool => (f (Spec.signs z) - K.trace) ^ 2) = Spec.interaction f := by
  constructor
  · have h : (mean fun z : κ → Bool => f (Spec.signs z) - K.trace) = 0 := by
      simp only [hf, form_signs]
      rw [mean_sum]
      refine Finset.sum_eq_zero fun p hp => ?_
      rw [mean_mul, mean_two (Finset.mem_filter.1 hp).2.symm, mul_zero]
    rw [mean_sub, mean_const] at h
    linarith
  · rw [form_interaction K f hf]
    simp only [hf, form_signs]
    simp only [sq, Finset.sum_mul_sum]
    rw [mean_sum]
    refine Finset.sum_congr rfl fun p hp => ?_
    rw [mean_sum]
    have hp' := (Finset.mem_filter.1 hp).2
    have : ∀ q ∈ Finset.univ.filter (fun p : κ × κ => p.2 ≠ p.1),
        (mean fun z : κ → Bool => K p.1 p.2 * (sign (z p.1) * sign (z p.2)) *
          (K q.1 q.2 * (sign (z q.1) * sign (z q.2)))) =
        (if q = p then K p.1 p.2 * K p.1 p.2 else 0) + if q = (p.2, p.1) then K p.1 p.2 * K p.2 p.1 else 0 := by
      intro q hq
      have hq' := (Finset.mem_filter.1 hq).2
      have e : ∀ z : κ → Bool, K p.1 p.2 * (sign (z p.1) * sign (z p.2)) *
          (K q.1 q.2 * (sign (z q.1) * sign (z q.2))) = K p.1 p.2 * K q.1 q.2 *
          (sign (z p.1) * sign (z p.2) * (sign (z q.1) * sign (z q.2))) := fun z => by ring
      simp only [e]
      rw [mean_mul, mean_four hp'.symm hq'.symm, mul_add, mul_ite, mul_one, mul_zero, mul_ite, mul_one, mul_zero]
      obtain ⟨i, j⟩ := p
      obtain ⟨k, l⟩ := q
      simp only [Prod.mk.injEq]
      congr 1
      · by_cases h : k = i ∧ l = j
        · obtain ⟨rfl, rfl⟩ := h; simp
        · rw [if_neg h, if_neg fun h' : i = k ∧ j = l => h ⟨h'.1.symm, h'.2.symm⟩]
      · by_cases h : k = j ∧ l = i
        · obtain ⟨rfl, rfl⟩ := h; simp
        · rw [if_neg h, if_neg fun h' : i = l ∧ j = k => h ⟨h'.2.symm, h'.1.symm⟩]
    rw [Finset.sum_congr rfl this, Finset.sum_add_distrib, Finset.sum_ite_eq', Finset.sum_ite_eq', if_pos hp,
      if_pos (by simp only [Finset.mem_filter, Finset.mem_univ, true_and]; exact hp'.symm)]
    ring

theorem form_spread (K : Matrix κ κ ℝ) (f : (κ → ℝ) → ℝ) (hf : ∀ z, f z = z ⬝ᵥ (K *ᵥ z)) :
    Spec.Spread f K.trace := by
  obtain ⟨h1, h2⟩ := form_moments K f hf
  have mse : ∀ N : ℕ, 0 < N → (mean fun ω : Fin N → κ → Bool =>
      (Panel.meanDraws (fun k => f (Spec.signs (ω k))) - K.trace) ^ 2) = Spec.interaction f / N := by
    intro N hN
    have hN' : (0 : ℝ) < N := by exact_mod_cast hN
    have h := (sum_spread (fun z : κ → Bool => f (Spec.signs z) - K.trace)
      (by rw [mean_sub, mean_const, h1, sub_self]) N).2
    have e : ∀ ω : Fin N → κ → Bool, (Panel.meanDraws (fun k => f (Spec.signs (ω k))) - K.trace) ^ 2 =
        ((N : ℝ) ^ 2)⁻¹ * (∑ k, (f (Spec.signs (ω k)) - K.trace)) ^ 2 := by
      intro ω
      unfold Panel.meanDraws
      rw [Finset.sum_sub_distrib]
      simp only [Finset.sum_const, Finset.card_univ, Fintype.card_fin, nsmul_eq_mul]
      field_simp
    simp only [e]
    rw [mean_mul, h, h2]
    field_simp
  refine ⟨mse, fun N hN => ?_, fun N hN ε hε => ?_⟩
  · have hN' : (0 : ℝ) < N := by exact_mod_cast hN
    have e : ∀ ω : Fin N → κ → Bool, Panel.stdDraws (fun k => f (Spec.signs (ω k))) ^ 2 =
        (N : ℝ)⁻¹ * (∑ k, (f (Spec.signs (ω k)) - K.trace) ^ 2) -
          (Panel.meanDraws (fun k => f (Spec.signs (ω k))) - K.trace) ^ 2 := by
      intro ω
      unfold Panel.stdDraws
      rw [Real.sq_sqrt (div_nonneg (Finset.sum_nonneg fun _ _ => sq_nonneg _) hN'.le)]
      set M := Panel.meanDraws fun k => f (Spec.signs (ω k)) with hM
      have hs : ∑ k, f (Spec.signs (ω k)) = N * M := by rw [hM, Panel.meanDraws]; field_simp
      have e1 : ∀ c : ℝ, ∑ k, (f (Spec.signs (ω k)) - c) ^ 2 =
          ∑ k, f (Spec.signs (ω k)) ^ 2 - 2 * c * (N * M) + N * c ^ 2 := by
        intro c
        rw [← hs]
        have : ∀ k, (f (Spec.signs (ω k)) - c) ^ 2 =
            f (Spec.signs (ω k)) ^ 2 - 2 * c * f (Spec.signs (ω k)) + c ^ 2 := fun k => by ring
        simp only [this, Finset.sum_add_distrib, Finset.sum_sub_distrib, Finset.sum_const, Finset.card_univ,
          Fintype.card_fin, nsmul_eq_mul, ← Finset.mul_sum]
      rw [e1, e1]
      field_simp
      ring
    simp only [e]
    rw [mean_sub, mse N hN, mean_mul, mean_sum]
    have : ∀ k : Fin N, (mean fun ω : Fin N → κ → Bool => (f (Spec.signs (ω k)) - K.trace) ^ 2) =
        Spec.interaction f := by
      intro k
      rw [← h2]
      exact mean_coord (fun z : κ → Bool => (f (Spec.signs z) - K.trace) ^ 2) N k
    simp only [this, Finset.sum_const, Finset.card_univ, Fintype.card_fin, nsmul_eq_mul]
    field_simp
  · have := share_le_of_mean (p := fun ω : Fin N → κ → Bool =>
        ε ≤ |Panel.meanDraws (fun k => f (Spec.signs (ω k))) - K.trace|)
      (f := fun ω => (Panel.meanDraws (fun k => f (Spec.signs (ω k))) - K.trace) ^ 2) (fun _ => sq_nonneg _)
      (pow_pos hε 2) fun ω h => by rw [← sq_abs (Panel.meanDraws _ - _)]; gcongr
    rw [mse N hN, div_div] at this
    exact this

/-- With enough draws the average is close, with probability as near one as wanted. -/
theorem Spec.Spread.consistent {f : (κ → ℝ) → ℝ} {t : ℝ} (h : Spec.Spread f t) {ε : ℝ} (hε : 0 < ε) :
    Tendsto (fun N : ℕ => share fun ω : Fin N → κ → Bool =>
      ε ≤ |Panel.meanDraws (fun k => f (Spec.signs (ω k))) - t|) atTop (𝓝 0) := by
  have h2 : Tendsto (fun N : ℕ => Spec.interaction f / (N * ε ^ 2)) atTop (𝓝 0) := by
    have := (tendsto_const_div_atTop_nhds_zero_nat (Spec.interaction f)).div_const (ε ^ 2)
    simpa [div_div] using this
  refine tendsto_of_tendsto_of_tendsto_of_le_of_le' tendsto_const_nhds h2
    (Eventually.of_forall fun N => by unfold share; positivity) ?_
  filter_upwards [eventually_gt_atTop 0] with N hN
  exact h.tail N hN ε hε

/-- The same for a number that moves with the average. -/
theorem Spec.Spread.consistent_scaled {f : (κ → ℝ) → ℝ} {t : ℝ} (h : Spec.Spread f t) (c s : ℝ) {ε : ℝ}
    (hε : 0 < ε) : Tendsto (fun N : ℕ => share fun ω : Fin N → κ → Bool =>
      ε ≤ |(c - s * Panel.meanDraws fun k => f (Spec.signs (ω k))) - (c - s * t)|) atTop (𝓝 0) := by
  have hs : 0 < |s| + 1 := by positivity
  refine squeeze_zero (fun N => by unfold share; positivity) (fun N => share_mono fun ω hω => ?_)
    (h.consistent (div_pos hε hs))
  rw [div_le_iff₀ hs]
  have e : (c - s * Panel.meanDraws fun k => f (Spec.signs (ω k))) - (c - s * t) =
      -(s * (Panel.meanDraws (fun k => f (Spec.signs (ω k))) - t)) := by ring
  rw [e, abs_neg, abs_mul] at hω
  nlinarith [abs_nonneg (Panel.meanDraws (fun k => f (Spec.signs (ω k))) - t), abs_nonneg s]

end Quad

/-! ## C140 without controls -/

section FE

variable {n m nw r : ℕ} {d : Panel n m nw} {solve : (Fin m → ℝ) → (Fin m → ℝ)}

/-- C140, homoskedastic correction. -/
theorem C140_ho (hv : d.Valid) (hc : d.Connected) (hs : d.GoodSolver solve) (ql qr : QHalf r m nw)
    (hl : StdWeight ql.wt) (hr : StdWeight qr.wt) :
    Spec.Spread (fun z : Fin m ⊕ Fin nw → ℝ => d.drawTraceHo solve ql qr (halves z))
      (∑ o, 1 / d.Dp o * (d.withY (Pi.single o 1)).covFe solve ql qr) := by
  have := form_spread _ _ (drawTraceHo_form hv hc hs ql qr hl hr)
  rw [← unitCov_trace hv hc hs ql qr hl hr] at this
  exact this

/-- C140, heteroskedastic correction, for any variance estimates of the observations. -/
theorem C140_he (hv : d.Valid) (hc : d.Connected) (hs : d.GoodSolver solve) (Sii : Fin n → ℝ)
    (ql qr : QHalf r m nw) (hl : StdWeight ql.wt) (hr : StdWeight qr.wt) :
    Spec.Spread (fun z : Fin m ⊕ Fin nw → ℝ => d.drawTraceHe solve Sii ql qr (halves z))
      (∑ o, Sii o * (d.withY (Pi.single o 1)).covFe solve ql qr) := by
  have := form_spread _ _ (drawTraceHe_form hv hc hs Sii ql qr hl hr)
  rw [← unitCov_trace_he hv hc hs ql qr hl hr] at this
  exact this

/-- C140, the trace used for the error variance (`tr_method_sigma_2='hutchinson'`). -/
theorem C140_sigma2 (hv : d.Valid) (hc : d.Connected) (hs : d.GoodSolver solve) :
    Spec.Spread (d.drawTraceSigma2 solve) (d.exactTraceSigma2 d.blocksFull) := by
  have := form_spread (d.X * (nmat d.X d.Dp)⁻¹ * d.Xᵀ) (d.drawTraceSigma2 solve)
    fun z => by rw [Panel.drawTraceSigma2, sigma2Apply_eq hv hc hs]
  rwa [gmat_trace hv hc] at this

theorem hutchPP_form (hv : d.Valid) (hc : d.Connected) (hs : d.GoodSolver solve) {R : ℕ} (hn : R ≤ n)
    (Q : Matrix (Fin n) (Fin R) ℝ) (Z : Matrix (Fin n) (Fin R) ℝ) :
    d.hutchPP solve Q Z = some ((Qᵀ * ((d.X * (nmat d.X d.Dp)⁻¹ * d.Xᵀ) * Q)).trace +
      Panel.meanDraws fun k => (fun o => Z o k) ⬝ᵥ (((1 - Q * Qᵀ)ᵀ * (d.X * (nmat d.X d.Dp)⁻¹ * d.Xᵀ) *
        (1 - Q * Qᵀ)) *ᵥ fun o => Z o k)) := by
  set A := d.X * (nmat d.X d.Dp)⁻¹ * d.Xᵀ with hA
  have hcol : ∀ M : Matrix (Fin n) (Fin R) ℝ,
      (of fun o r => d.sigma2Apply solve (fun b => M b r) o) = A * M := fun M => by
    ext o r
    rw [of_apply, sigma2Apply_eq hv hc hs]; rfl
  rw [Panel.hutchPP, if_pos hn]
  simp only [hcol, Util.C05_diag_of_prod, Panel.meanDraws]
  congr 2
  rw [one_div_mul_eq_div]
  congr 1
  refine Finset.sum_congr rfl fun k _ => ?_
  have hG : Z - Q * (Qᵀ * Z) = (1 - Q * Qᵀ) * Z := by
    rw [Matrix.sub_mul, Matrix.one_mul, Matrix.mul_assoc]
  rw [hG, transpose_mul]
  have : Zᵀ * (1 - Q * Qᵀ)ᵀ * (A * ((1 - Q * Qᵀ) * Z)) = Zᵀ * (((1 - Q * Qᵀ)ᵀ * A * (1 - Q * Qᵀ)) * Z) := by
    simp only [Matrix.mul_assoc]
  rw [this, mul_apply]
  rfl

theorem hutchPP_split (A : Matrix (Fin n) (Fin n) ℝ) {R : ℕ} (Q : Matrix (Fin n) (Fin R) ℝ) (hQ : Qᵀ * Q = 1) :
    (Qᵀ * (A * Q)).trace + ((1 - Q * Qᵀ)ᵀ * A * (1 - Q * Qᵀ)).trace = A.trace := by
  have hPt : (1 - Q * Qᵀ)ᵀ = 1 - Q * Qᵀ := by simp
  have hq : Q * Qᵀ * (Q * Qᵀ) = Q * Qᵀ := by
    rw [Matrix.mul_assoc, ← Matrix.mul_assoc Qᵀ, hQ, Matrix.one_mul]
  have hPP : (1 - Q * Qᵀ) * (1 - Q * Qᵀ) = 1 - Q * Qᵀ := by
    rw [Matrix.mul_sub, Matrix.mul_one, Matrix.sub_mul, Matrix.one_mul, hq, sub_self, sub_zero]
  have e : ((1 - Q * Qᵀ) * A * (1 - Q * Qᵀ)).trace = A.trace - (Q * Qᵀ * A).trace := by
    rw [trace_mul_comm, ← Matrix.mul_assoc, hPP, Matrix.sub_mul, Matrix.one_mul, trace_sub]
  rw [hPt, e, trace_mul_comm Qᵀ, Matrix.mul_assoc A, trace_mul_comm A]
  ring

/-- C140, `tr_method_sigma_2='hutch++'`: for the orthonormal `Q` of the first stage, the mean squared error over
the second set of probes is the interaction left after taking `Q` out of a probe, over the number of draws. -/
theorem C140_hutchPP (hv : d.Valid) (hc : d.Connected) (hs : d.GoodSolver solve) {R : ℕ} (hR : 0 < R) (hn : R ≤ n)
    (Q : Matrix (Fin n) (Fin R) ℝ) (hQ : Qᵀ * Q = 1) :
    ∃ f : (Fin R → Fin n → Bool) → ℝ,
      (∀ ω, d.hutchPP solve Q (of fun o k => Spec.signs (ω k) o) = some (f ω)) ∧
      (mean fun ω => (f ω - d.exactTraceSigma2 d.blocksFull) ^ 2) =
        Spec.interaction (fun z => d.drawTraceSigma2 solve (z - Q *ᵥ (Qᵀ *ᵥ z))) / R := by
  set A := d.X * (nmat d.X d.Dp)⁻¹ * d.Xᵀ with hA
  refine ⟨_, fun ω => hutchPP_form hv hc hs hn Q _, ?_⟩
  have hf : ∀ z : Fin n → ℝ, d.drawTraceSigma2 solve (z - Q *ᵥ (Qᵀ *ᵥ z)) =
      z ⬝ᵥ (((1 - Q * Qᵀ)ᵀ * A * (1 - Q * Qᵀ)) *ᵥ z) := by
    intro z
    have e : z - Q *ᵥ (Qᵀ *ᵥ z) = (1 - Q * Qᵀ) *ᵥ z := by rw [sub_mulVec, one_mulVec, mulVec_mulVec]
    rw [Panel.drawTraceSigma2, sigma2Apply_eq hv hc hs, e, form_assoc]
  have h := (form_spread _ _ hf).mse R hR
  rw [← h]
  congr 1
  funext ω
  rw [← gmat_trace hv hc, ← hutchPP_split _ Q hQ]
  simp only [hf]
  congr 1
  rw [add_sub_add_left_eq_sub]
  rfl

/-- C140, `'hutch++'`: if the first stage caught everything the projection returns, for instance with as many
draws as observations, the result is the trace itself whatever the second set of probes. -/
theorem C140_hutchPP_exact (hv : d.Valid) (hc : d.Connected) (hs : d.GoodSolver solve) {R : ℕ} (hn : R ≤ n)
    (Q : Matrix (Fin n) (Fin R) ℝ) (hQ : Qᵀ * Q = 1) (Z : Matrix (Fin n) (Fin R) ℝ)
    (h : (∀ v, Q *ᵥ (Qᵀ *ᵥ d.sigma2Apply solve v) = d.sigma2Apply solve v) ∨ R = n) :
    d.hutchPP solve Q Z = some (d.exactTraceSigma2 d.blocksFull) := by
  set A := d.X * (nmat d.X d.Dp)⁻¹ * d.Xᵀ with hA
  have h' : ∀ v, Q *ᵥ (Qᵀ *ᵥ d.sigma2Apply solve v) = d.sigma2Apply solve v := by
    rcases h with h | rfl
    · exact h
    · intro v
      rw [mulVec_mulVec, mul_eq_one_comm.1 hQ, one_mulVec]
  have h0 : (1 - Q * Qᵀ)ᵀ * A = 0 := by
    have hPt : (1 - Q * Qᵀ)ᵀ = 1 - Q * Qᵀ := by simp
    rw [hPt, Matrix.sub_mul, Matrix.one_mul, sub_eq_zero]
    symm
    apply ext_of_mulVec_single
    intro o
    have := h' (Pi.single o 1)
    rw [sigma2Apply_eq hv hc hs] at this
    rw [← mulVec_mulVec, ← mulVec_mulVec]
    exact this
  have hsp := hutchPP_split A Q hQ
  rw [h0, Matrix.zero_mul, trace_zero, add_zero] at hsp
  rw [hutchPP_form hv hc hs hn, ← hA, h0, hsp, gmat_trace hv hc]
  simp [Panel.meanDraws]

/-- C140: with more and more draws the corrected components computed from approximate traces approach those
computed from the traces the approximation stands for. -/
theorem C140_corrected (hv : d.Valid) (hc : d.Connected) (hs : d.GoodSolver solve) (trSigma : ℝ)
    (Sii : Fin n → ℝ) (ql qr : QHalf r m nw) (hl : StdWeight ql.wt) (hr : StdWeight qr.wt) {ε : ℝ} (hε : 0 < ε) :
    Tendsto (fun N : ℕ => share fun ω : Fin N → Fin m ⊕ Fin nw → Bool =>
      ε ≤ |d.covHo solve ql qr trSigma (Panel.meanDraws fun k => d.drawTraceHo solve ql qr (halves (Spec.signs (ω k))))
        - d.covHo solve ql qr trSigma (∑ o, 1 / d.Dp o * (d.withY (Pi.single o 1)).covFe solve ql qr)|)
      atTop (𝓝 0) ∧
    Tendsto (fun N : ℕ => share fun ω : Fin N → Fin m ⊕ Fin nw → Bool =>
      ε ≤ |d.covHe solve ql qr (Panel.meanDraws fun k => d.drawTraceHe solve Sii ql qr (halves (Spec.signs (ω k))))
        - d.covHe solve ql qr (∑ o, Sii o * (d.withY (Pi.single o 1)).covFe solve ql qr)|)
      atTop (𝓝 0) := by
  refine ⟨(C140_ho hv hc hs ql qr hl hr).consistent_scaled _ _ hε, ?_⟩
  have := (C140_he hv hc hs Sii ql qr hl hr).consistent_scaled (d.covFe solve ql qr) 1 hε
  simpa only [one_mul, Panel.covHe] using this

/-- One worker twice at one firm: the trace for the error variance is one, a draw of it is off by one on average
in squares, and the average of `N` draws by one `N`-th. -/
theorem C140_case (solve : (Fin 0 → ℝ) → (Fin 0 → ℝ)) : exTwo.Valid ∧ exTwo.Connected ∧
    Spec.interaction (exTwo.drawTraceSigma2 solve) = 1 := by
  refine ⟨exTwo_valid, exTwo_connected, ?_⟩
  have h : ∀ z : Fin 2 → ℝ, exTwo.drawTraceSigma2 solve z = (z 0 + z 1) ^ 2 / 2 := by
    intro z
    have hD : ∀ o, exTwo.Dp o = 1 := fun _ => rfl
    have hi : ∀ o, exTwo.i o = 0 := fun _ => Subsingleton.elim _ _
    have hw : ∀ i, exTwo.Dwinv i = 1 / 2 := fun i => by
      rw [Panel.Dwinv_eq, Subsingleton.elim i 0]
      simp [Panel.Dw, hD, hi]
    have h2 : ∀ o, exTwo.sigma2Apply solve z o = (z 0 + z 1) / 2 := fun o => by
      simp [Panel.sigma2Apply, Panel.solveLS, Panel.multAAinv, Panel.multAT, Panel.multA, hw, Panel.W, hi,
        Matrix.mulVec, dotProduct, Fin.sum_univ_succ]
      ring
    rw [Panel.drawTraceSigma2, dotProduct, Fin.sum_univ_two, h2, h2]
    ring
  unfold Spec.interaction
  simp only [h]
  simp [Finset.sum_filter, Fin.sum_univ_two]
  norm_num

end FE

end Pytwoway.FE

/-! ## C140 with controls -/

namespace Pytwoway.FEControl

open Matrix
open scoped BigOperators

variable {n m nw : ℕ} {d : CData n m nw} {solve : List ℝ → List ℝ}

/-- C140, homoskedastic correction with controls. -/
theorem C140_controls_ho (hd : d.Ok) (hs : d.GoodSolver solve) (l1 l2 : List String)
    (hl1 : ∀ s ∈ l1, s ∈ d.names) (hl2 : ∀ s ∈ l2, s ∈ d.names) :
    ∃ (f : (Fin d.nCov → ℝ) → ℝ) (u : Fin n → ℝ),
      (∀ z, d.drawTraceHo solve l1 l2 (List.ofFn z) = some (f z)) ∧
      (∀ o, (d.withY (Pi.single o 1)).covFe solve l1 l2 = some (u o)) ∧
      FE.Spec.Spread f (∑ o, 1 / d.Dp o * u o) := by
  obtain ⟨M1, h1⟩ := qCol_mat hd.names l1 hl1
  obtain ⟨M2, h2⟩ := qCol_mat hd.names l2 hl2
  refine ⟨_, _, fun z => drawTraceHo_form hd hs h1 h2 z, unit_form hd hs h1 h2, ?_⟩
  rw [← unit_trace hd hs h1 h2 _ (unit_form hd hs h1 h2), FE.lgen_cov hd.pos hd.unit]
  exact FE.form_spread _ _ fun _ => rfl

/-- C140, heteroskedastic correction with controls. -/
theorem C140_controls_he (hd : d.Ok) (hs : d.GoodSolver solve) (Sii : Fin n → ℝ) (l1 l2 : List String)
    (hl1 : ∀ s ∈ l1, s ∈ d.names) (hl2 : ∀ s ∈ l2, s ∈ d.names) :
    ∃ (f : (Fin d.nCov → ℝ) → ℝ) (u : Fin n → ℝ),
      (∀ z, d.drawTraceHe solve Sii l1 l2 (List.ofFn z) = some (f z)) ∧
      (∀ o, (d.withY (Pi.single o 1)).covFe solve l1 l2 = some (u o)) ∧
      FE.Spec.Spread f (∑ o, Sii o * u o) := by
  obtain ⟨M1, h1⟩ := qCol_mat hd.names l1 hl1
  obtain ⟨M2, h2⟩ := qCol_mat hd.names l2 hl2
  refine ⟨_, _, fun z => drawTraceHe_form hd hs Sii h1 h2 z, unit_form hd hs h1 h2, ?_⟩
  rw [← unit_trace hd hs h1 h2 _ (unit_form hd hs h1 h2)]
  exact FE.form_spread _ _ fun _ => rfl

/-- C140, the trace used for the error variance with controls. -/
theorem C140_controls_sigma2 (hd : d.Ok) (hs : d.GoodSolver solve) :
    FE.Spec.Spread (d.drawTraceSigma2 solve) d.exactTraceSigma2 := by
  have := FE.form_spread (d.amat * (FE.nmat d.amat d.Dp)⁻¹ * d.amatᵀ) (d.drawTraceSigma2 solve)
    fun z => by rw [CData.drawTraceSigma2, sigma2Apply_eq hd hs]; rfl
  rwa [gmat_trace] at this

/-- The conditions hold for one worker twice at one firm. -/
example : exTwoC.Ok ∧ ∃ solve, exTwoC.GoodSolver solve := ⟨exTwoC_ok, exists_goodSolver _⟩

end Pytwoway.FEControl
