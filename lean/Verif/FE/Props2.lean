import Verif.FE.Unbiased
import Mathlib.Tactic.FinCases

/-! # Leave-one-out variances and the homoskedastic correction: C18, C19

Outcomes are `y = psi(firm) + alpha(worker) + error` (`Panel.obs`) with errors as in `Noise`. -/

namespace Pytwoway.FE

open Matrix Pytwoway.Util MeasureTheory
open scoped BigOperators
open Panel (QHalf)

variable {n m nw r : ℕ} {d : Panel n m nw} {solve : (Fin m → ℝ) → (Fin m → ℝ)}
variable {Ω : Type*} [MeasurableSpace Ω] {μ : Measure Ω} {eps : Ω → Fin n → ℝ} {s2 : Fin n → ℝ}

/-! ## C18 -/

section C18

/-- Fitted values of any least-squares solution. -/
theorem fit_of_optimal (hv : d.Valid) (hc : d.Connected) (hs : d.GoodSolver solve)
    (psi : Fin (m + 1) → ℝ) (alpha : Fin nw → ℝ)
    (hopt : ∀ psi' alpha', d.SSR psi alpha ≤ d.SSR psi' alpha') (o : Fin n) :
    psi (d.j o) + alpha (d.i o) = (hat d.X d.Dp *ᵥ d.y) o := by
  have hshift : d.SSR (fun k => psi k - psi 0) (fun i => alpha i + psi 0) = d.SSR psi alpha :=
    Finset.sum_congr rfl fun o _ => by ring
  obtain ⟨h1, h2⟩ := C16_unique hv hc hs (fun k => psi k - psi 0) (fun i => alpha i + psi 0) (sub_self _)
    (fun psi' alpha' => by rw [hshift]; exact hopt psi' alpha')
  have h3 := solveLS_lmat hv hc hs d.y
  rw [← X_mul_lmat, ← mulVec_mulVec, ← h3, d.X_mulVec]
  have e1 := congrFun h1 (d.j o)
  have e2 := congrFun h2 (d.i o)
  simp only [Panel.ols] at e1 e2
  rw [← e1, ← e2]; ring

/-- C18, leave-one-out formula: the residual divided by one minus the leverage is the error of
predicting observation `o` from any weighted least-squares fit of all *other* observations, and the
variance estimate is that error times the deviation of `y o` from the weighted mean. -/
theorem C18_leave_one_out (hv : d.Valid) (hc : d.Connected) (hs : d.GoodSolver solve) (o : Fin n)
    (hP : d.computePii d.blocksFull o ≠ 1) (hstored : d.weighted = false ∨ d.workerM o)
    (psi : Fin (m + 1) → ℝ) (alpha : Fin nw → ℝ)
    (hopt : ∀ (psi' : Fin (m + 1) → ℝ) (alpha' : Fin nw → ℝ),
      ∑ b with b ≠ o, d.Dp b * (d.y b - (alpha (d.i b) + psi (d.j b))) ^ 2
        ≤ ∑ b with b ≠ o, d.Dp b * (d.y b - (alpha' (d.i b) + psi' (d.j b))) ^ 2) :
    d.looSii solve d.exactPii o
      = (d.y o - (∑ b, d.Dp b * d.y b) / ∑ b, d.Dp b) * (d.y o - (alpha (d.i o) + psi (d.j o))) := by
  have hu := d.nmat_unit hv hc
  have hPii : d.exactPii o = hat d.X d.Dp o o := by
    rw [← d.computePii_eq hv hu, Panel.exactPii]
    rcases hstored with h | h
    · simp [h]
    · simp [h]
  rw [d.computePii_eq hv hu] at hP
  set f := psi (d.j o) + alpha (d.i o) with hf
  -- replace the outcome of `o` by its prediction
  have hopt' : ∀ psi' alpha', (d.withY (Function.update d.y o f)).SSR psi alpha
      ≤ (d.withY (Function.update d.y o f)).SSR psi' alpha' := by
    intro psi' alpha'
    have hsplit : ∀ p a, (d.withY (Function.update d.y o f)).SSR p a
        = d.Dp o * (f - (a (d.i o) + p (d.j o))) ^ 2
          + ∑ b with b ≠ o, d.Dp b * (d.y b - (a (d.i b) + p (d.j b))) ^ 2 := by
      intro p a
      rw [Panel.SSR, ← Finset.add_sum_erase _ _ (Finset.mem_univ o)]
      have : (Finset.univ.filter fun b => b ≠ o) = Finset.univ.erase o := by ext b; simp
      rw [this]
      congr 1
      · change d.Dp o * (Function.update d.y o f o - _) ^ 2 = _
        rw [Function.update_self]; rfl
      · refine Finset.sum_congr rfl fun b hb => ?_
        change d.Dp b * (Function.update d.y o f b - _) ^ 2 = _
        rw [Function.update_of_ne (Finset.ne_of_mem_erase hb)]; rfl
    rw [hsplit, hsplit]
    have h0 : f - (alpha (d.i o) + psi (d.j o)) = 0 := by rw [hf]; ring
    rw [h0]
    have := hopt psi' alpha'
    have h1 : 0 ≤ d.Dp o * (f - (alpha' (d.i o) + psi' (d.j o))) ^ 2 :=
      mul_nonneg (hv.wpos o).le (sq_nonneg _)
    linarith [this]
  have hfit : f = (hat d.X d.Dp *ᵥ Function.update d.y o f) o :=
    fit_of_optimal (d := d.withY (Function.update d.y o f)) ⟨hv.wpos, hv.seen⟩ hc hs psi alpha hopt' o
  have hupd : Function.update d.y o f = d.y + Pi.single o (f - d.y o) := by
    ext b
    by_cases hb : b = o
    · subst hb; simp
    · simp [hb]
  rw [hupd, mulVec_add, Pi.add_apply] at hfit
  have hsing : (hat d.X d.Dp *ᵥ Pi.single o (f - d.y o)) o = hat d.X d.Dp o o * (f - d.y o) := by
    simp [mulVec, dotProduct_single]
  rw [hsing] at hfit
  have hE : d.E solve o = d.y o - (hat d.X d.Dp *ᵥ d.y) o := by
    rw [Panel.E, ← X_mul_lmat, ← mulVec_mulVec, ← solveLS_lmat hv hc hs d.y, Panel.X, fromCols_mulVec]
    rfl
  have hne : 1 - hat d.X d.Dp o o ≠ 0 := fun h => hP (by linarith)
  rw [Panel.looSii, hPii, hE, weightedMean]
  congr 1
  rw [div_eq_iff hne, add_comm (alpha (d.i o)), ← hf]
  linarith

/-- A least-squares fit of the other observations always exists, so `C18_leave_one_out` applies. -/
theorem exists_leave_one_out_fit (hv : d.Valid) (o : Fin n) :
    ∃ (psi : Fin (m + 1) → ℝ) (alpha : Fin nw → ℝ), ∀ (psi' : Fin (m + 1) → ℝ) (alpha' : Fin nw → ℝ),
      ∑ b with b ≠ o, d.Dp b * (d.y b - (alpha (d.i b) + psi (d.j b))) ^ 2
        ≤ ∑ b with b ≠ o, d.Dp b * (d.y b - (alpha' (d.i b) + psi' (d.j b))) ^ 2 := by
  set w : Fin n → ℝ := fun b => if b ≠ o then d.Dp b else 0 with hw
  have hw0 : ∀ b, 0 ≤ w b := fun b => by
    simp only [hw]; split
    · exact (hv.wpos b).le
    · exact le_rfl
  obtain ⟨t, ht⟩ := normal_consistent d.X w hw0 d.y
  refine ⟨Panel.withZero (t ∘ Sum.inl), t ∘ Sum.inr, fun psi' alpha' => ?_⟩
  have h := normal_optimal d.X w d.y hw0 t (Sum.elim (relPsi psi') (relAlpha psi' alpha')) ht
  have hconv : ∀ g : Fin n → ℝ, ∑ b, w b * g b = ∑ b with b ≠ o, d.Dp b * g b := fun g => by
    rw [Finset.sum_filter]
    refine Finset.sum_congr rfl fun b _ => ?_
    simp only [hw]; split <;> simp
  rw [hconv fun b => (d.y b - (d.X *ᵥ t) b) ^ 2,
    hconv fun b => (d.y b - (d.X *ᵥ Sum.elim (relPsi psi') (relAlpha psi' alpha')) b) ^ 2] at h
  refine le_trans (le_of_eq ?_) (le_trans h (le_of_eq ?_))
  · refine Finset.sum_congr rfl fun b _ => ?_
    have : t = Sum.elim (t ∘ Sum.inl) (t ∘ Sum.inr) := (Sum.elim_comp_inl_inr t).symm
    conv_rhs => rw [this, d.X_mulVec]
    ring
  · refine Finset.sum_congr rfl fun b _ => ?_
    rw [d.X_mulVec]
    have := withZero_shift psi' (d.j b)
    change _ * (_ - (Panel.withZero (fun k => psi' k.succ - psi' 0) (d.j b) + (alpha' (d.i b) + psi' 0))) ^ 2 = _
    rw [this]; ring

/-- C18, expectation of the variance estimate, for any error variances: it is off by a term that comes
from subtracting the mean of `y` (line 1689: `self.Y - Y_bar`). -/
theorem C18_expectation (hv : d.Valid) (hc : d.Connected) (hs : d.GoodSolver solve)
    (h : Noise μ eps s2) (psi : Fin (m + 1) → ℝ) (alpha : Fin nw → ℝ) (o : Fin n)
    (hP : d.computePii d.blocksFull o ≠ 1) (hstored : d.weighted = false ∨ d.workerM o) :
    Integrable (fun ω => (d.obs psi alpha (eps ω)).looSii solve d.exactPii o) μ ∧
    ∫ ω, (d.obs psi alpha (eps ω)).looSii solve d.exactPii o ∂μ
      = s2 o - (d.Dp o * s2 o - ∑ b, hat d.X d.Dp o b * (d.Dp b * s2 b))
          / ((∑ b, d.Dp b) * (1 - d.computePii d.blocksFull o)) := by
  have hu := d.nmat_unit hv hc
  have hPii : d.exactPii o = hat d.X d.Dp o o := by
    rw [← d.computePii_eq hv hu, Panel.exactPii]
    rcases hstored with h | h
    · simp [h]
    · simp [h]
  rw [d.computePii_eq hv hu] at hP ⊢
  have hne : 1 - hat d.X d.Dp o o ≠ 0 := fun h => hP (by linarith)
  have hW : ∑ b, d.Dp b ≠ 0 := (Finset.sum_pos (fun b _ => hv.wpos b) ⟨o, Finset.mem_univ o⟩).ne'
  set x : Fin n → ℝ := fun o => psi (d.j o) + alpha (d.i o) with hx
  set W := ∑ b, d.Dp b with hWdef
  have hrw : ∀ ω, (d.obs psi alpha (eps ω)).looSii solve d.exactPii o
      = (1 / (1 - hat d.X d.Dp o o)) * (((x o - (∑ b, d.Dp b * x b) / W)
            + ∑ b, ((if o = b then 1 else 0) - d.Dp b / W) * eps ω b)
          * (0 + ∑ b, ((if o = b then 1 else 0) - hat d.X d.Dp o b) * eps ω b)) := by
    intro ω
    rw [Panel.looSii, hPii, E_obs hv hc hs]
    have hm : weightedMean (d.obs psi alpha (eps ω)).y (.vec (d.obs psi alpha (eps ω)).Dp)
        = (∑ b, d.Dp b * x b) / W + ∑ b, d.Dp b / W * eps ω b := by
      have : ∑ b, d.Dp b / W * eps ω b = (∑ b, d.Dp b * eps ω b) / W := by
        rw [Finset.sum_div]; exact Finset.sum_congr rfl fun b _ => by ring
      rw [this, ← add_div, ← Finset.sum_add_distrib]
      change (∑ b, d.Dp b * (psi (d.j b) + alpha (d.i b) + eps ω b)) / W = _
      congr 1
      exact Finset.sum_congr rfl fun b _ => by rw [hx]; ring
    rw [hm]
    have hy : (d.obs psi alpha (eps ω)).y o = x o + eps ω o := rfl
    have hs1 : ∑ b, ((if o = b then 1 else 0) - d.Dp b / W) * eps ω b
        = eps ω o - ∑ b, d.Dp b / W * eps ω b := by
      simp [sub_mul, Finset.sum_sub_distrib]
    rw [hy, hs1]
    ring
  simp only [hrw]
  have key := h.integral_mul (x o - (∑ b, d.Dp b * x b) / W) 0
    (fun b => (if o = b then 1 else 0) - d.Dp b / W) (fun b => (if o = b then 1 else 0) - hat d.X d.Dp o b)
  refine ⟨key.1.const_mul _, ?_⟩
  rw [integral_const_mul, key.2]
  have hsum : ∑ b, ((if o = b then 1 else 0) - d.Dp b / W) * ((if o = b then 1 else 0) - hat d.X d.Dp o b) * s2 b
      = (1 - hat d.X d.Dp o o) * s2 o
        - (d.Dp o * s2 o - ∑ b, hat d.X d.Dp o b * (d.Dp b * s2 b)) / W := by
    have : ∀ b, ((if o = b then 1 else 0) - d.Dp b / W) * ((if o = b then 1 else 0) - hat d.X d.Dp o b) * s2 b
        = (if o = b then (1 - hat d.X d.Dp o o) * s2 o - d.Dp o * s2 o / W else 0)
          + hat d.X d.Dp o b * (d.Dp b * s2 b) / W := by
      intro b
      by_cases hb : o = b
      · subst hb; simp only [if_true]; ring
      · simp only [hb, if_false]; ring
    simp only [this, Finset.sum_add_distrib, Finset.sum_ite_eq, Finset.mem_univ, if_true, ← Finset.sum_div]
    ring
  rw [hsum, mul_zero, zero_add]
  field_simp

/-- The fitted value of a constant is that constant. -/
theorem hat_row_sum (hv : d.Valid) (hc : d.Connected) (o : Fin n) : ∑ b, hat d.X d.Dp o b = 1 := by
  have h1 : d.X *ᵥ Sum.elim 0 1 = 1 := by
    ext o; rw [d.X_mulVec]
    simp [Panel.withZero]
    refine Fin.cases ?_ (fun k => ?_) (d.j o) <;> simp
  have h2 : hat d.X d.Dp *ᵥ (d.X *ᵥ Sum.elim 0 1) = d.X *ᵥ Sum.elim 0 1 := by
    rw [mulVec_mulVec, hat_mul_X _ _ (d.nmat_unit hv hc)]
  rw [h1] at h2
  have := congrFun h2 o
  simpa [mulVec, dotProduct] using this

/-- C18 (partial): the variance estimate is unbiased when error variances are inversely proportional to
the weights.  Missing: other variance profiles, for which it is biased (`C18_expectation`,
`C18_heteroskedastic_biased`). -/
theorem C18_unbiased_partial (hv : d.Valid) (hc : d.Connected) (hs : d.GoodSolver solve) {σ2 : ℝ}
    (h : Noise μ eps fun o => σ2 / d.Dp o) (psi : Fin (m + 1) → ℝ) (alpha : Fin nw → ℝ) (o : Fin n)
    (hP : d.computePii d.blocksFull o ≠ 1) (hstored : d.weighted = false ∨ d.workerM o) :
    ∫ ω, (d.obs psi alpha (eps ω)).looSii solve d.exactPii o ∂μ = σ2 / d.Dp o := by
  rw [(C18_expectation hv hc hs h psi alpha o hP hstored).2]
  have h1 : ∀ b, d.Dp b * (σ2 / d.Dp b) = σ2 := fun b => by
    rw [mul_div_assoc', mul_div_cancel_left₀ _ (hv.wpos b).ne']
  simp only [h1]
  rw [← Finset.sum_mul, hat_row_sum hv hc, one_mul, sub_self, zero_div, sub_zero]

/-- One worker, one firm, two unweighted observations. -/
def ex18 : Panel 2 0 1 := ⟨![0, 0], ![0, 0], ![0, 0], false, ![1, 1]⟩

theorem ex18_valid : ex18.Valid where
  wpos := by intro o; simp [Panel.Dp, ex18]
  seen := by intro i; exact ⟨0, Subsingleton.elim _ _⟩

theorem ex18_connected : ex18.Connected := fun a b => by
  have : a = b := by apply Fin.ext; omega
  rw [this]

theorem ex18_hat (a b : Fin 2) : hat ex18.X ex18.Dp a b = 1 / 2 := by
  have hX : ex18.X = of fun _ _ => 1 := by
    ext o k
    rcases k with k | k
    · exact k.elim0
    · have hk : k = 0 := Subsingleton.elim _ _
      subst hk
      fin_cases o <;> simp [Panel.X, Panel.W, ex18]
  have hD : ex18.Dp = fun _ => 1 := by ext; simp [Panel.Dp, ex18]
  have hN : nmat ex18.X ex18.Dp = of fun _ _ => 2 := by
    rw [hX, hD, nmat]
    ext a b
    simp [mul_apply]
  have hinv : (nmat ex18.X ex18.Dp)⁻¹ = of fun _ _ => 1 / 2 := by
    apply inv_eq_right_inv
    rw [hN]
    ext a b
    rcases a with a | a
    · exact a.elim0
    · rcases b with b | b
      · exact b.elim0
      · have ha : a = b := Subsingleton.elim _ _
        subst ha
        simp [mul_apply]
  rw [hat_apply, hinv, hX, hD]
  simp [mul_apply]

/-- C18 is false of the code: with error variances 1 and 0 the expected variance estimate of the first
observation is 1/2. -/
theorem C18_heteroskedastic_biased : ∃ (s2 : Fin 2 → ℝ) (μ : Measure (Fin 2 → Bool))
    (eps : (Fin 2 → Bool) → Fin 2 → ℝ) (solve : (Fin 0 → ℝ) → (Fin 0 → ℝ)),
    ex18.Valid ∧ ex18.Connected ∧ ex18.GoodSolver solve ∧ Noise μ eps s2 ∧
    ex18.computePii ex18.blocksFull 0 ≠ 1 ∧
    ∀ psi alpha, ∫ ω, (ex18.obs psi alpha (eps ω)).looSii solve ex18.exactPii 0 ∂μ = 1 / 2 ∧ s2 0 = 1 := by
  obtain ⟨s, hs⟩ := exists_goodSolver ex18
  have hu := ex18.nmat_unit ex18_valid ex18_connected
  have hnoise := sign_noise (κ := Fin 2) ![1, 0] (by intro o; fin_cases o <;> simp)
  have hP : ex18.computePii ex18.blocksFull 0 ≠ 1 := by
    rw [ex18.computePii_eq ex18_valid hu, ex18_hat]; norm_num
  refine ⟨![1, 0], _, _, s, ex18_valid, ex18_connected, hs, hnoise, hP, fun psi alpha => ⟨?_, rfl⟩⟩
  rw [(C18_expectation ex18_valid ex18_connected hs hnoise psi alpha 0 hP (Or.inl rfl)).2,
    ex18.computePii_eq ex18_valid hu]
  simp only [ex18_hat]
  simp [Panel.Dp, ex18, Fin.sum_univ_two]
  norm_num

/-- The hypotheses of the C18 theorems can be met on a weighted panel with movers. -/
example : ex.Valid ∧ ex.Connected ∧ (∃ s, ex.GoodSolver s) ∧ ex.workerM 0 ∧
    ∃ (μ : Measure (Fin 5 → Bool)) (eps : (Fin 5 → Bool) → Fin 5 → ℝ), Noise μ eps (fun o => 2 / ex.Dp o) :=
  ⟨ex_valid, ex_connected, exists_goodSolver ex, ⟨1, rfl, by decide⟩, _, _,
    sign_noise _ fun o => div_nonneg (by norm_num) (ex_valid.wpos o).le⟩

end C18

/-! ## C19 -/

section C19

/-- Noise contribution to a component when variances are inversely proportional to the weights. -/
theorem unitCov_trace (hv : d.Valid) (hc : d.Connected) (hs : d.GoodSolver solve) (ql qr : QHalf r m nw)
    (hl : StdWeight ql.wt) (hr : StdWeight qr.wt) :
    ∑ o, 1 / d.Dp o * d.unitCov solve ql qr o
      = (ql.matᵀ * kmat (Panel.wvec ql.wt) (Panel.wvec qr.wt) * qr.mat * (nmat d.X d.Dp)⁻¹).trace := by
  rw [← lmat_cov hv hc, ← Matrix.mul_assoc, trace_mul_comm, ← Matrix.mul_assoc, ← Matrix.mul_assoc]
  refine Finset.sum_congr rfl fun o _ => ?_
  rw [unitCov_eq hv hc hs ql qr hl hr, diag_apply, mul_diagonal, bmat, mul_comm]

theorem trace_blocks (A : Matrix (Fin m) (Fin m) ℝ) (B C) (D : Matrix (Fin nw) (Fin nw) ℝ) :
    (fromBlocks A B C D).trace = A.trace + D.trace := by
  simp [trace, Fintype.sum_sum_type]

theorem trace_psi_psi (N : Matrix (Fin m ⊕ Fin nw) (Fin m ⊕ Fin nw) ℝ) (Ml Mr : Matrix (Fin r) (Fin m) ℝ)
    (K : Matrix (Fin r) (Fin r) ℝ) :
    ((fromCols Ml (0 : Matrix (Fin r) (Fin nw) ℝ))ᵀ * K * fromCols Mr 0 * N).trace
      = (Mlᵀ * K * Mr * N.toBlocks₁₁).trace := by
  conv_lhs => rw [← fromBlocks_toBlocks N]
  rw [transpose_fromCols, fromRows_mul, fromRows_mul_fromCols, fromBlocks_multiply, trace_blocks]
  simp

theorem trace_alpha_alpha (N : Matrix (Fin m ⊕ Fin nw) (Fin m ⊕ Fin nw) ℝ) (Ml Mr : Matrix (Fin r) (Fin nw) ℝ)
    (K : Matrix (Fin r) (Fin r) ℝ) :
    ((fromCols (0 : Matrix (Fin r) (Fin m) ℝ) Ml)ᵀ * K * fromCols 0 Mr * N).trace
      = (Mlᵀ * K * Mr * N.toBlocks₂₂).trace := by
  conv_lhs => rw [← fromBlocks_toBlocks N]
  rw [transpose_fromCols, fromRows_mul, fromRows_mul_fromCols, fromBlocks_multiply, trace_blocks]
  simp

theorem trace_psi_alpha (N : Matrix (Fin m ⊕ Fin nw) (Fin m ⊕ Fin nw) ℝ) (Ml : Matrix (Fin r) (Fin m) ℝ)
    (Mr : Matrix (Fin r) (Fin nw) ℝ) (K : Matrix (Fin r) (Fin r) ℝ) :
    ((fromCols Ml (0 : Matrix (Fin r) (Fin nw) ℝ))ᵀ * K * fromCols 0 Mr * N).trace
      = (Mlᵀ * K * Mr * N.toBlocks₂₁).trace := by
  conv_lhs => rw [← fromBlocks_toBlocks N]
  rw [transpose_fromCols, fromRows_mul, fromRows_mul_fromCols, fromBlocks_multiply, trace_blocks]
  simp

theorem trace_alpha_psi (N : Matrix (Fin m ⊕ Fin nw) (Fin m ⊕ Fin nw) ℝ) (Ml : Matrix (Fin r) (Fin nw) ℝ)
    (Mr : Matrix (Fin r) (Fin m) ℝ) (K : Matrix (Fin r) (Fin r) ℝ) :
    ((fromCols (0 : Matrix (Fin r) (Fin m) ℝ) Ml)ᵀ * K * fromCols Mr 0 * N).trace
      = (Mlᵀ * K * Mr * N.toBlocks₁₂).trace := by
  conv_lhs => rw [← fromBlocks_toBlocks N]
  rw [transpose_fromCols, fromRows_mul, fromRows_mul_fromCols, fromBlocks_multiply, trace_blocks]
  simp

/-- C19: `sigma2` is unbiased, with or without weights, as long as some observation has leverage below
one (i.e. there are more observations than parameters). -/
theorem C19_sigma2_unbiased (hv : d.Valid) (hc : d.Connected) (hs : d.GoodSolver solve) {σ2 : ℝ}
    (h : Noise μ eps fun o => σ2 / d.Dp o) (psi : Fin (m + 1) → ℝ) (alpha : Fin nw → ℝ)
    (hdf : ∃ o, d.computePii d.blocksFull o < 1) :
    Integrable (fun ω => (d.obs psi alpha (eps ω)).sigma2ho solve (d.exactTraceSigma2 d.blocksFull)) μ ∧
    ∫ ω, (d.obs psi alpha (eps ω)).sigma2ho solve (d.exactTraceSigma2 d.blocksFull) ∂μ = σ2 := by
  have hu := d.nmat_unit hv hc
  obtain ⟨hi, hE⟩ := ssr_expectation hv hc hs h psi alpha
  set T := ∑ o, (1 - hat d.X d.Dp o o) / d.Dp o with hT
  have hTpos : 0 < T := by
    obtain ⟨o, ho⟩ := hdf
    rw [d.computePii_eq hv hu] at ho
    refine Finset.sum_pos' (fun b _ => div_nonneg ?_ (hv.wpos b).le) ⟨o, Finset.mem_univ o,
      div_pos (by linarith) (hv.wpos o)⟩
    linarith [(hat_diag_mem d.X d.Dp hv.wpos hu b).2]
  have hn : (n : ℝ) ≠ 0 := by
    obtain ⟨o, -⟩ := hdf
    have := o.pos
    positivity
  have hsig : ∀ ω, (d.obs psi alpha (eps ω)).sigma2ho solve (d.exactTraceSigma2 d.blocksFull)
      = (1 / T) * ∑ o, (d.obs psi alpha (eps ω)).E solve o ^ 2 := by
    intro ω
    have hDp : (d.obs psi alpha (eps ω)).Dp = d.Dp := rfl
    have hw' : (d.obs psi alpha (eps ω)).weighted = d.weighted := rfl
    rw [Panel.sigma2ho, hw', hDp]
    by_cases hw : d.weighted = true
    · have h1 : (∑ o, 1 / d.Dp o) - d.exactTraceSigma2 d.blocksFull = T := by
        rw [exactTraceSigma2_eq hv hc, ← Finset.sum_sub_distrib]
        exact Finset.sum_congr rfl fun o _ => (sub_div _ _ _).symm
      rw [if_pos hw, h1, mul_div_cancel₀ _ hn]; ring
    · have hD1 : ∀ o, d.Dp o = 1 := fun o => by simp [Panel.Dp, hw]
      have h1 : (n : ℝ) - ((nw : ℝ) + ((m : ℝ) + 1) - 1) = T := by
        rw [hT]
        simp only [hD1, div_one, Finset.sum_sub_distrib]
        rw [hat_trace _ _ hu]
        simp; ring
      have h2 : (d.obs psi alpha (eps ω)).sigma2fe solve
          = (∑ o, (d.obs psi alpha (eps ω)).E solve o ^ 2) / n := by
        have hW : (d.obs psi alpha (eps ω)).DpW = .scalar 1 := by
          simp [Panel.DpW, hw', hw]
        rw [Panel.sigma2fe, hW, weightedMean, hDp]
        simp [hD1]
      rw [if_neg hw, h1, h2, mul_div_cancel₀ _ hn]; ring
  simp only [hsig]
  refine ⟨hi.const_mul _, ?_⟩
  rw [integral_const_mul, hE]
  field_simp

/-- The exact HO trace of a component that does not use the worker block. -/
theorem exactTraceHo_correct (hv : d.Valid) (hc : d.Connected) (hs : d.GoodSolver solve)
    (ql qr : QHalf r m nw) (hl : StdWeight ql.wt) (hr : StdWeight qr.wt) {tr : ℝ}
    (htr : Panel.exactTraceCovHo d.blocksFull ql qr = .ok tr)
    (hblock : ¬ ((∃ M w, ql = .alpha M w) ∧ ∃ M w, qr = .alpha M w)) :
    tr = ∑ o, 1 / d.Dp o * d.unitCov solve ql qr o := by
  rw [unitCov_trace hv hc hs ql qr hl hr, d.nmat_inv hv (d.nmat_unit hv hc)]
  cases ql with
  | gamma M w => cases qr <;> cases htr
  | psi Ml wl =>
    cases qr with
    | gamma M w => cases htr
    | psi Mr wr =>
      cases htr
      simp only [QHalf.mat, QHalf.wt]
      rw [trace_psi_psi, toBlocks_fromBlocks₁₁, ← qCovMat_eq]
      exact Finset.sum_congr rfl fun k _ => C05_diag_of_prod _ _ k
    | alpha Mr wr =>
      cases htr
      simp only [QHalf.mat, QHalf.wt]
      rw [trace_psi_alpha, toBlocks_fromBlocks₂₁, ← qCovMat_eq]
      exact Finset.sum_congr rfl fun k _ => C05_diag_of_prod _ _ k
  | alpha Ml wl =>
    cases qr with
    | gamma M w => cases htr
    | psi Mr wr =>
      cases htr
      simp only [QHalf.mat, QHalf.wt]
      rw [trace_alpha_psi, toBlocks_fromBlocks₁₂, ← qCovMat_eq]
      exact Finset.sum_congr rfl fun k _ => C05_diag_of_prod _ _ k
    | alpha Mr wr => exact absurd ⟨⟨_, _, rfl⟩, ⟨_, _, rfl⟩⟩ hblock

/-- C19 (partial): the HO-corrected covariance of every pair of components that are not both worker
effects is unbiased.  Missing: pairs of worker components, see `C19_var_alpha_bias`. -/
theorem C19_cov_unbiased_partial (hv : d.Valid) (hc : d.Connected) (hs : d.GoodSolver solve) {σ2 : ℝ}
    (h : Noise μ eps fun o => σ2 / d.Dp o) (psi : Fin (m + 1) → ℝ) (alpha : Fin nw → ℝ)
    (hdf : ∃ o, d.computePii d.blocksFull o < 1)
    (ql qr : QHalf r m nw) (hl : StdWeight ql.wt) (hr : StdWeight qr.wt) {tr : ℝ}
    (htr : Panel.exactTraceCovHo d.blocksFull ql qr = .ok tr)
    (hblock : ¬ ((∃ M w, ql = .alpha M w) ∧ ∃ M w, qr = .alpha M w)) :
    ∫ ω, (d.obs psi alpha (eps ω)).covHo solve ql qr (d.exactTraceSigma2 d.blocksFull) tr ∂μ
      = weightedCov (ql.mult (relPsi psi) (relAlpha psi alpha)) (qr.mult (relPsi psi) (relAlpha psi alpha))
          ql.wt qr.wt 0 := by
  obtain ⟨i1, e1⟩ := plugin_expectation hv hc hs h psi alpha ql qr hl hr
  obtain ⟨i2, e2⟩ := C19_sigma2_unbiased hv hc hs h psi alpha hdf
  simp only [Panel.covHo]
  rw [integral_sub i1 (i2.mul_const _), e1, integral_mul_const, e2,
    exactTraceHo_correct hv hc hs ql qr hl hr htr hblock, Finset.mul_sum]
  have : ∀ o, σ2 / d.Dp o * d.unitCov solve ql qr o = σ2 * (1 / d.Dp o * d.unitCov solve ql qr o) :=
    fun o => by ring
  simp only [this]
  ring

theorem exactTraceVarHo_eq_cov (b : Panel.Blocks m nw) (q : QHalf r m nw) (hq : StdWeight q.wt) :
    Panel.exactTraceVarHo b q = Panel.exactTraceCovHo b q q := by
  cases q with
  | psi M w => simp only [Panel.exactTraceVarHo, Panel.exactTraceCovHo, qCovMat_eq, qVarMat_eq M (Panel.wvec w) (wvec_nonneg (w := w) hq)]
  | alpha M w => simp only [Panel.exactTraceVarHo, Panel.exactTraceCovHo, qCovMat_eq, qVarMat_eq M (Panel.wvec w) (wvec_nonneg (w := w) hq)]
  | gamma M w => rfl

/-- C19 (partial), in terms of the data: with exact traces the corrected `var(psi)` and
`cov(psi, alpha)` have expectation equal to the weighted variance of the true firm effects over
observations and the weighted covariance of true firm and worker effects. -/
theorem C19_default_components_partial (hv : d.Valid) (hc : d.Connected) (hs : d.GoodSolver solve) {σ2 : ℝ}
    (h : Noise μ eps fun o => σ2 / d.Dp o) (psi : Fin (m + 1) → ℝ) (alpha : Fin nw → ℝ)
    (hdf : ∃ o, d.computePii d.blocksFull o < 1) :
    (∃ tr, Panel.exactTraceVarHo d.blocksFull d.qPsi = .ok tr ∧
      ∫ ω, (d.obs psi alpha (eps ω)).varHo solve d.qPsi (d.exactTraceSigma2 d.blocksFull) tr ∂μ
        = weightedVar (fun o => psi (d.j o)) d.DpW 0) ∧
    (∃ tr, Panel.exactTraceCovHo d.blocksFull d.qPsi d.qAlpha = .ok tr ∧
      ∫ ω, (d.obs psi alpha (eps ω)).covHo solve d.qPsi d.qAlpha (d.exactTraceSigma2 d.blocksFull) tr ∂μ
        = weightedCov (fun o => psi (d.j o)) (fun o => alpha (d.i o)) d.DpW d.DpW 0) := by
  have hn : 0 < n := by obtain ⟨o, -⟩ := hdf; exact o.pos
  have hstd := stdWeight_DpW hv
  obtain ⟨p1, -, -, p4⟩ := C23_plug_in (d := d) psi alpha (usable_DpW hv hn)
  refine ⟨⟨_, rfl, ?_⟩, ⟨_, rfl, ?_⟩⟩
  · have hcov := exactTraceVarHo_eq_cov d.blocksFull d.qPsi hstd
    have := C19_cov_unbiased_partial hv hc hs h psi alpha hdf d.qPsi d.qPsi hstd hstd
      (hcov.symm.trans rfl) (by rintro ⟨⟨M, w, h⟩, -⟩; cases h)
    rw [← p1, weightedVar_eq_cov _ (w := d.qPsi.wt) hstd]
    refine Eq.trans ?_ this
    simp only [Panel.varHo, Panel.covHo, varFe_eq_covFe d.qPsi hstd]
  · have := C19_cov_unbiased_partial hv hc hs h psi alpha hdf d.qPsi d.qAlpha hstd hstd rfl
      (by rintro ⟨⟨M, w, h⟩, -⟩; cases h)
    rw [← p4]
    exact this

/-- The component `cov(indicator of worker k, indicator of worker c)`. -/
theorem alpha_form (hv : d.Valid) (k c : Fin nw) :
    (d.Wᵀ * kmat (Panel.wvec d.DpW) (Panel.wvec d.DpW) * d.W) k c
      = weightedCov (fun o => if d.i o = k then 1 else 0) (fun o => if d.i o = c then 1 else 0) d.DpW d.DpW 0 := by
  have hstd := stdWeight_DpW hv
  have hcol : ∀ k, d.W *ᵥ Pi.single k 1 = fun o => if d.i o = k then 1 else 0 := fun k => by
    ext o; rw [d.W_mulVec]; simp [Pi.single_apply]
  rw [weightedCov_kmat _ _ hstd hstd, ← hcol, ← hcol, form_assoc, mulVec_single_one, single_one_dotProduct]
  rfl

/-- What the exact trace for `var(alpha)` is, compared with what is needed. -/
theorem exactTraceHo_alpha (hv : d.Valid) (hc : d.Connected) (hs : d.GoodSolver solve) (hn : 0 < n) :
    Panel.exactTraceVarHo d.blocksFull d.qAlpha
      = .ok ((∑ o, 1 / d.Dp o * d.unitCov solve d.qAlpha d.qAlpha o)
        - ∑ k, weightedVar (fun o => if d.i o = k then 1 else 0) d.DpW 0 / d.Dw k) := by
  have hstd := stdWeight_DpW hv
  rw [unitCov_trace hv hc hs d.qAlpha d.qAlpha hstd hstd, d.nmat_inv hv (d.nmat_unit hv hc)]
  simp only [Panel.qAlpha, QHalf.mat, QHalf.wt, Panel.exactTraceVarHo]
  rw [trace_alpha_alpha, toBlocks_fromBlocks₂₂, qVarMat_eq _ _ (wvec_nonneg hstd)]
  congr 1
  set Q := d.Wᵀ * kmat (Panel.wvec d.DpW) (Panel.wvec d.DpW) * d.W with hQ
  have hrow : ∀ k, ∑ c, Q k c = 0 := by
    intro k
    have h1 : ∑ c, Q k c = weightedCov (fun o => if d.i o = k then 1 else 0) (fun _ => 1) d.DpW d.DpW 0 := by
      have hcol : d.W *ᵥ Pi.single k 1 = fun o => if d.i o = k then 1 else 0 := by
        ext o; rw [d.W_mulVec]; simp [Pi.single_apply]
      have hone : d.W *ᵥ 1 = fun _ => 1 := by ext o; rw [d.W_mulVec]; rfl
      rw [weightedCov_kmat _ _ hstd hstd, ← hcol, ← hone, form_assoc, single_one_dotProduct, ← hQ]
      simp [mulVec, dotProduct]
    rw [h1, weightedCov_kmat _ _ hstd hstd, kmat_form]
    have h2 : Panel.demean (Panel.wvec d.DpW) *ᵥ (fun _ : Fin n => (1 : ℝ)) = 0 := by
      ext o
      rw [demean_mulVec, ← weightedMean_wvec, weightedMean_const 1 _ (usable_DpW hv hn)]
      simp
    rw [h2]; simp
  rw [trace, ← Finset.sum_sub_distrib]
  refine Finset.sum_congr rfl fun k _ => ?_
  rw [C05_diag_of_prod, diag_apply, mul_apply, mul_apply]
  simp only [d.blocksFull_D, mul_add, Finset.sum_add_distrib]
  have h3 : ∑ c, Q k c * (if c = k then 0 else d.Dwinv k) = - (Q k k * d.Dwinv k) := by
    have : ∀ c, Q k c * (if c = k then 0 else d.Dwinv k)
        = Q k c * d.Dwinv k - (if c = k then Q k k * d.Dwinv k else 0) := by
      intro c
      by_cases hck : c = k
      · subst hck; simp
      · simp [hck]
    simp only [this, Finset.sum_sub_distrib, ← Finset.sum_mul, hrow]
    simp
  rw [h3, hQ, alpha_form hv, d.Dwinv_eq, ← weightedVar_eq_cov _ hstd]
  ring

/-- C19, the worker-effect variance: with exact traces the corrected `var(alpha)` is too large by
`sigma2` times the sum over workers of the variance of the worker's indicator over their total weight
(line 1280 of fe.py adds `Dwinv` to whole columns instead of to the diagonal). -/
theorem C19_var_alpha_bias (hv : d.Valid) (hc : d.Connected) (hs : d.GoodSolver solve) {σ2 : ℝ}
    (h : Noise μ eps fun o => σ2 / d.Dp o) (psi : Fin (m + 1) → ℝ) (alpha : Fin nw → ℝ)
    (hdf : ∃ o, d.computePii d.blocksFull o < 1) :
    ∃ tr, Panel.exactTraceVarHo d.blocksFull d.qAlpha = .ok tr ∧
      ∫ ω, (d.obs psi alpha (eps ω)).varHo solve d.qAlpha (d.exactTraceSigma2 d.blocksFull) tr ∂μ
        = weightedVar (fun o => alpha (d.i o)) d.DpW 0
          + σ2 * ∑ k, weightedVar (fun o => if d.i o = k then 1 else 0) d.DpW 0
              / ∑ o with d.i o = k, d.Dp o := by
  have hn : 0 < n := by obtain ⟨o, -⟩ := hdf; exact o.pos
  have hstd := stdWeight_DpW hv
  obtain ⟨-, p2, -, -⟩ := C23_plug_in (d := d) psi alpha (usable_DpW hv hn)
  refine ⟨_, exactTraceHo_alpha hv hc hs hn, ?_⟩
  obtain ⟨i1, e1⟩ := plugin_expectation hv hc hs h psi alpha d.qAlpha d.qAlpha hstd hstd
  obtain ⟨i2, e2⟩ := C19_sigma2_unbiased hv hc hs h psi alpha hdf
  simp only [Panel.varHo, varFe_eq_covFe d.qAlpha hstd]
  rw [integral_sub i1 (i2.mul_const _), e1, integral_mul_const, e2, ← p2, weightedVar_eq_cov _ (w := d.qAlpha.wt) hstd]
  have : ∀ o, σ2 / d.Dp o * d.unitCov solve d.qAlpha d.qAlpha o
      = σ2 * (1 / d.Dp o * d.unitCov solve d.qAlpha d.qAlpha o) := fun o => by ring
  simp only [this, ← Finset.mul_sum]
  change _ = weightedCov (d.qAlpha.mult (relPsi psi) (relAlpha psi alpha))
    (d.qAlpha.mult (relPsi psi) (relAlpha psi alpha)) d.qAlpha.wt d.qAlpha.wt 0 + σ2 * ∑ k, _ / d.Dw k
  ring

/-- The bias of `C19_var_alpha_bias` is strictly positive as soon as there are two workers, so the claim
is false of the code for `var(alpha)`. -/
theorem C19_var_alpha_biased (hv : d.Valid) (hc : d.Connected) (hs : d.GoodSolver solve) {σ2 : ℝ}
    (hσ : 0 < σ2) (h2 : 2 ≤ nw)
    (h : Noise μ eps fun o => σ2 / d.Dp o) (psi : Fin (m + 1) → ℝ) (alpha : Fin nw → ℝ)
    (hdf : ∃ o, d.computePii d.blocksFull o < 1) :
    ∃ tr, Panel.exactTraceVarHo d.blocksFull d.qAlpha = .ok tr ∧
      weightedVar (fun o => alpha (d.i o)) d.DpW 0 <
      ∫ ω, (d.obs psi alpha (eps ω)).varHo solve d.qAlpha (d.exactTraceSigma2 d.blocksFull) tr ∂μ := by
  obtain ⟨tr, h1, h3⟩ := C19_var_alpha_bias hv hc hs h psi alpha hdf
  refine ⟨tr, h1, ?_⟩
  rw [h3]
  have hpos : ∀ k, 0 < weightedVar (fun o => if d.i o = k then (1 : ℝ) else 0) d.DpW 0 := by
    intro k
    obtain ⟨k', hk'⟩ : ∃ k', k' ≠ k := by
      haveI : Nontrivial (Fin nw) := Fin.nontrivial_iff_two_le.mpr h2
      exact exists_ne k
    obtain ⟨o, ho⟩ := hv.seen k
    obtain ⟨o', ho'⟩ := hv.seen k'
    set f : Fin n → ℝ := fun o => if d.i o = k then (1 : ℝ) else 0 with hf
    have hfo : f o = 1 := by simp [hf, ho]
    have hfo' : f o' = 0 := by simp [hf, ho', hk']
    have hne : ∃ b, f b - weightedMean f d.DpW ≠ 0 := by
      by_contra hcon
      push Not at hcon
      have := hcon o; have := hcon o'
      rw [hfo] at *; rw [hfo'] at *
      linarith [hcon o, hfo, hfo', hcon o']
    obtain ⟨b, hb⟩ := hne
    have hn : 0 < n := b.pos
    have hwpos := hv.wpos
    revert hb
    unfold Panel.Dp at hwpos
    unfold Panel.DpW
    by_cases hw : d.weighted = true
    · simp only [hw, if_true] at hwpos ⊢
      intro hb
      simp only [weightedVar, sub_zero]
      refine div_pos (Finset.sum_pos' (fun c _ => mul_nonneg (hwpos c).le (sq_nonneg _))
        ⟨b, Finset.mem_univ b, mul_pos (hwpos b) (by positivity)⟩)
        (Finset.sum_pos (fun c _ => hwpos c) ⟨b, Finset.mem_univ b⟩)
    · simp only [hw]
      intro hb
      simp only [weightedVar, sub_zero]
      refine div_pos (Finset.sum_pos' (fun c _ => sq_nonneg _) ⟨b, Finset.mem_univ b, by positivity⟩) ?_
      simpa using hn
  have : 0 < σ2 * ∑ k, weightedVar (fun o => if d.i o = k then (1 : ℝ) else 0) d.DpW 0
      / ∑ o with d.i o = k, d.Dp o := by
    refine mul_pos hσ (Finset.sum_pos (fun k _ => div_pos (hpos k) (d.Dw_pos hv k)) ?_)
    exact ⟨⟨0, by omega⟩, Finset.mem_univ _⟩
  linarith

/-- C19: an exact trace for `var(psi + alpha)` is refused. -/
theorem C19_gamma_refused : Panel.exactTraceVarHo d.blocksFull d.qGamma = .error .notImplemented := rfl

/-- Hypotheses of the C19 theorems on a weighted panel (5 observations, 4 parameters). -/
example : ex.Valid ∧ ex.Connected ∧ (∃ s, ex.GoodSolver s) ∧ (∃ o, ex.computePii ex.blocksFull o < 1) ∧
    ∃ (μ : Measure (Fin 5 → Bool)) (eps : (Fin 5 → Bool) → Fin 5 → ℝ), Noise μ eps (fun o => 2 / ex.Dp o) := by
  refine ⟨ex_valid, ex_connected, exists_goodSolver ex, ?_, _, _,
    sign_noise _ fun o => div_nonneg (by norm_num) (ex_valid.wpos o).le⟩
  by_contra hcon
  push Not at hcon
  have h1 := C17_sum_all_rows ex_valid ex_connected
  have h2 : ∑ _o : Fin 5, (1 : ℝ) ≤ ∑ o, ex.computePii ex.blocksFull o := Finset.sum_le_sum fun o _ => hcon o
  rw [h1] at h2
  norm_num at h2

end C19

end Pytwoway.FE
