import Verif.FE.Quad

/-! # Expectations of the estimates (specification of the outcome model, and helper lemmas) -/

namespace Pytwoway.FE

open Matrix Pytwoway.Util MeasureTheory
open scoped BigOperators
open Panel (QHalf)

variable {n m nw r : ℕ}

/-- Outcomes generated by the two-way model: `y = psi(firm) + alpha(worker) + error`. -/
def Panel.obs (d : Panel n m nw) (psi : Fin (m + 1) → ℝ) (alpha : Fin nw → ℝ) (e : Fin n → ℝ) :
    Panel n m nw := d.withY fun o => psi (d.j o) + alpha (d.i o) + e o

/-- True firm effects relative to the first firm. -/
def relPsi (psi : Fin (m + 1) → ℝ) : Fin m → ℝ := fun k => psi k.succ - psi 0
/-- True worker effects, with the first firm's effect added. -/
def relAlpha (psi : Fin (m + 1) → ℝ) (alpha : Fin nw → ℝ) : Fin nw → ℝ := fun i => alpha i + psi 0

variable {d : Panel n m nw} {solve : (Fin m → ℝ) → (Fin m → ℝ)}

theorem obs_eq (psi : Fin (m + 1) → ℝ) (alpha : Fin nw → ℝ) (e : Fin n → ℝ) :
    d.obs psi alpha e = d.withY (d.X *ᵥ Sum.elim (relPsi psi) (relAlpha psi alpha) + e) := by
  rw [Panel.obs]
  congr 1
  ext o
  rw [Pi.add_apply, d.X_mulVec]
  have := withZero_shift psi (d.j o)
  change _ = Panel.withZero (fun k => psi k.succ - psi 0) (d.j o) + (alpha (d.i o) + psi 0) + e o
  rw [this]; ring

theorem stdWeight_DpW (hv : d.Valid) : StdWeight d.DpW := by
  have := hv.wpos
  unfold Panel.DpW
  unfold Panel.Dp at this
  by_cases hw : d.weighted
  · simp only [hw, if_true] at this ⊢
    exact fun a => (this a).le
  · simp only [hw]
    rfl

theorem usable_DpW (hv : d.Valid) (hn : 0 < n) : d.DpW.Usable := by
  have := hv.wpos
  unfold Panel.DpW
  unfold Panel.Dp at this
  by_cases hw : d.weighted
  · simp only [hw, if_true] at this ⊢
    exact (Finset.sum_pos (fun o _ => this o) ⟨⟨0, hn⟩, Finset.mem_univ _⟩).ne'
  · simp only [hw]
    simpa [Weight.Usable] using hn

variable {Ω : Type*} [MeasurableSpace Ω] {μ : Measure Ω} {eps : Ω → Fin n → ℝ} {s2 : Fin n → ℝ}

/-- Expectation of a plug-in (co)variance: the true one plus the noise contribution. -/
theorem plugin_expectation (hv : d.Valid) (hc : d.Connected) (hs : d.GoodSolver solve)
    (h : Noise μ eps s2) (psi : Fin (m + 1) → ℝ) (alpha : Fin nw → ℝ) (ql qr : QHalf r m nw)
    (hl : StdWeight ql.wt) (hr : StdWeight qr.wt) :
    Integrable (fun ω => (d.obs psi alpha (eps ω)).covFe solve ql qr) μ ∧
    ∫ ω, (d.obs psi alpha (eps ω)).covFe solve ql qr ∂μ
      = weightedCov (ql.mult (relPsi psi) (relAlpha psi alpha)) (qr.mult (relPsi psi) (relAlpha psi alpha))
          ql.wt qr.wt 0 + ∑ o, s2 o * d.unitCov solve ql qr o := by
  have hrw : ∀ ω, (d.obs psi alpha (eps ω)).covFe solve ql qr
      = (d.X *ᵥ Sum.elim (relPsi psi) (relAlpha psi alpha) + eps ω) ⬝ᵥ (bmat d ql qr *ᵥ
          (d.X *ᵥ Sum.elim (relPsi psi) (relAlpha psi alpha) + eps ω)) := fun ω => by
    rw [obs_eq, covFe_form hv hc hs ql qr hl hr]
  simp only [hrw]
  have key := h.integral_form (bmat d ql qr) (d.X *ᵥ Sum.elim (relPsi psi) (relAlpha psi alpha))
  refine ⟨key.1, key.2.trans ?_⟩
  congr 1
  · rw [weightedCov_kmat _ _ hl hr, QHalf.mult_eq, QHalf.mult_eq, form_assoc ql.mat]
    set K := ql.matᵀ * kmat (Panel.wvec ql.wt) (Panel.wvec qr.wt) * qr.mat with hK
    rw [bmat, ← hK, ← form_assoc d.lmat K d.lmat, mulVec_mulVec, lmat_mul_X hv hc, one_mulVec]
  · exact Finset.sum_congr rfl fun o _ => by rw [unitCov_eq hv hc hs ql qr hl hr]

/-- Residuals are `(1 - H) e`. -/
theorem E_obs (hv : d.Valid) (hc : d.Connected) (hs : d.GoodSolver solve)
    (psi : Fin (m + 1) → ℝ) (alpha : Fin nw → ℝ) (e : Fin n → ℝ) (o : Fin n) :
    (d.obs psi alpha e).E solve o = ∑ b, ((if o = b then 1 else 0) - hat d.X d.Dp o b) * e b := by
  rw [obs_eq, Panel.E]
  have h1 : (d.withY (d.X *ᵥ Sum.elim (relPsi psi) (relAlpha psi alpha) + e)).multA
      ((d.withY (d.X *ᵥ Sum.elim (relPsi psi) (relAlpha psi alpha) + e)).ols solve).1
      ((d.withY (d.X *ᵥ Sum.elim (relPsi psi) (relAlpha psi alpha) + e)).ols solve).2 .no
      = hat d.X d.Dp *ᵥ (d.X *ᵥ Sum.elim (relPsi psi) (relAlpha psi alpha) + e) := by
    have : ∀ p a, d.multA p a .no = d.X *ᵥ Sum.elim p a := fun p a => by
      rw [Panel.X, fromCols_mulVec]; rfl
    refine (this _ _).trans ?_
    rw [ols_lmat hv hc hs, mulVec_mulVec, X_mul_lmat]
  rw [h1, mulVec_add, mulVec_mulVec, hat_mul_X _ _ (d.nmat_unit hv hc)]
  change (d.X *ᵥ Sum.elim (relPsi psi) (relAlpha psi alpha) + e) o - _ = _
  simp only [Pi.add_apply, sub_mul, Finset.sum_sub_distrib, ite_mul, one_mul, zero_mul,
    Finset.sum_ite_eq, Finset.mem_univ, if_true]
  rw [add_sub_add_left_eq_sub]
  rfl

/-- `Σ_b (1-H)_ob² / w_b = (1 - H_oo) / w_o`. -/
theorem resid_var (hv : d.Valid) (hc : d.Connected) (o : Fin n) :
    ∑ b, ((if o = b then 1 else 0) - hat d.X d.Dp o b) ^ 2 * (1 / d.Dp b)
      = (1 - hat d.X d.Dp o o) / d.Dp o := by
  have hu := d.nmat_unit hv hc
  set G := d.X * (nmat d.X d.Dp)⁻¹ * d.Xᵀ with hG
  have hH : ∀ a b, hat d.X d.Dp a b = G a b * d.Dp b := fun a b => hat_apply _ _ a b
  have hGG : ∑ b, G o b ^ 2 * d.Dp b = G o o := by
    have h1 : hat d.X d.Dp * G = G := by
      rw [hG, Matrix.mul_assoc, ← Matrix.mul_assoc, hat_mul_X _ _ hu]
    conv_rhs => rw [← h1]
    rw [mul_apply]
    refine Finset.sum_congr rfl fun b _ => ?_
    rw [hH, hG, gmat_symm d.X d.Dp b o]; ring
  have h2 : ∀ b, ((if o = b then 1 else 0) - hat d.X d.Dp o b) ^ 2 * (1 / d.Dp b)
      = (if o = b then (1 - 2 * hat d.X d.Dp o o) / d.Dp o else 0) + G o b ^ 2 * d.Dp b := by
    intro b
    have hb := (hv.wpos b).ne'
    by_cases hob : o = b
    · subst hob; simp only [if_true, hH]; field_simp; ring
    · simp only [hob, if_false, hH]; field_simp; ring
  simp only [h2, Finset.sum_add_distrib, hGG, Finset.sum_ite_eq, Finset.mem_univ, if_true]
  have ho := (hv.wpos o).ne'
  rw [hH]; field_simp; ring

/-- Expected sum of squared residuals when variances are inversely proportional to weights. -/
theorem ssr_expectation (hv : d.Valid) (hc : d.Connected) (hs : d.GoodSolver solve) {σ2 : ℝ}
    (h : Noise μ eps fun o => σ2 / d.Dp o) (psi : Fin (m + 1) → ℝ) (alpha : Fin nw → ℝ) :
    Integrable (fun ω => ∑ o, (d.obs psi alpha (eps ω)).E solve o ^ 2) μ ∧
    ∫ ω, (∑ o, (d.obs psi alpha (eps ω)).E solve o ^ 2) ∂μ
      = σ2 * ∑ o, (1 - hat d.X d.Dp o o) / d.Dp o := by
  have hrw : ∀ ω, (∑ o, (d.obs psi alpha (eps ω)).E solve o ^ 2) = ∑ o : Fin n, (1 : ℝ) *
      ((0 + ∑ b, ((if o = b then 1 else 0) - hat d.X d.Dp o b) * eps ω b)
        * (0 + ∑ b, ((if o = b then 1 else 0) - hat d.X d.Dp o b) * eps ω b)) := fun ω => by
    refine Finset.sum_congr rfl fun o _ => ?_
    rw [E_obs hv hc hs]; ring
  simp only [hrw]
  have key := h.integral_sum_mul (ι := Fin n) (fun _ => 1) (fun _ => 0) (fun _ => 0)
    (fun o b => (if o = b then 1 else 0) - hat d.X d.Dp o b) (fun o b => (if o = b then 1 else 0) - hat d.X d.Dp o b)
  refine ⟨key.1, key.2.trans ?_⟩
  rw [Finset.mul_sum]
  refine Finset.sum_congr rfl fun o _ => ?_
  rw [← resid_var hv hc o, Finset.mul_sum]
  simp only [mul_zero, zero_add, one_mul]
  exact Finset.sum_congr rfl fun b _ => by ring

/-- The exact trace for `sigma2`, weighted case. -/
theorem exactTraceSigma2_eq (hv : d.Valid) (hc : d.Connected) :
    d.exactTraceSigma2 d.blocksFull = ∑ o, hat d.X d.Dp o o / d.Dp o := by
  have hu := d.nmat_unit hv hc
  refine Finset.sum_congr rfl fun o _ => ?_
  have hWrow : d.W o = Pi.single (d.i o) 1 := by
    ext i; simp [Panel.W, Pi.single_apply, eq_comm]
  have hG : hat d.X d.Dp o o / d.Dp o = (d.X * (nmat d.X d.Dp)⁻¹ * d.Xᵀ) o o := by
    rw [hat_apply, mul_div_assoc, div_self (hv.wpos o).ne', mul_one]
  rw [hG, d.nmat_inv hv hu, Panel.X, fromCols_mul_fromBlocks, transpose_fromCols, fromCols_mul_fromRows,
    C05_diag_of_prod, C05_diag_of_prod, Matrix.add_apply]
  have e1 : ∀ {k : ℕ} (A B : Matrix (Fin n) (Fin k) ℝ), (A * Bᵀ) o o = (B * Aᵀ) o o := fun A B => by
    simp only [mul_apply, transpose_apply]; exact Finset.sum_congr rfl fun _ _ => mul_comm _ _
  rw [e1 d.J, e1 d.W]
  congr 1
  simp only [mul_apply, transpose_apply, hWrow, Matrix.add_apply, Pi.single_apply, ite_mul, mul_ite,
    one_mul, zero_mul, mul_one, mul_zero, Finset.sum_ite_eq', Finset.mem_univ, if_true, d.blocksFull_D]
  simp

end Pytwoway.FE
