import Verif.FE.Noise

/-! # Quadratic forms of the estimates and their expectations (helper lemmas) -/

namespace Pytwoway.FE

open Matrix Pytwoway.Util MeasureTheory
open scoped BigOperators
open Panel (QHalf)

variable {n m nw r : ℕ}

/-- The same panel with outcomes `y`. -/
def Panel.withY (d : Panel n m nw) (y : Fin n → ℝ) : Panel n m nw := { d with y := y }

/-- A half as a matrix acting on the stacked effects. -/
def Panel.QHalf.mat : QHalf r m nw → Matrix (Fin r) (Fin m ⊕ Fin nw) ℝ
  | .psi M _ => fromCols M 0
  | .alpha M _ => fromCols 0 M
  | .gamma M _ => M

theorem Panel.QHalf.mult_eq (q : QHalf r m nw) (p : Fin m → ℝ) (a : Fin nw → ℝ) :
    q.mult p a = q.mat *ᵥ Sum.elim p a := by
  cases q <;> simp [QHalf.mult, QHalf.mat, fromCols_mulVec]

/-- Weights as the Q classes supply them: the number 1, or a nonnegative array. -/
def StdWeight : Weight (Fin r) → Prop
  | .scalar c => c = 1
  | .vec w => ∀ a, 0 ≤ w a

theorem wvec_nonneg {w : Weight (Fin r)} (h : StdWeight w) (a : Fin r) : 0 ≤ Panel.wvec w a := by
  cases w with
  | scalar c => exact zero_le_one
  | vec w => exact h a

theorem wvec_at {w : Weight (Fin r)} (h : StdWeight w) (a : Fin r) : w.at a = Panel.wvec w a := by
  cases w with
  | scalar c => exact h
  | vec w => rfl

theorem weightedMean_wvec (v : Fin r → ℝ) (w : Weight (Fin r)) :
    weightedMean v w = (∑ a, Panel.wvec w a * v a) / ∑ a, Panel.wvec w a := by
  cases w <;> simp [weightedMean, Panel.wvec]

/-- Demeaning matrix applied to a vector. -/
theorem demean_mulVec (w v : Fin r → ℝ) (a : Fin r) :
    (Panel.demean w *ᵥ v) a = v a - (∑ c, w c * v c) / ∑ c, w c := by
  simp only [mulVec, dotProduct, Panel.demean, of_apply, sub_mul, Finset.sum_sub_distrib, ite_mul,
    one_mul, zero_mul, Finset.sum_ite_eq, Finset.mem_univ, if_true]
  congr 1
  rw [Finset.sum_div]
  exact Finset.sum_congr rfl fun c _ => by ring

/-- The bilinear form of `weighted_cov`. -/
noncomputable def kmat (wl wr : Fin r → ℝ) : Matrix (Fin r) (Fin r) ℝ :=
  (1 / ∑ c, Real.sqrt (wl c) * Real.sqrt (wr c)) •
    ((Panel.demean wl)ᵀ * diagonal (fun c => Real.sqrt (wl c) * Real.sqrt (wr c)) * Panel.demean wr)

theorem kmat_form (wl wr u v : Fin r → ℝ) :
    u ⬝ᵥ (kmat wl wr *ᵥ v) = (∑ c, Real.sqrt (wl c) * Real.sqrt (wr c)
      * ((Panel.demean wl *ᵥ u) c * (Panel.demean wr *ᵥ v) c)) / ∑ c, Real.sqrt (wl c) * Real.sqrt (wr c) := by
  rw [kmat, smul_mulVec, dotProduct_smul, ← mulVec_mulVec, ← mulVec_mulVec, dotProduct_mulVec,
    vecMul_transpose, smul_eq_mul, one_div, inv_mul_eq_div]
  congr 1
  rw [dotProduct]
  exact Finset.sum_congr rfl fun c _ => by rw [mulVec_diagonal]; ring

theorem weightedCov_kmat (u v : Fin r → ℝ) {w1 w2 : Weight (Fin r)} (h1 : StdWeight w1) (h2 : StdWeight w2) :
    weightedCov u v w1 w2 0 = u ⬝ᵥ (kmat (Panel.wvec w1) (Panel.wvec w2) *ᵥ v) := by
  rw [kmat_form]
  simp only [demean_mulVec]
  have hs : ∀ c, Real.sqrt (w1.at c * w2.at c) = Real.sqrt (Panel.wvec w1 c) * Real.sqrt (Panel.wvec w2 c) :=
    fun c => by rw [wvec_at h1, wvec_at h2, Real.sqrt_mul (wvec_nonneg h1 c)]
  have hgen : (∑ c, Real.sqrt (w1.at c * w2.at c) * ((u c - weightedMean u w1) * (v c - weightedMean v w2)))
        / ((∑ c, Real.sqrt (w1.at c * w2.at c)) - 0)
      = (∑ c, Real.sqrt (Panel.wvec w1 c) * Real.sqrt (Panel.wvec w2 c) *
          ((u c - (∑ a, Panel.wvec w1 a * u a) / ∑ a, Panel.wvec w1 a)
            * (v c - (∑ a, Panel.wvec w2 a * v a) / ∑ a, Panel.wvec w2 a)))
        / ∑ c, Real.sqrt (Panel.wvec w1 c) * Real.sqrt (Panel.wvec w2 c) := by
    rw [sub_zero]; simp only [hs, weightedMean_wvec]
  cases w1 with
  | scalar c =>
    cases w2 with
    | scalar c' => simp [weightedCov, Panel.wvec, weightedMean]
    | vec w' => rw [← hgen]; simp only [weightedCov, mul_assoc]
  | vec w =>
    cases w2 with
    | scalar c' => rw [← hgen]; simp only [weightedCov, mul_assoc]
    | vec w' => rw [← hgen]; simp only [weightedCov, mul_assoc]

theorem weightedVar_eq_cov (u : Fin r → ℝ) {w : Weight (Fin r)} (h : StdWeight w) :
    weightedVar u w 0 = weightedCov u u w w 0 := by
  cases w with
  | scalar c => simp [weightedVar, weightedCov, sq]
  | vec w =>
    have hw : ∀ i, Real.sqrt (w i * w i) = w i := fun i => Real.sqrt_mul_self (h i)
    simp only [weightedVar, weightedCov, Weight.at, hw, sq, mul_assoc]

theorem qCovMat_eq {k l : ℕ} (Ml : Matrix (Fin r) (Fin k) ℝ) (Mr : Matrix (Fin r) (Fin l) ℝ)
    (wl wr : Fin r → ℝ) : Panel.qCovMat Ml Mr wl wr = Mlᵀ * kmat wl wr * Mr := by
  have e1 : (of fun a b => (Panel.demean wl)ᵀ a b * Real.sqrt (wl b))
      = (Panel.demean wl)ᵀ * diagonal (fun b => Real.sqrt (wl b)) := by ext; simp [mul_diagonal]
  have e2 : (of fun a b => Real.sqrt (wr a) * Panel.demean wr a b)
      = diagonal (fun b => Real.sqrt (wr b)) * Panel.demean wr := by ext; simp [diagonal_mul]
  rw [Panel.qCovMat, e1, e2, kmat, ← diagonal_mul_diagonal]
  simp only [Matrix.smul_mul, Matrix.mul_smul, Matrix.mul_assoc]

theorem qVarMat_eq {k : ℕ} (M : Matrix (Fin r) (Fin k) ℝ) (w : Fin r → ℝ) (hw : ∀ a, 0 ≤ w a) :
    Panel.qVarMat M w = Mᵀ * kmat w w * M := by
  have e2 : (of fun a b => Real.sqrt (w a) * Panel.demean w a b)
      = diagonal (fun b => Real.sqrt (w b)) * Panel.demean w := by ext; simp [diagonal_mul]
  have e3 : (∑ c, Real.sqrt (w c) * Real.sqrt (w c)) = ∑ c, w c :=
    Finset.sum_congr rfl fun c _ => Real.mul_self_sqrt (hw c)
  simp only [Panel.qVarMat, e2, kmat, e3, ← diagonal_mul_diagonal, transpose_mul, diagonal_transpose]
  simp only [Matrix.smul_mul, Matrix.mul_smul, Matrix.mul_assoc]

/-! ## Estimates as a linear map of the outcomes -/

/-- `L = (X'DX)⁻¹ X'D`. -/
noncomputable def Panel.lmat (d : Panel n m nw) : Matrix (Fin m ⊕ Fin nw) (Fin n) ℝ :=
  (nmat d.X d.Dp)⁻¹ * d.Xᵀ * diagonal d.Dp

variable {d : Panel n m nw} {solve : (Fin m → ℝ) → (Fin m → ℝ)}

theorem solveLS_lmat (hv : d.Valid) (hc : d.Connected) (hs : d.GoodSolver solve) (y : Fin n → ℝ) :
    Sum.elim (d.solveLS solve y .yes).1 (d.solveLS solve y .yes).2 = d.lmat *ᵥ y := by
  have hu := d.nmat_unit hv hc
  have h := solveLS_normal hv hs y
  have h2 : (fun o => d.Dp o * y o) = diagonal d.Dp *ᵥ y := by ext o; rw [mulVec_diagonal]
  rw [Panel.lmat, ← mulVec_mulVec, ← mulVec_mulVec, ← h2, ← h, mulVec_mulVec, nonsing_inv_mul _ hu,
    one_mulVec]

theorem ols_lmat (hv : d.Valid) (hc : d.Connected) (hs : d.GoodSolver solve) (y : Fin n → ℝ) :
    Sum.elim ((d.withY y).ols solve).1 ((d.withY y).ols solve).2 = d.lmat *ᵥ y :=
  solveLS_lmat hv hc hs y

theorem lmat_mul_X (hv : d.Valid) (hc : d.Connected) : d.lmat * d.X = 1 := by
  have hu := d.nmat_unit hv hc
  rw [Panel.lmat, Matrix.mul_assoc, Matrix.mul_assoc, ← Matrix.mul_assoc d.Xᵀ]
  exact nonsing_inv_mul _ hu

theorem X_mul_lmat : d.X * d.lmat = hat d.X d.Dp := by
  rw [Panel.lmat, hat]; simp only [Matrix.mul_assoc]

/-- `L D⁻¹ L' = (X'DX)⁻¹`. -/
theorem lmat_cov (hv : d.Valid) (hc : d.Connected) :
    d.lmat * diagonal (fun o => 1 / d.Dp o) * d.lmatᵀ = (nmat d.X d.Dp)⁻¹ := by
  have hu := d.nmat_unit hv hc
  have h1 : diagonal d.Dp * diagonal (fun o => 1 / d.Dp o) = 1 := by
    rw [diagonal_mul_diagonal, ← diagonal_one]; congr 1; ext o
    rw [mul_one_div, div_self (hv.wpos o).ne']
  have h2 : d.lmat * diagonal (fun o => 1 / d.Dp o) = (nmat d.X d.Dp)⁻¹ * d.Xᵀ := by
    rw [Panel.lmat, Matrix.mul_assoc, h1, Matrix.mul_one]
  have h3 : d.lmatᵀ = diagonal d.Dp * d.X * (nmat d.X d.Dp)⁻¹ := by
    rw [Panel.lmat, transpose_mul, transpose_mul, diagonal_transpose, transpose_transpose, nmat_inv_symm,
      Matrix.mul_assoc]
  rw [h2, h3, Matrix.mul_assoc, ← Matrix.mul_assoc d.Xᵀ, ← Matrix.mul_assoc d.Xᵀ]
  change (nmat d.X d.Dp)⁻¹ * (nmat d.X d.Dp * (nmat d.X d.Dp)⁻¹) = _
  rw [mul_nonsing_inv _ hu, Matrix.mul_one]

/-- Bilinear form of a pair of halves on outcome vectors. -/
noncomputable def bmat (d : Panel n m nw) (ql qr : QHalf r m nw) : Matrix (Fin n) (Fin n) ℝ :=
  d.lmatᵀ * (ql.matᵀ * kmat (Panel.wvec ql.wt) (Panel.wvec qr.wt) * qr.mat) * d.lmat

theorem form_assoc {ι ι' κ : Type*} [Fintype ι] [Fintype ι'] [Fintype κ] (A : Matrix κ ι ℝ)
    (K : Matrix κ κ ℝ) (B : Matrix κ ι' ℝ) (u : ι → ℝ) (v : ι' → ℝ) :
    (A *ᵥ u) ⬝ᵥ (K *ᵥ (B *ᵥ v)) = u ⬝ᵥ ((Aᵀ * K * B) *ᵥ v) := by
  rw [← mulVec_mulVec, ← mulVec_mulVec, dotProduct_mulVec, dotProduct_mulVec, dotProduct_mulVec,
    dotProduct_mulVec, dotProduct_mulVec, vecMul_transpose]

theorem covFe_form (hv : d.Valid) (hc : d.Connected) (hs : d.GoodSolver solve) (ql qr : QHalf r m nw)
    (hl : StdWeight ql.wt) (hr : StdWeight qr.wt) (y : Fin n → ℝ) :
    (d.withY y).covFe solve ql qr = y ⬝ᵥ (bmat d ql qr *ᵥ y) := by
  rw [Panel.covFe, weightedCov_kmat _ _ hl hr, QHalf.mult_eq, QHalf.mult_eq, ols_lmat hv hc hs, form_assoc,
    form_assoc, bmat]

theorem varFe_eq_covFe (q : QHalf r m nw) (h : StdWeight q.wt) :
    d.varFe solve q = d.covFe solve q q := weightedVar_eq_cov _ h

/-- The component estimated from outcomes that are 1 for observation `o` and 0 elsewhere. -/
noncomputable def Panel.unitCov (d : Panel n m nw) (solve : (Fin m → ℝ) → (Fin m → ℝ)) (ql qr : QHalf r m nw) (o : Fin n) : ℝ :=
  (d.withY (Pi.single o 1)).covFe solve ql qr

theorem unitCov_eq (hv : d.Valid) (hc : d.Connected) (hs : d.GoodSolver solve) (ql qr : QHalf r m nw)
    (hl : StdWeight ql.wt) (hr : StdWeight qr.wt) (o : Fin n) :
    d.unitCov solve ql qr o = bmat d ql qr o o := by
  rw [Panel.unitCov, covFe_form hv hc hs ql qr hl hr, mulVec_single_one, single_one_dotProduct]
  rfl

variable {Ω : Type*} [MeasurableSpace Ω] {μ : Measure Ω} {eps : Ω → Fin n → ℝ} {s2 : Fin n → ℝ}

theorem Noise.integral_form {κ : Type*} [Fintype κ] [DecidableEq κ] {eps : Ω → κ → ℝ} {s2 : κ → ℝ}
    (h : Noise μ eps s2) (K : Matrix κ κ ℝ) (x : κ → ℝ) :
    Integrable (fun ω => (x + eps ω) ⬝ᵥ (K *ᵥ (x + eps ω))) μ ∧
    ∫ ω, (x + eps ω) ⬝ᵥ (K *ᵥ (x + eps ω)) ∂μ = x ⬝ᵥ (K *ᵥ x) + ∑ o, s2 o * K o o := by
  have key := h.integral_sum_mul (ι := κ × κ) (fun p => K p.1 p.2) (fun p => x p.1) (fun p => x p.2)
    (fun p o => if p.1 = o then 1 else 0) (fun p o => if p.2 = o then 1 else 0)
  have hrw : (fun ω => (x + eps ω) ⬝ᵥ (K *ᵥ (x + eps ω))) = fun ω => ∑ p : κ × κ, K p.1 p.2 *
      ((x p.1 + ∑ o, (if p.1 = o then (1 : ℝ) else 0) * eps ω o)
        * (x p.2 + ∑ o, (if p.2 = o then (1 : ℝ) else 0) * eps ω o)) := by
    ext ω
    rw [Fintype.sum_prod_type]
    simp only [dotProduct, mulVec, Finset.mul_sum, Pi.add_apply, ite_mul, one_mul, zero_mul,
      Finset.sum_ite_eq, Finset.mem_univ, if_true]
    exact Finset.sum_congr rfl fun a _ => Finset.sum_congr rfl fun b _ => by ring
  rw [hrw]
  refine ⟨key.1, key.2.trans ?_⟩
  rw [Fintype.sum_prod_type]
  simp only [mul_add, Finset.sum_add_distrib]
  congr 1
  · simp only [dotProduct, mulVec, Finset.mul_sum]
    exact Finset.sum_congr rfl fun a _ => Finset.sum_congr rfl fun b _ => by ring
  · refine Finset.sum_congr rfl fun a _ => ?_
    have : ∀ b, ∑ o, (if a = o then (1 : ℝ) else 0) * (if b = o then 1 else 0) * s2 o
        = if a = b then s2 a else 0 := by
      intro b
      simp only [ite_mul, one_mul, zero_mul, Finset.sum_ite_eq, Finset.mem_univ, if_true]
      by_cases hab : a = b
      · simp [hab]
      · simp [hab, Ne.symm hab]
    have h2 : ∑ b, K a b * ∑ o, (if a = o then (1 : ℝ) else 0) * (if b = o then 1 else 0) * s2 o
        = s2 a * K a a := by
      rw [Finset.sum_congr rfl fun b _ => by rw [this b]]
      simp only [mul_ite, mul_zero, Finset.sum_ite_eq, Finset.mem_univ, if_true]
      ring
    exact h2

end Pytwoway.FE
