import Verif.FE.Inverse
import Verif.Util.Props

/-!
# Properties C15, C16, C17, C23 of `FEEstimator`
-/

namespace Pytwoway.FE

open Matrix Pytwoway.Util
open scoped BigOperators

variable {n m nw : ℕ} (d : Panel n m nw) (solve : (Fin m → ℝ) → (Fin m → ℝ))

/-! A panel used to show that hypotheses can be met: two workers, three firms, five weighted rows; the
second worker links the firms 0, 1, 2 and the first the firms 0, 1. -/

/-- Example panel. -/
def ex : Panel 5 2 2 where
  j := ![0, 1, 0, 1, 2]
  i := ![0, 0, 1, 1, 1]
  y := ![1, 3, 2, 7, 5]
  weighted := true
  w := ![1, 2, 1, 3, 1]

theorem ex_valid : ex.Valid where
  wpos := by intro o; fin_cases o <;> norm_num [Panel.Dp, ex]
  seen := by intro i; fin_cases i; exacts [⟨0, rfl⟩, ⟨2, rfl⟩]

theorem ex_connected : ex.Connected := by
  have h0 : ∀ a, ex.Linked 0 a := by
    intro a; fin_cases a
    exacts [⟨2, 2, rfl, rfl, rfl⟩, ⟨2, 3, rfl, rfl, rfl⟩, ⟨2, 4, rfl, rfl, rfl⟩]
  have h1 : ∀ a, ex.Linked a 0 := fun a => by
    obtain ⟨o, o', h, h', h''⟩ := h0 a
    exact ⟨o', o, h.symm, h'', h'⟩
  exact fun a b => .tail (.tail .refl (h1 a)) (h0 b)

/-- A good solver exists for every panel: pick any solution. -/
theorem exists_goodSolver : ∃ solve, d.GoodSolver solve := by
  classical
  refine ⟨fun b => if h : ∃ x, d.Minv *ᵥ x = b then h.choose else 0, fun b hb => ?_⟩
  simp only [dif_pos hb]
  exact hb.choose_spec

/-! ## C15 -/

section C15

variable {d solve}

theorem Dp_JT (v : Fin n → ℝ) : (d.DpJᵀ *ᵥ v, d.DpWmᵀ *ᵥ v) =
    (((d.Xᵀ *ᵥ fun o => d.Dp o * v o) ∘ Sum.inl), ((d.Xᵀ *ᵥ fun o => d.Dp o * v o) ∘ Sum.inr)) := by
  ext k
  · simp only [mulVec, dotProduct, transpose_apply, Panel.DpJ, of_apply, Function.comp, Panel.X, fromCols_apply_inl]
    exact Finset.sum_congr rfl fun o _ => by ring
  · simp only [mulVec, dotProduct, transpose_apply, Panel.DpWm, of_apply, Function.comp, Panel.X, fromCols_apply_inr]
    exact Finset.sum_congr rfl fun o _ => by ring

/-- The estimates solve the stacked normal equations. -/
theorem solveLS_normal (hv : d.Valid) (hs : d.GoodSolver solve) (v : Fin n → ℝ) :
    nmat d.X d.Dp *ᵥ Sum.elim (d.solveLS solve v .yes).1 (d.solveLS solve v .yes).2
      = d.Xᵀ *ᵥ fun o => d.Dp o * v o := by
  obtain ⟨t, ht⟩ := normal_consistent d.X d.Dp (fun o => (hv.wpos o).le) v
  set r := d.Xᵀ *ᵥ fun o => d.Dp o * v o with hr
  have hT : d.multAT v .yes = (r ∘ Sum.inl, r ∘ Sum.inr) := Dp_JT v
  have hr2 : Sum.elim (r ∘ Sum.inl) (r ∘ Sum.inr) = r := Sum.elim_comp_inl_inr r
  rw [Panel.solveLS, hT]
  have hcons := d.reduced_consistent hv (r ∘ Sum.inl) (r ∘ Sum.inr) t (by rw [hr2]; exact ht)
  rw [d.multAAinv_spec hv solve _ _ (hs _ ⟨_, hcons⟩), hr2]

/-- C15, normal equations: within every firm but the normalised one, and within every worker, the
weighted residuals sum to zero. -/
theorem C15_normal_equations (hv : d.Valid) (hs : d.GoodSolver solve) :
    (∀ k, k ≠ 0 → ∑ o with d.j o = k, d.Dp o * (d.y o - (d.alphaCol solve o + d.psiCol solve o)) = 0) ∧
    (∀ i, ∑ o with d.i o = i, d.Dp o * (d.y o - (d.alphaCol solve o + d.psiCol solve o)) = 0) := by
  have h := solveLS_normal hv hs d.y
  set pa := d.solveLS solve d.y .yes with hpa
  have h0 : d.Xᵀ *ᵥ (fun o => d.Dp o * (d.y o - (d.alphaCol solve o + d.psiCol solve o))) = 0 := by
    have : (fun o => d.Dp o * (d.y o - (d.alphaCol solve o + d.psiCol solve o)))
        = (fun o => d.Dp o * d.y o) - diagonal d.Dp *ᵥ (d.X *ᵥ Sum.elim pa.1 pa.2) := by
      ext o
      rw [Pi.sub_apply, mulVec_diagonal, d.X_mulVec]
      simp only [Panel.alphaCol, Panel.psiCol, Panel.ols, ← hpa]; ring
    rw [this, mulVec_sub, ← h, mulVec_mulVec, mulVec_mulVec, nmat, sub_self]
  constructor
  · intro k hk
    obtain ⟨k', rfl⟩ := Fin.exists_succ_eq.mpr hk
    have := congrFun h0 (Sum.inl k')
    simpa [mulVec, dotProduct, Panel.X, Panel.J, Panel.Jfull, Finset.sum_filter] using this
  · intro i
    have := congrFun h0 (Sum.inr i)
    simpa [mulVec, dotProduct, Panel.X, Panel.W, Finset.sum_filter] using this

/-- C15, optimality: no worker and firm effects (normalised or not) fit better than the attached
estimates. -/
theorem C15_optimal (hv : d.Valid) (hs : d.GoodSolver solve)
    (psi : Fin (m + 1) → ℝ) (alpha : Fin nw → ℝ) :
    ∑ o, d.Dp o * (d.y o - (d.alphaCol solve o + d.psiCol solve o)) ^ 2 ≤ d.SSR psi alpha := by
  have h := normal_optimal d.X d.Dp d.y (fun o => (hv.wpos o).le) _
    (Sum.elim (fun k => psi k.succ - psi 0) (fun i => alpha i + psi 0)) (solveLS_normal hv hs d.y)
  refine le_trans (le_of_eq ?_) (le_trans h (le_of_eq ?_))
  · refine Finset.sum_congr rfl fun o _ => ?_
    rw [d.X_mulVec]; simp only [Panel.alphaCol, Panel.psiCol, Panel.ols]; ring
  · refine Finset.sum_congr rfl fun o _ => ?_
    rw [d.X_mulVec]
    have : Panel.withZero (fun k => psi k.succ - psi 0) (d.j o) = psi (d.j o) - psi 0 := by
      refine Fin.cases ?_ (fun k => ?_) (d.j o) <;> simp [Panel.withZero]
    rw [this]; ring

/-- C15: the first firm is normalised to 0, and the attached columns depend only on the ids. -/
theorem C15_normalised (o : Fin n) (ho : d.j o = 0) : d.psiCol solve o = 0 := by
  simp [Panel.psiCol, ho, Panel.withZero]

example : ∃ solve, ex.Valid ∧ ex.GoodSolver solve := by
  obtain ⟨s, h⟩ := exists_goodSolver ex; exact ⟨s, ex_valid, h⟩

end C15

/-! ## C16 -/

section C16

variable {d solve}

/-- C16, uniqueness: on connected data any effects with the first firm at 0 that fit as well as the
estimates are the estimates. -/
theorem C16_unique (hv : d.Valid) (hc : d.Connected) (hs : d.GoodSolver solve)
    (psi : Fin (m + 1) → ℝ) (alpha : Fin nw → ℝ) (h0 : psi 0 = 0)
    (hopt : ∀ psi' alpha', d.SSR psi alpha ≤ d.SSR psi' alpha') :
    psi = Panel.withZero (d.ols solve).1 ∧ alpha = (d.ols solve).2 := by
  set t := Sum.elim (d.ols solve).1 (d.ols solve).2 with ht
  set t' : Fin m ⊕ Fin nw → ℝ := Sum.elim (fun k => psi k.succ) alpha with ht'
  have hw0 : Panel.withZero (fun k => psi k.succ) = psi := by
    funext k; refine Fin.cases ?_ (fun k => ?_) k <;> simp [Panel.withZero, h0]
  have hfit : ∀ o, (d.X *ᵥ t') o = psi (d.j o) + alpha (d.i o) := fun o => by
    rw [ht', d.X_mulVec, hw0]
  have hn : nmat d.X d.Dp *ᵥ t = d.Xᵀ *ᵥ fun o => d.Dp o * d.y o := solveLS_normal hv hs d.y
  have hle : d.SSR psi alpha ≤ ∑ o, d.Dp o * (d.y o - (d.X *ᵥ t) o) ^ 2 := by
    refine le_trans (hopt (Panel.withZero (d.ols solve).1) (d.ols solve).2) (le_of_eq ?_)
    refine Finset.sum_congr rfl fun o _ => ?_
    rw [ht, d.X_mulVec]; ring
  have hpy := normal_pyth d.X d.Dp d.y t t' hn
  have heq : d.SSR psi alpha = ∑ o, d.Dp o * (d.y o - (d.X *ᵥ t') o) ^ 2 := by
    refine Finset.sum_congr rfl fun o _ => ?_
    rw [hfit]; ring
  have hz : ∑ o, d.Dp o * ((d.X *ᵥ (t - t')) o) ^ 2 ≤ 0 := by rw [heq, hpy] at hle; linarith
  have hnn : ∀ o ∈ Finset.univ, 0 ≤ d.Dp o * ((d.X *ᵥ (t - t')) o) ^ 2 :=
    fun o _ => mul_nonneg (hv.wpos o).le (sq_nonneg _)
  have hz' := le_antisymm hz (Finset.sum_nonneg hnn)
  have hX : d.X *ᵥ (t - t') = 0 := by
    ext o
    have := (Finset.sum_eq_zero_iff_of_nonneg hnn).mp hz' o (Finset.mem_univ o)
    simpa using (mul_eq_zero.mp this).resolve_left (hv.wpos o).ne'
  have htt : t = t' := sub_eq_zero.mp (d.X_injective hv hc _ hX)
  constructor
  · rw [← hw0]; congr 1; ext k; exact (congrFun htt (Sum.inl k)).symm
  · ext i; exact (congrFun htt (Sum.inr i)).symm

/-- C16, exactness: on connected data without noise the estimates are the true effects, relative to the
first firm, whatever the weights. -/
theorem C16_noise_free (hv : d.Valid) (hc : d.Connected) (hs : d.GoodSolver solve)
    (psi : Fin (m + 1) → ℝ) (alpha : Fin nw → ℝ) (hy : ∀ o, d.y o = alpha (d.i o) + psi (d.j o)) :
    (∀ k, Panel.withZero (d.ols solve).1 k = psi k - psi 0) ∧
    (∀ i, (d.ols solve).2 i = alpha i + psi 0) := by
  have h := C16_unique hv hc hs (fun k => psi k - psi 0) (fun i => alpha i + psi 0) (sub_self _) (by
    intro psi' alpha'
    have : d.SSR (fun k => psi k - psi 0) (fun i => alpha i + psi 0) = 0 :=
      Finset.sum_eq_zero fun o _ => by rw [hy]; ring
    rw [this]
    exact Finset.sum_nonneg fun o _ => mul_nonneg (hv.wpos o).le (sq_nonneg _))
  exact ⟨fun k => (congrFun h.1 k).symm, fun i => (congrFun h.2 i).symm⟩

/-- C16, without connectedness the claim fails: with two unlinked firms the normal equations do not
determine the second firm's effect, and a good solver may return different values. -/
theorem C16_needs_connected : ∃ (d : Panel 2 1 2) (s s' : (Fin 1 → ℝ) → (Fin 1 → ℝ)),
    d.Valid ∧ d.GoodSolver s ∧ d.GoodSolver s' ∧ (d.ols s).1 ≠ (d.ols s').1 := by
  let d : Panel 2 1 2 := ⟨![0, 1], ![0, 1], ![0, 0], false, ![1, 1]⟩
  have hM : d.Minv = 0 := by
    rw [Panel.Minv_eq]
    ext a b
    fin_cases a; fin_cases b
    simp [Panel.WtDpJ, mul_apply, Fin.sum_univ_two, Panel.J, Panel.Jfull, Panel.DpJ, Panel.W,
      Panel.Dwinv_eq, Panel.Dw, d, Panel.Dp, diagonal]
    have : (Finset.univ.filter fun x : Fin 2 => (![0, 1] : Fin 2 → Fin 2) x = 1).card = 1 := by decide
    rw [this]; norm_num
  have hg : ∀ c : ℝ, d.GoodSolver fun _ => ![c] := by
    rintro c b ⟨x, rfl⟩; simp [hM]
  refine ⟨d, fun _ => ![0], fun _ => ![1], ⟨?_, ?_⟩, hg 0, hg 1, ?_⟩
  · intro o; simp [Panel.Dp, d]
  · intro i; fin_cases i; exacts [⟨0, rfl⟩, ⟨1, rfl⟩]
  · intro h
    have := congrFun h 0
    simp [Panel.ols, Panel.solveLS, Panel.multAAinv] at this

example : ∃ solve, ex.Valid ∧ ex.Connected ∧ ex.GoodSolver solve := by
  obtain ⟨s, h⟩ := exists_goodSolver ex; exact ⟨s, ex_valid, ex_connected, h⟩

end C16

/-! ## C17 -/

section C17

variable {d}

/-- C17: the leverage computed for a row from the full block inverse is the diagonal entry of the hat
matrix, i.e. the change of the row's fitted value per unit change of its outcome. -/
theorem C17_leverage_is_sensitivity (hv : d.Valid) (hc : d.Connected) (o : Fin n) (hs : d.GoodSolver solve)
    (c : ℝ) (y : Fin n → ℝ) :
    d.proj solve (Function.update y o (y o + c)) .no .yes o - d.proj solve y .no .yes o
      = c * d.computePii d.blocksFull o := by
  have hu := d.nmat_unit hv hc
  have key : ∀ v : Fin n → ℝ, d.proj solve v .no .yes = hat d.X d.Dp *ᵥ v := by
    intro v
    have h := solveLS_normal hv hs v
    set pa := d.solveLS solve v .yes with hpa
    have h2 : Sum.elim pa.1 pa.2 = (nmat d.X d.Dp)⁻¹ *ᵥ (d.Xᵀ *ᵥ fun o => d.Dp o * v o) := by
      rw [← h, mulVec_mulVec, nonsing_inv_mul _ hu, one_mulVec]
    have h3 : d.proj solve v .no .yes = d.X *ᵥ Sum.elim pa.1 pa.2 := by
      ext o; rw [d.X_mulVec, ← d.J_mulVec, ← d.W_mulVec pa.2]; rfl
    have h4 : (fun o => d.Dp o * v o) = diagonal d.Dp *ᵥ v := by ext o; rw [mulVec_diagonal]
    rw [h3, h2, h4, mulVec_mulVec, mulVec_mulVec, mulVec_mulVec, hat]
  rw [key, key, d.computePii_eq hv hu, ← Pi.sub_apply, ← mulVec_sub]
  have : Function.update y o (y o + c) - y = Pi.single o c := by
    ext a; by_cases h : a = o
    · subst h; simp
    · simp [h]
  rw [this, mulVec_single]; simp [mul_comm]

/-- C17: leverages lie in `[0, 1]` for every row. -/
theorem C17_range (hv : d.Valid) (hc : d.Connected) (o : Fin n) :
    0 ≤ d.exactPii o ∧ d.exactPii o ≤ 1 := by
  have hu := d.nmat_unit hv hc
  have h := hat_diag_mem d.X d.Dp hv.wpos hu o
  rw [← d.computePii_eq hv hu] at h
  rw [Panel.exactPii]
  split
  · split
    · exact h
    · norm_num
  · exact h

/-- C17: the leverages of all rows sum to the number of estimated parameters, workers + firms - 1. -/
theorem C17_sum_all_rows (hv : d.Valid) (hc : d.Connected) :
    ∑ o, d.computePii d.blocksFull o = (nw : ℝ) + ((m + 1 : ℕ) : ℝ) - 1 := by
  have hu := d.nmat_unit hv hc
  simp only [d.computePii_eq hv hu]
  rw [hat_trace _ _ hu]
  simp; ring

/-- C17: without weights the stored leverages are those of all rows. -/
theorem C17_sum_unweighted (hv : d.Valid) (hc : d.Connected) (hw : d.weighted = false) :
    ∑ o, d.exactPii o = (nw : ℝ) + ((m + 1 : ℕ) : ℝ) - 1 := by
  rw [← C17_sum_all_rows hv hc]
  simp [Panel.exactPii, hw]

/-- C17: with weights leverages are computed for movers only and stayers' entries are left at 0, so the
stored leverages fall short of the number of parameters by the stayers' leverages. -/
theorem C17_sum_weighted (hv : d.Valid) (hc : d.Connected) (hw : d.weighted = true) :
    ∑ o, d.exactPii o + ∑ o with ¬ d.workerM o, d.computePii d.blocksFull o
      = (nw : ℝ) + ((m + 1 : ℕ) : ℝ) - 1 := by
  rw [← C17_sum_all_rows hv hc, Finset.sum_filter, ← Finset.sum_add_distrib]
  refine Finset.sum_congr rfl fun o _ => ?_
  by_cases h : d.workerM o <;> simp [Panel.exactPii, hw, h]

/-- C17: the branch that calls the iterative solver for each row gives the same leverages. -/
theorem C17_iterative_branch (hv : d.Valid) (hc : d.Connected) (hs : d.GoodSolver solve) (o : Fin n) :
    d.computePiiIter solve o = d.computePii d.blocksFull o := by
  have hM := d.Minv_unit hv (d.nmat_unit hv hc)
  have hsolve : ∀ b, solve b = d.Minv⁻¹ *ᵥ b := by
    intro b
    have h1 := hs b ⟨d.Minv⁻¹ *ᵥ b, by rw [mulVec_mulVec, mul_nonsing_inv _ hM, one_mulVec]⟩
    rw [← h1, mulVec_mulVec, nonsing_inv_mul _ hM, one_mulVec]
    rw [h1]
  have hW : d.sqrtDpW o = Pi.single (d.i o) (Real.sqrt (d.Dp o)) := by
    ext i; simp [Panel.sqrtDpW, Panel.W, Pi.single_apply, eq_comm]
  have hB : (of fun o i => d.DpWm o i * d.Dwinv i) = d.DpWm * diagonal d.Dwinv := by
    ext; simp [mul_diagonal]
  have hBf : d.blocksFull.B = d.Minv⁻¹ * (-(d.Jᵀ * of fun o i => d.DpWm o i * d.Dwinv i)) := by
    change -(d.Minv⁻¹ * d.Jᵀ * of fun o i => d.DpWm o i * d.Dwinv i) = _
    rw [Matrix.mul_neg, Matrix.mul_assoc]
  have hMs : (d.Minv⁻¹)ᵀ = d.Minv⁻¹ := by rw [transpose_nonsing_inv, d.Minv_symm]
  rw [Panel.computePiiIter, Panel.computePii]
  simp only [hsolve]
  set B0 := -(d.Jᵀ * of fun o i => d.DpWm o i * d.Dwinv i) with hB0
  have hCf : d.blocksFull.C = B0ᵀ * d.Minv⁻¹ := by
    change d.blocksFull.Bᵀ = _
    rw [hBf, transpose_mul, hMs]
  have hD : d.blocksFull.C * d.Minv * d.blocksFull.B = B0ᵀ * d.Minv⁻¹ * B0 := by
    rw [hCf, hBf, Matrix.mul_assoc, Matrix.mul_assoc, ← Matrix.mul_assoc d.Minv, mul_nonsing_inv _ hM,
      Matrix.one_mul, Matrix.mul_assoc]
  rw [d.blocksFull_A, hBf, hCf]
  simp only [mulVec_mulVec]
  congr 1
  have hDD : ∀ r c, d.blocksFull.D r c = d.Dwinv c + (B0ᵀ * d.Minv⁻¹ * B0) r c := by
    intro r c; rw [← hD]; rfl
  rw [hW]
  simp [dotProduct_single, single_dotProduct, hDD, Matrix.mul_assoc]
  left; ring

example : ex.Valid ∧ ex.Connected ∧ ex.weighted = true ∧ ∃ o, ex.workerM o :=
  ⟨ex_valid, ex_connected, rfl, 0, 1, rfl, by decide⟩

end C17

/-! ## C23 -/

section C23

variable {d}

theorem weightedVar_shift {ι : Type*} [Fintype ι] (x : ι → ℝ) (w : Weight ι) (c dof : ℝ) (h : w.Usable) :
    weightedVar (fun i => x i + c) w dof = weightedVar x w dof := by
  have := weightedMean_shift c x w h
  cases w <;> simp only [weightedVar, this] <;> congr 1 <;> refine Finset.sum_congr rfl fun i _ => ?_ <;> ring

theorem withZero_shift (psi : Fin (m + 1) → ℝ) (k : Fin (m + 1)) :
    Panel.withZero (fun k => psi k.succ - psi 0) k = psi k + -psi 0 := by
  refine Fin.cases ?_ (fun k => ?_) k <;> simp [Panel.withZero, sub_eq_add_neg]

/-- C23: for any firm effects `psi` and worker effects `alpha` (the parameter vector holding them
relative to the first firm), the Q classes compute the weighted variance / covariance over rows of the
effect attached to each row.  In particular the choice of the normalised firm does not matter, nor does
a constant moved from firm to worker effects. -/
theorem C23_plug_in (psi : Fin (m + 1) → ℝ) (alpha : Fin nw → ℝ) (hw : d.DpW.Usable) :
    let p : Fin m → ℝ := fun k => psi k.succ - psi 0
    let a : Fin nw → ℝ := fun i => alpha i + psi 0
    weightedVar (d.qPsi.mult p a) d.qPsi.wt 0 = weightedVar (fun o => psi (d.j o)) d.DpW 0 ∧
    weightedVar (d.qAlpha.mult p a) d.qAlpha.wt 0 = weightedVar (fun o => alpha (d.i o)) d.DpW 0 ∧
    weightedVar (d.qGamma.mult p a) d.qGamma.wt 0
      = weightedVar (fun o => psi (d.j o) + alpha (d.i o)) d.DpW 0 ∧
    weightedCov (d.qPsi.mult p a) (d.qAlpha.mult p a) d.qPsi.wt d.qAlpha.wt 0
      = weightedCov (fun o => psi (d.j o)) (fun o => alpha (d.i o)) d.DpW d.DpW 0 := by
  intro p a
  have h1 : d.qPsi.mult p a = fun o => psi (d.j o) + -psi 0 := by
    ext o; change (d.J *ᵥ p) o = _; rw [d.J_mulVec, withZero_shift]
  have h2 : d.qAlpha.mult p a = fun o => alpha (d.i o) + psi 0 := by
    ext o; change (d.W *ᵥ a) o = _; rw [d.W_mulVec]
  have h3 : d.qGamma.mult p a = fun o => psi (d.j o) + alpha (d.i o) := by
    ext o; change (d.X *ᵥ Sum.elim p a) o = _; rw [d.X_mulVec, withZero_shift]; ring
  refine ⟨?_, ?_, ?_, ?_⟩
  · rw [h1]; exact weightedVar_shift _ _ _ _ hw
  · rw [h2]; exact weightedVar_shift _ _ _ _ hw
  · rw [h3]; rfl
  · rw [h1, h2]; exact C02_cov_shift _ _ _ _ _ _ _ hw hw

/-- C23: the reported plug-in components are the weighted variances and covariance of the attached
`psi_hat` and `alpha_hat` columns. -/
theorem C23_attached :
    d.varFe solve d.qPsi = weightedVar (d.psiCol solve) d.DpW 0 ∧
    d.varFe solve d.qAlpha = weightedVar (d.alphaCol solve) d.DpW 0 ∧
    d.varFe solve d.qGamma = weightedVar (fun o => d.psiCol solve o + d.alphaCol solve o) d.DpW 0 ∧
    d.covFe solve d.qPsi d.qAlpha = weightedCov (d.psiCol solve) (d.alphaCol solve) d.DpW d.DpW 0 := by
  have h1 : d.qPsi.mult (d.ols solve).1 (d.ols solve).2 = d.psiCol solve := by
    ext o; change (d.J *ᵥ _) o = _; rw [d.J_mulVec]; rfl
  have h2 : d.qAlpha.mult (d.ols solve).1 (d.ols solve).2 = d.alphaCol solve := by
    ext o; change (d.W *ᵥ _) o = _; rw [d.W_mulVec]; rfl
  have h3 : d.qGamma.mult (d.ols solve).1 (d.ols solve).2
      = fun o => d.psiCol solve o + d.alphaCol solve o := by
    ext o; change (d.X *ᵥ _) o = _; rw [d.X_mulVec]; rfl
  simp only [Panel.varFe, Panel.covFe, h1, h2, h3]
  exact ⟨rfl, rfl, rfl, rfl⟩

/-- C23: the components satisfy the accounting identity and variances are nonnegative. -/
theorem C23_identity (hv : d.Valid) :
    d.varFe solve d.qGamma
      = d.varFe solve d.qPsi + d.varFe solve d.qAlpha + 2 * d.covFe solve d.qPsi d.qAlpha ∧
    (0 < n → 0 ≤ d.varFe solve d.qPsi ∧ 0 ≤ d.varFe solve d.qAlpha ∧ 0 ≤ d.varFe solve d.qGamma) := by
  obtain ⟨h1, h2, h3, h4⟩ := C23_attached (d := d) solve
  rw [h1, h2, h3, h4]
  have hw := hv.wpos
  unfold Panel.DpW
  cases hW : d.weighted
  · simp only [Bool.false_eq_true, if_false]
    refine ⟨C02_var_add_unweighted _ _ _ _, fun hn => ?_⟩
    have hnn : ∀ x : Fin n → ℝ, 0 ≤ weightedVar x (.scalar 1) 0 := fun x => by
      refine div_nonneg (Finset.sum_nonneg fun i _ => sq_nonneg _) ?_
      simp
    exact ⟨hnn _, hnn _, hnn _⟩
  · have hD : ∀ o, 0 < d.w o := fun o => by have := hw o; rwa [Panel.Dp, hW, if_pos rfl] at this
    simp only [if_true]
    refine ⟨C02_var_add _ _ _ (fun o => (hD o).le) _, fun hn => ?_⟩
    have hs : 0 < ∑ o, d.w o := Finset.sum_pos (fun o _ => hD o) ⟨⟨0, hn⟩, Finset.mem_univ _⟩
    exact ⟨C02_var_nonneg _ _ (fun o => (hD o).le) _ hs, C02_var_nonneg _ _ (fun o => (hD o).le) _ hs,
      C02_var_nonneg _ _ (fun o => (hD o).le) _ hs⟩

example : ex.DpW.Usable ∧ ex.Valid ∧ (∀ o, ex.weighted = true → 0 < ex.w o) := by
  refine ⟨?_, ex_valid, fun o _ => by fin_cases o <;> norm_num [ex]⟩
  simp [Panel.DpW, ex, Weight.Usable, Fin.sum_univ_succ]; norm_num

end C23
end Pytwoway.FE
