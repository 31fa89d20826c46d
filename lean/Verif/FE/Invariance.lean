import Verif.FE.Props3

/-! # C113: estimates do not depend on labels, on the order of rows or on units

The specification is `Spec.Renamed`: the same observations in another order, with other names for firms and workers,
outcomes `a * y + b`, and all weights multiplied by `c`. -/

namespace Pytwoway.FE

open Matrix Pytwoway.Util
open scoped BigOperators
open Panel (QHalf)

namespace Spec

/-- `d'` holds the observations of `d`: row `o` of `d` is row `σ o` of `d'`, firm `k` is called `f k`, worker `i` is
called `g i`, outcomes are `a * y + b`, and weights (if there are any) are `c` times those of `d`. -/
structure Renamed {n m nw : ℕ} (d d' : Panel n m nw) (σ : Fin n ≃ Fin n) (f : Fin (m + 1) ≃ Fin (m + 1))
    (g : Fin nw ≃ Fin nw) (a b c : ℝ) : Prop where
  firm : ∀ o, d'.j (σ o) = f (d.j o)
  worker : ∀ o, d'.i (σ o) = g (d.i o)
  outcome : ∀ o, d'.y (σ o) = a * d.y o + b
  weighted : d'.weighted = d.weighted
  weight : ∀ o, d'.w (σ o) = c * d.w o
  pos : 0 < c

end Spec

section helpers

variable {ι κ : Type*} [Fintype ι] [Fintype κ]

/-- Weights read through a renaming of the rows. -/
def wcomp (w : Weight κ) (σ : ι ≃ κ) : Weight ι :=
  match w with
  | .scalar c => .scalar c
  | .vec w => .vec fun i => w (σ i)

theorem weightedMean_relabel (x : κ → ℝ) (w : Weight κ) (σ : ι ≃ κ) :
    weightedMean (fun i => x (σ i)) (wcomp w σ) = weightedMean x w := by
  cases w with
  | scalar c => simp only [wcomp, weightedMean, Fintype.card_congr σ, Equiv.sum_comp σ x]
  | vec w => simp only [wcomp, weightedMean, Equiv.sum_comp σ w, Equiv.sum_comp σ fun i => w i * x i]

theorem weightedCov_relabel (x y : κ → ℝ) (w : Weight κ) (σ : ι ≃ κ) (dof : ℝ) :
    weightedCov (fun i => x (σ i)) (fun i => y (σ i)) (wcomp w σ) (wcomp w σ) dof = weightedCov x y w w dof := by
  have hx := weightedMean_relabel x w σ
  have hy := weightedMean_relabel y w σ
  cases w with
  | scalar c =>
    simp only [wcomp] at hx hy
    simp only [wcomp, weightedCov, hx, hy, Fintype.card_congr σ]
    rw [Equiv.sum_comp σ fun i => (x i - weightedMean x (.scalar c)) * (y i - weightedMean y (.scalar c))]
  | vec w =>
    simp only [wcomp] at hx hy
    simp only [wcomp, weightedCov, hx, hy, Weight.at]
    rw [Equiv.sum_comp σ fun i => Real.sqrt (w i * w i) * (x i - weightedMean x (.vec w)) *
      (y i - weightedMean y (.vec w)), Equiv.sum_comp σ fun i => Real.sqrt (w i * w i)]

theorem weightedCov_affine (x y : ι → ℝ) (w : Weight ι) (hw : w.Usable) (a s t dof : ℝ) :
    weightedCov (fun i => a * x i + s) (fun i => a * y i + t) w w dof = a ^ 2 * weightedCov x y w w dof := by
  rw [C02_cov_shift (fun i => a * x i) (fun i => a * y i) w w dof s t hw hw]
  have h1 := C02_cov_linear x x (fun i => a * y i) a 0 w w dof
  simp only [zero_mul, add_zero] at h1
  have h2 := C02_cov_linear y y x a 0 w w dof
  simp only [zero_mul, add_zero] at h2
  rw [h1, C02_cov_symm x, h2, C02_cov_symm y]; ring

end helpers

variable {n m nw : ℕ} {d d' : Panel n m nw} {σ : Fin n ≃ Fin n} {f : Fin (m + 1) ≃ Fin (m + 1)}
  {g : Fin nw ≃ Fin nw} {a b c : ℝ} {solve solve' : (Fin m → ℝ) → (Fin m → ℝ)}

namespace Spec.Renamed

/-- The factor on the weights that counts. -/
noncomputable def factor (d : Panel n m nw) (c : ℝ) : ℝ := if d.weighted then c else 1

theorem factor_pos (h : Renamed d d' σ f g a b c) : 0 < factor d c := by
  unfold factor; split
  · exact h.pos
  · norm_num

theorem Dp (h : Renamed d d' σ f g a b c) (o : Fin n) : d'.Dp (σ o) = factor d c * d.Dp o := by
  unfold Panel.Dp factor
  rw [h.weighted]
  split
  · exact h.weight o
  · simp

theorem valid (h : Renamed d d' σ f g a b c) (hv : d.Valid) : d'.Valid where
  wpos := by
    intro o
    obtain ⟨o, rfl⟩ := σ.surjective o
    rw [h.Dp]; exact mul_pos h.factor_pos (hv.wpos o)
  seen := by
    intro i
    obtain ⟨o, ho⟩ := hv.seen (g.symm i)
    exact ⟨σ o, by rw [h.worker, ho, g.apply_symm_apply]⟩

theorem connected (h : Renamed d d' σ f g a b c) (hc : d.Connected) : d'.Connected := by
  intro x y
  have key : ∀ u v, Relation.ReflTransGen d.Linked u v → Relation.ReflTransGen d'.Linked (f u) (f v) := by
    intro u v huv
    induction huv with
    | refl => exact .refl
    | tail _ hl ih =>
      refine .tail ih ?_
      obtain ⟨o, o', h1, h2, h3⟩ := hl
      exact ⟨σ o, σ o', by rw [h.worker, h.worker, h1], by rw [h.firm, h2], by rw [h.firm, h3]⟩
  simpa using key (f.symm x) (f.symm y) (hc _ _)

/-- Renaming does not touch the outcomes, so they can be replaced on both sides. -/
theorem withY (h : Renamed d d' σ f g a b c) {y y' : Fin n → ℝ} {a2 b2 : ℝ} (hy : ∀ o, y' (σ o) = a2 * y o + b2) :
    Renamed (d.withY y) (d'.withY y') σ f g a2 b2 c :=
  ⟨h.firm, h.worker, hy, h.weighted, h.weight, h.pos⟩

theorem ssr (h : Renamed d d' σ f g a b c) (psi : Fin (m + 1) → ℝ) (alpha : Fin nw → ℝ) :
    d'.SSR psi alpha = factor d c * ∑ o, d.Dp o * (a * d.y o + b - (alpha (g (d.i o)) + psi (f (d.j o)))) ^ 2 := by
  rw [Panel.SSR, ← Equiv.sum_comp σ, Finset.mul_sum]
  refine Finset.sum_congr rfl fun o _ => ?_
  rw [h.Dp, h.firm, h.worker, h.outcome]; ring

end Spec.Renamed

open Spec.Renamed (factor)

/-- C113, effects: every firm effect is `a` times the firm's effect before, up to a constant that only depends on which
firm comes first, and every worker effect `a` times the one before plus `b` less that constant.  The constant is zero if
the first firm is still the first. -/
theorem C113_effects (h : Spec.Renamed d d' σ f g a b c) (hv : d.Valid) (hc : d.Connected)
    (hs : d.GoodSolver solve) (hs' : d'.GoodSolver solve') :
    ∃ t, (∀ o, d'.psiCol solve' (σ o) = a * d.psiCol solve o + t) ∧
      (∀ o, d'.alphaCol solve' (σ o) = a * d.alphaCol solve o + b - t) ∧ (f 0 = 0 → t = 0) := by
  set P : Fin (m + 1) → ℝ := Panel.withZero (d.ols solve).1 with hP
  set A := (d.ols solve).2 with hA
  have hP0 : P 0 = 0 := rfl
  have hu := C16_unique (h.valid hv) (h.connected hc) hs'
    (fun k => a * P (f.symm k) - a * P (f.symm 0)) (fun i => a * A (g.symm i) + b + a * P (f.symm 0))
    (sub_self _) (by
      intro psi' alpha'
      rw [h.ssr, h.ssr]
      refine mul_le_mul_of_nonneg_left ?_ h.factor_pos.le
      have e1 : ∑ o, d.Dp o * (a * d.y o + b - (a * A (g.symm (g (d.i o))) + b + a * P (f.symm 0) +
          (a * P (f.symm (f (d.j o))) - a * P (f.symm 0)))) ^ 2
          = a ^ 2 * ∑ o, d.Dp o * (d.y o - (d.alphaCol solve o + d.psiCol solve o)) ^ 2 := by
        rw [Finset.mul_sum]
        refine Finset.sum_congr rfl fun o _ => ?_
        rw [f.symm_apply_apply, g.symm_apply_apply]
        simp only [Panel.alphaCol, Panel.psiCol, ← hP, ← hA]; ring
      rw [e1]
      by_cases ha : a = 0
      · rw [ha]
        simp only [ne_eq, OfNat.ofNat_ne_zero, not_false_eq_true, zero_pow, zero_mul]
        exact Finset.sum_nonneg fun o _ => mul_nonneg (hv.wpos o).le (sq_nonneg _)
      · have e2 := C15_optimal hv hs (fun k => psi' (f k) / a) (fun i => (alpha' (g i) - b) / a)
        refine le_trans (mul_le_mul_of_nonneg_left e2 (sq_nonneg a)) (le_of_eq ?_)
        rw [Panel.SSR, Finset.mul_sum]
        refine Finset.sum_congr rfl fun o _ => ?_
        field_simp
        ring)
  refine ⟨-(a * P (f.symm 0)), fun o => ?_, fun o => ?_, fun h0 => ?_⟩
  · rw [Panel.psiCol, ← hu.1, h.firm]
    simp only [Panel.psiCol, ← hP, f.symm_apply_apply]; ring
  · rw [Panel.alphaCol, ← hu.2, h.worker]
    simp only [Panel.alphaCol, ← hA, g.symm_apply_apply]; ring
  · have : f.symm 0 = 0 := by rw [Equiv.symm_apply_eq, h0]
    rw [this, hP0]; simp

/-- C113, residuals are `a` times the residuals before. -/
theorem C113_residuals (h : Spec.Renamed d d' σ f g a b c) (hv : d.Valid) (hc : d.Connected)
    (hs : d.GoodSolver solve) (hs' : d'.GoodSolver solve') (o : Fin n) : d'.E solve' (σ o) = a * d.E solve o := by
  obtain ⟨t, h1, h2, -⟩ := C113_effects h hv hc hs hs'
  have e : ∀ (d : Panel n m nw) solve o, d.E solve o = d.y o - (d.psiCol solve o + d.alphaCol solve o) := by
    intro d solve o
    have hj := d.J_mulVec (d.ols solve).1 o
    have hw := d.W_mulVec (d.ols solve).2 o
    simp only [Panel.E, Panel.multA, Pi.add_apply, hj, hw, Panel.psiCol, Panel.alphaCol]
  rw [e, e, h1, h2, h.outcome]; ring

theorem Spec.Renamed.cov (h : Spec.Renamed d d' σ f g a b c) (hv : d.Valid) {x y x' y' : Fin n → ℝ} {k s t : ℝ}
    (hx : ∀ o, x' (σ o) = k * x o + s) (hy : ∀ o, y' (σ o) = k * y o + t) :
    weightedCov x' y' d'.DpW d'.DpW 0 = k ^ 2 * weightedCov x y d.DpW d.DpW 0 := by
  rcases Nat.eq_zero_or_pos n with hn | hn
  · subst hn
    unfold Panel.DpW
    rw [h.weighted]
    split <;> simp [weightedCov]
  · rw [← weightedCov_affine x y _ (usable_DpW hv hn) k s t, ← weightedCov_relabel x' y' _ σ]
    simp only [hx, hy]
    unfold Panel.DpW
    rw [h.weighted]
    by_cases hw : d.weighted = true
    · simp only [hw, if_true, wcomp, h.weight]
      exact C02_cov_weight_scale _ _ _ _ _ h.pos
    · simp only [hw, wcomp]; rfl

/-- C113, plug-in components: every reported variance and covariance is `a ^ 2` times the one before; order, labels, the
firm that comes first, `b` and the scale of the weights do not matter. -/
theorem C113_plug_in (h : Spec.Renamed d d' σ f g a b c) (hv : d.Valid) (hc : d.Connected)
    (hs : d.GoodSolver solve) (hs' : d'.GoodSolver solve') :
    d'.varFe solve' d'.qPsi = a ^ 2 * d.varFe solve d.qPsi ∧
    d'.varFe solve' d'.qAlpha = a ^ 2 * d.varFe solve d.qAlpha ∧
    d'.varFe solve' d'.qGamma = a ^ 2 * d.varFe solve d.qGamma ∧
    d'.covFe solve' d'.qPsi d'.qAlpha = a ^ 2 * d.covFe solve d.qPsi d.qAlpha := by
  obtain ⟨t, h1, h2, -⟩ := C113_effects h hv hc hs hs'
  obtain ⟨p1, p2, p3, p4⟩ := C23_attached (d := d) solve
  obtain ⟨q1, q2, q3, q4⟩ := C23_attached (d := d') solve'
  have hstd := stdWeight_DpW hv
  have hstd' := stdWeight_DpW (h.valid hv)
  have h2' : ∀ o, d'.alphaCol solve' (σ o) = a * d.alphaCol solve o + (b - t) := fun o => by rw [h2]; ring
  rw [p1, p2, p3, p4, q1, q2, q3, q4]
  simp only [weightedVar_eq_cov _ hstd, weightedVar_eq_cov _ hstd']
  refine ⟨h.cov hv h1 h1, h.cov hv h2' h2', ?_, h.cov hv h1 h2'⟩
  have h3 : ∀ o, d'.psiCol solve' (σ o) + d'.alphaCol solve' (σ o)
      = a * (d.psiCol solve o + d.alphaCol solve o) + b := fun o => by rw [h1, h2]; ring
  exact h.cov hv (x' := fun o => d'.psiCol solve' o + d'.alphaCol solve' o)
    (y' := fun o => d'.psiCol solve' o + d'.alphaCol solve' o) h3 h3

/-! ## Leverages -/

theorem valid_withY (hv : d.Valid) (y : Fin n → ℝ) : (d.withY y).Valid := ⟨hv.wpos, hv.seen⟩

theorem proj_cols (d : Panel n m nw) (solve : (Fin m → ℝ) → (Fin m → ℝ)) (v : Fin n → ℝ) (o : Fin n) :
    d.proj solve v .no .yes o = (d.withY v).psiCol solve o + (d.withY v).alphaCol solve o := by
  have hj := d.J_mulVec (d.solveLS solve v .yes).1 o
  have hw := d.W_mulVec (d.solveLS solve v .yes).2 o
  simp only [Panel.proj, Panel.multA, Pi.add_apply, hj, hw]
  rfl

theorem Spec.Renamed.proj (h : Spec.Renamed d d' σ f g a b c) (hv : d.Valid) (hc : d.Connected)
    (hs : d.GoodSolver solve) (hs' : d'.GoodSolver solve') {v v' : Fin n → ℝ} (hy : ∀ o, v' (σ o) = v o) (o : Fin n) :
    d'.proj solve' v' .no .yes (σ o) = d.proj solve v .no .yes o := by
  have hr := h.withY (y := v) (y' := v') (a2 := 1) (b2 := 0) (fun o => by rw [hy]; ring)
  obtain ⟨t, h1, h2, -⟩ := C113_effects hr (valid_withY hv v) hc (solve := solve) (solve' := solve') hs hs'
  rw [proj_cols, proj_cols, h1, h2]; ring

theorem Spec.Renamed.computePii (h : Spec.Renamed d d' σ f g a b c) (hv : d.Valid) (hc : d.Connected) (o : Fin n) :
    d'.computePii d'.blocksFull (σ o) = d.computePii d.blocksFull o := by
  obtain ⟨solve, hs⟩ := exists_goodSolver d
  obtain ⟨solve', hs'⟩ := exists_goodSolver d'
  have e := C17_leverage_is_sensitivity solve hv hc o hs 1 0
  have e' := C17_leverage_is_sensitivity solve' (h.valid hv) (h.connected hc) (σ o) hs' 1 0
  rw [one_mul] at e e'
  rw [← e, ← e', h.proj hv hc hs hs' (v := 0) (v' := 0) (fun _ => rfl),
    h.proj hv hc hs hs' (v := Function.update 0 o ((0 : Fin n → ℝ) o + 1))
      (v' := Function.update 0 (σ o) ((0 : Fin n → ℝ) (σ o) + 1))]
  · intro x
    by_cases hx : x = o
    · subst hx; simp
    · simp [hx]

theorem Spec.Renamed.mover (h : Spec.Renamed d d' σ f g a b c) (o : Fin n) : d'.workerM (σ o) ↔ d.workerM o := by
  constructor
  · rintro ⟨o', h1, h2⟩
    obtain ⟨o', rfl⟩ := σ.surjective o'
    rw [h.worker, h.worker, g.apply_eq_iff_eq] at h1
    rw [h.firm, h.firm] at h2
    exact ⟨o', h1, fun e => h2 (by rw [e])⟩
  · rintro ⟨o', h1, h2⟩
    exact ⟨σ o', by rw [h.worker, h.worker, h1], by rw [h.firm, h.firm]; exact fun e => h2 (f.injective e)⟩

/-- C113, exact leverages: every observation keeps its leverage. -/
theorem C113_leverages (h : Spec.Renamed d d' σ f g a b c) (hv : d.Valid) (hc : d.Connected) (o : Fin n) :
    d'.exactPii (σ o) = d.exactPii o := by
  unfold Panel.exactPii
  rw [h.weighted, h.computePii hv hc]
  simp only [h.mover]

/-! ## Error variance and the homoskedastic correction -/

theorem Spec.Renamed.mean (h : Spec.Renamed d d' σ f g a b c) {x x' : Fin n → ℝ} (hx : ∀ o, x' (σ o) = x o) :
    weightedMean x' d'.DpW = weightedMean x d.DpW := by
  rw [← weightedMean_relabel x' _ σ]
  simp only [hx]
  unfold Panel.DpW
  rw [h.weighted]
  by_cases hw : d.weighted = true
  · simp only [hw, if_true, wcomp, h.weight, weightedMean, mul_assoc, ← Finset.mul_sum]
    rw [mul_div_mul_left _ _ h.pos.ne']
  · simp only [hw, wcomp]; rfl

/-- C113, error variances: the plug-in estimate and, with the exact trace, the corrected estimate are `a ^ 2` times the
ones before; with weights they are in units of the weights. -/
theorem C113_sigma2 (h : Spec.Renamed d d' σ f g a b c) (hv : d.Valid) (hc : d.Connected)
    (hs : d.GoodSolver solve) (hs' : d'.GoodSolver solve') :
    d'.sigma2fe solve' = (if d.weighted then c else 1) * a ^ 2 * d.sigma2fe solve ∧
    d'.exactTraceSigma2 d'.blocksFull = d.exactTraceSigma2 d.blocksFull / (if d.weighted then c else 1) ∧
    d'.sigma2ho solve' (d'.exactTraceSigma2 d'.blocksFull)
      = (if d.weighted then c else 1) * a ^ 2 * d.sigma2ho solve (d.exactTraceSigma2 d.blocksFull) := by
  have hE := C113_residuals h hv hc hs hs'
  have hk := h.factor_pos
  have e0 : (if d.weighted = true then c else 1) = factor d c := rfl
  rw [e0]
  have e1 : d'.sigma2fe solve' = factor d c * a ^ 2 * d.sigma2fe solve := by
    have e := h.mean (x := fun o => factor d c * a ^ 2 * (d.Dp o * d.E solve o ^ 2))
      (x' := fun o => d'.Dp o * d'.E solve' o ^ 2) (fun o => by simp only [h.Dp, hE]; ring)
    rw [Panel.sigma2fe, e, weightedMean_smul]; rfl
  have e2 : d'.exactTraceSigma2 d'.blocksFull = d.exactTraceSigma2 d.blocksFull / factor d c := by
    rw [exactTraceSigma2_eq hv hc, exactTraceSigma2_eq (h.valid hv) (h.connected hc), ← Equiv.sum_comp σ, Finset.sum_div]
    refine Finset.sum_congr rfl fun o _ => ?_
    rw [← Panel.computePii_eq _ (h.valid hv) (Panel.nmat_unit _ (h.valid hv) (h.connected hc)),
      ← Panel.computePii_eq _ hv (Panel.nmat_unit _ hv hc), h.computePii hv hc, h.Dp, mul_comm, div_div]
  refine ⟨e1, e2, ?_⟩
  rw [e2]
  unfold Panel.sigma2ho
  rw [h.weighted]
  split
  · have e3 : ∑ o, d'.E solve' o ^ 2 = a ^ 2 * ∑ o, d.E solve o ^ 2 := by
      rw [← Equiv.sum_comp σ, Finset.mul_sum]
      exact Finset.sum_congr rfl fun o _ => by rw [hE]; ring
    have e4 : ∑ o, 1 / d'.Dp o = (∑ o, 1 / d.Dp o) / factor d c := by
      rw [← Equiv.sum_comp σ, Finset.sum_div]
      exact Finset.sum_congr rfl fun o _ => by rw [h.Dp, mul_comm, div_div]
    rw [e3, e4, ← sub_div, div_div_eq_mul_div]
    ring
  · rw [e1]; ring

theorem Spec.Renamed.single (h : Spec.Renamed d d' σ f g a b c) (o : Fin n) :
    Spec.Renamed (d.withY (Pi.single o 1)) (d'.withY (Pi.single (σ o) 1)) σ f g 1 0 c :=
  h.withY fun x => by
    by_cases hx : x = o
    · subst hx; simp
    · simp [hx]

theorem Spec.Renamed.unit (h : Spec.Renamed d d' σ f g a b c) (hv : d.Valid) (hc : d.Connected)
    (hs : d.GoodSolver solve) (hs' : d'.GoodSolver solve') (o : Fin n) :
    d'.unitCov solve' d'.qPsi d'.qPsi (σ o) = d.unitCov solve d.qPsi d.qPsi o ∧
    d'.unitCov solve' d'.qAlpha d'.qAlpha (σ o) = d.unitCov solve d.qAlpha d.qAlpha o ∧
    d'.unitCov solve' d'.qPsi d'.qAlpha (σ o) = d.unitCov solve d.qPsi d.qAlpha o := by
  obtain ⟨p1, p2, -, p4⟩ := C113_plug_in (h.single o) (valid_withY hv _) hc (solve := solve) (solve' := solve') hs hs'
  simp only [one_pow, one_mul] at p1 p2 p4
  have hstd := stdWeight_DpW (valid_withY hv (Pi.single o 1))
  have hstd' := stdWeight_DpW (valid_withY (h.valid hv) (Pi.single (σ o) 1))
  rw [varFe_eq_covFe (d := d.withY (Pi.single o 1)) (Panel.qPsi _) hstd,
    varFe_eq_covFe (d := d'.withY (Pi.single (σ o) 1)) (Panel.qPsi _) hstd'] at p1
  rw [varFe_eq_covFe (d := d.withY (Pi.single o 1)) (Panel.qAlpha _) hstd,
    varFe_eq_covFe (d := d'.withY (Pi.single (σ o) 1)) (Panel.qAlpha _) hstd'] at p2
  exact ⟨p1, p2, p4⟩

theorem Spec.Renamed.sum_unit (h : Spec.Renamed d d' σ f g a b c) {u u' v v' : Fin n → ℝ} {k : ℝ}
    (hu : ∀ o, u' (σ o) = u o) (hv : ∀ o, v' (σ o) = k * v o) :
    ∑ o, v' o / d'.Dp o * u' o = k / factor d c * ∑ o, v o / d.Dp o * u o := by
  rw [← Equiv.sum_comp σ, Finset.mul_sum]
  refine Finset.sum_congr rfl fun o _ => ?_
  rw [hu, hv, h.Dp]
  rw [mul_div_mul_comm]; ring

/-- C113, homoskedastic correction with exact traces: the corrected `var(psi)`, `var(alpha)` and `cov(psi, alpha)` are
`a ^ 2` times the ones before. -/
theorem C113_homoskedastic (h : Spec.Renamed d d' σ f g a b c) (hv : d.Valid) (hc : d.Connected)
    (hs : d.GoodSolver solve) (hs' : d'.GoodSolver solve') (hn : 0 < n) :
    ∃ t1 t1' t2 t2' t3 t3', Panel.exactTraceVarHo d.blocksFull d.qPsi = .ok t1 ∧
      Panel.exactTraceVarHo d'.blocksFull d'.qPsi = .ok t1' ∧
      Panel.exactTraceVarHo d.blocksFull d.qAlpha = .ok t2 ∧
      Panel.exactTraceVarHo d'.blocksFull d'.qAlpha = .ok t2' ∧
      Panel.exactTraceCovHo d.blocksFull d.qPsi d.qAlpha = .ok t3 ∧
      Panel.exactTraceCovHo d'.blocksFull d'.qPsi d'.qAlpha = .ok t3' ∧
      d'.varHo solve' d'.qPsi (d'.exactTraceSigma2 d'.blocksFull) t1'
        = a ^ 2 * d.varHo solve d.qPsi (d.exactTraceSigma2 d.blocksFull) t1 ∧
      d'.varHo solve' d'.qAlpha (d'.exactTraceSigma2 d'.blocksFull) t2'
        = a ^ 2 * d.varHo solve d.qAlpha (d.exactTraceSigma2 d.blocksFull) t2 ∧
      d'.covHo solve' d'.qPsi d'.qAlpha (d'.exactTraceSigma2 d'.blocksFull) t3'
        = a ^ 2 * d.covHo solve d.qPsi d.qAlpha (d.exactTraceSigma2 d.blocksFull) t3 := by
  have hv' := h.valid hv
  have hc' := h.connected hc
  have hstd := stdWeight_DpW hv
  have hstd' := stdWeight_DpW hv'
  obtain ⟨p1, p2, -, p4⟩ := C113_plug_in h hv hc hs hs'
  obtain ⟨-, -, s3⟩ := C113_sigma2 h hv hc hs hs'
  have hk := h.factor_pos.ne'
  have e0 : (if d.weighted = true then c else 1) = factor d c := rfl
  rw [e0] at s3
  have T1 := exactTraceHo_correct hv hc hs d.qPsi d.qPsi hstd hstd (tr := _)
    ((exactTraceVarHo_eq_cov d.blocksFull d.qPsi hstd).symm.trans rfl) (by rintro ⟨⟨M, w, h⟩, -⟩; cases h)
  have T1' := exactTraceHo_correct hv' hc' hs' d'.qPsi d'.qPsi hstd' hstd' (tr := _)
    ((exactTraceVarHo_eq_cov d'.blocksFull d'.qPsi hstd').symm.trans rfl) (by rintro ⟨⟨M, w, h⟩, -⟩; cases h)
  have T3 := exactTraceHo_correct hv hc hs d.qPsi d.qAlpha hstd hstd (tr := _) rfl
    (by rintro ⟨⟨M, w, h⟩, -⟩; cases h)
  have T3' := exactTraceHo_correct hv' hc' hs' d'.qPsi d'.qAlpha hstd' hstd' (tr := _) rfl
    (by rintro ⟨⟨M, w, h⟩, -⟩; cases h)
  refine ⟨_, _, _, _, _, _, rfl, rfl, exactTraceHo_alpha hv hc hs hn, exactTraceHo_alpha hv' hc' hs' hn, rfl, rfl,
    ?_, ?_, ?_⟩
  · rw [Panel.varHo, Panel.varHo, p1, s3, T1, T1',
      h.sum_unit (u := fun o => d.unitCov solve d.qPsi d.qPsi o) (v := fun _ => 1) (v' := fun _ => 1) (k := 1)
        (fun o => (h.unit hv hc hs hs' o).1) (fun _ => by simp)]
    field_simp
  · have hD : ∀ k, d'.Dw (g k) = factor d c * d.Dw k := by
      intro k
      simp only [Panel.Dw, Finset.sum_filter]
      rw [← Equiv.sum_comp σ, Finset.mul_sum]
      refine Finset.sum_congr rfl fun o _ => ?_
      rw [h.worker, h.Dp]
      by_cases hok : d.i o = k
      · simp [hok]
      · simp [hok]
    have hind : ∀ k, weightedVar (fun o => if d'.i o = g k then (1 : ℝ) else 0) d'.DpW 0
        = weightedVar (fun o => if d.i o = k then (1 : ℝ) else 0) d.DpW 0 := by
      intro k
      rw [weightedVar_eq_cov _ hstd, weightedVar_eq_cov _ hstd',
        h.cov hv (k := 1) (s := 0) (t := 0) (x := fun o => if d.i o = k then (1 : ℝ) else 0)
          (y := fun o => if d.i o = k then (1 : ℝ) else 0)]
      · ring
      · intro o; simp only [h.worker, g.apply_eq_iff_eq]; ring
      · intro o; simp only [h.worker, g.apply_eq_iff_eq]; ring
    have hsum : ∑ k, weightedVar (fun o => if d'.i o = k then (1 : ℝ) else 0) d'.DpW 0 / d'.Dw k
        = (∑ k, weightedVar (fun o => if d.i o = k then (1 : ℝ) else 0) d.DpW 0 / d.Dw k) / factor d c := by
      rw [← Equiv.sum_comp g, Finset.sum_div]
      exact Finset.sum_congr rfl fun k _ => by rw [hind, hD, mul_comm, div_div]
    rw [Panel.varHo, Panel.varHo, p2, s3, hsum,
      h.sum_unit (u := fun o => d.unitCov solve d.qAlpha d.qAlpha o) (v := fun _ => 1) (v' := fun _ => 1) (k := 1)
        (fun o => (h.unit hv hc hs hs' o).2.1) (fun _ => by simp)]
    field_simp
  · rw [Panel.covHo, Panel.covHo, p4, s3, T3, T3',
      h.sum_unit (u := fun o => d.unitCov solve d.qPsi d.qAlpha o) (v := fun _ => 1) (v' := fun _ => 1) (k := 1)
        (fun o => (h.unit hv hc hs hs' o).2.2) (fun _ => by simp)]
    field_simp

/-! ## Heteroskedastic correction -/

theorem alphaCol_unit (hv : d.Valid) (hc : d.Connected) (hs : d.GoodSolver solve) (o b : Fin n) :
    (d.withY (Pi.single o 1)).alphaCol solve b = lalpha d (d.i b) o := by
  have h := congrFun (ols_lmat hv hc hs (Pi.single o 1)) (Sum.inr (d.i b))
  rw [mulVec_single_one] at h
  exact h

/-- What the exact trace for `var(alpha)` sums: for each observation the estimated worker effects of a unit outcome there,
divided by the weight, plus (for other workers) one over the worker's total weight. -/
noncomputable def Spec.alphaResponse (d : Panel n m nw) (solve : (Fin m → ℝ) → (Fin m → ℝ)) (o b : Fin n) : ℝ :=
  (d.withY (Pi.single o 1)).alphaCol solve b / d.Dp o
    + if d.i b = d.i o then 0 else 1 / ∑ b' with d.i b' = d.i b, d.Dp b'

/-- C20, exact trace for `var(alpha)`: the second term of `alphaResponse` should not be there. -/
theorem C20_exact_trace_var_alpha (hv : d.Valid) (hc : d.Connected) (hs : d.GoodSolver solve) (Sii : Fin n → ℝ) :
    d.exactTraceVarHe d.blocksFull Sii d.qAlpha
      = .ok (∑ o, Sii o * d.Dp o * weightedVar (Spec.alphaResponse d solve o) d.DpW 0) := by
  have hstd := stdWeight_DpW hv
  set R : Matrix (Fin nw) (Fin n) ℝ :=
    of fun k o => lalpha d k o / d.Dp o + if d.i o = k then 0 else d.Dwinv k with hR
  have hX : ∀ o k, (d.sqrtDpJ * d.blocksFull.B + d.sqrtDpW * d.blocksFull.D) o k = Real.sqrt (d.Dp o) * R k o := by
    intro o k
    have hWrow : d.W o = Pi.single (d.i o) 1 := by
      ext i; simp [Panel.W, Pi.single_apply, eq_comm]
    have h1 : (d.J * d.blocksFull.B + d.W * d.blocksFull.D) o k = R k o := by
      rw [hR, of_apply, ← JB_WD hv hc, Matrix.add_apply, Matrix.add_apply, mul_apply (M := d.W), mul_apply (M := d.W),
        hWrow]
      simp only [Pi.single_apply, ite_mul, one_mul, zero_mul, Finset.sum_ite_eq', Finset.mem_univ, if_true,
        d.blocksFull_D]
      ring
    rw [← h1, d.sqrtDpJ_eq, d.sqrtDpW_eq, Matrix.mul_assoc, Matrix.mul_assoc, ← Matrix.mul_add, diagonal_mul]
  have hXX : ((d.sqrtDpJ * d.blocksFull.B + d.sqrtDpW * d.blocksFull.D)ᵀ *
      of fun o c => Sii o * (d.sqrtDpJ * d.blocksFull.B + d.sqrtDpW * d.blocksFull.D) o c)
      = R * diagonal (fun o => Sii o * d.Dp o) * Rᵀ := by
    ext a b
    rw [mul_apply, mul_apply]
    refine Finset.sum_congr rfl fun o _ => ?_
    rw [transpose_apply, of_apply, hX, hX, mul_diagonal, transpose_apply]
    have h1 := Real.mul_self_sqrt (hv.wpos o).le
    linear_combination (R a o * Sii o * R b o) * h1
  simp only [Panel.qAlpha, Panel.exactTraceVarHe]
  rw [hXX, qVarMat_eq _ _ (wvec_nonneg hstd)]
  congr 1
  simp only [C05_diag_of_prod]
  rw [trace_diag_form]
  refine Finset.sum_congr rfl fun o _ => ?_
  congr 1
  have hcol : Spec.alphaResponse d solve o = d.W *ᵥ fun k => R k o := by
    ext b
    rw [d.W_mulVec, hR, Spec.alphaResponse, alphaCol_unit hv hc hs, of_apply, d.Dwinv_eq]
    by_cases hb : d.i b = d.i o
    · simp [hb]
    · rw [if_neg hb, if_neg fun e => hb e.symm]; rfl
  rw [weightedVar_eq_cov _ hstd, weightedCov_kmat _ _ hstd hstd, hcol, form_assoc]
  set Q := d.Wᵀ * kmat (Panel.wvec d.DpW) (Panel.wvec d.DpW) * d.W
  simp only [mul_apply, mulVec, dotProduct, Finset.mul_sum, Finset.sum_mul, transpose_apply]
  rw [Finset.sum_comm]
  refine Finset.sum_congr rfl fun x _ => Finset.sum_congr rfl fun y _ => ?_
  ring

/-- C113, leave-one-out error variances: `a ^ 2` times the ones before, whatever the units of the weights. -/
theorem C113_loo (h : Spec.Renamed d d' σ f g a b c) (hv : d.Valid) (hc : d.Connected)
    (hs : d.GoodSolver solve) (hs' : d'.GoodSolver solve') (o : Fin n) :
    d'.looSii solve' d'.exactPii (σ o) = a ^ 2 * d.looSii solve d.exactPii o := by
  have hm : weightedMean d'.y (.vec d'.Dp) = a * weightedMean d.y (.vec d.Dp) + b := by
    have hS : 0 < ∑ o, d.Dp o := Finset.sum_pos (fun o _ => hv.wpos o) ⟨o, Finset.mem_univ o⟩
    simp only [weightedMean]
    rw [← Equiv.sum_comp σ, ← Equiv.sum_comp σ d'.Dp]
    simp only [h.Dp, h.outcome]
    rw [← Finset.mul_sum]
    have e : ∑ x, factor d c * d.Dp x * (a * d.y x + b)
        = factor d c * (a * ∑ x, d.Dp x * d.y x + b * ∑ x, d.Dp x) := by
      rw [Finset.mul_sum, Finset.mul_sum, ← Finset.sum_add_distrib, Finset.mul_sum]
      exact Finset.sum_congr rfl fun x _ => by ring
    rw [e, mul_div_mul_left _ _ h.factor_pos.ne', add_div, mul_div_assoc, mul_div_assoc b, div_self hS.ne', mul_one]
  unfold Panel.looSii
  rw [C113_leverages h hv hc, h.outcome, hm, C113_residuals h hv hc hs hs']
  ring

theorem Spec.Renamed.sum_filter (σ : Fin n ≃ Fin n) {P P' : Fin n → Prop} [DecidablePred P] [DecidablePred P']
    {x x' : Fin n → ℝ} (hP : ∀ o, P' (σ o) ↔ P o) (hx : ∀ o, x' (σ o) = x o) : ∑ o with P' o, x' o = ∑ o with P o, x o := by
  rw [Finset.sum_filter, Finset.sum_filter, ← Equiv.sum_comp σ]
  exact Finset.sum_congr rfl fun o _ => by simp only [hP, hx]

/-- C113, observation-level variances: the values used for movers and for stayers, and the refusals, are the same up to
`a ^ 2`, provided that weights keep their units. -/
theorem C113_sii_partial (h : Spec.Renamed d d' σ f g a b c) (hc1 : d.weighted = true → c = 1) (hv : d.Valid) (hc : d.Connected)
    (hs : d.GoodSolver solve) (hs' : d'.GoodSolver solve') (st : Panel.Stayers) (o : Fin n) :
    d'.siiHe solve' st d'.exactPii (σ o) = (d.siiHe solve st d.exactPii o).map (a ^ 2 * ·) := by
  have hk : factor d c = 1 := by
    unfold factor; split
    · exact hc1 ‹_›
    · rfl
  have hD : ∀ o, d'.Dp (σ o) = d.Dp o := fun o => by rw [h.Dp, hk, one_mul]
  have hl := C113_loo h hv hc hs hs'
  have hj : ∀ o o', (d'.workerM (σ o') ∧ d'.j (σ o') = d'.j (σ o)) ↔ (d.workerM o' ∧ d.j o' = d.j o) := fun o o' => by
    rw [h.mover, h.firm, h.firm, f.apply_eq_iff_eq]
  have hi : ∀ o o', (¬ d'.workerM (σ o') ∧ d'.i (σ o') = d'.i (σ o)) ↔ (¬ d.workerM o' ∧ d.i o' = d.i o) := fun o o' => by
    rw [h.mover, h.worker, h.worker, g.apply_eq_iff_eq]
  cases st with
  | firmMean =>
    have hex : (∃ o', d'.workerM o' ∧ d'.j o' = d'.j (σ o)) ↔ ∃ o', d.workerM o' ∧ d.j o' = d.j o :=
      ⟨fun ⟨o', e⟩ => ⟨σ.symm o', (hj _ _).1 (by rwa [σ.apply_symm_apply])⟩, fun ⟨o', e⟩ => ⟨σ o', (hj _ _).2 e⟩⟩
    have s1 := Spec.Renamed.sum_filter σ
      (P := fun o' => d.workerM o' ∧ d.j o' = d.j o) (P' := fun o' => d'.workerM o' ∧ d'.j o' = d'.j (σ o)) (hj o)
      (x := fun o' => a ^ 2 * (d.Dp o' ^ 2 * d.looSii solve d.exactPii o'))
      (x' := fun o' => d'.Dp o' ^ 2 * d'.looSii solve' d'.exactPii o') (fun o' => by simp only [hD, hl]; ring)
    have s2 := Spec.Renamed.sum_filter σ
      (P := fun o' => d.workerM o' ∧ d.j o' = d.j o) (P' := fun o' => d'.workerM o' ∧ d'.j o' = d'.j (σ o)) (hj o)
      (x := d.Dp) (x' := d'.Dp) hD
    have s3 := Spec.Renamed.sum_filter σ
      (P := fun o' => d.workerM o' ∧ d.j o' = d.j o) (P' := fun o' => d'.workerM o' ∧ d'.j o' = d'.j (σ o)) (hj o)
      (x := fun o' => a ^ 2 * d.looSii solve d.exactPii o')
      (x' := fun o' => d'.looSii solve' d'.exactPii o') (fun o' => hl o')
    have s4 := Spec.Renamed.sum_filter σ
      (P := fun o' => d.workerM o' ∧ d.j o' = d.j o) (P' := fun o' => d'.workerM o' ∧ d'.j o' = d'.j (σ o)) (hj o)
      (x := fun _ => 1) (x' := fun _ => 1) (fun _ => rfl)
    rw [Finset.sum_const, Finset.sum_const, nsmul_one, nsmul_one] at s4
    simp only [Panel.siiHe, h.mover, hex, h.weighted, hl, s1, s2, s3, s4, hD, ← Finset.mul_sum]
    split_ifs
    · rfl
    · simp only [Option.map_some]; congr 1; ring
    · simp only [Option.map_some]; congr 1; ring
    · rfl
  | upperBound =>
    have hm : weightedMean d'.y (.vec d'.Dp) = a * weightedMean d.y (.vec d.Dp) + b := by
      have hS : 0 < ∑ o, d.Dp o := Finset.sum_pos (fun o _ => hv.wpos o) ⟨o, Finset.mem_univ o⟩
      simp only [weightedMean]
      rw [← Equiv.sum_comp σ, ← Equiv.sum_comp σ d'.Dp]
      simp only [hD, h.outcome]
      have e : ∑ x, d.Dp x * (a * d.y x + b) = a * ∑ x, d.Dp x * d.y x + b * ∑ x, d.Dp x := by
        rw [Finset.mul_sum, Finset.mul_sum, ← Finset.sum_add_distrib]
        exact Finset.sum_congr rfl fun x _ => by ring
      rw [e, add_div, mul_div_assoc, mul_div_assoc b, div_self hS.ne', mul_one]
    have s1 := fun s => Spec.Renamed.sum_filter σ
      (P := fun o' => ¬ d.workerM o' ∧ d.i o' = d.i s) (P' := fun o' => ¬ d'.workerM o' ∧ d'.i o' = d'.i (σ s)) (hi s)
      (x := d.Dp) (x' := d'.Dp) hD
    have s2 : ∀ s, (Finset.univ.filter fun o' => ¬ d'.workerM o' ∧ d'.i o' = d'.i (σ s)).card
        = (Finset.univ.filter fun o' => ¬ d.workerM o' ∧ d.i o' = d.i s).card := fun s =>
      (Finset.card_bij (fun x _ => σ x) (fun x hx => by
          simp only [Finset.mem_filter, Finset.mem_univ, true_and] at hx ⊢; exact (hi s x).2 hx)
        (fun x _ y _ e => σ.injective e) (fun y hy => ⟨σ.symm y, by
          simp only [Finset.mem_filter, Finset.mem_univ, true_and] at hy ⊢
          exact (hi s _).1 (by rwa [σ.apply_symm_apply]), σ.apply_symm_apply y⟩)).symm
    have e1 : (∃ s, ¬ d'.workerM s ∧ 1 / (∑ o' with ¬ d'.workerM o' ∧ d'.i o' = d'.i s, d'.Dp o') = 1)
        ↔ ∃ s, ¬ d.workerM s ∧ 1 / (∑ o' with ¬ d.workerM o' ∧ d.i o' = d.i s, d.Dp o') = 1 := by
      rw [← σ.exists_congr_right]; simp only [h.mover, s1]
    have e2 : (∃ s, ¬ d'.workerM s ∧ (Finset.univ.filter fun o' => ¬ d'.workerM o' ∧ d'.i o' = d'.i s).card = 1)
        ↔ ∃ s, ¬ d.workerM s ∧ (Finset.univ.filter fun o' => ¬ d.workerM o' ∧ d.i o' = d.i s).card = 1 := by
      rw [← σ.exists_congr_right]; simp only [h.mover, s2]
    simp only [Panel.siiHe, h.mover, h.weighted, e1, e2, hl, s1, hD, h.outcome, hm, C113_residuals h hv hc hs hs']
    split_ifs
    · rfl
    · rfl
    · simp only [Option.map_some]; congr 1; ring
    · rfl
    · rfl

theorem Spec.Renamed.traceHe (h : Spec.Renamed d d' σ f g a b c) (hv : d.Valid) (hc : d.Connected) (hn : 0 < n)
    {S S' : Fin n → ℝ} {k : ℝ} (hS : ∀ o, S' (σ o) = k * S o) :
    ∃ t1 t2 t3, d.exactTraceVarHe d.blocksFull S d.qPsi = .ok t1 ∧
      d.exactTraceVarHe d.blocksFull S d.qAlpha = .ok t2 ∧
      d.exactTraceCovHe d.blocksFull S d.qPsi d.qAlpha = .ok t3 ∧
      d'.exactTraceVarHe d'.blocksFull S' d'.qPsi = .ok (k / factor d c * t1) ∧
      d'.exactTraceVarHe d'.blocksFull S' d'.qAlpha = .ok (k / factor d c * t2) ∧
      d'.exactTraceCovHe d'.blocksFull S' d'.qPsi d'.qAlpha = .ok (k / factor d c * t3) := by
  obtain ⟨solve, hs⟩ := exists_goodSolver d
  obtain ⟨solve', hs'⟩ := exists_goodSolver d'
  have hv' := h.valid hv
  have hc' := h.connected hc
  have hk := h.factor_pos.ne'
  have hstd := stdWeight_DpW hv
  have hstd' := stdWeight_DpW hv'
  have hDw : ∀ o, ∑ b' with d'.i b' = d'.i (σ o), d'.Dp b' = factor d c * ∑ b' with d.i b' = d.i o, d.Dp b' := by
    intro o
    rw [Finset.mul_sum]
    exact Spec.Renamed.sum_filter σ (fun o' => by rw [h.worker, h.worker, g.apply_eq_iff_eq]) h.Dp
  refine ⟨_, _, _, C20_exact_trace_var_psi hv hc hs S, C20_exact_trace_var_alpha hv hc hs S,
    C20_exact_trace_cov hv hc hs S hn, ?_, ?_, ?_⟩
  · rw [C20_exact_trace_var_psi hv' hc' hs' S']
    refine congrArg _ (h.sum_unit (fun o => ?_) hS)
    have := (h.unit hv hc hs hs' o).1
    rw [varFe_eq_covFe (d := d'.withY (Pi.single (σ o) 1)) d'.qPsi hstd',
      varFe_eq_covFe (d := d.withY (Pi.single o 1)) d.qPsi hstd]
    exact this
  · rw [C20_exact_trace_var_alpha hv' hc' hs' S']
    refine congrArg _ ?_
    rw [← Equiv.sum_comp σ, Finset.mul_sum]
    refine Finset.sum_congr rfl fun o _ => ?_
    obtain ⟨t, -, h2, -⟩ := C113_effects (h.single o) (valid_withY hv _) hc (solve := solve) (solve' := solve') hs hs'
    rw [weightedVar_eq_cov _ hstd, weightedVar_eq_cov _ hstd',
      h.cov hv (k := 1 / factor d c) (s := - t / d'.Dp (σ o)) (t := - t / d'.Dp (σ o)) (x := Spec.alphaResponse d solve o)
        (y := Spec.alphaResponse d solve o), hS, h.Dp]
    · field_simp
    all_goals
      intro b
      have hb : (d'.withY (Pi.single (σ o) 1)).alphaCol solve' (σ b) = (d.withY (Pi.single o 1)).alphaCol solve b - t := by
        rw [h2]; ring
      simp only [Spec.alphaResponse, h.worker b, h.worker o, g.apply_eq_iff_eq]
      rw [← h.worker b, hDw, hb, h.Dp]
      by_cases e : d.i b = d.i o
      · simp only [e, if_true]; ring
      · simp only [e, if_false]; ring
  · rw [C20_exact_trace_cov hv' hc' hs' S' hn]
    refine congrArg _ ?_
    rw [mul_sub]
    refine congrArg₂ _ (h.sum_unit (fun o => (h.unit hv hc hs hs' o).2.2) hS) ?_
    rw [← Equiv.sum_comp σ, Finset.mul_sum]
    refine Finset.sum_congr rfl fun o _ => ?_
    obtain ⟨t, h1, -, -⟩ := C113_effects (h.single o) (valid_withY hv _) hc (solve := solve) (solve' := solve') hs hs'
    rw [hS, hDw, h.cov hv (k := 1) (s := t) (t := 0) (x := (d.withY (Pi.single o 1)).psiCol solve)
      (y := fun b => if d.i b = d.i o then 1 else 0) h1 (fun b => by
        simp only [h.worker, g.apply_eq_iff_eq]; ring)]
    rw [mul_div_mul_comm]; ring

/-- C113, heteroskedastic correction with exact leverages and traces: the corrected components are `a ^ 2` times the ones
before, provided that weights keep their units.  Missing from the full claim: other units of the weights, for which
it is false (`C113_weight_units_matter`). -/
theorem C113_heteroskedastic_partial (h : Spec.Renamed d d' σ f g a b c) (hc1 : d.weighted = true → c = 1) (hv : d.Valid)
    (hc : d.Connected) (hs : d.GoodSolver solve) (hs' : d'.GoodSolver solve') (hn : 0 < n) (st : Panel.Stayers)
    (S S' : Fin n → ℝ) (hS : ∀ o, d.siiHe solve st d.exactPii o = some (S o))
    (hS' : ∀ o, d'.siiHe solve' st d'.exactPii o = some (S' o)) :
    ∃ t1 t1' t2 t2' t3 t3', d.exactTraceVarHe d.blocksFull S d.qPsi = .ok t1 ∧
      d'.exactTraceVarHe d'.blocksFull S' d'.qPsi = .ok t1' ∧
      d.exactTraceVarHe d.blocksFull S d.qAlpha = .ok t2 ∧
      d'.exactTraceVarHe d'.blocksFull S' d'.qAlpha = .ok t2' ∧
      d.exactTraceCovHe d.blocksFull S d.qPsi d.qAlpha = .ok t3 ∧
      d'.exactTraceCovHe d'.blocksFull S' d'.qPsi d'.qAlpha = .ok t3' ∧
      d'.varHe solve' d'.qPsi t1' = a ^ 2 * d.varHe solve d.qPsi t1 ∧
      d'.varHe solve' d'.qAlpha t2' = a ^ 2 * d.varHe solve d.qAlpha t2 ∧
      d'.covHe solve' d'.qPsi d'.qAlpha t3' = a ^ 2 * d.covHe solve d.qPsi d.qAlpha t3 := by
  have hk : factor d c = 1 := by
    unfold factor; split
    · exact hc1 ‹_›
    · rfl
  have e : ∀ o, S' (σ o) = a ^ 2 * S o := fun o => by
    have := C113_sii_partial h hc1 hv hc hs hs' st o
    rw [hS, hS', Option.map_some] at this
    exact Option.some.inj this
  obtain ⟨t1, t2, t3, h1, h2, h3, h4, h5, h6⟩ := h.traceHe hv hc hn e
  obtain ⟨p1, p2, -, p4⟩ := C113_plug_in h hv hc hs hs'
  refine ⟨t1, _, t2, _, t3, _, h1, h4, h2, h5, h3, h6, ?_, ?_, ?_⟩
  · rw [Panel.varHe, Panel.varHe, p1, hk]; ring
  · rw [Panel.varHe, Panel.varHe, p2, hk]; ring
  · rw [Panel.covHe, Panel.covHe, p4, hk]; ring

/-! ## Units of the weights -/

/-- C113, heteroskedastic correction when the units of the weights change: with movers only, the trace is divided by `c`
while the plug-in component is not, so the corrected components change. -/
theorem C113_weight_units (h : Spec.Renamed d d' σ f g a b c) (hw : d.weighted = true) (hv : d.Valid)
    (hc : d.Connected) (hs : d.GoodSolver solve) (hs' : d'.GoodSolver solve') (hm : ∀ o, d.workerM o) (hn : 0 < n)
    (S S' : Fin n → ℝ) (hS : ∀ o, d.siiHe solve .firmMean d.exactPii o = some (S o))
    (hS' : ∀ o, d'.siiHe solve' .firmMean d'.exactPii o = some (S' o)) :
    ∃ t1 t1' t2 t2' t3 t3', d.exactTraceVarHe d.blocksFull S d.qPsi = .ok t1 ∧
      d'.exactTraceVarHe d'.blocksFull S' d'.qPsi = .ok t1' ∧
      d.exactTraceVarHe d.blocksFull S d.qAlpha = .ok t2 ∧
      d'.exactTraceVarHe d'.blocksFull S' d'.qAlpha = .ok t2' ∧
      d.exactTraceCovHe d.blocksFull S d.qPsi d.qAlpha = .ok t3 ∧
      d'.exactTraceCovHe d'.blocksFull S' d'.qPsi d'.qAlpha = .ok t3' ∧
      d'.varHe solve' d'.qPsi t1' = a ^ 2 * (d.varHe solve d.qPsi t1 + (1 - 1 / c) * t1) ∧
      d'.varHe solve' d'.qAlpha t2' = a ^ 2 * (d.varHe solve d.qAlpha t2 + (1 - 1 / c) * t2) ∧
      d'.covHe solve' d'.qPsi d'.qAlpha t3' = a ^ 2 * (d.covHe solve d.qPsi d.qAlpha t3 + (1 - 1 / c) * t3) := by
  have hk : factor d c = c := by simp [factor, hw]
  have e : ∀ o, S' (σ o) = a ^ 2 * S o := fun o => by
    rw [siiHe_mover _ _ _ _ (hm o) (hS o), siiHe_mover _ _ _ _ ((h.mover o).2 (hm o)) (hS' (σ o)),
      C113_loo h hv hc hs hs']
  obtain ⟨t1, t2, t3, h1, h2, h3, h4, h5, h6⟩ := h.traceHe hv hc hn e
  obtain ⟨p1, p2, -, p4⟩ := C113_plug_in h hv hc hs hs'
  refine ⟨t1, _, t2, _, t3, _, h1, h4, h2, h5, h3, h6, ?_, ?_, ?_⟩
  · rw [Panel.varHe, Panel.varHe, p1, hk]; ring
  · rw [Panel.varHe, Panel.varHe, p2, hk]; ring
  · rw [Panel.covHe, Panel.covHe, p4, hk]; ring

/-- Five observations of two movers with weight 1. -/
def exU : Panel 5 1 2 := { ex20 with weighted := true, y := ![0, 0, 1, 0, 0] }

/-- The same observations with weight 2. -/
def exU2 : Panel 5 1 2 := { exU with w := fun _ => 2 }

theorem exU_Dp : exU.Dp = ex20.Dp := by
  funext o; rw [ex20_Dp]; fin_cases o <;> simp [Panel.Dp, exU, ex20]

theorem exU_valid : exU.Valid where
  wpos := by intro o; rw [exU_Dp]; exact ex20_valid.wpos o
  seen := ex20_valid.seen

theorem exU_renamed : Spec.Renamed exU exU2 (Equiv.refl _) (Equiv.refl _) (Equiv.refl _) 1 0 2 where
  firm _ := rfl
  worker _ := rfl
  outcome o := by show exU.y o = 1 * exU.y o + 0; ring
  weighted := rfl
  weight o := by fin_cases o <;> simp [exU, exU2, ex20]
  pos := by norm_num

theorem exU_unit {solve} (hs : exU.GoodSolver solve) (o : Fin 5) :
    (exU.withY (Pi.single o 1)).varFe solve exU.qPsi = ![24, 24, 96, 54, 54] o / 1225 := by
  rw [show (exU.withY (Pi.single o 1)).varFe solve exU.qPsi = _ from
    (C23_attached (d := exU.withY (Pi.single o 1)) solve).1, psiCol_unit exU_valid ex20_connected hs]
  have hJ : exU.J = !![0; 0; 1; 0; 1] := by
    ext o k; fin_cases o <;> fin_cases k <;> simp [Panel.J, Panel.Jfull, exU, ex20]
  have hw : (exU.withY (Pi.single o 1)).DpW = .vec ![1, 1, 1, 1, 1] := by simp [Panel.DpW, exU, ex20, Panel.withY]
  have hl : exU.lmat = ex20.lmat := by
    have hX : exU.X = ex20.X := rfl
    rw [Panel.lmat, Panel.lmat, exU_Dp, hX]
  rw [hw, hJ]
  simp only [weightedVar, weightedMean, lpsi, hl, ex20_lmat]
  fin_cases o <;> simp [mulVec, dotProduct, Fin.sum_univ_succ] <;> norm_num

theorem exU_hat (o b : Fin 5) : hat exU.X exU.Dp o b = hat ex20.X ex20.Dp o b := by
  rw [exU_Dp]; rfl

/-- C113 is false of the heteroskedastic correction with weights: doubling every weight changes the corrected
`var(psi)`. -/
theorem C113_weight_units_matter : ∃ (solve solve' : (Fin 1 → ℝ) → (Fin 1 → ℝ)) (S S' : Fin 5 → ℝ) (t t' : ℝ),
    exU.GoodSolver solve ∧ exU2.GoodSolver solve' ∧ (∀ o, exU.siiHe solve .firmMean exU.exactPii o = some (S o)) ∧
    (∀ o, exU2.siiHe solve' .firmMean exU2.exactPii o = some (S' o)) ∧
    exU.exactTraceVarHe exU.blocksFull S exU.qPsi = .ok t ∧ exU2.exactTraceVarHe exU2.blocksFull S' exU2.qPsi = .ok t' ∧
    exU2.varFe solve' exU2.qPsi = exU.varFe solve exU.qPsi ∧
    exU2.varHe solve' exU2.qPsi t' ≠ exU.varHe solve exU.qPsi t := by
  obtain ⟨s, hs⟩ := exists_goodSolver exU
  obtain ⟨s', hs'⟩ := exists_goodSolver exU2
  have hc : exU.Connected := ex20_connected
  have hm : ∀ o, exU.workerM o := ex20_movers
  have hm' : ∀ o, exU2.workerM o := ex20_movers
  have hS : ∀ o, exU.siiHe s .firmMean exU.exactPii o = some (exU.looSii s exU.exactPii o) := fun o => by
    rw [Panel.siiHe, if_pos (hm o)]
  have hS' : ∀ o, exU2.siiHe s' .firmMean exU2.exactPii o = some (exU2.looSii s' exU2.exactPii o) := fun o => by
    rw [Panel.siiHe, if_pos (hm' o)]
  obtain ⟨t, t', -, -, -, -, h1, h2, -, -, -, -, h3, -, -⟩ :=
    C113_weight_units exU_renamed rfl exU_valid hc hs hs' hm (by norm_num) _ _ hS hS'
  have hp := (C113_plug_in exU_renamed exU_valid hc hs hs').1
  rw [one_pow, one_mul] at hp
  refine ⟨s, s', _, _, t, t', hs, hs', hS, hS', h1, h2, hp, ?_⟩
  rw [h3]
  rw [C20_exact_trace_var_psi exU_valid hc hs] at h1
  have ht := Except.ok.inj h1
  have hu := exU.nmat_unit exU_valid hc
  have hP : ∀ o, exU.exactPii o = ![3 / 7, 3 / 7, 5 / 7, 5 / 7, 5 / 7] o := by
    intro o
    rw [Panel.exactPii, if_pos (show exU.weighted = true from rfl), if_pos (hm o), exU.computePii_eq exU_valid hu, exU_hat, ex20_hat]
    fin_cases o <;> rfl
  have hE : ∀ o, exU.E s o = ![-1 / 7, -1 / 7, 2 / 7, 2 / 7, -2 / 7] o := by
    intro o
    have : exU.E s o = exU.y o - (hat exU.X exU.Dp *ᵥ exU.y) o := by
      rw [Panel.E, ← X_mul_lmat, ← mulVec_mulVec, ← solveLS_lmat exU_valid hc hs exU.y, Panel.X, fromCols_mulVec]
      rfl
    rw [this]
    simp only [mulVec, dotProduct, exU_hat, ex20_hat]
    fin_cases o <;> simp [exU, Fin.sum_univ_succ] <;> norm_num
  have hY : weightedMean exU.y (.vec exU.Dp) = 1 / 5 := by
    rw [exU_Dp, show ex20.Dp = fun _ => 1 from funext ex20_Dp]
    simp [weightedMean, exU, Fin.sum_univ_succ]
  have ht2 : t = 396 / 6125 := by
    rw [← ht]
    simp only [Panel.looSii, hP, hE, hY, exU_unit hs]
    simp only [exU_Dp, ex20_Dp]
    simp [exU, Fin.sum_univ_succ]
    norm_num
  rw [ht2]
  norm_num

/-- Every panel can be renamed in every way. -/
noncomputable def Spec.rename (d : Panel n m nw) (σ : Fin n ≃ Fin n) (f : Fin (m + 1) ≃ Fin (m + 1)) (g : Fin nw ≃ Fin nw)
    (a b c : ℝ) : Panel n m nw :=
  ⟨fun o => f (d.j (σ.symm o)), fun o => g (d.i (σ.symm o)), fun o => a * d.y (σ.symm o) + b, d.weighted,
    fun o => c * d.w (σ.symm o)⟩

theorem Spec.rename_renamed (d : Panel n m nw) (σ : Fin n ≃ Fin n) (f : Fin (m + 1) ≃ Fin (m + 1)) (g : Fin nw ≃ Fin nw)
    (a b c : ℝ) (hc : 0 < c) : Spec.Renamed d (Spec.rename d σ f g a b c) σ f g a b c := by
  constructor <;> first | exact hc | rfl | (intro o; simp [Spec.rename])

/-- The hypotheses of the C113 theorems can be met: two movers and two firms that swap names, rows in another order, wages
in other units, with weights (or without) and with the leave-one-out variances of both panels. -/
example : ∃ (d' : Panel 5 1 2) (s s' : (Fin 1 → ℝ) → (Fin 1 → ℝ)) (S S' : Fin 5 → ℝ),
    Spec.Renamed exU d' (Equiv.swap 0 3) (Equiv.swap 0 1) (Equiv.swap 0 1) 2 3 1 ∧ exU.Valid ∧ exU.Connected ∧
    exU.GoodSolver s ∧ d'.GoodSolver s' ∧ d'.j ≠ exU.j ∧ d'.i ≠ exU.i ∧ d'.y ≠ exU.y ∧
    (∀ o, exU.siiHe s .firmMean exU.exactPii o = some (S o)) ∧
    (∀ o, d'.siiHe s' .firmMean d'.exactPii o = some (S' o)) := by
  have hr := Spec.rename_renamed exU (Equiv.swap 0 3) (Equiv.swap 0 1) (Equiv.swap 0 1) 2 3 1 one_pos
  obtain ⟨s, hs⟩ := exists_goodSolver exU
  obtain ⟨s', hs'⟩ := exists_goodSolver (Spec.rename exU (Equiv.swap 0 3) (Equiv.swap 0 1) (Equiv.swap 0 1) 2 3 1)
  have hm : ∀ o, exU.workerM o := ex20_movers
  refine ⟨_, s, s', _, _, hr, exU_valid, ex20_connected, hs, hs', fun e => ?_, fun e => ?_, fun e => ?_,
    fun o => by rw [Panel.siiHe, if_pos (hm o)], fun o => by
      have h1 := (hr.mover ((Equiv.swap 0 3).symm o)).2 (hm _)
      rw [Equiv.apply_symm_apply] at h1
      rw [Panel.siiHe, if_pos h1]⟩
  · have := congrFun e 0; revert this; decide
  · have := congrFun e 1; revert this; decide
  · have := congrFun e 1; simp only [Spec.rename, exU, Equiv.symm_swap] at this
    rw [show (Equiv.swap (0 : Fin 5) 3) 1 = 1 by decide] at this
    norm_num at this

end Pytwoway.FE
