import Mathlib.Probability.Distributions.Gaussian.Real
import Mathlib.Tactic.Positivity
import Verif.BLMDyn.Model

/-! # Wages of the dynamic model: C73, C74

Wages simulated by `SimDynamicBLM`, and those drawn by the dynamic parametric bootstrap, against the density
of the dynamic estimator's likelihood. -/

namespace Pytwoway.Dynamic

open MeasureTheory ProbabilityTheory Pytwoway.BLM Pytwoway.Sim.Dyn

variable {nl nk : ℕ}

/-! ## Specification -/

/-- Expectation of `f` of four numbers over four independent standard normal draws (by Tonelli, iterated
integrals against the standard normal law). -/
noncomputable def Spec.expect (f : ℝ → ℝ → ℝ → ℝ → ENNReal) : ENNReal :=
  ∫⁻ e2, ∫⁻ e1, ∫⁻ e3, ∫⁻ e4, f e1 e2 e3 e4 ∂gaussianReal 0 1 ∂gaussianReal 0 1 ∂gaussianReal 0 1 ∂gaussianReal 0 1

/-- Integral of `f` of four wages against a density `g`. -/
noncomputable def Spec.integral (g : Wages → ℝ) (f : Wages → ENNReal) : ENNReal :=
  ∫⁻ y2, ∫⁻ y1, ∫⁻ y3, ∫⁻ y4, ENNReal.ofReal (g ⟨y1, y2, y3, y4⟩) * f ⟨y1, y2, y3, y4⟩

/-- Drawn wages have joint density `g`: the expectation of every nonnegative function of them is its integral
against `g`. -/
def Spec.HasDensity (draw : ℝ → ℝ → ℝ → ℝ → Wages) (g : Wages → ℝ) : Prop :=
  ∀ f : Wages → ENNReal, Spec.expect (fun e1 e2 e3 e4 => f (draw e1 e2 e3 e4)) = Spec.integral g f

/-! ## Lemmas -/

theorem lnvar_exp (x mu v : ℝ) (hv : 0 < v) :
    Real.exp (lnvar x mu v) = gaussianPDFReal mu v.toNNReal x := by
  rw [lnvar, Util.C06_var _ _ _ hv]
  exact Real.exp_log (gaussianPDFReal_pos _ _ _ (by simpa using hv))

theorem lnsd_eq (x mu s : ℝ) (hs : 0 < s) : lnsd x mu s = lnvar x mu (s ^ 2) := by
  rw [lnsd, lnvar, Util.C06_sd_eq_var _ _ _ hs]
  rfl

/-- Integrating a function of a normal draw against its density. -/
theorem lint_gauss (m v : ℝ) (hv : 0 < v) (g : ℝ → ENNReal) :
    ∫⁻ e, g (m + √v * e) ∂gaussianReal 0 1 = ∫⁻ y, ENNReal.ofReal (gaussianPDFReal m v.toNNReal y) * g y := by
  have hs : √v ≠ 0 := (Real.sqrt_pos.mpr hv).ne'
  have hm : (gaussianReal 0 1).map (fun e => m + √v * e) = gaussianReal m v.toNNReal := by
    have h1 : HasLaw (fun e : ℝ => e) (gaussianReal 0 1) (gaussianReal 0 1) :=
      ⟨aemeasurable_id, Measure.map_id⟩
    have h2 := (gaussianReal_const_add (gaussianReal_const_mul h1 √v) m).map_eq
    rw [h2]
    congr 1
    · ring
    · rw [mul_one]
      ext
      simp [Real.coe_toNNReal _ hv.le, Real.sq_sqrt hv.le]
  let E : ℝ ≃ᵐ ℝ :=
    { toFun := fun e => m + √v * e
      invFun := fun y => (y - m) / √v
      left_inv := fun e => by field_simp; ring
      right_inv := fun y => by field_simp; ring
      measurable_toFun := by simp only [Equiv.coe_fn_mk]; fun_prop
      measurable_invFun := by simp only [Equiv.coe_fn_symm_mk]; fun_prop }
  have h3 : ∫⁻ e, g (m + √v * e) ∂gaussianReal 0 1 = ∫⁻ y, g y ∂gaussianReal m v.toNNReal := by
    rw [← hm]
    exact (lintegral_map_equiv g E).symm
  rw [h3, gaussianReal_of_var_ne_zero _ (by simpa using hv),
    lintegral_withDensity_eq_lintegral_mul_non_measurable _ (measurable_gaussianPDF _ _)
      (Filter.Eventually.of_forall fun _ => gaussianPDF_lt_top)]
  rfl

/-- Shifting the argument of a normal density. -/
theorem pdf_shift (m c x : ℝ) (v : NNReal) : gaussianPDFReal m v (x - c) = gaussianPDFReal (m + c) v x := by
  unfold gaussianPDFReal
  congr 2
  ring

/-- The log density of a mover in terms of the total mean and variance of each period. -/
noncomputable def lpM (a s2 : Per → ℝ) (r : Rhos) (y : Wages) : ℝ :=
  lnvar (y.y1 - r.R12 * (y.y2 - a .p2ma)) (a .p12) (s2 .p12 + r.R12 ^ 2 * s2 .p2ma) +
    lnvar y.y2 (a .p2ma + a .p2mb) (s2 .p2ma + s2 .p2mb) +
    lnvar (y.y3 - r.R32 * (y.y2 - (a .p2ma + a .p2mb))) (a .p3ma + a .p3mb)
      (s2 .p3ma + s2 .p3mb + r.R32 ^ 2 * (s2 .p2ma + s2 .p2mb)) +
    lnvar (y.y4 - r.R43 * (y.y3 - a .p3ma)) (a .p43) (s2 .p43 + r.R43 ^ 2 * s2 .p3ma)

/-- The log density of a stayer in the same terms. -/
noncomputable def lpS (a s2 : Per → ℝ) (r : Rhos) (y : Wages) : ℝ :=
  (lnvar y.y2 (a .p2s) (s2 .p2s) +
    lnvar (y.y3 - r.R32 * (y.y2 - a .p2s)) (a .p3s) (s2 .p3s + r.R32 ^ 2 * s2 .p2s)) +
  (lnvar (y.y1 - r.R12 * (y.y2 - a .p2ma)) (a .p12) (s2 .p12 + r.R12 ^ 2 * s2 .p2ma) +
    lnvar (y.y4 - r.R43 * (y.y3 - a .p3ma)) (a .p43) (s2 .p43 + r.R43 ^ 2 * s2 .p3ma))

theorem draw_movers_density (a s2 : Per → ℝ) (r : Rhos)
    (h1 : 0 < s2 .p12 + r.R12 ^ 2 * s2 .p2ma) (h2 : 0 < s2 .p2ma + s2 .p2mb)
    (h3 : 0 < s2 .p3ma + s2 .p3mb + r.R32 ^ 2 * (s2 .p2ma + s2 .p2mb))
    (h4 : 0 < s2 .p43 + r.R43 ^ 2 * s2 .p3ma) :
    Spec.HasDensity (drawMovers a s2 r) fun y => Real.exp (lpM a s2 r y) := by
  intro f
  unfold Spec.expect Spec.integral drawMovers
  dsimp only
  rw [lint_gauss (a .p2ma + a .p2mb) _ h2 fun y2 => ∫⁻ e1, ∫⁻ e3, ∫⁻ e4,
    f ⟨a .p12 - r.R12 * a .p2ma + √(s2 .p12 + r.R12 ^ 2 * s2 .p2ma) * e1 + r.R12 * y2, y2,
      a .p3ma + a .p3mb - r.R32 * (a .p2ma + a .p2mb) +
        √(s2 .p3ma + s2 .p3mb + r.R32 ^ 2 * (s2 .p2ma + s2 .p2mb)) * e3 + r.R32 * y2,
      a .p43 - r.R43 * a .p3ma + √(s2 .p43 + r.R43 ^ 2 * s2 .p3ma) * e4 +
        r.R43 * (a .p3ma + a .p3mb - r.R32 * (a .p2ma + a .p2mb) +
        √(s2 .p3ma + s2 .p3mb + r.R32 ^ 2 * (s2 .p2ma + s2 .p2mb)) * e3 + r.R32 * y2)⟩
    ∂gaussianReal 0 1 ∂gaussianReal 0 1 ∂gaussianReal 0 1]
  refine lintegral_congr fun y2 => ?_
  have e1 : ∀ x : ℝ, a .p12 - r.R12 * a .p2ma + √(s2 .p12 + r.R12 ^ 2 * s2 .p2ma) * x + r.R12 * y2 =
      (a .p12 + r.R12 * (y2 - a .p2ma)) + √(s2 .p12 + r.R12 ^ 2 * s2 .p2ma) * x := fun x => by ring
  have e3 : ∀ x : ℝ, a .p3ma + a .p3mb - r.R32 * (a .p2ma + a .p2mb) +
        √(s2 .p3ma + s2 .p3mb + r.R32 ^ 2 * (s2 .p2ma + s2 .p2mb)) * x + r.R32 * y2 =
      (a .p3ma + a .p3mb + r.R32 * (y2 - (a .p2ma + a .p2mb))) +
        √(s2 .p3ma + s2 .p3mb + r.R32 ^ 2 * (s2 .p2ma + s2 .p2mb)) * x := fun x => by ring
  simp only [e1, e3]
  rw [lint_gauss _ _ h1 fun y1 => ∫⁻ e3, ∫⁻ e4,
    f ⟨y1, y2, (a .p3ma + a .p3mb + r.R32 * (y2 - (a .p2ma + a .p2mb))) +
        √(s2 .p3ma + s2 .p3mb + r.R32 ^ 2 * (s2 .p2ma + s2 .p2mb)) * e3,
      a .p43 - r.R43 * a .p3ma + √(s2 .p43 + r.R43 ^ 2 * s2 .p3ma) * e4 +
        r.R43 * ((a .p3ma + a .p3mb + r.R32 * (y2 - (a .p2ma + a .p2mb))) +
        √(s2 .p3ma + s2 .p3mb + r.R32 ^ 2 * (s2 .p2ma + s2 .p2mb)) * e3)⟩
    ∂gaussianReal 0 1 ∂gaussianReal 0 1]
  rw [← lintegral_const_mul' _ _ ENNReal.ofReal_ne_top]
  refine lintegral_congr fun y1 => ?_
  rw [lint_gauss _ _ h3 fun y3 => ∫⁻ e4,
    f ⟨y1, y2, y3, a .p43 - r.R43 * a .p3ma + √(s2 .p43 + r.R43 ^ 2 * s2 .p3ma) * e4 + r.R43 * y3⟩
    ∂gaussianReal 0 1]
  rw [← lintegral_const_mul' _ _ ENNReal.ofReal_ne_top, ← lintegral_const_mul' _ _ ENNReal.ofReal_ne_top]
  refine lintegral_congr fun y3 => ?_
  have e4 : ∀ x : ℝ, a .p43 - r.R43 * a .p3ma + √(s2 .p43 + r.R43 ^ 2 * s2 .p3ma) * x + r.R43 * y3 =
      (a .p43 + r.R43 * (y3 - a .p3ma)) + √(s2 .p43 + r.R43 ^ 2 * s2 .p3ma) * x := fun x => by ring
  simp only [e4]
  rw [lint_gauss _ _ h4 fun y4 => f ⟨y1, y2, y3, y4⟩]
  rw [← lintegral_const_mul' _ _ ENNReal.ofReal_ne_top, ← lintegral_const_mul' _ _ ENNReal.ofReal_ne_top,
    ← lintegral_const_mul' _ _ ENNReal.ofReal_ne_top]
  refine lintegral_congr fun y4 => ?_
  rw [lpM, Real.exp_add, Real.exp_add, Real.exp_add, lnvar_exp _ _ _ h1, lnvar_exp _ _ _ h2,
    lnvar_exp _ _ _ h3, lnvar_exp _ _ _ h4, pdf_shift, pdf_shift, pdf_shift,
    ENNReal.ofReal_mul (by have := gaussianPDFReal_nonneg; simp only [mul_nonneg, this]),
    ENNReal.ofReal_mul (by have := gaussianPDFReal_nonneg; simp only [mul_nonneg, this]),
    ENNReal.ofReal_mul (gaussianPDFReal_nonneg _ _ _)]
  ring

theorem draw_stayers_density (a s2 : Per → ℝ) (r : Rhos)
    (h1 : 0 < s2 .p12 + r.R12 ^ 2 * s2 .p2ma) (h2 : 0 < s2 .p2s)
    (h3 : 0 < s2 .p3s + r.R32 ^ 2 * s2 .p2s)
    (h4 : 0 < s2 .p43 + r.R43 ^ 2 * s2 .p3ma) :
    Spec.HasDensity (drawStayers a s2 r) fun y => Real.exp (lpS a s2 r y) := by
  intro f
  unfold Spec.expect Spec.integral drawStayers
  dsimp only
  rw [lint_gauss (a .p2s) _ h2 fun y2 => ∫⁻ e1, ∫⁻ e3, ∫⁻ e4,
    f ⟨a .p12 - r.R12 * a .p2ma + √(s2 .p12 + r.R12 ^ 2 * s2 .p2ma) * e1 + r.R12 * y2, y2,
      a .p3s - r.R32 * a .p2s + √(s2 .p3s + r.R32 ^ 2 * s2 .p2s) * e3 + r.R32 * y2,
      a .p43 - r.R43 * a .p3ma + √(s2 .p43 + r.R43 ^ 2 * s2 .p3ma) * e4 +
        r.R43 * (a .p3s - r.R32 * a .p2s + √(s2 .p3s + r.R32 ^ 2 * s2 .p2s) * e3 + r.R32 * y2)⟩
    ∂gaussianReal 0 1 ∂gaussianReal 0 1 ∂gaussianReal 0 1]
  refine lintegral_congr fun y2 => ?_
  have e1 : ∀ x : ℝ, a .p12 - r.R12 * a .p2ma + √(s2 .p12 + r.R12 ^ 2 * s2 .p2ma) * x + r.R12 * y2 =
      (a .p12 + r.R12 * (y2 - a .p2ma)) + √(s2 .p12 + r.R12 ^ 2 * s2 .p2ma) * x := fun x => by ring
  have e3 : ∀ x : ℝ, a .p3s - r.R32 * a .p2s + √(s2 .p3s + r.R32 ^ 2 * s2 .p2s) * x + r.R32 * y2 =
      (a .p3s + r.R32 * (y2 - a .p2s)) + √(s2 .p3s + r.R32 ^ 2 * s2 .p2s) * x := fun x => by ring
  simp only [e1, e3]
  rw [lint_gauss _ _ h1 fun y1 => ∫⁻ e3, ∫⁻ e4,
    f ⟨y1, y2, (a .p3s + r.R32 * (y2 - a .p2s)) + √(s2 .p3s + r.R32 ^ 2 * s2 .p2s) * e3,
      a .p43 - r.R43 * a .p3ma + √(s2 .p43 + r.R43 ^ 2 * s2 .p3ma) * e4 +
        r.R43 * ((a .p3s + r.R32 * (y2 - a .p2s)) + √(s2 .p3s + r.R32 ^ 2 * s2 .p2s) * e3)⟩
    ∂gaussianReal 0 1 ∂gaussianReal 0 1]
  rw [← lintegral_const_mul' _ _ ENNReal.ofReal_ne_top]
  refine lintegral_congr fun y1 => ?_
  rw [lint_gauss _ _ h3 fun y3 => ∫⁻ e4,
    f ⟨y1, y2, y3, a .p43 - r.R43 * a .p3ma + √(s2 .p43 + r.R43 ^ 2 * s2 .p3ma) * e4 + r.R43 * y3⟩
    ∂gaussianReal 0 1]
  rw [← lintegral_const_mul' _ _ ENNReal.ofReal_ne_top, ← lintegral_const_mul' _ _ ENNReal.ofReal_ne_top]
  refine lintegral_congr fun y3 => ?_
  have e4 : ∀ x : ℝ, a .p43 - r.R43 * a .p3ma + √(s2 .p43 + r.R43 ^ 2 * s2 .p3ma) * x + r.R43 * y3 =
      (a .p43 + r.R43 * (y3 - a .p3ma)) + √(s2 .p43 + r.R43 ^ 2 * s2 .p3ma) * x := fun x => by ring
  simp only [e4]
  rw [lint_gauss _ _ h4 fun y4 => f ⟨y1, y2, y3, y4⟩]
  rw [← lintegral_const_mul' _ _ ENNReal.ofReal_ne_top, ← lintegral_const_mul' _ _ ENNReal.ofReal_ne_top,
    ← lintegral_const_mul' _ _ ENNReal.ofReal_ne_top]
  refine lintegral_congr fun y4 => ?_
  rw [lpS, Real.exp_add, Real.exp_add, Real.exp_add, lnvar_exp _ _ _ h1, lnvar_exp _ _ _ h2,
    lnvar_exp _ _ _ h3, lnvar_exp _ _ _ h4, pdf_shift, pdf_shift, pdf_shift,
    ENNReal.ofReal_mul (mul_nonneg (gaussianPDFReal_nonneg _ _ _) (gaussianPDFReal_nonneg _ _ _)),
    ENNReal.ofReal_mul (gaussianPDFReal_nonneg _ _ _),
    ENNReal.ofReal_mul (gaussianPDFReal_nonneg _ _ _)]
  ring

/-! ### The estimator's sums -/

/-- Every control is categorical. -/
def AllCat (cs : List (DCtrl nl)) : Prop := ∀ c ∈ cs, ∃ wi k Aw Sw An Sn, c = DCtrl.cat wi k Aw Sw An Sn

theorem sumOver_ok (f : DCtrl nl → Py ℝ) (g : DCtrl nl → ℝ) (cs : List (DCtrl nl)) (h : ∀ c ∈ cs, f c = .ok (g c)) :
    sumOver f cs = .ok (cs.foldl (fun acc c => acc + g c) 0) := by
  unfold sumOver
  generalize (0 : ℝ) = z
  induction cs generalizing z with
  | nil => rfl
  | cons c cs ih =>
    rw [List.foldlM_cons, List.foldl_cons, h c (by simp)]
    exact ih (fun c hc => h c (by simp [hc])) _

theorem foldl_add (f : DCtrl nl → ℝ) (cs : List (DCtrl nl)) (z : ℝ) :
    cs.foldl (fun acc c => acc + f c) z = z + (cs.map f).sum := by
  induction cs generalizing z with
  | nil => simp
  | cons c cs ih => rw [List.foldl_cons, ih, List.map_cons, List.sum_cons]; ring

theorem overPeriods_ok (ps : List Per) (f : Per → Py ℝ) (g : Per → ℝ) (h : ∀ p, f p = .ok (g p)) :
    overPeriods ps f = .ok fun p => if p ∈ ps then g p else 0 := by
  have : ∀ (ps : List Per) (z : Per → ℝ),
      ps.foldlM (fun acc p => do let x ← f p; (.ok (Function.update acc p x) : Py (Per → ℝ))) z =
        .ok fun p => if p ∈ ps then g p else z p := by
    intro ps
    induction ps with
    | nil => intro z; simp; rfl
    | cons a ps ih =>
      intro z
      rw [List.foldlM_cons, h a]
      refine (ih _).trans ?_
      congr 1
      funext p
      by_cases e : p = a
      · subst e; simp
      · simp [e, Function.update_of_ne e]
  exact this ps _

/-- Value of a control's mean term in the estimator (both sums together). -/
theorem est_terms (l : Fin nl) (p : Per) (wi k Aw Sw An Sn) :
    ∃ n b, nonA (nl := nl) p (.cat wi k Aw Sw An Sn) = .ok n ∧ byA l p (.cat wi k Aw Sw An Sn) = .ok b ∧
      n + b = simA l p (.cat wi k Aw Sw An Sn) ∧
    ∃ n' b', nonS (nl := nl) p (.cat wi k Aw Sw An Sn) = .ok n' ∧ byS l p (.cat wi k Aw Sw An Sn) = .ok b' ∧
      n' + b' = simS l p (.cat wi k Aw Sw An Sn) ^ 2 := by
  refine ⟨_, _, rfl, rfl, ?_, _, _, rfl, rfl, ?_⟩ <;> cases wi <;> cases h : p.isB <;> simp [simA, simS, h]

/-- The value of an `.ok`. -/
noncomputable def val (x : Py ℝ) : ℝ := match x with | .ok r => r | .error _ => 0

theorem sums_ok (ps : List Per) (l : Fin nl) (cs : List (DCtrl nl)) (h : AllCat cs) :
    ∃ s, sums ps l cs = .ok s ∧
      (∀ p ∈ ps, s.An p + s.Al p = (cs.map (simA l p)).sum) ∧
      (∀ p ∈ ps, s.Sn p + s.Sl p = (cs.map fun c => simS l p c ^ 2).sum) ∧
      ∀ p ∈ ps, s.Sn p + s.Sl p ≥ 0 := by
  have hv : ∀ (F : Per → DCtrl nl → Py ℝ),
      (∀ p, ∀ c ∈ cs, ∃ x, F p c = .ok x) →
      overPeriods ps (fun p => sumOver (F p) cs) =
        .ok fun p => if p ∈ ps then (cs.map fun c => val (F p c)).sum else 0 := by
    intro F hF
    refine overPeriods_ok ps _ (fun p => (cs.map fun c => val (F p c)).sum) fun p => ?_
    rw [sumOver_ok (F p) (fun c => val (F p c)) cs, foldl_add, zero_add]
    intro c hc
    obtain ⟨x, hx⟩ := hF p c hc
    rw [hx, val]
  have k1 : ∀ p, ∀ c ∈ cs, ∃ x, nonA p c = .ok x := by
    intro p c hc; obtain ⟨wi, k, Aw, Sw, An, Sn, rfl⟩ := h c hc; exact ⟨_, rfl⟩
  have k2 : ∀ p, ∀ c ∈ cs, ∃ x, nonS p c = .ok x := by
    intro p c hc; obtain ⟨wi, k, Aw, Sw, An, Sn, rfl⟩ := h c hc; exact ⟨_, rfl⟩
  have k3 : ∀ p, ∀ c ∈ cs, ∃ x, byA l p c = .ok x := by
    intro p c hc; obtain ⟨wi, k, Aw, Sw, An, Sn, rfl⟩ := h c hc; exact ⟨_, rfl⟩
  have k4 : ∀ p, ∀ c ∈ cs, ∃ x, byS l p c = .ok x := by
    intro p c hc; obtain ⟨wi, k, Aw, Sw, An, Sn, rfl⟩ := h c hc; exact ⟨_, rfl⟩
  unfold sums
  rw [hv _ k1, hv _ k2, hv _ k3, hv _ k4]
  refine ⟨_, rfl, ?_, ?_, ?_⟩
  · intro p hp
    simp only [if_pos hp]
    rw [← List.sum_map_add]
    congr 1
    refine List.map_congr_left fun c hc => ?_
    obtain ⟨wi, k, Aw, Sw, An, Sn, rfl⟩ := h c hc
    obtain ⟨n, b, e1, e2, e3, -⟩ := est_terms l p wi k Aw Sw An Sn
    rw [e1, e2, val, val, e3]
  · intro p hp
    simp only [if_pos hp]
    rw [← List.sum_map_add]
    congr 1
    refine List.map_congr_left fun c hc => ?_
    obtain ⟨wi, k, Aw, Sw, An, Sn, rfl⟩ := h c hc
    obtain ⟨-, -, -, -, -, n, b, e1, e2, e3⟩ := est_terms l p wi k Aw Sw An Sn
    rw [e1, e2, val, val, e3]
  · intro p hp
    simp only [if_pos hp]
    rw [← List.sum_map_add]
    refine List.sum_nonneg fun x hx => ?_
    obtain ⟨c, hc, rfl⟩ := List.mem_map.mp hx
    obtain ⟨wi, k, Aw, Sw, An, Sn, rfl⟩ := h c hc
    obtain ⟨-, -, -, -, -, n, b, e1, e2, e3⟩ := est_terms l p wi k Aw Sw An Sn
    rw [e1, e2, val, val, e3]
    positivity

/-- Total mean of a period: base plus controls. -/
noncomputable def totA (b : DBase nl nk) (l : Fin nl) (G : Fin 2 → Fin nk) (cs : List (DCtrl nl)) (p : Per) : ℝ :=
  b.a l G p + (cs.map (simA l p)).sum

/-- Total variance of a period: base plus squared standard deviations of the controls. -/
noncomputable def totS (b : DBase nl nk) (l : Fin nl) (G : Fin 2 → Fin nk) (cs : List (DCtrl nl)) (p : Per) : ℝ :=
  b.s2 l G p + (cs.map fun c => simS l p c ^ 2).sum

theorem simSumA_eq (b : DBase nl nk) (l : Fin nl) (G : Fin 2 → Fin nk) (cs : List (DCtrl nl)) :
    simSumA b l G cs = totA b l G cs := by
  funext p; rw [simSumA, foldl_add, totA]

theorem simSumS_eq (b : DBase nl nk) (l : Fin nl) (G : Fin 2 → Fin nk) (cs : List (DCtrl nl)) (p : Per) :
    simSumS b l G cs p = b.s2 l G p + (cs.map (simS l p)).sum := by
  rw [simSumS, foldl_add]

theorem lpMovers_eq (b : DBase nl nk) (r : Rhos) (l : Fin nl) (G : Fin 2 → Fin nk) (cs : List (DCtrl nl))
    (h : AllCat cs) (y : Wages) :
    lpMovers b r l G cs y = .ok (lpM (totA b l G cs) (totS b l G cs) r y) := by
  unfold lpMovers
  split
  · rename_i he
    rw [List.isEmpty_iff] at he
    subst he
    congr 1
    simp only [lpMoversPlain, lpM, totA, totS, DBase.a, DBase.s2, slot, Per.isB, List.map_nil, List.sum_nil,
      add_zero, Bool.false_eq_true, if_false, if_true, mul_pow, sub_sub]
  · obtain ⟨s, hs, hA, hS, -⟩ := sums_ok periodsMovers l cs h
    rw [hs]
    refine congrArg Except.ok ?_
    have a1 := hA .p12 (by decide)
    have a2 := hA .p43 (by decide)
    have a3 := hA .p2ma (by decide)
    have a4 := hA .p3ma (by decide)
    have a5 := hA .p2mb (by decide)
    have a6 := hA .p3mb (by decide)
    have s1 := hS .p12 (by decide)
    have s2 := hS .p43 (by decide)
    have s3 := hS .p2ma (by decide)
    have s4 := hS .p3ma (by decide)
    have s5 := hS .p2mb (by decide)
    have s6 := hS .p3mb (by decide)
    simp only [lpMoversCtrl, lpM, totA, totS, DBase.a, DBase.s2, slot, Per.isB, Bool.false_eq_true, if_false,
      if_true, ← a1, ← a2, ← a3, ← a4, ← a5, ← a6, ← s1, ← s2, ← s3, ← s4, ← s5, ← s6]
    congr 1
    · congr 1
      · congr 1
        · congr 1 <;> ring
        · congr 1 <;> ring
      · congr 1 <;> ring
    · congr 1 <;> ring

theorem lpStayers_eq (b : DBase nl nk) (r : Rhos) (l : Fin nl) (g : Fin nk) (cs : List (DCtrl nl))
    (h : AllCat cs) (hS : 0 < b.Sw .p2s l g) (y : Wages) :
    lpStayers b r l g cs y = .ok (lpS (totA b l (fun _ => g) cs) (totS b l (fun _ => g) cs) r y) := by
  unfold lpStayers
  split
  · rename_i he
    rw [List.isEmpty_iff] at he
    subst he
    congr 1
    simp only [lpStayersPlain, lpS, totA, totS, DBase.a, DBase.s2, Per.isB, List.map_nil, List.sum_nil,
      add_zero, Bool.false_eq_true, if_false, lnsd_eq _ _ _ hS, mul_pow]
  · obtain ⟨s, hs, hA, hS, -⟩ := sums_ok periodsStayers l cs h
    rw [hs]
    refine congrArg Except.ok ?_
    have a1 := hA .p12 (by decide)
    have a2 := hA .p43 (by decide)
    have a3 := hA .p2ma (by decide)
    have a4 := hA .p3ma (by decide)
    have a5 := hA .p2s (by decide)
    have a6 := hA .p3s (by decide)
    have s1 := hS .p12 (by decide)
    have s2 := hS .p43 (by decide)
    have s3 := hS .p2ma (by decide)
    have s4 := hS .p3ma (by decide)
    have s5 := hS .p2s (by decide)
    have s6 := hS .p3s (by decide)
    simp only [lpStayersCtrl, lpS, totA, totS, DBase.a, DBase.s2, Per.isB, Bool.false_eq_true, if_false,
      ← a1, ← a2, ← a3, ← a4, ← a5, ← a6, ← s1, ← s2, ← s3, ← s4, ← s5, ← s6]
    congr 1
    · congr 1
      · congr 1 <;> ring
      · congr 1 <;> ring
    · congr 1
      · congr 1 <;> ring
      · congr 1 <;> ring

/-- All standard deviations are positive. -/
def PosS (b : DBase nl nk) : Prop := (∀ p l g, 0 < b.Sw p l g) ∧ ∀ p g, 0 ≤ b.Sb p g

theorem s2_pos (b : DBase nl nk) (h : PosS b) (l : Fin nl) (G : Fin 2 → Fin nk) (p : Per) :
    0 ≤ b.s2 l G p ∧ (p.isB = false → 0 < b.s2 l G p) := by
  unfold DBase.s2
  refine ⟨by split <;> positivity, fun hp => ?_⟩
  rw [hp]
  simp only [Bool.false_eq_true, if_false]
  have := h.1 p l (G (slot p))
  positivity

theorem tot_pos (b : DBase nl nk) (h : PosS b) (l : Fin nl) (G : Fin 2 → Fin nk) (cs : List (DCtrl nl))
    (p : Per) : 0 ≤ totS b l G cs p ∧ (p.isB = false → 0 < totS b l G cs p) := by
  have hs : 0 ≤ (cs.map fun c => simS l p c ^ 2).sum := by
    refine List.sum_nonneg fun x hx => ?_
    obtain ⟨c, -, rfl⟩ := List.mem_map.mp hx
    positivity
  obtain ⟨h1, h2⟩ := s2_pos b h l G p
  exact ⟨add_nonneg h1 hs, fun hp => add_pos_of_pos_of_nonneg (h2 hp) hs⟩

theorem cond_pos (t : Per → ℝ) (r : Rhos) (h : ∀ p, 0 ≤ t p ∧ (p.isB = false → 0 < t p)) :
    0 < t .p12 + r.R12 ^ 2 * t .p2ma ∧ 0 < t .p2ma + t .p2mb ∧
      0 < t .p3ma + t .p3mb + r.R32 ^ 2 * (t .p2ma + t .p2mb) ∧ 0 < t .p43 + r.R43 ^ 2 * t .p3ma ∧
      0 < t .p2s ∧ 0 < t .p3s + r.R32 ^ 2 * t .p2s := by
  have q1 := (h .p12).2 rfl
  have q2 := (h .p43).2 rfl
  have q3 := (h .p2ma).2 rfl
  have q4 := (h .p3ma).2 rfl
  have q5 := (h .p2s).2 rfl
  have q6 := (h .p3s).2 rfl
  have q7 := (h .p2mb).1
  have q8 := (h .p3mb).1
  refine ⟨?_, ?_, ?_, ?_, q5, ?_⟩ <;> positivity

/-! ## C73 -/

/-- C73 (partial): given its worker type, a mover's four simulated wages have jointly exactly the density the
dynamic estimator assigns to them, if the controls' standard deviations equal their squares (in particular
without controls).  Missing: other controls (`C73_controls_wrong`, `C73_continuous_raise`). -/
theorem C73_movers_partial (b : DBase nl nk) (hb : PosS b) (r : Rhos) (L : Fin nl) (G : Fin 2 → Fin nk)
    (cs : List (DCtrl nl)) (hc : AllCat cs) (hs : ∀ c ∈ cs, ∀ p, simS L p c ^ 2 = simS L p c) :
    ∃ lp : Wages → ℝ, (∀ y, lpMovers b r L G cs y = .ok (lp y)) ∧
      Spec.HasDensity (simMover b r L G cs) fun y => Real.exp (lp y) := by
  refine ⟨_, lpMovers_eq b r L G cs hc, ?_⟩
  have e : simSumS b L G cs = totS b L G cs := by
    funext p
    rw [simSumS_eq, totS]
    congr 2
    exact List.map_congr_left fun c hc => (hs c hc p).symm
  obtain ⟨h1, h2, h3, h4, -, -⟩ := cond_pos _ r (tot_pos b hb L G cs)
  have := draw_movers_density (totA b L G cs) (totS b L G cs) r h1 h2 h3 h4
  intro f
  rw [← this f]
  simp only [simMover, simSumA_eq, e]

/-- C73 (partial): the same for stayers. -/
theorem C73_stayers_partial (b : DBase nl nk) (hb : PosS b) (r : Rhos) (L : Fin nl) (g : Fin nk)
    (cs : List (DCtrl nl)) (hc : AllCat cs) (hs : ∀ c ∈ cs, ∀ p, simS L p c ^ 2 = simS L p c) :
    ∃ lp : Wages → ℝ, (∀ y, lpStayers b r L g cs y = .ok (lp y)) ∧
      Spec.HasDensity (simStayer b r L g cs) fun y => Real.exp (lp y) := by
  refine ⟨_, lpStayers_eq b r L g cs hc (hb.1 _ _ _), ?_⟩
  have e : simSumS b L (fun _ => g) cs = totS b L (fun _ => g) cs := by
    funext p
    rw [simSumS_eq, totS]
    congr 2
    exact List.map_congr_left fun c hc => (hs c hc p).symm
  obtain ⟨h1, -, -, h4, h5, h6⟩ := cond_pos _ r (tot_pos b hb L (fun _ => g) cs)
  have := draw_stayers_density (totA b L (fun _ => g) cs) (totS b L (fun _ => g) cs) r h1 h5 h6 h4
  intro f
  rw [← this f]
  simp only [simStayer, simSumA_eq, e]

/-- C73: the type proportions' row of a mover is the one its type was drawn from, simdblm.py:883 against
blm_dynamic.py:1980 (both `k1 + nk * k2`): different pairs have different rows. -/
theorem C73_types (G G' : Fin 2 → Fin nk)
    (h : (G 0).val + nk * (G 1).val = (G' 0).val + nk * (G' 1).val) : G = G' := by
  have h0 := (G 0).isLt
  have h0' := (G' 0).isLt
  have e1 := congrArg (· % nk) h
  simp only [Nat.add_mul_mod_self_left, Nat.mod_eq_of_lt h0, Nat.mod_eq_of_lt h0'] at e1
  rw [e1] at h
  have e2 : (G 1).val = (G' 1).val := Nat.eq_of_mul_eq_mul_left (by omega) (Nat.add_left_cancel h)
  funext t
  match t with
  | 0 => exact Fin.ext e1
  | 1 => exact Fin.ext e2

/-- The expectation of a function of the second drawn wage. -/
theorem expect_y2 (a s2 : Per → ℝ) (r : Rhos) (f : ℝ → ENNReal) :
    Spec.expect (fun e1 e2 e3 e4 => f (drawStayers a s2 r e1 e2 e3 e4).y2) =
      ∫⁻ e, f (a .p2s + √(s2 .p2s) * e) ∂gaussianReal 0 1 := by
  unfold Spec.expect drawStayers
  simp only [lintegral_const, measure_univ, mul_one]

/-- C73 (wrong with controls): the simulator adds the controls' standard deviations where their variances
belong.  If a stayer's simulated wages have the density the estimator assigns to them, then the standard
deviations of the controls and their squares have the same sum in period `'2s'`. -/
theorem C73_controls_wrong (b : DBase nl nk) (hb : PosS b) (r : Rhos) (L : Fin nl) (g : Fin nk)
    (cs : List (DCtrl nl)) (hc : AllCat cs) (hs : ∀ c ∈ cs, 0 ≤ simS L .p2s c) (lp : Wages → ℝ)
    (hlp : ∀ y, lpStayers b r L g cs y = .ok (lp y))
    (h : Spec.HasDensity (simStayer b r L g cs) fun y => Real.exp (lp y)) :
    (cs.map (simS L .p2s)).sum = (cs.map fun c => simS L .p2s c ^ 2).sum := by
  have hsum : 0 ≤ (cs.map (simS L .p2s)).sum := by
    refine List.sum_nonneg fun x hx => ?_
    obtain ⟨c, hc, rfl⟩ := List.mem_map.mp hx
    exact hs c hc
  obtain ⟨h1, -, -, h4, h5, h6⟩ := cond_pos _ r (tot_pos b hb L (fun _ => g) cs)
  have hd := draw_stayers_density (totA b L (fun _ => g) cs) (totS b L (fun _ => g) cs) r h1 h5 h6 h4
  have elp : ∀ y, lp y = lpS (totA b L (fun _ => g) cs) (totS b L (fun _ => g) cs) r y := by
    intro y
    have := hlp y
    rw [lpStayers_eq b r L g cs hc (hb.1 _ _ _)] at this
    simp only [Except.ok.injEq] at this
    exact this.symm
  have hv : 0 < simSumS b L (fun _ => g) cs .p2s := by
    rw [simSumS_eq]
    exact add_pos_of_pos_of_nonneg ((s2_pos b hb L (fun _ => g) .p2s).2 rfl) hsum
  have key : ∀ f : ℝ → ENNReal,
      ∫⁻ e, f (totA b L (fun _ => g) cs .p2s + √(simSumS b L (fun _ => g) cs .p2s) * e) ∂gaussianReal 0 1 =
      ∫⁻ e, f (totA b L (fun _ => g) cs .p2s + √(totS b L (fun _ => g) cs .p2s) * e) ∂gaussianReal 0 1 := by
    intro f
    have k1 := h fun y => f y.y2
    have k2 := hd fun y => f y.y2
    simp only [elp] at k1
    rw [← k2, expect_y2] at k1
    have k3 := expect_y2 (simSumA b L (fun _ => g) cs) (simSumS b L (fun _ => g) cs) r f
    unfold simStayer at k1
    rw [k3, simSumA_eq] at k1
    exact k1
  have hmeas : gaussianReal (totA b L (fun _ => g) cs .p2s) (simSumS b L (fun _ => g) cs .p2s).toNNReal =
      gaussianReal (totA b L (fun _ => g) cs .p2s) (totS b L (fun _ => g) cs .p2s).toNNReal := by
    ext A hA
    have := key (A.indicator 1)
    rw [lint_gauss _ _ hv, lint_gauss _ _ h5] at this
    rw [gaussianReal_of_var_ne_zero _ (by simpa using hv), gaussianReal_of_var_ne_zero _ (by simpa using h5),
      withDensity_apply _ hA, withDensity_apply _ hA, ← lintegral_indicator hA, ← lintegral_indicator hA]
    have e : ∀ v : NNReal, A.indicator (gaussianPDF (totA b L (fun _ => g) cs .p2s) v) =
        fun y => ENNReal.ofReal (gaussianPDFReal (totA b L (fun _ => g) cs .p2s) v y) * A.indicator 1 y := by
      intro v
      funext y
      by_cases hy : y ∈ A <;> simp [hy, gaussianPDF]
    rw [e, e]
    exact this
  have hvar := congrArg (fun μ => Var[id; μ]) hmeas
  simp only [variance_id_gaussianReal, Real.coe_toNNReal _ hv.le, Real.coe_toNNReal _ h5.le] at hvar
  rw [simSumS_eq, totS] at hvar
  linarith

/-- C73 (wrong with continuous controls): with any continuous control the estimator's likelihood raises, for
movers and stayers, whatever the data. -/
theorem C73_continuous_raise (b : DBase nl nk) (r : Rhos) (l : Fin nl) (G : Fin 2 → Fin nk) (g : Fin nk)
    (cs : List (DCtrl nl)) (wi x Aw Sw An Sn) (h : DCtrl.cts wi x Aw Sw An Sn ∈ cs) (y : Wages) :
    (∃ e, lpMovers b r l G cs y = .error e) ∧ ∃ e, lpStayers b r l g cs y = .error e := by
  have hne : cs.isEmpty = false := by
    cases cs with
    | nil => simp at h
    | cons _ _ => rfl
  have herr : ∀ (f : DCtrl nl → Py ℝ), (∃ e, f (.cts wi x Aw Sw An Sn) = .error e) → ∃ e, sumOver f cs = .error e := by
    intro f hf
    unfold sumOver
    generalize (0 : ℝ) = z
    induction cs generalizing z with
    | nil => simp at h
    | cons c cs ih =>
      rw [List.foldlM_cons]
      cases hc : f c with
      | error e => exact ⟨e, rfl⟩
      | ok v =>
        rcases List.mem_cons.mp h with rfl | h'
        · obtain ⟨e, he⟩ := hf
          rw [he] at hc; cases hc
        · cases cs with
          | nil => simp at h'
          | cons _ _ => exact ih h' rfl _
  have hper : ∀ (ps : List Per) (p : Per) (f : Per → Py ℝ), p ∈ ps → (∃ e, f p = .error e) →
      ∃ e, overPeriods ps f = .error e := by
    intro ps p f hp hf
    unfold overPeriods
    generalize (fun _ => (0 : ℝ)) = z
    induction ps generalizing z with
    | nil => simp at hp
    | cons a ps ih =>
      rw [List.foldlM_cons]
      cases ha : f a with
      | error e => exact ⟨e, rfl⟩
      | ok v =>
        rcases List.mem_cons.mp hp with rfl | hp'
        · obtain ⟨e, he⟩ := hf
          rw [he] at ha; cases ha
        · exact ih hp' _
  have hsums : ∀ ps : List Per, .p12 ∈ ps → ∃ e, sums ps l cs = .error e := by
    intro ps hp
    unfold sums
    cases h1 : overPeriods ps fun p => sumOver (nonA p) cs with
    | error e => exact ⟨e, rfl⟩
    | ok an =>
      cases h2 : overPeriods ps fun p => sumOver (nonS p) cs with
      | error e => exact ⟨e, rfl⟩
      | ok sn =>
        cases wi
        · obtain ⟨e, he⟩ := hper ps .p12 (fun p => sumOver (nonA p) cs) hp (herr _ ⟨_, rfl⟩)
          rw [he] at h1; cases h1
        · obtain ⟨e, he⟩ := hper ps .p12 (fun p => sumOver (byA l p) cs) hp (herr _ ⟨_, rfl⟩)
          simp only [he]
          exact ⟨e, rfl⟩
  constructor
  · unfold lpMovers
    rw [hne]
    obtain ⟨e, he⟩ := hsums periodsMovers (by decide)
    rw [he]
    exact ⟨e, rfl⟩
  · unfold lpStayers
    rw [hne]
    obtain ⟨e, he⟩ := hsums periodsStayers (by decide)
    rw [he]
    exact ⟨e, rfl⟩

/-! ## C74 -/

/-- C74 (partial): without controls, the wages drawn by the dynamic parametric bootstrap have jointly exactly
the estimated density, for movers and for stayers.  Missing: controls (`C74_controls_raise`). -/
theorem C74_density_partial (b : DBase nl nk) (hb : PosS b) (r : Rhos) (L : Fin nl) (G : Fin 2 → Fin nk)
    (g : Fin nk) :
    (∃ (draw : ℝ → ℝ → ℝ → ℝ → Wages) (lp : Wages → ℝ), (∀ e1 e2 e3 e4, bootMover b r L G [] e1 e2 e3 e4 = .ok (draw e1 e2 e3 e4)) ∧
      (∀ y, lpMovers b r L G [] y = .ok (lp y)) ∧ Spec.HasDensity draw fun y => Real.exp (lp y)) ∧
    (∃ (draw : ℝ → ℝ → ℝ → ℝ → Wages) (lp : Wages → ℝ), (∀ e1 e2 e3 e4, bootStayer b r L g [] e1 e2 e3 e4 = .ok (draw e1 e2 e3 e4)) ∧
      (∀ y, lpStayers b r L g [] y = .ok (lp y)) ∧ Spec.HasDensity draw fun y => Real.exp (lp y)) := by
  constructor
  · obtain ⟨lp, h1, h2⟩ := C73_movers_partial b hb r L G [] (by simp [AllCat]) (by simp)
    exact ⟨_, lp, fun _ _ _ _ => rfl, h1, h2⟩
  · obtain ⟨lp, h1, h2⟩ := C73_stayers_partial b hb r L g [] (by simp [AllCat]) (by simp)
    exact ⟨_, lp, fun _ _ _ _ => rfl, h1, h2⟩

/-- C74 (wrong with controls): with any control the dynamic bootstrap raises. -/
theorem C74_controls_raise (b : DBase nl nk) (r : Rhos) (L : Fin nl) (G : Fin 2 → Fin nk) (g : Fin nk)
    (cs : List (DCtrl nl)) (h : cs ≠ []) (e1 e2 e3 e4 : ℝ) :
    bootMover b r L G cs e1 e2 e3 e4 = .error "KeyError" ∧ bootStayer b r L g cs e1 e2 e3 e4 = .error "KeyError" := by
  have : cs.isEmpty = false := by
    cases cs with
    | nil => exact absurd rfl h
    | cons _ _ => rfl
  simp [bootMover, bootStayer, this]

/-- Non-vacuity: a model with positive standard deviations, and a control for which the simulator's variance
differs from the estimator's. -/
example : ∃ b : DBase 1 1, PosS b ∧ ∃ cs : List (DCtrl 1), AllCat cs ∧ (∀ c ∈ cs, 0 ≤ simS 0 .p2s c) ∧
    (cs.map (simS 0 .p2s)).sum ≠ (cs.map fun c => simS 0 .p2s c ^ 2).sum := by
  refine ⟨⟨fun _ _ _ => 0, fun _ _ => 0, fun _ _ _ => 1, fun _ _ => 1⟩, ⟨by simp, by simp⟩,
    [.cat false (fun _ => 0) (fun _ _ _ => 0) (fun _ _ _ => 0) (fun _ _ => 0) fun _ _ => 1 / 2], ?_, ?_, ?_⟩
  · intro c hc
    rw [List.mem_singleton] at hc
    exact ⟨_, _, _, _, _, _, hc⟩
  · intro c hc
    rw [List.mem_singleton] at hc
    subst hc
    simp [simS]
  · norm_num [simS]

end Pytwoway.Dynamic
