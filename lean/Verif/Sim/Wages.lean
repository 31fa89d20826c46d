import Mathlib.Probability.Distributions.Gaussian.Real
import Verif.BLM.Model

/-! # Simulated wages follow the estimator's density: C71, C72

`pytwoway/simblm.py`, `SimBLM._simulate_movers` and `_simulate_stayers`, and `pytwoway/blm.py`,
`_simulate_types_wages` (the parametric bootstrap and the variance decomposition draw from it), against
the density of `BLMModel.fit_movers` and `fit_stayers`. -/

namespace Pytwoway.Sim

open Finset MeasureTheory ProbabilityTheory Pytwoway.BLM

variable {ni nl nk : ℕ}

/-! ## Model -/

/-- `A1_sum`/`A2_sum` of the controls, simblm.py:523-555 and blm.py:421-463: one loop over all controls,
`l` the worker type of the row. -/
def ctrlA (cs : List (Ctrl ni nl)) (l : Fin nl) (t : Fin 2) (i : Fin ni) : ℝ :=
  cs.foldl (fun acc c => match c with
    | .catW C A _ => acc + A t l (C t i)
    | .catN C A _ => acc + A t (C t i)
    | .ctsW C A _ => acc + A t l * C t i
    | .ctsN C A _ => acc + A t * C t i) 0

/-- `S1_sum_sq`/`S2_sum_sq` of the controls, same lines.  Used for simblm.py:506-507, 557-558 and blm.py:414-472. -/
def ctrlS (cs : List (Ctrl ni nl)) (l : Fin nl) (t : Fin 2) (i : Fin ni) : ℝ :=
  cs.foldl (fun acc c => match c with
    | .catW C _ S => acc + S t l (C t i) ^ 2
    | .catN C _ S => acc + S t (C t i) ^ 2
    | .ctsW _ _ S => acc + S t l ^ 2
    | .ctsN _ _ S => acc + S t ^ 2) 0

/-- The row of `pk1` a mover's type is drawn from, simblm.py:497 and blm.py:409. -/
def pkRow (nk k1 k2 : ℕ) : ℕ := k1 + nk * k2

/-- A wage of SimBLM, simblm.py:506-507, 557-558 (stayers 625-626, 676-677): `e0` and `e1` are the
standard normal draws; `G`, `L` the row's firm and worker types. -/
noncomputable def simWage (b : Base nl nk) (cs : List (Ctrl ni nl)) (t : Fin 2) (i : Fin ni) (G : Fin nk)
    (L : Fin nl) (e0 e1 : ℝ) : ℝ :=
  (b.A t L G + b.S t L G * e0) +
    if cs.isEmpty then 0 else ctrlA cs L t i + √(ctrlS cs L t i) * e1

/-- A wage of `_simulate_types_wages`, blm.py:414-472 (stayers 487-520); `w` the weight (1 if none). -/
noncomputable def bootWage (b : Base nl nk) (cs : List (Ctrl ni nl)) (t : Fin 2) (i : Fin ni) (G : Fin nk)
    (L : Fin nl) (w e : ℝ) : ℝ :=
  if cs.isEmpty then b.A t L G + b.S t L G / w * e
  else (b.A t L G + ctrlA cs L t i) + √(b.S t L G ^ 2 + ctrlS cs L t i) / w * e

/-! ## Lemmas -/

theorem ctrlA_eq (cs : List (Ctrl ni nl)) (l : Fin nl) (t : Fin 2) (i : Fin ni) :
    ctrlA cs l t i = sumNonA cs t i + sumByA cs l t i := by
  unfold ctrlA sumNonA sumByA
  have : ∀ (cs : List (Ctrl ni nl)) (x y z : ℝ), z = x + y →
      cs.foldl (fun acc c => match c with
        | .catW C A _ => acc + A t l (C t i)
        | .catN C A _ => acc + A t (C t i)
        | .ctsW C A _ => acc + A t l * C t i
        | .ctsN C A _ => acc + A t * C t i) z =
      cs.foldl (fun acc c => match c with
        | .catN C A _ => acc + A t (C t i)
        | .ctsN C A _ => acc + A t * C t i
        | _ => acc) x +
      cs.foldl (fun acc c => match c with
        | .catW C A _ => acc + A t l (C t i)
        | .ctsW C A _ => acc + A t l * C t i
        | _ => acc) y := by
    intro cs
    induction cs with
    | nil => intro x y z h; exact h
    | cons c cs ih =>
      intro x y z h
      rw [List.foldl_cons, List.foldl_cons, List.foldl_cons]
      apply ih
      cases c <;> simp only [h] <;> ring
  exact this cs 0 0 0 (by ring)

theorem ctrlS_eq (cs : List (Ctrl ni nl)) (l : Fin nl) (t : Fin 2) (i : Fin ni) :
    ctrlS cs l t i = sumNonS cs t i + sumByS cs l t i := by
  unfold ctrlS sumNonS sumByS
  have : ∀ (cs : List (Ctrl ni nl)) (x y z : ℝ), z = x + y →
      cs.foldl (fun acc c => match c with
        | .catW C _ S => acc + S t l (C t i) ^ 2
        | .catN C _ S => acc + S t (C t i) ^ 2
        | .ctsW _ _ S => acc + S t l ^ 2
        | .ctsN _ _ S => acc + S t ^ 2) z =
      cs.foldl (fun acc c => match c with
        | .catN C _ S => acc + S t (C t i) ^ 2
        | .ctsN _ _ S => acc + S t ^ 2
        | _ => acc) x +
      cs.foldl (fun acc c => match c with
        | .catW C _ S => acc + S t l (C t i) ^ 2
        | .ctsW _ _ S => acc + S t l ^ 2
        | _ => acc) y := by
    intro cs
    induction cs with
    | nil => intro x y z h; exact h
    | cons c cs ih =>
      intro x y z h
      rw [List.foldl_cons, List.foldl_cons, List.foldl_cons]
      apply ih
      cases c <;> simp only [h] <;> ring
  exact this cs 0 0 0 (by ring)

theorem ctrlS_nonneg (cs : List (Ctrl ni nl)) (l : Fin nl) (t : Fin 2) (i : Fin ni) : 0 ≤ ctrlS cs l t i := by
  unfold ctrlS
  have : ∀ (cs : List (Ctrl ni nl)) (z : ℝ), 0 ≤ z → 0 ≤
      cs.foldl (fun acc c => match c with
        | .catW C _ S => acc + S t l (C t i) ^ 2
        | .catN C _ S => acc + S t (C t i) ^ 2
        | .ctsW _ _ S => acc + S t l ^ 2
        | .ctsN _ _ S => acc + S t ^ 2) z := by
    intro cs
    induction cs with
    | nil => intro z h; exact h
    | cons c cs ih =>
      intro z h
      rw [List.foldl_cons]
      apply ih
      cases c <;> dsimp only <;> positivity
  exact this cs 0 le_rfl

/-- The estimator's log density of a wage `y` is that of a normal distribution. -/
theorem exp_lpWage (d : Data ni nk) (b : Base nl nk) (cs : List (Ctrl ni nl)) (t : Fin 2) (l : Fin nl)
    (i : Fin ni) (hS : 0 < b.S t l (d.G t i)) :
    Real.exp (lpWage d b cs t l i) = gaussianPDFReal
      (b.A t l (d.G t i) + if cs.isEmpty then 0 else ctrlA cs l t i)
      (b.S t l (d.G t i) ^ 2 + if cs.isEmpty then 0 else ctrlS cs l t i).toNNReal (d.Y t i) := by
  have hpos : ∀ m v x, 0 < v → Real.exp (Real.log (gaussianPDFReal m (Real.toNNReal v) x)) =
      gaussianPDFReal m v.toNNReal x := by
    intro m v x hv
    exact Real.exp_log (gaussianPDFReal_pos _ _ _ (by simpa using hv))
  have hS2 : 0 < b.S t l (d.G t i) ^ 2 := by positivity
  unfold lpWage
  split
  · rename_i h
    have e := (Util.C06_fast (d.Y t) (b.A t l) (b.S t l) (d.G t) i).symm.trans
      (Util.C06_sd (d.Y t i) (b.A t l (d.G t i)) _ hS)
    simp only [Except.ok.injEq] at e
    rw [e, hpos _ _ _ hS2, add_zero, add_zero]
  · have hv : 0 < b.S t l (d.G t i) ^ 2 + ctrlS cs l t i := add_pos_of_pos_of_nonneg hS2 (ctrlS_nonneg _ _ _ _)
    rw [add_assoc, add_assoc, ← ctrlA_eq, ← ctrlS_eq, lnvar, Util.C06_var _ _ _ hv]
    exact hpos _ _ _ hv

/-- A normal law with positive variance, in terms of a density. -/
theorem gaussian_density (m v : ℝ) (hv : 0 < v) (f : ℝ → ℝ) (hf : ∀ y, f y = gaussianPDFReal m v.toNNReal y) :
    gaussianReal m v.toNNReal = volume.withDensity fun y => ENNReal.ofReal (f y) := by
  rw [gaussianReal_of_var_ne_zero _ (by simpa using hv)]
  congr 1
  funext y
  rw [hf, gaussianPDF]

variable {Ω : Type*} [MeasurableSpace Ω]

/-- The law of `m + s * e` for a standard normal `e`. -/
theorem law_scale (μ : Measure Ω) (e : Ω → ℝ) (he : μ.map e = gaussianReal 0 1)
    (m s : ℝ) : μ.map (fun ω => m + s * e ω) = gaussianReal m (s ^ 2).toNNReal := by
  have hm : AEMeasurable e μ := by
    apply AEMeasurable.of_map_ne_zero
    rw [he]
    exact NeZero.ne _
  have h1 := gaussianReal_const_add (gaussianReal_const_mul ⟨hm, he⟩ s) m
  have h2 := h1.map_eq
  rw [h2]
  congr 1
  · ring
  · rw [mul_one]
    ext
    simp [Real.coe_toNNReal _ (sq_nonneg s)]

/-! ## C71 -/

/-- C71: given its worker type, a simulated wage has exactly the density the estimator assigns to it:
for independent standard normal draws, the law of the wage has density `exp(lp)`, `lp` the estimator's log
density at the true parameters, with and without controls, in both periods. -/
theorem C71_density (μ : Measure Ω) (e0 e1 : Ω → ℝ) (h0 : μ.map e0 = gaussianReal 0 1)
    (h1 : μ.map e1 = gaussianReal 0 1) (hind : IndepFun e0 e1 μ) (b : Base nl nk)
    (cs : List (Ctrl ni nl)) (t : Fin 2) (i : Fin ni) (G : Fin nk) (L : Fin nl) (hS : 0 < b.S t L G) :
    μ.map (fun ω => simWage b cs t i G L (e0 ω) (e1 ω)) =
      volume.withDensity fun y => ENNReal.ofReal
        (Real.exp (lpWage ⟨fun _ _ => y, fun _ _ => G, fun _ _ => 1⟩ b cs t L i)) := by
  have hS2 : 0 < b.S t L G ^ 2 := by positivity
  by_cases hc : cs.isEmpty = true
  · rw [← gaussian_density (b.A t L G) (b.S t L G ^ 2) hS2 _ fun y => by
      rw [exp_lpWage _ _ _ _ _ _ hS, if_pos hc, if_pos hc, add_zero, add_zero]]
    rw [← law_scale μ e0 h0]
    congr 1
    funext ω
    rw [simWage, if_pos hc, add_zero]
  · have hv : 0 < b.S t L G ^ 2 + ctrlS cs L t i :=
      add_pos_of_pos_of_nonneg hS2 (ctrlS_nonneg _ _ _ _)
    rw [← gaussian_density (b.A t L G + ctrlA cs L t i) (b.S t L G ^ 2 + ctrlS cs L t i) hv _ fun y => by
      rw [exp_lpWage _ _ _ _ _ _ hS, if_neg hc, if_neg hc]]
    have hsum : IndepFun (fun ω => b.A t L G + b.S t L G * e0 ω)
        (fun ω => ctrlA cs L t i + √(ctrlS cs L t i) * e1 ω) μ :=
      hind.comp (φ := fun x => b.A t L G + b.S t L G * x)
        (ψ := fun x => ctrlA cs L t i + √(ctrlS cs L t i) * x) (by fun_prop) (by fun_prop)
    have := gaussianReal_add_gaussianReal_of_indepFun hsum (law_scale μ e0 h0 _ _) (law_scale μ e1 h1 _ _)
    rw [Real.sq_sqrt (ctrlS_nonneg _ _ _ _), ← Real.toNNReal_add hS2.le (ctrlS_nonneg _ _ _ _)] at this
    rw [← this]
    congr 1
    funext ω
    rw [simWage, if_neg hc]
    rfl

/-- C71: a mover's worker type is drawn from the row of the type proportions in which the estimator looks
the mover up. -/
theorem C71_types (d : Data ni nk) (i : Fin ni) :
    pkRow nk (d.G 0 i).val (d.G 1 i).val = KK d i ∧ KK d i < nk ^ 2 ∧
    ∀ k1 k2, k1 < nk → k2 < nk → pkRow nk k1 k2 = KK d i → k1 = (d.G 0 i).val ∧ k2 = (d.G 1 i).val := by
  have h0 := (d.G 0 i).isLt
  have h1 := (d.G 1 i).isLt
  refine ⟨rfl, ?_, ?_⟩
  · unfold KK
    rw [pow_two]
    calc (d.G 0 i).val + nk * (d.G 1 i).val < nk + nk * (d.G 1 i).val := by omega
      _ = nk * ((d.G 1 i).val + 1) := by ring
      _ ≤ nk * nk := Nat.mul_le_mul_left _ h1
  · intro k1 k2 hk1 hk2 h
    unfold pkRow KK at h
    have e1 := congrArg (· % nk) h
    simp only [Nat.add_mul_mod_self_left, Nat.mod_eq_of_lt hk1, Nat.mod_eq_of_lt h0] at e1
    refine ⟨e1, ?_⟩
    rw [e1] at h
    have hp : 0 < nk := by omega
    exact Nat.eq_of_mul_eq_mul_left hp (by omega)

/-! ## C72 -/

/-- C72 (partial): without weights, a wage drawn by the parametric bootstrap has exactly the estimated
density given its worker type.  Missing: weights, for which the variance is wrong
(`C72_weighted_variance`). -/
theorem C72_density_partial (μ : Measure Ω) (e : Ω → ℝ) (he : μ.map e = gaussianReal 0 1) (b : Base nl nk)
    (cs : List (Ctrl ni nl)) (t : Fin 2) (i : Fin ni) (G : Fin nk) (L : Fin nl) (hS : 0 < b.S t L G) :
    μ.map (fun ω => bootWage b cs t i G L 1 (e ω)) =
      volume.withDensity fun y => ENNReal.ofReal
        (Real.exp (lpWage ⟨fun _ _ => y, fun _ _ => G, fun _ _ => 1⟩ b cs t L i)) := by
  have hS2 : 0 < b.S t L G ^ 2 := by positivity
  by_cases hc : cs.isEmpty = true
  · rw [← gaussian_density (b.A t L G) (b.S t L G ^ 2) hS2 _ fun y => by
      rw [exp_lpWage _ _ _ _ _ _ hS, if_pos hc, if_pos hc, add_zero, add_zero]]
    rw [← law_scale μ e he]
    congr 1
    funext ω
    rw [bootWage, if_pos hc, div_one]
  · have hv : 0 < b.S t L G ^ 2 + ctrlS cs L t i :=
      add_pos_of_pos_of_nonneg hS2 (ctrlS_nonneg _ _ _ _)
    rw [← gaussian_density (b.A t L G + ctrlA cs L t i) (b.S t L G ^ 2 + ctrlS cs L t i) hv _ fun y => by
      rw [exp_lpWage _ _ _ _ _ _ hS, if_neg hc, if_neg hc]]
    have := law_scale μ e he (b.A t L G + ctrlA cs L t i) √(b.S t L G ^ 2 + ctrlS cs L t i)
    rw [Real.sq_sqrt hv.le] at this
    rw [← this]
    congr 1
    funext ω
    rw [bootWage, if_neg hc, div_one]

/-- C72 (wrong with weights): the variance of a drawn wage is the squared estimated standard deviation
over the *square* of the weight.  The estimator's variance, a weighted mean of squared residuals, does not
change when all weights are multiplied by a constant; the bootstrap's does: for weights all equal to `c`
the expected weighted mean of squared deviations of the drawn wages is `S ** 2 / c ** 2`, not `S ** 2`. -/
theorem C72_weighted_variance (μ : Measure Ω) (n : ℕ) (hn : 0 < n) (e : Fin n → Ω → ℝ)
    (he : ∀ r, μ.map (e r) = gaussianReal 0 1) (b : Base nl nk) (t : Fin 2) (i : Fin ni) (G : Fin nk)
    (L : Fin nl) (w : Fin n → ℝ) (hw : ∀ r, 0 < w r) :
    (∀ r, μ.map (fun ω => bootWage b [] t i G L (w r) (e r ω)) =
      gaussianReal (b.A t L G) (b.S t L G ^ 2 / w r ^ 2).toNNReal) ∧
    ∫ ω, (∑ r, w r * (bootWage b ([] : List (Ctrl ni nl)) t i G L (w r) (e r ω) - b.A t L G) ^ 2) / ∑ r, w r ∂μ =
      b.S t L G ^ 2 * (∑ r, 1 / w r) / ∑ r, w r ∧
    (∀ c, (∀ r, w r = c) → b.S t L G ^ 2 * (∑ r, 1 / w r) / ∑ r, w r = b.S t L G ^ 2 / c ^ 2) := by
  have hmeas : ∀ r, AEMeasurable (e r) μ := fun r => by
    apply AEMeasurable.of_map_ne_zero
    rw [he]
    exact NeZero.ne _
  have hint2 : ∀ r, ∫ ω, e r ω ^ 2 ∂μ = 1 := by
    intro r
    have h1 : ∫ ω, e r ω ^ 2 ∂μ = ∫ x, x ^ 2 ∂(gaussianReal 0 1) := by
      rw [← he r, integral_map (hmeas r) (by fun_prop)]
    rw [h1]
    have h2 : Var[fun x : ℝ => x; gaussianReal 0 1] = 1 := by
      simpa using variance_fun_id_gaussianReal (μ := 0) (v := 1)
    rw [variance_eq_integral (by fun_prop)] at h2
    simpa using h2
  have hI : ∀ r, Integrable (fun ω => e r ω ^ 2) μ := by
    intro r
    by_contra h
    have := integral_undef h
    rw [hint2 r] at this
    exact one_ne_zero this
  refine ⟨?_, ?_, ?_⟩
  · intro r
    rw [← div_pow, ← law_scale μ (e r) (he r)]
    rfl
  · rw [integral_div]
    congr 1
    have e1 : ∀ ω, (∑ r, w r * (bootWage b ([] : List (Ctrl ni nl)) t i G L (w r) (e r ω) - b.A t L G) ^ 2) =
        ∑ r, b.S t L G ^ 2 * (1 / w r) * e r ω ^ 2 := by
      intro ω
      refine sum_congr rfl fun r _ => ?_
      rw [bootWage, if_pos List.isEmpty_nil]
      have := (hw r).ne'
      field_simp
      ring
    simp only [e1]
    rw [integral_finsetSum _ fun r _ => (hI r).const_mul _]
    rw [mul_sum]
    refine sum_congr rfl fun r _ => ?_
    rw [integral_const_mul, hint2 r, mul_one]
  · intro c hc
    have hcp : c ≠ 0 := by rw [← hc ⟨0, hn⟩]; exact (hw _).ne'
    simp only [hc, sum_const, card_univ, Fintype.card_fin, nsmul_eq_mul]
    have : (n : ℝ) ≠ 0 := Nat.cast_ne_zero.mpr hn.ne'
    field_simp

/-- Non-vacuity: two independent standard normal draws exist. -/
example : ∃ (Ω : Type) (_ : MeasurableSpace Ω) (μ : Measure Ω) (e0 e1 : Ω → ℝ),
    μ.map e0 = gaussianReal 0 1 ∧ μ.map e1 = gaussianReal 0 1 ∧ IndepFun e0 e1 μ := by
  refine ⟨ℝ × ℝ, inferInstance, (gaussianReal 0 1).prod (gaussianReal 0 1), Prod.fst, Prod.snd, ?_, ?_, ?_⟩
  · simp
  · simp
  · exact indepFun_prod (X := id) (Y := id) measurable_id measurable_id

end Pytwoway.Sim
