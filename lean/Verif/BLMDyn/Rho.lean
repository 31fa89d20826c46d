import Mathlib.Probability.Moments.Covariance
import Mathlib.Algebra.BigOperators.Fin
import Mathlib.Tactic.FinCases
import Mathlib.Tactic.Linarith
import Mathlib.Tactic.NormNum
import Mathlib.Analysis.Complex.ExponentialBounds
import Mathlib.Analysis.SpecialFunctions.Log.Basic
import Verif.BLMDyn.Wages

/-! # Persistence parameters of the dynamic model: C53, C55

`pytwoway/blm_dynamic.py`: `_var_stayers` (629-782) and `rho_init` (784-804), and the updates of the
persistence parameters in `_fit_movers` (2176-2243) and `fit_stayers` (3140-3163). -/

namespace Pytwoway.Dynamic

open Finset ProbabilityTheory MeasureTheory Pytwoway.Sim.Dyn

/-! ## Model of `_var_stayers` -/

/-- The assignments to the ten design matrices for one firm class, in the order of the code,
blm_dynamic.py:671-703: (moment, coefficient, value).  Moments 0-3 are the variances of `y1`-`y4`, 4-9 the
covariances (1,2), (1,3), (1,4), (2,3), (2,4), (3,4) (656-662); coefficients are the variances of the worker
effect and of `nu1`-`nu4`. -/
noncomputable def assigns (r1 r4 rt : ℝ) : List (Fin 10 × Fin 5 × ℝ) :=
  (List.finRange 10).map (fun m => (m, 0, 1)) ++
  [(0, 1, 1)] ++
  [(0, 2, r1 ^ 2), (1, 2, 1), (2, 2, rt ^ 2), (3, 2, r4 ^ 2 + rt ^ 2), (4, 2, r1), (5, 2, r1 * rt),
    (6, 2, r1 * rt * r4), (7, 2, rt), (8, 2, rt * r4), (0, 2, rt ^ 2 * r4)] ++
  [(2, 3, 1), (3, 3, r4 ^ 2), (9, 3, r4)] ++
  [(3, 4, 1)]

/-- The ten rows of the design for one firm class.  Used for blm_dynamic.py:754-755. -/
noncomputable def design (r1 r4 rt : ℝ) : Fin 10 → Fin 5 → ℝ :=
  (assigns r1 r4 rt).foldl (fun X a => Function.update X a.1 (Function.update (X a.1) a.2.1 a.2.2)) fun _ _ => 0

/-- Rows of the stacked design `np.vstack(XX_lst)`, blm_dynamic.py:738: row `m * nk + g`, and
`weights = np.repeat(W, 10)`, 742. -/
def rowWeight (nk : ℕ) (W : ℕ → ℝ) (m g : ℕ) : ℝ := W ((m * nk + g) / 10)

/-- `eps_sq`, blm_dynamic.py:754-755, with one firm class; `beta_hat` (the solution of a
quadratic program, 745-751) is an arbitrary vector here. -/
noncomputable def epsSq (r1 r4 rt : ℝ) (w YY : Fin 10 → ℝ) (β : Fin 5 → ℝ) : ℝ :=
  ∑ m, w m * (YY m - ∑ c, design r1 r4 rt m c * β c) ^ 2

/-- `DD @ XX` and `[:, 10:]` in differences, blm_dynamic.py:705-733: shapes only.  `DD` is 72 by 128, `XX` is
`16 nk` by `5 nk`. -/
def diffShape (nk : ℕ) : Py (ℕ × ℕ) :=
  if 16 * nk = 4 * 4 * 8 then .ok (72, 5 * nk - 10) else .error "ValueError"

/-! ## Specification -/

/-- Loadings of the four wages of a stayer on the worker effect and the innovations:
`y1 = α + ν1 + ρ1 ν2`, `y2 = α + ν2`, `y3 = α + ρt ν2 + ν3`, `y4 = α + ρ4 (ρt ν2 + ν3) + ν4`. -/
noncomputable def Spec.loading (r1 r4 rt : ℝ) : Fin 4 → Fin 5 → ℝ
  | 0 => ![1, 1, r1, 0, 0]
  | 1 => ![1, 0, 1, 0, 0]
  | 2 => ![1, 0, rt, 1, 0]
  | 3 => ![1, 0, r4 * rt, r4, 1]

/-- The wages of a stayer, given the worker effect and the innovations. -/
noncomputable def Spec.wage {Ω : Type*} (r1 r4 rt : ℝ) (Z : Fin 5 → Ω → ℝ) (t : Fin 4) (ω : Ω) : ℝ :=
  ∑ c, Spec.loading r1 r4 rt t c * Z c ω

/-- The two periods of each moment. -/
def Spec.pair : Fin 10 → Fin 4 × Fin 4 :=
  ![(0, 0), (1, 1), (2, 2), (3, 3), (0, 1), (0, 2), (0, 3), (1, 2), (1, 3), (2, 3)]

/-- Uncorrelated square-integrable effects. -/
structure Spec.Effects {Ω : Type*} [MeasurableSpace Ω] (μ : Measure Ω) (Z : Fin 5 → Ω → ℝ) (v : Fin 5 → ℝ) : Prop where
  lp : ∀ c, MemLp (Z c) 2 μ
  cov : ∀ c d, cov[Z c, Z d; μ] = if c = d then v c else 0

/-! ## Lemmas -/

theorem design_eq (r1 r4 rt : ℝ) : design r1 r4 rt =
    ![![1, 1, rt ^ 2 * r4, 0, 0], ![1, 0, 1, 0, 0], ![1, 0, rt ^ 2, 1, 0], ![1, 0, r4 ^ 2 + rt ^ 2, r4 ^ 2, 1],
      ![1, 0, r1, 0, 0], ![1, 0, r1 * rt, 0, 0], ![1, 0, r1 * rt * r4, 0, 0], ![1, 0, rt, 0, 0],
      ![1, 0, rt * r4, 0, 0], ![1, 0, 0, r4, 0]] := by
  have hf : List.finRange 10 = [0, 1, 2, 3, 4, 5, 6, 7, 8, 9] := by decide
  funext m c
  unfold design assigns
  rw [hf]
  fin_cases m <;> fin_cases c <;> simp [Function.update]

theorem true_moment {Ω : Type*} [MeasurableSpace Ω] (μ : Measure Ω) [IsFiniteMeasure μ] (Z : Fin 5 → Ω → ℝ) (v : Fin 5 → ℝ)
    (h : Spec.Effects μ Z v) (r1 r4 rt : ℝ) (s t : Fin 4) :
    cov[Spec.wage r1 r4 rt Z s, Spec.wage r1 r4 rt Z t; μ] =
      ∑ c, Spec.loading r1 r4 rt s c * Spec.loading r1 r4 rt t c * v c := by
  unfold Spec.wage
  rw [covariance_fun_sum_fun_sum (fun c => (h.lp c).const_mul _) (fun c => (h.lp c).const_mul _)]
  refine sum_congr rfl fun c _ => ?_
  rw [sum_eq_single c]
  · rw [covariance_const_mul_left, covariance_const_mul_right, h.cov, if_pos rfl]
    ring
  · intro d _ hd
    rw [covariance_const_mul_left, covariance_const_mul_right, h.cov, if_neg hd.symm]
    ring
  · simp

/-! ## C53 -/

/-- C53 (partial): seven of the ten moments used for the starting values of the persistence parameters have
exactly the covariances of the model, at every parameter value.  Missing: the variances of the first and the
last wage and the covariance of the last two (`C53_wrong_rows`). -/
theorem C53_moments_partial {Ω : Type*} [MeasurableSpace Ω] (μ : Measure Ω) [IsFiniteMeasure μ] (Z : Fin 5 → Ω → ℝ) (v : Fin 5 → ℝ)
    (h : Spec.Effects μ Z v) (r1 r4 rt : ℝ) (m : Fin 10) (hm : m ≠ 0 ∧ m ≠ 3 ∧ m ≠ 9) :
    ∑ c, design r1 r4 rt m c * v c =
      cov[Spec.wage r1 r4 rt Z (Spec.pair m).1, Spec.wage r1 r4 rt Z (Spec.pair m).2; μ] := by
  rw [true_moment μ Z v h, design_eq]
  revert hm
  fin_cases m <;> intro hm <;>
    simp [Fin.sum_univ_succ, Spec.pair, Spec.loading] at hm ⊢ <;> ring_nf <;> simp

/-- C53 (wrong): by how much the other three rows differ from the model's covariances. -/
theorem C53_wrong_rows {Ω : Type*} [MeasurableSpace Ω] (μ : Measure Ω) [IsFiniteMeasure μ] (Z : Fin 5 → Ω → ℝ) (v : Fin 5 → ℝ)
    (h : Spec.Effects μ Z v) (r1 r4 rt : ℝ) :
    ∑ c, design r1 r4 rt 0 c * v c = cov[Spec.wage r1 r4 rt Z 0, Spec.wage r1 r4 rt Z 0; μ] +
        (rt ^ 2 * r4 - r1 ^ 2) * v 2 ∧
    ∑ c, design r1 r4 rt 3 c * v c = cov[Spec.wage r1 r4 rt Z 3, Spec.wage r1 r4 rt Z 3; μ] +
        (r4 ^ 2 + rt ^ 2 - r4 ^ 2 * rt ^ 2) * v 2 ∧
    ∑ c, design r1 r4 rt 9 c * v c = cov[Spec.wage r1 r4 rt Z 2, Spec.wage r1 r4 rt Z 3; μ] -
        rt ^ 2 * r4 * v 2 := by
  rw [true_moment μ Z v h, true_moment μ Z v h, true_moment μ Z v h, design_eq]
  refine ⟨?_, ?_, ?_⟩ <;> simp [Fin.sum_univ_succ, Spec.loading] <;> ring

/-- C53 (wrong): with exact moments of a model whose persistence parameters are not zero, the criterion at the
*true* persistence parameters is strictly positive, whatever variances the inner regression chooses: the
starting values are not consistent. -/
theorem C53_truth_rejected {Ω : Type*} [MeasurableSpace Ω] (μ : Measure Ω) [IsFiniteMeasure μ] (Z : Fin 5 → Ω → ℝ) (v : Fin 5 → ℝ)
    (h : Spec.Effects μ Z v) (hv : 0 < v 2) (r1 r4 rt : ℝ) (h1 : r1 ≠ 1) (h4 : r4 ≠ 0) (ht : rt ≠ 0)
    (w : Fin 10 → ℝ) (hw : ∀ m, 0 < w m) (β : Fin 5 → ℝ) :
    0 < epsSq r1 r4 rt w
      (fun m => cov[Spec.wage r1 r4 rt Z (Spec.pair m).1, Spec.wage r1 r4 rt Z (Spec.pair m).2; μ]) β := by
  unfold epsSq
  have hnn : ∀ m, 0 ≤ w m * (cov[Spec.wage r1 r4 rt Z (Spec.pair m).1, Spec.wage r1 r4 rt Z (Spec.pair m).2; μ] -
      ∑ c, design r1 r4 rt m c * β c) ^ 2 := fun m => mul_nonneg (hw m).le (sq_nonneg _)
  refine lt_of_le_of_ne (sum_nonneg fun m _ => hnn m) fun h0 => ?_
  have hz := (sum_eq_zero_iff_of_nonneg fun m _ => hnn m).mp h0.symm
  have hrow : ∀ m, cov[Spec.wage r1 r4 rt Z (Spec.pair m).1, Spec.wage r1 r4 rt Z (Spec.pair m).2; μ] =
      ∑ c, design r1 r4 rt m c * β c := by
    intro m
    have := hz m (mem_univ _)
    rcases mul_eq_zero.mp this with h' | h'
    · exact absurd h' (hw m).ne'
    · have := pow_eq_zero_iff (two_ne_zero) |>.mp h'
      linarith
  have e1 := hrow 1
  have e2 := hrow 2
  have e4 := hrow 4
  have e9 := hrow 9
  rw [true_moment μ Z v h, design_eq] at e1 e2 e4 e9
  simp [Fin.sum_univ_succ, Spec.pair, Spec.loading] at e1 e2 e4 e9
  have k1 : (1 - r1) * (v 2 - β 2) = 0 := by linarith
  have k2 : v 2 = β 2 := by
    rcases mul_eq_zero.mp k1 with h' | h'
    · exact absurd (by linarith) h1
    · linarith
  have k3 : v 0 = β 0 := by linarith
  rw [← k2, ← k3] at e2
  have k4 : v 3 = β 3 := by linarith
  rw [← k3, ← k4] at e9
  have k5 : rt * (r4 * rt) * v 2 = 0 := by linarith
  have : rt * (r4 * rt) * v 2 ≠ 0 := by positivity
  exact this k5

/-- C53 (wrong): the row of moment `m` and firm class `g` is not weighted by the number of stayers of class
`g`, already for the first moment of the second class. -/
theorem C53_weights_misaligned (nk : ℕ) (_hnk : 2 ≤ nk) (W : ℕ → ℝ) (hW : W 0 ≠ W 1) :
    rowWeight nk W 0 1 ≠ W 1 := by
  simpa [rowWeight] using hW

/-- C53: with one firm class the weights are right. -/
theorem C53_weights_one (W : ℕ → ℝ) (m : ℕ) (hm : m < 10) : rowWeight 1 W m 0 = W 0 := by
  simp [rowWeight, Nat.div_eq_of_lt hm]

/-- C53 (wrong): estimating in differences works only with exactly eight firm classes. -/
theorem C53_differences_raise (nk : ℕ) : (∃ x, diffShape nk = .ok x) ↔ nk = 8 := by
  unfold diffShape
  constructor
  · rintro ⟨x, hx⟩
    split at hx
    · omega
    · cases hx
  · rintro rfl
    exact ⟨_, rfl⟩

/-! ## Model of the updates of the persistence parameters -/

variable {ni nl : ℕ}

/-- One update, blm_dynamic.py:2228-2242 and 3158-3162: `XX`, `YY` the residuals of the previous and of the
current wage, `SS` the variances, `qi` the posterior probabilities of the types; all stacked over types. -/
noncomputable def rhoUpdate (XX YY SS qi : Fin ni → Fin nl → ℝ) : ℝ :=
  let WW : Fin ni → Fin nl → ℝ := fun i l => qi i l / SS i l
  let XwX := ∑ l, ∑ i, XX i l * WW i l * XX i l
  let XwY := ∑ l, ∑ i, XX i l * WW i l * YY i l
  XwY / XwX

/-- `XX12`, `YY12`, `SS12`, blm_dynamic.py:2193-2202, from total means and variances per row and type. -/
def xx12 (y : Wages) (a : Per → ℝ) : ℝ := y.y2 - a .p2ma

/-- `YY12` of a row at its current effects, blm_dynamic.py:2176-2242. -/
def yy12 (y : Wages) (a : Per → ℝ) : ℝ := y.y1 - a .p12

/-- The variance that goes with `YY12`, blm_dynamic.py:2176-2242. -/
def ss12 (R12 : ℝ) (s2 : Per → ℝ) : ℝ := s2 .p12 + R12 ^ 2 * s2 .p2ma

/-- The new `R12`.  Used for blm_dynamic.py:2176-2242. -/
noncomputable def update12 (y : Fin ni → Wages) (a s2 : Fin ni → Fin nl → Per → ℝ) (r : Rhos)
    (qi : Fin ni → Fin nl → ℝ) : ℝ :=
  rhoUpdate (fun i l => xx12 (y i) (a i l)) (fun i l => yy12 (y i) (a i l)) (fun i l => ss12 r.R12 (s2 i l)) qi

/-- The new `R43`, blm_dynamic.py:2204-2213. -/
noncomputable def update43 (y : Fin ni → Wages) (a s2 : Fin ni → Fin nl → Per → ℝ) (r : Rhos)
    (qi : Fin ni → Fin nl → ℝ) : ℝ :=
  rhoUpdate (fun i l => (y i).y3 - a i l .p3ma) (fun i l => (y i).y4 - a i l .p43)
    (fun i l => s2 i l .p43 + r.R43 ^ 2 * s2 i l .p3ma) qi

/-- The new `R32m`, blm_dynamic.py:2215-2225. -/
noncomputable def update32m (y : Fin ni → Wages) (a s2 : Fin ni → Fin nl → Per → ℝ) (r : Rhos)
    (qi : Fin ni → Fin nl → ℝ) : ℝ :=
  rhoUpdate (fun i l => (y i).y2 - (a i l .p2ma + a i l .p2mb)) (fun i l => (y i).y3 - (a i l .p3ma + a i l .p3mb))
    (fun i l => s2 i l .p3ma + s2 i l .p3mb + r.R32 ^ 2 * (s2 i l .p2ma + s2 i l .p2mb)) qi

/-- The new `R32s`, blm_dynamic.py:3148-3156. -/
noncomputable def update32s (y : Fin ni → Wages) (a s2 : Fin ni → Fin nl → Per → ℝ) (r : Rhos)
    (qi : Fin ni → Fin nl → ℝ) : ℝ :=
  rhoUpdate (fun i l => (y i).y2 - a i l .p2s) (fun i l => (y i).y3 - a i l .p3s)
    (fun i l => s2 i l .p3s + r.R32 ^ 2 * s2 i l .p2s) qi

/-! ## Specification of the updates -/

/-- Posterior-weighted sum of squared residuals of `current - ρ * previous`, each divided by its variance. -/
noncomputable def Spec.wssr (prev cur var qi : Fin ni → Fin nl → ℝ) (ρ : ℝ) : ℝ :=
  ∑ i, ∑ l, qi i l * (cur i l - ρ * prev i l) ^ 2 / var i l

/-- `ρ` is the only minimiser of `f`. -/
def Spec.OnlyMin (f : ℝ → ℝ) (ρ : ℝ) : Prop := ∀ ρ', ρ' ≠ ρ → f ρ < f ρ'

/-! ## C55 -/

theorem wssr_expand (XX YY SS qi : Fin ni → Fin nl → ℝ) (ρ : ℝ) :
    Spec.wssr XX YY SS qi ρ = (∑ l, ∑ i, YY i l * (qi i l / SS i l) * YY i l) -
      2 * ρ * (∑ l, ∑ i, XX i l * (qi i l / SS i l) * YY i l) +
      ρ ^ 2 * ∑ l, ∑ i, XX i l * (qi i l / SS i l) * XX i l := by
  unfold Spec.wssr
  rw [sum_comm]
  simp only [mul_sum, ← sum_sub_distrib, ← sum_add_distrib]
  refine sum_congr rfl fun l _ => sum_congr rfl fun i _ => ?_
  ring

theorem rhoUpdate_min (XX YY SS qi : Fin ni → Fin nl → ℝ)
    (hpos : 0 < ∑ l, ∑ i, XX i l * (qi i l / SS i l) * XX i l) :
    Spec.OnlyMin (Spec.wssr XX YY SS qi) (rhoUpdate XX YY SS qi) := by
  intro ρ' hne
  unfold rhoUpdate at hne ⊢
  dsimp only at hne ⊢
  rw [wssr_expand, wssr_expand]
  generalize (∑ l, ∑ i, XX i l * (qi i l / SS i l) * XX i l) = c at *
  generalize (∑ l, ∑ i, XX i l * (qi i l / SS i l) * YY i l) = d at *
  have hsq : 0 < (ρ' - d / c) ^ 2 := by
    have : ρ' - d / c ≠ 0 := sub_ne_zero.mpr hne
    positivity
  have h1 := mul_pos hpos hsq
  have hc := hpos.ne'
  have e : c * (ρ' - d / c) ^ 2 = ρ' ^ 2 * c - 2 * ρ' * d + d ^ 2 / c := by field_simp; ring
  have e2 : (d / c) ^ 2 * c - 2 * (d / c) * d = - (d ^ 2 / c) := by field_simp; ring
  rw [e] at h1
  linarith

/-- C55: each update of a persistence parameter is the only minimiser of the posterior-weighted sum of
squared residuals of the current on the previous wage (each divided by its current variance), whenever some
previous residual with positive probability is not zero. -/
theorem C55_minimises (y : Fin ni → Wages) (a s2 : Fin ni → Fin nl → Per → ℝ) (r : Rhos)
    (qi : Fin ni → Fin nl → ℝ) (hq : ∀ i l, 0 ≤ qi i l) (hs : ∀ i l p, 0 < s2 i l p) :
    ((∃ i l, 0 < qi i l ∧ (y i).y2 ≠ a i l .p2ma) →
      Spec.OnlyMin (Spec.wssr (fun i l => (y i).y2 - a i l .p2ma) (fun i l => (y i).y1 - a i l .p12)
        (fun i l => s2 i l .p12 + r.R12 ^ 2 * s2 i l .p2ma) qi) (update12 y a s2 r qi)) ∧
    ((∃ i l, 0 < qi i l ∧ (y i).y3 ≠ a i l .p3ma) →
      Spec.OnlyMin (Spec.wssr (fun i l => (y i).y3 - a i l .p3ma) (fun i l => (y i).y4 - a i l .p43)
        (fun i l => s2 i l .p43 + r.R43 ^ 2 * s2 i l .p3ma) qi) (update43 y a s2 r qi)) ∧
    ((∃ i l, 0 < qi i l ∧ (y i).y2 ≠ a i l .p2ma + a i l .p2mb) →
      Spec.OnlyMin (Spec.wssr (fun i l => (y i).y2 - (a i l .p2ma + a i l .p2mb))
        (fun i l => (y i).y3 - (a i l .p3ma + a i l .p3mb))
        (fun i l => s2 i l .p3ma + s2 i l .p3mb + r.R32 ^ 2 * (s2 i l .p2ma + s2 i l .p2mb)) qi)
        (update32m y a s2 r qi)) ∧
    ((∃ i l, 0 < qi i l ∧ (y i).y2 ≠ a i l .p2s) →
      Spec.OnlyMin (Spec.wssr (fun i l => (y i).y2 - a i l .p2s) (fun i l => (y i).y3 - a i l .p3s)
        (fun i l => s2 i l .p3s + r.R32 ^ 2 * s2 i l .p2s) qi) (update32s y a s2 r qi)) := by
  have key : ∀ (XX YY SS : Fin ni → Fin nl → ℝ), (∀ i l, 0 < SS i l) → (∃ i l, 0 < qi i l ∧ XX i l ≠ 0) →
      Spec.OnlyMin (Spec.wssr XX YY SS qi) (rhoUpdate XX YY SS qi) := by
    intro XX YY SS hSS ⟨i0, l0, hq0, hx0⟩
    apply rhoUpdate_min
    have hnn : ∀ i l, 0 ≤ XX i l * (qi i l / SS i l) * XX i l := by
      intro i l
      have h1 := div_nonneg (hq i l) (hSS i l).le
      have e : XX i l * (qi i l / SS i l) * XX i l = (qi i l / SS i l) * XX i l ^ 2 := by ring
      rw [e]
      positivity
    have h0 : 0 < XX i0 l0 * (qi i0 l0 / SS i0 l0) * XX i0 l0 := by
      have h1 := div_pos hq0 (hSS i0 l0)
      have e : XX i0 l0 * (qi i0 l0 / SS i0 l0) * XX i0 l0 = (qi i0 l0 / SS i0 l0) * XX i0 l0 ^ 2 := by ring
      rw [e]
      positivity
    exact sum_pos' (fun l _ => sum_nonneg fun i _ => hnn i l)
      ⟨l0, mem_univ _, sum_pos' (fun i _ => hnn i l0) ⟨i0, mem_univ _, h0⟩⟩
  refine ⟨?_, ?_, ?_, ?_⟩
  · rintro ⟨i, l, h1, h2⟩
    refine key _ _ _ (fun i l => ?_) ⟨i, l, h1, sub_ne_zero.mpr h2⟩
    have q1 := hs i l .p12; have q2 := hs i l .p2ma
    positivity
  · rintro ⟨i, l, h1, h2⟩
    refine key _ _ _ (fun i l => ?_) ⟨i, l, h1, sub_ne_zero.mpr h2⟩
    have q1 := hs i l .p43; have q2 := hs i l .p3ma
    positivity
  · rintro ⟨i, l, h1, h2⟩
    refine key _ _ _ (fun i l => ?_) ⟨i, l, h1, sub_ne_zero.mpr h2⟩
    have q1 := hs i l .p3ma; have q2 := hs i l .p2ma; have q3 := hs i l .p3mb; have q4 := hs i l .p2mb
    positivity
  · rintro ⟨i, l, h1, h2⟩
    refine key _ _ _ (fun i l => ?_) ⟨i, l, h1, sub_ne_zero.mpr h2⟩
    have q1 := hs i l .p3s; have q2 := hs i l .p2s
    positivity

/-- C55: the update does not raise the likelihood in general, because the variance of the first wage depends
on the persistence parameter too: with one mover and one worker type (posterior probability one) the
mover's log density falls. -/
theorem C55_likelihood_can_fall : ∃ (y : Fin 1 → Wages) (a s2 : Fin 1 → Fin 1 → Per → ℝ) (r : Rhos),
    (∀ i l p, 0 < s2 i l p) ∧
    lpM (a 0 0) (s2 0 0) { r with R12 := update12 y a s2 r fun _ _ => 1 } (y 0) < lpM (a 0 0) (s2 0 0) r (y 0) := by
  refine ⟨fun _ => ⟨1, 1, 0, 0⟩, fun _ _ _ => 0, fun _ _ p => if p = .p2ma then 100 else 1, ⟨0, 0, 0⟩, ?_, ?_⟩
  · intro i l p
    dsimp only
    split <;> norm_num
  · have hu : update12 (fun _ : Fin 1 => (⟨1, 1, 0, 0⟩ : Wages)) (fun _ (_ : Fin 1) _ => 0)
        (fun _ _ p => if p = .p2ma then 100 else 1) ⟨0, 0, 0⟩ (fun _ _ => 1) = 1 := by
      simp [update12, rhoUpdate, xx12, yy12, ss12]
    rw [hu]
    have l101 : Real.log 101 > 1 := by
      rw [gt_iff_lt, Real.lt_log_iff_exp_lt (by norm_num)]
      have := Real.exp_one_lt_d9
      linarith
    simp only [lpM, BLM.lnvar, Util.lognormpdf]
    norm_num
    rw [if_neg (by decide), if_neg (by decide)]
    norm_num
    linarith

/-- Non-vacuity of `C55_minimises`: a mover with a residual. -/
example : ∃ (y : Fin 1 → Wages) (a : Fin 1 → Fin 1 → Per → ℝ) (qi : Fin 1 → Fin 1 → ℝ),
    ∃ i l, 0 < qi i l ∧ (y i).y2 ≠ a i l .p2ma :=
  ⟨fun _ => ⟨1, 1, 0, 0⟩, fun _ _ _ => 0, fun _ _ => 1, 0, 0, by norm_num, by norm_num⟩

end Pytwoway.Dynamic
