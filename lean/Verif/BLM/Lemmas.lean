import Mathlib.Probability.Distributions.Gaussian.Real
import Mathlib.Analysis.SpecialFunctions.Pow.Real
import Verif.BLM.Model

/-! # Specification of the BLM mixture and lemmas about the model -/

namespace Pytwoway.BLM

open Finset ProbabilityTheory

variable {ni nl nk : ℕ}

/-! ## The mixture model in words -/

namespace Spec

/-- Contribution of a control to the mean wage of worker type `l` in period `t`. -/
def ctrlMean (c : Ctrl ni nl) (t : Fin 2) (l : Fin nl) (i : Fin ni) : ℝ :=
  match c with
  | .catW C A _ => A t l (C t i)
  | .catN C A _ => A t (C t i)
  | .ctsW C A _ => A t l * C t i
  | .ctsN C A _ => A t * C t i

/-- Contribution of a control to the wage variance of worker type `l` in period `t`. -/
def ctrlVar (c : Ctrl ni nl) (t : Fin 2) (l : Fin nl) (i : Fin ni) : ℝ :=
  match c with
  | .catW C _ S => S t l (C t i) ^ 2
  | .catN C _ S => S t (C t i) ^ 2
  | .ctsW _ _ S => S t l ^ 2
  | .ctsN _ _ S => S t ^ 2

/-- Density of the wage of observation `i` in period `t` if the worker has type `l`: normal, with the
base effect plus all control effects as mean and the sum of all variances as variance. -/
noncomputable def wageDensity (d : Data ni nk) (b : Base nl nk) (cs : List (Ctrl ni nl)) (t : Fin 2)
    (i : Fin ni) (l : Fin nl) : ℝ :=
  gaussianPDFReal (b.A t l (d.G t i) + (cs.map fun c => ctrlMean c t l i).sum)
    (b.S t l (d.G t i) ^ 2 + (cs.map fun c => ctrlVar c t l i).sum).toNNReal (d.Y t i)

end Spec

/-! ## Lemmas -/

theorem sumA_eq (cs : List (Ctrl ni nl)) (t : Fin 2) (l : Fin nl) (i : Fin ni) :
    sumNonA cs t i + sumByA cs l t i = (cs.map fun c => Spec.ctrlMean c t l i).sum := by
  have key : ∀ (cs : List (Ctrl ni nl)) (x y : ℝ),
      cs.foldl (fun acc c => match c with
        | .catN C A _ => acc + A t (C t i)
        | .ctsN C A _ => acc + A t * C t i
        | _ => acc) x + cs.foldl (fun acc c => match c with
        | .catW C A _ => acc + A t l (C t i)
        | .ctsW C A _ => acc + A t l * C t i
        | _ => acc) y = x + y + (cs.map fun c => Spec.ctrlMean c t l i).sum := by
    intro cs
    induction cs with
    | nil => intro x y; simp
    | cons c cs ih =>
      intro x y
      cases c <;>
        (simp only [List.foldl_cons, List.map_cons, List.sum_cons, Spec.ctrlMean] at ih ⊢
         rw [ih]; ring)
  have := key cs 0 0
  rw [add_zero, zero_add] at this
  exact this

theorem sumS_eq (cs : List (Ctrl ni nl)) (t : Fin 2) (l : Fin nl) (i : Fin ni) :
    sumNonS cs t i + sumByS cs l t i = (cs.map fun c => Spec.ctrlVar c t l i).sum := by
  have key : ∀ (cs : List (Ctrl ni nl)) (x y : ℝ),
      cs.foldl (fun acc c => match c with
        | .catN C _ S => acc + S t (C t i) ^ 2
        | .ctsN _ _ S => acc + S t ^ 2
        | _ => acc) x + cs.foldl (fun acc c => match c with
        | .catW C _ S => acc + S t l (C t i) ^ 2
        | .ctsW _ _ S => acc + S t l ^ 2
        | _ => acc) y = x + y + (cs.map fun c => Spec.ctrlVar c t l i).sum := by
    intro cs
    induction cs with
    | nil => intro x y; simp
    | cons c cs ih =>
      intro x y
      cases c <;>
        (simp only [List.foldl_cons, List.map_cons, List.sum_cons, Spec.ctrlVar] at ih ⊢
         rw [ih]; ring)
  have := key cs 0 0
  rw [add_zero, zero_add] at this
  exact this

theorem ctrlVar_nonneg (c : Ctrl ni nl) (t : Fin 2) (l : Fin nl) (i : Fin ni) :
    0 ≤ Spec.ctrlVar c t l i := by
  cases c <;> exact sq_nonneg _

theorem ctrlVar_sum_nonneg (cs : List (Ctrl ni nl)) (t : Fin 2) (l : Fin nl) (i : Fin ni) :
    0 ≤ (cs.map fun c => Spec.ctrlVar c t l i).sum := by
  apply List.sum_nonneg
  intro x hx
  obtain ⟨c, _, rfl⟩ := List.mem_map.mp hx
  exact ctrlVar_nonneg c t l i

theorem wageDensity_pos (d : Data ni nk) (b : Base nl nk) (cs : List (Ctrl ni nl)) (t : Fin 2)
    (i : Fin ni) (l : Fin nl) (hS : 0 < b.S t l (d.G t i)) : 0 < Spec.wageDensity d b cs t i l := by
  apply gaussianPDFReal_pos
  have h := ctrlVar_sum_nonneg cs t l i
  have : 0 < b.S t l (d.G t i) ^ 2 + (cs.map fun c => Spec.ctrlVar c t l i).sum := by positivity
  simpa [Real.toNNReal_eq_zero] using this

/-- Both branches of the density computation give the log density of the mixture component. -/
theorem lpWage_eq (d : Data ni nk) (b : Base nl nk) (cs : List (Ctrl ni nl)) (t : Fin 2)
    (l : Fin nl) (i : Fin ni) (hS : 0 < b.S t l (d.G t i)) :
    lpWage d b cs t l i = Real.log (Spec.wageDensity d b cs t i l) := by
  have h := ctrlVar_sum_nonneg cs t l i
  have hv : 0 < b.S t l (d.G t i) ^ 2 + (cs.map fun c => Spec.ctrlVar c t l i).sum := by positivity
  unfold lpWage Spec.wageDensity
  split
  · rename_i he
    have hc : cs = [] := by simpa using he
    subst hc
    have h1 := Util.C06_fast (d.Y t) (b.A t l) (b.S t l) (d.G t) i
    rw [Util.C06_sd _ _ _ hS] at h1
    simp only [Except.ok.injEq] at h1
    rw [← h1]
    simp
  · unfold lnvar
    rw [add_assoc, sumA_eq, add_assoc, sumS_eq, Util.C06_var _ _ _ hv]

/-! ### Softmax and the EM inequality -/

theorem lse_eq [NeZero nl] (a : Fin nl → ℝ) :
    Util.logsumexp a = Real.log (∑ l, Real.exp (a l)) := Util.C04_exact a

theorem sum_exp_pos [NeZero nl] (a : Fin nl → ℝ) : 0 < ∑ l, Real.exp (a l) :=
  sum_pos (fun _ _ => Real.exp_pos _) univ_nonempty

theorem posterior_eq [NeZero nl] (lp : Fin ni → Fin nl → ℝ) (i : Fin ni) (l : Fin nl) :
    posterior lp i l = Real.exp (lp i l) / ∑ l', Real.exp (lp i l') := by
  unfold posterior
  rw [lse_eq, Real.exp_sub, Real.exp_log (sum_exp_pos _)]

theorem posterior_pos [NeZero nl] (lp : Fin ni → Fin nl → ℝ) (i : Fin ni) (l : Fin nl) :
    0 < posterior lp i l := Real.exp_pos _

theorem posterior_sum [NeZero nl] (lp : Fin ni → Fin nl → ℝ) (i : Fin ni) :
    ∑ l, posterior lp i l = 1 := by
  simp only [posterior_eq]
  rw [← sum_div, div_self (sum_exp_pos _).ne']

/-- Jensen's inequality behind EM, for one observation. -/
theorem em_row [NeZero nl] (lp lp' : Fin ni → Fin nl → ℝ) (i : Fin ni) :
    ∑ l, posterior lp i l * (lp' i l - lp i l) ≤
      Util.logsumexp (lp' i) - Util.logsumexp (lp i) := by
  set q := posterior lp i with hq
  set D := ∑ l, q l * (lp' i l - lp i l) with hD
  have hsum : ∑ l, q l = 1 := posterior_sum lp i
  have hpos : ∀ l, 0 < q l := posterior_pos lp i
  have h1 : (1 : ℝ) ≤ ∑ l, q l * Real.exp (lp' i l - lp i l - D) := by
    have : ∀ l, q l * (lp' i l - lp i l - D + 1) ≤ q l * Real.exp (lp' i l - lp i l - D) :=
      fun l => mul_le_mul_of_nonneg_left (Real.add_one_le_exp _) (hpos l).le
    refine le_trans (le_of_eq ?_) (sum_le_sum fun l _ => this l)
    simp only [mul_add, mul_sub, sum_add_distrib, sum_sub_distrib, ← sum_mul, hsum] at hD ⊢
    rw [hD]; ring
  have h2 : ∑ l, q l * Real.exp (lp' i l - lp i l - D) =
      (∑ l, Real.exp (lp' i l)) / (∑ l, Real.exp (lp i l)) * Real.exp (-D) := by
    rw [sum_div, sum_mul]
    refine sum_congr rfl fun l _ => ?_
    rw [hq, posterior_eq, show lp' i l - lp i l - D = lp' i l + -lp i l + -D by ring,
      Real.exp_add, Real.exp_add, Real.exp_neg (lp i l)]
    have := (Real.exp_pos (lp i l)).ne'
    field_simp
  rw [h2] at h1
  have hA := sum_exp_pos (lp i)
  have hB := sum_exp_pos (lp' i)
  have h3 : Real.exp D ≤ (∑ l, Real.exp (lp' i l)) / (∑ l, Real.exp (lp i l)) := by
    rw [Real.exp_neg] at h1
    have := (Real.exp_pos D)
    rw [← div_eq_mul_inv, le_div_iff₀ this, one_mul] at h1
    exact h1
  rw [lse_eq, lse_eq, ← Real.log_div hB.ne' hA.ne']
  exact (Real.le_log_iff_exp_le (by positivity)).mpr h3

/-- The average likelihood does not fall if the expected log density does not. -/
theorem em_mean [NeZero nl] (lp lp' : Fin ni → Fin nl → ℝ)
    (h : 0 ≤ ∑ i, ∑ l, posterior lp i l * (lp' i l - lp i l)) : meanLse lp ≤ meanLse lp' := by
  unfold meanLse
  apply div_le_div_of_nonneg_right _ (Nat.cast_nonneg _)
  have := sum_le_sum fun i (_ : i ∈ univ) => em_row lp lp' i
  rw [sum_sub_distrib] at this
  linarith

/-- Gibbs' inequality: the proportions of `c` fit `c` best. -/
theorem gibbs (c p : Fin nl → ℝ) (hc : ∀ l, 0 < c l) (hp : ∀ l, 0 < p l) (hsum : ∑ l, p l ≤ 1)
    [NeZero nl] :
    0 ≤ ∑ l, c l * (Real.log (c l / ∑ l', c l') - Real.log (p l)) := by
  have hC : 0 < ∑ l, c l := sum_pos (fun l _ => hc l) univ_nonempty
  have h1 : ∀ l, c l - (∑ l', c l') * p l ≤
      c l * (Real.log (c l / ∑ l', c l') - Real.log (p l)) := by
    intro l
    have hx : 0 < p l * (∑ l', c l') / c l := by have := hc l; have := hp l; positivity
    have h2 := Real.log_le_sub_one_of_pos hx
    rw [show p l * (∑ l', c l') / c l = p l / (c l / ∑ l', c l') by
      have := (hc l).ne'; field_simp] at h2
    rw [Real.log_div (hp l).ne' (by have := hc l; positivity)] at h2
    have h3 := mul_le_mul_of_nonneg_left h2 (hc l).le
    have h4 : c l * (p l / (c l / ∑ l', c l') - 1) = (∑ l', c l') * p l - c l := by
      have := (hc l).ne'; field_simp
    rw [h4] at h3
    linarith
  refine le_trans ?_ (sum_le_sum fun l _ => h1 l)
  rw [sum_sub_distrib, ← mul_sum]
  nlinarith

/-! ### `bincount` -/

theorem bincount_len_le {ι : Type*} [Fintype ι] (idx : ι → ℕ) (w : ι → ℝ) (n : ℕ)
    (h : ∀ i, idx i < n) : (bincount idx w).len ≤ n :=
  Finset.sup_le fun i _ => h i

theorem bincount_len_eq {ι : Type*} [Fintype ι] (idx : ι → ℕ) (w : ι → ℝ) (n : ℕ) (hn : 0 < n)
    (h : ∀ i, idx i < n) : (bincount idx w).len = n ↔ ∃ i, idx i = n - 1 := by
  constructor
  · intro he
    by_contra hne
    push Not at hne
    have : (bincount idx w).len ≤ n - 1 := by
      apply Finset.sup_le
      intro i _
      have := h i; have := hne i; omega
    omega
  · rintro ⟨i, hi⟩
    apply le_antisymm (bincount_len_le idx w n h)
    have : idx i + 1 ≤ (bincount idx w).len := Finset.le_sup (f := fun i => idx i + 1) (mem_univ i)
    omega

end Pytwoway.BLM
