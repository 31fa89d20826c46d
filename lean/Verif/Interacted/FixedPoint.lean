import Verif.Interacted.Linear

/-! # The fixed-point estimator of the interacted model: C42 and C69

`pytwoway/blm_interacted.py`, `_fit_b_fixed_point` and `_fit_a_alpha_fixed_point`. -/

namespace Pytwoway.Interacted

open Finset

/-! ## Intercepts and worker effects given the slopes -/

/-- Long-format data: firm, worker, wage and weight (`Dp`, 1 if unweighted) of each row.
Used for blm_interacted.py:752 and blm_interacted.py:755. -/
structure Panel (nn nf nw : ℕ) where
  j : Fin nn → Fin nf
  i : Fin nn → Fin nw
  y : Fin nn → ℝ
  w : Fin nn → ℝ

variable {nn nf nw : ℕ}

/-- `diag_of_sp_prod(W.T, DpW)`, blm_interacted.py:752: `W` has the entries `B[j]`. -/
def Panel.Dw (p : Panel nn nf nw) (B : Fin nf → ℝ) (k : Fin nw) : ℝ :=
  ∑ r with p.i r = k, B (p.j r) * (p.w r * B (p.j r))

/-- `WtDpJ`, blm_interacted.py:755. -/
def Panel.WtDpJ (p : Panel nn nf nw) (B : Fin nf → ℝ) (k : Fin nw) (f : Fin nf) : ℝ :=
  ∑ r with p.i r = k ∧ p.j r = f, B (p.j r) * p.w r

/-- `DpW.T @ Y`.  Used for blm_interacted.py:758-762 and blm_interacted.py:709-772. -/
def Panel.WtDpY (p : Panel nn nf nw) (B : Fin nf → ℝ) (k : Fin nw) : ℝ :=
  ∑ r with p.i r = k, p.w r * B (p.j r) * p.y r

/-- The firms kept as columns of `J`: all but the last, blm_interacted.py:722. -/
def kept (nf : ℕ) : Finset (Fin nf) := univ.filter fun f => f.val < nf - 1

/-- The linear system solved by `M.solve`, blm_interacted.py:758-762: `A` is a solution. -/
def Panel.Solves (p : Panel nn nf nw) (B : Fin nf → ℝ) (A : Fin nf → ℝ) : Prop :=
  ∀ f ∈ kept nf,
    ∑ g ∈ kept nf, ((if f = g then ∑ r with p.j r = f, p.w r else 0) -
      ∑ k, p.WtDpJ B k f * (1 / p.Dw B k * p.WtDpJ B k g)) * A g =
    ∑ r with p.j r = f, p.w r * p.y r - ∑ k, 1 / p.Dw B k * p.WtDpJ B k f * p.WtDpY B k

open scoped Classical in
/-- `_fit_a_alpha_fixed_point`, blm_interacted.py:709-772, given the solver's answer.  A worker with
`Dw = 0` makes `1 / 0 = inf`; the result is then not finite, reported as an error value. -/
noncomputable def fitAAlpha (p : Panel nn nf nw) (B : Fin nf → ℝ) (solve : Fin nf → ℝ) :
    Py ((Fin nf → ℝ) × (Fin nw → ℝ)) :=
  if ∃ k, p.Dw B k = 0 then .error "nonfinite"
  else .ok (fun f => if f ∈ kept nf then solve f else 0,
    fun k => 1 / p.Dw B k * p.WtDpY B k - ∑ g ∈ kept nf, 1 / p.Dw B k * p.WtDpJ B k g * solve g)

/-- The objective: weighted sum of squared residuals of `y = a[j] + b[j] * alpha[i]`. -/
def Spec.ssr (p : Panel nn nf nw) (B a : Fin nf → ℝ) (α : Fin nw → ℝ) : ℝ :=
  ∑ r, p.w r * (p.y r - a (p.j r) - B (p.j r) * α (p.i r)) ^ 2

theorem sum_worker (p : Panel nn nf nw) (F : Fin nn → ℝ) (k : Fin nw) (G : Fin nf → ℝ) :
    ∑ r with p.i r = k, F r * G (p.j r) = ∑ g, (∑ r with p.i r = k ∧ p.j r = g, F r) * G g := by
  simp only [sum_mul, ← filter_filter]
  rw [← sum_fiberwise_of_maps_to (s := univ.filter fun r => p.i r = k) (t := univ) (g := p.j)
    (fun _ _ => mem_univ _)]
  refine sum_congr rfl fun g _ => sum_congr rfl fun r hr => ?_
  rw [(mem_filter.mp hr).2]

theorem sum_firm (p : Panel nn nf nw) (F : Fin nn → ℝ) (f : Fin nf) (α : Fin nw → ℝ) :
    ∑ r with p.j r = f, F r * α (p.i r) = ∑ k, (∑ r with p.i r = k ∧ p.j r = f, F r) * α k := by
  simp only [sum_mul]
  rw [← sum_fiberwise_of_maps_to (s := univ.filter fun r => p.j r = f) (t := univ) (g := p.i)
    (fun _ _ => mem_univ _)]
  refine sum_congr rfl fun k _ => ?_
  have : (univ.filter fun r => p.j r = f).filter (fun r => p.i r = k) =
      univ.filter fun r => p.i r = k ∧ p.j r = f := by
    ext r; simp [and_comm]
  rw [this]
  exact sum_congr rfl fun r hr => by rw [(mem_filter.mp hr).2.1]

/-- C42: for given slopes, the intercepts and worker effects returned minimise the weighted sum of
squared residuals among all those with the last firm's intercept zero, and the returned intercept of the
last firm is zero. -/
theorem C42_least_squares (p : Panel nn nf nw) (B solve : Fin nf → ℝ) (hw : ∀ r, 0 ≤ p.w r)
    (hs : p.Solves B solve) (A : Fin nf → ℝ) (α : Fin nw → ℝ)
    (h : fitAAlpha p B solve = .ok (A, α)) :
    (∀ f : Fin nf, f.val = nf - 1 → A f = 0) ∧
    ∀ (a : Fin nf → ℝ) (β : Fin nw → ℝ), (∀ f : Fin nf, f.val = nf - 1 → a f = 0) →
      Spec.ssr p B A α ≤ Spec.ssr p B a β := by
  unfold fitAAlpha at h
  split at h
  · cases h
  rename_i hD
  push Not at hD
  simp only [Except.ok.injEq, Prod.mk.injEq] at h
  obtain ⟨rfl, rfl⟩ := h
  set A : Fin nf → ℝ := fun f => if f ∈ kept nf then solve f else 0 with hA
  set α : Fin nw → ℝ := fun k => 1 / p.Dw B k * p.WtDpY B k -
    ∑ g ∈ kept nf, 1 / p.Dw B k * p.WtDpJ B k g * solve g with hα
  have hlast : ∀ f : Fin nf, f.val = nf - 1 → A f = 0 := by
    intro f hf
    simp [hA, kept, hf]
  refine ⟨hlast, fun a β ha => ?_⟩
  have hkept : ∀ F : Fin nf → ℝ, ∑ g ∈ kept nf, F g * solve g = ∑ g, F g * A g := by
    intro F
    rw [← sum_filter_add_sum_filter_not univ (fun f : Fin nf => f.val < nf - 1)]
    have h2 : ∑ x with ¬ x.val < nf - 1, F x * A x = 0 := by
      refine sum_eq_zero fun x hx => ?_
      have := (mem_filter.mp hx).2
      have hlt := x.isLt
      rw [hlast x (by omega), mul_zero]
    rw [h2, add_zero]
    refine sum_congr rfl fun g hg => ?_
    simp only [hA]
    rw [if_pos (show g ∈ kept nf from hg)]
  -- workers' normal equations
  have hwork : ∀ k, ∑ r with p.i r = k,
      p.w r * B (p.j r) * (p.y r - A (p.j r) - B (p.j r) * α (p.i r)) = 0 := by
    intro k
    have e1 : ∑ r with p.i r = k, p.w r * B (p.j r) * (p.y r - A (p.j r) - B (p.j r) * α (p.i r)) =
        p.WtDpY B k - ∑ g, p.WtDpJ B k g * A g - p.Dw B k * α k := by
      have : ∑ g, p.WtDpJ B k g * A g = ∑ r with p.i r = k, B (p.j r) * p.w r * A (p.j r) :=
        (sum_worker p (fun r => B (p.j r) * p.w r) k A).symm
      rw [this, Panel.WtDpY, Panel.Dw, sum_mul, ← sum_sub_distrib, ← sum_sub_distrib]
      refine sum_congr rfl fun r hr => ?_
      rw [(mem_filter.mp hr).2]
      ring
    rw [e1, ← hkept (fun g => p.WtDpJ B k g)]
    have : p.Dw B k * α k = p.WtDpY B k - ∑ g ∈ kept nf, p.WtDpJ B k g * solve g := by
      simp only [hα, mul_sub, mul_sum]
      have hk := hD k
      congr 1
      · field_simp
      · refine sum_congr rfl fun g _ => ?_
        field_simp
    rw [this]; ring
  -- firms' normal equations
  have hfirm : ∀ f ∈ kept nf, ∑ r with p.j r = f,
      p.w r * (p.y r - A (p.j r) - B (p.j r) * α (p.i r)) = 0 := by
    intro f hf
    have e1 : ∑ r with p.j r = f, p.w r * (p.y r - A (p.j r) - B (p.j r) * α (p.i r)) =
        ∑ r with p.j r = f, p.w r * p.y r - (∑ r with p.j r = f, p.w r) * solve f -
          ∑ k, p.WtDpJ B k f * α k := by
      have : ∑ k, p.WtDpJ B k f * α k = ∑ r with p.j r = f, B (p.j r) * p.w r * α (p.i r) :=
        (sum_firm p (fun r => B (p.j r) * p.w r) f α).symm
      rw [this, sum_mul, ← sum_sub_distrib, ← sum_sub_distrib]
      refine sum_congr rfl fun r hr => ?_
      have hjr := (mem_filter.mp hr).2
      have : A (p.j r) = solve f := by
        simp only [hA, hjr]; rw [if_pos hf]
      rw [this]
      ring
    have e2 : ∑ k, p.WtDpJ B k f * α k = ∑ k, 1 / p.Dw B k * p.WtDpJ B k f * p.WtDpY B k -
        ∑ g ∈ kept nf, (∑ k, p.WtDpJ B k f * (1 / p.Dw B k * p.WtDpJ B k g)) * solve g := by
      simp only [sum_mul]
      rw [sum_comm (s := kept nf), ← sum_sub_distrib]
      refine sum_congr rfl fun k _ => ?_
      simp only [hα, mul_sub, mul_sum]
      congr 1
      · ring
      · exact sum_congr rfl fun g _ => by ring
    have e3 := hs f hf
    simp only [sub_mul, sum_sub_distrib, ite_mul, zero_mul, sum_ite_eq, hf, if_true] at e3
    rw [e1, e2]
    linarith
  -- combine
  set u : Fin nn → ℝ := fun r => p.y r - A (p.j r) - B (p.j r) * α (p.i r) with hu
  set dA : Fin nf → ℝ := fun f => A f - a f with hdA
  set dα : Fin nw → ℝ := fun k => α k - β k with hdα
  have c1 : ∑ r, p.w r * u r * dA (p.j r) = 0 := by
    rw [← sum_fiberwise_of_maps_to (s := univ) (t := univ) (g := p.j) (fun _ _ => mem_univ _)]
    refine sum_eq_zero fun f _ => ?_
    have : ∑ r with p.j r = f, p.w r * u r * dA (p.j r) = (∑ r with p.j r = f, p.w r * u r) * dA f := by
      rw [sum_mul]
      exact sum_congr rfl fun r hr => by rw [(mem_filter.mp hr).2]
    rw [this]
    by_cases hf : f ∈ kept nf
    · rw [hfirm f hf, zero_mul]
    · have : f.val = nf - 1 := by
        have := f.isLt
        simp only [kept, mem_filter, mem_univ, true_and] at hf
        omega
      simp only [hdA]
      rw [hlast f this, ha f this, sub_zero, mul_zero]
  have c2 : ∑ r, p.w r * u r * (B (p.j r) * dα (p.i r)) = 0 := by
    rw [← sum_fiberwise_of_maps_to (s := univ) (t := univ) (g := p.i) (fun _ _ => mem_univ _)]
    refine sum_eq_zero fun k _ => ?_
    have : ∑ r with p.i r = k, p.w r * u r * (B (p.j r) * dα (p.i r)) =
        (∑ r with p.i r = k, p.w r * B (p.j r) * u r) * dα k := by
      rw [sum_mul]
      exact sum_congr rfl fun r hr => by rw [(mem_filter.mp hr).2]; ring
    rw [this, hwork k, zero_mul]
  have hexp : Spec.ssr p B a β = Spec.ssr p B A α +
      2 * (∑ r, p.w r * u r * dA (p.j r) + ∑ r, p.w r * u r * (B (p.j r) * dα (p.i r))) +
      ∑ r, p.w r * (dA (p.j r) + B (p.j r) * dα (p.i r)) ^ 2 := by
    unfold Spec.ssr
    rw [← sum_add_distrib, mul_sum, ← sum_add_distrib, ← sum_add_distrib]
    exact sum_congr rfl fun r _ => by simp only [hu, hdA, hdα]; ring
  rw [hexp, c1, c2]
  have : 0 ≤ ∑ r, p.w r * (dA (p.j r) + B (p.j r) * dα (p.i r)) ^ 2 :=
    sum_nonneg fun r _ => mul_nonneg (hw r) (sq_nonneg _)
  linarith

/-- Two firms, two workers each at both, slopes 1 and 2. -/
def exPanel : Panel 4 2 2 where
  j := ![0, 1, 0, 1]
  i := ![0, 0, 1, 1]
  y := ![3, 2, 4, 4]
  w := fun _ => 1

/-- Non-vacuity of C42: in `exPanel`, wages are `2 + alpha` at firm 0 and `2 * alpha` at firm 1 with
`alpha = 1, 2`; the intercept 2 solves the system and the call returns. -/
example : exPanel.Solves ![1, 2] ![2, 0] ∧
    ∃ r, fitAAlpha exPanel ![1, 2] ![2, 0] = .ok r ∧ r.1 = ![2, 0] ∧ r.2 = ![1, 2] := by
  have D : ∀ k, exPanel.Dw ![1, 2] k = 5 := by
    intro k
    rw [Panel.Dw, sum_filter]
    fin_cases k <;> simp [exPanel, Fin.sum_univ_succ] <;> norm_num
  have W0 : ∀ k, exPanel.WtDpJ ![1, 2] k 0 = 1 := by
    intro k
    rw [Panel.WtDpJ, sum_filter]
    fin_cases k <;> simp [exPanel, Fin.sum_univ_succ]
  have Y0 : ∀ k, exPanel.WtDpY ![1, 2] k = if k = 0 then 7 else 12 := by
    intro k
    rw [Panel.WtDpY, sum_filter]
    fin_cases k <;> simp [exPanel, Fin.sum_univ_succ] <;> norm_num
  have hk : kept 2 = {0} := by decide
  constructor
  · intro f hf
    rw [hk] at hf ⊢
    rw [mem_singleton] at hf
    subst hf
    simp only [sum_singleton, if_true, W0, D, Y0, Fin.sum_univ_two]
    have hf : (univ.filter fun r => exPanel.j r = 0) = {0, 2} := by decide
    have h1 : ∑ r with exPanel.j r = 0, exPanel.w r = 2 := by
      rw [hf, sum_pair (by decide)]
      norm_num [exPanel]
    have h2 : ∑ r with exPanel.j r = 0, exPanel.w r * exPanel.y r = 7 := by
      rw [hf, sum_pair (by decide)]
      show (1 : ℝ) * 3 + 1 * 4 = 7
      norm_num
    rw [h1, h2]
    norm_num
  · unfold fitAAlpha
    rw [if_neg (by push Not; intro k; rw [D]; norm_num)]
    refine ⟨_, rfl, ?_, ?_⟩
    · funext f
      fin_cases f <;> simp [hk]
    · funext k
      simp only [hk, sum_singleton, D, W0, Y0]
      fin_cases k <;> norm_num

end Pytwoway.Interacted
