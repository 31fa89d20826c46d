import Verif.FE.Props
import Verif.CLI.Model
import Mathlib.Topology.Algebra.Module.FiniteDimension
import Mathlib.Algebra.Order.Chebyshev
import Mathlib.Topology.MetricSpace.Bounded
import Mathlib.Algebra.Order.BigOperators.Ring.Finset

/-! # The linear solver: which one is called, and what its tolerance does to the estimates (C109)

`Verif/FE/Model.lean` takes the linear solver as an oracle `b ↦ x`.  Here the oracle also sees the
arguments of the call and returns the SciPy pair `(x, info)`, and it stops early: at a residual of
`solver_tol` times the size of the right-hand side, as fe.py:143-145 documents. -/

namespace Pytwoway.FE.Tol

open Matrix Pytwoway.Util
open scoped BigOperators

variable {n m nw : ℕ}

/-! ## Model -/

/-- Keyword arguments of one call of a linear solver for `Minv x = b`.  Used for fe.py:1353-1366 and fe.py:1423-1437. -/
structure Call where
  /-- The solver: `amg` (`Minv_solver.solve`) or a key of `solver_dict`, fe.py:21-29. -/
  solver : String
  /-- Whether `M=self.preconditioner` is passed. -/
  precond : Bool
  /-- `tol=...`; `none`: not passed, the solver's own default. -/
  tol : Option ℝ
  /-- Whether `atol=0` is passed. -/
  atol0 : Bool

/-- The call in `_mult_AAinv`, fe.py:1353-1366. -/
def callAAinv (solver : String) (tol : ℝ) : Call :=
  if solver = "amg" then ⟨solver, false, some tol, false⟩
  else if solver = "minres" then ⟨solver, true, some tol, false⟩
  else if solver = "qmr" then ⟨solver, false, some tol, true⟩
  else ⟨solver, true, some tol, true⟩

/-- The two calls in `_compute_Pii`, fe.py:1423-1437 (both have the same keywords). -/
def callPii (solver : String) (tol : ℝ) : Call :=
  if solver = "amg" then ⟨solver, false, none, false⟩
  else if solver = "minres" then ⟨solver, false, some tol, false⟩
  else ⟨solver, false, some tol, true⟩

/-- A linear solver: call and right-hand side to the pair `(x, info)` (for `amg`, which returns only
`x`, the second part is not read).  Used for fe.py:1362-1366 and fe.py:593, 613, 1340-1371. -/
abbrev Run (m : ℕ) := Call → (Fin m → ℝ) → (Fin m → ℝ) × ℤ

/-- The `[0]` of fe.py:1362-1366 and 1433-1437: `info` is dropped. -/
def solveBy (run : Run m) (c : Call) (b : Fin m → ℝ) : Fin m → ℝ := (run c b).1

/-- `self.psi_hat` with the normalised firm, as attached (fe.py:593, 613, 1340-1371). -/
noncomputable def psiHat (d : Panel n m nw) (run : Run m) (solver : String) (tol : ℝ) : Fin (m + 1) → ℝ :=
  Panel.withZero (d.ols (solveBy run (callAAinv solver tol))).1

/-- `self.alpha_hat`. -/
noncomputable def alphaHat (d : Panel n m nw) (run : Run m) (solver : String) (tol : ℝ) : Fin nw → ℝ :=
  (d.ols (solveBy run (callAAinv solver tol))).2

/-- `_compute_Pii` without the explicit inverse, fe.py:1421-1445. -/
noncomputable def piiHat (d : Panel n m nw) (run : Run m) (solver : String) (tol : ℝ) (o : Fin n) : ℝ :=
  d.computePiiIter (solveBy run (callPii solver tol)) o

/-- `self.preconditioner`, fe.py:511-545, up to the matrices themselves: which one, its options, and whether the
operator for the transposed matrix is there. -/
structure Pcd where
  kind : String
  options : List (String × ℚ)
  transposed : Bool
  deriving DecidableEq

/-- Preparation of a SciPy solver, fe.py:511-545 and fecontrol.py:600-634.  Options are a dictionary or
`None`; `jacobi` never gets them.  Also returned: the user's dictionary afterwards (`vcycle` writes to it). -/
def prepare (solver : String) (pcdr : Option String) (options : Option (List (String × ℚ))) :
    Option Pcd × Option (List (String × ℚ)) :=
  let t := solver = "bicg" ∨ solver = "qmr"
  match pcdr with
  | none => (none, options)
  | some k =>
    if k = "jacobi" then (some ⟨k, [], decide t⟩, options)
    else if k = "vcycle" then
      let o := ("direct_solve_size", 0) :: (options.getD []).filter fun p => p.1 ≠ "direct_solve_size"
      (some ⟨k, o, decide t⟩, options.map fun _ => o)
    else if k = "ichol" then (some ⟨k, options.getD [("discard_threshold", 1 / 20)], decide t⟩, options)
    else (some ⟨k, options.getD [("drop_tol", 1 / 20)], decide t⟩, options)

/-! ## Specification -/

namespace Spec

variable (d : Panel n m nw)

/-- Weighted mean of `f` over the rows of worker `i`. -/
noncomputable def wmean (f : Fin n → ℝ) (i : Fin nw) : ℝ :=
  (∑ o with d.i o = i, d.Dp o * f o) / ∑ o with d.i o = i, d.Dp o

/-- Weighted residuals of firm `k` added up, for worker effects `alpha` and firm effects `psi`. -/
def gap (psi : Fin (m + 1) → ℝ) (alpha : Fin nw → ℝ) (k : Fin (m + 1)) : ℝ :=
  ∑ o with d.j o = k, d.Dp o * (d.y o - (alpha (d.i o) + psi (d.j o)))

/-- Weighted outcomes of firm `k` added up, after taking off each worker's mean. -/
noncomputable def load (k : Fin (m + 1)) : ℝ :=
  ∑ o with d.j o = k, d.Dp o * (d.y o - wmean d d.y (d.i o))

/-- Size of the problem handed to the solver. -/
noncomputable def size : ℝ := ∑ k with k ≠ 0, load d k ^ 2

/-- `lam` bounds from below how much the weighted sum of squares moves with the firm effects: the smallest
eigenvalue of the solver's matrix, said without the matrix. -/
def Stiff (lam : ℝ) : Prop :=
  ∀ (v : Fin (m + 1) → ℝ) (a : Fin nw → ℝ), v 0 = 0 →
    lam * ∑ k, v k ^ 2 ≤ ∑ o, d.Dp o * (v (d.j o) - a (d.i o)) ^ 2

/-- Worker and firm effects that fit best, the first firm at 0. -/
def Best (psi : Fin (m + 1) → ℝ) (alpha : Fin nw → ℝ) : Prop :=
  psi 0 = 0 ∧ ∀ psi' alpha', d.SSR psi alpha ≤ d.SSR psi' alpha'

/-- The documented contract of `solver_tol` (fe.py:143-145): called with `tol = t` on a system that has a
solution, the solver reports success and stops with `norm(residual) <= t * norm(b)`. -/
def Stops (run : Run m) : Prop :=
  ∀ c b t, c.tol = some t → (∃ x, d.Minv *ᵥ x = b) →
    (run c b).2 = 0 ∧ ∑ k, ((d.Minv *ᵥ (run c b).1) k - b k) ^ 2 ≤ t ^ 2 * ∑ k, b k ^ 2

end Spec

open Spec

/-! ## Lemmas -/

section Lemmas

variable (d : Panel n m nw) (solve : (Fin m → ℝ) → (Fin m → ℝ))

/-- Right-hand side of the reduced system. -/
noncomputable def rhs : Fin m → ℝ := (d.multAT d.y .yes).1 - d.DwinvWtDpJᵀ *ᵥ (d.multAT d.y .yes).2

theorem resid_split (hv : d.Valid) :
    d.Xᵀ *ᵥ (fun o => d.Dp o * (d.y o - (d.alphaCol solve o + d.psiCol solve o)))
      = Sum.elim (rhs d - d.Minv *ᵥ solve (rhs d)) 0 := by
  set p := (d.multAT d.y .yes).1 with hp
  set a := (d.multAT d.y .yes).2 with ha
  set q := solve (rhs d) with hq
  set r := rhs d - d.Minv *ᵥ q with hr
  have hrhs : rhs d = p - d.DwinvWtDpJᵀ *ᵥ a := rfl
  have h := d.multAAinv_spec hv (fun _ => q) (p - r) a (by rw [hr, hrhs]; abel)
  have e : d.multAAinv (fun _ => q) (p - r, a) = d.ols solve := rfl
  rw [e] at h
  have hT : (p, a) = ((d.Xᵀ *ᵥ fun o => d.Dp o * d.y o) ∘ Sum.inl, (d.Xᵀ *ᵥ fun o => d.Dp o * d.y o) ∘ Sum.inr) :=
    Dp_JT d.y
  have hp' : p = _ := congrArg Prod.fst hT
  have ha' : a = _ := congrArg Prod.snd hT
  have : (fun o => d.Dp o * (d.y o - (d.alphaCol solve o + d.psiCol solve o)))
      = (fun o => d.Dp o * d.y o) - diagonal d.Dp *ᵥ (d.X *ᵥ Sum.elim (d.ols solve).1 (d.ols solve).2) := by
    ext o
    rw [Pi.sub_apply, mulVec_diagonal, d.X_mulVec]
    simp only [Panel.alphaCol, Panel.psiCol]; ring
  rw [this, mulVec_sub, mulVec_mulVec, mulVec_mulVec]
  change _ - nmat d.X d.Dp *ᵥ _ = _
  rw [h]
  ext k
  rcases k with k | k
  · have := congrFun hp' k
    simp only [Function.comp] at this
    simp [← this]
  · have := congrFun ha' k
    simp only [Function.comp] at this
    simp [← this]

theorem gap_eq (hv : d.Valid) (k : Fin m) :
    gap d (Panel.withZero (d.ols solve).1) (d.ols solve).2 k.succ = (rhs d - d.Minv *ᵥ solve (rhs d)) k := by
  have := congrFun (resid_split d solve hv) (Sum.inl k)
  rw [Sum.elim_inl] at this
  rw [← this]
  simp [gap, mulVec, dotProduct, Panel.X, Panel.J, Panel.Jfull, Finset.sum_filter, Panel.alphaCol, Panel.psiCol]

theorem worker_zero (hv : d.Valid) (i : Fin nw) :
    ∑ o with d.i o = i, d.Dp o * (d.y o - (d.alphaCol solve o + d.psiCol solve o)) = 0 := by
  have := congrFun (resid_split d solve hv) (Sum.inr i)
  simpa [mulVec, dotProduct, Panel.X, Panel.W, Finset.sum_filter] using this

theorem alpha_eq (hv : d.Valid) (i : Fin nw) :
    (d.ols solve).2 i = wmean d (fun o => d.y o - Panel.withZero (d.ols solve).1 (d.j o)) i := by
  have h := worker_zero d solve hv i
  have hD : 0 < ∑ o with d.i o = i, d.Dp o := d.Dw_pos hv i
  rw [wmean, eq_div_iff hD.ne', Finset.mul_sum, ← sub_eq_zero, ← Finset.sum_sub_distrib, ← neg_eq_zero,
    ← Finset.sum_neg_distrib, ← h]
  refine Finset.sum_congr rfl fun o ho => ?_
  rw [Finset.mem_filter] at ho
  simp only [Panel.alphaCol, Panel.psiCol, ho.2]; ring

theorem rhs_eq (hv : d.Valid) (k : Fin m) : rhs d k = load d k.succ := by
  have h := gap_eq d (fun _ => 0) hv k
  rw [mulVec_zero, sub_zero] at h
  have h1 : (d.ols fun _ => 0).1 = 0 := rfl
  have hz : Panel.withZero (0 : Fin m → ℝ) = 0 := by
    funext k; refine Fin.cases ?_ (fun k => ?_) k <;> simp [Panel.withZero]
  rw [← h, gap, load]
  refine Finset.sum_congr rfl fun o _ => ?_
  rw [alpha_eq d _ hv, h1, hz]; simp

theorem sum_ne_zero (f : Fin (m + 1) → ℝ) : ∑ k with k ≠ 0, f k = ∑ k : Fin m, f k.succ := by
  rw [Finset.sum_filter, Fin.sum_univ_succ]; simp

theorem rhs_consistent (hv : d.Valid) : ∃ x, d.Minv *ᵥ x = rhs d := by
  obtain ⟨t, ht⟩ := normal_consistent d.X d.Dp (fun o => (hv.wpos o).le) d.y
  refine ⟨_, d.reduced_consistent hv (d.multAT d.y .yes).1 (d.multAT d.y .yes).2 t ?_⟩
  rw [ht]
  have hT : d.multAT d.y .yes = _ := Dp_JT d.y
  rw [hT]; exact (Sum.elim_comp_inl_inr _).symm

/-- The sum of squares around the estimates of any solver. -/
theorem ssr_expand (hv : d.Valid) (psi : Fin (m + 1) → ℝ) (alpha : Fin nw → ℝ) :
    let p := Panel.withZero (d.ols solve).1
    let a := (d.ols solve).2
    d.SSR psi alpha = d.SSR p a - 2 * ∑ k, gap d p a k * (psi k - p k)
      + ∑ o, d.Dp o * ((psi (d.j o) - p (d.j o)) - (a (d.i o) - alpha (d.i o))) ^ 2 := by
  intro p a
  have e1 : ∑ k, gap d p a k * (psi k - p k)
      = ∑ o, d.Dp o * (d.y o - (a (d.i o) + p (d.j o))) * (psi (d.j o) - p (d.j o)) := by
    simp only [gap, Finset.sum_mul]
    rw [← Finset.sum_fiberwise (s := Finset.univ) (g := d.j)]
    refine Finset.sum_congr rfl fun k _ => ?_
    refine Finset.sum_congr rfl fun o ho => ?_
    rw [Finset.mem_filter] at ho
    rw [ho.2]
  have e2 : ∑ o, d.Dp o * (d.y o - (a (d.i o) + p (d.j o))) * (alpha (d.i o) - a (d.i o)) = 0 := by
    rw [← Finset.sum_fiberwise (s := Finset.univ) (g := d.i)]
    refine Finset.sum_eq_zero fun i _ => ?_
    have := worker_zero d solve hv i
    have h2 : ∑ o with d.i o = i, d.Dp o * (d.y o - (a (d.i o) + p (d.j o))) * (alpha (d.i o) - a (d.i o))
        = (∑ o with d.i o = i, d.Dp o * (d.y o - (d.alphaCol solve o + d.psiCol solve o))) * (alpha i - a i) := by
      rw [Finset.sum_mul]
      refine Finset.sum_congr rfl fun o ho => ?_
      rw [Finset.mem_filter] at ho
      rw [ho.2]; simp only [Panel.alphaCol, Panel.psiCol, ho.2]; rfl
    rw [h2, this, zero_mul]
  rw [e1]
  have : d.SSR psi alpha = d.SSR p a
      - 2 * ∑ o, d.Dp o * (d.y o - (a (d.i o) + p (d.j o))) * (psi (d.j o) - p (d.j o))
      - 2 * ∑ o, d.Dp o * (d.y o - (a (d.i o) + p (d.j o))) * (alpha (d.i o) - a (d.i o))
      + ∑ o, d.Dp o * ((psi (d.j o) - p (d.j o)) - (a (d.i o) - alpha (d.i o))) ^ 2 := by
    simp only [Panel.SSR, Finset.mul_sum, ← Finset.sum_sub_distrib, ← Finset.sum_add_distrib]
    refine Finset.sum_congr rfl fun o _ => ?_
    ring
  rw [this, e2]; ring

/-- What the solver leaves over, summed over the firms. -/
theorem gap_bound (hv : d.Valid) {run : Run m} (hr : Stops d run) (solver : String) (tol : ℝ) :
    ∑ k with k ≠ 0, gap d (psiHat d run solver tol) (alphaHat d run solver tol) k ^ 2 ≤ tol ^ 2 * size d := by
  rw [size, sum_ne_zero, sum_ne_zero]
  have ht : (callAAinv solver tol).tol = some tol := by unfold callAAinv; split_ifs <;> rfl
  have h := (hr (callAAinv solver tol) (rhs d) tol ht (rhs_consistent d hv)).2
  simp only [rhs_eq d hv] at h
  refine le_trans (le_of_eq (Finset.sum_congr rfl fun k _ => ?_)) h
  have := gap_eq d (solveBy run (callAAinv solver tol)) hv k
  rw [psiHat, alphaHat, this, Pi.sub_apply, rhs_eq d hv, solveBy]
  ring

theorem wmean_sq_le (hv : d.Valid) (f : Fin n → ℝ) (i : Fin nw) (B : ℝ)
    (hB : ∀ o, d.i o = i → f o ^ 2 ≤ B) : wmean d f i ^ 2 ≤ B := by
  have hD : 0 < ∑ o with d.i o = i, d.Dp o := d.Dw_pos hv i
  have hcs := Finset.sum_mul_sq_le_sq_mul_sq (Finset.univ.filter fun o => d.i o = i)
    (fun o => Real.sqrt (d.Dp o)) (fun o => Real.sqrt (d.Dp o) * f o)
  have e1 : ∑ o with d.i o = i, Real.sqrt (d.Dp o) * (Real.sqrt (d.Dp o) * f o) = ∑ o with d.i o = i, d.Dp o * f o :=
    Finset.sum_congr rfl fun o _ => by rw [← mul_assoc, Real.mul_self_sqrt (hv.wpos o).le]
  have e2 : ∑ o with d.i o = i, Real.sqrt (d.Dp o) ^ 2 = ∑ o with d.i o = i, d.Dp o :=
    Finset.sum_congr rfl fun o _ => Real.sq_sqrt (hv.wpos o).le
  have e3 : ∑ o with d.i o = i, (Real.sqrt (d.Dp o) * f o) ^ 2 ≤ (∑ o with d.i o = i, d.Dp o) * B := by
    rw [Finset.sum_mul]
    refine Finset.sum_le_sum fun o ho => ?_
    rw [Finset.mem_filter] at ho
    rw [mul_pow, Real.sq_sqrt (hv.wpos o).le]
    exact mul_le_mul_of_nonneg_left (hB o ho.2) (hv.wpos o).le
  rw [e1, e2] at hcs
  rw [wmean, div_pow, div_le_iff₀ (by positivity)]
  calc _ ≤ _ := hcs
    _ ≤ (∑ o with d.i o = i, d.Dp o) * ((∑ o with d.i o = i, d.Dp o) * B) := mul_le_mul_of_nonneg_left e3 hD.le
    _ = _ := by ring

end Lemmas

/-! ## C109 -/

section C109

variable {d : Panel n m nw} {run : Run m}

/-- C109, workers: whatever the linear solver returns, converged or not, every worker's weighted residuals sum
to zero. -/
theorem C109_workers (hv : d.Valid) (run : Run m) (solver : String) (tol : ℝ) (i : Fin nw) :
    ∑ o with d.i o = i, d.Dp o * (d.y o - (alphaHat d run solver tol (d.i o)
      + psiHat d run solver tol (d.j o))) = 0 :=
  worker_zero d (solveBy run (callAAinv solver tol)) hv i

/-- C109, firms: the weighted residuals of the firms, added up within each and squared, are within the
tolerance of what they were before the firm effects were taken off. -/
theorem C109_firms (hv : d.Valid) (hr : Stops d run) (solver : String) (tol : ℝ) :
    ∑ k with k ≠ 0, gap d (psiHat d run solver tol) (alphaHat d run solver tol) k ^ 2 ≤ tol ^ 2 * size d :=
  gap_bound d hv hr solver tol

/-- C109, fit: the sum of squares is within `tol² size / lam` of the best one. -/
theorem C109_fit (hv : d.Valid) (hr : Stops d run) (solver : String) (tol : ℝ) {lam : ℝ} (hl : 0 < lam)
    (hlam : Stiff d lam) (psi : Fin (m + 1) → ℝ) (alpha : Fin nw → ℝ) :
    d.SSR (psiHat d run solver tol) (alphaHat d run solver tol)
      ≤ d.SSR psi alpha + tol ^ 2 * size d / lam := by
  set p := psiHat d run solver tol with hp
  set a := alphaHat d run solver tol with ha
  have hb := gap_bound d hv hr solver tol
  rw [← hp, ← ha] at hb
  have hsh : d.SSR psi alpha = d.SSR (fun k => psi k - psi 0) (fun i => alpha i + psi 0) :=
    Finset.sum_congr rfl fun o _ => by ring
  set psi' : Fin (m + 1) → ℝ := fun k => psi k - psi 0 with hpsi'
  set alpha' : Fin nw → ℝ := fun i => alpha i + psi 0 with halpha'
  have hx := ssr_expand d (solveBy run (callAAinv solver tol)) hv psi' alpha'
  simp only at hx
  change d.SSR psi' alpha' = d.SSR p a - 2 * ∑ k, gap d p a k * (psi' k - p k)
      + ∑ o, d.Dp o * ((psi' (d.j o) - p (d.j o)) - (a (d.i o) - alpha' (d.i o))) ^ 2 at hx
  have hp0 : p 0 = 0 := by simp [hp, psiHat, Panel.withZero]
  have hpsi0 : psi' 0 = 0 := sub_self _
  have hst := hlam (fun k => psi' k - p k) (fun i => a i - alpha' i) (by simp [hp0, hpsi0])
  have hpt : ∀ k, 2 * (gap d p a k * (psi' k - p k)) ≤ (if k ≠ 0 then gap d p a k ^ 2 else 0) / lam
      + lam * (psi' k - p k) ^ 2 := by
    intro k
    by_cases hk : k = 0
    · subst hk; simp [hp0, hpsi0]
    · rw [if_pos hk, div_add' _ _ _ hl.ne', le_div_iff₀ hl]
      nlinarith [sq_nonneg (gap d p a k - lam * (psi' k - p k))]
  have hs := Finset.sum_le_sum fun k (_ : k ∈ Finset.univ) => hpt k
  rw [← Finset.mul_sum, Finset.sum_add_distrib, ← Finset.sum_div, ← Finset.sum_filter, ← Finset.mul_sum] at hs
  have hd : (∑ k with k ≠ 0, gap d p a k ^ 2) / lam ≤ tol ^ 2 * size d / lam := by
    exact div_le_div_of_nonneg_right hb hl.le
  rw [hsh]; linarith

/-- C109, error: the firm effects are within `tol √size / lam` of the best ones, taken together, and so is every
worker effect; the fitted values are within `tol √(size / lam)`. -/
theorem C109_error (hv : d.Valid) (hr : Stops d run) (solver : String) (tol : ℝ) {lam : ℝ} (hl : 0 < lam)
    (hlam : Stiff d lam) {psi : Fin (m + 1) → ℝ} {alpha : Fin nw → ℝ} (hb : Best d psi alpha) :
    ∑ k, (psiHat d run solver tol k - psi k) ^ 2 ≤ tol ^ 2 * size d / lam ^ 2 ∧
    (∀ i, (alphaHat d run solver tol i - alpha i) ^ 2 ≤ tol ^ 2 * size d / lam ^ 2) ∧
    ∑ o, d.Dp o * ((alphaHat d run solver tol (d.i o) + psiHat d run solver tol (d.j o))
      - (alpha (d.i o) + psi (d.j o))) ^ 2 ≤ tol ^ 2 * size d / lam := by
  set p := psiHat d run solver tol with hp
  set a := alphaHat d run solver tol with ha
  have hgb := gap_bound d hv hr solver tol
  rw [← hp, ← ha] at hgb
  obtain ⟨s0, hs0⟩ := exists_goodSolver d
  set q := Panel.withZero (d.ols s0).1 with hq
  set c := (d.ols s0).2 with hc
  have hpc : d.SSR q c ≤ d.SSR psi alpha := C15_optimal hv hs0 psi alpha
  have heq : d.SSR psi alpha = d.SSR q c := le_antisymm (hb.2 q c) hpc
  have hp0 : p 0 = 0 := by simp [hp, psiHat, Panel.withZero]
  have hgz : ∀ k, k ≠ 0 → gap d q c k = 0 := fun k hk => (C15_normal_equations hv hs0).1 k hk
  -- the exact estimates are `psi`, `alpha`
  have hx0 := ssr_expand d s0 hv psi alpha
  simp only at hx0
  rw [← hq, ← hc] at hx0
  have hq0 : q 0 = 0 := by simp [hq, Panel.withZero]
  have hz0 : ∑ k, gap d q c k * (psi k - q k) = 0 := by
    refine Finset.sum_eq_zero fun k _ => ?_
    by_cases hk : k = 0
    · subst hk; rw [hb.1, hq0]; ring
    · rw [hgz k hk, zero_mul]
  have hfit0 : ∑ o, d.Dp o * ((psi (d.j o) - q (d.j o)) - (c (d.i o) - alpha (d.i o))) ^ 2 = 0 := by
    rw [hz0, heq] at hx0; linarith
  have hrow : ∀ o, (psi (d.j o) - q (d.j o)) - (c (d.i o) - alpha (d.i o)) = 0 := fun o => by
    have := (Finset.sum_eq_zero_iff_of_nonneg (fun o _ => mul_nonneg (hv.wpos o).le (sq_nonneg _))).mp hfit0 o
      (Finset.mem_univ o)
    have := (mul_eq_zero.mp this).resolve_left (hv.wpos o).ne'
    exact pow_eq_zero_iff (two_ne_zero) |>.mp this
  have hgzb : ∀ k, k ≠ 0 → gap d psi alpha k = 0 := fun k hk => by
    rw [← hgz k hk]
    refine Finset.sum_congr rfl fun o _ => ?_
    have := hrow o
    congr 1; linarith
  -- the sum of squares seen from both sides
  have hx := ssr_expand d (solveBy run (callAAinv solver tol)) hv psi alpha
  simp only at hx
  change d.SSR psi alpha = d.SSR p a - 2 * ∑ k, gap d p a k * (psi k - p k)
      + ∑ o, d.Dp o * ((psi (d.j o) - p (d.j o)) - (a (d.i o) - alpha (d.i o))) ^ 2 at hx
  have hy := ssr_expand d s0 hv p a
  simp only at hy
  rw [← hq, ← hc] at hy
  have hzy : ∑ k, gap d q c k * (p k - q k) = 0 := by
    refine Finset.sum_eq_zero fun k _ => ?_
    by_cases hk : k = 0
    · subst hk; rw [hp0, hq0]; ring
    · rw [hgz k hk, zero_mul]
  have hF : ∑ o, d.Dp o * ((p (d.j o) - q (d.j o)) - (c (d.i o) - a (d.i o))) ^ 2
      = ∑ o, d.Dp o * ((psi (d.j o) - p (d.j o)) - (a (d.i o) - alpha (d.i o))) ^ 2 := by
    refine Finset.sum_congr rfl fun o _ => ?_
    have := hrow o
    have e : (psi (d.j o) - p (d.j o)) - (a (d.i o) - alpha (d.i o))
      = - ((p (d.j o) - q (d.j o)) - (c (d.i o) - a (d.i o))) := by linarith
    rw [e, neg_sq]
  set F := ∑ o, d.Dp o * ((psi (d.j o) - p (d.j o)) - (a (d.i o) - alpha (d.i o))) ^ 2 with hFdef
  have hFG : F = ∑ k, gap d p a k * (psi k - p k) := by
    rw [hzy, hF] at hy; linarith
  have hst := hlam (fun k => psi k - p k) (fun i => a i - alpha i) (by simp [hp0, hb.1])
  rw [← hFdef] at hst
  set N := ∑ k, (psi k - p k) ^ 2 with hN
  set G := ∑ k with k ≠ 0, gap d p a k ^ 2 with hG
  have hN0 : 0 ≤ N := Finset.sum_nonneg fun k _ => sq_nonneg _
  have hG0 : 0 ≤ G := Finset.sum_nonneg fun k _ => sq_nonneg _
  have hFG' : F = ∑ k with k ≠ 0, gap d p a k * (psi k - p k) := by
    rw [hFG, Finset.sum_filter]
    refine Finset.sum_congr rfl fun k _ => ?_
    split_ifs with hk
    · rfl
    · rw [not_not.mp hk, hp0, hb.1]; ring
  have hcs : F ^ 2 ≤ G * N := by
    rw [hFG']
    refine le_trans (Finset.sum_mul_sq_le_sq_mul_sq _ _ _) ?_
    refine mul_le_mul_of_nonneg_left ?_ hG0
    exact Finset.sum_le_sum_of_subset_of_nonneg (Finset.filter_subset _ _) fun k _ _ => sq_nonneg _
  have hF0 : 0 ≤ F := le_trans (mul_nonneg hl.le hN0) hst
  -- `lam N ≤ F`, `F² ≤ G N`
  have hFl : lam * F ≤ G := by
    by_cases hFz : F = 0
    · rw [hFz, mul_zero]; exact hG0
    · have hFp : 0 < F := lt_of_le_of_ne hF0 (Ne.symm hFz)
      have : lam * F * F ≤ G * F := by
        calc lam * F * F = lam * F ^ 2 := by ring
          _ ≤ lam * (G * N) := mul_le_mul_of_nonneg_left hcs hl.le
          _ = G * (lam * N) := by ring
          _ ≤ G * F := mul_le_mul_of_nonneg_left hst hG0
      exact le_of_mul_le_mul_right this hFp
  have hNl : lam ^ 2 * N ≤ G := by
    calc lam ^ 2 * N = lam * (lam * N) := by ring
      _ ≤ lam * F := mul_le_mul_of_nonneg_left hst hl.le
      _ ≤ G := hFl
  have hNB : N ≤ tol ^ 2 * size d / lam ^ 2 := by
    rw [le_div_iff₀ (by positivity)]; linarith
  have hsym : ∑ k, (p k - psi k) ^ 2 = N := Finset.sum_congr rfl fun k _ => by ring
  refine ⟨by rw [hsym]; exact hNB, fun i => ?_, ?_⟩
  · have e1 : a i - alpha i = wmean d (fun o => psi (d.j o) - p (d.j o)) i := by
      have hD : 0 < ∑ o with d.i o = i, d.Dp o := d.Dw_pos hv i
      have ea := alpha_eq d (solveBy run (callAAinv solver tol)) hv i
      have ec := alpha_eq d s0 hv i
      have h1 : a i = wmean d (fun o => d.y o - p (d.j o)) i := ea
      have h2 : alpha i = wmean d (fun o => d.y o - psi (d.j o)) i := by
        have h3 : c i = wmean d (fun o => d.y o - q (d.j o)) i := ec
        have h4 : wmean d (fun o => d.y o - q (d.j o)) i
            = wmean d (fun o => d.y o - psi (d.j o)) i + (c i - alpha i) := by
          rw [wmean, wmean, div_add' _ _ _ hD.ne']
          congr 1
          rw [Finset.mul_sum, ← Finset.sum_add_distrib]
          refine Finset.sum_congr rfl fun o ho => ?_
          rw [Finset.mem_filter] at ho
          have := hrow o
          rw [ho.2] at this
          linear_combination (d.Dp o) * this
        linarith
      rw [h1, h2, wmean, wmean, wmean, ← sub_div, ← Finset.sum_sub_distrib]
      congr 1
      exact Finset.sum_congr rfl fun o _ => by ring
    rw [e1]
    refine le_trans (wmean_sq_le d hv _ i N fun o _ => ?_) hNB
    exact Finset.single_le_sum (f := fun k => (psi k - p k) ^ 2) (fun k _ => sq_nonneg _) (Finset.mem_univ (d.j o))
  · have e : ∑ o, d.Dp o * ((a (d.i o) + p (d.j o)) - (alpha (d.i o) + psi (d.j o))) ^ 2 = F :=
      Finset.sum_congr rfl fun o _ => by ring
    rw [e, le_div_iff₀ hl]; linarith

/-! ### Existence -/

theorem wmean_best (hv : d.Valid) (f : Fin n → ℝ) (a : Fin nw → ℝ) :
    ∑ o, d.Dp o * (f o - wmean d f (d.i o)) ^ 2 ≤ ∑ o, d.Dp o * (f o - a (d.i o)) ^ 2 := by
  rw [← Finset.sum_fiberwise (s := Finset.univ) (g := d.i)
    (f := fun o => d.Dp o * (f o - wmean d f (d.i o)) ^ 2),
    ← Finset.sum_fiberwise (s := Finset.univ) (g := d.i) (f := fun o => d.Dp o * (f o - a (d.i o)) ^ 2)]
  refine Finset.sum_le_sum fun i _ => ?_
  have hD : 0 < ∑ o with d.i o = i, d.Dp o := d.Dw_pos hv i
  have hz : ∑ o with d.i o = i, d.Dp o * (f o - wmean d f i) = 0 := by
    simp only [mul_sub, Finset.sum_sub_distrib, ← Finset.sum_mul]
    rw [wmean, mul_div_cancel₀ _ hD.ne', sub_self]
  have e : ∑ o with d.i o = i, d.Dp o * (f o - a (d.i o)) ^ 2
      = ∑ o with d.i o = i, d.Dp o * (f o - wmean d f (d.i o)) ^ 2
        + 2 * (wmean d f i - a i) * ∑ o with d.i o = i, d.Dp o * (f o - wmean d f i)
        + (wmean d f i - a i) ^ 2 * ∑ o with d.i o = i, d.Dp o := by
    rw [Finset.mul_sum, Finset.mul_sum, ← Finset.sum_add_distrib, ← Finset.sum_add_distrib]
    refine Finset.sum_congr rfl fun o ho => ?_
    rw [(Finset.mem_filter.mp ho).2]; ring
  rw [e, hz]
  have := mul_nonneg (sq_nonneg (wmean d f i - a i)) hD.le
  linarith

/-- C109: on connected data some positive number is a lower bound as asked for in the theorems above. -/
theorem C109_stiff_exists (hv : d.Valid) (hc : d.Connected) : ∃ lam, 0 < lam ∧ Stiff d lam := by
  set g : (Fin m → ℝ) → ℝ := fun v =>
    ∑ o, d.Dp o * (Panel.withZero v (d.j o) - wmean d (fun o => Panel.withZero v (d.j o)) (d.i o)) ^ 2 with hg
  have hcz : ∀ k : Fin (m + 1), Continuous fun v : Fin m → ℝ => Panel.withZero v k := by
    intro k
    refine Fin.cases ?_ (fun k => ?_) k
    · simp only [Panel.withZero, Fin.cons_zero]; exact continuous_const
    · simp only [Panel.withZero, Fin.cons_succ]; exact continuous_apply k
  have hgc : Continuous g := by
    refine continuous_finsetSum _ fun o _ => continuous_const.mul (((hcz _).sub ?_).pow 2)
    exact (continuous_finsetSum _ fun o' _ => continuous_const.mul (hcz _)).div_const _
  have hghom : ∀ (c : ℝ) v, g (c • v) = c ^ 2 * g v := by
    intro c v
    have e : ∀ k, Panel.withZero (c • v) k = c * Panel.withZero v k := by
      intro k; refine Fin.cases ?_ (fun k => ?_) k <;> simp [Panel.withZero]
    simp only [hg, e, Finset.mul_sum]
    refine Finset.sum_congr rfl fun o _ => ?_
    have : wmean d (fun o => c * Panel.withZero v (d.j o)) (d.i o)
        = c * wmean d (fun o => Panel.withZero v (d.j o)) (d.i o) := by
      rw [wmean, wmean, mul_div_assoc', Finset.mul_sum]
      congr 1; exact Finset.sum_congr rfl fun o _ => by ring
    rw [this]; ring
  have hgpos : ∀ v, v ≠ 0 → 0 < g v := by
    intro v hv0
    have h0 : 0 ≤ g v := Finset.sum_nonneg fun o _ => mul_nonneg (hv.wpos o).le (sq_nonneg _)
    refine lt_of_le_of_ne h0 fun h => hv0 ?_
    have hrow : ∀ o, Panel.withZero v (d.j o) = wmean d (fun o => Panel.withZero v (d.j o)) (d.i o) := fun o => by
      have := (Finset.sum_eq_zero_iff_of_nonneg (fun o _ => mul_nonneg (hv.wpos o).le (sq_nonneg _))).mp h.symm o
        (Finset.mem_univ o)
      have := (mul_eq_zero.mp this).resolve_left (hv.wpos o).ne'
      exact sub_eq_zero.mp (pow_eq_zero_iff two_ne_zero |>.mp this)
    have hlink : ∀ a b, d.Linked a b → Panel.withZero v a = Panel.withZero v b := by
      rintro a b ⟨o, o', hi, rfl, rfl⟩
      rw [hrow o, hrow o', hi]
    have hall : ∀ b, Panel.withZero v 0 = Panel.withZero v b := fun b => by
      have := hc 0 b
      induction this with
      | refl => rfl
      | tail _ hl ih => rw [ih, hlink _ _ hl]
    ext k
    have := hall k.succ
    simpa [Panel.withZero] using this.symm
  have hsum : ∀ v : Fin (m + 1) → ℝ, v 0 = 0 → ∑ k, v k ^ 2 = ∑ k : Fin m, v k.succ ^ 2 := fun v h => by
    rw [Fin.sum_univ_succ, h]; simp
  have hw0 : ∀ v : Fin (m + 1) → ℝ, v 0 = 0 → Panel.withZero (fun k => v k.succ) = v := fun v h => by
    funext k; refine Fin.cases ?_ (fun k => ?_) k <;> simp [Panel.withZero, h]
  rcases Nat.eq_zero_or_pos m with hm | hm
  · subst hm
    refine ⟨1, one_pos, fun v a h => ?_⟩
    rw [hsum v h]
    simp only [Finset.univ_eq_empty, Finset.sum_empty, mul_zero]
    exact Finset.sum_nonneg fun o _ => mul_nonneg (hv.wpos o).le (sq_nonneg _)
  set S : Set (Fin m → ℝ) := {v | ∑ k, v k ^ 2 = 1} with hS
  have hSc : IsClosed S := isClosed_eq (continuous_finsetSum _ fun k _ => (continuous_apply k).pow 2) continuous_const
  have hSb : S ⊆ Metric.closedBall 0 1 := by
    intro v hv1
    rw [mem_closedBall_zero_iff, pi_norm_le_iff_of_nonneg zero_le_one]
    intro k
    have : v k ^ 2 ≤ 1 := by
      rw [← (show ∑ k, v k ^ 2 = 1 from hv1)]
      exact Finset.single_le_sum (f := fun k => v k ^ 2) (fun k _ => sq_nonneg _) (Finset.mem_univ k)
    rw [Real.norm_eq_abs]
    exact (sq_le_one_iff_abs_le_one _).mp this
  have hScomp : IsCompact S := (isCompact_closedBall 0 1).of_isClosed_subset hSc hSb
  have hSne : S.Nonempty := ⟨Pi.single ⟨0, hm⟩ 1, by
    change ∑ k, (Pi.single (⟨0, hm⟩ : Fin m) (1 : ℝ) : Fin m → ℝ) k ^ 2 = 1
    rw [Finset.sum_eq_single ⟨0, hm⟩]
    · simp
    · intro b _ hb; simp [hb]
    · simp⟩
  obtain ⟨v0, hv0, hmin⟩ := hScomp.exists_isMinOn hSne hgc.continuousOn
  have hv0ne : v0 ≠ 0 := by
    rintro rfl
    have : ∑ k : Fin m, (0 : Fin m → ℝ) k ^ 2 = 1 := hv0
    simp at this
  refine ⟨g v0, hgpos v0 hv0ne, fun v a h => ?_⟩
  refine le_trans ?_ (wmean_best hv (fun o => v (d.j o)) a)
  have hgv : ∑ o, d.Dp o * (v (d.j o) - wmean d (fun o => v (d.j o)) (d.i o)) ^ 2 = g (fun k => v k.succ) := by
    simp only [hg, hw0 v h]
  rw [hgv, hsum v h]
  set u : Fin m → ℝ := fun k => v k.succ with hu
  set N := ∑ k, u k ^ 2 with hN
  have hN0 : 0 ≤ N := Finset.sum_nonneg fun k _ => sq_nonneg _
  rcases hN0.eq_or_lt with hz | hpos
  · rw [← hz, mul_zero]
    exact Finset.sum_nonneg fun o _ => mul_nonneg (hv.wpos o).le (sq_nonneg _)
  have hsq : Real.sqrt N ^ 2 = N := Real.sq_sqrt hN0
  have hsp : 0 < Real.sqrt N := Real.sqrt_pos.mpr hpos
  have hmem : (Real.sqrt N)⁻¹ • u ∈ S := by
    change ∑ k, ((Real.sqrt N)⁻¹ • u) k ^ 2 = 1
    simp only [Pi.smul_apply, smul_eq_mul, mul_pow, ← Finset.mul_sum]
    rw [← hN, inv_pow, hsq, inv_mul_cancel₀ hpos.ne']
  have hle : g v0 ≤ g ((Real.sqrt N)⁻¹ • u) := hmin hmem
  rw [hghom, inv_pow, hsq, inv_mul_eq_div, le_div_iff₀ hpos] at hle
  exact hle

/-- C109, limit: on connected data the estimates come as close as wanted to the best ones if only the tolerance is
small enough, whichever solver is chosen and however it stops. -/
theorem C109_limit (hv : d.Valid) (hc : d.Connected) {psi : Fin (m + 1) → ℝ} {alpha : Fin nw → ℝ}
    (hb : Best d psi alpha) {ε : ℝ} (hε : 0 < ε) :
    ∃ t, 0 < t ∧ ∀ (run : Run m) (solver : String) (tol : ℝ), Stops d run → 0 ≤ tol → tol ≤ t →
      (∀ k, |psiHat d run solver tol k - psi k| < ε) ∧ (∀ i, |alphaHat d run solver tol i - alpha i| < ε) := by
  obtain ⟨lam, hl, hlam⟩ := C109_stiff_exists hv hc
  have hs0 : 0 ≤ size d := Finset.sum_nonneg fun k _ => sq_nonneg _
  have hq : 0 < Real.sqrt (size d) + 1 := by positivity
  refine ⟨ε * lam / (Real.sqrt (size d) + 1) , by positivity, fun run solver tol hr h0 ht => ?_⟩
  have hlt : tol ^ 2 * size d / lam ^ 2 < ε ^ 2 := by
    rw [div_lt_iff₀ (by positivity), ← mul_pow]
    rw [le_div_iff₀ hq] at ht
    have h1 : (tol * Real.sqrt (size d)) ^ 2 = tol ^ 2 * size d := by rw [mul_pow, Real.sq_sqrt hs0]
    rw [← h1]
    rcases h0.eq_or_lt with h | h
    · rw [← h, zero_mul, zero_pow two_ne_zero]; positivity
    · refine pow_lt_pow_left₀ ?_ (by positivity) two_ne_zero
      nlinarith
  obtain ⟨h1, h2, -⟩ := C109_error hv hr solver tol hl hlam hb
  refine ⟨fun k => ?_, fun i => ?_⟩
  · refine abs_lt_of_sq_lt_sq (lt_of_le_of_lt ?_ hlt) hε.le
    exact le_trans (Finset.single_le_sum (f := fun k => (psiHat d run solver tol k - psi k) ^ 2)
      (fun k _ => sq_nonneg _) (Finset.mem_univ k)) h1
  · exact abs_lt_of_sq_lt_sq (lt_of_le_of_lt (h2 i) hlt) hε.le

/-- C109: such solvers exist for every panel, and so do best effects. -/
theorem C109_solver_exists (d : Panel n m nw) : ∃ run : Run m, Stops d run := by
  obtain ⟨s, hs⟩ := exists_goodSolver d
  refine ⟨fun _ b => (s b, 0), fun c b t _ hx => ⟨rfl, ?_⟩⟩
  rw [hs b hx]
  simp only [sub_self, ne_eq, OfNat.ofNat_ne_zero, not_false_eq_true, zero_pow, Finset.sum_const_zero]
  exact mul_nonneg (sq_nonneg _) (Finset.sum_nonneg fun k _ => sq_nonneg _)

theorem C109_best_exists (hv : d.Valid) : ∃ psi alpha, Best d psi alpha := by
  obtain ⟨s, hs⟩ := exists_goodSolver d
  exact ⟨Panel.withZero (d.ols s).1, (d.ols s).2, by simp [Panel.withZero], fun p a => C15_optimal hv hs p a⟩

/-! ### Leverages -/

theorem Minv_form (hv : d.Valid) (v : Fin m → ℝ) :
    v ⬝ᵥ (d.Minv *ᵥ v) = ∑ o, d.Dp o * (Panel.withZero v (d.j o) - (d.DwinvWtDpJ *ᵥ v) (d.i o)) ^ 2 := by
  have h := d.multAAinv_spec hv (fun _ => v) (d.Minv *ᵥ v) 0 (by simp)
  have e1 : (d.multAAinv (fun _ => v) (d.Minv *ᵥ v, 0)).1 = v := rfl
  have e2 : (d.multAAinv (fun _ => v) (d.Minv *ᵥ v, 0)).2 = -(d.DwinvWtDpJ *ᵥ v) := by
    ext i; simp [Panel.multAAinv]
  rw [e1, e2] at h
  set t := Sum.elim v (-(d.DwinvWtDpJ *ᵥ v)) with ht
  have h1 : t ⬝ᵥ (nmat d.X d.Dp *ᵥ t) = v ⬝ᵥ (d.Minv *ᵥ v) := by
    rw [h, ht, sumElim_dotProduct_sumElim]; simp
  rw [← h1, nmat, Matrix.mul_assoc, ← mulVec_mulVec, dotProduct_mulVec, vecMul_transpose, ← mulVec_mulVec,
    dotProduct]
  refine Finset.sum_congr rfl fun o _ => ?_
  rw [mulVec_diagonal, ht, d.X_mulVec, Pi.neg_apply]; ring

/-- Error of one solve, whatever the right-hand side. -/
theorem solve_error (hv : d.Valid) (hc : d.Connected) {lam : ℝ} (hl : 0 < lam) (hlam : Stiff d lam)
    (x b : Fin m → ℝ) (t : ℝ) (hx : ∑ k, ((d.Minv *ᵥ x) k - b k) ^ 2 ≤ t ^ 2 * ∑ k, b k ^ 2) :
    ∑ k, (x k - (d.Minv⁻¹ *ᵥ b) k) ^ 2 ≤ t ^ 2 * (∑ k, b k ^ 2) / lam ^ 2 := by
  have hM := d.Minv_unit hv (d.nmat_unit hv hc)
  set v := x - d.Minv⁻¹ *ᵥ b with hvd
  have hMv : d.Minv *ᵥ v = d.Minv *ᵥ x - b := by
    rw [hvd, mulVec_sub, mulVec_mulVec, mul_nonsing_inv _ hM, one_mulVec]
  have h0 : Panel.withZero v 0 = 0 := by simp [Panel.withZero]
  have hst := hlam (Panel.withZero v) (d.DwinvWtDpJ *ᵥ v) h0
  rw [← Minv_form hv, Fin.sum_univ_succ, h0, hMv] at hst
  have hws : ∀ k : Fin m, Panel.withZero v k.succ = v k := fun k => by simp [Panel.withZero]
  simp only [hws] at hst
  set N := ∑ k, v k ^ 2 with hN
  set R := ∑ k, ((d.Minv *ᵥ x) k - b k) ^ 2 with hR
  set P := v ⬝ᵥ (d.Minv *ᵥ x - b) with hP
  have hN0 : 0 ≤ N := Finset.sum_nonneg fun k _ => sq_nonneg _
  have hR0 : 0 ≤ R := Finset.sum_nonneg fun k _ => sq_nonneg _
  have hcs : P ^ 2 ≤ N * R := Finset.sum_mul_sq_le_sq_mul_sq Finset.univ v (fun k => (d.Minv *ᵥ x) k - b k)
  have hst' : lam * N ≤ P := by simpa using hst
  have hNl : lam ^ 2 * N ≤ R := by
    rcases hN0.eq_or_lt with h | h
    · rw [← h, mul_zero]; exact hR0
    · have h2 : (lam * N) ^ 2 ≤ N * R := le_trans (pow_le_pow_left₀ (mul_nonneg hl.le hN0) hst' 2) hcs
      have : N * (lam ^ 2 * N) ≤ N * R := by nlinarith
      exact le_of_mul_le_mul_left this h
  change N ≤ _
  rw [le_div_iff₀ (by positivity)]
  nlinarith

theorem pii_diff (o : Fin n) (s s' : (Fin m → ℝ) → (Fin m → ℝ)) :
    let B : Matrix (Fin m) (Fin nw) ℝ := -(d.Jᵀ * of fun o i => d.DpWm o i * d.Dwinv i)
    let L : Fin m → ℝ := d.sqrtDpJ o + B *ᵥ d.sqrtDpW o
    d.computePiiIter s o - d.computePiiIter s' o
      = L ⬝ᵥ (s (d.sqrtDpJ o) - s' (d.sqrtDpJ o)) + L ⬝ᵥ (s (B *ᵥ d.sqrtDpW o) - s' (B *ᵥ d.sqrtDpW o)) := by
  intro B L
  have hC : ∀ x : Fin m → ℝ, d.sqrtDpW o ⬝ᵥ (Bᵀ *ᵥ x) = (B *ᵥ d.sqrtDpW o) ⬝ᵥ x := fun x => by
    rw [dotProduct_mulVec, vecMul_transpose]
  have hadd : ∀ (c : ℝ) (x : Fin nw → ℝ), d.sqrtDpW o ⬝ᵥ (fun i => c + x i)
      = d.sqrtDpW o ⬝ᵥ (fun _ => c) + d.sqrtDpW o ⬝ᵥ x := fun c x => by
    rw [← dotProduct_add]; rfl
  simp only [Panel.computePiiIter, L]
  rw [hadd, hadd, hC, hC, hC, hC]
  simp only [add_dotProduct, dotProduct_sub]
  ring

/-- C109, leverages: without the explicit inverse they too come as close as wanted to the exact ones, with every
solver except `amg`. -/
theorem C109_leverage_limit_partial (hv : d.Valid) (hc : d.Connected) {ε : ℝ} (hε : 0 < ε) :
    ∃ t, 0 < t ∧ ∀ (run : Run m) (solver : String) (tol : ℝ), Stops d run → solver ≠ "amg" → 0 ≤ tol → tol ≤ t →
      ∀ o, |piiHat d run solver tol o - d.computePii d.blocksFull o| < ε := by
  obtain ⟨lam, hl, hlam⟩ := C109_stiff_exists hv hc
  obtain ⟨s0, hs0⟩ := exists_goodSolver d
  have hM := d.Minv_unit hv (d.nmat_unit hv hc)
  have hs0' : ∀ b, s0 b = d.Minv⁻¹ *ᵥ b := by
    intro b
    have h1 := hs0 b ⟨d.Minv⁻¹ *ᵥ b, by rw [mulVec_mulVec, mul_nonsing_inv _ hM, one_mulVec]⟩
    rw [← h1, mulVec_mulVec, nonsing_inv_mul _ hM, one_mulVec, h1]
  set B : Matrix (Fin m) (Fin nw) ℝ := -(d.Jᵀ * of fun o i => d.DpWm o i * d.Dwinv i) with hB
  set L : Fin n → Fin m → ℝ := fun o => d.sqrtDpJ o + B *ᵥ d.sqrtDpW o with hL
  set sz : (Fin m → ℝ) → ℝ := fun b => Real.sqrt (∑ k, b k ^ 2) with hsz
  have hsz0 : ∀ b, 0 ≤ sz b := fun b => Real.sqrt_nonneg _
  set C : ℝ := ∑ o, sz (L o) * (sz (d.sqrtDpJ o) + sz (B *ᵥ d.sqrtDpW o)) with hC
  have hC0 : 0 ≤ C := Finset.sum_nonneg fun o _ => mul_nonneg (hsz0 _) (add_nonneg (hsz0 _) (hsz0 _))
  refine ⟨ε * lam / (C + 1), by positivity, fun run solver tol hr hamg h0 ht o => ?_⟩
  have htol : (callPii solver tol).tol = some tol := by
    unfold callPii; rw [if_neg hamg]; split_ifs <;> rfl
  have herr : ∀ b, sz (solveBy run (callPii solver tol) b - s0 b) ≤ tol * sz b / lam := by
    intro b
    have hb : ∃ x, d.Minv *ᵥ x = b := ⟨d.Minv⁻¹ *ᵥ b, by rw [mulVec_mulVec, mul_nonsing_inv _ hM, one_mulVec]⟩
    have h1 := solve_error hv hc hl hlam _ b tol (hr (callPii solver tol) b tol htol hb).2
    rw [hs0']
    refine Real.sqrt_le_iff.mpr ⟨div_nonneg (mul_nonneg h0 (hsz0 b)) hl.le, ?_⟩
    rw [div_pow, mul_pow, hsz, Real.sq_sqrt (Finset.sum_nonneg fun k _ => sq_nonneg _)]
    exact h1
  have hdot : ∀ u v : Fin m → ℝ, |u ⬝ᵥ v| ≤ sz u * sz v := by
    intro u v
    rw [hsz, ← Real.sqrt_mul (Finset.sum_nonneg fun k _ => sq_nonneg _)]
    refine Real.abs_le_sqrt ?_
    exact Finset.sum_mul_sq_le_sq_mul_sq Finset.univ u v
  have hd := pii_diff (d := d) o (solveBy run (callPii solver tol)) s0
  simp only at hd
  rw [← hB] at hd
  rw [← C17_iterative_branch s0 hv hc hs0 o, piiHat, hd]
  have hA : ∀ b, |L o ⬝ᵥ (solveBy run (callPii solver tol) b - s0 b)| ≤ sz (L o) * (tol * sz b / lam) := fun b =>
    (hdot _ _).trans (mul_le_mul_of_nonneg_left (herr b) (hsz0 _))
  have hCo : sz (L o) * (sz (d.sqrtDpJ o) + sz (B *ᵥ d.sqrtDpW o)) ≤ C :=
    Finset.single_le_sum (f := fun o => sz (L o) * (sz (d.sqrtDpJ o) + sz (B *ᵥ d.sqrtDpW o)))
      (fun o _ => mul_nonneg (hsz0 _) (add_nonneg (hsz0 _) (hsz0 _))) (Finset.mem_univ o)
  refine lt_of_le_of_lt ((abs_add_le _ _).trans (add_le_add (hA _) (hA _))) ?_
  have e : sz (L o) * (tol * sz (d.sqrtDpJ o) / lam) + sz (L o) * (tol * sz (B *ᵥ d.sqrtDpW o) / lam)
      = tol / lam * (sz (L o) * (sz (d.sqrtDpJ o) + sz (B *ᵥ d.sqrtDpW o))) := by ring
  rw [e]
  rw [le_div_iff₀ (by positivity)] at ht
  have h1 : tol / lam * (C + 1) ≤ ε := by
    rw [div_mul_eq_mul_div, div_le_iff₀ hl]; exact ht
  have h2 : tol / lam * (sz (L o) * (sz (d.sqrtDpJ o) + sz (B *ᵥ d.sqrtDpW o))) ≤ tol / lam * C :=
    mul_le_mul_of_nonneg_left hCo (div_nonneg h0 hl.le)
  rcases (div_nonneg h0 hl.le).eq_or_lt with h | h
  · rw [← h, zero_mul]; exact hε
  · nlinarith

/-! ### A panel of two rows -/

/-- One worker, first at firm 0 with outcome 0, then at firm 1 with outcome 2. -/
def two : Panel 2 1 1 := ⟨![0, 1], ![0, 0], ![0, 2], false, ![1, 1]⟩

theorem two_valid : two.Valid where
  wpos := by intro o; simp [Panel.Dp, two]
  seen := by intro i; fin_cases i; exact ⟨0, rfl⟩

theorem two_connected : two.Connected := by
  intro a b
  refine .single ?_
  fin_cases a <;> fin_cases b
  exacts [⟨0, 0, rfl, rfl, rfl⟩, ⟨0, 1, rfl, rfl, rfl⟩, ⟨1, 0, rfl, rfl, rfl⟩, ⟨1, 1, rfl, rfl, rfl⟩]

theorem two_Dp (o : Fin 2) : two.Dp o = 1 := by simp [Panel.Dp, two]

theorem two_stiff : Stiff two (1 / 2) := by
  intro v a h
  simp only [Fin.sum_univ_two, two_Dp]
  simp [two, h]
  nlinarith [sq_nonneg (v 1 - 2 * a 0)]

theorem two_wmean (f : Fin 2 → ℝ) (i : Fin 1) : wmean two f i = (f 0 + f 1) / 2 := by
  have : ∀ o, two.i o = i := fun o => Subsingleton.elim _ _
  simp [wmean, two_Dp, this, Fin.sum_univ_two]

theorem two_size : size two = 1 := by
  have e : ∀ (p : Fin 2 → Prop) [DecidablePred p] (f : Fin 2 → ℝ), ∑ o with p o, f o
      = (if p 0 then f 0 else 0) + (if p 1 then f 1 else 0) := fun p _ f => by
    rw [Finset.sum_filter, Fin.sum_univ_two]
  rw [size, e]
  simp only [load, e, two_Dp, two_wmean]
  simp [two]; norm_num

theorem two_best : Best two ![0, 2] ![0] := by
  refine ⟨rfl, fun p a => ?_⟩
  have : two.SSR ![0, 2] ![0] = 0 := by simp [Panel.SSR, two]
  rw [this]
  exact Finset.sum_nonneg fun o _ => mul_nonneg (two_valid.wpos o).le (sq_nonneg _)

theorem two_Minv : two.Minv = !![1 / 2] := by
  have hf := Minv_form two_valid (fun _ => (1 : ℝ))
  have hk : ∀ i, (two.DwinvWtDpJ *ᵥ fun _ => (1 : ℝ)) i = 1 / 2 := by
    intro i
    have hD : two.Dw i = 2 := by
      have : ∀ o, two.i o = i := fun o => Subsingleton.elim _ _
      simp [Panel.Dw, two_Dp, this]
    simp [mulVec, dotProduct, Panel.DwinvWtDpJ, Panel.Dwinv_eq, hD, Panel.WtDpJ, mul_apply, Fin.sum_univ_two,
      Panel.DpJ, two_Dp, Panel.J, Panel.Jfull, Panel.W]
    simp [two]
    exact Subsingleton.elim _ _
  ext a b
  fin_cases a; fin_cases b
  simp only [hk, Fin.sum_univ_two, two_Dp] at hf
  simp [mulVec, dotProduct, two, Panel.withZero] at hf
  simp [two]
  rw [hf]; norm_num

theorem two_rhs (k : Fin 1) : rhs two k = 1 := by
  rw [rhs_eq two two_valid]
  have : size two = load two 1 ^ 2 := by
    rw [size, sum_ne_zero]; simp
  have e : load two k.succ = 1 := by
    have hk : k.succ = (1 : Fin 2) := by fin_cases k; rfl
    rw [hk]
    simp only [load, Finset.sum_filter, Fin.sum_univ_two, two_Dp, two_wmean]
    simp [two]; norm_num
  exact e

/-- C109: the bounds cannot be improved: there is a panel on which, for every tolerance, a solver that keeps to
the stopping rule makes the error of the firm effects and the loss of fit as large as they allow. -/
theorem C109_sharp : ∃ (d : Panel 2 1 1) (lam : ℝ) (psi : Fin 2 → ℝ) (alpha : Fin 1 → ℝ), d.Valid ∧ d.Connected ∧
    0 < lam ∧ Stiff d lam ∧ Best d psi alpha ∧ 0 < size d ∧
    ∃ run : Run 1, Stops d run ∧ ∀ (solver : String) (tol : ℝ),
      ∑ k, (psiHat d run solver tol k - psi k) ^ 2 = tol ^ 2 * size d / lam ^ 2 ∧
      d.SSR (psiHat d run solver tol) (alphaHat d run solver tol) = d.SSR psi alpha + tol ^ 2 * size d / lam := by
  refine ⟨two, 1 / 2, ![0, 2], ![0], two_valid, two_connected, by norm_num, two_stiff, two_best,
    by rw [two_size]; exact one_pos, fun c b => (fun k => 2 * (1 - c.tol.getD 0) * b k, 0), ?_, ?_⟩
  · rintro c b t hct -
    refine ⟨rfl, le_of_eq ?_⟩
    simp [two_Minv, hct, mulVec, dotProduct]; ring
  · intro solver tol
    have ht : (callAAinv solver tol).tol = some tol := by unfold callAAinv; split_ifs <;> rfl
    set run : Run 1 := fun c b => (fun k => 2 * (1 - c.tol.getD 0) * b k, 0) with hrun
    have hp : psiHat two run solver tol = ![0, 2 * (1 - tol)] := by
      have h1 : (two.ols (solveBy run (callAAinv solver tol))).1 = solveBy run (callAAinv solver tol) (rhs two) := rfl
      rw [psiHat, h1]
      funext k
      fin_cases k
      · simp [Panel.withZero]
      · simp [Panel.withZero, solveBy, hrun, ht, two_rhs]
    have ha : alphaHat two run solver tol = ![tol] := by
      funext i
      have := alpha_eq two (solveBy run (callAAinv solver tol)) two_valid i
      have hp' : Panel.withZero (two.ols (solveBy run (callAAinv solver tol))).1 = ![0, 2 * (1 - tol)] := hp
      rw [hp', two_wmean] at this
      rw [alphaHat, this]
      fin_cases i
      simp [two]; ring
    rw [hp, ha, two_size]
    constructor
    · simp [Fin.sum_univ_two]; ring
    · simp [Panel.SSR, Fin.sum_univ_two, two_Dp]; simp [two]; ring

/-- C109: with a tolerance of 1 or more the stopping rule already holds at zero: all firm effects may come back as
0 and the worker effects as the workers' means, on every panel. -/
theorem C109_large_tolerance (hv : d.Valid) : ∃ run : Run m, Stops d run ∧
    ∀ (solver : String) (tol : ℝ), 1 ≤ tol →
      (∀ k, psiHat d run solver tol k = 0) ∧ ∀ i, alphaHat d run solver tol i = wmean d d.y i := by
  classical
  obtain ⟨s, hs⟩ := exists_goodSolver d
  refine ⟨fun c b => if 1 ≤ c.tol.getD 0 then (0, 0) else (s b, 0), ?_, fun solver tol h1 => ?_⟩
  · intro c b t ht hx
    have hb : 0 ≤ ∑ k, b k ^ 2 := Finset.sum_nonneg fun k _ => sq_nonneg _
    by_cases h : 1 ≤ t
    · simp only [ht, Option.getD_some, if_pos h, true_and, mulVec_zero, Pi.zero_apply, zero_sub, neg_sq]
      exact le_mul_of_one_le_left hb (one_le_pow₀ h)
    · simp only [ht, Option.getD_some, if_neg h, true_and, hs b hx]
      simp only [sub_self, ne_eq, OfNat.ofNat_ne_zero, not_false_eq_true, zero_pow, Finset.sum_const_zero]
      positivity
  · set run : Run m := fun c b => if 1 ≤ c.tol.getD 0 then (0, 0) else (s b, 0) with hrun
    have ht : (callAAinv solver tol).tol = some tol := by unfold callAAinv; split_ifs <;> rfl
    have hz : ∀ b, solveBy run (callAAinv solver tol) b = 0 := fun b => by simp [solveBy, hrun, ht, h1]
    have hp : psiHat d run solver tol = 0 := by
      have e : (d.ols (solveBy run (callAAinv solver tol))).1 = solveBy run (callAAinv solver tol) (rhs d) := rfl
      rw [psiHat, e, hz]
      funext k; refine Fin.cases ?_ (fun k => ?_) k <;> simp [Panel.withZero]
    refine ⟨fun k => by rw [hp]; rfl, fun i => ?_⟩
    have := alpha_eq d (solveBy run (callAAinv solver tol)) hv i
    have hp' : Panel.withZero (d.ols (solveBy run (callAAinv solver tol))).1 = 0 := hp
    rw [hp'] at this
    rw [alphaHat, this]; simp

/-- C109: the parameter dictionary asks for an integer of at least 0: every tolerance that can be set is 0 or at
least 1, and the default `1e-10` is not one of them. -/
theorem C109_settable : ∃ (v : CLI.Val) (rule : CLI.Rule), ("solver_tol", v, rule) ∈ CLI.feTable ∧
    v = .real 1 (10 ^ 10) ∧ rule.ok v = false ∧
    ∀ u, rule.ok u = true → u = .int 0 ∨ ∃ k : ℤ, 1 ≤ k ∧ u = .int k := by
  refine ⟨.real 1 (10 ^ 10), .intGe 0, by simp [CLI.feTable], rfl, rfl, fun u hu => ?_⟩
  rcases u with _ | _ | k | _ | _
  all_goals first | (simp [CLI.Rule.ok] at hu; done) | skip
  have hk : 0 ≤ k := by simpa [CLI.Rule.ok] using hu
  rcases hk.eq_or_lt with h | h
  · exact .inl (by rw [← h])
  · exact .inr ⟨k, h, rfl⟩

/-- C109: the main solve uses the chosen solver with the chosen tolerance; the preconditioner goes to every SciPy
solver but `qmr`; the solves for leverages never get it. -/
theorem C109_calls (solver : String) (tol : ℝ) :
    (callAAinv solver tol).solver = solver ∧ (callPii solver tol).solver = solver ∧
    (callAAinv solver tol).tol = some tol ∧
    ((callAAinv solver tol).precond = true ↔ solver ≠ "amg" ∧ solver ≠ "qmr") ∧
    (callPii solver tol).precond = false ∧
    ((callPii solver tol).tol = none ↔ solver = "amg") ∧
    ((callAAinv solver tol).atol0 = true ↔ solver ≠ "amg" ∧ solver ≠ "minres") ∧
    ((callPii solver tol).atol0 = true ↔ solver ≠ "amg" ∧ solver ≠ "minres") := by
  unfold callAAinv callPii
  by_cases h1 : solver = "amg"
  · subst h1; simp
  by_cases h2 : solver = "minres"
  · subst h2; simp
  by_cases h3 : solver = "qmr"
  · subst h3; simp
  simp [h1, h2, h3]

/-- C109: with `amg` the tolerance does not reach the leverages: they are the same for every tolerance. -/
theorem C109_amg_leverage (d : Panel n m nw) (run : Run m) (tol tol' : ℝ) (o : Fin n) :
    piiHat d run "amg" tol o = piiHat d run "amg" tol' o := rfl

/-- C109: and so they need not come near the exact ones however small it is. -/
theorem C109_amg_leverage_off : ∃ (d : Panel 2 1 1) (run : Run 1), d.Valid ∧ d.Connected ∧ Stops d run ∧
    ∃ o, d.computePii d.blocksFull o = 1 ∧ ∀ tol, piiHat d run "amg" tol o = 1 / 2 := by
  obtain ⟨s, hs⟩ := exists_goodSolver two
  have hs1 : ∀ b, s b = fun k => 2 * b k := fun b => by
    have h := hs b ⟨fun k => 2 * b k, by ext k; fin_cases k; simp [two_Minv, mulVec, dotProduct]⟩
    ext k; fin_cases k
    have := congrFun h 0
    simp [two_Minv, mulVec, dotProduct] at this
    simp; linarith
  have hD : ∀ i, two.Dw i = 2 := fun i => by
    have : ∀ o, two.i o = i := fun o => Subsingleton.elim _ _
    simp [Panel.Dw, two_Dp, this]
  refine ⟨two, fun c b => if c.tol = none then (0, 0) else (s b, 0), two_valid, two_connected, ?_, 0, ?_, ?_⟩
  · intro c b t ht hx
    simp only [ht, reduceCtorEq, if_false, true_and, hs b hx]
    simp only [sub_self, ne_eq, OfNat.ofNat_ne_zero, not_false_eq_true, zero_pow, Finset.sum_const_zero]
    positivity
  · rw [← C17_iterative_branch s two_valid two_connected hs 0, Panel.computePiiIter]
    simp only [hs1]
    simp [Panel.sqrtDpJ, Panel.sqrtDpW, two_Dp, mulVec, dotProduct, Panel.J, Panel.Jfull, Panel.W, mul_apply,
      Fin.sum_univ_two, Panel.DpWm, Panel.Dwinv_eq, hD]
    simp [two]; norm_num
  · intro tol
    have hz : solveBy (fun c b => if c.tol = none then (0, 0) else (s b, 0)) (callPii "amg" tol) = fun _ => (0 : Fin 1 → ℝ) := by
      funext b; simp [solveBy, callPii]
    rw [piiHat, hz, Panel.computePiiIter]
    simp [Panel.sqrtDpJ, Panel.sqrtDpW, two_Dp, mulVec, dotProduct, Panel.J, Panel.Jfull, Panel.W,
      Panel.Dwinv_eq, hD]
    simp [two]

/-- C109: a solver that reports failure is not noticed: on every panel with two firms or more there is one that
never reports success, no error is raised, and its output, however far off, is the estimate. -/
theorem C109_failure_unnoticed (d : Panel n m nw) (x : Fin m → ℝ) : ∃ run : Run m, (∀ c b, (run c b).2 ≠ 0) ∧
    ∀ (solver : String) (tol : ℝ) (k : Fin m), psiHat d run solver tol k.succ = x k :=
  ⟨fun _ _ => (x, 1), fun _ _ => one_ne_zero, fun solver tol k => by
    have e : (d.ols (solveBy (fun _ _ => (x, (1 : ℤ))) (callAAinv solver tol))).1 = x := rfl
    rw [psiHat, e]; simp [Panel.withZero]⟩

/-- C109: the prepared preconditioner: the chosen one, with an operator for the transpose exactly for the two
solvers that ask for one. -/
theorem C109_prepare (solver : String) (pcdr : Option String) (options : Option (List (String × ℚ))) :
    ((prepare solver pcdr options).1.map Pcd.kind = pcdr) ∧
    (∀ p, (prepare solver pcdr options).1 = some p →
      (p.transposed = true ↔ solver = "bicg" ∨ solver = "qmr") ∧
      (p.kind = "vcycle" → p.options.lookup "direct_solve_size" = some 0 ∧
        ∀ key, key ≠ "direct_solve_size" → p.options.lookup key = (options.getD []).lookup key) ∧
      (p.kind = "jacobi" → p.options = []) ∧
      (p.kind = "ichol" → p.options = options.getD [("discard_threshold", 1 / 20)]) ∧
      (p.kind = "ilu" → p.options = options.getD [("drop_tol", 1 / 20)])) := by
  have hlook : ∀ (l : List (String × ℚ)) key, key ≠ "direct_solve_size" →
      (l.filter fun p => p.1 ≠ "direct_solve_size").lookup key = l.lookup key := by
    intro l key hk
    induction l with
    | nil => rfl
    | cons p l ih =>
      rw [List.filter_cons]
      by_cases hp : p.1 = "direct_solve_size"
      · rw [if_neg (by simpa using hp), ih, List.lookup_cons]
        have : (key == p.1) = false := by rw [hp]; simpa using hk
        rw [this]
      · rw [if_pos (by simpa using hp), List.lookup_cons, List.lookup_cons, ih]
  unfold prepare
  rcases pcdr with _ | k
  · simp
  by_cases h1 : k = "jacobi"
  · subst h1; simp
  by_cases h2 : k = "vcycle"
  · subst h2
    refine ⟨by simp, fun p hp => ?_⟩
    simp only [reduceIte, Option.some.injEq, show ("vcycle" : String) ≠ "jacobi" by decide] at hp
    subst hp
    refine ⟨by simp, fun _ => ⟨by simp, fun key hk => ?_⟩, by simp, by simp, by simp⟩
    have : (key == "direct_solve_size") = false := by simpa using hk
    rw [List.lookup_cons, this]
    exact hlook _ _ hk
  by_cases h3 : k = "ichol"
  · subst h3; simp
  refine ⟨by simp [h1, h2, h3], fun p hp => ?_⟩
  simp only [h1, h2, h3, if_false, Option.some.injEq] at hp
  subst hp
  simp [h1, h2, h3]

/-- C109: a dictionary of options is left alone, except with `vcycle`, which writes to it. -/
theorem C109_options_written (solver : String) (pcdr : Option String) (options : Option (List (String × ℚ))) :
    (pcdr ≠ some "vcycle" → (prepare solver pcdr options).2 = options) ∧
    (pcdr = some "vcycle" → ∀ o, options = some o →
      ∃ o', (prepare solver pcdr options).2 = some o' ∧ o'.lookup "direct_solve_size" = some 0) := by
  unfold prepare
  constructor
  · intro h
    rcases pcdr with _ | k
    · rfl
    have hk : k ≠ "vcycle" := fun e => h (by rw [e])
    simp only [hk, if_false]
    split_ifs <;> rfl
  · rintro rfl o rfl
    refine ⟨("direct_solve_size", 0) :: o.filter fun p => p.1 ≠ "direct_solve_size", by simp, ?_⟩
    rw [List.lookup_cons, beq_self_eq_true]

/-- The hypotheses of the C109 theorems hold together on a weighted panel with movers. -/
example : ∃ (run : Run 2) (lam : ℝ) (psi : Fin 3 → ℝ) (alpha : Fin 2 → ℝ), ex.Valid ∧ ex.Connected ∧
    Stops ex run ∧ 0 < lam ∧ Stiff ex lam ∧ Best ex psi alpha := by
  obtain ⟨run, hr⟩ := C109_solver_exists ex
  obtain ⟨lam, hl, hlam⟩ := C109_stiff_exists ex_valid ex_connected
  obtain ⟨psi, alpha, hb⟩ := C109_best_exists ex_valid
  exact ⟨run, lam, psi, alpha, ex_valid, ex_connected, hr, hl, hlam, hb⟩

end C109

end Pytwoway.FE.Tol
