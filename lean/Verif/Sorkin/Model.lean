import Mathlib.Data.Real.Basic
import Mathlib.Data.Fintype.BigOperators
import Mathlib.Analysis.SpecialFunctions.Log.Basic

/-! # Model of `pytwoway/sorkin.py`

Floats are exact reals; firms are `Fin nf`.  The matrix built from the groupby has as many rows as the largest
destination id plus one and as many columns as the largest origin id plus one; it is taken to be `nf` by `nf`, as it
is when the last firm is both left and joined (strongly connected data).  A division by zero, after which numpy
carries infinities or nans, is modelled as the error `nonfinite` when it reaches the iteration's result. -/

namespace Pytwoway.Sorkin

variable {nf : ℕ}

/-- `M0` (sorkin.py:36-39): entry `(k, j)` counts the rows moving from firm `j` (`j1`) to firm `k` (`j2`). -/
def flows (rows : List (Fin nf × Fin nf)) (k j : Fin nf) : ℕ := (rows.filter fun r => r.1 = j ∧ r.2 = k).length

/-- `S0 = M0.sum(axis=0)` (sorkin.py:43). -/
def outflow (M : Fin nf → Fin nf → ℕ) (k : Fin nf) : ℕ := ∑ j, M j k

/-- `lhs = DxSP(1 / S0, M0)` (sorkin.py:47): row `k` of `M0` divided by `S0` at `k`. -/
noncomputable def lhs (M : Fin nf → Fin nf → ℕ) (k j : Fin nf) : ℝ := 1 / (outflow M k : ℝ) * (M k j : ℝ)

/-- One update of the guess (sorkin.py:54-55). -/
noncomputable def step (M : Fin nf → Fin nf → ℕ) (p : Fin nf → ℝ) (k : Fin nf) : ℝ :=
  |∑ j, lhs M k j * p j| / ∑ k', |∑ j, lhs M k' j * p j|

/-- The test that ends the loop (sorkin.py:56).  A zero entry in the previous guess gives an infinity or a nan, for
which the comparison is false. -/
def converged (thr : ℝ) (prev new : Fin nf → ℝ) : Prop := ∀ k, prev k ≠ 0 ∧ |(new k - prev k) / prev k| ≤ thr

open Classical in
/-- The loop (sorkin.py:53-58), started at `prev`; returns the previous and the new guess of the last pass.  With
no pass at all `new_guess` is unbound. -/
noncomputable def loop (M : Fin nf → Fin nf → ℕ) (thr : ℝ) : ℕ → (Fin nf → ℝ) → Option ((Fin nf → ℝ) × (Fin nf → ℝ))
  | 0, _ => none
  | 1, prev => some (prev, step M prev)
  | n + 2, prev =>
    if converged thr prev (step M prev) then some (prev, step M prev) else loop M thr (n + 1) (step M prev)

/-- The first guess, `np.ones(nf) / nf` (sorkin.py:52). -/
noncomputable def start (nf : ℕ) : Fin nf → ℝ := fun _ => 1 / (nf : ℝ)

open Classical in
/-- `SorkinEstimator.fit` (sorkin.py:25-61): `V_EE`, or the exception raised. -/
noncomputable def fit (rows : List (Fin nf × Fin nf)) (maxIters : ℕ) (thr : ℝ) : Except String (Fin nf → ℝ) :=
  let M := flows rows
  if ∃ k, outflow M k = 0 then .error "nonfinite"
  else match loop M thr maxIters (start nf) with
    | none => .error "UnboundLocalError"
    | some (_, new) => if ∃ k, new k = 0 then .error "nonfinite" else .ok fun k => Real.log (new k)

/-- The vector of firm effects that `SorkinAttrition._attrition_interior` (sorkin.py:132) correlates with `V_EE`:
`np.concatenate([fe_estimator.psi_hat, np.array([0])])`, where `psi_hat` has the effects of firms `1 .. nf - 1`
(fe.py:447, 593). -/
def attritionPsi {m : ℕ} (psiHat : Fin m → ℝ) : Fin (m + 1) → ℝ := Fin.snoc (α := fun _ => ℝ) psiHat 0

end Pytwoway.Sorkin
