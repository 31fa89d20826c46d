import Verif.FE.Lemmas
import Mathlib.Logic.Relation

/-! # Specification vocabulary for the fixed-effects estimator -/

namespace Pytwoway.FE

open Matrix
open scoped BigOperators

variable {n m nw : ℕ} (d : Panel n m nw)

/-- Weighted sum of squared residuals of worker effects `alpha` and firm effects `psi`. -/
def Panel.SSR (psi : Fin (m + 1) → ℝ) (alpha : Fin nw → ℝ) : ℝ :=
  ∑ o, d.Dp o * (d.y o - (alpha (d.i o) + psi (d.j o))) ^ 2

/-- The linear solver returns a solution of every solvable system `Minv x = b` it is given. -/
def Panel.GoodSolver (solve : (Fin m → ℝ) → (Fin m → ℝ)) : Prop :=
  ∀ b, (∃ x, d.Minv *ᵥ x = b) → d.Minv *ᵥ solve b = b

/-- Two firms are linked if some worker is seen at both. -/
def Panel.Linked (a b : Fin (m + 1)) : Prop := ∃ o o', d.i o = d.i o' ∧ d.j o = a ∧ d.j o' = b

/-- The firms form one connected set. -/
def Panel.Connected : Prop := ∀ a b, Relation.ReflTransGen d.Linked a b

end Pytwoway.FE
