import Verif.Constraints.Model

/-!
# Vocabulary for the constraint properties

Independent of how the matrices are built: what it means for a parameter vector to satisfy a
constraint, and how a parameter vector stores the effects (constraints.py:12-13).
-/

namespace Pytwoway.Constraints

open scoped BigOperators

/-- The effect of (period `t`, worker type `l`, firm type `k`) in a parameter vector ordered by
(time, worker type, firm type). -/
def eff (nl nk : ℕ) (x : ℕ → ℝ) (t l k : ℕ) : ℝ := x ((t * nl + l) * nk + k)

/-- Row `r` of `M @ x`. -/
def Mat.dot (M : Mat) (x : ℕ → ℝ) (r : ℕ) : ℝ := ∑ c ∈ Finset.range M.cols, M.e r c * x c

/-- `x` satisfies the constraint dictionary: `G x ≤ h` and `A x = b`. -/
def Con.Sat (c : Con) (x : ℕ → ℝ) : Prop :=
  (∀ G h, c.G = some G → c.h = some h → ∀ r < G.rows, G.dot x r ≤ h.v r) ∧
  (∀ A b, c.A = some A → c.b = some b → ∀ r < A.rows, A.dot x r = b.v r)

/-- A dictionary whose arrays have consistent shapes: matrix and bound are given together, with as
many bounds as rows, and `n` columns. -/
def Con.Shaped (c : Con) (n : ℕ) : Prop :=
  (∀ G, c.G = some G → G.cols = n ∧ ∃ h, c.h = some h ∧ h.n = G.rows) ∧
  (∀ A, c.A = some A → A.cols = n ∧ ∃ b, c.b = some b ∧ b.n = A.rows)

/-- `r` is a successfully built constraint for vectors of length `n` that is satisfied exactly by the
vectors with property `P`. -/
def Encodes (r : Py Con) (n : ℕ) (P : (ℕ → ℝ) → Prop) : Prop :=
  ∃ c, r = .ok c ∧ c.Shaped n ∧ ∀ x, c.Sat x ↔ P x

/-- Mean of `f k` over `k < n`. -/
noncomputable def mean (n : ℕ) (f : ℕ → ℝ) : ℝ := (∑ k ∈ Finset.range n, f k) / n

/-- Mean of `f t` over a list of periods. -/
noncomputable def meanOver (ts : List ℕ) (f : ℕ → ℝ) : ℝ := (ts.map f).sum / ts.length

/-- The state of a solver accepts `x`. -/
def QP.Sat (q : QP) (x : ℕ → ℝ) : Prop :=
  (∀ M, q.G = .d2 M → ∀ r < M.rows, M.dot x r ≤ q.h.v r) ∧
  (∀ M, q.A = .d2 M → ∀ r < M.rows, M.dot x r = q.b.v r)

end Pytwoway.Constraints
