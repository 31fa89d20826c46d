import Mathlib.Data.Real.Basic
import Mathlib.Algebra.BigOperators.Group.Finset.Basic

/-!
# Model of `pytwoway/constraints/constraints.py`

Arrays are total functions on `ℕ` together with their shape; every indexed write is checked against
the shape (`IndexError`), every shape against negativity (`ValueError`), as NumPy does.  A nested
`for` loop that writes into a fresh array is modelled by the list of its writes, in loop order; the
running counters `row_shift`, `col_shift` are written in closed form.  Numbers are exact reals.
-/

namespace Pytwoway.Constraints

open scoped BigOperators

/-- The exceptions that the modelled functions raise. -/
inductive PyErr
  | valueError | indexError | notImplementedError
  deriving DecidableEq

/-- A computation that returns a value or raises. -/
abbrev Py := Except PyErr

/-- A 2-D NumPy array.  Used for constraints.py:339, 401, 474 and constraints.py:239-241. -/
structure Mat where
  rows : ℕ
  cols : ℕ
  e : ℕ → ℕ → ℝ

/-- A 1-D NumPy array.  Used for constraints.py:32-44 and constraints.py:68-73. -/
structure Vec where
  n : ℕ
  v : ℕ → ℝ

/-- `np.zeros(shape=(r, c))`: a negative dimension raises ValueError.
Used for constraints.py:215-241 and constraints.py:259-296. -/
def zeros2 (r c : ℤ) : Py Mat :=
  if r < 0 ∨ c < 0 then .error .valueError else .ok ⟨r.toNat, c.toNat, fun _ _ => 0⟩

/-- One indexed assignment: `set r c v` is `A[r, c] = v`, `inc r c v` is `A[r, c] += v`.
Used for constraints.py:228-237 and constraints.py:285-292. -/
inductive Op
  | set (r c : ℕ) (v : ℝ)
  | inc (r c : ℕ) (v : ℝ)

/-- Row that is written.  Used for constraints.py:228-237 and constraints.py:285-292. -/
def Op.row : Op → ℕ | .set r _ _ => r | .inc r _ _ => r
/-- Column that is written.  Used for constraints.py:228-237 and constraints.py:285-292. -/
def Op.col : Op → ℕ | .set _ c _ => c | .inc _ c _ => c
/-- Value that is written or added. -/
def Op.val : Op → ℝ | .set _ _ v => v | .inc _ _ v => v

/-- Effect of an assignment on the entries.  Used for constraints.py:215-241. -/
def Op.act (o : Op) (e : ℕ → ℕ → ℝ) : ℕ → ℕ → ℝ := fun i j =>
  match o with
  | .set r c v => if i = r ∧ j = c then v else e i j
  | .inc r c v => if i = r ∧ j = c then e i j + v else e i j

/-- An assignment with NumPy's bounds check.  Used for constraints.py:215-241. -/
def Mat.write (M : Mat) (o : Op) : Py Mat :=
  if o.row < M.rows ∧ o.col < M.cols then .ok { M with e := o.act M.e } else .error .indexError

/-- A sequence of assignments.  Used for constraints.py:215-241 and constraints.py:259-296. -/
def Mat.writes (M : Mat) (os : List Op) : Py Mat := os.foldlM Mat.write M

/-- `G *= c` (constraints.py:339, 401, 474). -/
def Mat.scale (c : ℝ) (M : Mat) : Mat := { M with e := fun i j => c * M.e i j }

/-- `c * np.ones(shape=n)`.  Used for constraints.py:239-241 and constraints.py:336-341. -/
def Vec.const (c : ℝ) (n : ℕ) : Vec := ⟨n, fun _ => c⟩

/-- The dictionary `{'G': G, 'h': h, 'A': A, 'b': b}` returned by `_get_constraints`.
Used for constraints.py:239-241 and constraints.py:336-341. -/
structure Con where
  G : Option Mat
  h : Option Vec
  A : Option Mat
  b : Option Vec

/-- An equality constraint: `b = - np.zeros(shape=A.shape[0])`,
`{'G': None, 'h': None, 'A': A, 'b': b}` (e.g. constraints.py:239-241). -/
def eqCon (A : Mat) : Con := ⟨none, none, some A, some (.const 0 A.rows)⟩

/-- An inequality constraint: `h = - md * np.ones(shape=G.shape[0])`, then `G *= -1` unless `keep`,
`{'G': G, 'h': h, 'A': None, 'b': None}` (e.g. constraints.py:336-341). -/
def ineqCon (md : ℝ) (keep : Bool) (G : Mat) : Con :=
  ⟨some (if keep then G else G.scale (-1)), some (.const (-md) G.rows), none, none⟩

/-- `enumerate(nnt)`.  Used for constraints.py:228-237 and constraints.py:285-292. -/
abbrev enum (nnt : List ℕ) : List (ℕ × ℕ) := nnt.zipIdx

/-! ## Constraint generators -/

/-- The writes of the loop at constraints.py:228-237 (and 273-282). -/
def linearOps (nnt : List ℕ) (nl nk : ℕ) : List Op :=
  (enum nnt).flatMap fun pi => (List.range nk).flatMap fun k => (List.range (nl - 2)).flatMap fun l =>
    let row := pi.2 * (nl - 2) * nk + k * (nl - 2) + l
    let col := pi.1 * nl * nk + k
    [.set row (col + nk * l) 1, .set row (col + nk * (l + 1)) (-2), .set row (col + nk * (l + 2)) 1]

/-- `Linear(nnt, nt)._get_constraints(nl, nk)`, constraints.py:215-241.  `nnt=None` is the list
`[0, ..., nt-1]` (constraints.py:209-210). -/
def linear (nnt : List ℕ) (nt nl nk : ℕ) : Py Con := do
  let A ← zeros2 (nnt.length * ((nl : ℤ) - 2) * nk) (nt * nl * nk)
  let A ← A.writes (linearOps nnt nl nk)
  return eqCon A

/-- The writes of the loop at constraints.py:285-292. -/
def additiveOps (nnt : List ℕ) (nl nk : ℕ) : List Op :=
  (enum nnt).flatMap fun pi => (List.range (nk - 1)).flatMap fun k =>
    let row := nnt.length * (nl - 2) * nk + pi.2 * (nk - 1) + k
    let col := pi.1 * nl * nk
    [.set row (col + k) 1, .set row (col + nk + k) (-1),
      .set row (col + k + 1) (-1), .set row (col + nk + k + 1) 1]

/-- `LinearAdditive(nnt, nt)._get_constraints(nl, nk)`, constraints.py:259-296. -/
def linearAdditive (nnt : List ℕ) (nt nl nk : ℕ) : Py Con := do
  let A ← zeros2 (nnt.length * (((nl : ℤ) - 2) * nk + ((nk : ℤ) - 1))) (nt * nl * nk)
  let A ← A.writes (linearOps nnt nl nk)
  let A ← A.writes (additiveOps nnt nl nk)
  return eqCon A

/-- The writes of the loop at constraints.py:326-334. -/
def monotonicOps (nt nl nk : ℕ) : List Op :=
  (List.range nt).flatMap fun p => (List.range nk).flatMap fun k => (List.range (nl - 1)).flatMap fun l =>
    let row := p * (nl - 1) * nk + k * (nl - 1) + l
    let col := p * nl * nk + k
    [.set row (col + nk * l) 1, .set row (col + nk * (l + 1)) (-1)]

/-- `Monotonic(md, increasing, nt)._get_constraints(nl, nk)`, constraints.py:313-341. -/
def monotonic (md : ℝ) (increasing : Bool) (nt nl nk : ℕ) : Py Con := do
  let G ← zeros2 (nt * ((nl : ℤ) - 1) * nk) (nt * nl * nk)
  let G ← G.writes (monotonicOps nt nl nk)
  return ineqCon md increasing G

/-- The writes of the loop at constraints.py:381-396. -/
noncomputable def monotonicMeanOps (cross : Bool) (nnt : List ℕ) (nl nk : ℕ) : List Op :=
  (enum nnt).flatMap fun pi => (List.range nk).flatMap fun k => (List.range (nl - 1)).flatMap fun l =>
    let shift := if cross then 0 else pi.2 * (nl - 1)
    let w : ℝ := if cross then 1 / (nnt.length * nk) else 1 / nk
    [.set (shift + l) (pi.1 * nl * nk + k + l * nk) w,
      .set (shift + l) (pi.1 * nl * nk + k + (l + 1) * nk) (-w)]

/-- `MonotonicMean(md, increasing, cross_period_mean, nnt, nt)._get_constraints(nl, nk)`,
constraints.py:365-403. -/
noncomputable def monotonicMean (md : ℝ) (increasing cross : Bool) (nnt : List ℕ) (nt nl nk : ℕ) : Py Con := do
  let G ← zeros2 (if cross then (nl : ℤ) - 1 else nnt.length * ((nl : ℤ) - 1)) (nt * nl * nk)
  let G ← G.writes (monotonicMeanOps cross nnt nl nk)
  return ineqCon md increasing G

/-- `list(range(m)) + list(range(m + 1, nk))` (constraints.py:452). -/
def otherTypes (m nk : ℕ) : List ℕ := List.range m ++ List.range' (m + 1) (nk - (m + 1))

/-- The writes of the loop at constraints.py:445-463.  The code fills a 4-D array indexed
`[row, period, l, k]` and reshapes it (row-major) to two dimensions at 466-469; here the column is
written directly as `period * nl * nk + l * nk + k`. -/
noncomputable def minFirmTypeOps (m : ℕ) (cross : Bool) (nnt : List ℕ) (nl nk : ℕ) : List Op :=
  (enum nnt).flatMap fun pi => (List.range nl).flatMap fun l => (enum (otherTypes m nk)).flatMap fun kj =>
    let shift := if cross then 0 else pi.2 * (nk - 1)
    let w : ℝ := if cross then 1 / (nnt.length * nl) else 1 / nl
    [.set (shift + kj.2) (pi.1 * nl * nk + l * nk + m) w,
      .set (shift + kj.2) (pi.1 * nl * nk + l * nk + kj.1) (-w)]

/-- `MinFirmType(m, md, is_min, cross_period_mean, nnt, nt)._get_constraints(nl, nk)`,
constraints.py:429-476.  The bounds check on the firm type (`m < nk`) of the 4-D array is made
explicit, because the flattened column does not see it. -/
noncomputable def minFirmType (m : ℕ) (md : ℝ) (isMin cross : Bool) (nnt : List ℕ) (nt nl nk : ℕ) : Py Con := do
  let G ← zeros2 (if cross then (nk : ℤ) - 1 else nnt.length * ((nk : ℤ) - 1)) (nt * nl * nk)
  if m ≥ nk ∧ 0 < nnt.length * nl * (otherTypes m nk).length then throw .indexError
  let G ← G.writes (minFirmTypeOps m cross nnt nl nk)
  return ineqCon md isMin G

/-- The writes of the loop at constraints.py:507-515. -/
def noInteractionOps (nnt : List ℕ) (nl nk : ℕ) : List Op :=
  (enum nnt).flatMap fun pi => (List.range nk).flatMap fun k => (List.range (nl - 1)).flatMap fun l =>
    let row := pi.2 * (nl - 1) * nk + k * (nl - 1) + l
    let col := pi.1 * nl * nk + k
    [.set row (col + nk * l) 1, .set row (col + nk * (l + 1)) (-1)]

/-- `NoWorkerTypeInteraction(nnt, nt)._get_constraints(nl, nk)`, constraints.py:494-519. -/
def noWorkerTypeInteraction (nnt : List ℕ) (nt nl nk : ℕ) : Py Con := do
  let A ← zeros2 (nnt.length * ((nl : ℤ) - 1) * nk) (nt * nl * nk)
  let A ← A.writes (noInteractionOps nnt nl nk)
  return eqCon A

/-- The writes of the loop at constraints.py:557-561. -/
noncomputable def normalizeLowestOps (m : ℕ) (cross : Bool) (nnt : List ℕ) (nl nk : ℕ) : List Op :=
  (enum nnt).flatMap fun pi =>
    if cross then [.set 0 (pi.1 * nl * nk + m) (1 / nnt.length)]
    else [.set pi.2 (pi.1 * nl * nk + m) 1]

/-- `NormalizeLowest(m, cross_period_normalize, nnt, nt)._get_constraints(nl, nk)`,
constraints.py:541-565. -/
noncomputable def normalizeLowest (m : ℕ) (cross : Bool) (nnt : List ℕ) (nt nl nk : ℕ) : Py Con := do
  let A ← zeros2 (if cross then 1 else nnt.length) (nt * nl * nk)
  let A ← A.writes (normalizeLowestOps m cross nnt nl nk)
  return eqCon A

/-- The writes of the loop at constraints.py:603-608. -/
noncomputable def normalizeAllOps (m : ℕ) (cross : Bool) (nnt : List ℕ) (nl nk : ℕ) : List Op :=
  (enum nnt).flatMap fun pi => (List.range nl).flatMap fun l =>
    if cross then [.set l (pi.1 * nl * nk + l * nk + m) (1 / nnt.length)]
    else [.set (pi.2 * nl + l) (pi.1 * nl * nk + l * nk + m) 1]

/-- `NormalizeAll(m, cross_period_normalize, nnt, nt)._get_constraints(nl, nk)`,
constraints.py:587-612. -/
noncomputable def normalizeAll (m : ℕ) (cross : Bool) (nnt : List ℕ) (nt nl nk : ℕ) : Py Con := do
  let A ← zeros2 (if cross then nl else nnt.length * nl) (nt * nl * nk)
  let A ← A.writes (normalizeAllOps m cross nnt nl nk)
  return eqCon A

/-- The writes of the loop at constraints.py:646-653.  The running `row_shift` gains `nl_adj - 1`
after each firm type and `k` is added on top, which gives row
`period * nl_adj * nk + k * nl_adj + l`. -/
def stationaryOps (nlAdj nt nl nk : ℕ) : List Op :=
  (List.range (nt - 1)).flatMap fun p => (List.range nk).flatMap fun k => (List.range nlAdj).flatMap fun l =>
    let row := p * nlAdj * nk + k * nlAdj + l
    let col := p * nl * nk
    [.set row (col + nl * k + l) 1, .set row (col + nl * nk + nl * k + l) (-1)]

/-- `nl_adj` of constraints.py:641-644. -/
def nlAdj (nwt : ℤ) (nl : ℕ) : ℕ := if nwt = -1 then nl else min nl nwt.toNat

/-- `Stationary(nwt, nt)` followed by `_get_constraints(nl, nk)`, constraints.py:623-657. -/
def stationary (nwt : ℤ) (nt nl nk : ℕ) : Py Con := do
  if nwt < -1 ∨ nwt = 0 then throw .notImplementedError
  let A ← zeros2 (((nt : ℤ) - 1) * nlAdj nwt nl * nk) (nt * nl * nk)
  let A ← A.writes (stationaryOps (nlAdj nwt nl) nt nl nk)
  return eqCon A

/-- The writes of the loop at constraints.py:688-703.  `row_shift` is `i * nl * nk + l * nk`,
`col_shift` is `period * nl * nk + l * nk`, and `col_shift - period * nl * nk` is `l * nk`. -/
noncomputable def stationaryFirmOps (nnt : List ℕ) (nl nk : ℕ) : List Op :=
  (enum nnt).flatMap fun pi => (List.range nl).flatMap fun l => (List.range nk).flatMap fun k1 =>
    let row := pi.2 * nl * nk + l * nk + k1
    ((List.range nk).flatMap fun k2 =>
      [.set row (l * nk + k2) (-(1 / nk)), .set row (pi.1 * nl * nk + l * nk + k2) (1 / nk)]) ++
    [.inc row (l * nk + k1) 1, .inc row (pi.1 * nl * nk + l * nk + k1) (-1)]

/-- `StationaryFirmTypeVariation(nnt, nt)._get_constraints(nl, nk)`, constraints.py:675-707.
`nnt=None` is the list `[1, ..., nt-1]` (constraints.py:669-670). -/
noncomputable def stationaryFirmTypeVariation (nnt : List ℕ) (nt nl nk : ℕ) : Py Con := do
  let A ← zeros2 (nnt.length * nl * nk) (nt * nl * nk)
  let A ← A.writes (stationaryFirmOps nnt nl nk)
  return eqCon A

/-- `np.eye(n)`.  Used for constraints.py:722-737 and constraints.py:752-767. -/
def eye (n : ℕ) : Mat := ⟨n, n, fun i j => if i = j then 1 else 0⟩

/-- `BoundedBelow(lb, nt)._get_constraints(nl, nk)`, constraints.py:722-737. -/
def boundedBelow (lb : ℝ) (nt nl nk : ℕ) : Con :=
  ⟨some ((eye (nt * nl * nk)).scale (-1)), some (.const (-lb) (nt * nl * nk)), none, none⟩

/-- `BoundedAbove(ub, nt)._get_constraints(nl, nk)`, constraints.py:752-767. -/
def boundedAbove (ub : ℝ) (nt nl nk : ℕ) : Con :=
  ⟨some (eye (nt * nl * nk)), some (.const ub (nt * nl * nk)), none, none⟩

/-! ## `QPConstrained` -/

/-- A NumPy array of one or two dimensions: the matrices `self.G`, `self.A` start as the 1-D array
`np.array([])`.  Used for constraints.py:32-44 and constraints.py:66-71. -/
inductive NP
  | d1 (a : Vec)
  | d2 (a : Mat)

/-- `np.array([])`.  Used for constraints.py:32-44 and constraints.py:66-71. -/
def NP.empty : NP := .d1 ⟨0, fun _ => 0⟩

/-- `len(a)`, which is also `a.shape[0]`.  Used for constraints.py:75-82 and constraints.py:190-197. -/
def NP.len : NP → ℕ | .d1 a => a.n | .d2 a => a.rows

/-- `np.concatenate((a, b), axis=0)` of 1-D arrays.  Used for constraints.py:75-82. -/
def Vec.append (a b : Vec) : Vec := ⟨a.n + b.n, fun i => if i < a.n then a.v i else b.v (i - a.n)⟩

/-- `np.concatenate((a, b), axis=0)`: dimensions and numbers of columns must agree.  Used for constraints.py:75-82. -/
def NP.append : NP → NP → Py NP
  | .d1 a, .d1 b => .ok (.d1 (a.append b))
  | .d2 a, .d2 b =>
    if a.cols = b.cols then
      .ok (.d2 ⟨a.rows + b.rows, a.cols, fun i j => if i < a.rows then a.e i j else b.e (i - a.rows) j⟩)
    else .error .valueError
  | _, _ => .error .valueError

/-- The state of a `QPConstrained` object, constraints.py:32-44. -/
structure QP where
  nl : ℕ
  nk : ℕ
  G : NP
  h : Vec
  A : NP
  b : Vec

/-- `QPConstrained.__init__`, constraints.py:32-44. -/
def QP.init (nl nk : ℕ) : QP := ⟨nl, nk, .empty, ⟨0, fun _ => 0⟩, .empty, ⟨0, fun _ => 0⟩⟩

/-- `if G is None: G = np.array([])` (constraints.py:66-71). -/
def npOf : Option Mat → NP | none => .empty | some M => .d2 M
/-- `if h is None: h = np.array([])` (constraints.py:68-73). -/
def vecOf : Option Vec → Vec | none => ⟨0, fun _ => 0⟩ | some v => v

/-- One half of `_add_constraint` (constraints.py:75-82 for `G, h`; 83-90 for `A, b`). -/
def addPart (M : NP) (v : Vec) (M' : NP) (v' : Vec) : Py (NP × Vec) :=
  if 0 < M'.len then
    if 0 < M.len then do return (← M.append M', v.append v') else return (M', v')
  else return (M, v)

/-- `_add_constraint`, constraints.py:56-90. -/
def QP.addOne (q : QP) (c : Con) : Py QP := do
  let (G, h) ← addPart q.G q.h (npOf c.G) (vecOf c.h)
  let (A, b) ← addPart q.A q.b (npOf c.A) (vecOf c.b)
  return { q with G := G, h := h, A := A, b := b }

/-- A constraint object: its `_get_constraints(nl, nk)`.  Used for constraints.py:46-54. -/
abbrev ConObj := ℕ → ℕ → Py Con

/-- `add_constraints`, constraints.py:46-54. -/
def QP.add (q : QP) (cs : List ConObj) : Py QP :=
  cs.foldlM (fun q c => do q.addOne (← c q.nl q.nk)) q

/-- `clear_constraints`, constraints.py:117-130. -/
def QP.clear (q : QP) (inequality equality : Bool) : QP :=
  let q := if inequality then { q with G := .empty, h := ⟨0, fun _ => 0⟩ } else q
  if equality then { q with A := .empty, b := ⟨0, fun _ => 0⟩ } else q

/-- One half of `pad`, constraints.py:100-107 (and 108-115). -/
def padPart (M : NP) (l r : ℕ) : NP :=
  match M with
  | .d2 a => if 0 < a.rows then
      .d2 ⟨a.rows, l + a.cols + r,
        fun i j => if j < l then 0 else if j < l + a.cols then a.e i (j - l) else 0⟩
    else .d1 ⟨l + r, fun _ => 0⟩
  | .d1 _ => .d1 ⟨l + r, fun _ => 0⟩

/-- `pad`, constraints.py:92-115.  (A nonempty 1-D matrix would make `np.concatenate(axis=1)` raise;
that only arises after a first `pad` of an empty problem and is not distinguished here.) -/
def QP.pad (q : QP) (l r : ℕ) : QP := { q with G := padPart q.G l r, A := padPart q.A l r }

/-- What is handed to `qpsolvers.solve_qp`: the constraint arguments may be absent.
Used for constraints.py:190-197 and constraints.py:132-164. -/
structure QPProblem where
  n : ℕ
  P : ℕ → ℕ → ℝ
  q : ℕ → ℝ
  ineq : Option (NP × Vec)
  eq : Option (NP × Vec)

/-- The four branches of `solve`, constraints.py:190-197, for an `n × n` matrix `P`. -/
def QP.problem (s : QP) (n : ℕ) (P : ℕ → ℕ → ℝ) (q : ℕ → ℝ) : QPProblem :=
  if 0 < s.G.len ∧ 0 < s.A.len then ⟨n, P, q, some (s.G, s.h), some (s.A, s.b)⟩
  else if 0 < s.G.len then ⟨n, P, q, some (s.G, s.h), none⟩
  else if 0 < s.A.len then ⟨n, P, q, none, some (s.A, s.b)⟩
  else ⟨n, P, q, none, none⟩

/-- Shapes that `solve_qp` accepts: 2-D, `n` columns, and a bound of matching length. -/
def shapeOk (n : ℕ) : Option (NP × Vec) → Prop
  | none => True
  | some (.d2 M, v) => M.cols = n ∧ v.n = M.rows
  | some (.d1 _, _) => False

/-- `check_feasible`, constraints.py:132-164, with `solver` the external `solve_qp` and `M`, `x0` the
random draws: a problem in `k = nl * nk` variables. -/
def QP.checkFeasible (s : QP) (solver : QPProblem → Py (Option (ℕ → ℝ)))
    (M : ℕ → ℕ → ℝ) (x0 : ℕ → ℝ) : Py Bool := do
  let n := 2 * s.nl * s.nk
  let k := s.nl * s.nk
  let Y := fun i => ∑ j ∈ Finset.range k, M i j * x0 j
  let P := fun i j => ∑ r ∈ Finset.range n, M r i * M r j
  let q := fun i => - ∑ r ∈ Finset.range n, M r i * Y r
  let res ← solver (s.problem k P q)
  return res.isSome

end Pytwoway.Constraints
