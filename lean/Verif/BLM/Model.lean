import Mathlib.Data.Fintype.Prod
import Mathlib.Data.Finset.Lattice.Fold
import Verif.Util.Props2

/-!
# The EM algorithm of the static BLM model (`blm.py`)

Arrays with a worker-type or firm-type axis are functions on `Fin nl`, `Fin nk`; arrays indexed by a
*computed* position (the flattened pair of firm types, the flattened parameter vector of the
quadratic program, the output of `np.bincount`) are functions of a natural number, with the index
arithmetic of the source.  Periods 1 and 2 are `0, 1 : Fin 2`.  Floats are exact reals; `NaN` is
represented explicitly where the source can produce it.
-/

namespace Pytwoway.BLM

open Finset

/-- Results of code that may raise. -/
abbrev Py := Except String

/-- A one-dimensional array: its length and its entries.  Used for blm.py:1458 and blm.py:1508-1538. -/
structure Arr where
  len : ℕ
  val : ℕ → ℝ

/-- `np.bincount(idx, weights=w)`: the length is one more than the largest index (zero for no
indices), the entry at `v` is the sum of the weights of the positions whose index is `v`.
Used for blm.py:1458 and blm.py:1508-1538. -/
noncomputable def bincount {ι : Type*} [Fintype ι] (idx : ι → ℕ) (w : ι → ℝ) : Arr :=
  ⟨univ.sup fun i => idx i + 1, fun v => ∑ i, if idx i = v then w i else 0⟩

/-- Assigning an array to a slice of length `n` (`XwX[l_index: r_index] = ...`) raises unless the
lengths agree, except that an array of length one is broadcast.  Used for blm.py:1508-1538. -/
def Assignable (n : ℕ) (a : Arr) : Prop := a.len = n ∨ a.len = 1

/-- What the slice holds after such an assignment.  Used for blm.py:1508-1538. -/
noncomputable def assigned (n : ℕ) (a : Arr) (k : ℕ) : ℝ := if a.len = n then a.val k else a.val 0

/-- Wages, firm types and weights of the two periods: blm.py:1305-1316 (movers) and
blm.py:1967-1980 (stayers, of which only period 1 is read).  Unweighted estimation is `W = 1`. -/
structure Data (ni nk : ℕ) where
  Y : Fin 2 → Fin ni → ℝ
  G : Fin 2 → Fin ni → Fin nk
  W : Fin 2 → Fin ni → ℝ

/-- A control variable with its data and its current coefficients (blm.py:1317-1341 and the
attributes `A1_cat`, `S1_cat`, ...): categorical or continuous, interacted with worker type or not.
(The source keeps data and coefficients in separate dictionaries indexed by column name.) -/
inductive Ctrl (ni nl : ℕ)
  | catW (C : Fin 2 → Fin ni → ℕ) (A S : Fin 2 → Fin nl → ℕ → ℝ)
  | catN (C : Fin 2 → Fin ni → ℕ) (A S : Fin 2 → ℕ → ℝ)
  | ctsW (C : Fin 2 → Fin ni → ℝ) (A S : Fin 2 → Fin nl → ℝ)
  | ctsN (C : Fin 2 → Fin ni → ℝ) (A S : Fin 2 → ℝ)

variable {ni nl nk : ℕ}

/-- `A1_sum`/`A2_sum` of `_sum_by_non_nl`, blm.py:1121-1146: effects of the controls that do not
interact with worker type.  (The source visits categorical columns first; the order of a sum of
reals does not matter.) -/
def sumNonA (cs : List (Ctrl ni nl)) (t : Fin 2) (i : Fin ni) : ℝ :=
  cs.foldl (fun acc c => match c with
    | .catN C A _ => acc + A t (C t i)
    | .ctsN C A _ => acc + A t * C t i
    | _ => acc) 0

/-- `S1_sum_sq`/`S2_sum_sq` of `_sum_by_non_nl`, blm.py:1121-1149. -/
def sumNonS (cs : List (Ctrl ni nl)) (t : Fin 2) (i : Fin ni) : ℝ :=
  cs.foldl (fun acc c => match c with
    | .catN C _ S => acc + S t (C t i) ^ 2
    | .ctsN _ _ S => acc + S t ^ 2
    | _ => acc) 0

/-- `A1_sum_l`/`A2_sum_l` of `_sum_by_nl_l`, blm.py:1189-1215: effects of the controls that interact
with worker type, for worker type `l`. -/
def sumByA (cs : List (Ctrl ni nl)) (l : Fin nl) (t : Fin 2) (i : Fin ni) : ℝ :=
  cs.foldl (fun acc c => match c with
    | .catW C A _ => acc + A t l (C t i)
    | .ctsW C A _ => acc + A t l * C t i
    | _ => acc) 0

/-- `S1_sum_sq_l`/`S2_sum_sq_l` of `_sum_by_nl_l`, blm.py:1189-1218. -/
def sumByS (cs : List (Ctrl ni nl)) (l : Fin nl) (t : Fin 2) (i : Fin ni) : ℝ :=
  cs.foldl (fun acc c => match c with
    | .catW C _ S => acc + S t l (C t i) ^ 2
    | .ctsW _ _ S => acc + S t l ^ 2
    | _ => acc) 0

/-- Means and standard deviations of the base effects: `A1, A2, S1, S2`.  Used for blm.py:1401-1410 and blm.py:1406. -/
structure Base (nl nk : ℕ) where
  A : Fin 2 → Fin nl → Fin nk → ℝ
  S : Fin 2 → Fin nl → Fin nk → ℝ

/-- `lognormpdf(..., var=...)` of util.py:374 (its error branch is not reachable with `var` given). -/
noncomputable def lnvar (x mu v : ℝ) : ℝ :=
  match Util.lognormpdf x mu none (some v) with
  | .ok r => r
  | .error _ => 0

/-- `lp1` (`t = 0`) and `lp2` (`t = 1`): blm.py:1401-1410 for movers and blm.py:2031-2047 for stayers.
With controls the general density is used, otherwise the grouped one. -/
noncomputable def lpWage (d : Data ni nk) (b : Base nl nk) (cs : List (Ctrl ni nl)) (t : Fin 2)
    (l : Fin nl) (i : Fin ni) : ℝ :=
  if cs.isEmpty then Util.fastLognormpdf (d.Y t) (b.A t l) (b.S t l) (d.G t) i
  else lnvar (d.Y t i) (b.A t l (d.G t i) + sumNonA cs t i + sumByA cs l t i)
    (b.S t l (d.G t i) ^ 2 + sumNonS cs t i + sumByS cs l t i)

/-- Joint firm indicator of movers, blm.py:1349 `KK = G1 + nk * G2`. -/
def KK (d : Data ni nk) (i : Fin ni) : ℕ := (d.G 0 i).val + nk * (d.G 1 i).val

/-- Log joint density of movers, blm.py:1406 and 1411. -/
noncomputable def lpMovers (d : Data ni nk) (b : Base nl nk) (cs : List (Ctrl ni nl))
    (pk1 : ℕ → Fin nl → ℝ) (i : Fin ni) (l : Fin nl) : ℝ :=
  Real.log (pk1 (KK d i) l) + d.W 0 i * lpWage d b cs 0 l i + d.W 1 i * lpWage d b cs 1 l i

/-- blm.py:1415-1416 and 2060-2061: `qi = exp(lp - logsumexp(lp))`, one row. -/
noncomputable def posterior [NeZero nl] (lp : Fin ni → Fin nl → ℝ) (i : Fin ni) (l : Fin nl) : ℝ :=
  Real.exp (lp i l - Util.logsumexp (lp i))

/-- blm.py:1419 and 2064: the average of the log sums. -/
noncomputable def meanLse [NeZero nl] (lp : Fin ni → Fin nl → ℝ) : ℝ :=
  (∑ i, Util.logsumexp (lp i)) / ni

/-- blm.py:1419-1424: the recorded log likelihood of movers, with the Dirichlet prior term from the
second iteration on. -/
noncomputable def likMovers [NeZero nl] (d : Data ni nk) (b : Base nl nk) (cs : List (Ctrl ni nl))
    (pk1 : ℕ → Fin nl → ℝ) (first updPk : Bool) (dprior : ℝ) : ℝ :=
  meanLse (lpMovers d b cs pk1) +
    if !first && updPk then (dprior - 1) * ∑ p ∈ range (nk ^ 2), ∑ l, Real.log (pk1 p l) else 0

/-- blm.py:1316 `W = np.sqrt(W1 * W2)`. -/
noncomputable def jointW (d : Data ni nk) (i : Fin ni) : ℝ := √(d.W 0 i * d.W 1 i)

/-- blm.py:1458: `bincount(KK2, ...).reshape(nl, nk ** 2).T`, where `KK2` is `KK + nk ** 2 * l`
(lines 1350-1352).  `reshape` raises when the array has the wrong length. -/
noncomputable def sumPk1 (d : Data ni nk) (q : Fin ni → Fin nl → ℝ) (dprior : ℝ) :
    Py (ℕ → Fin nl → ℝ) :=
  let a := bincount (fun x : Fin ni × Fin nl => KK d x.1 + nk ^ 2 * x.2.val)
    (fun x => jointW d x.1 * (q x.1 x.2 + dprior - 1))
  if a.len = nl * nk ^ 2 then .ok fun p l => a.val (l.val * nk ^ 2 + p)
  else .error "ValueError"

/-- blm.py:1455-1463: rows are scaled to sum to one; a row of zeros gives `0 * inf = NaN`, which is
detected and raised.  (A row sum of zero with non-zero entries, impossible for `d_prior >= 1` and
positive weights, would give infinities instead; it is not distinguished here.) -/
noncomputable def updatePk1 (d : Data ni nk) (q : Fin ni → Fin nl → ℝ) (dprior : ℝ) :
    Py (ℕ → Fin nl → ℝ) := do
  let e ← sumPk1 d q dprior
  (open scoped Classical in
  if ∃ p < nk ^ 2, ∑ l, e p l = 0 then .error "ValueError"
  else .ok fun p l => 1 / (∑ l', e p l') * e p l)

/-- blm.py:1455: the update is skipped unless `update_pk1` is set. -/
noncomputable def nextPk1 (updPk : Bool) (d : Data ni nk) (q : Fin ni → Fin nl → ℝ) (dprior : ℝ)
    (pk1 : ℕ → Fin nl → ℝ) : Py (ℕ → Fin nl → ℝ) :=
  if updPk then updatePk1 d q dprior else .ok pk1

/-! ## M-step without controls -/

/-- What `QPConstrained.solve(P, q, solver='quadprog')` leaves in `res` (constraints.py:166-197), for
a diagonal `P` given by its diagonal: a vector, `None`, or a raised `ValueError`.  The external
solver is a parameter of the model. -/
abbrev Solver := (P q : ℕ → ℝ) → Py (Option (ℕ → ℝ))

/-- blm.py:1512-1513: `W * qi[:, l] / (S[l, :] ** 2)[G]` of one period. -/
noncomputable def wts (d : Data ni nk) (S : Fin 2 → Fin nl → Fin nk → ℝ) (q : Fin ni → Fin nl → ℝ)
    (t : Fin 2) (l : Fin nl) (i : Fin ni) : ℝ :=
  d.W t i * q i l / S t l (d.G t i) ^ 2

/-- One slice per worker type and period, as assembled by the loop blm.py:1508-1538 (and 1767-1790):
`f t l` is the array summed over `G`.  Position `l * nk + k` holds period 1, position
`l * nk + k + ts` with `ts = nl * nk` period 2.  Any failing assignment raises. -/
noncomputable def assemble (d : Data ni nk) (f : Fin 2 → Fin nl → Fin ni → ℝ) : Py (ℕ → ℝ) :=
  let a := fun t l => bincount (fun i => (d.G t i).val) (f t l)
  open scoped Classical in
  if ∀ t l, Assignable nk (a t l) then
    .ok fun p =>
      if hp : p < nl * nk then
        assigned nk (a 0 ⟨p / nk, Nat.div_lt_of_lt_mul (by rwa [Nat.mul_comm] at hp)⟩) (p % nk)
      else if hp : p - nl * nk < nl * nk then
        assigned nk (a 1 ⟨(p - nl * nk) / nk, Nat.div_lt_of_lt_mul (by rwa [Nat.mul_comm nk])⟩)
          ((p - nl * nk) % nk)
      else 0
  else .error "ValueError"

/-- blm.py:1579-1583 and 1826-1830: `np.split` in two halves, each reshaped to `(nl, nk)`. -/
def unflatten (nl nk : ℕ) (x : ℕ → ℝ) (t : Fin 2) (l : Fin nl) (k : Fin nk) : ℝ :=
  x (t.val * (nl * nk) + l.val * nk + k.val)

/-- blm.py:1568-1588: the update of `A1, A2`.  A `ValueError` of the solver or a result `None` keeps
the old values. -/
noncomputable def solveA (solve : Solver) (XwX XwY : ℕ → ℝ) (A : Fin 2 → Fin nl → Fin nk → ℝ) :
    Fin 2 → Fin nl → Fin nk → ℝ :=
  match solve XwX (fun p => - XwY p) with
  | .ok (some x) => unflatten nl nk x
  | .ok none => A
  | .error _ => A

/-- blm.py:1818-1838: the update of `S1, S2` from the squared solution. -/
noncomputable def solveS (solve : Solver) (XwX XwS : ℕ → ℝ) (S : Fin 2 → Fin nl → Fin nk → ℝ) :
    Fin 2 → Fin nl → Fin nk → ℝ :=
  match solve XwX (fun p => - XwS p) with
  | .ok (some x) => fun t l k => √(unflatten nl nk x t l k)
  | .ok none => S
  | .error _ => S

/-- The M-step for the base effects, blm.py:1465-1895, when there are no control variables (then
`Y1_adj = Y1` and the control sums are zero).  Only `ValueError` is caught around the solver; a solver
raising anything else is outside the model.  Line 1895 deletes `weights1`, which only exists when
`update_s` is set. -/
noncomputable def mstep (d : Data ni nk) (q : Fin ni → Fin nl → ℝ) (b : Base nl nk)
    (updA updS : Bool) (solverA solverS : Solver) : Py (Base nl nk) := do
  if updA || updS then
    let XwX ← assemble d fun t l i => wts d b.S q t l i
    let A' ← if updA then do
        let XwY ← assemble d fun t l i => wts d b.S q t l i * d.Y t i
        pure (solveA solverA XwX XwY b.A)
      else pure b.A
    if updS then
      let XwS ← assemble d fun t l i => wts d b.S q t l i * (d.Y t i - A' t l (d.G t i)) ^ 2
      pure ⟨A', solveS solverS XwX XwS b.S⟩
    else .error "UnboundLocalError"
  else pure b

/-! ## The loops -/

/-- Settings of `fit_movers` that matter without controls.  Used for blm.py:1389-1899. -/
structure MoverOpts where
  updA : Bool
  updS : Bool
  updPk : Bool
  dprior : ℝ
  threshold : ℝ

/-- Values carried through the loop of `_fit_movers`.  Used for blm.py:1389-1899. -/
structure MoverState (nl nk : ℕ) where
  base : Base nl nk
  pk1 : ℕ → Fin nl → ℝ
  liks : List ℝ

/-- blm.py:1433: the loop stops when the likelihood has changed by less than the threshold and the
lowest firm type is unchanged; `prev_lik` starts at infinity. -/
noncomputable def stop (lik : ℝ) (prev : Option ℝ) (thr : ℝ) (sameMin : Bool) : Bool :=
  open scoped Classical in
  match prev with
  | none => false
  | some p => decide (|lik - p| < thr) && sameMin

/-- The loop of `_fit_movers`, blm.py:1389-1899, without controls: `fuel` iterations are left.
`minType` stands for `_min_firm_type`, blm.py:694 (any function of the means).  Without categorical
controls the constraints do not depend on the lowest firm type (`C59`), so the solvers are fixed. -/
noncomputable def moversLoop [NeZero nl] (d : Data ni nk) (o : MoverOpts) (solverA solverS : Solver)
    (minType : (Fin 2 → Fin nl → Fin nk → ℝ) → ℕ) :
    (fuel : ℕ) → (first : Bool) → (prev : Option ℝ) → (prevMin : ℕ) → MoverState nl nk →
      Py (MoverState nl nk)
  | 0, _, _, _, s => .ok s
  | fuel + 1, first, prev, prevMin, s => do
    let lp := lpMovers d s.base [] s.pk1
    let q := posterior lp
    let lik := likMovers d s.base [] s.pk1 first o.updPk o.dprior
    let m := minType s.base.A
    let s' := { s with liks := s.liks ++ [lik] }
    if stop lik prev o.threshold (m == prevMin) then .ok s'
    else do
      let pk1 ← nextPk1 o.updPk d q o.dprior s.pk1
      let base ← mstep d q s.base o.updA o.updS solverA solverS
      moversLoop d o solverA solverS minType fuel false (some lik) m ⟨base, pk1, s'.liks⟩

/-! ## Stayers -/

/-- Log density of stayers, blm.py:2056-2057; `none` rows of `pk0` (`NaN`) are never read for an
observed firm type with positive weights, the value used for them is arbitrary. -/
noncomputable def lpStayers (d : Data ni nk) (b : Base nl nk) (cs : List (Ctrl ni nl))
    (pk0 : Fin nk → Option (Fin nl → ℝ)) (i : Fin ni) (l : Fin nl) : ℝ :=
  d.W 0 i * lpWage d b cs 0 l i + Real.log ((pk0 (d.G 0 i)).getD (fun _ => 1) l)

/-- blm.py:2064-2069: the recorded likelihood; the prior term (from the second iteration) is `NaN`
as soon as some row of `pk0` is, even for `d_prior = 1`. -/
noncomputable def likStayers [NeZero nl] (d : Data ni nk) (b : Base nl nk) (cs : List (Ctrl ni nl))
    (pk0 : Fin nk → Option (Fin nl → ℝ)) (first : Bool) (dprior : ℝ) : Option ℝ :=
  if first then some (meanLse (lpStayers d b cs pk0))
  else
    open scoped Classical in
    if ∃ k, pk0 k = none then none
    else some (meanLse (lpStayers d b cs pk0) +
      (dprior - 1) * ∑ k, ∑ l, Real.log ((pk0 k).getD (fun _ => 1) l))

/-- blm.py:2079: `bincount(KK, ...).reshape(nl, nk).T` with `KK = G1 + nk * l` (lines 2007-2010). -/
noncomputable def sumPk0 (d : Data ni nk) (q : Fin ni → Fin nl → ℝ) (dprior : ℝ) :
    Py (Fin nk → Fin nl → ℝ) :=
  let a := bincount (fun x : Fin ni × Fin nl => (d.G 0 x.1).val + nk * x.2.val)
    (fun x => d.W 0 x.1 * (q x.1 x.2 + dprior - 1))
  if a.len = nl * nk then .ok fun k l => a.val (l.val * nk + k.val)
  else .error "ValueError"

/-- blm.py:2079-2081: normalise rows; a row of zeros becomes `NaN` and nothing checks for it. -/
noncomputable def updatePk0 (d : Data ni nk) (q : Fin ni → Fin nl → ℝ) (dprior : ℝ) :
    Py (Fin nk → Option (Fin nl → ℝ)) := do
  let e ← sumPk0 d q dprior
  (open scoped Classical in
  .ok fun k => if ∑ l, e k l = 0 then none else some fun l => 1 / (∑ l', e k l') * e k l)

/-- The comparison of blm.py:2074; comparisons with `NaN` are false, `prev_lik` starts at infinity. -/
noncomputable def stopStayers (lik prev : Option ℝ) (thr : ℝ) : Bool :=
  open scoped Classical in
  match lik, prev with
  | some a, some b => decide (|a - b| < thr)
  | _, _ => false

/-- The loop of `fit_stayers`, blm.py:2050-2084. -/
noncomputable def stayersLoop [NeZero nl] (d : Data ni nk) (b : Base nl nk) (cs : List (Ctrl ni nl))
    (dprior thr : ℝ) :
    (fuel : ℕ) → (first : Bool) → (prev : Option ℝ) → (Fin nk → Option (Fin nl → ℝ)) →
      List (Option ℝ) → Py ((Fin nk → Option (Fin nl → ℝ)) × List (Option ℝ))
  | 0, _, _, pk0, liks => .ok (pk0, liks)
  | fuel + 1, first, prev, pk0, liks => do
    let q := posterior (lpStayers d b cs pk0)
    let lik := likStayers d b cs pk0 first dprior
    if stopStayers lik prev thr then .ok (pk0, liks ++ [lik])
    else do
      let pk0' ← updatePk0 d q dprior
      stayersLoop d b cs dprior thr fuel false lik pk0' (liks ++ [lik])

/-- `fit_stayers`, blm.py:1950-2088: from the stored `pk0`, returns the new `pk0` and the path of
likelihoods. -/
noncomputable def fitStayers [NeZero nl] (d : Data ni nk) (b : Base nl nk) (cs : List (Ctrl ni nl))
    (dprior thr : ℝ) (nIters : ℕ) (pk0 : Fin nk → Fin nl → ℝ) :
    Py ((Fin nk → Option (Fin nl → ℝ)) × List (Option ℝ)) :=
  stayersLoop d b cs dprior thr nIters true none (fun k => some (pk0 k)) []

end Pytwoway.BLM
