import Mathlib.Data.Real.Sqrt
import Mathlib.Algebra.BigOperators.Group.Finset.Basic

/-! # Incomplete Cholesky preconditioner (preconditioners/ichol.py): model

Floats are exact reals.  The flat arrays of a compressed sparse column matrix are given column by column: `cols j` is
the list of `(row, value)` between `Ap[j]` and `Ap[j + 1]`.  A position inside a column, such as `s[k]`, is the list of
entries from that position to the end of the column.  The integer array `l`, which holds both the heads of the linked
lists (one for each row not yet reached) and their `next` pointers (one for each column already factored), is kept as
it is; `-1` is `none`. -/

namespace Pytwoway.Precond

open scoped BigOperators

/-- A stored column.  Used for ichol.py:47, 51 and ichol.py:51-59. -/
abbrev Col := List (ℕ × ℝ)

/-- Input matrix in compressed sparse column format.  Used for ichol.py:41-46 and ichol.py:48-49. -/
structure Csc where
  n : ℕ
  cols : ℕ → Col

/-- Options of `_ichol`, ichol.py:11-24. -/
structure Opts where
  discard : ℝ
  shift : ℝ
  maxNnz : ℕ
  rel : ℝ
  keep : Bool

/-- Return codes -1 and -2.  Used for ichol.py:50-114 and ichol.py:11-115. -/
inductive Code | notPosDef | tooMany
deriving DecidableEq

/-- `d` after the first loop, ichol.py:41-46: `shift` plus the stored diagonal entries. -/
noncomputable def diag0 (A : Csc) (o : Opts) (j : ℕ) : ℝ :=
  o.shift + (((A.cols j).filter fun e => e.1 = j).map (·.2)).sum

/-- `r`, ichol.py:48-49. -/
noncomputable def colAbs (A : Csc) (j : ℕ) : ℝ := (((A.cols j).filter fun e => j ≤ e.1).map fun e => |e.2|).sum

/-- The entries `range(t[j], Ap[j + 1])`, ichol.py:47, 51: those behind the diagonal entry, if one is stored.  Otherwise
`t[j]` is still 0, and the range runs over all columns up to `j`.  (The rows of a column are distinct: `ichol` calls
`sum_duplicates` if needed.) -/
def scan (A : Csc) (j : ℕ) : Col :=
  if (A.cols j).any fun e => e.1 = j then ((A.cols j).dropWhile fun e => e.1 ≠ j).tail
  else (List.range (j + 1)).flatMap A.cols

/-- The sparse accumulator: values, marks and the list of marked rows.  Used for ichol.py:55-59 and ichol.py:51-59. -/
structure Acc where
  a : ℕ → ℝ
  b : ℕ → Bool
  c : List ℕ

/-- `a[i] += v` and the marking of `i`, ichol.py:55-59 and 75-79. -/
def Acc.add (w : Acc) (i : ℕ) (v : ℝ) : Acc where
  a := Function.update w.a i (w.a i + v)
  b := if w.b i then w.b else Function.update w.b i true
  c := if w.b i then w.c else w.c ++ [i]

open scoped Classical in
/-- ichol.py:51-59. -/
noncomputable def loadCol (j : ℕ) (es : Col) (w : Acc) : Acc :=
  es.foldl (fun w e => if e.2 ≠ 0 ∧ j < e.1 then w.add e.1 e.2 else w) w

/-- Linked lists, positions and accumulator.  Used for ichol.py:61-80. -/
structure Walk where
  l : ℕ → Option ℕ
  s : ℕ → Col
  w : Acc

/-- The loop of ichol.py:61-80 over the columns with a non-zero in row `j`, for at most `fuel` columns (`n` is enough:
`ichol_refines`).  `s[k]` never is at the end of its column here; the model then stops. -/
def walk : ℕ → Option ℕ → Walk → Walk
  | 0, _, x => x
  | _ + 1, none, x => x
  | fuel + 1, some k, x =>
    match x.s k with
    | [] => x
    | (_, Ljk) :: rest =>
      let k2 := x.l k
      match rest with
      | [] => walk fuel k2 x
      | (i, v) :: more => walk fuel k2 {
          l := Function.update (Function.update x.l k (x.l i)) i (some k)
          s := Function.update x.s k ((i, v) :: more)
          w := ((i, v) :: more).foldl (fun w e => w.add e.1 (-(e.2 * Ljk))) x.w }

/-- State of the factorisation.  `L k` is column `k` of the result, its diagonal entry first. -/
structure St where
  l : ℕ → Option ℕ
  s : ℕ → Col
  w : Acc
  d : ℕ → ℝ
  L : ℕ → Col
  nnz : ℕ

/-- State of the loop of ichol.py:90-108. -/
structure Emit where
  d : ℕ → ℝ
  a : ℕ → ℝ
  b : ℕ → Bool
  out : Col

open scoped Classical in
/-- One turn of the loop of ichol.py:90-108. -/
noncomputable def emit (o : Opts) (dj rj : ℝ) (x : Emit) (i : ℕ) : Emit :=
  let Lij := x.a i / dj
  let d := if o.keep then Function.update x.d i (x.d i - Lij * Lij) else x.d
  let big := |Lij| > o.discard ∧ |x.a i| > o.rel * rj
  { d := if big ∧ ¬ o.keep then Function.update d i (d i - Lij * Lij) else d
    a := Function.update x.a i 0
    b := Function.update x.b i false
    out := if big then x.out ++ [(i, Lij)] else x.out }

open scoped Classical in
/-- One turn of the main loop, ichol.py:50-114. -/
noncomputable def icholStep (A : Csc) (o : Opts) (st : St) (j : ℕ) : Except Code St :=
  let w := loadCol j (scan A j) st.w
  let x := walk A.n (st.l j) ⟨st.l, st.s, w⟩
  if st.d j ≤ 0 then .error .notPosDef
  else if st.nnz + 1 + x.w.c.length > o.maxNnz then .error .tooMany
  else
    let dj := √(st.d j)
    let e := (x.w.c.mergeSort (fun p q => decide (p ≤ q))).foldl (emit o dj (colAbs A j))
      ⟨Function.update st.d j dj, x.w.a, x.w.b, []⟩
    .ok {
      l := match e.out with
        | [] => x.l
        | (i, _) :: _ => Function.update (Function.update x.l j (x.l i)) i (some j)
      s := Function.update x.s j e.out
      w := ⟨e.a, e.b, []⟩
      d := e.d
      L := Function.update st.L j ((j, dj) :: e.out)
      nnz := st.nnz + 1 + e.out.length }

/-- ichol.py:30-46. -/
noncomputable def icholInit (A : Csc) (o : Opts) : St where
  l := fun _ => none
  s := fun _ => []
  w := ⟨fun _ => 0, fun _ => false, []⟩
  d := diag0 A o
  L := fun _ => []
  nnz := 0

/-- `_ichol`, ichol.py:11-115. -/
noncomputable def icholRun (A : Csc) (o : Opts) : Except Code St :=
  (List.range A.n).foldlM (icholStep A o) (icholInit A o)

/-- The loop over `shifts` and what follows, ichol.py:262-304.  `none` is `ValueError`; with an empty list of shifts
`nnz` is unbound, also an error. -/
noncomputable def ichol (A : Csc) (o : Opts) : List ℝ → Option St
  | [] => none
  | shift :: more =>
    match icholRun A { o with shift := shift } with
    | .ok st => some st
    | .error .notPosDef => ichol A o more
    | .error .tooMany => none

/-- `_backsub_L_csc_inplace`, ichol.py:119-132, one column. -/
noncomputable def forwardStep (L : ℕ → Col) (x : ℕ → ℝ) (j : ℕ) : ℕ → ℝ :=
  match L j with
  | [] => x
  | (_, Ljj) :: low =>
    let temp := x j / Ljj
    low.foldl (fun x e => Function.update x e.1 (x e.1 - e.2 * temp)) (Function.update x j temp)

/-- `_backsub_L_csc_inplace`, ichol.py:119-132. -/
noncomputable def forward (L : ℕ → Col) (n : ℕ) (x : ℕ → ℝ) : ℕ → ℝ := (List.range n).foldl (forwardStep L) x

/-- `_backsub_LT_csc_inplace`, ichol.py:135-147, one row. -/
noncomputable def backwardStep (L : ℕ → Col) (x : ℕ → ℝ) (i : ℕ) : ℕ → ℝ :=
  match L i with
  | [] => x
  | (_, Lii) :: low => Function.update x i (low.foldl (fun s e => s - e.2 * x e.1) (x i) / Lii)

/-- `_backsub_LT_csc_inplace`, ichol.py:135-147. -/
noncomputable def backward (L : ℕ → Col) (n : ℕ) (x : ℕ → ℝ) : ℕ → ℝ := (List.range n).reverse.foldl (backwardStep L) x

/-- `CholeskyDecomposition.__call__`, ichol.py:177-183. -/
noncomputable def cholApply (L : ℕ → Col) (n : ℕ) (b : ℕ → ℝ) : ℕ → ℝ := backward L n (forward L n b)

end Pytwoway.Precond
