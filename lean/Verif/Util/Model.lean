import Mathlib.Data.Real.Basic
import Mathlib.Analysis.Real.Sqrt
import Mathlib.Analysis.SpecialFunctions.Log.Basic
import Mathlib.Analysis.Real.Pi.Bounds
import Mathlib.Data.Matrix.Basic
import Mathlib.Algebra.BigOperators.Fin

/-!
# Model of `pytwoway/util.py`

Floats are exact reals.  Arrays of length `n` are functions on a finite index type.
-/

namespace Pytwoway.Util

open scoped BigOperators

/-! ## `scramble` / `unscramble` -/

/-- util.py:407-424 `scramble`.  `for i in range(len(lst))`: even `i` appends `lst[i // 2]`,
odd `i` appends `lst[len(lst) - i // 2 - 1]`.  The bound proofs show that no `IndexError` (and no
negative index) can occur. -/
def scramble {α : Type*} (lst : List α) : List α :=
  List.ofFn fun i : Fin lst.length =>
    if i.val % 2 = 0 then lst[i.val / 2]'(by have := i.isLt; omega)
    else lst[lst.length - i.val / 2 - 1]'(by have := i.isLt; omega)

/-- util.py:438-442, one turn of the loop of `unscramble`: `element` at position `i` goes to
`front_lst` if `i % 2 == 0`, else to `back_lst`. -/
def unscrambleStep {α : Type*} (acc : List α × List α) (p : α × Nat) : List α × List α :=
  if p.2 % 2 = 0 then (acc.1 ++ [p.1], acc.2) else (acc.1, acc.2 ++ [p.1])

/-- util.py:426-444 `unscramble`: `front_lst + list(reversed(back_lst))`. -/
def unscramble {α : Type*} (lst : List α) : List α :=
  let r := lst.zipIdx.foldl unscrambleStep ([], [])
  r.1 ++ r.2.reverse

/-! ## Weighted moments -/

/-- A `w` argument of util.py:10-68: either a `float`/`int` (branch `isinstance(w, (float, int))`)
or a NumPy array. -/
inductive Weight (ι : Type*) where
  | scalar (c : ℝ)
  | vec (w : ι → ℝ)

/-- Value of the weight at one observation (NumPy broadcasting of a scalar, util.py:66). -/
def Weight.at {ι : Type*} : Weight ι → ι → ℝ
  | .scalar c, _ => c
  | .vec w, i => w i

variable {ι : Type*} [Fintype ι]

/-- util.py:10-23 `weighted_mean`.  A scalar weight is ignored. -/
noncomputable def weightedMean (v : ι → ℝ) : Weight ι → ℝ
  | .scalar _ => (∑ i, v i) / (Fintype.card ι : ℝ)
  | .vec w => (∑ i, w i * v i) / ∑ i, w i

/-- util.py:25-43 `weighted_var`. -/
noncomputable def weightedVar (v : ι → ℝ) (w : Weight ι) (dof : ℝ) : ℝ :=
  let m0 := weightedMean v w
  match w with
  | .scalar _ => (∑ i, (v i - m0) ^ 2) / ((Fintype.card ι : ℝ) - dof)
  | .vec w => (∑ i, w i * (v i - m0) ^ 2) / ((∑ i, w i) - dof)

/-- util.py:45-68 `weighted_cov`: each mean uses its own weights; if both weights are scalars the
unweighted formula is used, otherwise `w3 = sqrt(w1 * w2)`. -/
noncomputable def weightedCov (v1 v2 : ι → ℝ) (w1 w2 : Weight ι) (dof : ℝ) : ℝ :=
  let m1 := weightedMean v1 w1
  let m2 := weightedMean v2 w2
  match w1, w2 with
  | .scalar _, .scalar _ => (∑ i, (v1 i - m1) * (v2 i - m2)) / ((Fintype.card ι : ℝ) - dof)
  | w1, w2 =>
    let w3 : ι → ℝ := fun i => Real.sqrt (w1.at i * w2.at i)
    (∑ i, w3 i * (v1 i - m1) * (v2 i - m2)) / ((∑ i, w3 i) - dof)

/-! ## Weighted quantiles -/

/-- `np.interp` beyond the first grid point (used at util.py:105).  `p` is the grid point `xp[j]`
reached so far, the list the remaining grid points; a pair is `(xp, fp)`.  Mirrors NumPy's
`arr_interp`: find `j` with `xp[j] <= x < xp[j+1]`; past the last point return `fp[-1]`; on a grid
point return `fp[j]`; else `slope * (x - xp[j]) + fp[j]`.  (NumPy finds `j` by binary search; on an
increasing grid that is the same `j`.) -/
noncomputable def interpFrom (x : ℝ) : ℝ × ℝ → List (ℝ × ℝ) → ℝ
  | p, [] => p.2
  | p, q :: rest =>
    if x < q.1 then
      if p.1 = x then p.2 else (q.2 - p.2) / (q.1 - p.1) * (x - p.1) + p.2
    else interpFrom x q rest

/-- `np.interp(x, xp, fp)`; `none` is NumPy's `ValueError: array of sample points is empty`.
Used for util.py:70-105. -/
noncomputable def interp (x : ℝ) : List (ℝ × ℝ) → Option ℝ
  | [] => none
  | p :: rest => some (if x < p.1 then p.2 else interpFrom x p rest)

/-- util.py:97 `np.cumsum(sample_weight) - 0.5 * sample_weight`, with the values carried along.
`c` is the running sum before the head. -/
noncomputable def cumGrid (c : ℝ) : List (ℝ × ℝ) → List (ℝ × ℝ)
  | [] => []
  | (v, w) :: rest => ((c + w) - 0.5 * w, v) :: cumGrid (c + w) rest

/-- util.py:98-103: rescale the grid.  `old_style` subtracts the first point and divides by the
last one, otherwise divide by the sum of the weights.  (For `old_style` with one observation NumPy
computes 0/0 = NaN and `np.interp` on a one-point grid returns `fp[0]`; here 0/0 = 0 and the same
value is returned.) -/
noncomputable def scaleGrid (oldStyle : Bool) (total : ℝ) (g : List (ℝ × ℝ)) : List (ℝ × ℝ) :=
  if oldStyle then
    let x0 := (g.head?.map Prod.fst).getD 0
    let g' := g.map fun p => (p.1 - x0, p.2)
    let xl := (g'.getLast?.map Prod.fst).getD 0
    g'.map fun p => (p.1 / xl, p.2)
  else g.map fun p => (p.1 / total, p.2)

/-- Outcome of `weighted_quantile`: the two ways to fail, or the list of quantiles.  Used for util.py:70-105. -/
inductive QuantileResult where
  | valueErrorRange   -- util.py:89-90
  | valueErrorEmpty   -- np.interp on no data
  | ok (q : List ℝ)

/-- util.py:70-105 `weighted_quantile`.  `data` is the list of `(value, weight)` pairs
(`sample_weight=None` means all weights 1).  `sorter` models `np.argsort` applied to both arrays
(lines 92-95): any function returning a reordering sorted by value (NumPy does not promise how it
orders ties).  `values_sorted=True` skips the sort. -/
noncomputable def weightedQuantile (sorter : List (ℝ × ℝ) → List (ℝ × ℝ))
    (data : List (ℝ × ℝ)) (quantiles : List ℝ) (valuesSorted oldStyle : Bool) : QuantileResult :=
  if ¬ ((∀ q ∈ quantiles, 0 ≤ q) ∧ (∀ q ∈ quantiles, q ≤ 1)) then .valueErrorRange
  else
    let d := if valuesSorted then data else sorter data
    let g := scaleGrid oldStyle (d.map Prod.snd).sum (cumGrid 0 d)
    match quantiles.mapM (fun q => interp q g) with
    | none => .valueErrorEmpty
    | some r => .ok r

/-! ## Diagonal products -/

/-- A CSC matrix with `n` rows and `m` columns: for each column the stored `(row index, value)`
entries in storage order (`indices`/`data` between `indptr[c]` and `indptr[c+1]`).  Duplicate
entries are allowed and add up, as in SciPy.  Used for util.py:107-128 and util.py:130-148. -/
structure CSC (n m : ℕ) where
  cols : Fin m → List (Fin n × ℝ)

/-- Dense value of a CSC matrix. -/
def CSC.toDense {n m : ℕ} (sp : CSC n m) : Matrix (Fin n) (Fin m) ℝ :=
  fun i j => (((sp.cols j).filter fun e => e.1 = i).map Prod.snd).sum

/-- A `diag` argument: a multiplicative factor or diagonal entries (util.py:118, 141, 158, 175). -/
inductive DiagArg (n : ℕ) where
  | scalar (c : ℝ)
  | vec (d : Fin n → ℝ)

/-- The diagonal matrix a `diag` argument stands for. -/
def DiagArg.toMatrix {n : ℕ} : DiagArg n → Matrix (Fin n) (Fin n) ℝ
  | .scalar c => c • (1 : Matrix (Fin n) (Fin n) ℝ)
  | .vec d => Matrix.diagonal d

open Classical in
/-- util.py:107-128 `DxSP`: factor 1 returns the matrix, another factor scales it, diagonal entries
multiply `np.take(diag, sp.indices) * sp.data`. -/
noncomputable def DxSP {n m : ℕ} (diag : DiagArg n) (sp : CSC n m) : CSC n m :=
  match diag with
  | .scalar c =>
    if c = 1 then sp else ⟨fun j => (sp.cols j).map fun e => (e.1, c * e.2)⟩
  | .vec d => ⟨fun j => (sp.cols j).map fun e => (e.1, d e.1 * e.2)⟩

open Classical in
/-- util.py:130-148 `SPxD`: `sp.multiply(diag)` broadcasts along the columns. -/
noncomputable def SPxD {n m : ℕ} (sp : CSC n m) (diag : DiagArg m) : CSC n m :=
  match diag with
  | .scalar c =>
    if c = 1 then sp else ⟨fun j => (sp.cols j).map fun e => (e.1, c * e.2)⟩
  | .vec d => ⟨fun j => (sp.cols j).map fun e => (e.1, e.2 * d j)⟩

open Classical in
/-- util.py:150-165 `DxM`: `(diag * m.T).T`. -/
noncomputable def DxM {n m : ℕ} (diag : DiagArg n) (A : Matrix (Fin n) (Fin m) ℝ) :
    Matrix (Fin n) (Fin m) ℝ :=
  match diag with
  | .scalar c => if c = 1 then A else c • A
  | .vec d => Matrix.transpose (Matrix.of fun j i => d i * A.transpose j i)

open Classical in
/-- util.py:167-182 `MxD`: `m * diag`. -/
noncomputable def MxD {n m : ℕ} (A : Matrix (Fin n) (Fin m) ℝ) (diag : DiagArg m) :
    Matrix (Fin n) (Fin m) ℝ :=
  match diag with
  | .scalar c => if c = 1 then A else c • A
  | .vec d => Matrix.of fun i j => A i j * d j

/-- util.py:184-206 `diag_of_sp_prod` and `diag_of_prod` (same computation on sparse and dense
arrays).  `m1` is `n × a`, `m2` is `b × n`.  If `m1` has fewer columns than `m2` has rows the
function calls itself on the transposes, otherwise it multiplies elementwise the first `b` columns
of `m1` with `m2.T` and sums over columns. -/
def diagOfProd {n : ℕ} (a b : ℕ) (m1 : Matrix (Fin n) (Fin a) ℝ) (m2 : Matrix (Fin b) (Fin n) ℝ) :
    Fin n → ℝ :=
  if h : a < b then diagOfProd b a m2.transpose m1.transpose
  else fun i => ∑ j : Fin b, m1 i ⟨j.val, by omega⟩ * m2.transpose i j
termination_by b - a
decreasing_by omega

/-! ## Logs, exponentials and the Gaussian density -/

/-- The exponent arguments `a - a_max` of util.py:360-362. -/
noncomputable def shifted [Nonempty ι] (a : ι → ℝ) : ι → ℝ :=
  fun i => a i - Finset.univ.sup' Finset.univ_nonempty a

/-- util.py:364 `s = np.sum(np.exp(a - a_max))`. -/
noncomputable def shiftedSum [Nonempty ι] (a : ι → ℝ) : ℝ := ∑ i, Real.exp (shifted a i)

/-- util.py:348-370 `logsumexp` along one row (the NumPy version; for the torch version at
util.py:284 see Verif/BLM/Torch.lean, C112).  An empty row makes `np.amax` raise, hence
`Nonempty`. -/
noncomputable def logsumexp [Nonempty ι] (a : ι → ℝ) : ℝ :=
  Real.log (shiftedSum a) + Finset.univ.sup' Finset.univ_nonempty a

/-- util.py:372 `logpi = - 0.5 * np.log(2 * np.pi)`. -/
noncomputable def logpi : ℝ := -(0.5) * Real.log (2 * Real.pi)

/-- util.py:374-385 `lognormpdf`.  The only error is the `ValueError` of line 376. -/
noncomputable def lognormpdf (x mu : ℝ) (sd var : Option ℝ) : Except String ℝ :=
  match sd, var with
  | none, none => .error "ValueError"
  | some _, some _ => .error "ValueError"
  | some s, none => .ok (logpi - Real.log s - (x - mu) ^ 2 / (2 * s ^ 2))
  | none, some v => .ok (logpi - (1 / 2) * Real.log v - (x - mu) ^ 2 / (2 * v))

/-- util.py:387-393 `fast_lognormpdf`: logs and squares are taken once per group and then looked up
by the group index `G`. -/
noncomputable def fastLognormpdf {κ : Type*} (x : ι → ℝ) (mu sd : κ → ℝ) (G : ι → κ) : ι → ℝ :=
  let logSd : κ → ℝ := fun g => Real.log (sd g)
  let sdSq : κ → ℝ := fun g => sd g ^ 2
  fun i => logpi - logSd (G i) - (x i - mu (G i)) ^ 2 / (2 * sdSq (G i))

/-! ## `melt` -/

/-- util.py:446-457 `melt` on a 2-dimensional array of shape `(d0, d1)`: `np.meshgrid` with its
default `indexing='xy'` returns arrays of shape `(d1, d0)` whose entry `[r, c]` is `c` (first axis
label) and `r` (second axis label), and `a.ravel()` lists `a` in row-major order.  Row `p` of the
result is `(label of axis 0, label of axis 1, value)`. -/
def melt2 (d0 d1 : ℕ) (a : ℕ → ℕ → ℝ) : List (ℕ × ℕ × ℝ) :=
  (List.range (d0 * d1)).map fun p => (p % d0, p / d0, a (p / d1) (p % d1))

end Pytwoway.Util
