import Mathlib.Algebra.BigOperators.Field
import Mathlib.Algebra.Order.BigOperators.Ring.Finset
import Mathlib.Analysis.Real.Sqrt
import Verif.Attrition.Results
import Verif.Sorkin.Model

/-! # SorkinAttrition (sorkin.py:64-248): model for C102

The classes that draw the subsets are modelled in `Verif.Attrition.Model`.  `bipartitepandas` (cleaning, dropping firms
with few moves) and the two estimators are oracles; the fixed point behind `values` is C30, the least squares behind
`effects` C02.  Cleaning is taken to return a new frame. -/

namespace Pytwoway.SorkinAttrition

open Finset Attrition

/-- What the estimation calls: `pick r` are the draws of run `r` (the generator is passed from run to run), `clean` is
`bdf.clean`, `minMoves` is `min_moves_frame`, `effects` is `FEEstimator(...).fit()` with `feonly` followed by
`.psi_hat` (the effects of all firms but the normalised one), `values` is `to_eventstudy()` followed by
`SorkinEstimator().fit` and `.V_EE`.  Used for sorkin.py:101-143 and sorkin.py:145-180. -/
structure World where
  pick : ℕ → ℕ → Finset ℕ → ℕ → Finset ℕ
  clean : CleanParams → Frame → Py Frame
  minMoves : ℕ → CleanParams → Frame → Frame
  effects : Frame → Py (List ℝ)
  values : Frame → Py (List ℝ)

/-- `attrition_how`.  Used for sorkin.py:145-180 and sorkin.py:222-229. -/
inductive How
  | incr (a : Incr)
  | decr (fracs : List ℝ)

/-- `attrition_how.subset_fractions`.  Used for sorkin.py:222-229 and sorkin.py:234-248. -/
def How.fracs : How → List ℝ
  | .incr a => a.fracs
  | .decr f => f

/-- `attrition_how._gen_subsets(bdf, clean_params, rng)`; see `genIncreasing` for the second component.
Used for sorkin.py:145-180. -/
noncomputable def gen (how : How) (e : Env) (bdf : Frame) (p : CleanParams) : Py (List Subset) × CleanParams :=
  match how with
  | .incr a => genIncreasing a e bdf p
  | .decr f => (.ok (genDecreasing f e bdf), p)

/-- The mean of `x 0, …, x (n - 1)`.  Used for sorkin.py:101-143. -/
noncomputable def mean (n : ℕ) (x : ℕ → ℝ) : ℝ := (∑ i ∈ range n, x i) / n

/-- An entry of `np.cov`: centred products over `n - 1`.  Used for sorkin.py:101-143. -/
noncomputable def cov (n : ℕ) (x y : ℕ → ℝ) : ℝ :=
  (∑ i ∈ range n, (x i - mean n x) * (y i - mean n y)) / ((n : ℝ) - 1)

open scoped Classical in
/-- `np.corrcoef(x, y)[0, 1]`: the covariance over both standard deviations, clipped to [-1, 1].  `none` is `nan`:
fewer than two entries, or one of the vectors is constant.  Used for sorkin.py:101-143. -/
noncomputable def corr (n : ℕ) (x y : ℕ → ℝ) : Option ℝ :=
  if n ≤ 1 ∨ cov n x x = 0 ∨ cov n y y = 0 then none
  else some (max (-1) (min 1 (cov n x y / Real.sqrt (cov n x x) / Real.sqrt (cov n y y))))

/-- `np.corrcoef` stacks its arguments and raises `ValueError` if their lengths differ.  Used for sorkin.py:101-143. -/
noncomputable def corrcoef (x y : List ℝ) : Py (Option ℝ) :=
  if x.length = y.length then .ok (corr x.length (fun i => x.getD i 0) (fun i => y.getD i 0)) else .error .value

/-- `bdf.loc[bdf.get_worker_m(), :]`: the rows of movers.  Used for sorkin.py:101-143. -/
def moverRows (f : Frame) : Frame := f.filter fun r => r.i ∈ movers f

/-- `self.clean_params_2`, sorkin.py:90: the defaults with `is_sorted`, without `copy`. -/
def params2 : CleanParams := ⟨true, false, false, none, 0⟩

/-- `_attrition_interior`, sorkin.py:101-143.  The generator is not used: neither estimator receives it. -/
noncomputable def interior (W : World) (p : CleanParams) (bdf : Frame) (s : Subset) : Py (Option ℝ) := do
  let f ← W.clean p (sample bdf s)
  let psi ← W.effects f
  let j ← W.clean params2 (moverRows f)
  let v ← W.values j
  corrcoef v (psi ++ [0])

/-- The estimation loop of `_attrition_single`, sorkin.py:165-180. -/
def runAll {α β : Type} (ncore : ℕ) (f : α → Py β) (l : List α) : Py (List β) :=
  if 1 < ncore then (Util.unscramble ·) <$> (Util.scramble l).mapM f else l.mapM f

/-- `_attrition_single`, sorkin.py:145-180.  The subsets are drawn with `self.clean_params_1` itself, which
`_gen_subsets` changes; the interior function reads it afterwards. -/
noncomputable def single (W : World) (how : How) (ncore r : ℕ) (bdf : Frame) (p : CleanParams) :
    Py (List (Option ℝ)) × CleanParams :=
  match gen how ⟨W.pick r, W.clean⟩ bdf p with
  | (.error x, p') => (.error x, p')
  | (.ok subs, p') => (runAll ncore (interior W p' bdf) subs, p')

/-- `res_all[i, :] = res` for a row of length `n`: a list of length one is repeated, other lengths raise
`ValueError`.  Used for sorkin.py:222-229. -/
def assignRow {β : Type} (n : ℕ) (res : List β) : Py (List β) :=
  match res with
  | [x] => .ok (List.replicate n x)
  | l => if l.length = n then .ok l else .error .value

/-- The main loop, sorkin.py:222-229: `k` runs are left, `r` is the number of the next one. -/
noncomputable def runs (W : World) (how : How) (ncore : ℕ) (bdf : Frame) :
    (k r : ℕ) → CleanParams → Py (List (List (Option ℝ))) × CleanParams
  | 0, _, p => (.ok [], p)
  | k + 1, r, p =>
    match single W how ncore r bdf p with
    | (.error x, p') => (.error x, p')
    | (.ok res, p') =>
      match assignRow how.fracs.length res with
      | .error x => (.error x, p')
      | .ok row =>
        match runs W how ncore bdf k (r + 1) p' with
        | (.error x, p'') => (.error x, p'')
        | (.ok rows, p'') => (.ok (row :: rows), p'')

/-- The attributes of `SorkinAttrition`.  Used for sorkin.py:182-232 and sorkin.py:234-248. -/
structure Obj where
  minMoves : ℕ
  how : How
  params : CleanParams
  moversPerFirm : Option ℝ
  res : Option (List (List (Option ℝ)))

/-- `attrition`, sorkin.py:182-232.  The object afterwards is returned also when an exception leaves the function.
`n_workers() / n_firms()` of a frame without firms is a division by zero. -/
noncomputable def attrition (W : World) (o : Obj) (N ncore : ℕ) (bdf : Frame) : Py Unit × Obj :=
  if firms bdf = ∅ then (.error .other, o)
  else
    let o := { o with moversPerFirm := some (#(movers bdf) / #(firms bdf)) }
    let bdf := W.minMoves o.minMoves o.params bdf
    if bdf = [] then (.error .value, o)
    else
      match runs W o.how ncore bdf N 0 o.params with
      | (.error x, p) => (.error x, { o with params := p })
      | (.ok rows, p) => (.ok (), { o with params := p, res := some rows })

/-- `np.mean(res, axis=0)` at column `c`; `none` is `nan` (an entry is `nan`, or there are no rows).
Used for sorkin.py:234-248. -/
noncomputable def colMean (rows : List (List (Option ℝ))) (c : ℕ) : Option ℝ :=
  if rows = [] then none
  else (rows.mapM fun (row : List (Option ℝ)) => row.getD c none).map fun l => l.sum / l.length

/-- `plot`, sorkin.py:234-248: the points drawn.  Before `attrition` the result is `None`, whose mean along an axis is
an `AxisError`.  `line_at_movers_per_firm` is not used by the code. -/
noncomputable def plot (o : Obj) (digits : ℕ) : Py (List (ℝ × Option ℝ)) :=
  match o.res with
  | none => .error .axis
  | some rows => .ok ((axisOf digits o.how.fracs).zipIdx.map fun x => (x.1, colMean rows x.2))

end Pytwoway.SorkinAttrition
