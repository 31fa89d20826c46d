/-
Model of the results dictionary of `FEEstimator` and `FEControlEstimator`: the names of the estimated quantities
(Q/Q.py), the dictionaries of requested quantities (`_construct_Q`), the counts stored by `_prep_vars`, `_collect_res`,
`_save_res` and the leverages loaded from files.  `_collect_res` and `_save_res` are the same text in fe.py:1133-1264
and fecontrol.py:1161-1292.

Simplifications: strings are lists of characters; numbers are exact reals; the calls to the logger are left out; what a
requested quantity evaluates to (its plug-in estimate and the arrays of trace draws) is data of the request, because
those computations are modelled in `Verif.FE.Model`, `Verif.FE.Props2`-`Props5` and `Verif.FEControl`.
-/
import Mathlib.Analysis.Real.Sqrt
import Mathlib.Data.Real.Basic
import Mathlib.Data.List.Sort
import Mathlib.Data.String.Basic
import Mathlib.Algebra.BigOperators.Group.List.Basic

namespace Pytwoway.FEResults

/-- A string.  Used for Q/Q.py:368-370 and Q/Q.py:367-370. -/
abbrev Key := List Char

/-- A computation that may raise an exception, by name. -/
abbrev Py (α : Type) := Except String α

/-- What a results dictionary holds: a number, a text (after `_save_res`), or another object known by its text.
Used for fe.py:1138, 1189-1191 and fe.py:1149-1156. -/
inductive Val where
  | num (x : ℝ)
  | text (s : String)
  | obj (s : String)

/-- A Python dictionary in insertion order.  Used for fe.py:652-653 and fe.py:1141-1142. -/
abbrev Dict (α : Type) := List (Key × α)

/-- `d[k]`.  Used for fe.py:1138, 1189-1191 and fe.py:1216-1247. -/
def get {α : Type} : Dict α → Key → Py α
  | [], _ => .error "KeyError"
  | (k', v) :: d, k => if k' = k then .ok v else get d k

/-- `d[k] = v`: an existing key keeps its place.  Used for fe.py:652-653 and fe.py:1138, 1189-1191. -/
def set {α : Type} : Dict α → Key → α → Dict α
  | [], k, v => [(k, v)]
  | (k', v') :: d, k, v => if k' = k then (k', v) :: d else (k', v') :: set d k v

/-- Using a stored value in arithmetic.  Used for fe.py:1175-1183 and fecontrol.py:493-502. -/
def getNum (d : Dict Val) (k : Key) : Py ℝ :=
  match get d k with
  | .ok (.num x) => .ok x
  | .ok _ => .error "TypeError"
  | .error e => .error e

/-- Storing a number.  Used for fe.py:1149-1156 and fe.py:1164-1173. -/
def put (d : Dict Val) (k : Key) (x : ℝ) : Dict Val := set d k (.num x)

/-! ### Names of the quantities to estimate -/

/-- The text of a sum of covariates after the first one, Q/Q.py:368-370 and 452-458. -/
def plusRest : List Key → Key
  | [] => []
  | c :: cs => " + ".toList ++ c ++ plusRest cs

/-- The text of a sum of covariates, Q/Q.py:367-370: `cov_names[0]` raises with an empty list. -/
def sumText : List Key → Py Key
  | [] => .error "IndexError"
  | c :: cs => .ok (c ++ plusRest cs)

/-- `VarCovariate.name`, Q/Q.py:360-371.  `VarPsi`, `VarAlpha` and `VarPsiPlusAlpha` (Q/Q.py:25-32, 71-78, 117-124)
return the texts of the lists `psi`, `alpha` and `psi`, `alpha`. -/
def varName (cols : List Key) : Py Key := do
  let s ← sumText cols
  return "var(".toList ++ s ++ ")".toList

/-- `CovCovariate.name`, Q/Q.py:445-460.  `CovPsiAlpha` and `CovPsiPrevPsiNext` (Q/Q.py:163-170, 238-245) return the
texts of `psi`, `alpha` and of `psi_t`, `psi_{t+1}`. -/
def covName (cols : List Key × List Key) : Py Key := do
  let s ← sumText cols.1
  let t ← sumText cols.2
  return "cov(".toList ++ s ++ ", ".toList ++ t ++ ")".toList

/-- What is estimated for one request: `_estimate_fe` (fe.py:666-720) gives the plug-in estimate, the trace
approximations (fe.py:800-940, 941-1131) the arrays of draws. -/
structure Stat where
  fe : ℝ
  ho : List ℝ
  he : List ℝ

/-- The dictionary comprehension `{q.name(): q for q in to_list(Q)}`, fe.py:652-653 and fecontrol.py:877-878. -/
def build {α : Type} (name : α → Py Key) (reqs : List (α × Stat)) : Py (Dict Stat) :=
  reqs.foldlM (fun d r => do
    let n ← name r.1
    return set d n r.2) []

/-- `VarCovariate.__init__`, Q/Q.py:354-359: no covariate twice.  Also the test of `CovCovariate.__init__` (438-444) on
each of its lists. -/
def sumInit (cols : List Key) : Py (List Key) := if cols.Nodup then .ok cols else .error "ValueError"

/-! ### `_collect_res` -/

/-- The attributes `_collect_res` reads: the requested variances and covariances, the two residual variances and which
corrections were asked for.  Used for fe.py:1159 and fe.py:1186. -/
structure Est where
  vars : List (List Key × Stat)
  covs : List ((List Key × List Key) × Stat)
  sigmaFe : ℝ
  sigmaHo : ℝ
  ho : Bool
  he : Bool

/-- `np.mean`, on a non-empty array.  Used for fe.py:1164-1173. -/
noncomputable def mean (l : List ℝ) : ℝ := l.sum / l.length

/-- `np.std`, on a non-empty array.  Used for fe.py:1164-1173. -/
noncomputable def std (l : List ℝ) : ℝ := Real.sqrt (mean (l.map fun x => (x - mean l) ^ 2))

/-- `sorted(d.keys())` with the values looked up, fe.py:1141-1142.  Keys of a dictionary are distinct. -/
def sortItems (d : Dict Stat) : Dict Stat := d.mergeSort (fun p q => decide (p.1 ≤ q.1))

/-- `self.res[k] = self.res[k]`, fe.py:1138, 1189-1191. -/
def refresh (k : Key) (d : Dict Val) : Py (Dict Val) := do
  let v ← get d k
  return set d k v

/-- The loops storing plug-in estimates, fe.py:1149-1156. -/
def plugIn (items : Dict Stat) (d : Dict Val) : Dict Val :=
  items.foldl (fun d q => put d (q.1 ++ "_fe".toList) q.2.fe) d

/-- The loops storing mean and standard deviation of the traces, fe.py:1164-1173 and 1195-1204; `suf` is `_ho` or
`_he`. -/
noncomputable def traces (suf : Key) (draws : Stat → List ℝ) (items : Dict Stat) (d : Dict Val) : Dict Val :=
  items.foldl (fun d q =>
    put (put d ("tr_".toList ++ q.1 ++ suf) (mean (draws q.2)))
      ("tr_".toList ++ q.1 ++ suf ++ "_sd".toList) (std (draws q.2))) d

/-- The loops storing corrected estimates, fe.py:1175-1183 and 1206-1214; `c` is the factor of the stored trace
(`sigma_2_ho`, or 1 for the heteroskedastic correction where there is no factor). -/
noncomputable def corrected (suf : Key) (c : ℝ) (items : Dict Stat) (d : Dict Val) : Py (Dict Val) :=
  items.foldlM (fun d q => do
    let t ← getNum d ("tr_".toList ++ q.1 ++ suf)
    return put d (q.1 ++ suf) (q.2.fe - c * t)) d

/-- The homoskedastic results, fe.py:1158-1183. -/
noncomputable def hoRes (sigma : ℝ) (vs cs : Dict Stat) (d : Dict Val) : Py (Dict Val) := do
  let d := put d "var(eps)_ho".toList sigma
  let d := traces "_ho".toList Stat.ho vs d
  let d := traces "_ho".toList Stat.ho cs d
  let d ← corrected "_ho".toList sigma vs d
  corrected "_ho".toList sigma cs d

/-- The heteroskedastic results, fe.py:1185-1214. -/
noncomputable def heRes (vs cs : Dict Stat) (d : Dict Val) : Py (Dict Val) := do
  let d ← refresh "var(eps)_he".toList d
  let d ← refresh "min_lev".toList d
  let d ← refresh "max_lev".toList d
  let d := traces "_he".toList Stat.he vs d
  let d := traces "_he".toList Stat.he cs d
  let d ← corrected "_he".toList 1 vs d
  corrected "_he".toList 1 cs d

/-- `if self.compute_ho`, fe.py:1159. -/
noncomputable def hoPart (x : Est) (vs cs : Dict Stat) (d : Dict Val) : Py (Dict Val) :=
  if x.ho then hoRes x.sigmaHo vs cs d else .ok d

/-- `if self.compute_he`, fe.py:1186. -/
noncomputable def hePart (x : Est) (vs cs : Dict Stat) (d : Dict Val) : Py (Dict Val) :=
  if x.he then heRes vs cs d else .ok d

/-- The keys of the summary for one quantity, fe.py:1229-1236 and 1240-1247. -/
def sumKeys (x : Est) (n : Key) : List Key :=
  [n ++ "_fe".toList] ++ (if x.ho then [n ++ "_ho".toList] else []) ++ (if x.he then [n ++ "_he".toList] else [])

/-- The keys copied to the summary, in order, fe.py:1216-1247. -/
def allKeys (x : Est) (vs cs : Dict Stat) : List Key :=
  ["var(y)".toList, "var(eps)_fe".toList] ++ (if x.ho then ["var(eps)_ho".toList] else []) ++
    (if x.he then ["var(eps)_he".toList] else []) ++ (vs.map Prod.fst).flatMap (sumKeys x) ++
    (cs.map Prod.fst).flatMap (sumKeys x)

/-- `self.summary[k] = self.res[k]` for the keys in turn, fe.py:1216-1247. -/
def copyKeys (ks : List Key) (res summ : Dict Val) : Py (Dict Val) :=
  ks.foldlM (fun s k => do
    let v ← get res k
    return set s k v) summ

/-- `_collect_res`, fe.py:1133-1247, fecontrol.py:1161-1275, with the dictionaries of `_construct_Q`.  Returns `res` and
`summary`. -/
noncomputable def collectRes (x : Est) (res summ : Dict Val) : Py (Dict Val × Dict Val) := do
  let qv ← build varName x.vars
  let qc ← build covName x.covs
  let res ← refresh "var(y)".toList res
  let vs := sortItems qv
  let cs := sortItems qc
  let res := put res "var(eps)_fe".toList x.sigmaFe
  let res := plugIn vs res
  let res := plugIn cs res
  let res ← hoPart x vs cs res
  let res ← hePart x vs cs res
  let summ ← copyKeys (allKeys x vs cs) res summ
  return (res, summ)

/-! ### `_save_res` -/

/-- `str(val)`; `repr` is how numbers are printed.  Used for fe.py:1249-1264. -/
def str (repr : ℝ → String) : Val → String
  | .num x => repr x
  | .text s => s
  | .obj s => s

/-- `_save_res`, fe.py:1249-1264, fecontrol.py:1277-1292: the new `res` and the contents of the file written, if any. -/
def saveRes (repr : ℝ → String) (outputfile : Bool) (res : Dict Val) : Dict Val × Option (List (Key × String)) :=
  if outputfile then
    (res.map fun p => (p.1, Val.text (str repr p.2)), some (res.map fun p => (p.1, str repr p.2)))
  else (res, none)

/-! ### Counts -/

/-- The counts `_prep_vars` stores, fecontrol.py:493-502 (fe.py:420-423 is the case without controls).  A categorical
control comes with its number of categories and of subcolumns. -/
noncomputable def counts (firms workers movers : ℕ) (cats : List (Key × ℕ × ℕ)) (res : Dict Val) : Py (Dict Val) := do
  let res := put res "n_firms".toList firms
  let res := put res "n_workers".toList workers
  let res := put res "n_movers".toList movers
  let w ← getNum res "n_workers".toList
  let m ← getNum res "n_movers".toList
  let res := put res "n_stayers".toList (w - m)
  cats.foldlM (fun d c =>
    let d := put d ("n_".toList ++ c.1) ((((c.2.1 : ℝ) - 1) + 1))
    if c.2.2 > 1 then .error "NotImplementedError" else .ok d) res

/-! ### Leverages from files -/

/-- `_extract_precomputed_leverages`, fe.py:1447-1481, fecontrol.py:1399-1433.  `files` are the arrays of the matching
files, all with one entry per observation (other shapes are not modelled); `onlyMovers` is
`self.weighted or Sii_stayers == 'firm_mean'`.  The minimum of an empty array raises ValueError. -/
noncomputable def precomputed {n : ℕ} (files : List (Fin n → ℝ)) (mover : Fin n → Bool) (onlyMovers : Bool) :
    Py ((Fin n → ℝ) × ℝ × ℝ) :=
  if files.length > 0 then
    let pii : Fin n → ℝ := files.foldl (fun acc pp i => acc i + pp i / files.length) (fun _ => 0)
    let rows := if onlyMovers then (List.finRange n).filter (fun i => mover i) else List.finRange n
    match rows.map pii with
    | [] => .error "ValueError"
    | a :: l =>
      let lo := l.foldl min a
      let hi := l.foldl max a
      if hi ≥ 1 then .error "ValueError" else .ok (pii, lo, hi)
  else .error "AssertionError"

end Pytwoway.FEResults
