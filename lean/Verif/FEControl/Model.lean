import Verif.Util.Model

/-!
# Model of `pytwoway/fecontrol.py` (`FEControlEstimator`): layout, estimates, standard errors

Floats are exact reals.  The design matrix `A` is a list of columns (`hstack` is `++`), the coefficient
vector a list.  The linear solver is an oracle.  Python dictionaries are association lists in insertion
order; assigning to an existing key replaces its value.
-/

namespace Pytwoway.FEControl

open scoped BigOperators

/-! ## Dictionaries -/

/-- `d[k] = v` for a Python dictionary.  Used for fecontrol.py:474-486 and fecontrol.py:692-697. -/
def dset {β : Type*} : List (String × β) → String → β → List (String × β)
  | [], k, v => [(k, v)]
  | (k', v') :: t, k, v => if k' = k then (k', v) :: t else (k', v') :: dset t k v

/-- `d[k]`; `none` is `KeyError`.  Used for Q.py:373-394 and Q.py:408-422, 520-534. -/
def dget {β : Type*} (d : List (String × β)) (k : String) : Option β := d.lookup k

/-- `gh[a: b]` for `a ≤ b`.  Used for fecontrol.py:679-688 and fecontrol.py:692-697. -/
def slice {α : Type*} (l : List α) (a b : ℕ) : List α := (l.drop a).take (b - a)

/-! ## Data -/

/-- A categorical control: its name, `n_unique_ids - 1`, and its column (contiguous ids).
Used for fecontrol.py:552-556, 701-706 and fecontrol.py:692-697. -/
structure Cat (n : ℕ) where
  name : String
  k : ℕ
  val : Fin n → Fin (k + 1)

/-- A continuous control subcolumn.  Used for fecontrol.py:552-556, 701-706 and fecontrol.py:703-706. -/
structure Cts (n : ℕ) where
  name : String
  val : Fin n → ℝ

/-- The data `FEControlEstimator` reads: `m + 1` firms, `nw` workers, `n` rows, controls.  `cts` lists
the subcolumns of all continuous controls in order (fecontrol.py:552-556, 701-706). -/
structure CData (n m nw : ℕ) where
  j : Fin n → Fin (m + 1)
  i : Fin n → Fin nw
  y : Fin n → ℝ
  weighted : Bool
  w : Fin n → ℝ
  cats : List (Cat n)
  cts : List (Cts n)

variable {n m nw : ℕ}

/-- Indicator columns of a column of ids, one per value in `0..k-1` (`csc_matrix(ones, (idx, col))`).
Used for fecontrol.py:526-559. -/
def indicators {k : ℕ} (v : Fin n → Fin k) : List (Fin n → ℝ) :=
  List.ofFn fun c : Fin k => fun o => if v o = c then 1 else 0

namespace CData

variable (d : CData n m nw)

/-- `self.Dp`, fecontrol.py:564 / 574. -/
def Dp (o : Fin n) : ℝ := if d.weighted then d.w o else 1

/-- `self.n_dict`, fecontrol.py:474-486. -/
def nDict : List (String × ℕ) :=
  let t := [("psi", (m + 1) - 1), ("alpha", nw)]
  let t := d.cats.foldl (fun t c => dset t c.name ((c.k + 1) - 1)) t
  d.cts.foldl (fun t c => dset t c.name 1) t

/-- `self.n_cov`, fecontrol.py:488. -/
def nCov : ℕ := (d.nDict.map (·.2)).sum

/-- `self.A`, fecontrol.py:526-559.  (`n_cat = self.n_dict[cat_col] + 1` is the number of categories
whenever control names are distinct; scipy's bounds check on ids is then met.) -/
def A : List (Fin n → ℝ) :=
  let A := (indicators d.j).drop 1 ++ indicators d.i
  let A := d.cats.foldl (fun A c => A ++ (indicators c.val).drop 1) A
  d.cts.foldl (fun A c => A ++ [c.val]) A

/-- `A @ v`, fecontrol.py:1318, row `o`. -/
def multA (v : List ℝ) (o : Fin n) : ℝ := (List.zipWith (fun c g => c o * g) d.A v).sum

/-- `A.T @ (Dp * v)`: `_mult_Atranspose` with `weighted=True`, fecontrol.py:1320-1340. -/
def multAT (v : Fin n → ℝ) : List ℝ := d.A.map fun c => ∑ o, d.Dp o * c o * v o

/-- `AtDpA @ x`, `AtDpA = A.T @ DpA`, fecontrol.py:584. -/
def AtDpA (x : List ℝ) : List ℝ := d.multAT fun o => d.multA x o

variable (solve : List ℝ → List ℝ)

/-- `self.gamma_hat = self._solve(self.Y, Dp2=True)`, fecontrol.py:734, 1371-1383; `solve b` is what the
configured solver returns for `AtDpA @ x = b`. -/
def gammaHat : List ℝ := solve (d.multAT d.y)

/-- Entries of `gamma_hat_dict`: arrays, or the scalar `gh[n_cov]` of a continuous control.
Used for fecontrol.py:679-688. -/
inductive Entry | vec (l : List ℝ) | num (x : ℝ)

/-- State of the loops of `_unpack_gamma_hat`: the two dictionaries and `n_cov`.
Used for fecontrol.py:679-688 and fecontrol.py:692-697. -/
structure Unpack where
  gamma : List (String × Entry)
  idx : List (String × (ℕ × ℕ))
  ncov : ℕ

/-- fecontrol.py:679-688. -/
def unpackInit (m nw : ℕ) (gh : List ℝ) : Unpack where
  gamma := [("psi", .vec (0 :: slice gh 0 ((m + 1) - 1))),
    ("alpha", .vec (slice gh ((m + 1) - 1) ((m + 1) - 1 + nw)))]
  idx := [("psi", (0, (m + 1) - 1)), ("alpha", ((m + 1) - 1, (m + 1) - 1 + nw))]
  ncov := (m + 1) - 1 + nw

/-- One turn of the loop over categorical controls, fecontrol.py:692-697. -/
def unpackCat (gh : List ℝ) (s : Unpack) (c : Cat n) : Unpack where
  gamma := dset s.gamma c.name (.vec (0 :: slice gh s.ncov (s.ncov + c.k)))
  idx := dset s.idx c.name (s.ncov, s.ncov + c.k)
  ncov := s.ncov + c.k

/-- One turn of the loop over continuous subcolumns, fecontrol.py:703-706.  `gh[n_cov]` out of range
would be an `IndexError`; `getD` is only used in range (`C24_layout`). -/
def unpackCts (gh : List ℝ) (s : Unpack) (c : Cts n) : Unpack where
  gamma := dset s.gamma c.name (.num (gh.getD s.ncov 0))
  idx := dset s.idx c.name (s.ncov, s.ncov + 1)
  ncov := s.ncov + 1

/-- `_unpack_gamma_hat`, fecontrol.py:675-709. -/
def unpack (gh : List ℝ) : Unpack :=
  d.cts.foldl (unpackCts gh) (d.cats.foldl (unpackCat gh) (unpackInit m nw gh))

/-- `gh[name][col]` in one row: `none` is `KeyError` or `IndexError`.  Used for fecontrol.py:753-778. -/
def attachVec (u : Unpack) (name : String) (v : ℕ) : Option ℝ :=
  match dget u.gamma name with
  | some (.vec l) => l[v]?
  | _ => none

/-- `gh[name] * col` in one row.  Used for fecontrol.py:753-778. -/
def attachNum (u : Unpack) (name : String) (x : ℝ) : Option ℝ :=
  match dget u.gamma name with
  | some (.num g) => some (g * x)
  | _ => none

/-- The columns attached by `_attach_fe_estimates` with `attach_fe_estimates='all'` at row `o`, in order:
`psi_hat`, `alpha_hat`, each categorical control, each continuous subcolumn; fecontrol.py:753-778. -/
def attached (gh : List ℝ) (o : Fin n) : Option (List ℝ) := do
  let u := d.unpack gh
  let psi ← attachVec u "psi" (d.j o)
  let alpha ← attachVec u "alpha" (d.i o)
  let cats ← d.cats.mapM fun c => attachVec u c.name (c.val o)
  let cts ← d.cts.mapM fun c => attachNum u c.name (c.val o)
  return psi :: alpha :: (cats ++ cts)

/-- Residuals, fecontrol.py:851. -/
def E (o : Fin n) : ℝ := d.y o - d.multA (d.gammaHat solve) o

/-! ## Variance components of covariates -/

/-- `A[:, A_indices]` of `VarCovariate._get_Q`, Q.py:373-394, and `CovCovariate._get_Ql`, Q.py:462-506: the columns of
the listed covariates, one after the other. -/
def subA (u : Unpack) (names : List String) : Option (List (Fin n → ℝ)) := do
  let l ← names.mapM fun s => do
    let r ← dget u.idx s
    return slice d.A r.1 r.2
  return l.flatten

/-- `sub_Z` of `_Q_mult`, Q.py:408-422, 520-534 and 550-564. -/
def subZ (u : Unpack) (names : List String) (Z : List ℝ) : Option (List ℝ) := do
  let l ← names.mapM fun s => do
    let r ← dget u.idx s
    return slice Z r.1 r.2
  return l.flatten

/-- `_Q_mult(_get_Q(...), Z)` at row `o`, Q.py:373-424. -/
def qMult (u : Unpack) (names : List String) (Z : List ℝ) (o : Fin n) : Option ℝ := do
  let M ← d.subA u names
  let z ← subZ u names Z
  return (List.zipWith (fun c g => c o * g) M z).sum

/-! ## Clustered standard errors -/

/-- The cluster names after replacement, fecontrol.py:789-800 (`None` is the default). -/
def clusterNames : Option (List String) → List String
  | none => ["psi", "alpha"]
  | some cl => cl.map fun c => if c = "i" then "alpha" else if c = "j" then "psi" else c

/-- Entry of `S` at rows `o, b`, fecontrol.py:821-831: the product of the selected columns with itself,
stored entries replaced by 1.  (All entries are 0 or 1, so a stored entry is a nonzero one.) -/
noncomputable def S (u : Unpack) (clusters : List String) (o b : Fin n) : Option ℝ := do
  let M ← d.subA u clusters
  return if (M.map fun c => c o * c b).sum = 0 then 0 else 1

/-- `v` with `v[col_idx] = 1`, fecontrol.py:837-838. -/
def unitVec (k c : ℕ) : List ℝ := (List.replicate k (0 : ℝ)).set c 1

/-- `E * (A @ self._mult_AAinv(v))` at row `o`, fecontrol.py:841. -/
def epsA (col : ℕ) (o : Fin n) : ℝ := d.E solve o * d.multA (solve (unitVec d.nCov col)) o

/-- The number under the square root of the clustered standard error, fecontrol.py:844. -/
noncomputable def clusteredSq (clusters : Option (List String)) (col : String) : Option ℝ := do
  let u := d.unpack (d.gammaHat solve)
  let _ ← d.subA u (clusterNames clusters)
  let r ← dget u.idx col
  return ∑ o, ∑ b, d.epsA solve r.1 o * ((d.S u (clusterNames clusters) o b).getD 0 * d.epsA solve r.1 b)

/-- The clustered standard error; `none` is `KeyError` or NaN (negative radicand). -/
noncomputable def clusteredSe (clusters : Option (List String)) (col : String) : Option ℝ := do
  let q ← d.clusteredSq solve clusters col
  if q < 0 then none else some (Real.sqrt q)

/-- `self.Dp` as the weight argument of the helpers of util.py.  Used for fecontrol.py:859. -/
def DpW : Util.Weight (Fin n) := if d.weighted then .vec d.w else .scalar 1

/-- `self.sigma_2_fe`, fecontrol.py:859. -/
noncomputable def sigma2fe : ℝ := Util.weightedMean (fun o => d.Dp o * d.E solve o ^ 2) d.DpW

/-- The number under the square root of the standard error without clusters, fecontrol.py:802-818. -/
noncomputable def standardSq (col : String) : Option ℝ := do
  let r ← dget (d.unpack (d.gammaHat solve)).idx col
  let x := solve (unitVec d.nCov r.1)
  if d.weighted then
    return (∑ o, d.E solve o ^ 2) / n * ∑ o, d.multA x o ^ 2
  else
    let xc ← x[r.1]?
    return d.sigma2fe solve * xc

end CData

end Pytwoway.FEControl
