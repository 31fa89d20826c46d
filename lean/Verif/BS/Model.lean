import Verif.Util.Model
import Mathlib.Analysis.Real.Sqrt

/-! # Model of `pytwoway/borovickovashimer.py`

Floats are exact reals.  The frame has `n` rows; `i`, `j`, `y`, `w` are its columns.  The rows are taken to be sorted
by worker id when the fit starts, as bipartitepandas keeps them, so that `np.split` at the first index of each id
(borovickovashimer.py:20-29) cuts the column into the groups of equal id in the same order as `groupby`; the firm part
sorts by firm first (lines 126, 224).  A group is therefore modelled as the set of rows with the id. -/

namespace Pytwoway.BS

open Pytwoway

variable {n : ℕ} {κ : Type*} [DecidableEq κ]

/-- The rows of one group.  Used for borovickovashimer.py:8-48 and borovickovashimer.py:90-113. -/
def grp (key : Fin n → κ) (k : κ) : Finset (Fin n) := Finset.univ.filter fun o => key o = k

/-- The group ids that occur (`np.unique`, `groupby`).
Used for borovickovashimer.py:90-113 and borovickovashimer.py:93-113, 131-149. -/
def keys (key : Fin n → κ) : Finset κ := Finset.univ.image key

/-- `(np.sum(cart_prod) - np.trace(cart_prod)) / 2` for the Cartesian product of a group's column
(borovickovashimer.py:34-36, 42-44). -/
noncomputable def pairSum (G : Finset (Fin n)) (x : Fin n → ℝ) : ℝ := ((∑ o ∈ G, ∑ o' ∈ G, x o * x o') - ∑ o ∈ G, x o * x o) / 2

/-- `_compute_mean_sq` (borovickovashimer.py:8-48), the entry of one group. -/
noncomputable def meanSq (key : Fin n → κ) (x : Fin n → ℝ) (weights : Option (Fin n → ℝ)) (k : κ) : ℝ :=
  match weights with
  | none => pairSum (grp key k) x / ((((grp key k).card : ℝ) * (((grp key k).card : ℝ) - 1)) / 2)
  | some w => pairSum (grp key k) x / pairSum (grp key k) w

/-- The frame read by `BSEstimator.fit`.  Used for borovickovashimer.py:75-174 and borovickovashimer.py:176-276. -/
structure Frame (n nw nf : ℕ) where
  i : Fin n → Fin nw
  j : Fin n → Fin nf
  y : Fin n → ℝ
  /-- the column `w`, if the frame has one -/
  w : Option (Fin n → ℝ)

/-- The dictionary `res` without the correlation, which is `corr` below. -/
structure Res where
  var_y : ℝ
  mean_y : ℝ
  var_lambda : ℝ
  var_mu : ℝ
  cov : ℝ

/-- `'corr(lambda, mu)'` (borovickovashimer.py:174, 275). -/
noncomputable def Res.corr (r : Res) : ℝ := r.cov / Real.sqrt (r.var_lambda * r.var_mu)

/-- Weighted standard estimator, variance of one side: `weights_sum`, the mean of squares and `sigma_sq`
(borovickovashimer.py:90-113 for workers, 128-149 for firms). -/
noncomputable def sigmaW (key : Fin n → κ) (y w : Fin n → ℝ) (yBar : ℝ) : ℝ :=
  (∑ k ∈ keys key, (∑ o ∈ grp key k, w o) *
      meanSq key (fun o => Real.sqrt (w o) * y o) (some fun o => Real.sqrt (w o)) k)
    / (∑ k ∈ keys key, ∑ o ∈ grp key k, w o) - yBar ^ 2

/-- Unweighted standard estimator, variance of one side (borovickovashimer.py:93-113, 131-149). -/
noncomputable def sigmaU (key : Fin n → κ) (y : Fin n → ℝ) (yBar : ℝ) : ℝ :=
  (∑ k ∈ keys key, ((grp key k).card : ℝ) * meanSq key y none k) / (∑ k ∈ keys key, ((grp key k).card : ℝ)) - yBar ^ 2

/-- Weighted leave-one-out mean (borovickovashimer.py:116-119, 152-155); `wy` is the overwritten column `y`. -/
noncomputable def looW (key : Fin n → κ) (wy w : Fin n → ℝ) (o : Fin n) : ℝ :=
  ((∑ o' ∈ grp key (key o), wy o') - wy o) / ((∑ o' ∈ grp key (key o), w o') - w o)

/-- Unweighted leave-one-out mean (borovickovashimer.py:121-122, 157-158). -/
noncomputable def looU (key : Fin n → κ) (y : Fin n → ℝ) (o : Fin n) : ℝ :=
  ((∑ o' ∈ grp key (key o), y o') - y o) / (((grp key (key o)).card : ℝ) - 1)

variable {nw nf : ℕ}

/-- The standard estimator with weights (borovickovashimer.py:75-174). -/
noncomputable def fitStdW (f : Frame n nw nf) (w : Fin n → ℝ) : Res :=
  let wy := fun o => w o * f.y o
  let yBar := (∑ k ∈ keys f.i, (∑ o ∈ grp f.i k, w o) * ((∑ o ∈ grp f.i k, wy o) / ∑ o ∈ grp f.i k, w o))
    / ∑ k ∈ keys f.i, ∑ o ∈ grp f.i k, w o
  { var_y := Util.weightedVar wy (.vec w) 0
    mean_y := yBar
    var_lambda := sigmaW f.i f.y w yBar
    var_mu := sigmaW f.j f.y w yBar
    cov := (∑ o, w o * (looW f.i wy w o * looW f.j wy w o)) / (∑ o, w o) - yBar ^ 2 }

/-- The standard estimator without weights (borovickovashimer.py:75-174). -/
noncomputable def fitStdU (f : Frame n nw nf) : Res :=
  let yBar := (∑ k ∈ keys f.i, ((grp f.i k).card : ℝ) * ((∑ o ∈ grp f.i k, f.y o) / ((grp f.i k).card : ℝ)))
    / ∑ k ∈ keys f.i, ((grp f.i k).card : ℝ)
  { var_y := Util.weightedVar f.y (.scalar 1) 0
    mean_y := yBar
    var_lambda := sigmaU f.i f.y yBar
    var_mu := sigmaU f.j f.y yBar
    cov := (∑ o, looU f.i f.y o * looU f.j f.y o) / (n : ℝ) - yBar ^ 2 }

/-- One side of the weighted alternative estimator: the mean and the variance (borovickovashimer.py:190-211,
224-247); `wy` is the overwritten column `y`. -/
noncomputable def altW (key : Fin n → κ) (wy w : Fin n → ℝ) : ℝ × ℝ :=
  let ws := fun k => ∑ o ∈ grp key k, w o
  let wm := fun k => (∑ o ∈ grp key k, w o) / ((grp key k).card : ℝ)
  let lam := fun k => (∑ o ∈ grp key k, wy o) / ((grp key k).card : ℝ)
  let yb := (∑ k ∈ keys key, ws k * lam k) / ∑ k ∈ keys key, ws k * wm k
  (yb, (∑ k ∈ keys key, ws k * meanSq key wy none k) / (∑ k ∈ keys key, ws k * (2 * meanSq key w none k)) - yb ^ 2)

/-- One side of the unweighted alternative estimator (borovickovashimer.py:190-211, 227-247). -/
noncomputable def altU (key : Fin n → κ) (y : Fin n → ℝ) : ℝ × ℝ :=
  let ws := fun k => ((grp key k).card : ℝ)
  let lam := fun k => (∑ o ∈ grp key k, y o) / ((grp key k).card : ℝ)
  let yb := (∑ k ∈ keys key, ws k * lam k) / ∑ k ∈ keys key, ws k * 1
  (yb, (∑ k ∈ keys key, ws k * meanSq key y none k) / (∑ k ∈ keys key, ws k * (2 * (1 / 2))) - yb ^ 2)

/-- The alternative estimator with weights (borovickovashimer.py:176-276). -/
noncomputable def fitAltW (f : Frame n nw nf) (w : Fin n → ℝ) : Res :=
  let wy := fun o => w o * f.y o
  let a := altW f.i wy w
  let b := altW f.j wy w
  { var_y := Util.weightedVar wy (.vec w) 0
    mean_y := (a.1 + b.1) / 2
    var_lambda := a.2
    var_mu := b.2
    cov := (∑ o, w o * (looU f.i wy o * looU f.j wy o)) / (∑ o, w o * (looU f.i w o * looU f.j w o)) - a.1 * b.1 }

/-- The alternative estimator without weights (borovickovashimer.py:176-276). -/
noncomputable def fitAltU (f : Frame n nw nf) : Res :=
  let a := altU f.i f.y
  let b := altU f.j f.y
  { var_y := Util.weightedVar f.y (.scalar 1) 0
    mean_y := (a.1 + b.1) / 2
    var_lambda := a.2
    var_mu := b.2
    cov := (∑ o, looU f.i f.y o * looU f.j f.y o) / (n : ℝ) - a.1 * b.1 }

/-- `BSEstimator.fit` (borovickovashimer.py:58-294).  The frame is restored at the end (lines 278-294); this is not
part of the model. -/
noncomputable def fit (f : Frame n nw nf) (noReturns alternative weighted : Bool) : Except String Res :=
  if noReturns = false then .error "ValueError"
  else .ok <|
    match alternative, weighted, f.w with
    | false, true, some w => fitStdW f w
    | false, _, _ => fitStdU f
    | true, true, some w => fitAltW f w
    | true, _, _ => fitAltU f

end Pytwoway.BS
