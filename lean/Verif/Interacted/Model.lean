import Mathlib.Data.Real.Sqrt
import Mathlib.Data.List.MinMax
import Mathlib.LinearAlgebra.Matrix.NonsingularInverse
import Mathlib.Algebra.BigOperators.Fin

/-! # Model of the interacted estimator: linear moment conditions

`pytwoway/blm_interacted.py`, `InteractedBLMEstimator._fit_a_b_linear`.  Arrays are functions of the
column number; `hcat` is `scipy.sparse.hstack`. -/

namespace Pytwoway.Interacted

open Finset

/-- A Python computation: a value or the name of the exception. -/
abbrev Py := Except String

variable {ni nf : ℕ}

/-- The event-study rows of movers: wages, firms and the weights `w1 * w2` (1 if unweighted),
blm_interacted.py:229-239. -/
structure Data (ni nf : ℕ) where
  Y1 : Fin ni → ℝ
  Y2 : Fin ni → ℝ
  J1 : Fin ni → Fin nf
  J2 : Fin ni → Fin nf
  D : Fin ni → ℝ

/-- The values of the method argument, blm_interacted.py:23-92. -/
inductive Method | liml1 | liml2 | iv | hful | linear | other
  deriving DecidableEq

/-- The values of the instrument argument, blm_interacted.py:23-92. -/
inductive Instrument | firmPairs | workerIds | other
  deriving DecidableEq

/-- Options, blm_interacted.py:23-92. -/
structure Opts where
  method : Method
  normFid : ℕ
  statA : Bool
  statB : Bool
  profiling : Bool
  instrument : Instrument
  coarse : ℝ
  tik : ℝ

/-- The checks of blm_interacted.py:208-221, in order. -/
def validate (o : Opts) : Py Unit :=
  if o.statB && o.profiling then .error "ValueError"
  else if o.statB && (o.method == .linear) then .error "ValueError"
  else if o.profiling && !(o.method == .liml1 || o.method == .hful) then .error "ValueError"
  else if o.instrument == .other then .error "ValueError"
  else if o.method == .other then .error "ValueError"
  else .ok ()

/-- `csc_matrix((np.ones(ni), (range(ni), J)))`, blm_interacted.py:241-242. -/
def JJ (J : Fin ni → Fin nf) (i : Fin ni) (c : ℕ) : ℝ := if c = (J i).val then 1 else 0

/-- `csc_matrix((Y, (range(ni), J)))`, blm_interacted.py:244-245. -/
def YY (Y : Fin ni → ℝ) (J : Fin ni → Fin nf) (i : Fin ni) (c : ℕ) : ℝ :=
  if c = (J i).val then Y i else 0

/-- `M[:, 1:]`.  Used for blm_interacted.py:329-332. -/
def drop1 (M : Fin ni → ℕ → ℝ) (i : Fin ni) (c : ℕ) : ℝ := M i (c + 1)

/-- `hstack([A, B])` with `A` of width `w`.  Used for blm_interacted.py:325-328 and blm_interacted.py:329-332. -/
def hcat (w : ℕ) (A B : Fin ni → ℕ → ℝ) (i : Fin ni) (c : ℕ) : ℝ := if c < w then A i c else B i (c - w)

/-- `X1`, blm_interacted.py:325-328. -/
def X1 (d : Data ni nf) (statB : Bool) : Fin ni → ℕ → ℝ :=
  if statB then fun i c => YY d.Y2 d.J2 i c - YY d.Y1 d.J1 i c
  else hcat nf (fun i c => - YY d.Y1 d.J1 i c) (YY d.Y2 d.J2)

/-- Number of columns of `X1`.  Used for blm_interacted.py:333-334 and blm_interacted.py:343. -/
def w1 (nf : ℕ) (statB : Bool) : ℕ := if statB then nf else nf + nf

/-- `X2`, blm_interacted.py:329-332. -/
def X2 (d : Data ni nf) (statA : Bool) : Fin ni → ℕ → ℝ :=
  if statA then drop1 fun i c => JJ d.J1 i c - JJ d.J2 i c
  else hcat (nf - 1) (drop1 (JJ d.J1)) (fun i c => - JJ d.J2 i c)

/-- Number of columns of `X2`.  Used for blm_interacted.py:343 and blm_interacted.py:253-257. -/
def w2 (nf : ℕ) (statA : Bool) : ℕ := if statA then nf - 1 else (nf - 1) + nf

/-- `XX = hstack([X1, X2])`, blm_interacted.py:333-334 (and 360 before the normalised column is taken
out). -/
def XX (d : Data ni nf) (o : Opts) : Fin ni → ℕ → ℝ := hcat (w1 nf o.statB) (X1 d o.statB) (X2 d o.statA)

/-- Number of columns, blm_interacted.py:343 and blm_interacted.py:339-344. -/
def ncol (nf : ℕ) (o : Opts) : ℕ := w1 nf o.statB + w2 nf o.statA

/-- Estimated effects.  Used for blm_interacted.py:447-463 and blm_interacted.py:260-267. -/
@[ext] structure Effects (nf : ℕ) where
  A1 : Fin nf → ℝ
  A2 : Fin nf → ℝ
  B1 : Fin nf → ℝ
  B2 : Fin nf → ℝ

/-- Extraction of the effects from `beta_hat`, blm_interacted.py:447-463.  (`1 / 0 = inf` in the source;
theorems assume the entries read are not zero.) -/
noncomputable def extract (nf : ℕ) (o : Opts) (β : ℕ → ℝ) : Effects nf :=
  let oneB := o.statB || o.profiling
  let idx := w1 nf oneB
  let B1 : Fin nf → ℝ := fun j => 1 / β j.val
  let B2 : Fin nf → ℝ := if oneB then B1 else fun j => 1 / β (nf + j.val)
  let A1 : Fin nf → ℝ := fun j => (if j.val = 0 then 0 else β (idx + (j.val - 1))) * B1 j
  let A2 : Fin nf → ℝ := if o.statA then fun j => A1 j * (B2 j / B1 j)
    else fun j => β (idx + (nf - 1) + j.val) * B2 j
  ⟨A1, A2, B1, B2⟩

/-! ## Instruments -/

/-- `KK = J1 + nf * J2`, blm_interacted.py:272-279: the instrument column of each row.  Columns without
rows are dropped (lines 304-307), so sums run over the columns that occur. -/
def pairKey (d : Data ni nf) (i : Fin ni) : ℕ := (d.J1 i).val + nf * (d.J2 i).val

/-- Column sums `Z' diag(u) x` of a vector, at instrument column `z`.
Used for blm_interacted.py:339-344 and blm_interacted.py:365-369, 398. -/
def zsum (key : Fin ni → ℕ) (u x : Fin ni → ℝ) (z : ℕ) : ℝ := ∑ i with key i = z, u i * x i

/-- Extend a vector indexed by `Fin n` by zero.  Used for blm_interacted.py:337-354 and blm_interacted.py:356-407. -/
def ext (n : ℕ) (v : Fin n → ℝ) (c : ℕ) : ℝ := if h : c < n then v ⟨c, h⟩ else 0

/-- `np.linalg.eig`: eigenvalues with eigenvectors.  Only real ones are considered: the matrix it is
applied to has no others (it is similar to a symmetric one).  Used for blm_interacted.py:337-354. -/
structure EigVec where
  pairs : {n : ℕ} → Matrix (Fin n) (Fin n) ℝ → List (ℝ × (Fin n → ℝ))

/-- Every listed pair is an eigenpair, and every eigenvalue is listed. -/
def EigVec.Right (e : EigVec) : Prop :=
  ∀ (n : ℕ) (M : Matrix (Fin n) (Fin n) ℝ),
    (∀ p ∈ e.pairs M, p.2 ≠ 0 ∧ M.mulVec p.2 = p.1 • p.2) ∧
    ∀ (r : ℝ) (v : Fin n → ℝ), v ≠ 0 → M.mulVec v = r • v → ∃ p ∈ e.pairs M, p.1 = r

/-- `Wx = XX' Dp XX`, blm_interacted.py:343. -/
def Wx (d : Data ni nf) (o : Opts) : Matrix (Fin (ncol nf o)) (Fin (ncol nf o)) ℝ :=
  fun a b => ∑ i, d.D i * XX d o i a.val * XX d o i b.val

/-- `Wz`, blm_interacted.py:339-344: `(Z' Dp XX)' diag(1 / (diag(Z' Dp Z) + tik)) (Z' Dp XX)`. -/
noncomputable def Wz (d : Data ni nf) (o : Opts) (key : Fin ni → ℕ) :
    Matrix (Fin (ncol nf o)) (Fin (ncol nf o)) ℝ :=
  fun a b => ∑ z ∈ univ.image key,
    zsum key d.D (fun i => XX d o i a.val) z * (1 / (zsum key d.D (fun _ => 1) z + o.tik)) *
      zsum key d.D (fun i => XX d o i b.val) z

open scoped Classical in
/-- `liml_1` without profiling, blm_interacted.py:337-354: the eigenvector of `inv(Wx) @ Wz` with the
smallest eigenvalue, divided by its entry `norm_fid`.  `scipy.sparse.linalg.inv` factorises `Wx` and raises
`RuntimeError` if it is singular. -/
noncomputable def liml1 (e : EigVec) (d : Data ni nf) (o : Opts) (key : Fin ni → ℕ) : Py (ℕ → ℝ) :=
  if (Wx d o).det = 0 then .error "RuntimeError"
  else
    match (e.pairs ((Wx d o)⁻¹ * Wz d o key)).argmin Prod.fst with
    | none => .error "ValueError"
    | some p =>
      if o.normFid < ncol nf o then .ok fun c => ext _ p.2 c / ext _ p.2 o.normFid
      else .error "IndexError"

/-- Columns other than `norm_fid`, blm_interacted.py:358-359. -/
def skip (norm c : ℕ) : ℕ := if c < norm then c else c + 1

/-- `beta_hat = concatenate([beta_hat[:norm], [1], beta_hat[norm:]])`, blm_interacted.py:407. -/
def insert1 (norm : ℕ) (β : ℕ → ℝ) (c : ℕ) : ℝ :=
  if c < norm then β c else if c = norm then 1 else β (c - 1)

/-- `RR` of `iv`, blm_interacted.py:365-369, 398: `Z` is multiplied by `sqrt(Dp)` and `XX` by
nothing, while `ZZtZZinv` uses `Dp`. -/
noncomputable def ivRR (d : Data ni nf) (o : Opts) (key : Fin ni → ℕ) :
    Matrix (Fin (ncol nf o - 1)) (Fin (ncol nf o - 1)) ℝ :=
  fun a b => ∑ z ∈ univ.image key,
    zsum key (fun i => √(d.D i)) (fun i => XX d o i (skip o.normFid a.val)) z *
      (1 / (zsum key d.D (fun _ => 1) z + o.tik)) *
      zsum key (fun i => √(d.D i)) (fun i => XX d o i (skip o.normFid b.val)) z

/-- `RY` of `iv`, blm_interacted.py:399, with `Y = -X1[:, norm_fid]` (line 358). -/
noncomputable def ivRY (d : Data ni nf) (o : Opts) (key : Fin ni → ℕ) (a : Fin (ncol nf o - 1)) : ℝ :=
  ∑ z ∈ univ.image key,
    zsum key (fun i => √(d.D i)) (fun i => XX d o i (skip o.normFid a.val)) z *
      (1 / (zsum key d.D (fun _ => 1) z + o.tik)) *
      zsum key (fun i => √(d.D i)) (fun i => - XX d o i o.normFid) z

/-- `v' G v > 0` for every `v` other than zero.  Used for blm_interacted.py:356-407. -/
def PosDef {n : ℕ} (G : Matrix (Fin n) (Fin n) ℝ) : Prop := ∀ v : Fin n → ℝ, v ≠ 0 → 0 < ∑ a, v a * G.mulVec v a

open scoped Classical in
/-- `solve_qp(G, -a, solver='quadprog')` without constraints: `ValueError` if the symmetric matrix `G` is not positive
definite, otherwise the solution of `G x = a`.  Used for blm_interacted.py:356-407. -/
noncomputable def solveQP {n : ℕ} (G : Matrix (Fin n) (Fin n) ℝ) (a : Fin n → ℝ) : Py (Fin n → ℝ) :=
  if PosDef G then .ok (G⁻¹.mulVec a) else .error "ValueError"

/-- `iv`, blm_interacted.py:356-407.  `norm_fid` must be a column of `X1` (`IndexError` otherwise). -/
noncomputable def iv (d : Data ni nf) (o : Opts) (key : Fin ni → ℕ) : Py (ℕ → ℝ) :=
  if w1 nf o.statB ≤ o.normFid then .error "IndexError"
  else do
    let x ← solveQP (ivRR d o key) (ivRY d o key)
    .ok (insert1 o.normFid (ext _ x))

/-! ## Method `linear` -/

/-- `XX` of `method='linear'`, blm_interacted.py:249-252. -/
def XXlin (d : Data ni nf) (statA : Bool) : Fin ni → ℕ → ℝ := X2 d statA

/-- The normal equations solved by `rss(DpXX.T @ XX).solve(DpXX.T @ YY)`, blm_interacted.py:253-257. -/
def LinNormal (d : Data ni nf) (statA : Bool) (x : ℕ → ℝ) : Prop :=
  ∀ a < w2 nf statA, ∑ b ∈ range (w2 nf statA),
      (∑ i, d.D i * XXlin d statA i a * XXlin d statA i b) * x b =
    ∑ i, d.D i * XXlin d statA i a * (d.Y1 i - d.Y2 i)

/-- blm_interacted.py:260-267. -/
def extractLin (nf : ℕ) (statA : Bool) (x : ℕ → ℝ) : Effects nf :=
  let A1 : Fin nf → ℝ := fun j => if j.val = 0 then 0 else x (j.val - 1)
  ⟨A1, if statA then A1 else fun j => x (nf - 1 + j.val), fun _ => 1, fun _ => 1⟩

/-! ## The method -/

/-- Which instrument column each row has, blm_interacted.py:271-302; `W` are the worker ids, `nw` the
number of distinct ones.  With `coarse` the worker branch reads `WW` before it is assigned.  (The coarse
firm-pair instrument, whose columns overlap, is not modelled.) -/
def keyOf (d : Data ni nf) (o : Opts) (W : Fin ni → ℕ) (nw : ℕ) (coarseIsZero : Bool) :
    Py (Option (Fin ni → ℕ)) :=
  if coarseIsZero then
    match o.instrument with
    | .workerIds => if ∀ i, W i < nw then .ok (some W) else .error "ValueError"
    | _ => .ok (some (pairKey d))
  else
    match o.instrument with
    | .workerIds => .error "UnboundLocalError"
    | _ => .ok none

/-- `_fit_a_b_linear` (blm_interacted.py:194-467) for the modelled options: no profiling, `coarse = 0`, and method `linear`,
`liml_1` or `iv`; other combinations are `NotModelled`.  `rss` is the multigrid solver. -/
noncomputable def fitLinear (e : EigVec) (rss : Data ni nf → Bool → ℕ → ℝ) (d : Data ni nf) (o : Opts)
    (W : Fin ni → ℕ) (nw : ℕ) (coarseIsZero : Bool) : Py (Effects nf) := do
  validate o
  if o.method = .linear then .ok (extractLin nf o.statA (rss d o.statA))
  else
    match ← keyOf d o W nw coarseIsZero with
    | none => .error "NotModelled"
    | some key =>
      if o.profiling then .error "NotModelled"
      else if o.method = .liml1 then do
        let β ← liml1 e d o key
        .ok (extract nf o β)
      else if o.method = .iv then do
        let β ← iv d o key
        .ok (extract nf o β)
      else .error "NotModelled"

end Pytwoway.Interacted
