import Mathlib.Algebra.Order.Floor.Ring
import Verif.Interacted.Linear

/-! # Model of the linear interacted estimator with all its options

`pytwoway/blm_interacted.py`, `_fit_a_b_linear`: `liml_2`, `hful`, profiling and coarse instruments, on top of
`Verif.Interacted.Model`.  A design matrix is a function of the row and the column number, with its number of columns
beside it.  Numbers are exact; eigenvalues are real (for symmetric problems they are; with weights the matrix of
`liml_2` need not have real eigenvalues, a case left out). -/

namespace Pytwoway.Interacted

open Finset

variable {ni nf : ℕ}

/-- The instrument matrix `ZZ`: `K` blocks of indicator columns side by side, of which the columns without rows are
dropped, blm_interacted.py:271-306.  Row `i` has a one in column `key k i` of block `k < K`. -/
structure Instr (ni : ℕ) where
  K : ℕ
  key : ℕ → Fin ni → ℕ

/-- The columns that are kept.  Used for blm_interacted.py:337-354. -/
def Instr.cols (z : Instr ni) : Finset (ℕ × ℕ) := (range z.K ×ˢ univ).image fun p => (p.1, z.key p.1 p.2)

/-- `Z' diag(u) x` at a column.  Used for blm_interacted.py:344, 367, 414. -/
def Instr.sum (z : Instr ni) (u x : Fin ni → ℝ) (c : ℕ × ℕ) : ℝ := zsum (z.key c.1) u x c.2

/-- `1 / (diag_of_sp_prod(DpZZ.T, ZZ) + tik)`, blm_interacted.py:344, 367, 414. -/
noncomputable def Instr.inv (z : Instr ni) (D : Fin ni → ℝ) (tik : ℝ) (c : ℕ × ℕ) : ℝ :=
  1 / (z.sum D (fun _ => 1) c + tik)

/-- One block, from one key.  Used for blm_interacted.py:271-306. -/
def Instr.one (key : Fin ni → ℕ) : Instr ni := ⟨1, fun _ => key⟩

/-- Coarse firm pairs, blm_interacted.py:283-299: `J1 + nf * int(J2 / coarse)` and `J2 + nf * int(J1 / coarse)`. -/
noncomputable def Instr.coarse (d : Data ni nf) (coarse : ℝ) : Instr ni where
  K := 2
  key k i := if k = 0 then (d.J1 i).val + nf * ⌊((d.J2 i).val : ℝ) / coarse⌋₊
    else (d.J2 i).val + nf * ⌊((d.J1 i).val : ℝ) / coarse⌋₊

/-- The instrument, blm_interacted.py:271-306; `W` are the worker ids and `nw` the number of movers.  The coarse worker
branch reads `WW` before it is assigned. -/
noncomputable def instrOf (d : Data ni nf) (o : Opts) (W : Fin ni → ℕ) (nw : ℕ) (coarseIsZero : Bool) : Py (Instr ni) :=
  if coarseIsZero then
    match o.instrument with
    | .workerIds => if ∀ i, W i < nw then .ok (.one W) else .error "ValueError"
    | _ => .ok (.one (pairKey d))
  else
    match o.instrument with
    | .workerIds => .error "UnboundLocalError"
    | _ => .ok (.coarse d o.coarse)

/-! ## Matrices -/

/-- `X' diag(u) X'` for two designs.  Used for blm_interacted.py:337-354 and blm_interacted.py:378-383. -/
def cross (n m : ℕ) (u : Fin ni → ℝ) (A B : Fin ni → ℕ → ℝ) : Matrix (Fin n) (Fin m) ℝ :=
  fun a b => ∑ i, u i * A i a.val * B i b.val

/-- `A' diag(u) Z diag(1 / (Z' D Z + tik)) Z' diag(v) B`.
Used for blm_interacted.py:337-354 and blm_interacted.py:384. -/
noncomputable def crossZ (n m : ℕ) (z : Instr ni) (D : Fin ni → ℝ) (tik : ℝ) (u v : Fin ni → ℝ) (A B : Fin ni → ℕ → ℝ) :
    Matrix (Fin n) (Fin m) ℝ :=
  fun a b => ∑ c ∈ z.cols, z.sum u (fun i => A i a.val) c * z.inv D tik c * z.sum v (fun i => B i b.val) c

/-- `evals, evecs = np.linalg.eig(M)` and `np.argmin(evals)` or `np.min(evals)` (which raise for no columns).
Used for blm_interacted.py:337-354 and blm_interacted.py:356-407. -/
noncomputable def smallest (e : EigVec) {n : ℕ} (M : Matrix (Fin n) (Fin n) ℝ) : Py (ℝ × (Fin n → ℝ)) :=
  match (e.pairs M).argmin Prod.fst with
  | none => .error "ValueError"
  | some p => .ok p

open scoped Classical in
/-- `inv(M)`: `RuntimeError` if `M` is singular.  Used for blm_interacted.py:337-354 and blm_interacted.py:356-407. -/
noncomputable def invOf {n : ℕ} (M : Matrix (Fin n) (Fin n) ℝ) : Py (Matrix (Fin n) (Fin n) ℝ) :=
  if M.det = 0 then .error "RuntimeError" else .ok M⁻¹

/-- `beta_hat[norm_fid]` for `n` coefficients.  Used for blm_interacted.py:337-354. -/
def pickNorm (n norm : ℕ) (v : Fin n → ℝ) : Py ℝ := if h : norm < n then .ok (v ⟨norm, h⟩) else .error "IndexError"

/-- `liml_1` on a design with `n` columns, blm_interacted.py:337-354. -/
noncomputable def limlOne (e : EigVec) (n : ℕ) (X : Fin ni → ℕ → ℝ) (D : Fin ni → ℝ) (z : Instr ni) (tik : ℝ) (norm : ℕ) :
    Py (ℕ → ℝ) := do
  let wx ← invOf (cross n n D X X)
  let p ← smallest e (wx * crossZ n n z D tik D D X X)
  let s ← pickNorm n norm p.2
  .ok fun c => ext n p.2 c / s

/-- `R = hstack([Y, X1])` with `Y = -X1[:, norm_fid]` and that column taken out of `X1`, blm_interacted.py:358-359, 375. -/
def RR1 (d : Data ni nf) (o : Opts) (i : Fin ni) (c : ℕ) : ℝ :=
  if c = 0 then - X1 d o.statB i o.normFid else X1 d o.statB i (skip o.normFid (c - 1))

/-- `XX = hstack([X1, X2])` without the column `norm_fid`, blm_interacted.py:359-362. -/
def XXn (d : Data ni nf) (o : Opts) (i : Fin ni) (c : ℕ) : ℝ := XX d o i (skip o.normFid c)

/-- `Wx` of `liml_2`, blm_interacted.py:378-383: `R' D R - (R' X2) inv(X2' D X2) (X2' D D R)`. -/
noncomputable def wx2 (d : Data ni nf) (o : Opts) (inv2 : Matrix (Fin (w2 nf o.statA)) (Fin (w2 nf o.statA)) ℝ) :
    Matrix (Fin (w1 nf o.statB)) (Fin (w1 nf o.statB)) ℝ :=
  cross (w1 nf o.statB) (w1 nf o.statB) d.D (RR1 d o) (RR1 d o) -
    cross (w1 nf o.statB) (w2 nf o.statA) (fun _ => 1) (RR1 d o) (X2 d o.statA) * inv2 *
      cross (w2 nf o.statA) (w1 nf o.statB) (fun i => d.D i * d.D i) (X2 d o.statA) (RR1 d o)

/-- `Wz` of `liml_2`, blm_interacted.py:384: `R' D R - (R' sqrt(D) Z) inv (Z' sqrt(D) D R)`. -/
noncomputable def wz2 (d : Data ni nf) (o : Opts) (z : Instr ni) :
    Matrix (Fin (w1 nf o.statB)) (Fin (w1 nf o.statB)) ℝ :=
  cross _ _ d.D (RR1 d o) (RR1 d o) -
    crossZ _ _ z d.D o.tik (fun i => √(d.D i)) (fun i => √(d.D i) * d.D i) (RR1 d o) (RR1 d o)

/-- `RR` of `liml_2`, blm_interacted.py:393: `(1 - lambda) XX' XX + lambda XX' Pz XX`. -/
noncomputable def rr2 (d : Data ni nf) (o : Opts) (z : Instr ni) (lam : ℝ) :
    Matrix (Fin (ncol nf o - 1)) (Fin (ncol nf o - 1)) ℝ :=
  (1 - lam) • cross _ _ (fun _ => 1) (XXn d o) (XXn d o) +
    lam • crossZ _ _ z d.D o.tik (fun i => √(d.D i)) (fun i => √(d.D i)) (XXn d o) (XXn d o)

/-- `RY` of `liml_2`, blm_interacted.py:394; `Y` as a design of one column. -/
noncomputable def ry2 (d : Data ni nf) (o : Opts) (z : Instr ni) (lam : ℝ) (a : Fin (ncol nf o - 1)) : ℝ :=
  (1 - lam) * cross _ 1 (fun _ => 1) (XXn d o) (RR1 d o) a 0 +
    lam * crossZ _ 1 z d.D o.tik (fun i => √(d.D i)) (fun i => √(d.D i)) (XXn d o) (RR1 d o) a 0

/-- `liml_2` (`iv` if `lam` is given as one), blm_interacted.py:356-407. -/
noncomputable def limlTwo (e : EigVec) (d : Data ni nf) (o : Opts) (z : Instr ni) : Py (ℕ → ℝ) :=
  if w1 nf o.statB ≤ o.normFid then .error "IndexError"
  else do
    let inv2 ← invOf (cross (w2 nf o.statA) (w2 nf o.statA) d.D (X2 d o.statA) (X2 d o.statA))
    let wz ← invOf (wz2 d o z)
    let p ← smallest e (wx2 d o inv2 * wz)
    let x ← solveQP (rr2 d o z p.1) (ry2 d o z p.1)
    .ok (insert1 o.normFid (ext _ x))

/-- `iv` with any instrument, blm_interacted.py:356-370, 395-407. -/
noncomputable def ivAny (d : Data ni nf) (o : Opts) (z : Instr ni) : Py (ℕ → ℝ) :=
  if w1 nf o.statB ≤ o.normFid then .error "IndexError"
  else do
    let x ← solveQP
      (crossZ _ _ z d.D o.tik (fun i => √(d.D i)) (fun i => √(d.D i)) (XXn d o) (XXn d o))
      (fun a : Fin (ncol nf o - 1) =>
        crossZ _ 1 z d.D o.tik (fun i => √(d.D i)) (fun i => √(d.D i)) (XXn d o) (RR1 d o) a 0)
    .ok (insert1 o.normFid (ext _ x))

/-! ## `hful` -/

/-- `Pz_diag`, blm_interacted.py:417: the diagonal of `sqrt(D) Z inv Z' sqrt(D)`. -/
noncomputable def pzDiag (z : Instr ni) (D : Fin ni → ℝ) (tik : ℝ) (i : Fin ni) : ℝ :=
  ∑ k ∈ range z.K, √(D i) * z.inv D tik (k, z.key k i) * √(D i)

/-- `Wz` of `hful`, blm_interacted.py:419. -/
noncomputable def wzH (n : ℕ) (X : Fin ni → ℕ → ℝ) (D : Fin ni → ℝ) (z : Instr ni) (tik : ℝ) : Matrix (Fin n) (Fin n) ℝ :=
  crossZ n n z D tik (fun i => √(D i)) (fun i => √(D i)) X X - cross n n (pzDiag z D tik) X X

/-- `lambda2`, blm_interacted.py:427. -/
noncomputable def lambda2 (lam C : ℝ) (ni : ℕ) : ℝ := (lam - (1 - lam) * (C / ni)) / (1 - (1 - lam) * (C / ni))

/-- `DxSP(Dp, WX)`, blm_interacted.py:436; util.py:107-130: row `r` of the matrix `WX`, which has a row for each
coefficient, is multiplied by the weight of row `r` of the data; `IndexError` if the data has fewer rows.  (That needs a
stored entry in the last rows of `WX`.)  Without weights `Dp` is the number one. -/
def rowWeights (n : ℕ) (weighted : Bool) (D : Fin ni → ℝ) : Py (Fin n → ℝ) :=
  if weighted then (if h : n ≤ ni then .ok fun r => D (Fin.castLE h r) else .error "IndexError") else .ok fun _ => 1

/-- The columns of `WW` other than `norm`; `WX`, blm_interacted.py:433. -/
def dropCol {n : ℕ} (norm : ℕ) (W : Matrix (Fin n) (Fin n) ℝ) (r : Fin n) (c : ℕ) : ℝ :=
  if h : skip norm c < n then W r ⟨skip norm c, h⟩ else 0

/-- `XX` of the last regression of `hful`, blm_interacted.py:437. -/
def hfulG {n : ℕ} (norm : ℕ) (wt : Fin n → ℝ) (W : Matrix (Fin n) (Fin n) ℝ) : Matrix (Fin (n - 1)) (Fin (n - 1)) ℝ :=
  fun a b => ∑ r, wt r * dropCol norm W r a.val * dropCol norm W r b.val

/-- `XY`, blm_interacted.py:432, 438, with `WY = -WW[:, norm_fid]`. -/
def hfulA {n : ℕ} (norm : Fin n) (wt : Fin n → ℝ) (W : Matrix (Fin n) (Fin n) ℝ) (a : Fin (n - 1)) : ℝ :=
  ∑ r, wt r * dropCol norm.val W r a.val * - W r norm

/-- The last regression, blm_interacted.py:430-440. -/
noncomputable def hfulSolve {n : ℕ} (norm : ℕ) (weighted : Bool) (D : Fin ni → ℝ) (W : Matrix (Fin n) (Fin n) ℝ) :
    Py (ℕ → ℝ) :=
  if h : norm < n then do
    let wt ← rowWeights n weighted D
    let x ← solveQP (hfulG norm wt W) (hfulA ⟨norm, h⟩ wt W)
    .ok (insert1 norm (ext _ x))
  else .error "IndexError"

/-- `hful` on a design with `n` columns, blm_interacted.py:409-440. -/
noncomputable def hful (e : EigVec) (n : ℕ) (X : Fin ni → ℕ → ℝ) (D : Fin ni → ℝ) (weighted : Bool) (z : Instr ni)
    (tik C : ℝ) (norm : ℕ) : Py (ℕ → ℝ) := do
  let wx ← invOf (cross n n (fun _ => 1) X X)
  let p ← smallest e (wx * wzH n X D z tik)
  hfulSolve norm weighted D (wx * wzH n X D z tik - lambda2 p.1 C ni • (1 : Matrix (Fin n) (Fin n) ℝ))

/-! ## Profiling -/

/-- Partialling out: `X - W inv(W' D W) (W' D X)`, blm_interacted.py:310-322, with `m` columns in `W`. -/
noncomputable def partialled (m : ℕ) (W : Fin ni → ℕ → ℝ) (D : Fin ni → ℝ) (inv : Matrix (Fin m) (Fin m) ℝ)
    (X : Fin ni → ℕ → ℝ) (i : Fin ni) (c : ℕ) : ℝ :=
  X i c - ∑ a : Fin m, W i a.val * ∑ b, inv a b * ∑ i', D i' * W i' b.val * X i' c

/-- What is partialled out: `[-YY1, JJ1]`, or `[-YY1, JJ1[:, 1:], -JJ2]`, blm_interacted.py:313, 319. -/
def profOut (d : Data ni nf) (statA : Bool) : Fin ni → ℕ → ℝ :=
  hcat nf (fun i c => - YY d.Y1 d.J1 i c) (if statA then JJ d.J1 else X2 d false)

/-- Its number of columns.  Used for blm_interacted.py:310-322. -/
def wOut (nf : ℕ) (statA : Bool) : ℕ := nf + if statA then nf else w2 nf false

/-- What is kept: `[YY2, -JJ2[:, 1:]]`, or `YY2`, blm_interacted.py:315, 322. -/
def profIn (d : Data ni nf) (statA : Bool) : Fin ni → ℕ → ℝ :=
  if statA then hcat nf (YY d.Y2 d.J2) (fun i c => - drop1 (JJ d.J2) i c) else YY d.Y2 d.J2

/-- Its number of columns.  Used for blm_interacted.py:308-450. -/
def wIn (nf : ℕ) (statA : Bool) : ℕ := if statA then nf + (nf - 1) else nf

/-- The profiled design, blm_interacted.py:310-322. -/
noncomputable def profiled (d : Data ni nf) (statA : Bool) : Py (Fin ni → ℕ → ℝ) := do
  let inv ← invOf (cross (wOut nf statA) (wOut nf statA) d.D (profOut d statA) (profOut d statA))
  .ok (partialled (wOut nf statA) (profOut d statA) d.D inv (profIn d statA))

/-- The outcome of the regression for the intercepts, `(YY1 - YY2) @ beta_hat`, blm_interacted.py:447. -/
def intOutcome (d : Data ni nf) (β : ℕ → ℝ) (i : Fin ni) : ℝ :=
  ∑ c ∈ range nf, (YY d.Y1 d.J1 i c - YY d.Y2 d.J2 i c) * β c

/-- `concatenate([beta_hat, ints])`, blm_interacted.py:443-450; `rss` solves the least squares problem of an outcome on
`hstack([JJ1[:, 1:], -JJ2])` with weights `Dp`. -/
def withInts (rss : Data ni nf → (Fin ni → ℝ) → ℕ → ℝ) (d : Data ni nf) (β : ℕ → ℝ) (c : ℕ) : ℝ :=
  if c < nf then β c else rss d (intOutcome d β) (c - nf)

/-! ## The method -/

/-- `liml_1` or `hful` on a design.  Used for blm_interacted.py:308-450. -/
noncomputable def onDesign (e : EigVec) (n : ℕ) (X : Fin ni → ℕ → ℝ) (d : Data ni nf) (o : Opts) (weighted : Bool) (C : ℝ)
    (z : Instr ni) : Py (ℕ → ℝ) :=
  if o.method = .liml1 then limlOne e n X d.D z o.tik o.normFid
  else hful e n X d.D weighted z o.tik C o.normFid

/-- The coefficients by each method, blm_interacted.py:308-450. -/
noncomputable def coefficients (e : EigVec) (rss : Data ni nf → (Fin ni → ℝ) → ℕ → ℝ) (d : Data ni nf) (o : Opts)
    (weighted : Bool) (C : ℝ) (z : Instr ni) : Py (ℕ → ℝ) :=
  if o.profiling then do
    let X ← profiled d o.statA
    let β ← onDesign e (wIn nf o.statA) X d o weighted C z
    .ok (if o.statA then β else withInts rss d β)
  else if o.method = .liml2 then limlTwo e d o z
  else if o.method = .iv then ivAny d o z
  else onDesign e (ncol nf o) (XX d o) d o weighted C z

/-- `_fit_a_b_linear`, blm_interacted.py:194-463. -/
noncomputable def fitAll (e : EigVec) (rss : Data ni nf → (Fin ni → ℝ) → ℕ → ℝ) (d : Data ni nf) (o : Opts)
    (weighted : Bool) (C : ℝ) (W : Fin ni → ℕ) (nw : ℕ) (coarseIsZero : Bool) : Py (Effects nf) := do
  validate o
  if o.method = .linear then .ok (extractLin nf o.statA (rss d fun i => d.Y1 i - d.Y2 i))
  else
    let z ← instrOf d o W nw coarseIsZero
    let β ← coefficients e rss d o weighted C z
    .ok (extract nf o β)

end Pytwoway.Interacted
