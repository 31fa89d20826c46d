import Verif.Util.Model
import Mathlib.LinearAlgebra.Matrix.NonsingularInverse
import Mathlib.Data.Matrix.ColumnRowPartitioned

/-!
# Model of `pytwoway/fe.py` (`FEEstimator`) and `pytwoway/Q/Q.py`

Floats are exact reals, sparse and dense matrices are Mathlib matrices (the sparse products `DxSP`,
`SPxD`, `DxM`, `MxD`, `diag_of_prod` are modelled and shown to be the products they stand for in
`Verif/Util`).  The iterative linear solvers (`amg`, `bicg`, ...) are an oracle
`solve : (Fin m → ℝ) → (Fin m → ℝ)`; theorems say what is assumed about it.  Logging, progress bars,
timing and file output are not modelled.
-/

namespace Pytwoway.FE

open Matrix Pytwoway.Util
open scoped BigOperators

/-- The data `FEEstimator` reads: columns `j`, `i`, `y`, `w` (fe.py:444-456, 491), `n` rows, `m + 1`
firms, `nw` workers, and `self.weighted` (fe.py:200).  The row index is `0..n-1`
(`self.adata.index`). -/
structure Panel (n m nw : ℕ) where
  j : Fin n → Fin (m + 1)
  i : Fin n → Fin nw
  y : Fin n → ℝ
  weighted : Bool
  w : Fin n → ℝ

variable {n m nw : ℕ}

namespace Panel

variable (d : Panel n m nw)

/-- `self.Dp`, fe.py:455 / 468, as a vector (`Dp = 1` multiplies every row by 1). -/
def Dp (o : Fin n) : ℝ := if d.weighted then d.w o else 1

/-- `self.Dp` as the weight argument of the helpers of util.py.  Used for fe.py:635 and Q/Q.py:34-47. -/
def DpW : Weight (Fin n) := if d.weighted then .vec d.w else .scalar 1

/-- Firm indicators before normalisation, fe.py:444. -/
def Jfull : Matrix (Fin n) (Fin (m + 1)) ℝ := of fun o k => if d.j o = k then 1 else 0

/-- `J = J[:, 1:]`, fe.py:447: the first firm is normalised to 0. -/
def J : Matrix (Fin n) (Fin m) ℝ := of fun o k => d.Jfull o k.succ

/-- Worker indicators, fe.py:450. -/
def W : Matrix (Fin n) (Fin nw) ℝ := of fun o i => if d.i o = i then 1 else 0

/-- `DpJ`, fe.py:458 / 471. -/
def DpJ : Matrix (Fin n) (Fin m) ℝ := of fun o k => d.Dp o * d.J o k
/-- `DpW`, fe.py:459 / 472. -/
def DpWm : Matrix (Fin n) (Fin nw) ℝ := of fun o i => d.Dp o * d.W o i
/-- `sqrt_DpJ`, fe.py:463 / 475. -/
noncomputable def sqrtDpJ : Matrix (Fin n) (Fin m) ℝ := of fun o k => Real.sqrt (d.Dp o) * d.J o k
/-- `sqrt_DpW`, fe.py:464 / 476. -/
noncomputable def sqrtDpW : Matrix (Fin n) (Fin nw) ℝ := of fun o i => Real.sqrt (d.Dp o) * d.W o i

/-- `Dwinv = 1 / diag_of_sp_prod(W.T, DpW)`, fe.py:479. -/
noncomputable def Dwinv (i : Fin nw) : ℝ := 1 / diagOfProd n n d.Wᵀ d.DpWm i

/-- `WtDpJ = W.T @ DpJ`, fe.py:482. -/
def WtDpJ : Matrix (Fin nw) (Fin m) ℝ := d.Wᵀ * d.DpJ

/-- `DwinvWtDpJ = DxSP(Dwinv, WtDpJ)`, fe.py:483. -/
noncomputable def DwinvWtDpJ : Matrix (Fin nw) (Fin m) ℝ := of fun i k => d.Dwinv i * d.WtDpJ i k

/-- `Minv = J.T @ DpJ - WtDpJ.T @ DwinvWtDpJ`, fe.py:486. -/
noncomputable def Minv : Matrix (Fin m) (Fin m) ℝ := d.Jᵀ * d.DpJ - d.WtDpJᵀ * d.DwinvWtDpJ

/-- The `weighted` / `Dp0` / `Dp2` options of fe.py:1297-1338: `False`, `True` or `'sqrt'`. -/
inductive WOpt | no | yes | sqrt

/-- `_mult_A`, fe.py:1297-1317. -/
noncomputable def multA (psi : Fin m → ℝ) (alpha : Fin nw → ℝ) : WOpt → Fin n → ℝ
  | .sqrt => d.sqrtDpJ *ᵥ psi + d.sqrtDpW *ᵥ alpha
  | .yes => d.DpJ *ᵥ psi + d.DpWm *ᵥ alpha
  | .no => d.J *ᵥ psi + d.W *ᵥ alpha

/-- `_mult_Atranspose`, fe.py:1319-1338. -/
noncomputable def multAT (v : Fin n → ℝ) : WOpt → (Fin m → ℝ) × (Fin nw → ℝ)
  | .sqrt => (d.sqrtDpJᵀ *ᵥ v, d.sqrtDpWᵀ *ᵥ v)
  | .yes => (d.DpJᵀ *ᵥ v, d.DpWmᵀ *ᵥ v)
  | .no => (d.Jᵀ *ᵥ v, d.Wᵀ *ᵥ v)

variable (solve : (Fin m → ℝ) → (Fin m → ℝ))

/-- `_mult_AAinv`, fe.py:1340-1371.  `solve b` is what the configured linear solver returns for the
system `Minv @ x = b`. -/
noncomputable def multAAinv (pa : (Fin m → ℝ) × (Fin nw → ℝ)) : (Fin m → ℝ) × (Fin nw → ℝ) :=
  let psiOut := solve (pa.1 - d.DwinvWtDpJᵀ *ᵥ pa.2)
  (psiOut, fun i => d.Dwinv i * pa.2 i - (d.DwinvWtDpJ *ᵥ psiOut) i)

/-- `_solve`, fe.py:1373-1389. -/
noncomputable def solveLS (Y : Fin n → ℝ) (Dp2 : WOpt) : (Fin m → ℝ) × (Fin nw → ℝ) :=
  d.multAAinv solve (d.multAT Y Dp2)

/-- `_proj`, fe.py:1391-1403. -/
noncomputable def proj (Y : Fin n → ℝ) (Dp0 Dp2 : WOpt) : Fin n → ℝ :=
  let pa := d.solveLS solve Y Dp2
  d.multA pa.1 pa.2 Dp0

/-- `self.psi_hat, self.alpha_hat`, `_estimate_ols`, fe.py:593. -/
noncomputable def ols : (Fin m → ℝ) × (Fin nw → ℝ) := d.solveLS solve d.y .yes

/-- `np.append(0, self.psi_hat)`, fe.py:613. -/
def withZero (psi : Fin m → ℝ) : Fin (m + 1) → ℝ := Fin.cons 0 psi

/-- The attached column `psi_hat`, fe.py:617. -/
noncomputable def psiCol (o : Fin n) : ℝ := withZero (d.ols solve).1 (d.j o)
/-- The attached column `alpha_hat`, fe.py:618. -/
noncomputable def alphaCol (o : Fin n) : ℝ := (d.ols solve).2 (d.i o)

/-- Residuals `self.E`, fe.py:627. -/
noncomputable def E : Fin n → ℝ :=
  fun o => d.y o - d.multA (d.ols solve).1 (d.ols solve).2 .no o

/-- `self.sigma_2_fe = weighted_mean(Dp * E**2, Dp)`, fe.py:635. -/
noncomputable def sigma2fe : ℝ := weightedMean (fun o => d.Dp o * d.E solve o ^ 2) d.DpW

/-! ## Blocks of the inverse -/

/-- The blocks `AA_inv_A, AA_inv_B, AA_inv_C, AA_inv_D` (fe.py:1277-1280). -/
structure Blocks (m nw : ℕ) where
  A : Matrix (Fin m) (Fin m) ℝ
  B : Matrix (Fin m) (Fin nw) ℝ
  C : Matrix (Fin nw) (Fin m) ℝ
  D : Matrix (Fin nw) (Fin nw) ℝ

/-- `_construct_AAinv_components_full`, fe.py:1266-1280.  In line 1280 `Dwinv` is a one-dimensional
array, so `Dwinv + (matrix)` adds `Dwinv[c]` to every entry of column `c`, not just to the
diagonal. -/
noncomputable def blocksFull : Blocks m nw :=
  let M := (d.Minv)⁻¹
  let B := -(M * d.Jᵀ * of fun o i => d.DpWm o i * d.Dwinv i)
  let C := Bᵀ
  { A := M, B := B, C := C, D := of fun r c => d.Dwinv c + (C * d.Minv * B) r c }

/-- `_compute_Pii` for row `o`, branch `AA_inv_A is not None` (fe.py:1417-1420, 1445), with
`DpJ_i`, `DpW_i` the rows of `sqrt_DpJ`, `sqrt_DpW` (fe.py:1504-1505). -/
noncomputable def computePii (b : Blocks m nw) (o : Fin n) : ℝ :=
  d.sqrtDpJ o ⬝ᵥ (b.A *ᵥ d.sqrtDpJ o) + d.sqrtDpJ o ⬝ᵥ (b.B *ᵥ d.sqrtDpW o)
    + d.sqrtDpW o ⬝ᵥ (b.C *ᵥ d.sqrtDpJ o) + d.sqrtDpW o ⬝ᵥ (b.D *ᵥ d.sqrtDpW o)

/-- `_compute_Pii` for row `o`, branch `AA_inv_A is None` (fe.py:1421-1445) with the blocks of
`_construct_AAinv_components_partial` (fe.py:1282-1295).  `self.Dwinv @ DpW_i` is a number, added to
every entry of the vector `AA_inv_C @ M_B`. -/
noncomputable def computePiiIter (o : Fin n) : ℝ :=
  let B : Matrix (Fin m) (Fin nw) ℝ := -(d.Jᵀ * of fun o i => d.DpWm o i * d.Dwinv i)
  let C := Bᵀ
  let MDpJ := solve (d.sqrtDpJ o)
  let MB := solve (B *ᵥ d.sqrtDpW o)
  d.sqrtDpJ o ⬝ᵥ MDpJ + d.sqrtDpJ o ⬝ᵥ MB + d.sqrtDpW o ⬝ᵥ (C *ᵥ MDpJ)
    + d.sqrtDpW o ⬝ᵥ (fun i => (d.Dwinv ⬝ᵥ d.sqrtDpW o) + (C *ᵥ MB) i)

/-- `get_worker_m()` (fe.py:427; bipartitepandas): whether the worker of row `o` is a mover, i.e. is
seen at two different firms. -/
def workerM (o : Fin n) : Prop := ∃ o', d.i o' = d.i o ∧ d.j o' ≠ d.j o

instance (o : Fin n) : Decidable (d.workerM o) := by unfold workerM; infer_instance

/-- The array `Pii` of `_estimate_exact_leverages`, fe.py:1492-1508: with weights only movers' rows
are filled. -/
noncomputable def exactPii (o : Fin n) : ℝ :=
  if d.weighted then (if d.workerM o then d.computePii d.blocksFull o else 0)
  else d.computePii d.blocksFull o

/-! ## Q classes -/

/-- What `_get_Q` / `_get_Ql` / `_get_Qr` return (Q/Q.py): a matrix, weights, and whether it applies to
`psi`, `alpha` or the stacked vector (`'gamma'`).  Used for Q/Q.py:49-61, 95-107, 141-153, 202-228 and Q/Q.py:34-47. -/
inductive QHalf (r m nw : ℕ)
  | psi (M : Matrix (Fin r) (Fin m) ℝ) (w : Weight (Fin r))
  | alpha (M : Matrix (Fin r) (Fin nw) ℝ) (w : Weight (Fin r))
  | gamma (M : Matrix (Fin r) (Fin m ⊕ Fin nw) ℝ) (w : Weight (Fin r))

/-- The weights of a half.  Used for fe.py:685 and fe.py:695. -/
def QHalf.wt {r m nw : ℕ} : QHalf r m nw → Weight (Fin r)
  | .psi _ w => w
  | .alpha _ w => w
  | .gamma _ w => w

/-- `_Q_mult` / `_Ql_mult` / `_Qr_mult` (Q/Q.py:49-61, 95-107, 141-153, 202-228). -/
noncomputable def QHalf.mult {r m nw : ℕ} :
    QHalf r m nw → (Fin m → ℝ) → (Fin nw → ℝ) → (Fin r → ℝ)
  | .psi M _, p, _ => M *ᵥ p
  | .alpha M _, _, a => M *ᵥ a
  | .gamma M _, p, a => M *ᵥ Sum.elim p a

/-- `VarPsi._get_Q`, Q/Q.py:34-47, and `CovPsiAlpha._get_Ql`, Q/Q.py:172-185. -/
def qPsi : QHalf n m nw := .psi d.J d.DpW
/-- `VarAlpha._get_Q`, Q/Q.py:80-93, and `CovPsiAlpha._get_Qr`, Q/Q.py:187-200. -/
def qAlpha : QHalf n m nw := .alpha d.W d.DpW
/-- `VarPsiPlusAlpha._get_Q`, Q/Q.py:126-139. -/
def qGamma : QHalf n m nw := .gamma (Matrix.fromCols d.J d.W) d.DpW

/-- Plug-in variance, fe.py:685. -/
noncomputable def varFe {r : ℕ} (q : QHalf r m nw) : ℝ :=
  weightedVar (q.mult (d.ols solve).1 (d.ols solve).2) q.wt 0
/-- Plug-in covariance, fe.py:695. -/
noncomputable def covFe {r : ℕ} (ql qr : QHalf r m nw) : ℝ :=
  weightedCov (ql.mult (d.ols solve).1 (d.ols solve).2) (qr.mult (d.ols solve).1 (d.ols solve).2)
    ql.wt qr.wt 0

/-! ## Homoskedastic correction -/

/-- `tr_sigma_ho_all` of `_estimate_exact_trace_sigma_2`, fe.py:714. -/
noncomputable def exactTraceSigma2 (b : Blocks m nw) : ℝ :=
  ∑ o, (diagOfProd m m d.J (d.J * b.A + d.W * b.C)ᵀ o + diagOfProd nw nw d.W (d.J * b.B + d.W * b.D)ᵀ o)

/-- `A @ (A'D_pA)^{-1} @ A' @ v`, fe.py:745-747 (and 768-773): `_solve` and `_mult_A` without weights. -/
noncomputable def sigma2Apply (v : Fin n → ℝ) : Fin n → ℝ :=
  let pa := d.solveLS solve v .no
  d.multA pa.1 pa.2 .no

/-- One draw of the `'hutchinson'` trace for `sigma^2`, fe.py:750. -/
noncomputable def drawTraceSigma2 (z : Fin n → ℝ) : ℝ := z ⬝ᵥ d.sigma2Apply solve z

/-- The `'hutch++'` trace for `sigma^2`, fe.py:757-779, with `Q` the orthonormal factor returned by
`np.linalg.qr` (an oracle) and `Z` the second set of probes.  The reduced factor has `min(nn, n_draws)`
columns, so with more draws than observations `Q[:, r]` is out of range: `none`. -/
noncomputable def hutchPP {R : ℕ} (Q Z : Matrix (Fin n) (Fin R) ℝ) : Option ℝ :=
  if R ≤ n then
    let G := Z - Q * (Qᵀ * Z)
    let AQ : Matrix (Fin n) (Fin R) ℝ := of fun o r => d.sigma2Apply solve (fun b => Q b r) o
    let AG : Matrix (Fin n) (Fin R) ℝ := of fun o r => d.sigma2Apply solve (fun b => G b r) o
    some ((∑ r, diagOfProd n n Qᵀ AQ r) + (1 / (R : ℝ)) * ∑ r, diagOfProd n n Gᵀ AG r)
  else none

/-- `_estimate_sigma_2_ho`, fe.py:785-791, given the trace (or mean of approximate traces). -/
noncomputable def sigma2ho (tr : ℝ) : ℝ :=
  if d.weighted then
    ((n : ℝ) * ((∑ o, d.E solve o ^ 2) / n)) / ((∑ o, 1 / d.Dp o) - tr)
  else ((n : ℝ) * d.sigma2fe solve) / ((n : ℝ) - ((nw : ℝ) + ((m : ℝ) + 1) - 1))

/-- fe.py:824-825: scalar weights become ones. -/
def wvec {r : ℕ} : Weight (Fin r) → Fin r → ℝ
  | .scalar _ => fun _ => 1
  | .vec w => w

/-- The demeaning matrix `U`, fe.py:835: `eye - (1/n) * tile(weights)`. -/
noncomputable def demean {r : ℕ} (w : Fin r → ℝ) : Matrix (Fin r) (Fin r) ℝ :=
  of fun a b => (if a = b then 1 else 0) - (1 / ∑ c, w c) * w b

/-- `Q_var` of fe.py:837-838 (and 994-995). -/
noncomputable def qVarMat {r k : ℕ} (M : Matrix (Fin r) (Fin k) ℝ) (w : Fin r → ℝ) :
    Matrix (Fin k) (Fin k) ℝ :=
  let Q : Matrix (Fin r) (Fin k) ℝ := (of fun a b => Real.sqrt (w a) * demean w a b) * M
  ((1 / ∑ c, w c) • Qᵀ) * Q

/-- `Q_cov` of fe.py:854-869 (and 1019-1035). -/
noncomputable def qCovMat {r k l : ℕ} (Ml : Matrix (Fin r) (Fin k) ℝ) (Mr : Matrix (Fin r) (Fin l) ℝ)
    (wl wr : Fin r → ℝ) : Matrix (Fin k) (Fin l) ℝ :=
  ((1 / ∑ c, Real.sqrt (wl c) * Real.sqrt (wr c)) • Mlᵀ)
    * (of fun a b => (demean wl)ᵀ a b * Real.sqrt (wl b))
    * (of fun a b => Real.sqrt (wr a) * demean wr a b) * Mr

/-- The `NotImplementedError` of fe.py:829, 857, 985, 1022. -/
inductive Err | notImplemented
  deriving DecidableEq

/-- `_estimate_exact_trace_ho`, variances, fe.py:821-840. -/
noncomputable def exactTraceVarHo (b : Blocks m nw) {r : ℕ} : QHalf r m nw → Except Err ℝ
  | .psi M w => .ok (∑ k, diagOfProd m m (qVarMat M (wvec w)) b.A k)
  | .alpha M w => .ok (∑ k, diagOfProd nw nw (qVarMat M (wvec w)) b.D k)
  | .gamma _ _ => .error .notImplemented

/-- `_estimate_exact_trace_ho`, covariances, fe.py:843-871: block `right_dict[Qr][left_dict[Ql]]`. -/
noncomputable def exactTraceCovHo (b : Blocks m nw) {r : ℕ} :
    QHalf r m nw → QHalf r m nw → Except Err ℝ
  | .psi Ml wl, .psi Mr wr => .ok (∑ k, diagOfProd m m (qCovMat Ml Mr (wvec wl) (wvec wr)) b.A k)
  | .alpha Ml wl, .psi Mr wr =>
      .ok (∑ k, diagOfProd m m (qCovMat Ml Mr (wvec wl) (wvec wr)) b.B k)
  | .psi Ml wl, .alpha Mr wr =>
      .ok (∑ k, diagOfProd nw nw (qCovMat Ml Mr (wvec wl) (wvec wr)) b.C k)
  | .alpha Ml wl, .alpha Mr wr =>
      .ok (∑ k, diagOfProd nw nw (qCovMat Ml Mr (wvec wl) (wvec wr)) b.D k)
  | _, _ => .error .notImplemented

/-- HO-corrected variance, fe.py:1177. -/
noncomputable def varHo {r : ℕ} (q : QHalf r m nw) (trSigma tr : ℝ) : ℝ :=
  d.varFe solve q - d.sigma2ho solve trSigma * tr
/-- HO-corrected covariance, fe.py:1182. -/
noncomputable def covHo {r : ℕ} (ql qr : QHalf r m nw) (trSigma tr : ℝ) : ℝ :=
  d.covFe solve ql qr - d.sigma2ho solve trSigma * tr

/-- One draw of the approximate HO trace (variance or covariance), fe.py:906-933: variances call
`weighted_cov` with the same half twice. -/
noncomputable def drawTraceHo {r : ℕ} (ql qr : QHalf r m nw) (z : (Fin m → ℝ) × (Fin nw → ℝ)) : ℝ :=
  let pa := d.multAAinv solve z
  weightedCov (ql.mult z.1 z.2) (qr.mult pa.1 pa.2) ql.wt qr.wt 0

/-- `np.mean` over the draws, fe.py:1165 / 1171. -/
noncomputable def meanDraws {R : ℕ} (x : Fin R → ℝ) : ℝ := (∑ r, x r) / R

/-! ## Heteroskedastic correction -/

/-- `Sii_m` / unweighted `Sii`, fe.py:1644, 1689, 1712 (no JLA factor: exact leverages). -/
noncomputable def looSii (Pii : Fin n → ℝ) (o : Fin n) : ℝ :=
  (d.y o - weightedMean d.y (.vec d.Dp)) * (d.E solve o / (1 - Pii o))

/-- `Sii_stayers='upper_bound'` or `'firm_mean'` (fe.py:82-85). -/
inductive Stayers | firmMean | upperBound

/-- `_estimate_Sii_he`, fe.py:1640-1715, without JLA factor.  `none` is the `ValueError` of lines 1698
and 1711 and, for `firm_mean`, a stayer at a firm without movers (`map` gives NaN). -/
noncomputable def siiHe (st : Stayers) (Pii : Fin n → ℝ) (o : Fin n) : Option ℝ :=
  match st with
  | .firmMean =>
    if d.workerM o then some (d.looSii solve Pii o)
    else if ∃ o', d.workerM o' ∧ d.j o' = d.j o then
      if d.weighted then
        some ((∑ o' with d.workerM o' ∧ d.j o' = d.j o, d.Dp o' ^ 2 * d.looSii solve Pii o')
          / (∑ o' with d.workerM o' ∧ d.j o' = d.j o, d.Dp o') / d.Dp o)
      else
        some ((∑ o' with d.workerM o' ∧ d.j o' = d.j o, d.looSii solve Pii o')
          / (Finset.univ.filter fun o' => d.workerM o' ∧ d.j o' = d.j o).card)
    else none
  | .upperBound =>
    if d.weighted then
      if ∃ s, ¬ d.workerM s ∧ 1 / (∑ o' with ¬ d.workerM o' ∧ d.i o' = d.i s, d.Dp o') = 1 then none
      else if d.workerM o then some (d.looSii solve Pii o)
      else some ((d.y o - weightedMean d.y (.vec d.Dp))
        * (d.E solve o / (1 - 1 / (∑ o' with ¬ d.workerM o' ∧ d.i o' = d.i o, d.Dp o'))) / d.Dp o)
    else if ∃ s, ¬ d.workerM s ∧
        (Finset.univ.filter fun o' => ¬ d.workerM o' ∧ d.i o' = d.i s).card = 1 then none
    else some (d.looSii solve Pii o)

/-- `_estimate_exact_trace_he`, variances, fe.py:977-1005. -/
noncomputable def exactTraceVarHe (b : Blocks m nw) (Sii : Fin n → ℝ) {r : ℕ} :
    QHalf r m nw → Except Err ℝ
  | .psi M w =>
    let X := d.sqrtDpJ * b.A + d.sqrtDpW * b.C
    .ok (∑ k, diagOfProd m m (qVarMat M (wvec w)) (Xᵀ * of fun o c => Sii o * X o c) k)
  | .alpha M w =>
    let X := d.sqrtDpJ * b.B + d.sqrtDpW * b.D
    .ok (∑ k, diagOfProd nw nw (qVarMat M (wvec w)) (Xᵀ * of fun o c => Sii o * X o c) k)
  | .gamma _ _ => .error .notImplemented

/-- `_estimate_exact_trace_he`, covariances, fe.py:1008-1054. -/
noncomputable def exactTraceCovHe (b : Blocks m nw) (Sii : Fin n → ℝ) {r : ℕ} :
    QHalf r m nw → QHalf r m nw → Except Err ℝ
  | .psi Ml wl, .psi Mr wr =>
    let X := d.sqrtDpJ * b.A + d.sqrtDpW * b.C
    .ok (∑ k, diagOfProd m m (qCovMat Ml Mr (wvec wl) (wvec wr)) (Xᵀ * of fun o c => Sii o * X o c) k)
  | .alpha Ml wl, .psi Mr wr =>
    let X := (b.A * d.Jᵀ + b.B * d.Wᵀ)
      * of fun o c => d.Dp o * Sii o * (d.J * b.B + d.W * b.D) o c
    .ok (∑ k, diagOfProd m m (qCovMat Ml Mr (wvec wl) (wvec wr)) X k)
  | .psi Ml wl, .alpha Mr wr =>
    let X := (b.C * d.Jᵀ + b.D * d.Wᵀ)
      * of fun o c => d.Dp o * Sii o * (d.J * b.A + d.W * b.C) o c
    .ok (∑ k, diagOfProd nw nw (qCovMat Ml Mr (wvec wl) (wvec wr)) X k)
  | .alpha Ml wl, .alpha Mr wr =>
    let X := d.sqrtDpJ * b.B + d.sqrtDpW * b.D
    .ok (∑ k, diagOfProd nw nw (qCovMat Ml Mr (wvec wl) (wvec wr)) (Xᵀ * of fun o c => Sii o * X o c) k)
  | _, _ => .error .notImplemented

/-- One draw of the approximate HE trace, fe.py:1090-1125. -/
noncomputable def drawTraceHe (Sii : Fin n → ℝ) {r : ℕ} (ql qr : QHalf r m nw)
    (z : (Fin m → ℝ) × (Fin nw → ℝ)) : ℝ :=
  let pa := d.multAAinv solve z
  let pa := d.multAAinv solve (d.multAT (fun o => Sii o * d.multA pa.1 pa.2 .yes o) .yes)
  weightedCov (ql.mult z.1 z.2) (qr.mult pa.1 pa.2) ql.wt qr.wt 0

/-- HE-corrected variance, fe.py:1208. -/
noncomputable def varHe {r : ℕ} (q : QHalf r m nw) (tr : ℝ) : ℝ := d.varFe solve q - tr
/-- HE-corrected covariance, fe.py:1213. -/
noncomputable def covHe {r : ℕ} (ql qr : QHalf r m nw) (tr : ℝ) : ℝ := d.covFe solve ql qr - tr

/-! ## Approximate leverages -/

/-- The five averages returned by `_leverage_approx`, fe.py:1724-1770. -/
structure LevAvg (n : ℕ) where
  Pii : Fin n → ℝ
  PiiSq : Fin n → ℝ
  Mii : Fin n → ℝ
  MiiSq : Fin n → ℝ
  PiiMii : Fin n → ℝ

/-- `_leverage_approx` on the sign vectors `R2` of the draws (list of draws), fe.py:1738-1770. -/
noncomputable def leverageApprox (draws : List (Fin n → ℝ)) : LevAvg n :=
  let P := fun (R2 : Fin n → ℝ) o => (d.proj solve R2 .sqrt .sqrt o) ^ 2
  let M := fun (R2 : Fin n → ℝ) o => (R2 o - d.proj solve R2 .sqrt .sqrt o) ^ 2
  let avg := fun (f : (Fin n → ℝ) → Fin n → ℝ) o =>
    draws.foldl (fun acc R2 => acc + f R2 o) 0 / (draws.length : ℝ)
  { Pii := avg P, PiiSq := avg fun r o => P r o ^ 2, Mii := avg M, MiiSq := avg fun r o => M r o ^ 2,
    PiiMii := avg fun r o => P r o * M r o }

/-- Averages over the cores, fe.py:1557-1568 (`sum(..) / ncore`). -/
noncomputable def combineCores (V : List (LevAvg n)) : LevAvg n :=
  let avg := fun (f : LevAvg n → Fin n → ℝ) o => (V.map fun v => f v o).sum / (V.length : ℝ)
  { Pii := avg (·.Pii), PiiSq := avg (·.PiiSq), Mii := avg (·.Mii), MiiSq := avg (·.MiiSq),
    PiiMii := avg (·.PiiMii) }

/-- fe.py:1574-1581: normalised leverages. -/
noncomputable def normPii (st : Stayers) (v : LevAvg n) (o : Fin n) : ℝ :=
  match d.weighted, st with
  | false, .upperBound => v.Pii o / (v.Pii o + v.Mii o)
  | _, _ => if d.workerM o then v.Pii o / (v.Pii o + v.Mii o) else v.Pii o

/-- The JLA factor, fe.py:1604-1616, at one row. -/
noncomputable def jlaFactor (ndraw : ℕ) (P Psq Msq PM : ℝ) : ℝ :=
  let M := 1 - P
  let V := M ^ 2 * Psq + P ^ 2 * Msq - 2 * P * M * PM
  let B := M * Psq - P * Msq + 2 * (M - P) * PM
  1 - (1 / (ndraw : ℝ)) * ((V / M + B) / M)

end Panel

end Pytwoway.FE
