import Verif.FEControl.Model
import Verif.FE.Model

/-!
# Model of the bias corrections of `pytwoway/fecontrol.py`

Traces, error variances, leverages and corrected variance components of `FEControlEstimator`.  Random
probes are arguments; `np.linalg.inv` is the matrix inverse, `np.linalg.qr` an oracle.  Only the parts
the class implements are modelled: `exact_trace_ho`, `exact_trace_he` and `exact_lev_he` raise
`NotImplementedError` (fecontrol.py:344-345).
-/

namespace Pytwoway.FEControl

open Matrix Pytwoway.Util
open scoped BigOperators
open FE.Panel (WOpt Stayers LevAvg)

namespace CData

variable {n m nw : ℕ} (d : CData n m nw) (solve : List ℝ → List ℝ)

/-- The factor of a row in `A`, `DpA` or `sqrt_DpA`, fecontrol.py:563-577. -/
noncomputable def wt : WOpt → Fin n → ℝ
  | .no => fun _ => 1
  | .yes => d.Dp
  | .sqrt => fun o => Real.sqrt (d.Dp o)

/-- `_mult_A`, fecontrol.py:1300-1318. -/
noncomputable def multAw (c : WOpt) (v : List ℝ) (o : Fin n) : ℝ :=
  (List.zipWith (fun col g => (d.wt c o * col o) * g) d.A v).sum

/-- `_mult_Atranspose`, fecontrol.py:1320-1340. -/
noncomputable def multATw (c : WOpt) (v : Fin n → ℝ) : List ℝ :=
  d.A.map fun col => ∑ o, (d.wt c o * col o) * v o

/-- `_solve`, fecontrol.py:1371-1382. -/
noncomputable def solveLS (Y : Fin n → ℝ) (Dp2 : WOpt) : List ℝ := solve (d.multATw Dp2 Y)

/-- `_proj`, fecontrol.py:1384-1397. -/
noncomputable def proj (Y : Fin n → ℝ) (Dp0 Dp2 : WOpt) : Fin n → ℝ := d.multAw Dp0 (d.solveLS solve Y Dp2)

/-! ## Plug-in components -/

/-- `_Q_mult(_get_Q(...), Z)` as a column, Q.py:373-424. -/
def qCol (u : Unpack) (names : List String) (Z : List ℝ) : Option (Fin n → ℝ) := do
  let M ← d.subA u names
  let z ← subZ u names Z
  return fun o => (List.zipWith (fun c g => c o * g) M z).sum

/-- `cov_fe`, fecontrol.py:921-930, for `CovCovariate(l1, l2)`; `none` is `KeyError`. -/
noncomputable def covFe (l1 l2 : List String) : Option ℝ := do
  let gh := d.gammaHat solve
  let u := d.unpack gh
  let a ← d.qCol u l1 gh
  let b ← d.qCol u l2 gh
  return weightedCov a b d.DpW d.DpW 0

/-- `var_fe`, fecontrol.py:914-918, for `VarCovariate(l)`. -/
noncomputable def varFe (l : List String) : Option ℝ := do
  let gh := d.gammaHat solve
  let a ← d.qCol (d.unpack gh) l gh
  return weightedVar a d.DpW 0

/-! ## Error variance -/

/-- `A` as a dense matrix.  Used for fecontrol.py:1298 and fecontrol.py:943. -/
def amat : Matrix (Fin n) (Fin d.nCov) ℝ := of fun o c => d.A.getD c 0 o

/-- `_compute_AAinv`, fecontrol.py:1298. -/
noncomputable def AAinv : Matrix (Fin d.nCov) (Fin d.nCov) ℝ :=
  (d.amatᵀ * (of fun o c => d.Dp o * d.amat o c))⁻¹

/-- `_estimate_exact_trace_sigma_2`, fecontrol.py:943. -/
noncomputable def exactTraceSigma2 : ℝ :=
  ∑ k, diagOfProd d.nCov d.nCov (d.amatᵀ * d.amat) d.AAinv k

/-- `A @ (A'D_pA)^{-1} @ A' @ v`, fecontrol.py:974-976, 997-1002. -/
noncomputable def sigma2Apply (v : Fin n → ℝ) : Fin n → ℝ := d.multAw .no (d.solveLS solve v .no)

/-- One draw for `tr_method_sigma_2='hutchinson'`, fecontrol.py:979. -/
noncomputable def drawTraceSigma2 (z : Fin n → ℝ) : ℝ := ∑ o, z o * d.sigma2Apply solve z o

/-- `tr_method_sigma_2='hutch++'`, fecontrol.py:988-1008; `Q` is the orthonormal factor of
`np.linalg.qr` of the first set of products, `Z` the second set of probes.  With more draws than rows
`Q[:, r]` is out of range: `none`. -/
noncomputable def hutchPP {R : ℕ} (Q Z : Matrix (Fin n) (Fin R) ℝ) : Option ℝ :=
  if R ≤ n then
    let G := Z - Q * (Qᵀ * Z)
    let AQ : Matrix (Fin n) (Fin R) ℝ := of fun o r => d.sigma2Apply solve (fun b => Q b r) o
    let AG : Matrix (Fin n) (Fin R) ℝ := of fun o r => d.sigma2Apply solve (fun b => G b r) o
    some ((∑ r, diagOfProd n n Qᵀ AQ r) + (1 / (R : ℝ)) * ∑ r, diagOfProd n n Gᵀ AG r)
  else none

/-- `_estimate_sigma_2_ho`, fecontrol.py:1010-1020, given the trace or the mean of its draws. -/
noncomputable def sigma2ho (tr : ℝ) : ℝ :=
  if d.weighted then
    ((n : ℝ) * ((∑ o, d.E solve o ^ 2) / n)) / ((∑ o, 1 / d.Dp o) - tr)
  else ((n : ℝ) * d.sigma2fe solve) / ((n : ℝ) - (d.nCov : ℝ))

/-! ## Homoskedastic correction -/

/-- One draw of `_estimate_approximate_trace_ho` for `CovCovariate(l1, l2)` (with `l1 = l2` for
`VarCovariate`), fecontrol.py:1052-1083. -/
noncomputable def drawTraceHo (l1 l2 : List String) (Z : List ℝ) : Option ℝ := do
  let u := d.unpack (d.gammaHat solve)
  let Z2 := solve Z
  let L ← d.qCol u l1 Z
  let R ← d.qCol u l2 Z2
  return weightedCov L R d.DpW d.DpW 0

/-- `cov_ho`, fecontrol.py:1210 with the trace of line 1199: the mean over the draws. -/
noncomputable def covHo {R : ℕ} (l1 l2 : List String) (trSigma : ℝ) (Z : Fin R → List ℝ) : Option ℝ := do
  let fe ← d.covFe solve l1 l2
  let tr ← (List.ofFn Z).mapM fun z => d.drawTraceHo solve l1 l2 z
  return fe - d.sigma2ho solve trSigma * (tr.sum / (R : ℝ))

/-- `var_ho`, fecontrol.py:1205. -/
noncomputable def varHo {R : ℕ} (l : List String) (trSigma : ℝ) (Z : Fin R → List ℝ) : Option ℝ := do
  let fe ← d.varFe solve l
  let tr ← (List.ofFn Z).mapM fun z => d.drawTraceHo solve l l z
  return fe - d.sigma2ho solve trSigma * (tr.sum / (R : ℝ))

/-! ## Heteroskedastic correction -/

/-- `worker_m` (`get_worker_m`): the worker of the row is seen at two firms.  Used for fecontrol.py:1528-1630. -/
def workerM (o : Fin n) : Prop := ∃ o', d.i o' = d.i o ∧ d.j o' ≠ d.j o

instance (o : Fin n) : Decidable (d.workerM o) := by unfold workerM; infer_instance

/-- `_leverage_approx`, fecontrol.py:1645-1674, on the given draws. -/
noncomputable def leverageApprox (draws : List (Fin n → ℝ)) : LevAvg n :=
  let P := fun (R2 : Fin n → ℝ) o => (d.proj solve R2 .sqrt .sqrt o) ^ 2
  let M := fun (R2 : Fin n → ℝ) o => (R2 o - d.proj solve R2 .sqrt .sqrt o) ^ 2
  let avg := fun (f : (Fin n → ℝ) → Fin n → ℝ) o =>
    draws.foldl (fun acc R2 => acc + f R2 o) 0 / (draws.length : ℝ)
  { Pii := avg P, PiiSq := avg fun r o => P r o ^ 2, Mii := avg M, MiiSq := avg fun r o => M r o ^ 2,
    PiiMii := avg fun r o => P r o * M r o }

/-- `Pii` of `_extract_precomputed_leverages`, fecontrol.py:1408-1417: the average of the files. -/
noncomputable def filesPii (files : List (Fin n → ℝ)) (o : Fin n) : ℝ :=
  files.foldl (fun acc pp => acc + pp o / (files.length : ℝ)) 0

/-- `Sii_m`, or `Sii` without weights, at a row; fecontrol.py:1552, 1597, 1620, without JLA factor
(leverages read from files). -/
noncomputable def looSii (Pii : Fin n → ℝ) (o : Fin n) : ℝ :=
  (d.y o - weightedMean d.y (.vec d.Dp)) * (d.E solve o / (1 - Pii o))

/-- `_estimate_Sii_he`, fecontrol.py:1528-1630, without JLA factor.  `none` is the `ValueError` of lines
1606 and 1619 and, for `firm_mean`, a stayer at a firm without movers (`map` gives NaN). -/
noncomputable def siiHe (st : Stayers) (Pii : Fin n → ℝ) (o : Fin n) : Option ℝ :=
  match st with
  | .firmMean =>
    if d.workerM o then some (d.looSii solve Pii o)
    else if ∃ o', d.workerM o' ∧ d.j o' = d.j o then
      if d.weighted then
        some ((∑ o' with d.workerM o' ∧ d.j o' = d.j o, d.Dp o' ^ 2 * d.looSii solve Pii o')
          / (∑ o' with d.workerM o' ∧ d.j o' = d.j o, d.Dp o') / d.Dp o)
      else
        some ((∑ o' with d.workerM o' ∧ d.j o' = d.j o, d.looSii solve Pii o')
          / (Finset.univ.filter fun o' => d.workerM o' ∧ d.j o' = d.j o).card)
    else none
  | .upperBound =>
    if d.weighted then
      if ∃ s, ¬ d.workerM s ∧ 1 / (∑ o' with ¬ d.workerM o' ∧ d.i o' = d.i s, d.Dp o') = 1 then none
      else if d.workerM o then some (d.looSii solve Pii o)
      else some ((d.y o - weightedMean d.y (.vec d.Dp))
        * (d.E solve o / (1 - 1 / (∑ o' with ¬ d.workerM o' ∧ d.i o' = d.i o, d.Dp o'))) / d.Dp o)
    else if ∃ s, ¬ d.workerM s ∧
        (Finset.univ.filter fun o' => ¬ d.workerM o' ∧ d.i o' = d.i s).card = 1 then none
    else some (d.looSii solve Pii o)

/-- One draw of `_estimate_approximate_trace_he`, fecontrol.py:1117-1156. -/
noncomputable def drawTraceHe (Sii : Fin n → ℝ) (l1 l2 : List String) (Z : List ℝ) : Option ℝ := do
  let u := d.unpack (d.gammaHat solve)
  let Z2 := solve (d.multATw .yes fun o => Sii o * d.multAw .yes (solve Z) o)
  let L ← d.qCol u l1 Z
  let R ← d.qCol u l2 Z2
  return weightedCov L R d.DpW d.DpW 0

/-- `cov_he`, fecontrol.py:1241. -/
noncomputable def covHe {R : ℕ} (l1 l2 : List String) (Sii : Fin n → ℝ) (Z : Fin R → List ℝ) : Option ℝ := do
  let fe ← d.covFe solve l1 l2
  let tr ← (List.ofFn Z).mapM fun z => d.drawTraceHe solve Sii l1 l2 z
  return fe - tr.sum / (R : ℝ)

end CData

end Pytwoway.FEControl
