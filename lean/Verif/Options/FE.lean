import Mathlib.Data.List.Count
import Mathlib.Tactic.Common
import Mathlib.Data.Real.Basic
import Mathlib.Tactic.NormNum

/-! # `FEEstimator`: option checks and the path through `fit`

`pytwoway/fe.py`.  The numbers computed are left out (they are the subject of `Verif.FE`); the model keeps which methods
`fit` calls and in which order, which attributes of the estimator exist (reading or deleting one that does not raises
`AttributeError`), which local names are bound, and every `raise` and `assert`.  Failures of the numerical libraries
(singular matrices and the like) are left out. -/

namespace Pytwoway.Options

/-- Exceptions. -/
inductive Err | attribute | unbound | value | notImplemented | assertion | index | key
  deriving DecidableEq, Repr

/-- Methods called by `fit`.  Used for fe.py:406-548 and fe.py:200. -/
inductive Phase
  | prepare | stats | ols | attach | residuals | plugIn | standardErrors
  | sigmaExact | sigmaApprox | sigma
  | hoExact | hoApprox
  | levFile | levExact | levApprox | sii
  | heExact | heApprox
  | collect | save
  deriving DecidableEq, Repr

/-- What the estimator holds.  Attributes which are set in one place and deleted in one place share a flag. -/
structure St where
  /-- `worker_m`, `Y`, `J`, `W`, `Dp`, ... (fe.py:427, 491-500; deleted at 390). -/
  base : Bool := false
  /-- `sqrt_DpJ`, `sqrt_DpW` (fe.py:494-496; deleted at 380). -/
  sqrtD : Bool := false
  /-- `Minv_solver` (fe.py:508; deleted at 393). -/
  amg : Bool := false
  /-- `preconditioner` (fe.py:514, 545; deleted at 395). -/
  pcd : Bool := false
  /-- `psi_hat`, `alpha_hat` (fe.py:593). -/
  hat : Bool := false
  /-- `E`, `sigma_2_fe` (fe.py:627, 635). -/
  resid : Bool := false
  /-- `Q_var`, `Q_cov` (fe.py:657-658; deleted at 382). -/
  q : Bool := false
  /-- `var_fe`, `cov_fe` (fe.py:699-700). -/
  plug : Bool := false
  /-- `AA_inv_A`, ... (fe.py:1277-1280; deleted at 384). -/
  aainv : Bool := false
  /-- `tr_sigma_ho_all` (fe.py:714, 733, 779). -/
  trSigma : Bool := false
  /-- `sigma_2_ho` (fe.py:789, 791). -/
  sigmaHo : Bool := false
  /-- `tr_var_ho_all`, `tr_cov_ho_all` (fe.py:873-874, 938-939). -/
  trHo : Bool := false
  /-- `res['min_lev']`, `res['max_lev']` (fe.py:1467-1472, 1511-1516, 1583-1590). -/
  lev : Bool := false
  /-- `res['var(eps)_he']` (fe.py:1718). -/
  sigmaHe : Bool := false
  /-- `tr_var_he_all`, `tr_cov_he_all` (fe.py:1056-1057, 1130-1131). -/
  trHe : Bool := false
  /-- Columns `psi_hat`, `alpha_hat` of the data (fe.py:617-618). -/
  columns : Bool := false
  /-- `res` and `summary` hold plug-in, HO-corrected and HE-corrected moments (fe.py:1133-1247). -/
  resFe : Bool := false
  resHo : Bool := false
  resHe : Bool := false
  /-- The values of `res` are strings (fe.py:1256-1257). -/
  strings : Bool := false
  /-- Methods called so far. -/
  trace : List Phase := []
  deriving DecidableEq

/-- A statement: the exception it raises, if any, and the state it leaves.
Used for fe.py:1353-1366 and fe.py:718-779. -/
abbrev Act := St → Option Err × St

/-- The statement that does nothing, fe.py:1353-1366. -/
def Act.skip : Act := fun s => (none, s)

/-- Statements in sequence: the second one runs unless the first raises. -/
def Act.seq (a b : Act) : Act := fun s =>
  match a s with
  | (none, t) => b t
  | (some e, t) => (some e, t)

infixr:60 " ;; " => Act.seq

/-- `raise`, fe.py:718-779 and fe.py:795-874. -/
def raise (e : Err) : Act := fun s => (some e, s)

/-- Reading (or deleting) attributes that may be missing.  Used for fe.py:1353-1366 and fe.py:550-584. -/
def need (p : St → Bool) : Act := fun s => if p s then (none, s) else (some .attribute, s)

/-- Assigning an attribute, fe.py:406-548 and fe.py:586-606. -/
def put (f : St → St) : Act := fun s => (none, f s)

/-- Calling a method, fe.py:406-548 and fe.py:550-584. -/
def call (p : Phase) : Act := fun s => (none, { s with trace := s.trace ++ [p] })

/-- `if b: a`.  Used for fe.py:406-548 and fe.py:718-779. -/
def on (b : Bool) (a : Act) : Act := if b then a else Act.skip

/-- Values of `solver`, fe.py:43-170. -/
inductive Solver | amg | qmr | other
  deriving DecidableEq

/-- Values of the option on stayers, fe.py:43-170. -/
inductive Stayers | firmMean | upperBound
  deriving DecidableEq

/-- The options of `fe_params` (fe.py:43-170) that decide the path. -/
structure FEOpts where
  statsonly : Bool
  feonly : Bool
  attach : Bool
  ho : Bool
  he : Bool
  exactSigma : Bool
  exactHo : Bool
  exactHe : Bool
  exactLev : Bool
  hutchpp : Bool
  levfile : Bool
  solver : Solver
  stayers : Stayers
  ndrawSigma : ℕ
  ndrawHo : ℕ
  ndrawHe : ℕ
  ndrawLev : ℕ
  ncore : ℕ
  outputfile : Bool
  /-- `Q_var`: for each requested variance, whether it involves psi only or alpha only (Q.py:47, 93, 139). -/
  qvar : List Bool
  /-- `Q_cov`: for each requested covariance, the same of both sides. -/
  qcov : List Bool

/-- What the data and the files decide: the number of rows, whether there are weights (and `weighted` is set,
fe.py:200), the largest leverage (of the movers, or of all rows) each of the three methods finds, whether some stayer has
a single observation (weight 1 if weighted), how many leverage files exist. -/
structure Env where
  nn : ℕ
  weighted : Bool
  maxLev : Phase → ℝ
  loneStayer : Bool
  files : ℕ

variable (o : FEOpts) (v : Env)

/-- `FEEstimator.__init__`, fe.py:221-223. -/
def feInit : Option Err := if o.he ∧ o.ndrawLev % o.ncore ≠ 0 then some .value else none

/-- What `_mult_AAinv` reads, fe.py:1353-1366. -/
def solve : Act :=
  need St.base ;; match o.solver with
    | .amg => need St.amg
    | .qmr => Act.skip
    | .other => need St.pcd

/-- `_prep_vars` and `_prep_matrices`, fe.py:406-548. -/
def prepare : Act :=
  call .prepare ;; put (fun s => { s with base := true }) ;;
  on (o.he && !o.levfile) (put fun s => { s with sqrtD := true }) ;;
  on (!o.statsonly) (match o.solver with
    | .amg => put fun s => { s with amg := true }
    | _ => put fun s => { s with pcd := true })

/-- `_compute_early_stats`, fe.py:550-584. -/
def stats : Act := call .stats ;; need St.base

/-- `_estimate_ols`, fe.py:586-606. -/
def ols : Act := call .ols ;; solve o ;; put fun s => { s with hat := true }

/-- `_attach_fe_estimates`, fe.py:608-618. -/
def attach : Act := call .attach ;; need St.hat ;; put fun s => { s with columns := true }

/-- `_estimate_sigma_2_fe`, fe.py:620-637. -/
def residuals : Act :=
  call .residuals ;; need (fun s => s.base && s.hat) ;; put fun s => { s with resid := true }

/-- `_construct_Q` and `_estimate_fe`, fe.py:639-700. -/
def plugIn : Act :=
  call .plugIn ;; need (fun s => s.base && s.hat) ;; put fun s => { s with q := true, plug := true }

/-- `_construct_AAinv_components_full`, fe.py:1266-1280. -/
def makeInverse : Act := need St.base ;; put fun s => { s with aainv := true }

/-- `_estimate_exact_trace_sigma_2`, fe.py:702-716. -/
def sigmaExact : Act :=
  call .sigmaExact ;; need (fun s => s.base && s.aainv) ;; put fun s => { s with trSigma := true }

/-- `_estimate_approximate_trace_sigma_2`, fe.py:718-779.  Hutch++ reads column `r` of the factor `Q` of an array with as
many rows as the data and `n_draws` columns: there is none if `n_draws` exceeds the number of rows. -/
def sigmaApprox : Act :=
  call .sigmaApprox ;; solve o ;; on (o.hutchpp && decide (v.nn < o.ndrawSigma)) (raise .index) ;;
  put fun s => { s with trSigma := true }

/-- `_estimate_sigma_2_ho`, fe.py:781-793. -/
def sigma : Act :=
  call .sigma ;; need (fun s => s.base && s.resid) ;; on v.weighted (need St.trSigma) ;;
  put fun s => { s with sigmaHo := true }

/-- `_estimate_exact_trace_ho`, fe.py:795-874. -/
def hoExact : Act :=
  call .hoExact ;; need St.aainv ;; on (!(o.qvar.all id && o.qcov.all id)) (raise .notImplemented) ;;
  put fun s => { s with trHo := true }

/-- The loop over draws of fe.py:901-936 and 1083-1128: `del L_var, R_var` after the loop over the variances, and
`del L_cov, R_cov` after the one over the covariances, raise `UnboundLocalError` if that loop has no iterations. -/
def draws (n : ℕ) : Act :=
  on (decide (0 < n)) (solve o ;; need St.q ;; on (o.qvar.isEmpty || o.qcov.isEmpty) (raise .unbound))

/-- `_estimate_approximate_trace_ho`, fe.py:876-939. -/
def hoApprox : Act := call .hoApprox ;; draws o o.ndrawHo ;; put fun s => { s with trHo := true }

/-- `_extract_precomputed_leverages`, fe.py:1447-1481. -/
noncomputable def levFile : Act :=
  call .levFile ;; on (v.files = 0) (raise .assertion) ;; need St.base ;; put (fun s => { s with lev := true }) ;;
  on (1 ≤ v.maxLev .levFile) (raise .value)

/-- `_estimate_exact_leverages` and `_compute_Pii`, fe.py:1405-1445, 1483-1525. -/
noncomputable def levExact : Act :=
  call .levExact ;; need St.sqrtD ;; need (fun s => s.base && s.aainv) ;; put (fun s => { s with lev := true }) ;;
  on (1 ≤ v.maxLev .levExact) (raise .value)

/-- `_estimate_approximate_leverages` and `_leverage_approx`, fe.py:1527-1618, 1724-1771. -/
noncomputable def levApprox : Act :=
  call .levApprox ;; need St.sqrtD ;; solve o ;; put (fun s => { s with lev := true }) ;;
  on (1 ≤ v.maxLev .levApprox) (raise .value)

/-- `_estimate_Sii_he`, fe.py:1620-1722. -/
def sii : Act :=
  call .sii ;; need (fun s => s.base && s.resid) ;; on (o.stayers = .upperBound && v.loneStayer) (raise .value) ;;
  put fun s => { s with sigmaHe := true }

/-- `_estimate_exact_trace_he`, fe.py:941-1057. -/
def heExact : Act :=
  call .heExact ;; need St.base ;; need St.sqrtD ;; need St.aainv ;;
  on (!(o.qvar.all id && o.qcov.all id)) (raise .notImplemented) ;; put fun s => { s with trHe := true }

/-- `_estimate_approximate_trace_he`, fe.py:1059-1131. -/
def heApprox : Act := call .heApprox ;; draws o o.ndrawHe ;; put fun s => { s with trHe := true }

/-- `_collect_res`, fe.py:1133-1247. -/
def collect : Act :=
  call .collect ;; need (fun s => s.plug && s.resid) ;; put (fun s => { s with resFe := true }) ;;
  on o.ho (need (fun s => s.sigmaHo && s.trHo) ;; put fun s => { s with resHo := true }) ;;
  on o.he (need (fun s => s.sigmaHe && s.lev && s.trHe) ;; put fun s => { s with resHe := true })

/-- The HO part of `fit`, fe.py:328-353.  `aainv` is a local variable: `if not aainv` is decided by the options. -/
def hoPart : Act :=
  on o.ho (
    on v.weighted (if o.exactSigma then makeInverse ;; sigmaExact else sigmaApprox o v) ;;
    sigma v ;;
    if o.exactHo then on (!(v.weighted && o.exactSigma)) makeInverse ;; hoExact o else hoApprox o)

/-- The local variable `aainv` after the HO part.  Used for fe.py:355-380 and fe.py:382-384. -/
def inverted : Bool := o.ho && ((v.weighted && o.exactSigma) || o.exactHo)

/-- The HE part of `fit`, fe.py:355-380. -/
noncomputable def hePart : Act :=
  on o.he (
    on ((o.exactLev || o.exactHe) && !inverted o v) makeInverse ;;
    (if o.levfile then levFile v else if o.exactLev then levExact v else levApprox o v) ;;
    sii o v ;;
    (if o.exactHe then heExact o else heApprox o) ;;
    on (!o.levfile) (need St.sqrtD ;; put fun s => { s with sqrtD := false }))

/-- fe.py:382-384. -/
def dropQ : Act :=
  need St.q ;; put (fun s => { s with q := false }) ;;
  on (inverted o v || (o.he && (o.exactLev || o.exactHe))) (need St.aainv ;; put fun s => { s with aainv := false })

/-- fe.py:389-395. -/
def clear : Act :=
  need St.base ;; put (fun s => { s with base := false }) ;;
  on (!o.statsonly) (match o.solver with
    | .amg => need St.amg ;; put fun s => { s with amg := false }
    | _ => need St.pcd ;; put fun s => { s with pcd := false })

/-- `_save_res`, fe.py:1249-1264. -/
def save : Act := on o.outputfile (call .save ;; put fun s => { s with strings := true })

/-- `FEEstimator.fit`, fe.py:280-404.  Values stored in `res` are numbers until `_save_res` turns them into strings. -/
noncomputable def feFit : Act :=
  put (fun s => { s with strings := false }) ;;
  prepare o ;; stats ;;
  on (!o.statsonly) (
    ols o ;; on o.attach attach ;;
    on (!o.feonly) (residuals ;; plugIn ;; hoPart o v ;; hePart o v ;; dropQ o v ;; collect o)) ;;
  clear o ;; save o

end Pytwoway.Options
