import Mathlib.Data.List.Basic
import Mathlib.Data.Int.Order.Basic

/-! # The command line (command_line.py): C92

`main` (46-258): from parsed options to the estimators that are run and their parameters. -/

namespace Pytwoway.CLI

/-! ## Model -/

/-- Exceptions. -/
inductive Err
  | value | key | type | unbound | other
  deriving DecidableEq

abbrev Py := Except Err

/-- Values of parameters.  Used for fe.py:49-172 and command_line.py:14-29. -/
inductive Val
  | none
  | bool (b : Bool)
  | int (n : ℤ)
  | real (num : ℤ) (den : ℕ)
  | str (s : String)
  deriving DecidableEq

/-- The rule of a `ParamsDict` entry: the first three fields of the tuples in fe.py:49-172 and cre.py:26-45. -/
inductive Rule
  /-- `'type', bool` -/
  | isBool
  /-- `'type', str` -/
  | isStr
  /-- `'type_constrained', (int, _gteq1)` and `(int, _gteq0)` -/
  | intGe (n : ℤ)
  /-- `'set', [...]` -/
  | oneOf (l : List Val)
  /-- `'type_none', str` -/
  | strOrNone
  /-- entries that the command line never sets -/
  | notSet

/-- The package `paramsdict` (not in the repository) checks a value against its rule when it is set.
Used for command_line.py:31-43 and command_line.py:203-208. -/
def Rule.ok : Rule → Val → Bool
  | .isBool, .bool _ => true
  | .isStr, .str _ => true
  | .intGe n, .int k => decide (n ≤ k)
  | .oneOf l, v => l.contains v
  | .strOrNone, .str _ => true
  | .strOrNone, .none => true
  | _, _ => false

/-- Contents of a `ParamsDict`.  Used for command_line.py:46-258. -/
abbrev Dict := String → Option Val

/-- The default entries: key, default value and rule.  Used for fe.py:49-172 and cre.py:26-45. -/
abbrev Table := List (String × Val × Rule)

/-- fe.py:49-172. -/
def feTable : Table :=
  [("weighted", .bool true, .isBool), ("statsonly", .bool false, .isBool), ("feonly", .bool false, .isBool),
   ("attach_fe_estimates", .bool false, .isBool), ("ho", .bool true, .isBool), ("he", .bool false, .isBool),
   ("Q_var", .none, .notSet), ("Q_cov", .none, .notSet),
   ("Sii_stayers", .str "firm_mean", .oneOf [.str "firm_mean", .str "upper_bound"]),
   ("ndraw_trace_sigma_2", .int 5, .intGe 1), ("ndraw_trace_ho", .int 5, .intGe 1),
   ("ndraw_trace_he", .int 5, .intGe 1), ("exact_trace_sigma_2", .bool false, .isBool),
   ("exact_trace_ho", .bool false, .isBool), ("exact_trace_he", .bool false, .isBool),
   ("exact_lev_he", .bool false, .isBool), ("ndraw_lev_he", .int 200, .intGe 1), ("levfile", .str "", .isStr),
   ("ncore", .int 1, .intGe 1),
   ("solver", .str "minres", .oneOf [.str "bicg", .str "bicgstab", .str "cg", .str "cgs", .str "gmres",
      .str "minres", .str "qmr", .str "amg"]),
   ("solver_tol", .real 1 (10 ^ 10), .intGe 0),
   ("preconditioner", .str "ichol", .oneOf [.none, .str "jacobi", .str "vcycle", .str "ichol", .str "ilu"]),
   ("preconditioner_options", .none, .notSet),
   ("tr_method_sigma_2", .str "hutchinson", .oneOf [.str "hutchinson", .str "hutch++"]),
   ("outputfile", .none, .strOrNone), ("progress_bars", .bool true, .isBool), ("verbose", .bool true, .isBool)]

/-- cre.py:26-45. -/
def creTable : Table :=
  [("ncore", .int 1, .intGe 1), ("posterior", .bool false, .isBool), ("wo_btw", .bool false, .isBool),
   ("ndraw_trace", .int 5, .intGe 1), ("outputfile", .none, .strOrNone)]

/-- Calling a `ParamsDict` with a dictionary of changes: an unknown key or a value against its rule raises.
Used for command_line.py:46-258. -/
def build (t : Table) (changes : List (String × Val)) : Py Dict :=
  changes.foldlM (fun d kv =>
    match t.lookup kv.1 with
    | none => .error .key
    | some (_, r) => if r.ok kv.2 then .ok (fun k => if k = kv.1 then some kv.2 else d k) else .error .value)
    fun k => (t.lookup k).map (·.1)

/-- `clear_dict`, command_line.py:14-29. -/
def clearDict (d : List (String × Val)) : List (String × Val) := d.filter fun kv => kv.2 != .none

/-- `str2bool`, command_line.py:31-43, applied to the option's text (`lower` is Python's `str.lower`). -/
def str2bool (lower : String → String) (v : String) : Py Bool :=
  if lower v ∈ ["yes", "true", "t", "y", "1"] then .ok true
  else if lower v ∈ ["no", "false", "f", "n", "0"] then .ok false
  else .error .type

/-- The options, command_line.py:47-149, as the text on the command line (`none`: not given).  Options that only
go to `bipartitepandas` (of clustering except `--measures`, and of cleaning) are left out: `World.cluster` and
`World.clean` stand for its functions with these options. -/
structure Args where
  fe : Bool
  cre : Bool
  stata : Bool
  filetype : Option String
  data : Option String
  collapse : Option String
  seed : Option String
  ho : Option String
  he : Option String
  ndrawTraceSigma2 : Option String
  ndrawTraceHo : Option String
  ndrawTraceHe : Option String
  ndrawLevHe : Option String
  outputfileFe : Option String
  ncoreFe : Option String
  solver : Option String
  preconditioner : Option String
  ncoreCre : Option String
  ndrawTraceCre : Option String
  ndp : Option String
  outputfileCre : Option String
  posterior : Option String
  woBtw : Option String
  measures : Option String

/-- An option without `type=`: its text.  Used for command_line.py:160-162 and command_line.py:217-219. -/
def text : Option String → Val
  | none => .none
  | some s => .str s

/-- An option with `type=str2bool`.  Used for command_line.py:59 and command_line.py:46-258. -/
def flag (lower : String → String) : Option String → Py Val
  | none => .ok .none
  | some s => do .ok (.bool (← str2bool lower s))

/-- Kinds of measure.  Used for command_line.py:203-208 and command_line.py:198-210. -/
inductive Measure | cdfs | moments
  deriving DecidableEq

/-- The loop command_line.py:203-208: `measure_fn` keeps its last value. -/
def measureLoop (lower : String → String) : Option Measure → List String → Py (List Measure)
  | _, [] => .ok []
  | cur, m :: ms =>
    let cur := if lower m = "cdfs" then some Measure.cdfs
      else if lower m = "moments" then some Measure.moments else cur
    match cur with
    | none => .error .unbound
    | some c => do .ok (c :: (← measureLoop lower cur ms))

/-- What the rest of the world does: reading the file (given the kind of file and the path), cleaning (with whether
the result still has to be collapsed), collapsing, `ast.literal_eval` twice, clustering with measures.
Used for command_line.py:198-210 and command_line.py:246-247. -/
structure World (D : Type) where
  lower : String → String
  parse : String → Py (List String)
  read : String → Option String → Py D
  clean : D → Py D
  isCollapsed : D → Bool
  collapse : D → Py D
  cluster : Option (List Measure) → D → Py D
  eventstudy : D → Py D

/-- `pd_from_filetype`, command_line.py:225-236. -/
def filetypes : List String :=
  ["csv", "json", "ftr", "feather", "dta", "stata", "parquet", "excel", "xlsx", "sql"]

/-- What is run.  Used for command_line.py:46-258. -/
structure Run (D : Type) where
  fe : Option (D × Dict)
  cre : Option (D × Dict)

/-- The dictionary of command_line.py:160-162. -/
def feChanges (a : Args) (ho he : Val) : List (String × Val) :=
  [("ho", ho), ("he", he), ("ndraw_trace_sigma_2", text a.ndrawTraceSigma2), ("ndraw_trace_ho", text a.ndrawTraceHo),
   ("ndraw_trace_he", text a.ndrawTraceHe), ("ndraw_lev_he", text a.ndrawLevHe),
   ("outputfile", if a.stata then .str "res_fe.json" else text a.outputfileFe), ("ncore", text a.ncoreFe),
   ("solver", text a.solver), ("preconditioner", text a.preconditioner)]

/-- The dictionary of command_line.py:217-219. -/
def creChanges (a : Args) (posterior : Val) : List (String × Val) :=
  [("ncore", text a.ncoreCre), ("ndraw_trace", text a.ndrawTraceCre), ("ndp", text a.ndp),
   ("outputfile", if a.stata then .str "res_cre.json" else text a.outputfileCre), ("posterior", posterior),
   ("wo_btw", text a.woBtw)]

/-- `default_rng(params.seed)`, command_line.py:251: NumPy refuses text. -/
def rng : Option String → Py Unit
  | none => .ok ()
  | some _ => .error .type

/-- `--collapse` has default True, command_line.py:59. -/
def collapseOpt (lower : String → String) : Option String → Py Val
  | none => .ok (.bool true)
  | some s => flag lower (some s)

/-- command_line.py:198-210. -/
def measuresOpt {D : Type} (w : World D) : Option String → Py (Option (List Measure))
  | none => .ok none
  | some s => do
    let raw ← w.parse s
    let l ← measureLoop w.lower none raw
    .ok (some l)

/-- command_line.py:246-247. -/
def collapseStep {D : Type} (w : World D) (c : Val) (d : D) : Py D :=
  if c = .bool true ∧ w.isCollapsed d = false then w.collapse d else .ok d

/-- `main`, command_line.py:46-258. -/
def main {D : Type} (w : World D) (a : Args) : Py (Run D) := do
  -- parse_args (151)
  let collapse ← collapseOpt w.lower a.collapse
  let ho ← flag w.lower a.ho
  let he ← flag w.lower a.he
  let posterior ← flag w.lower a.posterior
  let filetype := if a.stata then some "dta" else a.filetype
  let data := if a.stata then some "leedtwoway_temp_data.dta" else a.data
  let feD ← build feTable (clearDict (feChanges a ho he))
  let ms ← measuresOpt w a.measures
  let creD ← build creTable (clearDict (creChanges a posterior))
  let ft := w.lower (filetype.getD "csv")
  if ft ∉ filetypes then .error .key
  else do
    let d ← w.read ft data
    let d ← w.clean d
    let d ← collapseStep w collapse d
    rng a.seed
    let feRun := if a.fe then some (d, feD) else none
    if a.cre then do
      let d ← w.cluster ms d
      let d ← w.eventstudy d
      .ok ⟨feRun, some (d, creD)⟩
    else .ok ⟨feRun, none⟩

end Pytwoway.CLI
