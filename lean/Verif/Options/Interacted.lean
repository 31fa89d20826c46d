import Verif.Interacted.Model
import Verif.Options.FEProps

/-! # `InteractedBLMModel._fit_a_b_linear`: option checks and the path they select

`pytwoway/blm_interacted.py`.  The numbers are left out (see `Verif.Interacted`); the model keeps which step is taken and
what raises because of the options and the sizes of the arrays.  (Singular matrices are left out.) -/

namespace Pytwoway.Options

open Interacted (Opts Method Instrument Py validate)

/-- The steps of `_fit_a_b_linear`.  Used for blm_interacted.py:271-306 and blm_interacted.py:337-440. -/
inductive IStep
  | regression | pairs | coarsePairs | workers | profile | standard | liml1 | liml2 | iv | hful | intercepts | extract
  deriving DecidableEq, Repr

/-- The data: the number of rows (movers) and firms, whether weights are used, and whether each worker id is below the
number of movers. -/
structure IEnv where
  ni : ℕ
  nf : ℕ
  weighted : Bool
  idsOk : Bool

variable (o : Opts) (v : IEnv) (coarseIsZero : Bool)

/-- The number of columns of `XX`, blm_interacted.py:309-334. -/
def width : ℕ :=
  if o.profiling then (if o.statA then v.nf + (v.nf - 1) else v.nf)
  else (if o.statB then v.nf else v.nf + v.nf) + (if o.statA then v.nf - 1 else (v.nf - 1) + v.nf)

/-- The instrument, blm_interacted.py:271-306. -/
def instrumentStep : Py IStep :=
  if coarseIsZero then
    match o.instrument with
    | .firmPairs => .ok .pairs
    | .workerIds => if v.idsOk then .ok .workers else .error "ValueError"
    | .other => .error "UnboundLocalError"
  else
    match o.instrument with
    | .firmPairs => .ok .coarsePairs
    | .workerIds => .error "UnboundLocalError"
    | .other => .error "UnboundLocalError"

/-- The estimator, blm_interacted.py:337-440.  For HFUL the matrix `WX` has as many rows as `XX` has columns, and row `r`
is multiplied by the weight of row `r` of the data (436; util.py:125): `IndexError` if the data has fewer rows.  (That
needs an entry other than 0 in the last rows of `WX`, which is left out.) -/
def estimateStep : Py IStep :=
  match o.method with
  | .liml1 => .ok .liml1
  | .liml2 => .ok .liml2
  | .iv => .ok .iv
  | .hful => if v.weighted ∧ v.ni < width o v then .error "IndexError" else .ok .hful
  | .linear => .error "UnboundLocalError"
  | .other => .error "UnboundLocalError"

/-- `_fit_a_b_linear`, blm_interacted.py:194-463: the steps taken. -/
def iPath : Py (List IStep) := do
  validate o
  if o.method = .linear then .ok [.regression]
  else
    let z ← instrumentStep o v coarseIsZero
    let e ← estimateStep o v
    .ok ([z, if o.profiling then .profile else .standard, e] ++
      (if o.profiling && !o.statA then [.intercepts] else []) ++ [.extract])

/-! ## Specification -/

/-- Option combinations that make sense, as the documentation of the options has it. -/
structure Spec.IOk (o : Opts) : Prop where
  one_b : ¬ (o.statB = true ∧ o.profiling = true)
  akm : ¬ (o.statB = true ∧ o.method = .linear)
  profiled : o.profiling = true → o.method = .liml1 ∨ o.method = .hful
  instrument : o.instrument ≠ .other
  method : o.method ≠ .other

/-- The estimator a method stands for. -/
def Spec.step : Method → IStep
  | .liml1 => .liml1
  | .liml2 => .liml2
  | .iv => .iv
  | .hful => .hful
  | _ => .regression

/-! ## C56 -/

theorem validate_ok : validate o = .ok () ↔ Spec.IOk o := by
  unfold validate
  constructor
  · intro h
    obtain ⟨m, nf', sa, sb, pr, ins, co, ti⟩ := o
    constructor <;> cases sb <;> cases pr <;> cases m <;> cases ins <;> simp_all
  · rintro ⟨h1, h2, h3, h4, h5⟩
    obtain ⟨m, nf', sa, sb, pr, ins, co, ti⟩ := o
    cases sb <;> cases pr <;> cases m <;> cases ins <;> simp_all

theorem validate_bad (h : ¬ Spec.IOk o) : validate o = .error "ValueError" := by
  rw [← validate_ok] at h
  unfold validate at *
  obtain ⟨m, nf', sa, sb, pr, ins, co, ti⟩ := o
  cases sb <;> cases pr <;> cases m <;> cases ins <;> simp_all

/-- C56: combinations that make no sense are rejected by `ValueError`, whatever the data. -/
theorem C56_interacted_rejects (h : ¬ Spec.IOk o) : iPath o v coarseIsZero = .error "ValueError" := by
  unfold iPath
  rw [validate_bad o h]
  rfl

/-- C56: the others select one estimator, that of their method; with firm pairs as instrument and no weights there is
never an error. -/
theorem C56_interacted_path (h : Spec.IOk o) (hi : o.instrument = .firmPairs) (hw : v.weighted = false) :
    ∃ p, iPath o v coarseIsZero = .ok p ∧
      p.filter (· ∈ [.regression, .liml1, .liml2, .iv, .hful]) = [Spec.step o.method] ∧
      p.filter (· ∈ [.profile, .standard]) =
        (if o.method = .linear then [] else [if o.profiling then .profile else .standard]) ∧
      p.filter (· ∈ [.pairs, .coarsePairs, .workers]) =
        (if o.method = .linear then [] else [if coarseIsZero then .pairs else .coarsePairs]) := by
  have hv := (validate_ok o).2 h
  obtain ⟨-, -, -, -, h5⟩ := h
  unfold iPath instrumentStep estimateStep
  rw [hv, hi, hw]
  cases hm : o.method <;> cases coarseIsZero <;> cases o.profiling <;> cases o.statA <;>
    first | exact absurd hm h5 | exact ⟨_, rfl, by decide, by decide, by decide⟩

/-- The number of regressors: wages and firm dummies, once or (if not stationary) for both periods, one dummy left out; with
profiling, the first period's wages (and, unless `a` is stationary, all dummies) are partialled out. -/
def Spec.columns (o : Opts) (nf : ℕ) : ℕ :=
  let slopes := if o.profiling = true ∨ o.statB = true then nf else 2 * nf
  let intercepts := if o.statA = true then nf - 1 else if o.profiling = true then 0 else 2 * nf - 1
  slopes + intercepts

theorem width_eq : width o v = Spec.columns o v.nf := by
  unfold width Spec.columns
  cases o.profiling <;> cases o.statA <;> cases o.statB <;> simp <;> omega

/-- C56: exactly which combinations of options and data end without an error. -/
theorem C56_interacted_supported_partial : (∃ p, iPath o v coarseIsZero = .ok p) ↔
    Spec.IOk o ∧ (o.method ≠ .linear →
      (o.instrument = .workerIds → coarseIsZero = true ∧ v.idsOk = true) ∧
      (o.method = .hful → v.weighted = true → Spec.columns o v.nf ≤ v.ni)) := by
  rw [← width_eq]
  by_cases h : Spec.IOk o
  swap
  · rw [C56_interacted_rejects o v coarseIsZero h]
    simp [h]
  have hv := (validate_ok o).2 h
  have h4 := h.instrument
  have h5 := h.method
  simp only [h, true_and]
  unfold iPath instrumentStep estimateStep
  rw [hv]
  by_cases hw : v.ni < width o v <;>
  cases hm : o.method <;> cases hi : o.instrument <;> cases coarseIsZero <;> cases v.idsOk <;> cases v.weighted <;>
    first
    | exact absurd hm h5
    | exact absurd hi h4
    | simp [bind, Except.bind, hw, Nat.not_le.2 hw]
    | simp [bind, Except.bind, hw, Nat.not_lt.1 hw]

/-- C56 fails for weighted data and method `'hful'`: with fewer movers than parameters it raises `IndexError`, after the
instruments and matrices have been built. -/
theorem C56_interacted_hful (h : Spec.IOk o) (hm : o.method = .hful) (hi : o.instrument = .firmPairs)
    (hw : v.weighted = true) (hn : v.ni < Spec.columns o v.nf) : iPath o v coarseIsZero = .error "IndexError" := by
  rw [← width_eq] at hn
  unfold iPath instrumentStep estimateStep
  rw [(validate_ok o).2 h, hm, hi, hw]
  cases coarseIsZero <;> simp [bind, Except.bind, hn]

/-- The hypotheses can be met: HFUL with three firms and eight movers, eleven parameters. -/
example : ∃ o : Opts, Spec.IOk o ∧ o.method = .hful ∧ o.instrument = .firmPairs ∧
    8 < Spec.columns o 3 :=
  ⟨{ method := .hful, normFid := 0, statA := false, statB := false, profiling := false, instrument := .firmPairs,
     coarse := 0, tik := 0 }, ⟨by simp, by simp, by simp, by simp, by simp⟩, rfl, rfl, by decide⟩

end Pytwoway.Options
