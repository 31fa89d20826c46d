import Mathlib.Data.List.Perm.Basic
import Mathlib.Data.List.Sort
import Mathlib.Data.Real.Basic
import Mathlib.Tactic.Linarith
import Verif.BLM.Model

/-! # The estimators with several starting values: C98

`pytwoway/blm.py`: `BLMEstimator` (2350-2515); `pytwoway/blm_dynamic.py`: `DynamicBLMEstimator` (3978-4146), whose
`fit` is the same from the list of fitted models on.  Fitting one model and fitting stayers are parameters of this
model (other modules model them). -/

namespace Pytwoway.Estim

/-- Python exceptions as values. -/
abbrev Py (α : Type) := Except String α

/-! ## Seeds -/

/-- `np.random.SeedSequence`: entropy and spawn key, and `n_children_spawned`.
Used for blm.py:2402 and blm.py:2383-2454. -/
structure SeedSeq where
  key : List ℕ
  spawned : ℕ

/-- `rng.bit_generator._seed_seq.spawn(n)`, blm.py:2402, blm_dynamic.py:4043: the children's keys extend the parent's
by running numbers, which the parent counts. -/
def SeedSeq.spawn (s : SeedSeq) (n : ℕ) : List (List ℕ) × SeedSeq :=
  ((List.range n).map fun i => s.key ++ [s.spawned + i], { s with spawned := s.spawned + n })

/-! ## Running the starting values -/

section Runs
variable {σ α : Type}

/-- No multiprocessing, blm.py:2410, blm_dynamic.py:4050: the tasks run one after the other in one process.  `σ` is what
they share: the estimator's parameters, the data and the static model.  The first exception ends the loop. -/
def seqRuns (f : ℕ → σ → Py α × σ) : List ℕ → σ → Py (List α) × σ
  | [], s => (.ok [], s)
  | i :: is, s =>
    match f i s with
    | (.error e, s') => (.error e, s')
    | (.ok a, s') =>
      match seqRuns f is s' with
      | (.error e, s'') => (.error e, s'')
      | (.ok as, s'') => (.ok (a :: as), s'')

/-- The processes of a pool: each has its own copy of what is shared.  A schedule says which process takes which task
and in which order tasks finish; finished tasks are stored by number.  Used for blm.py:2406. -/
def poolSteps (f : ℕ → σ → Py α × σ) (sched : List (ℕ × ℕ)) (mem : ℕ → σ) (done : ℕ → Option (Py α)) :
    ℕ → Option (Py α) :=
  match sched with
  | [] => done
  | (w, i) :: rest =>
    poolSteps f rest (Function.update mem w (f i (mem w)).2) (Function.update done i (some (f i (mem w)).1))

/-- Reading the results in the order of the tasks; the first exception among them is raised.  Used for blm.py:2406. -/
def gather (done : ℕ → Option (Py α)) : List ℕ → Py (List α)
  | [] => .ok []
  | i :: is =>
    match done i with
    | none => .error "hangs"
    | some (.error e) => .error e
    | some (.ok a) => do let as ← gather done is; .ok (a :: as)

/-- `list(pool.imap(...))`, blm.py:2406. -/
def imap (f : ℕ → σ → Py α × σ) (n : ℕ) (sched : List (ℕ × ℕ)) (s : σ) : Py (List α) :=
  gather (poolSteps f sched (fun _ => s) fun _ => none) (List.range n)

/-- The first exception in the order in which tasks finish.  Used for blm_dynamic.py:4047. -/
def firstError (f : ℕ → σ → Py α × σ) : List (ℕ × ℕ) → (ℕ → σ) → Option String
  | [], _ => none
  | (w, i) :: rest, mem =>
    match (f i (mem w)).1 with
    | .error e => some e
    | .ok _ => firstError f rest (Function.update mem w (f i (mem w)).2)

/-- `pool.starmap(...)`, blm_dynamic.py:4047: waits for all tasks and raises the exception that came first in time.
(It hands out tasks in chunks; after an exception the rest of the chunk is not run, which has no effect here.) -/
def starmap (f : ℕ → σ → Py α × σ) (n : ℕ) (sched : List (ℕ × ℕ)) (s : σ) : Py (List α) :=
  match firstError f sched fun _ => s with
  | some e => .error e
  | none => imap f n sched s

end Runs

/-! ## `fit` -/

variable {M : Type}

/-- A fitted model as `fit` sees it: the model, `lik1`, `liks1` and `connectedness`.
Used for blm.py:2358-2368 and blm.py:2427-2434. -/
structure Run (M : Type) where
  model : M
  lik : ℝ
  liks : List ℝ
  conn : Option ℝ

/-- What the estimator stores, blm.py:2358-2368; `none` is `None`. -/
structure Est (M : Type) where
  model : Option (Run M)
  high : Option (List ℝ)
  connHigh : Option (List ℝ)
  low : Option (List ℝ)
  connLow : Option (List ℝ)
  all : Option (List (List ℝ))

open scoped Classical in
/-- `sorted(..., reverse=True, key=...)`: stable, by decreasing key.  Used for blm.py:2413-2454. -/
noncomputable def sortDesc {α : Type} (key : α → ℝ) (l : List α) : List α :=
  l.mergeSort fun a b => decide (key b ≤ key a)

/-- The four arrays and the paths while they are filled.  Used for blm.py:2427-2434. -/
structure Rec where
  high : List ℝ
  connHigh : List ℝ
  low : List ℝ
  connLow : List ℝ
  all : List (List ℝ)

/-- `array[i] = x`.  Used for blm.py:2427-2434. -/
def setAt (xs : List ℝ) (i : ℕ) (x : ℝ) : Py (List ℝ) := if i < xs.length then .ok (xs.set i x) else .error "IndexError"

/-- One pass of blm.py:2427-2434, blm_dynamic.py:4062-4069.  Models without connectedness have been removed. -/
def recStep (nBest i : ℕ) (m : Run M) (r : Rec) : Py Rec :=
  let c := m.conn.getD 0
  if i < nBest then do
    let h ← setAt r.high i m.lik
    let ch ← setAt r.connHigh i c
    .ok { r with high := h, connHigh := ch, all := r.all ++ [m.liks] }
  else do
    let l ← setAt r.low (i - nBest) m.lik
    let cl ← setAt r.connLow (i - nBest) c
    .ok { r with low := l, connLow := cl, all := r.all ++ [m.liks] }

/-- The loop, blm.py:2427-2434. -/
def recLoop (nBest : ℕ) : ℕ → List (Run M) → Rec → Py Rec
  | _, [], r => .ok r
  | i, m :: ms, r => do
    let r' ← recStep nBest i m r
    recLoop nBest (i + 1) ms r'

/-- `np.zeros`, blm.py:2418-2424. -/
def zeros (n : ℕ) : List ℝ := List.replicate n 0

/-- blm.py:2413-2454, blm_dynamic.py:4052-4087: from the fitted models on.  `stay` is `fit_stayers`, which may raise
after it has changed the model.  `np.zeros(shape=n_init - n_best)` raises for a negative number;
`sorted_zipped_models[0]` raises if no model is left, after the arrays have been stored. -/
noncomputable def finish (stay : M → Py Unit × M) (nInit nBest : ℕ) (ms : List (Run M)) (s : Est M) : Py Unit × Est M :=
  let byLik := sortDesc Run.lik (ms.filter fun m => m.conn.isSome)
  if nInit < nBest then (.error "ValueError", s)
  else
    match recLoop nBest 0 byLik ⟨zeros nBest, zeros nBest, zeros (nInit - nBest), zeros (nInit - nBest), []⟩ with
    | .error e => (.error e, s)
    | .ok r =>
      let s1 : Est M := ⟨s.model, some r.high, some r.connHigh, some r.low, some r.connLow, some r.all⟩
      match sortDesc (fun m => m.conn.getD 0) (byLik.take nBest) with
      | [] => (.error "IndexError", s1)
      | m :: _ => ((stay m.model).1, { s1 with model := some { m with model := (stay m.model).2 } })

/-- `fit` after the runs: an exception in a run ends it before anything is stored.
Used for blm.py:2383-2454 and blm_dynamic.py:4019-4087. -/
noncomputable def fitWith (stay : M → Py Unit × M) (nInit nBest : ℕ) (runs : Py (List (Run M))) (s : Est M) :
    Py Unit × Est M :=
  match runs with
  | .error e => (.error e, s)
  | .ok ms => finish stay nInit nBest ms s

/-! ## Static and dynamic `fit` -/

/-- `BLMEstimator.fit`, blm.py:2383-2454: run `i` gets the `i`-th child of the seed.  `sched = none`: one process. -/
noncomputable def fitStatic {σ : Type} (run : List ℕ → σ → Py (Run M) × σ) (stay : M → Py Unit × M) (nInit nBest : ℕ)
    (seed : SeedSeq) (sched : Option (List (ℕ × ℕ))) (sh : σ) (s : Est M) : (Py Unit × Est M) × SeedSeq :=
  let sp := seed.spawn nInit
  let task : ℕ → σ → Py (Run M) × σ := fun i => run (sp.1.getD i [])
  let runs := match sched with
    | none => (seqRuns task (List.range nInit) sh).1
    | some q => imap task nInit q sh
  (fitWith stay nInit nBest runs s, sp.2)

/-- What a run of the dynamic estimator starts from: the static model or nothing, and whether all parameters are taken
from it.  Used for blm_dynamic.py:4012-4016 and blm_dynamic.py:4019-4087. -/
structure Start (B : Type) where
  static : Option B
  initAll : Bool

/-- `_fit_model`, blm_dynamic.py:4012-4016. -/
def startOf {B : Type} (blm : Option B) (i : ℕ) : Start B :=
  if i % 2 == 0 then ⟨blm, i == 0⟩ else ⟨none, false⟩

/-- `DynamicBLMEstimator.fit`, blm_dynamic.py:4019-4087.  `rho` is the outcome of `rho_init` (4040), which comes before
the seeds are drawn. -/
noncomputable def fitDynamic {σ B R : Type} (rho : Py R) (blm : Option B)
    (run : R → Start B → List ℕ → σ → Py (Run M) × σ) (stay : M → Py Unit × M) (nInit nBest : ℕ)
    (seed : SeedSeq) (sched : Option (List (ℕ × ℕ))) (sh : σ) (s : Est M) : (Py Unit × Est M) × SeedSeq :=
  match rho with
  | .error e => ((.error e, s), seed)
  | .ok r =>
    let sp := seed.spawn nInit
    let task : ℕ → σ → Py (Run M) × σ := fun i => run r (startOf blm i) (sp.1.getD i [])
    let runs := match sched with
      | none => (seqRuns task (List.range nInit) sh).1
      | some q => starmap task nInit q sh
    (fitWith stay nInit nBest runs s, sp.2)

/-! ## The plot of likelihoods -/

/-- What is drawn: circles, triangles and the star.  Used for blm.py:2483-2515. -/
structure Drawn where
  low : List (ℝ × ℝ)
  high : List (ℝ × ℝ)
  best : ℝ × ℝ

/-- `jitter_scatter`, util.py:461-466: `max([])` raises.  Otherwise the points are drawn at random distances, which are
left out here. -/
def scatter (jitter : Bool) (xs : List (ℝ × ℝ)) : Py (List (ℝ × ℝ)) :=
  if jitter && xs.isEmpty then .error "ValueError" else .ok xs

open scoped Classical in
/-- `list.index`.  Used for blm.py:2483-2515. -/
noncomputable def indexOf (x : ℝ × Option ℝ) (xs : List (ℝ × ℝ)) : Py ℕ :=
  let i := xs.findIdx fun y => decide (x = (y.1, some y.2))
  if i < xs.length then .ok i else .error "ValueError"

/-- `plot_liks_connectedness`, blm.py:2483-2515, blm_dynamic.py:4116-4146.  `none`: nothing drawn, a warning instead. -/
noncomputable def plotLiks (jitter : Bool) (s : Est M) : Py (Option Drawn) :=
  match s.model, s.high, s.connHigh, s.low, s.connLow with
  | some m, some h, some ch, some l, some cl => do
    let i ← indexOf (m.lik, m.conn) (h.zip ch)
    let h' := h.eraseIdx i
    let ch' := ch.eraseIdx i
    let a ← scatter jitter (l.zip cl)
    let b ← scatter jitter (h'.zip ch')
    .ok (some ⟨a, b, (m.lik, m.conn.getD 0)⟩)
  | _, _, _, _, _ => .ok none

/-! ## Specification -/

/-- Nothing shared is changed by a run: `BLMModel.__init__` copies the parameters (blm.py:538, blm_dynamic.py:1103)
and the starting values taken from a static model are deep copies (blm_dynamic.py:3707-3715). -/
def Spec.Isolated {σ α : Type} (f : ℕ → σ → Py α × σ) : Prop := ∀ i s, (f i s).2 = s

/-- A schedule that runs every task once, on whatever processes and in whatever order. -/
def Spec.Complete (n : ℕ) (sched : List (ℕ × ℕ)) : Prop := (sched.map Prod.snd).Perm (List.range n)

/-- Likelihood and connectedness of the runs that have a connectedness. -/
def Spec.points (ms : List (Run M)) : List (ℝ × ℝ) := ms.filterMap fun m => m.conn.map fun c => (m.lik, c)

/-- `m` is kept from `ms` for `nBest`: its connectedness is highest in a group of `nBest` runs (or all if fewer) such
that no run outside is more likely than one inside. -/
def Spec.Kept (nBest : ℕ) (ms : List (Run M)) (m : Run M) : Prop :=
  ∃ top rest : List (Run M), (top ++ rest).Perm (ms.filter fun m => m.conn.isSome) ∧
    top.length = min nBest (ms.filter fun m => m.conn.isSome).length ∧
    (∀ t ∈ top, ∀ r ∈ rest, r.lik ≤ t.lik) ∧ m ∈ top ∧
    ∃ c, m.conn = some c ∧ ∀ t ∈ top, ∀ c', t.conn = some c' → c' ≤ c

end Pytwoway.Estim
