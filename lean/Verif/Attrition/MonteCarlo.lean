import Mathlib.Data.Real.Basic
import Mathlib.Tactic.Linarith
import Mathlib.Tactic.Tauto
import Mathlib.Tactic.NormNum
import Mathlib.Tactic.Ring

/-! # Monte Carlo estimation (montecarlo.py): C49 and C81 -/

namespace Pytwoway.MonteCarlo

inductive Exc
  | value | key | other
deriving DecidableEq

abbrev Py := Except Exc

/-! ## Model -/

/-- A parameter value.  Used for montecarlo.py:30-90 and montecarlo.py:62-65. -/
inductive Val
  | bool (b : Bool)
  | str (s : String)
  | dict (d : String → Option Val)
  | other (n : ℕ)
  | none

/-- The contents of a `ParamsDict`.  Whether its `__setitem__` accepts a value is not modelled: all values set here
are among the accepted ones.  Used for montecarlo.py:30-90 and montecarlo.py:36-45. -/
abbrev Dict := String → Option Val

/-- `d[k] = v`, montecarlo.py:30-90. -/
def setItem (d : Dict) (k : String) (v : Val) : Dict := fun k' => if k' = k then some v else d k'

/-- Dictionaries are shared objects.  Used for montecarlo.py:36-45 and montecarlo.py:30-90. -/
structure Heap where
  next : ℕ
  obj : ℕ → Dict

/-- A new dictionary: its reference and the heap with it, montecarlo.py:36-45. -/
def Heap.alloc (h : Heap) (d : Dict) : ℕ × Heap :=
  (h.next, ⟨h.next + 1, fun r => if r = h.next then d else h.obj r⟩)

/-- `.copy()`.  Used for montecarlo.py:67-72 and montecarlo.py:30-90. -/
def Heap.copy (h : Heap) (r : ℕ) : ℕ × Heap := h.alloc (h.obj r)

/-- `d[k] = v` through a reference, montecarlo.py:30-90 and montecarlo.py:228. -/
def Heap.set (h : Heap) (r : ℕ) (k : String) (v : Val) : Heap :=
  ⟨h.next, fun r' => if r' = r then setItem (h.obj r) k v else h.obj r'⟩

/-- Several assignments `d[k] = v` in order, montecarlo.py:30-90. -/
def Heap.setAll (h : Heap) (r : ℕ) : List (String × Val) → Heap
  | [] => h
  | (k, v) :: l => (h.set r k v).setAll r l

/-- `None` or a dictionary: `None` stands for a fresh default, montecarlo.py:36-45. -/
def orDefault (h : Heap) (dflt : Dict) : Option ℕ → ℕ × Heap
  | none => h.alloc dflt
  | some r => (r, h)

/-- The object's dictionaries.  Used for montecarlo.py:30-90. -/
structure Obj where
  fe : ℕ
  cre : ℕ
  cluster : ℕ
  clean : ℕ

/-- Defaults of the parameter dictionaries.  Used for montecarlo.py:30-90. -/
structure Defaults where
  fe : Dict
  cre : Dict
  cluster : Dict
  clean : Dict

/-- montecarlo.py:62-65. -/
def feSet : List (String × Val) :=
  [("ho", .bool true), ("he", .bool true), ("progress_bars", .bool false), ("verbose", .bool false)]

/-- montecarlo.py:67-72. -/
def cleanSet : List (String × Val) :=
  [("collapse_at_connectedness_measure", .bool true), ("drop_single_stayers", .bool true),
    ("is_sorted", .bool true), ("force", .bool true), ("verbose", .bool false), ("copy", .bool false)]

/-- montecarlo.py:73-83: `collapse=None` is treated as `'spell'`. -/
def connOf : Option String → Py String
  | none => .ok "leave_out_spell"
  | some "spell" => .ok "leave_out_spell"
  | some "match" => .ok "leave_out_match"
  | some _ => .error .value

/-- `MonteCarlo.__init__`, montecarlo.py:30-90.  The simulator's own parameters are not modelled. -/
def init (D : Defaults) (fe cre cluster clean : Option ℕ) (collapse : Option String) (h : Heap) : Py Obj × Heap :=
  let (fe, h) := orDefault h D.fe fe
  let (cre, h) := orDefault h D.cre cre
  let (cluster, h) := orDefault h D.cluster cluster
  let (clean, h) := orDefault h D.clean clean
  let (sfe, h) := h.copy fe
  let (scre, h) := h.copy cre
  let (scluster, h) := h.copy cluster
  let (sclean, h) := h.copy clean
  let h := h.setAll sfe feSet
  let h := h.setAll sclean cleanSet
  match connOf collapse with
  | .error e => (.error e, h)
  | .ok c =>
    let h := h.set sclean "connectedness" (.str c)
    let h := h.setAll scluster [("clean_params", .dict (h.obj sclean)), ("is_sorted", .bool true), ("copy", .bool false)]
    (.ok ⟨sfe, scre, scluster, sclean⟩, h)

/-- What `_monte_carlo_interior` returns: a dictionary of estimates. -/
abbrev Res := String → Option ℝ

/-- montecarlo.py:216-223. -/
def estimators (bs : Bool) : List String :=
  ["var(psi)_true", "var(psi)_fe", "var(psi)_ho", "var(psi)_he", "var(psi)_cre", "cov(psi, alpha)_true",
    "cov(psi, alpha)_fe", "cov(psi, alpha)_ho", "cov(psi, alpha)_he", "cov(psi, alpha)_cre"] ++
  if bs then ["var(psi)_bs1", "var(psi)_bs2", "cov(psi, alpha)_bs1", "cov(psi, alpha)_bs2"] else []

/-- Generators: `step` runs one simulation, changing the generator; `spawn` gives independent children.
Used for montecarlo.py:213 and montecarlo.py:190-230. -/
structure Env where
  G : Type
  run : G → Py Res × G
  spawn : G → ℕ → List G

/-- One core, montecarlo.py:213. -/
def Env.seq (E : Env) : ℕ → E.G → Py (List Res)
  | 0, _ => .ok []
  | n + 1, g => do
    let r ← (E.run g).1
    let rs ← E.seq n (E.run g).2
    .ok (r :: rs)

/-- Writing `v` at position `i` of an array, montecarlo.py:228. -/
def setAt (a : List ℝ) (i : ℕ) (v : ℝ) : List ℝ := a.set i v

/-- The inner loop over estimators, montecarlo.py:227-228. -/
def storeOne (i : ℕ) (r : Res) : List String → (String → List ℝ) → Py (String → List ℝ)
  | [], arr => .ok arr
  | e :: es, arr =>
    match r e with
    | none => .error .key
    | some v => storeOne i r es fun e' => if e' = e then setAt (arr e) i v else arr e'

/-- The outer loop, montecarlo.py:226. -/
def storeAll (es : List String) : ℕ → List Res → (String → List ℝ) → Py (String → List ℝ)
  | _, [], arr => .ok arr
  | i, r :: rs, arr => do
    let arr ← storeOne i r es arr
    storeAll es (i + 1) rs arr

/-- `monte_carlo`, montecarlo.py:190-230; `imap` yields the results in the order of the seeds. -/
def monteCarlo (E : Env) (bs : Bool) (N ncore : ℕ) (g : E.G) : Py (String → List ℝ) := do
  let all ← if 1 < ncore then (E.spawn g N).mapM (fun s => (E.run s).1) else E.seq N g
  storeAll (estimators bs) 0 all fun _ => List.replicate N 0

/-! ## C49: results -/

/-- The simulations whose estimates are stored: independent children of the generator with several cores, successive
states of the generator with one. -/
def gens (E : Env) (N ncore : ℕ) (g : E.G) (i : ℕ) : Option E.G :=
  if 1 < ncore then (E.spawn g N)[i]? else if i < N then some ((fun g => (E.run g).2)^[i] g) else none

theorem mapM_get {α β : Type} (f : α → Py β) : ∀ (l : List α) (r : List β), l.mapM f = .ok r →
    l.length = r.length ∧ ∀ (k : ℕ) a, l[k]? = some a → ∃ b, r[k]? = some b ∧ f a = .ok b := by
  intro l
  induction l with
  | nil =>
    intro r h
    rw [List.mapM_nil] at h
    have : r = [] := by simpa [pure, Except.pure] using h.symm
    rw [this]
    simp
  | cons a l ih =>
    intro r h
    rw [List.mapM_cons] at h
    cases hf : f a with
    | error e => rw [hf] at h; cases h
    | ok b =>
      rw [hf] at h
      cases hl : l.mapM f with
      | error e => rw [hl] at h; cases h
      | ok bs =>
        rw [hl] at h
        have : r = b :: bs := by simpa [pure, Except.pure, bind, Except.bind] using h.symm
        rw [this]
        obtain ⟨h1, h2⟩ := ih bs hl
        refine ⟨by simp [h1], ?_⟩
        intro k c hc
        cases k with
        | zero => simp at hc; exact ⟨b, by simp, hc ▸ hf⟩
        | succ k => simp at hc; obtain ⟨d, e1, e2⟩ := h2 k c hc; exact ⟨d, by simpa using e1, e2⟩

theorem seq_get (E : Env) : ∀ (n : ℕ) (g : E.G) (r : List Res), E.seq n g = .ok r →
    r.length = n ∧ ∀ k < n, ∃ b, r[k]? = some b ∧ (E.run ((fun g => (E.run g).2)^[k] g)).1 = .ok b := by
  intro n
  induction n with
  | zero =>
    intro g r h
    simp only [Env.seq, Except.ok.injEq] at h
    rw [← h]
    simp
  | succ n ih =>
    intro g r h
    unfold Env.seq at h
    cases hf : (E.run g).1 with
    | error e => rw [hf] at h; cases h
    | ok b =>
      rw [hf] at h
      cases hl : E.seq n (E.run g).2 with
      | error e => rw [hl] at h; cases h
      | ok bs =>
        rw [hl] at h
        have : r = b :: bs := by simpa [bind, Except.bind] using h.symm
        rw [this]
        obtain ⟨h1, h2⟩ := ih _ bs hl
        refine ⟨by simp [h1], ?_⟩
        intro k hk
        cases k with
        | zero => exact ⟨b, by simp, hf⟩
        | succ k =>
          obtain ⟨d, e1, e2⟩ := h2 k (by omega)
          exact ⟨d, by simpa using e1, by rw [Function.iterate_succ_apply]; exact e2⟩

theorem storeOne_spec (i : ℕ) (r : Res) : ∀ (es : List String) (arr out : String → List ℝ),
    storeOne i r es arr = .ok out →
    (∀ e, (out e).length = (arr e).length) ∧ (∀ e (j : ℕ), j ≠ i → (out e)[j]? = (arr e)[j]?) ∧
    (∀ e ∈ es, ∃ v, r e = some v ∧ (i < (arr e).length → (out e)[i]? = some v)) ∧ ∀ e ∉ es, out e = arr e := by
  intro es
  induction es with
  | nil =>
    intro arr out h
    simp only [storeOne, Except.ok.injEq] at h
    rw [← h]
    simp
  | cons a es ih =>
    intro arr out h
    unfold storeOne at h
    cases hr : r a with
    | none => rw [hr] at h; cases h
    | some v =>
      rw [hr] at h
      obtain ⟨h1, h2, h3, h4⟩ := ih _ _ h
      refine ⟨?_, ?_, ?_, ?_⟩
      · intro e
        rw [h1]
        split
        · rename_i he; rw [he]; simp [setAt]
        · rfl
      · intro e j hj
        rw [h2 e j hj]
        split
        · rename_i he; rw [he]; simp [setAt, Ne.symm hj]
        · rfl
      · intro e he
        by_cases hes : e ∈ es
        · obtain ⟨w, e1, e2⟩ := h3 e hes
          refine ⟨w, e1, fun hi => e2 ?_⟩
          split
          · rename_i hea; rw [← hea]; simpa [setAt] using hi
          · exact hi
        · have hea : e = a := by
            rw [List.mem_cons] at he
            exact he.resolve_right hes
          subst hea
          refine ⟨v, hr, fun hi => ?_⟩
          rw [h4 e hes, if_pos rfl]
          simp [setAt, hi]
      · intro e he
        rw [List.mem_cons, not_or] at he
        rw [h4 e he.2, if_neg he.1]

theorem storeAll_spec (es : List String) : ∀ (rs : List Res) (i : ℕ) (arr out : String → List ℝ),
    storeAll es i rs arr = .ok out →
    (∀ e, (out e).length = (arr e).length) ∧ (∀ e (j : ℕ), j < i → (out e)[j]? = (arr e)[j]?) ∧
    ∀ (k : ℕ) r, rs[k]? = some r → ∀ e ∈ es, ∃ v, r e = some v ∧ (i + k < (arr e).length → (out e)[i + k]? = some v) := by
  intro rs
  induction rs with
  | nil =>
    intro i arr out h
    simp only [storeAll, Except.ok.injEq] at h
    rw [← h]
    simp
  | cons r rs ih =>
    intro i arr out h
    unfold storeAll at h
    cases h1 : storeOne i r es arr with
    | error e => rw [h1] at h; cases h
    | ok arr' =>
      rw [h1] at h
      obtain ⟨a1, a2, a3⟩ := ih (i + 1) arr' out h
      obtain ⟨b1, b2, b3, -⟩ := storeOne_spec i r es arr arr' h1
      refine ⟨fun e => by rw [a1, b1], fun e j hj => by rw [a2 e j (by omega), b2 e j (by omega)], ?_⟩
      intro k r' hk e he
      cases k with
      | zero =>
        simp at hk
        subst hk
        obtain ⟨v, hv, hv'⟩ := b3 e he
        refine ⟨v, hv, fun hi => ?_⟩
        rw [a2 e _ (by omega)]
        exact hv' hi
      | succ k =>
        simp at hk
        obtain ⟨v, hv, hv'⟩ := a3 k r' hk e he
        refine ⟨v, hv, fun hi => ?_⟩
        have := hv' (by rw [b1]; omega)
        rwa [show i + 1 + k = i + (k + 1) by omega] at this

/-- C49: with one or several cores, every array has one entry per simulation and entry `i` is the estimate of the
simulation run with the `i`-th generator. -/
theorem C49_positions (E : Env) (hspawn : ∀ g n, (E.spawn g n).length = n) (bs : Bool) (N ncore : ℕ) (g : E.G)
    (out : String → List ℝ) (h : monteCarlo E bs N ncore g = .ok out) :
    ∀ e ∈ estimators bs, (out e).length = N ∧
      ∀ i < N, ∃ gi r v, gens E N ncore g i = some gi ∧ (E.run gi).1 = .ok r ∧ r e = some v ∧ (out e)[i]? = some v := by
  unfold monteCarlo at h
  have hall : ∃ all : List Res, all.length = N ∧
      (∀ i < N, ∃ gi r, gens E N ncore g i = some gi ∧ (E.run gi).1 = .ok r ∧ all[i]? = some r) ∧
      storeAll (estimators bs) 0 all (fun _ => List.replicate N 0) = .ok out := by
    by_cases hn : 1 < ncore
    · rw [if_pos hn] at h
      cases ha : (E.spawn g N).mapM (fun s => (E.run s).1) with
      | error e => rw [ha] at h; cases h
      | ok all =>
        rw [ha] at h
        obtain ⟨h1, h2⟩ := mapM_get _ _ _ ha
        rw [hspawn] at h1
        refine ⟨all, h1.symm, ?_, h⟩
        intro i hi
        have hi' : i < (E.spawn g N).length := by rw [hspawn]; exact hi
        obtain ⟨r, hr, hr'⟩ := h2 i (E.spawn g N)[i] (by simp [hi'])
        exact ⟨_, r, by unfold gens; rw [if_pos hn]; simp [hi'], hr', hr⟩
    · rw [if_neg hn] at h
      cases ha : E.seq N g with
      | error e => rw [ha] at h; cases h
      | ok all =>
        rw [ha] at h
        obtain ⟨h1, h2⟩ := seq_get E N g all ha
        refine ⟨all, h1, ?_, h⟩
        intro i hi
        obtain ⟨r, hr, hr'⟩ := h2 i hi
        exact ⟨_, r, by unfold gens; rw [if_neg hn, if_pos hi], hr', hr⟩
  obtain ⟨all, hl, hg, hs⟩ := hall
  obtain ⟨s1, -, s3⟩ := storeAll_spec _ _ _ _ _ hs
  intro e he
  refine ⟨by rw [s1]; simp, ?_⟩
  intro i hi
  obtain ⟨gi, r, h1, h2, h3⟩ := hg i hi
  obtain ⟨v, hv, hv'⟩ := s3 i r h3 e he
  refine ⟨gi, r, v, h1, h2, hv, ?_⟩
  have := hv' (by simpa using hi)
  simpa using this

/-- The estimators stored are the documented ones. -/
theorem C49_estimators (bs : Bool) (e : String) : e ∈ estimators bs ↔
    ∃ q ∈ ["var(psi)_", "cov(psi, alpha)_"], ∃ m ∈ ["true", "fe", "ho", "he", "cre", "bs1", "bs2"],
      e = q ++ m ∧ (m = "bs1" ∨ m = "bs2" → bs = true) := by
  cases bs <;>
    simp only [estimators, List.mem_cons, List.not_mem_nil, or_false, exists_eq_or_imp, List.mem_append,
      if_true, exists_eq_left, Bool.false_eq_true, if_false, imp_false, not_or, implies_true, and_true] <;>
    simp <;> tauto

/-- Two simulations with two cores: a generator is a number, its estimates are that number. -/
example : ∃ out, monteCarlo ⟨ℕ, fun g => (.ok fun _ => some (g : ℝ), g + 1), fun g n => List.range' g n⟩ true 2 2 5 = .ok out := by
  unfold monteCarlo
  rw [if_pos (by norm_num)]
  exact ⟨_, rfl⟩

/-- The same on one core. -/
example : ∃ out, monteCarlo ⟨ℕ, fun g => (.ok fun _ => some (g : ℝ), g + 1), fun g n => List.range' g n⟩ true 2 1 5 = .ok out := by
  unfold monteCarlo
  rw [if_neg (by norm_num)]
  exact ⟨_, rfl⟩

/-! ## C49: parameters -/

/-- `d` after the listed assignments. -/
def assigned (d : Dict) : List (String × Val) → Dict
  | [] => d
  | (k, v) :: l => assigned (setItem d k v) l

theorem assigned_of_not_mem (l : List (String × Val)) : ∀ (d : Dict) (k : String), (∀ p ∈ l, p.1 ≠ k) →
    assigned d l k = d k := by
  induction l with
  | nil => intro d k _; rfl
  | cons p l ih =>
    intro d k h
    show assigned (setItem d p.1 p.2) l k = _
    rw [ih _ k fun q hq => h q (by simp [hq])]
    unfold setItem
    rw [if_neg (Ne.symm (h p (by simp)))]

theorem setAll_obj (r : ℕ) : ∀ (l : List (String × Val)) (h : Heap),
    h.setAll r l = ⟨h.next, fun r' => if r' = r then assigned (h.obj r) l else h.obj r'⟩ := by
  intro l
  induction l with
  | nil =>
    intro h
    show h = _
    obtain ⟨n, o⟩ := h
    congr 1
    funext r'
    by_cases hr : r' = r
    · rw [hr]; simp [assigned]
    · simp [hr]
  | cons p l ih =>
    intro h
    show (h.set r p.1 p.2).setAll r l = _
    rw [ih]
    congr 1
    funext r'
    by_cases hr : r' = r
    · simp [hr, Heap.set, assigned]
    · simp [hr, Heap.set]

/-- The dictionary a caller passed, or the default. -/
def given (h : Heap) (dflt : Dict) : Option ℕ → Dict
  | none => dflt
  | some r => h.obj r

theorem orDefault_spec (h : Heap) (d : Dict) (o : Option ℕ) (ho : ∀ r ∈ o, r < h.next) :
    (orDefault h d o).1 < (orDefault h d o).2.next ∧ h.next ≤ (orDefault h d o).2.next ∧
    (∀ r < h.next, (orDefault h d o).2.obj r = h.obj r) ∧
    (orDefault h d o).2.obj (orDefault h d o).1 = given h d o := by
  cases o with
  | none =>
    refine ⟨Nat.lt_succ_self _, Nat.le_succ _, ?_, ?_⟩
    · intro r hr
      show (if r = h.next then d else h.obj r) = _
      rw [if_neg (by omega)]
    · show (if h.next = h.next then d else _) = _
      rw [if_pos rfl]
      rfl
  | some r => exact ⟨ho r rfl, le_rfl, fun _ _ => rfl, rfl⟩

theorem assigned_fe (d : Dict) (k : String) : assigned d feSet k =
    if k = "ho" ∨ k = "he" then some (.bool true)
      else if k = "progress_bars" ∨ k = "verbose" then some (.bool false) else d k := by
  simp only [assigned, feSet, setItem]
  by_cases h1 : k = "verbose"
  · subst h1; simp
  by_cases h2 : k = "progress_bars"
  · subst h2; simp
  by_cases h3 : k = "he"
  · subst h3; simp
  by_cases h4 : k = "ho"
  · subst h4; simp
  simp only [h1, h2, h3, h4, if_false, or_false]

theorem assigned_clean (d : Dict) (c : String) (k : String) :
    setItem (assigned d cleanSet) "connectedness" (.str c) k =
    if k = "connectedness" then some (.str c)
      else if k = "collapse_at_connectedness_measure" ∨ k = "drop_single_stayers" ∨ k = "is_sorted" ∨ k = "force"
        then some (.bool true)
      else if k = "verbose" ∨ k = "copy" then some (.bool false) else d k := by
  simp only [assigned, cleanSet, setItem]
  by_cases h0 : k = "connectedness"
  · subst h0; simp
  by_cases h1 : k = "verbose"
  · subst h1; simp
  by_cases h2 : k = "copy"
  · subst h2; simp
  by_cases h3 : k = "force"
  · subst h3; simp
  by_cases h4 : k = "is_sorted"
  · subst h4; simp
  by_cases h5 : k = "drop_single_stayers"
  · subst h5; simp
  by_cases h6 : k = "collapse_at_connectedness_measure"
  · subst h6; simp
  simp only [h0, h1, h2, h3, h4, h5, h6, if_false, or_false]

theorem assigned_cluster (d e : Dict) (k : String) :
    assigned d [("clean_params", .dict e), ("is_sorted", .bool true), ("copy", .bool false)] k =
    if k = "clean_params" then some (.dict e)
      else if k = "is_sorted" then some (.bool true) else if k = "copy" then some (.bool false) else d k := by
  simp only [assigned, setItem]
  by_cases h0 : k = "clean_params"
  · subst h0; simp
  by_cases h1 : k = "is_sorted"
  · subst h1; simp
  by_cases h2 : k = "copy"
  · subst h2; simp
  simp only [h0, h1, h2, if_false]

/-- C49: the estimation uses the given parameters (or the defaults) with exactly the documented keys overridden, the
clustering step cleans with the same cleaning parameters, and the caller's dictionaries, whichever of them are shared,
do not change. -/
theorem C49_parameters (D : Defaults) (fe cre cluster clean : Option ℕ) (collapse : Option String) (h : Heap)
    (hfe : ∀ r ∈ fe, r < h.next) (hcre : ∀ r ∈ cre, r < h.next) (hcl : ∀ r ∈ cluster, r < h.next)
    (hclean : ∀ r ∈ clean, r < h.next) (o : Obj) (h' : Heap)
    (hi : init D fe cre cluster clean collapse h = (.ok o, h')) :
    (∀ r < h.next, h'.obj r = h.obj r) ∧
    (∀ k, h'.obj o.fe k = if k = "ho" ∨ k = "he" then some (.bool true)
      else if k = "progress_bars" ∨ k = "verbose" then some (.bool false) else given h D.fe fe k) ∧
    h'.obj o.cre = given h D.cre cre ∧
    (∀ k, h'.obj o.clean k =
      if k = "connectedness" then some (.str (if collapse = some "match" then "leave_out_match" else "leave_out_spell"))
      else if k = "collapse_at_connectedness_measure" ∨ k = "drop_single_stayers" ∨ k = "is_sorted" ∨ k = "force"
        then some (.bool true)
      else if k = "verbose" ∨ k = "copy" then some (.bool false) else given h D.clean clean k) ∧
    (∀ k, h'.obj o.cluster k = if k = "clean_params" then some (.dict (h'.obj o.clean))
      else if k = "is_sorted" then some (.bool true) else if k = "copy" then some (.bool false)
      else given h D.cluster cluster k) ∧
    (collapse = none ∨ collapse = some "spell" ∨ collapse = some "match") := by
  unfold init at hi
  obtain ⟨a1, a2, a3, a4⟩ := orDefault_spec h D.fe fe hfe
  generalize orDefault h D.fe fe = p1 at *
  obtain ⟨rfe, h1⟩ := p1
  dsimp only at *
  obtain ⟨b1, b2, b3, b4⟩ := orDefault_spec h1 D.cre cre (fun r hr => lt_of_lt_of_le (hcre r hr) a2)
  have b5 : given h1 D.cre cre = given h D.cre cre := by
    cases cre with
    | none => rfl
    | some r => exact a3 r (hcre r rfl)
  rw [b5] at b4
  generalize orDefault h1 D.cre cre = p2 at *
  obtain ⟨rcre, h2⟩ := p2
  dsimp only at *
  obtain ⟨c1, c2, c3, c4⟩ := orDefault_spec h2 D.cluster cluster
    (fun r hr => lt_of_lt_of_le (hcl r hr) (a2.trans b2))
  have c5 : given h2 D.cluster cluster = given h D.cluster cluster := by
    cases cluster with
    | none => rfl
    | some r => exact (b3 r (lt_of_lt_of_le (hcl r rfl) a2)).trans (a3 r (hcl r rfl))
  rw [c5] at c4
  generalize orDefault h2 D.cluster cluster = p3 at *
  obtain ⟨rcl, h3⟩ := p3
  dsimp only at *
  obtain ⟨d1, d2, d3, d4⟩ := orDefault_spec h3 D.clean clean
    (fun r hr => lt_of_lt_of_le (hclean r hr) ((a2.trans b2).trans c2))
  have d5 : given h3 D.clean clean = given h D.clean clean := by
    cases clean with
    | none => rfl
    | some r =>
      have hr := hclean r rfl
      exact (c3 r (by omega)).trans ((b3 r (by omega)).trans (a3 r hr))
  rw [d5] at d4
  generalize orDefault h3 D.clean clean = p4 at *
  obtain ⟨rclean, h4⟩ := p4
  dsimp only at *
  have e1 : h4.obj rfe = given h D.fe fe := by
    rw [d3 rfe (by omega), c3 rfe (by omega), b3 rfe (by omega), a4]
  have e2 : h4.obj rcre = given h D.cre cre := by
    rw [d3 rcre (by omega), c3 rcre (by omega), b4]
  have e3 : h4.obj rcl = given h D.cluster cluster := by
    rw [d3 rcl (by omega), c4]
  have e5 : ∀ r < h.next, h4.obj r = h.obj r := by
    intro r hr
    rw [d3 r (by omega), c3 r (by omega), b3 r (by omega), a3 r hr]
  have f1 : h.next ≤ h4.next := by omega
  have f2 : rfe < h4.next := by omega
  have f3 : rcre < h4.next := by omega
  have f4 : rcl < h4.next := by omega
  obtain ⟨n, ob⟩ := h4
  clear a1 a2 a3 a4 b1 b2 b3 b4 b5 c1 c2 c3 c4 c5 d2 d3 d5 h1 h2 h3
  dsimp only at e1 e2 e3 d4 e5 f1 f2 f3 f4 d1
  cases hcon : connOf collapse with
  | error e => rw [hcon] at hi; simp at hi
  | ok c =>
    rw [hcon] at hi
    have hcol : (collapse = none ∨ collapse = some "spell" ∨ collapse = some "match") ∧
        c = if collapse = some "match" then "leave_out_match" else "leave_out_spell" := by
      unfold connOf at hcon
      split at hcon
      · cases hcon; simp
      · cases hcon; simp
      · cases hcon; simp
      · cases hcon
    rw [← hcol.2]
    simp only [setAll_obj, Heap.copy, Heap.alloc, Heap.set, Prod.mk.injEq, Except.ok.injEq] at hi
    obtain ⟨rfl, rfl⟩ := hi
    have g2 : rcre ≠ n := by omega
    have g3 : rcl ≠ n := by omega
    have g3' : rcl ≠ n + 1 := by omega
    have g4 : rclean ≠ n := by omega
    have g4' : rclean ≠ n + 1 := by omega
    have g4'' : rclean ≠ n + 1 + 1 := by omega
    refine ⟨?_, ?_, ?_, ?_, ?_, hcol.1⟩
    · intro r hr
      have k1 : r ≠ n := by omega
      have k2 : r ≠ n + 1 := by omega
      have k3 : r ≠ n + 1 + 1 := by omega
      have k4 : r ≠ n + 1 + 1 + 1 := by omega
      simp [k1, k2, k3, k4, e5 r hr]
    · intro k
      have k1 : n ≠ n + 1 + 1 := by omega
      have k2 : n ≠ n + 1 + 1 + 1 := by omega
      simp only [if_true, k1, k2, Nat.ne_add_one, if_false, g2, g3, g3', g4, g4', g4'']
      rw [assigned_fe, e1]
    · have k1 : n + 1 ≠ n := by omega
      have k2 : n + 1 ≠ n + 1 + 1 + 1 := by omega
      simp only [if_true, k1, k2, Nat.ne_add_one, if_false, g2, g3, g3', g4, g4', g4'']
      exact e2
    · intro k
      have k1 : n + 1 + 1 + 1 ≠ n := by omega
      have k2 : n + 1 + 1 + 1 ≠ n + 1 := by omega
      have k3 : n + 1 + 1 + 1 ≠ n + 1 + 1 := by omega
      simp only [if_true, k1, k2, k3, Nat.ne_add_one, if_false, g2, g3, g3', g4, g4', g4'']
      rw [assigned_clean, d4]
    · intro k
      have k1 : n + 1 + 1 + 1 ≠ n := by omega
      have k2 : n + 1 + 1 + 1 ≠ n + 1 := by omega
      have k3 : n + 1 + 1 + 1 ≠ n + 1 + 1 := by omega
      have k4 : n + 1 + 1 ≠ n := by omega
      have k5 : n + 1 + 1 ≠ n + 1 := by omega
      simp only [if_true, k1, k2, k3, k4, k5, Nat.ne_add_one, if_false, g2, g3, g3', g4, g4', g4'']
      rw [assigned_cluster, e3]

/-- C49: any other way of collapsing raises `ValueError`, leaving the caller's dictionaries alone. -/
theorem C49_collapse_raises (D : Defaults) (fe cre cluster clean : Option ℕ) (c : String) (h : Heap)
    (h1 : c ≠ "spell") (h2 : c ≠ "match") : (init D fe cre cluster clean (some c) h).1 = .error .value := by
  have hc : connOf (some c) = .error .value := by
    unfold connOf
    split
    · rename_i h; cases h
    · rename_i h; cases h; exact absurd rfl h1
    · rename_i h; cases h; exact absurd rfl h2
    · rfl
  unfold init
  simp only [hc]

/-- The caller passes one dictionary for both cleaning and clustering. -/
example : ∃ o h', init ⟨fun _ => none, fun _ => none, fun _ => none, fun _ => none⟩ none none (some 0) (some 0)
    (some "match") ⟨1, fun _ _ => some (.other 7)⟩ = (.ok o, h') := ⟨_, _, rfl⟩

/-! ## C81: the histogram -/

/-- Smallest error over the plotted estimators, montecarlo.py:299-308, then widened, 309-310. -/
noncomputable def lowBound (errs : List (List ℝ)) (a : ℝ) : ℝ :=
  let m := errs.foldl (fun acc l => min acc (l.foldl min (l.headD 0))) a
  m * ((if m ≤ 0 then 1 else 0) * 1.05 + (if 0 < m then 1 else 0) * 0.95)

/-- Largest error, widened, montecarlo.py:311-312. -/
noncomputable def highBound (errs : List (List ℝ)) (a : ℝ) : ℝ :=
  let m := errs.foldl (fun acc l => max acc (l.foldl max (l.headD 0))) a
  m * ((if m ≤ 0 then 1 else 0) * 0.95 + (if 0 < m then 1 else 0) * 1.05)

theorem foldl_min_le (l : List ℝ) : ∀ a, l.foldl min a ≤ a ∧ ∀ x ∈ l, l.foldl min a ≤ x := by
  induction l with
  | nil => simp
  | cons b l ih =>
    intro a
    rw [List.foldl_cons]
    obtain ⟨h1, h2⟩ := ih (min a b)
    refine ⟨h1.trans (min_le_left _ _), ?_⟩
    intro x hx
    rw [List.mem_cons] at hx
    rcases hx with rfl | hx
    · exact h1.trans (min_le_right _ _)
    · exact h2 x hx

theorem le_foldl_max (l : List ℝ) : ∀ a, a ≤ l.foldl max a ∧ ∀ x ∈ l, x ≤ l.foldl max a := by
  induction l with
  | nil => simp
  | cons b l ih =>
    intro a
    rw [List.foldl_cons]
    obtain ⟨h1, h2⟩ := ih (max a b)
    refine ⟨(le_max_left _ _).trans h1, ?_⟩
    intro x hx
    rw [List.mem_cons] at hx
    rcases hx with rfl | hx
    · exact (le_max_right _ _).trans h1
    · exact h2 x hx

/-- C81: every plotted estimation error lies in the range of the histogram.  The starting values `±inf` are any
numbers here. -/
theorem C81_range (errs : List (List ℝ)) (a b : ℝ) : ∀ l ∈ errs, ∀ x ∈ l, lowBound errs a ≤ x ∧ x ≤ highBound errs b := by
  have hlow : ∀ (errs : List (List ℝ)) (a : ℝ),
      errs.foldl (fun acc l => min acc (l.foldl min (l.headD 0))) a ≤ a ∧
      ∀ l ∈ errs, ∀ x ∈ l, errs.foldl (fun acc l => min acc (l.foldl min (l.headD 0))) a ≤ x := by
    intro errs
    induction errs with
    | nil => simp
    | cons l0 errs ih =>
      intro a
      rw [List.foldl_cons]
      obtain ⟨h1, h2⟩ := ih (min a (l0.foldl min (l0.headD 0)))
      refine ⟨h1.trans (min_le_left _ _), ?_⟩
      intro l hl x hx
      rw [List.mem_cons] at hl
      rcases hl with rfl | hl
      · exact h1.trans ((min_le_right _ _).trans ((foldl_min_le l _).2 x hx))
      · exact h2 l hl x hx
  have hhigh : ∀ (errs : List (List ℝ)) (a : ℝ),
      a ≤ errs.foldl (fun acc l => max acc (l.foldl max (l.headD 0))) a ∧
      ∀ l ∈ errs, ∀ x ∈ l, x ≤ errs.foldl (fun acc l => max acc (l.foldl max (l.headD 0))) a := by
    intro errs
    induction errs with
    | nil => simp
    | cons l0 errs ih =>
      intro a
      rw [List.foldl_cons]
      obtain ⟨h1, h2⟩ := ih (max a (l0.foldl max (l0.headD 0)))
      refine ⟨(le_max_left _ _).trans h1, ?_⟩
      intro l hl x hx
      rw [List.mem_cons] at hl
      rcases hl with rfl | hl
      · exact ((le_foldl_max l _).2 x hx).trans ((le_max_right _ _).trans h1)
      · exact h2 l hl x hx
  intro l hl x hx
  refine ⟨?_, ?_⟩
  · have h := (hlow errs a).2 l hl x hx
    unfold lowBound
    dsimp only
    generalize errs.foldl (fun acc l => min acc (l.foldl min (l.headD 0))) a = m at *
    rcases le_or_gt m 0 with hm | hm
    · rw [if_pos hm, if_neg (not_lt.mpr hm)]
      nlinarith
    · rw [if_neg (not_le.mpr hm), if_pos hm]
      nlinarith
  · have h := (hhigh errs b).2 l hl x hx
    unfold highBound
    dsimp only
    generalize errs.foldl (fun acc l => max acc (l.foldl max (l.headD 0))) b = m at *
    rcases le_or_gt m 0 with hm | hm
    · rw [if_pos hm, if_neg (not_lt.mpr hm)]
      nlinarith
    · rw [if_neg (not_le.mpr hm), if_pos hm]
      nlinarith

end Pytwoway.MonteCarlo
