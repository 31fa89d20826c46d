import Verif.BLM.Sort

/-! # Restoring what a method borrowed: `BLMBootstrap.fit`, `BLMVarianceDecomposition.fit` (C39) and
`fit_A`, `fit_S`, `fit_pk`, `fit_movers_cstr_uncstr` (C40)

A method that may raise returns the outcome together with the state at the time of return or raise.
Steps outside the modelled code (simulation, clustering, estimation) are arbitrary functions of the
current data that return or raise; so every crash point is covered. -/

namespace Pytwoway.BLM

/-! ## Bootstrap and variance decomposition: model -/

/-- The columns of a data frame that these methods touch (`V` is the type of column contents), and
whether it has a time column.  Used for blm.py:2583-2585. -/
structure DF (V : Type) where
  y1 : V
  y2 : V
  g1 : V
  g2 : V
  j1 : V
  j2 : V
  i : V
  hasT : Bool

/-- The movers' and stayers' data passed in by the user.  Used for blm.py:2583-2585 and blm.py:2595-2600. -/
structure Frames (V : Type) where
  J : DF V
  S : DF V

/-- The outside steps of one bootstrap sample, by its number: simulated wages (movers' two periods,
stayers), new clusters (of `j1`, `j2` of movers and `j1` of stayers), estimation.
Used for blm.py:2580-2605 and blm.py:2558-2612. -/
structure BootSteps (V : Type) where
  initial : Frames V → Py Unit
  sim : ℕ → Frames V → Py (V × V × V)
  cluster : ℕ → Frames V → Py (V × V × V)
  fit : ℕ → Frames V → Py Unit

variable {V : Type}

/-- blm.py:2583-2585 and 2812-2814. -/
def setWages (f : Frames V) (y : V × V × V) : Frames V :=
  ⟨{ f.J with y1 := y.1, y2 := y.2.1 }, { f.S with y1 := y.2.2, y2 := y.2.2 }⟩

/-- blm.py:2595-2600. -/
def setClusters (f : Frames V) (g : V × V × V) : Frames V :=
  ⟨{ f.J with g1 := g.1, g2 := g.2.1 }, { f.S with g1 := g.2.2, g2 := g.2.2 }⟩

/-- blm.py:2580-2605: samples `k, k + 1, ...` (`n` of them). -/
def bootLoop (s : BootSteps V) : (n k : ℕ) → Frames V → Py Unit × Frames V
  | 0, _, f => (.ok (), f)
  | n + 1, k, f =>
    match s.sim k f with
    | .error e => (.error e, f)
    | .ok y =>
      let f1 := setWages f y
      match s.cluster k f1 with
      | .error e => (.error e, f1)
      | .ok g =>
        let f2 := setClusters f1 g
        match s.fit k f2 with
        | .error e => (.error e, f2)
        | .ok () => bootLoop s n (k + 1) f2

/-- `BLMBootstrap.fit` with `method='parametric'`, blm.py:2558-2612. -/
def bootParametric (s : BootSteps V) (haveModel : Bool) (n : ℕ) (f : Frames V) : Py Unit × Frames V :=
  let orig := f
  match (if haveModel then .ok () else s.initial f) with
  | .error e => (.error e, f)
  | .ok () =>
    match bootLoop s n 0 f with
    | (.error e, f') => (.error e, f')
    | (.ok (), f') =>
      (.ok (), ⟨{ f'.J with y1 := orig.J.y1, y2 := orig.J.y2, g1 := orig.J.g1, g2 := orig.J.g2 },
        { f'.S with y1 := orig.S.y1, y2 := orig.S.y2, g1 := orig.S.g1, g2 := orig.S.g1 }⟩)

/-- `method='standard'`, blm.py:2613-2643: every sample is drawn, cleaned, clustered and fitted on
copies (`run k` is one such sample). -/
def bootStandard (run : ℕ → Frames V → Py Unit) : (n k : ℕ) → Frames V → Py Unit × Frames V
  | 0, _, f => (.ok (), f)
  | n + 1, k, f =>
    match run k f with
    | .error e => (.error e, f)
    | .ok () => bootStandard run n (k + 1) f

/-- The values of the method argument, blm.py:2527-2647. -/
inductive Method | parametric | standard | other

/-- `BLMBootstrap.fit`, blm.py:2527-2647. -/
def bootstrap (m : Method) (s : BootSteps V) (run : ℕ → Frames V → Py Unit) (haveModel : Bool) (n : ℕ)
    (f : Frames V) : Py Unit × Frames V :=
  match m with
  | .parametric => bootParametric s haveModel n f
  | .standard => bootStandard run n 0 f
  | .other => (.error "ValueError", f)

/-- The outside steps of one variance-decomposition sample: simulated wages and worker types (movers,
stayers), and the estimation.  Used for blm.py:2867-2888 and blm.py:2781-2912. -/
structure VdSteps (V : Type) where
  initial : Frames V → Py Unit
  sim : ℕ → Frames V → Py ((V × V × V) × (V × V))
  fit : ℕ → Frames V → Py Unit

/-- blm.py:2867-2888. -/
def vdLoop (s : VdSteps V) (typesAsIds : Bool) : (n k : ℕ) → Frames V → Py Unit × Frames V
  | 0, _, f => (.ok (), f)
  | n + 1, k, f =>
    match s.sim k f with
    | .error e => (.error e, f)
    | .ok (y, l) =>
      let f1 := if typesAsIds then ⟨{ f.J with i := l.1 }, { f.S with i := l.2 }⟩ else f
      let f2 := setWages f1 y
      match s.fit k f2 with
      | .error e => (.error e, f2)
      | .ok () => vdLoop s typesAsIds n (k + 1) f2

/-- `BLMVarianceDecomposition.fit`, blm.py:2781-2912, from the first change to the data (line 2835) on.
A missing time column is added in place and dropped at the end; unpacking the results reads
`res_lst[0]` and so raises without samples. -/
def varDecomp (s : VdSteps V) (clustersAsIds typesAsIds haveModel : Bool) (n : ℕ) (f : Frames V) :
    Py Unit × Frames V :=
  let orig := f
  let f1 : Frames V := if clustersAsIds then
    ⟨{ f.J with j1 := f.J.g1, j2 := f.J.g2 }, { f.S with j1 := f.S.g1, j2 := f.S.g1 }⟩ else f
  let f2 : Frames V := ⟨{ f1.J with hasT := true }, { f1.S with hasT := true }⟩
  match (if haveModel then .ok () else s.initial f2) with
  | .error e => (.error e, f2)
  | .ok () =>
    match vdLoop s typesAsIds n 0 f2 with
    | (.error e, f') => (.error e, f')
    | (.ok (), f') =>
      let f3 : Frames V := ⟨{ f'.J with y1 := orig.J.y1, y2 := orig.J.y2 },
        { f'.S with y1 := orig.S.y1, y2 := orig.S.y2 }⟩
      let f4 : Frames V := if clustersAsIds then
        ⟨{ f3.J with j1 := orig.J.j1, j2 := orig.J.j2 },
          { f3.S with j1 := orig.S.j1, j2 := orig.S.j1 }⟩ else f3
      let f5 : Frames V := if typesAsIds then
        ⟨{ f4.J with i := orig.J.i }, { f4.S with i := orig.S.i }⟩ else f4
      if n = 0 then (.error "IndexError", f5)
      else (.ok (), ⟨{ f5.J with hasT := orig.J.hasT }, { f5.S with hasT := orig.S.hasT }⟩)

/-! ## C39 -/

/-- Columns the bootstrap does not touch. -/
theorem bootLoop_rest (s : BootSteps V) (n k : ℕ) (f : Frames V) :
    let f' := (bootLoop s n k f).2
    f'.J.j1 = f.J.j1 ∧ f'.J.j2 = f.J.j2 ∧ f'.J.i = f.J.i ∧ f'.J.hasT = f.J.hasT ∧
    f'.S.j1 = f.S.j1 ∧ f'.S.j2 = f.S.j2 ∧ f'.S.i = f.S.i ∧ f'.S.hasT = f.S.hasT := by
  induction n generalizing k f with
  | zero => simp [bootLoop]
  | succ n ih =>
    unfold bootLoop
    dsimp only
    split
    · simp
    · split
      · simp [setWages]
      · split
        · simp [setWages, setClusters]
        · rename_i y _ _ g _ _ _
          have := ih (k + 1) (setClusters (setWages f y) g)
          simpa [setWages, setClusters] using this

/-- C39 (partial: normal returns only).  When the bootstrap returns, movers' and stayers' data are
exactly what they were (a stayer's two firm types agree). -/
theorem C39_bootstrap_partial (m : Method) (s : BootSteps V) (run : ℕ → Frames V → Py Unit)
    (haveModel : Bool) (n : ℕ) (f : Frames V) (hS : f.S.g2 = f.S.g1)
    (h : (bootstrap m s run haveModel n f).1 = .ok ()) : (bootstrap m s run haveModel n f).2 = f := by
  cases m with
  | other => rfl
  | standard =>
    have : ∀ n k, (bootStandard run n k f).2 = f := by
      intro n
      induction n with
      | zero => intro k; rfl
      | succ n ih =>
        intro k
        unfold bootStandard
        split
        · rfl
        · exact ih _
    exact this n 0
  | parametric =>
    simp only [bootstrap, bootParametric] at h ⊢
    split at h
    · cases h
    · split at h
      · cases h
      · rename_i f' he
        have := bootLoop_rest s n 0 f
        rw [he] at this
        simp only at this
        obtain ⟨⟨a1, a2, a3, a4, a5, a6, a7, a8⟩, ⟨b1, b2, b3, b4, b5, b6, b7, b8⟩⟩ := f
        simp_all

/-- C39: the standard bootstrap, and an unknown method, leave the data alone even when something
raises. -/
theorem C39_standard (s : BootSteps V) (run : ℕ → Frames V → Py Unit) (haveModel : Bool) (n : ℕ)
    (f : Frames V) : (bootstrap .standard s run haveModel n f).2 = f ∧
    bootstrap .other s run haveModel n f = (.error "ValueError", f) := by
  refine ⟨?_, rfl⟩
  have : ∀ n k, (bootStandard run n k f).2 = f := by
    intro n
    induction n with
    | zero => intro k; rfl
    | succ n ih =>
      intro k
      unfold bootStandard
      split
      · rfl
      · exact ih _
  exact this n 0

/-- C39 fails: if estimating on the first simulated sample raises, the user's data are left holding the
simulated wages and the clusters found on them. -/
theorem C39_bootstrap_crash (s : BootSteps V) (run : ℕ → Frames V → Py Unit) (n : ℕ) (f : Frames V)
    (y g : V × V × V) (e : String) (hs : s.sim 0 f = .ok y)
    (hc : s.cluster 0 (setWages f y) = .ok g)
    (hf : s.fit 0 (setClusters (setWages f y) g) = .error e) :
    bootstrap .parametric s run true (n + 1) f =
      (.error e, ⟨{ f.J with y1 := y.1, y2 := y.2.1, g1 := g.1, g2 := g.2.1 },
        { f.S with y1 := y.2.2, y2 := y.2.2, g1 := g.2.2, g2 := g.2.2 }⟩) := by
  simp only [bootstrap, bootParametric, if_true, bootLoop, hs, hc, hf]
  rfl

theorem vdLoop_rest (s : VdSteps V) (ids : Bool) (n k : ℕ) (f : Frames V) :
    let f' := (vdLoop s ids n k f).2
    f'.J.j1 = f.J.j1 ∧ f'.J.j2 = f.J.j2 ∧ f'.J.g1 = f.J.g1 ∧ f'.J.g2 = f.J.g2 ∧
    f'.S.j1 = f.S.j1 ∧ f'.S.j2 = f.S.j2 ∧ f'.S.g1 = f.S.g1 ∧ f'.S.g2 = f.S.g2 ∧
    (ids = false → f'.J.i = f.J.i ∧ f'.S.i = f.S.i) := by
  induction n generalizing k f with
  | zero => simp [vdLoop]
  | succ n ih =>
    unfold vdLoop
    dsimp only
    cases s.sim k f with
    | error e => simp
    | ok r =>
      obtain ⟨y, l⟩ := r
      cases ids with
      | false =>
        simp only [Bool.false_eq_true, if_false]
        cases s.fit k (setWages f y) with
        | error e => simp [setWages]
        | ok _ =>
          have := ih (k + 1) (setWages f y)
          simpa [setWages] using this
      | true =>
        simp only [if_true]
        cases s.fit k (setWages ⟨{ f.J with i := l.1 }, { f.S with i := l.2 }⟩ y) with
        | error e => simp [setWages]
        | ok _ =>
          have := ih (k + 1) (setWages ⟨{ f.J with i := l.1 }, { f.S with i := l.2 }⟩ y)
          simpa [setWages] using this

/-- C39 (partial: normal returns only).  When the variance decomposition returns, the data are exactly
what they were (a stayer's two firms agree). -/
theorem C39_vardec_partial (s : VdSteps V) (clustersAsIds typesAsIds haveModel : Bool) (n : ℕ)
    (f : Frames V) (hS : f.S.j2 = f.S.j1)
    (h : (varDecomp s clustersAsIds typesAsIds haveModel n f).1 = .ok ()) :
    (varDecomp s clustersAsIds typesAsIds haveModel n f).2 = f := by
  simp only [varDecomp] at h ⊢
  split at h
  · cases h
  · split at h
    · cases h
    · rename_i f' he
      have := vdLoop_rest s typesAsIds n 0 (⟨{ (if clustersAsIds then
        (⟨{ f.J with j1 := f.J.g1, j2 := f.J.g2 }, { f.S with j1 := f.S.g1, j2 := f.S.g1 }⟩ : Frames V)
        else f).J with hasT := true }, { (if clustersAsIds then
        (⟨{ f.J with j1 := f.J.g1, j2 := f.J.g2 }, { f.S with j1 := f.S.g1, j2 := f.S.g1 }⟩ : Frames V)
        else f).S with hasT := true }⟩ : Frames V)
      rw [he] at this
      simp only at this
      split at h
      · cases h
      · rename_i hn
        obtain ⟨⟨a1, a2, a3, a4, a5, a6, a7, a8⟩, ⟨b1, b2, b3, b4, b5, b6, b7, b8⟩⟩ := f
        rw [if_neg hn]
        cases clustersAsIds <;> cases typesAsIds <;> simp_all

/-- C39 fails: if the initial estimation inside the variance decomposition raises, the user's firm
identifiers have been replaced by clusters; if a sample's estimation raises, the wages (and worker
identifiers) are the simulated ones. -/
theorem C39_vardec_crash (s : VdSteps V) (n : ℕ) (f : Frames V) (y : V × V × V) (l : V × V)
    (e e' : String) (hi : ∀ f, s.initial f = .error e) (hs : ∀ k f, s.sim k f = .ok (y, l))
    (hf : ∀ k f, s.fit k f = .error e') :
    (varDecomp s true true false n f).1 = .error e ∧
    (varDecomp s true true false n f).2.J.j1 = f.J.g1 ∧
    (varDecomp s true true true (n + 1) f).1 = .error e' ∧
    (varDecomp s true true true (n + 1) f).2.J.y1 = y.1 ∧
    (varDecomp s true true true (n + 1) f).2.J.i = l.1 ∧
    (varDecomp s true true true (n + 1) f).2.J.j1 = f.J.g1 := by
  simp [varDecomp, hi, vdLoop, hs, hf, setWages]

/-- C39 fails: without samples the variance decomposition raises `IndexError` and leaves the time
column it added. -/
theorem C39_vardec_no_samples (s : VdSteps V) (f : Frames V) (a b : Bool) :
    (varDecomp s a b true 0 f).1 = .error "IndexError" ∧ (varDecomp s a b true 0 f).2.J.hasT = true := by
  cases a <;> cases b <;> simp [varDecomp, vdLoop]

/-- Non-vacuity: steps that run to completion, and a crash that loses the original wages. -/
example : ∃ (s : BootSteps ℕ) (f : Frames ℕ), f.S.g2 = f.S.g1 ∧
    (bootstrap .parametric s (fun _ _ => .ok ()) false 3 f).1 = .ok () :=
  ⟨⟨fun _ => .ok (), fun k _ => .ok (k, k, k), fun k _ => .ok (k, k, k), fun _ _ => .ok ()⟩,
    ⟨⟨1, 2, 3, 4, 5, 6, 7, false⟩, ⟨1, 2, 3, 3, 5, 5, 7, false⟩⟩, rfl, rfl⟩

example : ∃ (s : BootSteps ℕ) (f : Frames ℕ),
    (bootstrap .parametric s (fun _ _ => .ok ()) true 1 f).2.J.y1 ≠ f.J.y1 :=
  ⟨⟨fun _ => .ok (), fun _ _ => .ok (9, 9, 9), fun _ _ => .ok (0, 0, 0), fun _ _ => .error "ValueError"⟩,
    ⟨⟨1, 2, 3, 4, 5, 6, 7, false⟩, ⟨1, 2, 3, 3, 5, 5, 7, false⟩⟩, by decide⟩

/-! ## Single-block fits: model -/

variable {ni nl nk : ℕ}

/-- A model object: settings and parameters.  Used for blm.py:1226-1282 and blm.py:2150-2211. -/
structure MState (nl nk : ℕ) where
  opts : MoverOpts
  base : Base nl nk
  pk1 : ℕ → Fin nl → ℝ
  pk0 : Fin nk → Fin nl → ℝ

/-- What a fit depends on besides the model: data, solvers, `argsort`, `_min_firm_type`, the primary
period and the number of iterations.  Used for blm.py:1226-1282 and blm.py:2150-2211. -/
structure FitEnv (ni nl nk : ℕ) where
  d : Data ni nk
  solverA : Solver
  solverS : Solver
  minType : (Fin 2 → Fin nl → Fin nk → ℝ) → ℕ
  argsort : Argsort
  pp : Primary
  nIters : ℕ

/-- `fit_movers`, blm.py:1226-1282 and 1284-1948, without controls and without `force_min_firm_type`:
attributes are only assigned after the loop, from sorted parameters (lines 1926-1945).  (`NNm` and the
stored likelihoods are left out.) -/
noncomputable def fitMovers [NeZero nl] (env : FitEnv ni nl nk) (m : MState nl nk) :
    Py Unit × MState nl nk :=
  match moversLoop env.d m.opts env.solverA env.solverS env.minType env.nIters true none
      (env.minType m.base.A) ⟨m.base, m.pk1, []⟩ with
  | .error e => (.error e, m)
  | .ok s =>
    let p := sortParams env.argsort env.pp false false
      (⟨s.base, [], s.pk1, m.pk0, fun _ _ => 0, fun _ => 0⟩ : AllParams ni nl nk)
    (.ok (), { m with base := p.base, pk1 := p.pk1, pk0 := p.pk0 })

/-- The common shape of `fit_A`, `fit_S`, `fit_pk` (blm.py:2150-2211): the original settings are put
back after the fit, which is not reached when it raises. -/
noncomputable def fitBlock [NeZero nl] (updA updS updPk : Bool) (env : FitEnv ni nl nk)
    (m : MState nl nk) : Py Unit × MState nl nk :=
  let user := m.opts
  let m1 := { m with opts := { m.opts with updA := updA, updS := updS, updPk := updPk } }
  match fitMovers env m1 with
  | (.error e, m2) => (.error e, m2)
  | (.ok (), m2) => (.ok (), { m2 with opts := user })

/-- blm.py:2150-2169. -/
noncomputable def fitA [NeZero nl] (env : FitEnv ni nl nk) (m : MState nl nk) :=
  fitBlock true false false env m

/-- blm.py:2171-2190. -/
noncomputable def fitS [NeZero nl] (env : FitEnv ni nl nk) (m : MState nl nk) :=
  fitBlock false true false env m

/-- blm.py:2192-2211. -/
noncomputable def fitPk [NeZero nl] (env : FitEnv ni nl nk) (m : MState nl nk) :=
  fitBlock false false true env m

/-! ## C40 -/

theorem mstep_fixA (d : Data ni nk) (q : Fin ni → Fin nl → ℝ) (b b' : Base nl nk) (updS : Bool)
    (sA sS : Solver) (h : mstep d q b false updS sA sS = .ok b') : b'.A = b.A := by
  unfold mstep at h
  cases updS with
  | false =>
    simp only [Bool.or_self, Bool.false_eq_true, if_false] at h
    cases h; rfl
  | true =>
    simp only [Bool.or_true, if_true, Bool.false_eq_true, if_false] at h
    cases h1 : assemble d fun t l i => wts d b.S q t l i with
    | error e => rw [h1] at h; cases h
    | ok XwX =>
      rw [h1] at h
      simp only [bind, Except.bind, pure, Except.pure] at h
      split at h
      · cases h
      · cases h; rfl

theorem mstep_none (d : Data ni nk) (q : Fin ni → Fin nl → ℝ) (b : Base nl nk) (sA sS : Solver) :
    mstep d q b false false sA sS = .ok b := by
  unfold mstep
  simp only [Bool.or_self, Bool.false_eq_true, if_false]
  rfl

theorem mstep_A_only (d : Data ni nk) (q : Fin ni → Fin nl → ℝ) (b : Base nl nk) (sA sS : Solver) :
    ∃ e, mstep d q b true false sA sS = .error e := by
  unfold mstep
  simp only [Bool.true_or, if_true, Bool.false_eq_true, if_false]
  cases assemble d fun t l i => wts d b.S q t l i with
  | error e => exact ⟨e, rfl⟩
  | ok XwX =>
    simp only [bind, Except.bind, pure, Except.pure]
    cases assemble d fun t l i => wts d b.S q t l i * d.Y t i with
    | error e => exact ⟨e, rfl⟩
    | ok XwY => exact ⟨_, rfl⟩

theorem loop_keeps [NeZero nl] (d : Data ni nk) (o : MoverOpts) (sA sS : Solver)
    (minType : (Fin 2 → Fin nl → Fin nk → ℝ) → ℕ) (hA : o.updA = false) (fuel : ℕ) (first : Bool)
    (prev : Option ℝ) (pm : ℕ) (s s' : MoverState nl nk)
    (h : moversLoop d o sA sS minType fuel first prev pm s = .ok s') :
    s'.base.A = s.base.A ∧ (o.updS = false → s'.base = s.base) ∧ (o.updPk = false → s'.pk1 = s.pk1) := by
  induction fuel generalizing first prev pm s with
  | zero =>
    simp only [moversLoop] at h
    cases h; exact ⟨rfl, fun _ => rfl, fun _ => rfl⟩
  | succ fuel ih =>
    simp only [moversLoop] at h
    split at h
    · cases h; exact ⟨rfl, fun _ => rfl, fun _ => rfl⟩
    · cases h1 : nextPk1 o.updPk d (posterior (lpMovers d s.base [] s.pk1)) o.dprior s.pk1 with
      | error e => rw [h1] at h; cases h
      | ok pk1 =>
        rw [h1] at h
        simp only [bind, Except.bind] at h
        cases h2 : mstep d (posterior (lpMovers d s.base [] s.pk1)) s.base o.updA o.updS sA sS with
        | error e => rw [h2] at h; cases h
        | ok base =>
          rw [h2] at h
          simp only at h
          obtain ⟨i1, i2, i3⟩ := ih _ _ _ _ h
          rw [hA] at h2
          refine ⟨i1.trans (mstep_fixA _ _ _ _ _ _ _ h2), fun hS => ?_, fun hp => ?_⟩
          · rw [hS, mstep_none] at h2
            cases h2
            exact i2 hS
          · rw [i3 hp]
            simp only [nextPk1, hp, Bool.false_eq_true, if_false] at h1
            cases h1; rfl

/-- The named worker types are renamed from `w l`. -/
structure SameUpTo (w : Equiv.Perm (Fin nl)) (m m' : MState nl nk) (keepS keepPk : Bool) : Prop where
  A : ∀ t l k, m'.base.A t l k = m.base.A t (w l) k
  S : keepS = true → ∀ t l k, m'.base.S t l k = m.base.S t (w l) k
  pk1 : keepPk = true → ∀ (k1 k2 : Fin nk) l,
    m'.pk1 (k1.val + nk * k2.val) l = m.pk1 (k1.val + nk * k2.val) (w l)
  pk0 : ∀ k l, m'.pk0 k l = m.pk0 k (w l)

theorem fitBlock_keeps [NeZero nl] (updS updPk : Bool) (env : FitEnv ni nl nk) (m : MState nl nk)
    (h : (fitBlock false updS updPk env m).1 = .ok ()) :
    (fitBlock false updS updPk env m).2.opts = m.opts ∧
    ∃ w, SameUpTo w m (fitBlock false updS updPk env m).2 (!updS) (!updPk) := by
  unfold fitBlock at h ⊢
  simp only at h ⊢
  split at h
  · cases h
  · rename_i m2 he
    unfold fitMovers at he
    simp only at he
    split at he
    · cases he
    · rename_i s hs
      cases he
      refine ⟨rfl, ?_⟩
      obtain ⟨kA, kS, kP⟩ := loop_keeps _ _ _ _ _ rfl _ _ _ _ _ _ hs
      obtain ⟨w, f, hf, hr⟩ := C35_relabelling (ni := ni) env.argsort env.pp false false
        ⟨s.base, [], s.pk1, m.pk0, fun _ _ => 0, fun _ => 0⟩
      have hf := hf rfl
      subst hf
      refine ⟨w, fun t l k => ?_, fun hS t l k => ?_, fun hp k1 k2 l => ?_, fun k l => ?_⟩
      · have := hr.A t l k
        simp only [kA] at this
        simpa using this
      · have := hr.S t l k
        rw [show s.base = m.base from kS (by simpa using hS)] at this
        rw [show s.base = m.base from kS (by simpa using hS)]
        simpa using this
      · have := hr.pk1 k1 k2 l
        rw [show s.pk1 = m.pk1 from kP (by simpa using hp)] at this
        rw [show s.pk1 = m.pk1 from kP (by simpa using hp)]
        simpa using this
      · simpa using hr.pk0 k l

/-- C40 (partial: for `fit_S` and normal returns).  When `fit_S` returns, the settings are the user's,
and means and type proportions are unchanged up to sorting of the worker types. -/
theorem C40_fit_S_partial [NeZero nl] (env : FitEnv ni nl nk) (m : MState nl nk)
    (h : (fitS env m).1 = .ok ()) :
    (fitS env m).2.opts = m.opts ∧ ∃ w, SameUpTo w m (fitS env m).2 false true :=
  fitBlock_keeps true false env m h

/-- C40 (partial: for `fit_pk` and normal returns).  When `fit_pk` returns, the settings are the user's,
and means and standard deviations are unchanged up to sorting of the worker types. -/
theorem C40_fit_pk_partial [NeZero nl] (env : FitEnv ni nl nk) (m : MState nl nk)
    (h : (fitPk env m).1 = .ok ()) :
    (fitPk env m).2.opts = m.opts ∧ ∃ w, SameUpTo w m (fitPk env m).2 true false :=
  fitBlock_keeps false true env m h

/-- C40 fails: `fit_A` never runs to completion; it raises in the first iteration and leaves the
settings for standard deviations and type proportions switched off. -/
theorem C40_fit_A_raises [NeZero nl] (env : FitEnv ni nl nk) (m : MState nl nk) (hn : 0 < env.nIters) :
    (∃ e, (fitA env m).1 = .error e) ∧
      (fitA env m).2 = { m with opts := { m.opts with updA := true, updS := false, updPk := false } } := by
  obtain ⟨n, hn⟩ : ∃ n, env.nIters = n + 1 := ⟨env.nIters - 1, by omega⟩
  obtain ⟨e, he⟩ := mstep_A_only env.d (posterior (lpMovers env.d m.base [] m.pk1)) m.base
    env.solverA env.solverS
  have hl : fitMovers env { m with opts := { m.opts with updA := true, updS := false, updPk := false } } =
      (.error e, { m with opts := { m.opts with updA := true, updS := false, updPk := false } }) := by
    unfold fitMovers
    simp only [hn, moversLoop, stop, nextPk1, Bool.false_eq_true, if_false, bind, Except.bind, he]
  unfold fitA fitBlock
  simp only [hl]
  exact ⟨⟨e, rfl⟩, trivial⟩

/-- C40 fails: whenever a single-block fit raises, the settings it switched are not put back. -/
theorem C40_settings_lost [NeZero nl] (updA updS updPk : Bool) (env : FitEnv ni nl nk)
    (m : MState nl nk) (e : String) (h : (fitBlock updA updS updPk env m).1 = .error e) :
    (fitBlock updA updS updPk env m).2 =
      { m with opts := { m.opts with updA := updA, updS := updS, updPk := updPk } } := by
  unfold fitBlock at h ⊢
  simp only at h ⊢
  split at h
  · rename_i he
    unfold fitMovers at he
    simp only at he
    split at he
    · cases he; rfl
    · cases he
  · cases h

/-- C40 fails on reachable data: `fit_pk` raises, and loses the settings, as soon as some pair of firm
types has no mover. -/
theorem C40_fit_pk_raises [NeZero nl] (env : FitEnv ni nl nk) (m : MState nl nk) (hn : 0 < env.nIters)
    (hmiss : ¬ AllPairs env.d) :
    fitPk env m = (.error "ValueError",
      { m with opts := { m.opts with updA := false, updS := false, updPk := true } }) := by
  obtain ⟨n, hn⟩ : ∃ n, env.nIters = n + 1 := ⟨env.nIters - 1, by omega⟩
  have hl : fitMovers env { m with opts := { m.opts with updA := false, updS := false, updPk := true } } =
      (.error "ValueError", { m with opts := { m.opts with updA := false, updS := false, updPk := true } }) := by
    unfold fitMovers
    simp only [hn, moversLoop, stop, nextPk1, Bool.false_eq_true, if_false, if_true, bind, Except.bind,
      C32_movers_raises _ _ _ hmiss]
  unfold fitPk fitBlock
  simp only [hl]

/-! ## `fit_movers_cstr_uncstr` -/

/-- The settings `fit_movers_cstr_uncstr` changes; constraints are known by name.  Used for blm.py:2092-2148. -/
structure Settings where
  updA : Bool
  updS : Bool
  updPk : Bool
  consAll : Option (List String)
  deriving DecidableEq

/-- `fit_movers_cstr_uncstr`, blm.py:2092-2148; `fit` is `fit_movers` and `conn` lines 2141-2146. -/
def cstrUncstr {σ : Type} (nl : ℕ) (fit : Settings → σ → Py Unit × σ) (conn : σ → Py Unit × σ)
    (user : Settings) (x : σ) : Py Unit × Settings × σ :=
  let s1 := { user with updA := false, updS := true, updPk := true }
  match fit s1 x with
  | (.error e, x) => (.error e, s1, x)
  | (.ok (), x) =>
    let s2 := { s1 with updA := true }
    let add := fun c => match user.consAll with | none => some [c] | some l => some (l ++ [c])
    let mid : Py Unit × Settings × σ :=
      if nl > 1 then
        let s3 := { s2 with consAll := add "LinearAdditive" }
        match fit s3 x with
        | (.error e, x) => (.error e, s3, x)
        | (.ok (), x) =>
          let s4 := { s3 with consAll := add "StationaryFirmTypeVariation" }
          match fit s4 x with
          | (.error e, x) => (.error e, s4, x)
          | (.ok (), x) => (.ok (), s4, x)
      else (.ok (), s2, x)
    match mid with
    | (.error e, s, x) => (.error e, s, x)
    | (.ok (), s, x) =>
      let s5 := { s with consAll := user.consAll }
      match fit s5 x with
      | (.error e, x) => (.error e, s5, x)
      | (.ok (), x) =>
        match conn x with
        | (.error e, x) => (.error e, s5, x)
        | (.ok (), x) => (.ok (), user, x)

/-- C40 (partial: normal returns): `fit_movers_cstr_uncstr` leaves the user's settings, and its last
fit is run with the user's constraints. -/
theorem C40_cstr_partial {σ : Type} (nl : ℕ) (fit : Settings → σ → Py Unit × σ)
    (conn : σ → Py Unit × σ) (user : Settings) (x : σ)
    (h : (cstrUncstr nl fit conn user x).1 = .ok ()) :
    (cstrUncstr nl fit conn user x).2.1 = user ∧
    ∃ x' x'', fit ⟨true, true, true, user.consAll⟩ x' = (.ok (), x'') ∧
      conn x'' = (.ok (), (cstrUncstr nl fit conn user x).2.2) := by
  unfold cstrUncstr at h ⊢
  simp only at h ⊢
  generalize h1 : fit { user with updA := false, updS := true, updPk := true } x = r1 at h ⊢
  obtain ⟨_ | ⟨⟨⟩⟩, x1⟩ := r1
  · cases h
  · simp only at h ⊢
    by_cases hnl : nl > 1
    · rw [if_pos hnl] at h ⊢
      generalize h3 : fit _ x1 = r3 at h ⊢
      obtain ⟨_ | ⟨⟨⟩⟩, x3⟩ := r3
      · cases h
      · simp only at h ⊢
        generalize h4 : fit _ x3 = r4 at h ⊢
        obtain ⟨_ | ⟨⟨⟩⟩, x4⟩ := r4
        · cases h
        · simp only at h ⊢
          generalize h5 : fit _ x4 = r5 at h ⊢
          obtain ⟨_ | ⟨⟨⟩⟩, x5⟩ := r5
          · cases h
          · simp only at h ⊢
            generalize h6 : conn x5 = r6 at h ⊢
            obtain ⟨_ | ⟨⟨⟩⟩, x6⟩ := r6
            · cases h
            · exact ⟨rfl, x4, x5, h5, h6⟩
    · rw [if_neg hnl] at h ⊢
      simp only at h ⊢
      generalize h5 : fit _ x1 = r5 at h ⊢
      obtain ⟨_ | ⟨⟨⟩⟩, x5⟩ := r5
      · cases h
      · simp only at h ⊢
        generalize h6 : conn x5 = r6 at h ⊢
        obtain ⟨_ | ⟨⟨⟩⟩, x6⟩ := r6
        · cases h
        · exact ⟨rfl, x1, x5, h5, h6⟩

/-- The settings of the successive fits, recorded by a fit that always succeeds: means fixed, then the
two constrained fits (with more than one worker type), then the user's constraints.  In every one but
the first all three blocks are updated, whatever the user's `update_a`, `update_s`, `update_pk1`. -/
theorem C40_cstr_sequence (nl : ℕ) (user : Settings) :
    (cstrUncstr nl (fun s (l : List Settings) => (.ok (), l ++ [s])) (fun l => (.ok (), l)) user []).2.2 =
      if nl > 1 then
        [⟨false, true, true, user.consAll⟩,
         ⟨true, true, true, some (user.consAll.getD [] ++ ["LinearAdditive"])⟩,
         ⟨true, true, true, some (user.consAll.getD [] ++ ["StationaryFirmTypeVariation"])⟩,
         ⟨true, true, true, user.consAll⟩]
      else [⟨false, true, true, user.consAll⟩, ⟨true, true, true, user.consAll⟩] := by
  unfold cstrUncstr
  by_cases h : nl > 1
  · simp only [h, if_true]
    cases user.consAll <;> simp
  · simp only [h, if_false]
    simp

/-- Non-vacuity: a fit of `exData` with `fit_S` that returns (zero iterations). -/
example : (fitS (⟨exData, fun _ _ => .ok none, fun _ _ => .ok none, fun _ => 0, ⟨fun _ => Equiv.refl _⟩,
    .first, 0⟩ : FitEnv 2 2 2) ⟨⟨true, true, true, 1, 1⟩, exBase, fun _ _ => 1 / 2, fun _ _ => 1 / 2⟩).1 =
    .ok () := by
  simp [fitS, fitBlock, fitMovers, moversLoop]

end Pytwoway.BLM
