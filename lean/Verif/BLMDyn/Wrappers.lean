import Verif.BLMDyn.Sort
import Verif.BLMDyn.EM
import Verif.BLM.Restore

/-! # What the dynamic wrappers borrow and give back (C97)

`pytwoway/blm_dynamic.py`: `fit_movers_cstr_uncstr` (3690-3777), `fit_A`, `fit_S`, `fit_pk` (3779-3840),
`DynamicBLMBootstrap.fit` (4161-4277), `DynamicBLMVarianceDecomposition.fit` (4411-4534).

A method that may raise returns the outcome together with the state at that point.  Steps outside the modelled code
(simulation, clustering, estimation) are arbitrary functions of the current data that return or raise, so every crash
point is covered. -/

namespace Pytwoway.Dynamic

open Pytwoway.BLM Pytwoway.Sim.Dyn Finset

/-! ## Data frames: model -/

/-- The columns of an event study with four periods that these methods touch (`V` is the type of column contents):
wages `y1..y4`, firm types `g1..g4`, firms `j1..j4`, workers `i`, and whether there are time columns.
Used for blm_dynamic.py:4210-4212. -/
@[ext] structure DF4 (V : Type) where
  y : Fin 4 → V
  g : Fin 4 → V
  j : Fin 4 → V
  i : V
  hasT : Bool

/-- The movers' and stayers' data passed in by the user.
Used for blm_dynamic.py:4210-4212 and blm_dynamic.py:4222-4231. -/
@[ext] structure Frames4 (V : Type) where
  J : DF4 V
  S : DF4 V

/-- The outside steps of one bootstrap sample, by its number: simulated wages of movers and stayers, new clusters (of
`j1` and `j4` of movers and `j1` of stayers), estimation.
Used for blm_dynamic.py:4206-4237 and blm_dynamic.py:4191-4244. -/
structure BootSteps4 (V : Type) where
  initial : Frames4 V → Py Unit
  sim : ℕ → Frames4 V → Py ((Fin 4 → V) × (Fin 4 → V))
  cluster : ℕ → Frames4 V → Py (V × V × V)
  fit : ℕ → Frames4 V → Py Unit

variable {V R : Type}

/-- blm_dynamic.py:4210-4212 and 4493-4494. -/
def setWages4 (f : Frames4 V) (y : (Fin 4 → V) × (Fin 4 → V)) : Frames4 V :=
  ⟨{ f.J with y := y.1 }, { f.S with y := y.2 }⟩

/-- blm_dynamic.py:4222-4231. -/
def setClusters4 (f : Frames4 V) (c : V × V × V) : Frames4 V :=
  ⟨{ f.J with g := ![c.1, c.1, c.2.1, c.2.1] }, { f.S with g := fun _ => c.2.2 }⟩

/-- blm_dynamic.py:4206-4237: samples `k, k + 1, ...` (`n` of them). -/
def bootLoop4 (s : BootSteps4 V) : (n k : ℕ) → Frames4 V → Py Unit × Frames4 V
  | 0, _, f => (.ok (), f)
  | n + 1, k, f =>
    match s.sim k f with
    | .error e => (.error e, f)
    | .ok y =>
      let f1 := setWages4 f y
      match s.cluster k f1 with
      | .error e => (.error e, f1)
      | .ok c =>
        let f2 := setClusters4 f1 c
        match s.fit k f2 with
        | .error e => (.error e, f2)
        | .ok () => bootLoop4 s n (k + 1) f2

/-- `method='parametric'`, blm_dynamic.py:4191-4244.  Saved are all wages, `g1` and `g4` of movers and `g1` of
stayers. -/
def bootParametric4 (s : BootSteps4 V) (haveModel : Bool) (n : ℕ) (f : Frames4 V) : Py Unit × Frames4 V :=
  match (if haveModel then .ok () else s.initial f) with
  | .error e => (.error e, f)
  | .ok () =>
    match bootLoop4 s n 0 f with
    | (.error e, f') => (.error e, f')
    | (.ok (), f') =>
      (.ok (), ⟨{ f'.J with y := f.J.y, g := ![f.J.g 0, f.J.g 0, f.J.g 3, f.J.g 3] },
        { f'.S with y := f.S.y, g := fun _ => f.S.g 0 }⟩)

/-- `method='standard'`, blm_dynamic.py:4245-4273: every sample is drawn, cleaned, clustered and fitted on copies
(`run k` is one such sample). -/
def bootStandard4 (run : ℕ → Frames4 V → Py Unit) : (n k : ℕ) → Frames4 V → Py Unit × Frames4 V
  | 0, _, f => (.ok (), f)
  | n + 1, k, f =>
    match run k f with
    | .error e => (.error e, f)
    | .ok () => bootStandard4 run n (k + 1) f

/-- `DynamicBLMBootstrap.fit`, blm_dynamic.py:4161-4277. -/
def bootstrap4 (m : Method) (s : BootSteps4 V) (run : ℕ → Frames4 V → Py Unit) (haveModel : Bool) (n : ℕ)
    (f : Frames4 V) : Py Unit × Frames4 V :=
  match m with
  | .parametric => bootParametric4 s haveModel n f
  | .standard => bootStandard4 run n 0 f
  | .other => (.error "ValueError", f)

/-- The outside steps of one variance-decomposition sample: simulated wages and worker types (movers, stayers), and
the regression, with its results.  Used for blm_dynamic.py:4485-4506 and blm_dynamic.py:4411-4534. -/
structure VdSteps4 (V R : Type) where
  initial : Frames4 V → Py Unit
  sim : ℕ → Frames4 V → Py (((Fin 4 → V) × (Fin 4 → V)) × (V × V))
  fit : ℕ → Frames4 V → Py R

/-- blm_dynamic.py:4490-4494: simulated worker types as identifiers, simulated wages. -/
def vdFrame4 (typesAsIds : Bool) (f : Frames4 V) (x : ((Fin 4 → V) × (Fin 4 → V)) × (V × V)) : Frames4 V :=
  setWages4 (if typesAsIds then ⟨{ f.J with i := x.2.1 }, { f.S with i := x.2.2 }⟩ else f) x.1

/-- blm_dynamic.py:4485-4506. -/
def vdLoop4 (s : VdSteps4 V R) (typesAsIds : Bool) : (n k : ℕ) → Frames4 V → Py (List R) × Frames4 V
  | 0, _, f => (.ok [], f)
  | n + 1, k, f =>
    match s.sim k f with
    | .error e => (.error e, f)
    | .ok x =>
      match s.fit k (vdFrame4 typesAsIds f x) with
      | .error e => (.error e, vdFrame4 typesAsIds f x)
      | .ok r =>
        match vdLoop4 s typesAsIds n (k + 1) (vdFrame4 typesAsIds f x) with
        | (.error e, f') => (.error e, f')
        | (.ok rs, f') => (.ok (r :: rs), f')

/-- The data on which the samples are run, blm_dynamic.py:4462-4477: only `j1` and `j4` are replaced by firm types. -/
def vdStart4 (clustersAsIds : Bool) (f : Frames4 V) : Frames4 V :=
  let f1 : Frames4 V := if clustersAsIds then
    ⟨{ f.J with j := ![f.J.g 0, f.J.j 1, f.J.j 2, f.J.g 3] },
      { f.S with j := ![f.S.g 0, f.S.j 1, f.S.j 2, f.S.g 0] }⟩ else f
  ⟨{ f1.J with hasT := true }, { f1.S with hasT := true }⟩

/-- `DynamicBLMVarianceDecomposition.fit`, blm_dynamic.py:4411-4534, from the first change to the data on; `f` is the
user's data.  Line 4515 assigns `j4` of stayers twice and `j1` never.  Unpacking the results reads `res_lst[0]` and so
raises without samples. -/
def varDecomp4 (s : VdSteps4 V R) (clustersAsIds typesAsIds haveModel : Bool) (n : ℕ) (f : Frames4 V) :
    Py (List R) × Frames4 V :=
  let f2 := vdStart4 clustersAsIds f
  match (if haveModel then .ok () else s.initial f2) with
  | .error e => (.error e, f2)
  | .ok () =>
    match vdLoop4 s typesAsIds n 0 f2 with
    | (.error e, f') => (.error e, f')
    | (.ok rs, f') =>
      let f3 : Frames4 V := ⟨{ f'.J with y := f.J.y }, { f'.S with y := f.S.y }⟩
      let f4 : Frames4 V := if clustersAsIds then
        ⟨{ f3.J with j := ![f.J.j 0, f3.J.j 1, f3.J.j 2, f.J.j 3] },
          { f3.S with j := ![f3.S.j 0, f3.S.j 1, f3.S.j 2, f.S.j 0] }⟩ else f3
      let f5 : Frames4 V := if typesAsIds then
        ⟨{ f4.J with i := f.J.i }, { f4.S with i := f.S.i }⟩ else f4
      if n = 0 then (.error "IndexError", f5)
      else (.ok rs, ⟨{ f5.J with hasT := f.J.hasT }, { f5.S with hasT := f.S.hasT }⟩)

/-! ## Single-block fits: model -/

variable {ni nl nk : ℕ}

/-- A dynamic model object without controls: settings and parameters.
Used for blm_dynamic.py:1856-1909 and blm_dynamic.py:3779-3840. -/
structure DModel (nl nk : ℕ) where
  opts : MvOpts
  x : DAll nl nk
  r : Rhos
  R32s : ℝ

/-- What a fit of movers depends on besides the model.
Used for blm_dynamic.py:1856-1909 and blm_dynamic.py:3779-3840. -/
structure DEnv (ni nl nk : ℕ) where
  endo : Bool
  state : Bool
  d : DData ni nk
  sA : QP (Fin nl × JM endo state nk)
  sS : QP (Fin nl × JM endo state nk)
  minType : DBase nl nk → ℕ
  argsort : Argsort
  pp : BLM.Primary
  nIters : ℕ

/-- Parameters put in the order of the worker types.  Used for blm_dynamic.py:1856-1909. -/
noncomputable def DEnv.sort (e : DEnv ni nl nk) (x : DAll nl nk) : DAll nl nk := dSort e.argsort e.pp false false x

/-- `fit_movers`, blm_dynamic.py:1856-1909 and 1911-2909, without controls and without `force_min_firm_type`: `pk0` of
the model is sorted before the loop (2004), everything else is stored after it, from sorted parameters (2889-2901).
(`NNm` and the stored likelihoods are left out.) -/
noncomputable def fitMoversD [NeZero nl] (e : DEnv ni nl nk) (m : DModel nl nk) : Py Unit × DModel nl nk :=
  let x0 := e.sort m.x
  match loopMv e.d m.opts e.sA e.sS e.minType e.nIters 0 none (e.minType x0.base) ⟨x0.base, m.r, x0.pk1, []⟩ with
  | .error err => (.error err, { m with x := { m.x with pk0 := x0.pk0 } })
  | .ok s =>
    let x1 := e.sort { x0 with base := s.base, pk1 := s.pk1 }
    (.ok (), { m with x := { m.x with base := x1.base, pk1 := x1.pk1, pk0 := x1.pk0 }, r := s.r })

/-- The common shape of `fit_A`, `fit_S`, `fit_pk` (blm_dynamic.py:3779-3840): the original settings are put back after
the fit, which is not reached when it raises; the settings for the persistence parameters are not touched. -/
noncomputable def fitBlockD [NeZero nl] (updA updS updPk : Bool) (e : DEnv ni nl nk) (m : DModel nl nk) :
    Py Unit × DModel nl nk :=
  match fitMoversD e { m with opts := { m.opts with updA := updA, updS := updS, updPk := updPk } } with
  | (.error err, m2) => (.error err, m2)
  | (.ok (), m2) => (.ok (), { m2 with opts := m.opts })

/-- blm_dynamic.py:3779-3798. -/
noncomputable def fitAD [NeZero nl] (e : DEnv ni nl nk) (m : DModel nl nk) := fitBlockD true false false e m

/-- blm_dynamic.py:3800-3819. -/
noncomputable def fitSD [NeZero nl] (e : DEnv ni nl nk) (m : DModel nl nk) := fitBlockD false true false e m

/-- blm_dynamic.py:3821-3840. -/
noncomputable def fitPkD [NeZero nl] (e : DEnv ni nl nk) (m : DModel nl nk) := fitBlockD false false true e m

/-! ## `fit_movers_cstr_uncstr`: model -/

/-- Constraints on the means: the user's (by number), and the two that are added, with their numbers of periods.
Used for blm_dynamic.py:3748-3751. -/
inductive Con4
  | user (n : ℕ)
  | linearAdditive (nt : ℕ)
  | stationary (nnt : List ℕ) (nt : ℕ)
  deriving DecidableEq

/-- The settings `fit_movers_cstr_uncstr` changes.  Used for blm_dynamic.py:3690-3777. -/
@[ext] structure Settings4 where
  updA : Bool
  updS : Bool
  updPk : Bool
  consAll : Option (List Con4)
  dX : ℝ

/-- `len(self.periods_movers)`, blm_dynamic.py:1125-1136: `'12', '43', '2ma', '3ma'` and, with endogeneity or state dependence,
`'2mb'` and `'3mb'`. -/
def nPeriods (endo state : Bool) : ℕ := 4 + (if endo then 1 else 0) + (if state then 1 else 0)

/-- The user's constraints and one more, blm_dynamic.py:3748-3751 and 3759-3762. -/
def addCon (user : Option (List Con4)) (c : Con4) : Option (List Con4) :=
  match user with
  | none => some [c]
  | some l => some (l ++ [c])

/-- blm_dynamic.py:3706-3721: starting values are changed only if there is a static model. -/
def startOf {σ : Type} (start : Option (σ → σ)) (x : σ) : σ :=
  match start with
  | none => x
  | some g => g x

/-- `fit_movers_cstr_uncstr`, blm_dynamic.py:3690-3777; `start` is the change of starting values if there is a static
model (3706-3723), `fit` is `fit_movers`, `conn` lines 3771-3775. -/
noncomputable def cstrUncstr4 {σ : Type} (nl nt : ℕ) (start : Option (σ → σ)) (fit : Settings4 → σ → Py Unit × σ)
    (conn : σ → Py Unit × σ) (user : Settings4) (x : σ) : Py Unit × Settings4 × σ :=
  let x0 := startOf start x
  let s1 := { user with updA := false, updS := true, updPk := start.isNone }
  match fit s1 x0 with
  | (.error e, x) => (.error e, s1, x)
  | (.ok (), x) =>
    let s2 := { s1 with updA := true, updPk := true }
    let mid : Py Unit × Settings4 × σ :=
      if nl > 1 then
        let s3 := { s2 with consAll := addCon user.consAll (.linearAdditive nt) }
        match fit s3 x with
        | (.error e, x) => (.error e, s3, x)
        | (.ok (), x) =>
          let s4 := { s3 with consAll := addCon user.consAll (.stationary [1, 2, 3] nt) }
          match fit s4 x with
          | (.error e, x) => (.error e, s4, x)
          | (.ok (), x) => (.ok (), s4, x)
      else (.ok (), s2, x)
    match mid with
    | (.error e, s, x) => (.error e, s, x)
    | (.ok (), s, x) =>
      let s5 := { s with consAll := user.consAll, dX := 1 + (s.dX - 1) / 2 }
      match fit s5 x with
      | (.error e, x) => (.error e, s5, x)
      | (.ok (), x) =>
        match conn x with
        | (.error e, x) => (.error e, s5, x)
        | (.ok (), x) => (.ok (), user, x)

/-- Starting values from a static model, blm_dynamic.py:3707-3721. -/
noncomputable def startStatic (initAll : Bool) (A1 A2 : Fin nl → Fin nk → ℝ) (pk1 : ℕ → Fin nl → ℝ)
    (pk0 : Fin nk → Fin nl → ℝ) (m : DModel nl nk) : DModel nl nk :=
  let b := m.x.base
  let Aw : Per → Fin nl → Fin nk → ℝ := fun p => match p with
    | .p12 => A1
    | .p43 => A2
    | .p2ma => if initAll then A1 else b.Aw .p2ma
    | .p3ma => if initAll then A2 else b.Aw .p3ma
    | .p2s => if initAll then A1 else b.Aw .p2s
    | .p3s => if initAll then A2 else b.Aw .p3s
    | .p2mb => b.Aw .p2mb
    | .p3mb => b.Aw .p3mb
  let Ab : Per → Fin nk → ℝ := fun p => match p with
    | .p2mb => if initAll then fun _ => 0 else b.Ab .p2mb
    | .p3mb => if initAll then fun _ => 0 else b.Ab .p3mb
    | p => b.Ab p
  { m with
    x := { m.x with pk1 := pk1, pk0 := pk0, base := { b with Aw := Aw, Ab := Ab } }
    r := if initAll then ⟨0, 0, 0⟩ else m.r
    R32s := if initAll then 0 else m.R32s }

/-! ## Specification -/

/-- What a mover's and a stayer's rows look like: movers change firm between the second and the third period, stayers
never do; firm types go with firms. -/
structure Spec.EventStudy (f : Frames4 V) : Prop where
  J12 : f.J.g 1 = f.J.g 0
  J34 : f.J.g 2 = f.J.g 3
  Sg : ∀ t, f.S.g t = f.S.g 0
  Sj : ∀ t, f.S.j t = f.S.j 0

/-- Parameters after a fit that keeps some of them, up to renaming worker types by `w`. -/
structure Spec.Kept (w : Equiv.Perm (Fin nl)) (m m' : DModel nl nk) (A S pk : Bool) : Prop where
  A : A = true → (∀ p, p.isB = false → ∀ l k, m'.x.base.Aw p l k = m.x.base.Aw p (w l) k) ∧
    ∀ p, p.isB = true → ∀ k, m'.x.base.Ab p k = m.x.base.Ab p k
  S : S = true → (∀ p, p.isB = false → ∀ l k, m'.x.base.Sw p l k = m.x.base.Sw p (w l) k) ∧
    ∀ p, p.isB = true → ∀ k, m'.x.base.Sb p k = m.x.base.Sb p k
  pk1 : pk = true → ∀ (k1 k2 : Fin nk) l, m'.x.pk1 (k1.val + nk * k2.val) l = m.x.pk1 (k1.val + nk * k2.val) (w l)
  pk0 : ∀ k l, m'.x.pk0 k l = m.x.pk0 k (w l)

end Pytwoway.Dynamic
