import Mathlib.Data.Fintype.Prod
import Mathlib.Tactic.FinCases
import Mathlib.Algebra.BigOperators.Group.Finset.Sigma
import Mathlib.Algebra.BigOperators.Field
import Mathlib.Algebra.BigOperators.Fin
import Verif.BLM.Lemmas
import Verif.BLMDyn.Rho
import Verif.BLMDyn.Wages

/-! # The EM algorithm of the dynamic model: C75, C77, C78

`pytwoway/blm_dynamic.py`: `_fit_movers` (2016-2880) and `fit_stayers` (2960-3670), without control
variables (then `A_sum` and `S_sum_sq` are zero, 2093-2094, 3024-3025). -/

namespace Pytwoway.Dynamic

open Finset ProbabilityTheory Pytwoway.Sim.Dyn Pytwoway.BLM

variable {ni nl nk : ℕ}

/-! ## Model -/

/-- Wages and firm types, blm_dynamic.py:1926-1933 and 2926-2931 (stayers use only the first type). -/
structure DData (ni nk : ℕ) where
  y : Fin ni → Wages
  G : Fin 2 → Fin ni → Fin nk

/-- `KK = G1 + nk * G2`, blm_dynamic.py:1980. -/
def flow (d : DData ni nk) (i : Fin ni) : ℕ := (d.G 0 i).val + nk * (d.G 1 i).val

/-- `lp` of movers, blm_dynamic.py:2121. -/
noncomputable def lpMv (d : DData ni nk) (b : DBase nl nk) (r : Rhos) (pk1 : ℕ → Fin nl → ℝ) (i : Fin ni)
    (l : Fin nl) : ℝ :=
  Real.log (pk1 (flow d i) l) + lpMoversPlain b r l (fun t => d.G t i) (d.y i)

/-- `lp` of stayers, blm_dynamic.py:3104-3108. -/
noncomputable def lpSt (d : DData ni nk) (b : DBase nl nk) (r : Rhos) (pk0 : ℕ → Fin nl → ℝ) (i : Fin ni)
    (l : Fin nl) : ℝ :=
  Real.log (pk0 (d.G 0 i).val l) + lpStayersPlain b r l (d.G 0 i) (d.y i)

/-- `GG.T @ (qi + d_prior - 1)`, blm_dynamic.py:2167, 3131: `κ` is the row's class, of `n` classes. -/
noncomputable def sumPk (κ : Fin ni → ℕ) (q : Fin ni → Fin nl → ℝ) (dprior : ℝ) (p : ℕ) (l : Fin nl) : ℝ :=
  ∑ i, if κ i = p then q i l + dprior - 1 else 0

/-- blm_dynamic.py:2165-2172 and 3129-3136: rows are scaled to sum to one; a row of zeros becomes `NaN` and
raises. -/
noncomputable def updatePk (n : ℕ) (κ : Fin ni → ℕ) (q : Fin ni → Fin nl → ℝ) (dprior : ℝ) :
    Py (ℕ → Fin nl → ℝ) :=
  open scoped Classical in
  if ∃ p < n, ∑ l, sumPk κ q dprior p l = 0 then .error "ValueError"
  else .ok fun p l => 1 / (∑ l', sumPk κ q dprior p l') * sumPk κ q dprior p l

/-- The update happens only if it is switched on.  Used for blm_dynamic.py:3128-3610 and blm_dynamic.py:2164-2814. -/
noncomputable def nextPk (upd : Bool) (n : ℕ) (κ : Fin ni → ℕ) (q : Fin ni → Fin nl → ℝ) (dprior : ℝ)
    (old : ℕ → Fin nl → ℝ) : Py (ℕ → Fin nl → ℝ) :=
  if upd then updatePk n κ q dprior else .ok old

/-- The recorded likelihood, blm_dynamic.py:2129-2134 and 3113-3118. -/
noncomputable def likOf [NeZero nl] (lp : Fin ni → Fin nl → ℝ) (n : ℕ) (pk : ℕ → Fin nl → ℝ) (first updPk : Bool)
    (dprior : ℝ) : ℝ :=
  meanLse lp + if !first && updPk then (dprior - 1) * ∑ p ∈ range n, ∑ l, Real.log (pk p l) else 0

/-! ### The quadratic programs -/

/-- `QPConstrained.solve(P, q, solver='quadprog')` for a full matrix; the external solver is a parameter.
Used for blm_dynamic.py:3329-3343 and blm_dynamic.py:3595-3610. -/
abbrev QP (ι : Type) := (P : ι → ι → ℝ) → (q : ι → ℝ) → Py (Option (ι → ℝ))

/-- `1/2 x'Px + q'x`. -/
noncomputable def qpVal {ι : Type} [Fintype ι] (P : ι → ι → ℝ) (q x : ι → ℝ) : ℝ :=
  (∑ a, ∑ b, x a * P a b * x b) / 2 + ∑ a, q a * x a

/-- A right solver for the constraint set `feas`: what it returns is feasible and optimal, and it returns
something when the matrix is positive definite and some point is feasible. -/
structure RightQP {ι : Type} [Fintype ι] (feas : (ι → ℝ) → Prop) (solve : QP ι) : Prop where
  sound : ∀ P q x, solve P q = .ok (some x) → feas x ∧ ∀ y, feas y → qpVal P q x ≤ qpVal P q y
  complete : ∀ P q, (∀ x : ι → ℝ, x ≠ 0 → 0 < ∑ a, ∑ b, x a * P a b * x b) → (∃ x, feas x) →
    ∃ x, solve P q = .ok (some x)

/-- `XwX`: block diagonal over worker types, `Xw_l @ X` (blm_dynamic.py:2395-2401, 3278-3284) plus `δ` on the
diagonal (2442-2443, 3308-3309, `δ = d_X_diag - 1`).  Rows of `X` are `ρ`, columns `J`.  The code numbers the
parameters by worker type, period, firm type and sorts them by period, worker type, firm type before solving
(2293-2296, 3202-3205); indices here are triples. -/
noncomputable def XwX {ρ J : Type} [Fintype ρ] [DecidableEq J] (w : Fin nl → ρ → ℝ) (X : ρ → J → ℝ) (δ : ℝ)
    (a b : Fin nl × J) : ℝ :=
  (if a.1 = b.1 then ∑ s, w a.1 s * X s a.2 * X s b.2 else 0) + if a = b then δ else 0

/-- `XwY` and `XwS`.  Used for blm_dynamic.py:3164-3610 and blm_dynamic.py:2244-2814. -/
noncomputable def XwV {ρ J : Type} [Fintype ρ] (w : Fin nl → ρ → ℝ) (X : ρ → J → ℝ) (Y : Fin nl → ρ → ℝ)
    (a : Fin nl × J) : ℝ :=
  ∑ s, w a.1 s * X s a.2 * Y a.1 s

/-! ### Stayers -/

/-- Rows: the two wages of each stayer; columns: the periods `'2s'` (0) and `'3s'` (1) by firm type;
blm_dynamic.py:3195-3199. -/
def Xst (d : DData ni nk) (r : Rhos) (s : Fin 2 × Fin ni) (j : Fin 2 × Fin nk) : ℝ :=
  if d.G 0 s.2 = j.2 then
    match s.1, j.1 with
    | 0, 0 => 1
    | 0, 1 => 0
    | 1, 0 => - r.R32
    | 1, 1 => 1
  else 0

/-- `var_l`, blm_dynamic.py:3268-3273. -/
def varSt (d : DData ni nk) (b : DBase nl nk) (r : Rhos) (l : Fin nl) (s : Fin 2 × Fin ni) : ℝ :=
  match s.1 with
  | 0 => b.Sw .p2s l (d.G 0 s.2) ^ 2
  | 1 => b.Sw .p3s l (d.G 0 s.2) ^ 2 + (r.R32 * b.Sw .p2s l (d.G 0 s.2)) ^ 2

/-- `weights_l`, blm_dynamic.py:3274. -/
noncomputable def wSt (d : DData ni nk) (b : DBase nl nk) (r : Rhos) (q : Fin ni → Fin nl → ℝ) (l : Fin nl)
    (s : Fin 2 × Fin ni) : ℝ :=
  q s.2 l / √(varSt d b r l s)

/-- `Y_l`, blm_dynamic.py:3293-3301. -/
def ySt (d : DData ni nk) (r : Rhos) (s : Fin 2 × Fin ni) : ℝ :=
  match s.1 with
  | 0 => (d.y s.2).y2
  | 1 => (d.y s.2).y3 - r.R32 * (d.y s.2).y2

/-- `eps_l_sq`, blm_dynamic.py:3559-3570. -/
def eSt (d : DData ni nk) (b : DBase nl nk) (r : Rhos) (l : Fin nl) (s : Fin 2 × Fin ni) : ℝ :=
  match s.1 with
  | 0 => ((d.y s.2).y2 - b.Aw .p2s l (d.G 0 s.2)) ^ 2
  | 1 => ((d.y s.2).y3 - r.R32 * ((d.y s.2).y2 - b.Aw .p2s l (d.G 0 s.2)) - b.Aw .p3s l (d.G 0 s.2)) ^ 2

/-- Indices of the stayers' design, blm_dynamic.py:3329-3343 and blm_dynamic.py:3595-3610. -/
abbrev JS (nk : ℕ) := Fin 2 × Fin nk

/-- blm_dynamic.py:3329-3343. -/
noncomputable def solveASt (solve : QP (Fin nl × JS nk)) (P : Fin nl × JS nk → Fin nl × JS nk → ℝ)
    (v : Fin nl × JS nk → ℝ) (b : DBase nl nk) : DBase nl nk :=
  match solve P (fun a => - v a) with
  | .ok (some x) => { b with
      Aw := Function.update (Function.update b.Aw .p2s fun l k => x (l, 0, k)) .p3s fun l k => x (l, 1, k) }
  | .ok none => b
  | .error _ => b

/-- blm_dynamic.py:3595-3610. -/
noncomputable def solveSSt (solve : QP (Fin nl × JS nk)) (P : Fin nl × JS nk → Fin nl × JS nk → ℝ)
    (v : Fin nl × JS nk → ℝ) (b : DBase nl nk) : DBase nl nk :=
  match solve P (fun a => - v a) with
  | .ok (some x) => { b with
      Sw := Function.update (Function.update b.Sw .p2s fun l k => √(x (l, 0, k))) .p3s fun l k => √(x (l, 1, k)) }
  | .ok none => b
  | .error _ => b

/-- The M-step of stayers, blm_dynamic.py:3164-3610: both regressions use the weights computed from the old
standard deviations. -/
noncomputable def mstepSt (d : DData ni nk) (q : Fin ni → Fin nl → ℝ) (b : DBase nl nk) (r : Rhos)
    (updA updS : Bool) (δ : ℝ) (solverA solverS : QP (Fin nl × JS nk)) : DBase nl nk :=
  let w := wSt d b r q
  let P := XwX w (Xst d r) δ
  let b1 := if updA then solveASt solverA P (XwV w (Xst d r) fun _ => ySt d r) b else b
  if updS then solveSSt solverS P (XwV w (Xst d r) (eSt d b1 r)) b1 else b1

/-- Settings of `fit_stayers`.  Used for blm_dynamic.py:3128-3610 and blm_dynamic.py:3048-3610. -/
structure StOpts where
  updA : Bool
  updS : Bool
  updRho : Bool
  updPk : Bool
  dprior : ℝ
  thresholdMovers : ℝ
  thresholdStayers : ℝ
  δ : ℝ

/-- What the loop carries.  Used for blm_dynamic.py:3128-3610 and blm_dynamic.py:3048-3610. -/
structure StState (nl nk : ℕ) where
  base : DBase nl nk
  r : Rhos
  pk0 : ℕ → Fin nl → ℝ
  liks : List ℝ

/-- One pass through blm_dynamic.py:3128-3610, from the posteriors on. -/
noncomputable def stepSt (d : DData ni nk) (o : StOpts) (sA sS : QP (Fin nl × JS nk)) (iter : ℕ)
    (q : Fin ni → Fin nl → ℝ) (s : StState nl nk) : Py (StState nl nk) := do
  let pk0 ← nextPk o.updPk nk (fun i => (d.G 0 i).val) q o.dprior s.pk0
  if o.updRho && iter % 2 == 1 then
    let rho := update32s d.y (fun i l p => s.base.Aw p l (d.G 0 i)) (fun i l p => s.base.Sw p l (d.G 0 i) ^ 2) s.r q
    .ok { s with pk0 := pk0, r := { s.r with R32 := rho } }
  else if o.updA || o.updS then
    .ok { s with pk0 := pk0, base := mstepSt d q s.base s.r o.updA o.updS o.δ sA sS }
  else .ok { s with pk0 := pk0 }

/-! ### Movers -/

instance : Fintype Per where
  elems := {.p12, .p43, .p2ma, .p3ma, .p2mb, .p3mb, .p2s, .p3s}
  complete := by intro p; cases p <;> decide

/-- `self.periods_movers`, blm_dynamic.py:1126-1134: `'2mb'` only with endogeneity, `'3mb'` only with state
dependence. -/
def inModel (endo state : Bool) : Per → Bool
  | .p12 | .p43 | .p2ma | .p3ma => true
  | .p2mb => endo
  | .p3mb => state
  | _ => false

/-- Indices of the movers' design, blm_dynamic.py:2273-2288 and blm_dynamic.py:2469-2474. -/
abbrev JM (endo state : Bool) (nk : ℕ) := {p : Per // inModel endo state p = true} × Fin nk

/-- The coefficient of a period's parameter in each of the four wages, blm_dynamic.py:2257-2288. -/
def coef (r : Rhos) : Fin 4 → Per → ℝ
  | 0, .p12 => 1
  | 0, .p2ma => - r.R12
  | 1, .p2ma => 1
  | 1, .p2mb => 1
  | 2, .p2ma => - r.R32
  | 2, .p3ma => 1
  | 2, .p2mb => - r.R32
  | 2, .p3mb => 1
  | 3, .p43 => 1
  | 3, .p3ma => - r.R43
  | _, _ => 0

/-- `X`, blm_dynamic.py:2273-2288: `'12'`, `'2ma'` and `'3mb'` with `GG1`, the others with `GG2`. -/
def Xmv {endo state : Bool} (d : DData ni nk) (r : Rhos) (s : Fin 4 × Fin ni) (j : JM endo state nk) : ℝ :=
  if d.G (slot j.1.1) s.2 = j.2 then coef r s.1 j.1.1 else 0

/-- `var_l`, blm_dynamic.py:2383-2390. -/
def varMv (d : DData ni nk) (b : DBase nl nk) (r : Rhos) (l : Fin nl) (s : Fin 4 × Fin ni) : ℝ :=
  let g1 := d.G 0 s.2
  let g2 := d.G 1 s.2
  match s.1 with
  | 0 => b.Sw .p12 l g1 ^ 2 + (r.R12 * b.Sw .p2ma l g1) ^ 2
  | 1 => b.Sw .p2ma l g1 ^ 2 + b.Sb .p2mb g2 ^ 2
  | 2 => b.Sw .p3ma l g2 ^ 2 + b.Sb .p3mb g1 ^ 2 + r.R32 ^ 2 * (b.Sw .p2ma l g1 ^ 2 + b.Sb .p2mb g2 ^ 2)
  | 3 => b.Sw .p43 l g2 ^ 2 + (r.R43 * b.Sw .p3ma l g2) ^ 2

/-- `weights_l`, blm_dynamic.py:2391. -/
noncomputable def wMv (d : DData ni nk) (b : DBase nl nk) (r : Rhos) (q : Fin ni → Fin nl → ℝ) (l : Fin nl)
    (s : Fin 4 × Fin ni) : ℝ :=
  q s.2 l / √(varMv d b r l s)

/-- `Y_l`, blm_dynamic.py:2410-2436. -/
def yMv (d : DData ni nk) (r : Rhos) (s : Fin 4 × Fin ni) : ℝ :=
  let y := d.y s.2
  match s.1 with
  | 0 => y.y1 - r.R12 * y.y2
  | 1 => y.y2
  | 2 => y.y3 - r.R32 * y.y2
  | 3 => y.y4 - r.R43 * y.y3

/-- `eps_l_sq`, blm_dynamic.py:2741-2773. -/
def eMv (d : DData ni nk) (b : DBase nl nk) (r : Rhos) (l : Fin nl) (s : Fin 4 × Fin ni) : ℝ :=
  let y := d.y s.2
  let g1 := d.G 0 s.2
  let g2 := d.G 1 s.2
  match s.1 with
  | 0 => (y.y1 - r.R12 * (y.y2 - b.Aw .p2ma l g1) - b.Aw .p12 l g1) ^ 2
  | 1 => (y.y2 - (b.Aw .p2ma l g1 + b.Ab .p2mb g2)) ^ 2
  | 2 => (y.y3 - r.R32 * (y.y2 - (b.Aw .p2ma l g1 + b.Ab .p2mb g2)) - (b.Aw .p3ma l g2 + b.Ab .p3mb g1)) ^ 2
  | 3 => (y.y4 - r.R43 * (y.y3 - b.Aw .p3ma l g2) - b.Aw .p43 l g2) ^ 2

/-- Writing a solution back, blm_dynamic.py:2469-2474: matrices for the periods that depend on the worker type,
the first worker type's values for `'2mb'` and `'3mb'`. -/
def writeW {endo state : Bool} (x : Fin nl × JM endo state nk → ℝ) (old : Per → Fin nl → Fin nk → ℝ) (p : Per)
    (l : Fin nl) (k : Fin nk) : ℝ :=
  if h : inModel endo state p = true then (if p.isB then old p l k else x (l, ⟨p, h⟩, k)) else old p l k

/-- Writing a solution back for the periods `'2mb'` and `'3mb'`: the first worker type's values,
blm_dynamic.py:2461-2479 and blm_dynamic.py:2797-2814. -/
def writeB [NeZero nl] {endo state : Bool} (x : Fin nl × JM endo state nk → ℝ) (old : Per → Fin nk → ℝ) (p : Per)
    (k : Fin nk) : ℝ :=
  if h : inModel endo state p = true then (if p.isB then x (0, ⟨p, h⟩, k) else old p k) else old p k

/-- blm_dynamic.py:2461-2479. -/
noncomputable def solveAMv [NeZero nl] {endo state : Bool} (solve : QP (Fin nl × JM endo state nk))
    (P : Fin nl × JM endo state nk → Fin nl × JM endo state nk → ℝ) (v : Fin nl × JM endo state nk → ℝ)
    (b : DBase nl nk) : DBase nl nk :=
  match solve P (fun a => - v a) with
  | .ok (some x) => { b with Aw := writeW x b.Aw, Ab := writeB x b.Ab }
  | .ok none => b
  | .error _ => b

/-- blm_dynamic.py:2797-2814. -/
noncomputable def solveSMv [NeZero nl] {endo state : Bool} (solve : QP (Fin nl × JM endo state nk))
    (P : Fin nl × JM endo state nk → Fin nl × JM endo state nk → ℝ) (v : Fin nl × JM endo state nk → ℝ)
    (b : DBase nl nk) : DBase nl nk :=
  match solve P (fun a => - v a) with
  | .ok (some x) => { b with Sw := writeW (fun a => √(x a)) b.Sw, Sb := writeB (fun a => √(x a)) b.Sb }
  | .ok none => b
  | .error _ => b

/-- The M-step of movers, blm_dynamic.py:2244-2814. -/
noncomputable def mstepMv [NeZero nl] {endo state : Bool} (d : DData ni nk) (q : Fin ni → Fin nl → ℝ)
    (b : DBase nl nk) (r : Rhos) (updA updS : Bool) (δ : ℝ) (solverA solverS : QP (Fin nl × JM endo state nk)) :
    DBase nl nk :=
  let w := wMv d b r q
  let P := XwX w (Xmv (endo := endo) (state := state) d r) δ
  let b1 := if updA then solveAMv solverA P (XwV w (Xmv d r) fun _ => yMv d r) b else b
  if updS then solveSMv solverS P (XwV w (Xmv d r) (eMv d b1 r)) b1 else b1

/-- Settings of `_fit_movers`.  Used for blm_dynamic.py:2176-2242 and blm_dynamic.py:2164-2814. -/
structure MvOpts where
  updA : Bool
  updS : Bool
  upd12 : Bool
  upd43 : Bool
  upd32 : Bool
  updPk : Bool
  dprior : ℝ
  thresholdMovers : ℝ
  δ : ℝ

/-- What the loop carries.  Used for blm_dynamic.py:2164-2814 and blm_dynamic.py:2008-2814. -/
structure MvState (nl nk : ℕ) where
  base : DBase nl nk
  r : Rhos
  pk1 : ℕ → Fin nl → ℝ
  liks : List ℝ

/-- The persistence updates, blm_dynamic.py:2176-2242: each uses the old values. -/
noncomputable def rhosMv (d : DData ni nk) (o : MvOpts) (b : DBase nl nk) (r : Rhos) (q : Fin ni → Fin nl → ℝ) :
    Rhos :=
  let a : Fin ni → Fin nl → Per → ℝ := fun i l => b.a l fun t => d.G t i
  let s2 : Fin ni → Fin nl → Per → ℝ := fun i l => b.s2 l fun t => d.G t i
  { R12 := if o.upd12 then update12 d.y a s2 r q else r.R12
    R43 := if o.upd43 then update43 d.y a s2 r q else r.R43
    R32 := if o.upd32 then update32m d.y a s2 r q else r.R32 }

/-- One pass through blm_dynamic.py:2164-2814, from the posteriors on. -/
noncomputable def stepMv [NeZero nl] {endo state : Bool} (d : DData ni nk) (o : MvOpts)
    (sA sS : QP (Fin nl × JM endo state nk)) (iter : ℕ) (q : Fin ni → Fin nl → ℝ) (s : MvState nl nk) :
    Py (MvState nl nk) := do
  let pk1 ← nextPk o.updPk (nk ^ 2) (flow d) q o.dprior s.pk1
  if (o.upd12 || o.upd43 || o.upd32) && iter % 2 == 1 then
    .ok { s with pk1 := pk1, r := rhosMv d o s.base s.r q }
  else if o.updA || o.updS then
    .ok { s with pk1 := pk1, base := mstepMv d q s.base s.r o.updA o.updS o.δ sA sS }
  else .ok { s with pk1 := pk1 }

/-- `abs(lik - prev_lik) < threshold`, with `prev_lik` infinite at first.
Used for blm_dynamic.py:3048-3610 and blm_dynamic.py:2008-2814. -/
noncomputable def close (lik : ℝ) (prev : Option ℝ) (thr : ℝ) : Bool :=
  open scoped Classical in
  match prev with
  | none => false
  | some p => decide (|lik - p| < thr)

/-- The loop of `fit_stayers`, blm_dynamic.py:3048-3610; `fuel` iterations are left. -/
noncomputable def loopSt [NeZero nl] (d : DData ni nk) (o : StOpts) (sA sS : QP (Fin nl × JS nk)) :
    (fuel iter : ℕ) → (prev : Option ℝ) → StState nl nk → Py (StState nl nk)
  | 0, _, _, s => .ok s
  | fuel + 1, iter, prev, s => do
    let lp := lpSt d s.base s.r s.pk0
    let q := posterior lp
    let lik := likOf lp nk s.pk0 (iter == 0) o.updPk o.dprior
    let s' := { s with liks := s.liks ++ [lik] }
    if close lik prev o.thresholdMovers then .ok s'
    else do
      let s'' ← stepSt d o sA sS iter q s'
      loopSt d o sA sS fuel (iter + 1) (some lik) s''

/-- The loop of `_fit_movers`, blm_dynamic.py:2008-2814; `minType` is `_min_firm_type`, or constant if the
smallest firm type is forced.  The check for cycles applies with categorical controls only. -/
noncomputable def loopMv [NeZero nl] {endo state : Bool} (d : DData ni nk) (o : MvOpts)
    (sA sS : QP (Fin nl × JM endo state nk)) (minType : DBase nl nk → ℕ) :
    (fuel iter : ℕ) → (prev : Option ℝ) → (prevMin : ℕ) → MvState nl nk → Py (MvState nl nk)
  | 0, _, _, _, s => .ok s
  | fuel + 1, iter, prev, prevMin, s => do
    let lp := lpMv d s.base s.r s.pk1
    let q := posterior lp
    let lik := likOf lp (nk ^ 2) s.pk1 (iter == 0) o.updPk o.dprior
    let s' := { s with liks := s.liks ++ [lik] }
    let m := minType s.base
    if close lik prev o.thresholdMovers && m == prevMin then .ok s'
    else do
      let s'' ← stepMv d o sA sS iter q s'
      loopMv d o sA sS minType fuel (iter + 1) (some lik) m s''

/-! ## Specification -/

/-- Joint density of a mover's wages given totals per period: product of four normal densities. -/
noncomputable def Spec.moverDensity (a s2 : Per → ℝ) (r : Rhos) (y : Wages) : ℝ :=
  gaussianPDFReal (a .p12 + r.R12 * (y.y2 - a .p2ma)) (s2 .p12 + r.R12 ^ 2 * s2 .p2ma).toNNReal y.y1 *
  gaussianPDFReal (a .p2ma + a .p2mb) (s2 .p2ma + s2 .p2mb).toNNReal y.y2 *
  gaussianPDFReal (a .p3ma + a .p3mb + r.R32 * (y.y2 - (a .p2ma + a .p2mb)))
    (s2 .p3ma + s2 .p3mb + r.R32 ^ 2 * (s2 .p2ma + s2 .p2mb)).toNNReal y.y3 *
  gaussianPDFReal (a .p43 + r.R43 * (y.y3 - a .p3ma)) (s2 .p43 + r.R43 ^ 2 * s2 .p3ma).toNNReal y.y4

/-- The same for a stayer. -/
noncomputable def Spec.stayerDensity (a s2 : Per → ℝ) (r : Rhos) (y : Wages) : ℝ :=
  gaussianPDFReal (a .p12 + r.R12 * (y.y2 - a .p2ma)) (s2 .p12 + r.R12 ^ 2 * s2 .p2ma).toNNReal y.y1 *
  gaussianPDFReal (a .p2s) (s2 .p2s).toNNReal y.y2 *
  gaussianPDFReal (a .p3s + r.R32 * (y.y2 - a .p2s)) (s2 .p3s + r.R32 ^ 2 * s2 .p2s).toNNReal y.y3 *
  gaussianPDFReal (a .p43 + r.R43 * (y.y3 - a .p3ma)) (s2 .p43 + r.R43 ^ 2 * s2 .p3ma).toNNReal y.y4

/-- Average log likelihood of rows whose density given type `l` is `f i l`, under proportions `π`. -/
noncomputable def Spec.logLik (π f : Fin ni → Fin nl → ℝ) : ℝ := (∑ i, Real.log (∑ l, π i l * f i l)) / ni

end Pytwoway.Dynamic
