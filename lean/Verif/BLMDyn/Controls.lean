import Verif.BLMDyn.EMTight
import Verif.BLMDyn.Order

/-! # Control variables in the EM algorithm of the dynamic model: C95

`pytwoway/blm_dynamic.py`: `_fit_movers` with categorical controls (2016-2862).  Continuous controls raise already in
the E-step (`C73_continuous_raise`), and the constructor refuses any control unless both `endogeneity` and
`state_dependence` are on (`C76_controls_raise`), so all six periods are in the model here. -/

namespace Pytwoway.Dynamic

open Finset ProbabilityTheory Pytwoway.Sim.Dyn Pytwoway.BLM

variable {ni nl nk : ℕ}

/-! ## Model -/

/-- A categorical control: number of categories, the option `worker_type_interaction`, the rows' categories in the
two slots (`C1`, `C2`, 1942-1965, 1976), parameters (as in `DCtrl`), and the solvers of `cons_a_dict[col]` and
`cons_s_dict[col]`, which stand for the constraints on this control.
Used for blm_dynamic.py:1741-1756 and blm_dynamic.py:1820-1834. -/
structure CatCol (nl ni : ℕ) where
  n : ℕ
  wi : Bool
  c : Fin 2 → Fin ni → Fin n
  Aw : Per → Fin nl → Fin n → ℝ
  Sw : Per → Fin nl → Fin n → ℝ
  An : Per → Fin n → ℝ
  Sn : Per → Fin n → ℝ
  solA : QP (Fin nl × JM true true n)
  solS : QP (Fin nl × JM true true n)

/-- A control's term in `A_sum[period]`, blm_dynamic.py:1741-1756. -/
def CatCol.nonA (k : CatCol nl ni) (p : Per) (i : Fin ni) : ℝ := if !k.wi || p.isB then k.An p (k.c (slot p) i) else 0

/-- A control's term in `S_sum_sq[period]`.  Used for blm_dynamic.py:2028-2090. -/
def CatCol.nonS (k : CatCol nl ni) (p : Per) (i : Fin ni) : ℝ :=
  if !k.wi || p.isB then k.Sn p (k.c (slot p) i) ^ 2 else 0

/-- A control's term in `A_sum_l[period]`, blm_dynamic.py:1820-1834. -/
def CatCol.byA (k : CatCol nl ni) (l : Fin nl) (p : Per) (i : Fin ni) : ℝ :=
  if k.wi && !p.isB then k.Aw p l (k.c (slot p) i) else 0

/-- A control's term in `S_sum_sq_l[period]`.  Used for blm_dynamic.py:2028-2090. -/
def CatCol.byS (k : CatCol nl ni) (l : Fin nl) (p : Per) (i : Fin ni) : ℝ :=
  if k.wi && !p.isB then k.Sw p l (k.c (slot p) i) ^ 2 else 0

/-- `_sum_by_non_nl`, the part of `A`. -/
def sumNonA (ks : List (CatCol nl ni)) (p : Per) (i : Fin ni) : ℝ := (ks.map fun k => k.nonA p i).sum

/-- `_sum_by_non_nl`, the part of `S`.  Used for blm_dynamic.py:2028-2090 and blm_dynamic.py:2176-2242. -/
def sumNonS (ks : List (CatCol nl ni)) (p : Per) (i : Fin ni) : ℝ := (ks.map fun k => k.nonS p i).sum

/-- `_sum_by_nl_l`, the part of `A`.  Used for blm_dynamic.py:2244-2862 and blm_dynamic.py:2028-2090. -/
def sumByA (ks : List (CatCol nl ni)) (l : Fin nl) (p : Per) (i : Fin ni) : ℝ := (ks.map fun k => k.byA l p i).sum

/-- `_sum_by_nl_l`, the part of `S`.  Used for blm_dynamic.py:2028-2090 and blm_dynamic.py:2176-2242. -/
def sumByS (ks : List (CatCol nl ni)) (l : Fin nl) (p : Per) (i : Fin ni) : ℝ := (ks.map fun k => k.byS l p i).sum

/-- The four wages net of effects `a`, as they are written in `Y_l` (2410-2437), `Y_cat_l` (2534-2566) and
`eps_l_sq` (2741-2773).  Used for blm_dynamic.py:2485-2602 and blm_dynamic.py:2244-2862. -/
def netC (y : Wages) (r : Rhos) (a : Per → ℝ) : Fin 4 → ℝ
  | 0 => y.y1 - r.R12 * (y.y2 - a .p2ma) - a .p12
  | 1 => y.y2 - (a .p2ma + a .p2mb)
  | 2 => y.y3 - r.R32 * (y.y2 - (a .p2ma + a .p2mb)) - (a .p3ma + a .p3mb)
  | 3 => y.y4 - r.R43 * (y.y3 - a .p3ma) - a .p43

/-- The rows' wages with a control in place of the firm type: `X_cat[col]` (2317-2334) is `X` of these data.
Used for blm_dynamic.py:2514-2523, 2573-2574 and blm_dynamic.py:2485-2602. -/
def CatCol.data (k : CatCol nl ni) (d : DData ni nk) : DData ni k.n := ⟨d.y, k.c⟩

/-- `var_l` of a control without interaction, blm_dynamic.py:2501-2510. -/
def CatCol.var (k : CatCol nl ni) (r : Rhos) (s : Fin 4 × Fin ni) : ℝ :=
  let v : Per → ℝ := fun p => k.Sn p (k.c (slot p) s.2) ^ 2
  match s.1 with
  | 0 => v .p12 + r.R12 ^ 2 * v .p2ma
  | 1 => v .p2ma + v .p2mb
  | 2 => v .p3ma + v .p3mb + r.R32 ^ 2 * (v .p2ma + v .p2mb)
  | 3 => v .p43 + r.R43 ^ 2 * v .p3ma

/-- `weights_l` of a control, blm_dynamic.py:2512. -/
noncomputable def CatCol.w (k : CatCol nl ni) (r : Rhos) (q : Fin ni → Fin nl → ℝ) (l : Fin nl)
    (s : Fin 4 × Fin ni) : ℝ :=
  q s.2 l / √(k.var r s)

/-- `XwX_cat[col]` with the ridge, blm_dynamic.py:2514-2523, 2573-2574. -/
noncomputable def CatCol.P (k : CatCol nl ni) (d : DData ni nk) (r : Rhos) (q : Fin ni → Fin nl → ℝ) (δ : ℝ) :=
  XwX (k.w r q) (Xmv (endo := true) (state := true) (k.data d) r) δ

/-- Writing back, blm_dynamic.py:2589-2592, without interaction: the first worker type's values. -/
def writeN [NeZero nl] {n : ℕ} (x : Fin nl × JM true true n → ℝ) (old : Per → Fin n → ℝ) (p : Per) (c : Fin n) : ℝ :=
  if h : inModel true true p = true then x (0, ⟨p, h⟩, c) else old p c

/-- The new means of a control, blm_dynamic.py:2577-2597. -/
noncomputable def solveACol [NeZero nl] (k : CatCol nl ni)
    (P : Fin nl × JM true true k.n → Fin nl × JM true true k.n → ℝ) (v : Fin nl × JM true true k.n → ℝ) :
    Per → Fin k.n → ℝ :=
  match k.solA P (fun a => - v a) with
  | .ok (some x) => writeN x k.An
  | .ok none => k.An
  | .error _ => k.An

/-- The new standard deviations of a control, blm_dynamic.py:2817-2838. -/
noncomputable def solveSCol [NeZero nl] (k : CatCol nl ni)
    (P : Fin nl × JM true true k.n → Fin nl × JM true true k.n → ℝ) (v : Fin nl × JM true true k.n → ℝ) :
    Per → Fin k.n → ℝ :=
  match k.solS P (fun a => - v a) with
  | .ok (some x) => writeN (fun a => √(x a)) k.Sn
  | .ok none => k.Sn
  | .error _ => k.Sn

/-- Effects of all kinds on a row, given worker type: main effects, `A_sum` and `A_sum_l`.
Used for blm_dynamic.py:2485-2602 and blm_dynamic.py:2244-2862. -/
def totC (d : DData ni nk) (b : DBase nl nk) (asum : Per → Fin ni → ℝ) (al : Fin nl → Per → Fin ni → ℝ) (l : Fin nl)
    (i : Fin ni) (p : Per) : ℝ :=
  b.a l (fun t => d.G t i) p + asum p i + al l p i

/-- One control's update of the means, blm_dynamic.py:2485-2602.  `al` is `A_sum_l`.  With interaction,
`S_cat[col]['2mb'][l, :]` (2499) indexes a vector with two indices. -/
noncomputable def colStep [NeZero nl] (d : DData ni nk) (q : Fin ni → Fin nl → ℝ) (b : DBase nl nk) (r : Rhos)
    (updA : Bool) (δ : ℝ) (al : Fin nl → Per → Fin ni → ℝ) (asum : Per → Fin ni → ℝ) (k : CatCol nl ni) :
    Py ((Per → Fin ni → ℝ) × CatCol nl ni) :=
  if k.wi then .error "IndexError"
  else
    let asum1 : Per → Fin ni → ℝ := fun p i => asum p i - k.An p (k.c (slot p) i)
    let Y : Fin nl → Fin 4 × Fin ni → ℝ := fun l s => netC (d.y s.2) r (totC d b asum1 al l s.2) s.1
    let A' := if updA then solveACol k (k.P d r q δ) (XwV (k.w r q) (Xmv (k.data d) r) Y) else k.An
    .ok (fun p i => asum1 p i + A' p (k.c (slot p) i), { k with An := A' })

/-- The loop over controls, blm_dynamic.py:2485-2602. -/
noncomputable def colLoop [NeZero nl] (d : DData ni nk) (q : Fin ni → Fin nl → ℝ) (b : DBase nl nk) (r : Rhos)
    (updA : Bool) (δ : ℝ) (al : Fin nl → Per → Fin ni → ℝ) :
    (Per → Fin ni → ℝ) → List (CatCol nl ni) → Py ((Per → Fin ni → ℝ) × List (CatCol nl ni))
  | asum, [] => .ok (asum, [])
  | asum, k :: ks => do
    let x ← colStep d q b r updA δ al asum k
    let y ← colLoop d q b r updA δ al x.1 ks
    .ok (y.1, x.2 :: y.2)

/-- The orders of all columns, blm_dynamic.py:2336-2340. -/
def orders (nl nk : ℕ) (ks : List (CatCol nl ni)) : Py Unit :=
  ks.forM fun k => do
    let _ ← Order.order nl 6 nk k.n
    .ok ()

/-- The M-step of movers with controls, blm_dynamic.py:2244-2862.  Returns the main parameters, the controls and
`A_sum`. -/
noncomputable def mstepMvC [NeZero nl] (d : DData ni nk) (q : Fin ni → Fin nl → ℝ) (b : DBase nl nk) (r : Rhos)
    (updA updS : Bool) (δ : ℝ) (sA sS : QP (Fin nl × JM true true nk)) (ks : List (CatCol nl ni))
    (asum : Per → Fin ni → ℝ) : Py (DBase nl nk × List (CatCol nl ni) × (Per → Fin ni → ℝ)) := do
  let _ ← orders nl nk ks
  let al : Fin nl → Per → Fin ni → ℝ := sumByA ks
  let w := wMv d b r q
  let P := XwX w (Xmv (endo := true) (state := true) d r) δ
  let Y : Fin nl → Fin 4 × Fin ni → ℝ := fun l s => netC (d.y s.2) r (fun p => asum p s.2 + al l p s.2) s.1
  let b1 := if updA then solveAMv sA P (XwV w (Xmv d r) Y) b else b
  let x ← colLoop d q b1 r updA δ al asum ks
  let E : Fin nl → Fin 4 × Fin ni → ℝ := fun l s => netC (d.y s.2) r (totC d b1 x.1 al l s.2) s.1 ^ 2
  let b2 := if updS then solveSMv sS P (XwV w (Xmv d r) E) b1 else b1
  let ks2 := if updS then
      x.2.map fun k => { k with Sn := solveSCol k (k.P d r q δ) (XwV (k.w r q) (Xmv (k.data d) r) E) }
    else x.2
  .ok (b2, ks2, x.1)

/-! ## The loop -/

/-- What the loop carries: `A_sum` is computed before the first iteration only (2023-2026).
Used for blm_dynamic.py:2028-2090 and blm_dynamic.py:2176-2242. -/
structure CState (nl nk ni : ℕ) where
  base : DBase nl nk
  cols : List (CatCol nl ni)
  asum : Per → Fin ni → ℝ
  r : Rhos
  pk1 : ℕ → Fin nl → ℝ
  liks : List ℝ

/-- `lp` of movers with controls, blm_dynamic.py:2028-2090. -/
noncomputable def lpMvC (d : DData ni nk) (s : CState nl nk ni) (i : Fin ni) (l : Fin nl) : ℝ :=
  Real.log (s.pk1 (flow d i) l) + lpMoversCtrl s.base s.r l (fun t => d.G t i)
    ⟨fun p => s.asum p i, fun p => sumByA s.cols l p i, fun p => sumNonS s.cols p i, fun p => sumByS s.cols l p i⟩ (d.y i)

/-- The persistence updates with controls, blm_dynamic.py:2176-2242. -/
noncomputable def rhosMvC (d : DData ni nk) (o : MvOpts) (s : CState nl nk ni) (q : Fin ni → Fin nl → ℝ) : Rhos :=
  let a : Fin ni → Fin nl → Per → ℝ := fun i l => totC d s.base s.asum (sumByA s.cols) l i
  let s2 : Fin ni → Fin nl → Per → ℝ := fun i l p =>
    s.base.s2 l (fun t => d.G t i) p + sumNonS s.cols p i + sumByS s.cols l p i
  { R12 := if o.upd12 then update12 d.y a s2 s.r q else s.r.R12
    R43 := if o.upd43 then update43 d.y a s2 s.r q else s.r.R43
    R32 := if o.upd32 then update32m d.y a s2 s.r q else s.r.R32 }

/-- One pass through blm_dynamic.py:2164-2862, from the posteriors on. -/
noncomputable def stepMvC [NeZero nl] (d : DData ni nk) (o : MvOpts) (sA sS : QP (Fin nl × JM true true nk))
    (iter : ℕ) (q : Fin ni → Fin nl → ℝ) (s : CState nl nk ni) : Py (CState nl nk ni) := do
  let pk1 ← nextPk o.updPk (nk ^ 2) (flow d) q o.dprior s.pk1
  if (o.upd12 || o.upd43 || o.upd32) && iter % 2 == 1 then
    .ok { s with pk1 := pk1, r := rhosMvC d o s q }
  else if o.updA || o.updS then do
    let x ← mstepMvC d q s.base s.r o.updA o.updS o.δ sA sS s.cols s.asum
    .ok { s with pk1 := pk1, base := x.1, cols := x.2.1, asum := x.2.2 }
  else .ok { s with pk1 := pk1 }

/-- Settings of the check for cycles.  Used for blm_dynamic.py:2148-2163 and blm_dynamic.py:2008-2862. -/
structure CycOpts where
  start : ℕ
  nObs : ℕ
  force : Bool

/-- blm_dynamic.py:2148-2163.  `self.fit_movers` with `force_min_firm_type` calls the constructor without its
second argument (1883, 1098), so the check raises when it finds a cycle. -/
def cycleCheck (c : CycOpts) (iter m : ℕ) (mins : List ℕ) : Py (List ℕ) :=
  if c.start ≤ iter ∧ c.force = false then
    let mins := mins ++ [m]
    if c.nObs ≤ mins.length then
      let mins := if c.nObs < mins.length then mins.tail else mins
      if (mins.zip mins.tail).all fun p => p.1 != p.2 then .error "TypeError" else .ok mins
    else .ok mins
  else .ok mins

/-- The loop of `_fit_movers` with controls, blm_dynamic.py:2008-2862; `sA m` are the constraints on means when `m` is the
lowest firm type (2014, 2462). -/
noncomputable def loopMvC [NeZero nl] (d : DData ni nk) (o : MvOpts) (cyc : CycOpts)
    (sA : ℕ → QP (Fin nl × JM true true nk)) (sS : QP (Fin nl × JM true true nk)) (minType : DBase nl nk → ℕ) :
    (fuel iter : ℕ) → (prev : Option ℝ) → (prevMin : ℕ) → (mins : List ℕ) → CState nl nk ni → Py (CState nl nk ni)
  | 0, _, _, _, _, s => .ok s
  | fuel + 1, iter, prev, prevMin, mins, s => do
    let lp := lpMvC d s
    let q := posterior lp
    let lik := likOf lp (nk ^ 2) s.pk1 (iter == 0) o.updPk o.dprior
    let s' := { s with liks := s.liks ++ [lik] }
    let m := minType s.base
    if close lik prev o.thresholdMovers && m == prevMin then .ok s'
    else do
      let mins ← cycleCheck cyc iter m mins
      let s'' ← stepMvC d o (sA m) sS iter q s'
      loopMvC d o cyc sA sS minType fuel (iter + 1) (some lik) m mins s''

end Pytwoway.Dynamic
