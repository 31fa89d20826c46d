import Verif.BLM.Model
import Verif.Sim.DynParams

/-! # The dynamic BLM model: densities

`pytwoway/blm_dynamic.py`: `_sum_by_non_nl` (1701-1776), `_sum_by_nl_l` (1778-1854), the densities of the
E-steps of `_fit_movers` (2016-2121) and `fit_stayers` (2984-3104), and the wage draws of
`_simulate_types_wages` (905-1087).  All of these work row by row; one row is modelled. -/

namespace Pytwoway.Dynamic

open Pytwoway.BLM Pytwoway.Sim.Dyn

abbrev Py := Except String

variable {nl nk : ℕ}

/-- Which firm and which value of a time-varying control a period's parameters go with, blm_dynamic.py
`first_periods`/`second_periods` (835-838, 1137-1138, 1976), simdblm.py:571-573: 0 for `'12', '2ma', '3mb', '2s'`, 1 for
`'43', '2mb', '3ma', '3s'`. -/
def slot : Per → Fin 2
  | .p12 | .p2ma | .p3mb | .p2s => 0
  | _ => 1

/-- Main parameters: matrices for the periods that depend on the worker type, vectors for `'2mb'` and
`'3mb'`.  Used for blm_dynamic.py:2032-2088 and blm_dynamic.py:2100-2119. -/
structure DBase (nl nk : ℕ) where
  Aw : Per → Fin nl → Fin nk → ℝ
  Ab : Per → Fin nk → ℝ
  Sw : Per → Fin nl → Fin nk → ℝ
  Sb : Per → Fin nk → ℝ

/-- Persistence parameters.  Used for blm_dynamic.py:2032-2088 and blm_dynamic.py:2100-2119. -/
structure Rhos where
  R12 : ℝ
  R43 : ℝ
  R32 : ℝ

/-- A control, as it applies to one row: `wi` the option `worker_type_interaction`, `c`/`x` the row's
values in the two slots.  The first pair of functions is used if the control interacts with worker types and
the period is not `'2mb'` or `'3mb'`, the second otherwise (blm_dynamic.py:1214-1258). -/
inductive DCtrl (nl : ℕ)
  | cat (wi : Bool) (c : Fin 2 → ℕ) (Aw Sw : Per → Fin nl → ℕ → ℝ) (An Sn : Per → ℕ → ℝ)
  | cts (wi : Bool) (x : Fin 2 → ℝ) (Aw Sw : Per → Fin nl → ℝ) (An Sn : Per → ℝ)

/-- Parameters of a row's type pair, `A[period][l, G]` or `A[period][G]`.
Used for simdblm.py:950-968 and simdblm.py:1079-1097. -/
def DBase.a (b : DBase nl nk) (l : Fin nl) (G : Fin 2 → Fin nk) (p : Per) : ℝ :=
  if p.isB then b.Ab p (G (slot p)) else b.Aw p l (G (slot p))

/-- `S[period][l, G] ** 2` or `S[period][G] ** 2`.  Used for simdblm.py:950-968 and simdblm.py:1079-1097. -/
def DBase.s2 (b : DBase nl nk) (l : Fin nl) (G : Fin 2 → Fin nk) (p : Per) : ℝ :=
  if p.isB then b.Sb p (G (slot p)) ^ 2 else b.Sw p l (G (slot p)) ^ 2

/-- A control's term in `A_sum[period]`, blm_dynamic.py:1741-1769.  For continuous controls
`A_cts_t[col]` indexes an array with a string (1767). -/
def nonA (p : Per) : DCtrl nl → Py ℝ
  | .cat wi c _ _ An _ => .ok (if !wi || p.isB then An p (c (slot p)) else 0)
  | .cts wi _ _ _ _ _ => if !wi || p.isB then .error "IndexError" else .ok 0

/-- A control's term in `S_sum_sq[period]`.  Used for blm_dynamic.py:2021-2121. -/
def nonS (p : Per) : DCtrl nl → Py ℝ
  | .cat wi c _ _ _ Sn => .ok (if !wi || p.isB then Sn p (c (slot p)) ^ 2 else 0)
  | .cts wi _ _ _ _ _ => if !wi || p.isB then .error "IndexError" else .ok 0

/-- A control's term in `A_sum_l[period]`, blm_dynamic.py:1820-1847. -/
def byA (l : Fin nl) (p : Per) : DCtrl nl → Py ℝ
  | .cat wi c Aw _ _ _ => .ok (if wi && !p.isB then Aw p l (c (slot p)) else 0)
  | .cts wi _ _ _ _ _ => if wi && !p.isB then .error "IndexError" else .ok 0

/-- A control's term in `S_sum_sq_l[period]`.  Used for blm_dynamic.py:2021-2121. -/
def byS (l : Fin nl) (p : Per) : DCtrl nl → Py ℝ
  | .cat wi c _ Sw _ _ => .ok (if wi && !p.isB then Sw p l (c (slot p)) ^ 2 else 0)
  | .cts wi _ _ _ _ _ => if wi && !p.isB then .error "IndexError" else .ok 0

/-- Sum of a term over the controls.  Used for blm_dynamic.py:2021-2121. -/
def sumOver (f : DCtrl nl → Py ℝ) (cs : List (DCtrl nl)) : Py ℝ :=
  cs.foldlM (fun acc c => do let x ← f c; .ok (acc + x)) 0

/-- The four dictionaries at one row: `A_sum`, `A_sum_l`, `S_sum_sq`, `S_sum_sq_l`.
Used for blm_dynamic.py:2032-2088 and blm_dynamic.py:2991-3019, 3062-3084. -/
structure Sums where
  An : Per → ℝ
  Al : Per → ℝ
  Sn : Per → ℝ
  Sl : Per → ℝ

/-- Evaluate for every period of a list; other periods stay zero.  Used for blm_dynamic.py:2021-2121. -/
def overPeriods (ps : List Per) (f : Per → Py ℝ) : Py (Per → ℝ) :=
  ps.foldlM (fun acc p => do let x ← f p; .ok (Function.update acc p x)) fun _ => 0

/-- `_sum_by_non_nl` and `_sum_by_nl_l`.  Used for blm_dynamic.py:2021-2121. -/
def sums (ps : List Per) (l : Fin nl) (cs : List (DCtrl nl)) : Py Sums := do
  let an ← overPeriods ps fun p => sumOver (nonA p) cs
  let sn ← overPeriods ps fun p => sumOver (nonS p) cs
  let al ← overPeriods ps fun p => sumOver (byA l p) cs
  let sl ← overPeriods ps fun p => sumOver (byS l p) cs
  .ok ⟨an, al, sn, sl⟩

/-- blm_dynamic.py:1134-1135, for both effects on.  With one of them off, `'2mb'` or `'3mb'` is removed; that
matters only with controls, and then the constructor raises (`C76_controls_raise`) or the sums below do. -/
def periodsMovers : List Per := [.p12, .p43, .p2ma, .p3ma, .p2mb, .p3mb]

/-- The periods whose parameters stayers use, blm_dynamic.py:1135. -/
def periodsStayers : List Per := [.p12, .p43, .p2ma, .p3ma, .p2s, .p3s]

/-- Four wages of a row.  Used for blm_dynamic.py:2032-2088 and blm_dynamic.py:2100-2119. -/
structure Wages where
  y1 : ℝ
  y2 : ℝ
  y3 : ℝ
  y4 : ℝ

/-- `lp1 + lp2 + lp3 + lp4` of movers with controls, blm_dynamic.py:2032-2088. -/
noncomputable def lpMoversCtrl (b : DBase nl nk) (r : Rhos) (l : Fin nl) (G : Fin 2 → Fin nk) (s : Sums)
    (y : Wages) : ℝ :=
  lnvar (y.y1 - r.R12 * (y.y2 - b.Aw .p2ma l (G 0) - s.An .p2ma - s.Al .p2ma))
      (b.Aw .p12 l (G 0) + s.An .p12 + s.Al .p12)
      (b.Sw .p12 l (G 0) ^ 2 + s.Sn .p12 + s.Sl .p12 +
        r.R12 ^ 2 * (b.Sw .p2ma l (G 0) ^ 2 + s.Sn .p2ma + s.Sl .p2ma)) +
    lnvar y.y2
      (b.Aw .p2ma l (G 0) + b.Ab .p2mb (G 1) + (s.An .p2ma + s.An .p2mb) + (s.Al .p2ma + s.Al .p2mb))
      (b.Sw .p2ma l (G 0) ^ 2 + b.Sb .p2mb (G 1) ^ 2 + (s.Sn .p2ma + s.Sn .p2mb) + (s.Sl .p2ma + s.Sl .p2mb)) +
    lnvar (y.y3 - r.R32 * (y.y2 - (b.Aw .p2ma l (G 0) + b.Ab .p2mb (G 1)) - (s.An .p2ma + s.An .p2mb)
        - (s.Al .p2ma + s.Al .p2mb)))
      (b.Aw .p3ma l (G 1) + b.Ab .p3mb (G 0) + (s.An .p3ma + s.An .p3mb) + (s.Al .p3ma + s.Al .p3mb))
      (b.Sw .p3ma l (G 1) ^ 2 + b.Sb .p3mb (G 0) ^ 2 + (s.Sn .p3ma + s.Sn .p3mb) + (s.Sl .p3ma + s.Sl .p3mb) +
        r.R32 ^ 2 * (b.Sw .p2ma l (G 0) ^ 2 + b.Sb .p2mb (G 1) ^ 2 + (s.Sn .p2ma + s.Sn .p2mb)
          + (s.Sl .p2ma + s.Sl .p2mb))) +
    lnvar (y.y4 - r.R43 * (y.y3 - b.Aw .p3ma l (G 1) - s.An .p3ma - s.Al .p3ma))
      (b.Aw .p43 l (G 1) + s.An .p43 + s.Al .p43)
      (b.Sw .p43 l (G 1) ^ 2 + s.Sn .p43 + s.Sl .p43 +
        r.R43 ^ 2 * (b.Sw .p3ma l (G 1) ^ 2 + s.Sn .p3ma + s.Sl .p3ma))

/-- The same without controls, blm_dynamic.py:2100-2119. -/
noncomputable def lpMoversPlain (b : DBase nl nk) (r : Rhos) (l : Fin nl) (G : Fin 2 → Fin nk) (y : Wages) : ℝ :=
  lnvar (y.y1 - r.R12 * (y.y2 - b.Aw .p2ma l (G 0))) (b.Aw .p12 l (G 0))
      (b.Sw .p12 l (G 0) ^ 2 + (r.R12 * b.Sw .p2ma l (G 0)) ^ 2) +
    lnvar y.y2 (b.Aw .p2ma l (G 0) + b.Ab .p2mb (G 1)) (b.Sw .p2ma l (G 0) ^ 2 + b.Sb .p2mb (G 1) ^ 2) +
    lnvar (y.y3 - r.R32 * (y.y2 - b.Aw .p2ma l (G 0) - b.Ab .p2mb (G 1)))
      (b.Aw .p3ma l (G 1) + b.Ab .p3mb (G 0))
      (b.Sw .p3ma l (G 1) ^ 2 + b.Sb .p3mb (G 0) ^ 2 +
        r.R32 ^ 2 * (b.Sw .p2ma l (G 0) ^ 2 + b.Sb .p2mb (G 1) ^ 2)) +
    lnvar (y.y4 - r.R43 * (y.y3 - b.Aw .p3ma l (G 1))) (b.Aw .p43 l (G 1))
      (b.Sw .p43 l (G 1) ^ 2 + (r.R43 * b.Sw .p3ma l (G 1)) ^ 2)

/-- Log density of a mover's four wages given worker type `l`, blm_dynamic.py:2021-2121 (the type's prior
probability is added there). -/
noncomputable def lpMovers (b : DBase nl nk) (r : Rhos) (l : Fin nl) (G : Fin 2 → Fin nk)
    (cs : List (DCtrl nl)) (y : Wages) : Py ℝ :=
  if cs.isEmpty then .ok (lpMoversPlain b r l G y)
  else do
    let s ← sums periodsMovers l cs
    .ok (lpMoversCtrl b r l G s y)

/-- `lognormpdf(..., sd=...)`.  Used for blm_dynamic.py:3030-3041, 3093-3104. -/
noncomputable def lnsd (x mu s : ℝ) : ℝ :=
  match Util.lognormpdf x mu (some s) none with
  | .ok r => r
  | .error _ => 0

/-- Stayers with controls, blm_dynamic.py:2991-3019, 3062-3084: every parameter is read at the stayer's one
firm type `g`. -/
noncomputable def lpStayersCtrl (b : DBase nl nk) (r : Rhos) (l : Fin nl) (g : Fin nk) (s : Sums)
    (y : Wages) : ℝ :=
  (lnvar y.y2 (b.Aw .p2s l g + s.An .p2s + s.Al .p2s) (b.Sw .p2s l g ^ 2 + s.Sn .p2s + s.Sl .p2s) +
    lnvar (y.y3 - r.R32 * (y.y2 - b.Aw .p2s l g - s.An .p2s - s.Al .p2s))
      (b.Aw .p3s l g + s.An .p3s + s.Al .p3s)
      (b.Sw .p3s l g ^ 2 + s.Sn .p3s + s.Sl .p3s + r.R32 ^ 2 * (b.Sw .p2s l g ^ 2 + s.Sn .p2s + s.Sl .p2s))) +
  (lnvar (y.y1 - r.R12 * (y.y2 - b.Aw .p2ma l g - s.An .p2ma - s.Al .p2ma))
      (b.Aw .p12 l g + s.An .p12 + s.Al .p12)
      (b.Sw .p12 l g ^ 2 + s.Sn .p12 + s.Sl .p12 +
        r.R12 ^ 2 * (b.Sw .p2ma l g ^ 2 + s.Sn .p2ma + s.Sl .p2ma)) +
    lnvar (y.y4 - r.R43 * (y.y3 - b.Aw .p3ma l g - s.An .p3ma - s.Al .p3ma))
      (b.Aw .p43 l g + s.An .p43 + s.Al .p43)
      (b.Sw .p43 l g ^ 2 + s.Sn .p43 + s.Sl .p43 +
        r.R43 ^ 2 * (b.Sw .p3ma l g ^ 2 + s.Sn .p3ma + s.Sl .p3ma)))

/-- Stayers without controls, blm_dynamic.py:3030-3041, 3093-3104. -/
noncomputable def lpStayersPlain (b : DBase nl nk) (r : Rhos) (l : Fin nl) (g : Fin nk) (y : Wages) : ℝ :=
  (lnsd y.y2 (b.Aw .p2s l g) (b.Sw .p2s l g) +
    lnvar (y.y3 - r.R32 * (y.y2 - b.Aw .p2s l g)) (b.Aw .p3s l g)
      (b.Sw .p3s l g ^ 2 + (r.R32 * b.Sw .p2s l g) ^ 2)) +
  (lnvar (y.y1 - r.R12 * (y.y2 - b.Aw .p2ma l g)) (b.Aw .p12 l g)
      (b.Sw .p12 l g ^ 2 + (r.R12 * b.Sw .p2ma l g) ^ 2) +
    lnvar (y.y4 - r.R43 * (y.y3 - b.Aw .p3ma l g)) (b.Aw .p43 l g)
      (b.Sw .p43 l g ^ 2 + (r.R43 * b.Sw .p3ma l g) ^ 2))

/-- Log density of a stayer's four wages given worker type `l`, blm_dynamic.py:2991-3104. -/
noncomputable def lpStayers (b : DBase nl nk) (r : Rhos) (l : Fin nl) (g : Fin nk)
    (cs : List (DCtrl nl)) (y : Wages) : Py ℝ :=
  if cs.isEmpty then .ok (lpStayersPlain b r l g y)
  else do
    let s ← sums periodsStayers l cs
    .ok (lpStayersCtrl b r l g s y)

/-! ## Drawing wages -/

/-- A control's term in the simulator's `A_sum[period]`, simdblm.py:919-943 (stayers 1048-1072). -/
def simA (L : Fin nl) (p : Per) : DCtrl nl → ℝ
  | .cat wi c Aw _ An _ => if wi && !p.isB then Aw p L (c (slot p)) else An p (c (slot p))
  | .cts wi x Aw _ An _ => if wi && !p.isB then Aw p L * x (slot p) else An p * x (slot p)

/-- A control's term in the simulator's `S_sum_sq[period]`, same lines: the standard deviation is added
without squaring it. -/
def simS (L : Fin nl) (p : Per) : DCtrl nl → ℝ
  | .cat wi c _ Sw _ Sn => if wi && !p.isB then Sw p L (c (slot p)) else Sn p (c (slot p))
  | .cts wi _ _ Sw _ Sn => if wi && !p.isB then Sw p L else Sn p

/-- `A_sum[period]` of a simulated row, simdblm.py:919-943, 1048-1072. -/
def simSumA (b : DBase nl nk) (L : Fin nl) (G : Fin 2 → Fin nk) (cs : List (DCtrl nl)) (p : Per) : ℝ :=
  cs.foldl (fun acc c => acc + simA L p c) (b.a L G p)

/-- `S_sum_sq[period]` of a simulated row, simdblm.py:919-943, 1048-1072. -/
def simSumS (b : DBase nl nk) (L : Fin nl) (G : Fin 2 → Fin nk) (cs : List (DCtrl nl)) (p : Per) : ℝ :=
  cs.foldl (fun acc c => acc + simS L p c) (b.s2 L G p)

/-- Drawing a mover's wages from `A_sum` and `S_sum_sq`, simdblm.py:950-968 and blm_dynamic.py:967-985;
`e1` to `e4` are the standard normal draws. -/
noncomputable def drawMovers (a s2 : Per → ℝ) (r : Rhos) (e1 e2 e3 e4 : ℝ) : Wages :=
  let y1 := a .p12 - r.R12 * a .p2ma + √(s2 .p12 + r.R12 ^ 2 * s2 .p2ma) * e1
  let y2 := a .p2ma + a .p2mb + √(s2 .p2ma + s2 .p2mb) * e2
  let y1 := y1 + r.R12 * y2
  let y3 := a .p3ma + a .p3mb - r.R32 * (a .p2ma + a .p2mb) +
    √(s2 .p3ma + s2 .p3mb + r.R32 ^ 2 * (s2 .p2ma + s2 .p2mb)) * e3
  let y3 := y3 + r.R32 * y2
  let y4 := a .p43 - r.R43 * a .p3ma + √(s2 .p43 + r.R43 ^ 2 * s2 .p3ma) * e4
  let y4 := y4 + r.R43 * y3
  ⟨y1, y2, y3, y4⟩

/-- Drawing a stayer's wages, simdblm.py:1079-1097 and blm_dynamic.py:1066-1084. -/
noncomputable def drawStayers (a s2 : Per → ℝ) (r : Rhos) (e1 e2 e3 e4 : ℝ) : Wages :=
  let y1 := a .p12 - r.R12 * a .p2ma + √(s2 .p12 + r.R12 ^ 2 * s2 .p2ma) * e1
  let y2 := a .p2s + √(s2 .p2s) * e2
  let y1 := y1 + r.R12 * y2
  let y3 := a .p3s - r.R32 * a .p2s + √(s2 .p3s + r.R32 ^ 2 * s2 .p2s) * e3
  let y3 := y3 + r.R32 * y2
  let y4 := a .p43 - r.R43 * a .p3ma + √(s2 .p43 + r.R43 ^ 2 * s2 .p3ma) * e4
  let y4 := y4 + r.R43 * y3
  ⟨y1, y2, y3, y4⟩

/-- A simulated mover of `SimDynamicBLM`. -/
noncomputable def simMover (b : DBase nl nk) (r : Rhos) (L : Fin nl) (G : Fin 2 → Fin nk)
    (cs : List (DCtrl nl)) (e1 e2 e3 e4 : ℝ) : Wages :=
  drawMovers (simSumA b L G cs) (simSumS b L G cs) r e1 e2 e3 e4

/-- A simulated stayer of `SimDynamicBLM`: both slots have the stayer's firm type. -/
noncomputable def simStayer (b : DBase nl nk) (r : Rhos) (L : Fin nl) (g : Fin nk)
    (cs : List (DCtrl nl)) (e1 e2 e3 e4 : ℝ) : Wages :=
  drawStayers (simSumA b L (fun _ => g) cs) (simSumS b L (fun _ => g) cs) r e1 e2 e3 e4

/-- A mover drawn by the parametric bootstrap of the dynamic model, blm_dynamic.py:905-985.  With any
control, `jdata.loc[:, subcol]` (937-965) looks up a column named `0` or `1`. -/
noncomputable def bootMover (b : DBase nl nk) (r : Rhos) (L : Fin nl) (G : Fin 2 → Fin nk)
    (cs : List (DCtrl nl)) (e1 e2 e3 e4 : ℝ) : Py Wages :=
  if cs.isEmpty then .ok (drawMovers (b.a L G) (b.s2 L G) r e1 e2 e3 e4) else .error "KeyError"

/-- A stayer drawn by the parametric bootstrap of the dynamic model, blm_dynamic.py:1012-1084. -/
noncomputable def bootStayer (b : DBase nl nk) (r : Rhos) (L : Fin nl) (g : Fin nk)
    (cs : List (DCtrl nl)) (e1 e2 e3 e4 : ℝ) : Py Wages :=
  if cs.isEmpty then .ok (drawStayers (b.a L fun _ => g) (b.s2 L fun _ => g) r e1 e2 e3 e4)
  else .error "KeyError"

end Pytwoway.Dynamic
