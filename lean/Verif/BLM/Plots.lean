import Verif.BLM.Sort
import Verif.BLMDyn.Sort

/-! # Plots of estimated models

`plot_log_earnings` and `plot_type_proportions` of `BLMModel` (blm.py:2243-2347), `DynamicBLMModel`
(blm_dynamic.py:3872-3976), `BLMBootstrap` (blm.py:2650-2764) and `DynamicBLMBootstrap` (blm_dynamic.py:4281-4396).
The model returns what is handed to Matplotlib: the heights of lines, the heights and bottoms of bars, and the error
bars.  Labels, ticks, grid and resolution are left out.  `_sort_parameters` copies its arguments, so none of the
functions changes a model; here that is immediate, because the functions return no model. -/

namespace Pytwoway.Plots

open Finset Pytwoway.BLM Pytwoway.Dynamic

abbrev Py := Except String

variable {nl nk : ℕ}

/-! ## Model -/

/-- A static or a dynamic model after estimation.  The fields `NNm` and `NNs` of the two structures are not used here:
the attributes may be `None` and may have the wrong shape, see `Tab` and `Vec`.
Used for blm.py:852-963 and blm.py:2243-2277. -/
inductive Fitted (nl nk : ℕ)
  | static (p : AllParams 0 nl nk)
  | dyn (x : DAll nl nk)

/-- The parameters returned by `_sort_parameters(..., sort_firm_types=True)` that the plots use, and
`firm_type_order`.  Used for blm.py:852-963 and blm.py:2718-2740. -/
structure Sorted (nl nk : ℕ) where
  A : Fin 2 → Fin nl → Fin nk → ℝ
  pk1 : ℕ → Fin nl → ℝ
  pk0 : Fin nk → Fin nl → ℝ
  order : Fin nk → Fin nk

/-- blm.py:852-963 and blm_dynamic.py:1462-1556, as modelled for C35 and C90. -/
noncomputable def Fitted.sorted (a : Argsort) (pp : BLM.Primary) : Fitted nl nk → Sorted nl nk
  | .static p =>
    let q := sortParams a pp true false p
    ⟨q.base.A, q.pk1, q.pk0, orderOf a false (firmMean (primaryMean pp p.base.A))⟩
  | .dyn x =>
    let q := dSort a pp true false x
    ⟨fun t => if t = 0 then q.base.Aw .p12 else q.base.Aw .p43, q.pk1, q.pk0,
      orderOf a false (firmMean (dPrimaryMean pp x.base))⟩

/-- Values of `period`.  Used for blm.py:2256-2264, 2326-2334 and blm.py:2243-2277. -/
inductive Period | first | second | all | other
  deriving DecidableEq

/-- Values of `subset`.  Used for blm.py:2289-2324 and blm.py:2279-2347. -/
inductive Subset | movers | stayers | all | other
  deriving DecidableEq

/-- blm.py:2256-2264, 2326-2334 and the other copies. -/
noncomputable def pick {m n : ℕ} (per : Period) (X Y : Fin m → Fin n → ℝ) : Py (Fin m → Fin n → ℝ) :=
  match per with
  | .first => .ok X
  | .second => .ok Y
  | .all => .ok fun i j => (X i j + Y i j) / 2
  | .other => .error "ValueError"

/-- `plot_log_earnings`, blm.py:2243-2277 and blm_dynamic.py:3872-3905: the height of line `l` above `k + 1`. -/
noncomputable def logLines (a : Argsort) (pp : BLM.Primary) (m : Fitted nl nk) (per : Period) :
    Py (Fin nl → Fin nk → ℝ) :=
  pick per ((m.sorted a pp).A 0) ((m.sorted a pp).A 1)

/-- A two-dimensional array, with its shape.  Used for blm.py:1275 and blm.py:952-954. -/
structure Tab where
  rows : ℕ
  cols : ℕ
  val : ℕ → ℕ → ℝ

/-- A one-dimensional array.  Used for blm.py:2088-2090 and blm.py:955-956. -/
structure Vec where
  len : ℕ
  val : ℕ → ℝ

/-- The firm classes that occur, in order.  Used for blm.py:1275 and blm.py:2088-2090. -/
def levels {n : ℕ} (g : Fin n → Fin nk) : List (Fin nk) := (List.finRange nk).filter fun k => ∃ i, g i = k

/-- `jdata.groupby('g1')['g2'].value_counts().unstack(fill_value=0).to_numpy()`, blm.py:1275 and 1948
(blm_dynamic.py:1902 and 2904 with `g4`): one row for every class with a mover in the first period, one column for
every class with a mover in the second. -/
def countMovers {n : ℕ} (g : Fin 2 → Fin n → Fin nk) : Tab where
  rows := (levels (g 0)).length
  cols := (levels (g 1)).length
  val x y := #{i | (levels (g 0))[x]? = some (g 0 i) ∧ (levels (g 1))[y]? = some (g 1 i)}

/-- `value_counts` in the order of the index, blm.py:2088-2090 and blm_dynamic.py:3686-3688. -/
def countStayers {n : ℕ} (g : Fin n → Fin nk) : Vec where
  len := (levels g).length
  val x := #{i | (levels g)[x]? = some (g i)}

/-- `NNm[order, :][:, order]`, blm.py:952-954 and blm_dynamic.py:1546-1548; only done if the order is not
`0, 1, ...`. -/
def sortTab (o : Fin nk → Fin nk) (t : Tab) : Py Tab :=
  if o = id then .ok t
  else if t.rows < nk ∨ t.cols < nk then .error "IndexError"
  else .ok ⟨nk, nk, fun x y => t.val (at' o x) (at' o y)⟩

/-- `NNs[order]`, blm.py:955-956 and blm_dynamic.py:1549-1550. -/
def sortVec (o : Fin nk → Fin nk) (v : Vec) : Py Vec :=
  if o = id then .ok v else if v.len < nk then .error "IndexError" else .ok ⟨nk, fun x => v.val (at' o x)⟩

/-- NumPy's broadcasting: an axis of length one is repeated.  Used for blm.py:2304-2308 and blm.py:2320-2321. -/
def bc (n x : ℕ) : ℕ := if n = 1 then 0 else x

/-- An axis of length `n` can be combined with one of length `nk`.  Used for blm.py:2304-2308 and blm.py:2320-2321. -/
def Fits (n nk : ℕ) : Prop := n = 1 ∨ n = nk

instance (n nk : ℕ) : Decidable (Fits n nk) := by unfold Fits; infer_instance

/-- `NNm_1`, blm.py:2304. -/
def Tab.N1 (t : Tab) (x : ℕ) : ℝ := ∑ y ∈ range t.cols, t.val x y

/-- `NNm_2`, blm.py:2305. -/
def Tab.N2 (t : Tab) (y : ℕ) : ℝ := ∑ x ∈ range t.rows, t.val x y

/-- blm.py:2304-2308 (and 2313-2318): `np.reshape(pk1, (nk, nk, nl))` has row `i * nk + j` at `(i, j)`.  Every row and
column of a table built by `countMovers` has a positive sum, so there is no division by zero. -/
noncomputable def moverShares (pk1 : ℕ → Fin nl → ℝ) (t : Tab) :
    Py ((Fin nk → Fin nl → ℝ) × (Fin nk → Fin nl → ℝ)) :=
  if Fits t.rows nk ∧ Fits t.cols nk then
    .ok (fun k l => (∑ j : Fin nk, t.val (bc t.rows k.val) (bc t.cols j.val) * pk1 (k.val * nk + j.val) l) /
        t.N1 (bc t.rows k.val),
      fun k l => (∑ i : Fin nk, t.val (bc t.rows i.val) (bc t.cols k.val) * pk1 (i.val * nk + k.val) l) /
        t.N2 (bc t.cols k.val))
  else .error "ValueError"

/-- blm.py:2320-2321: the average over movers and stayers. -/
noncomputable def withStayers (pk0 : Fin nk → Fin nl → ℝ) (t : Tab) (v : Vec)
    (p : (Fin nk → Fin nl → ℝ) × (Fin nk → Fin nl → ℝ)) : Py ((Fin nk → Fin nl → ℝ) × (Fin nk → Fin nl → ℝ)) :=
  if Fits v.len nk then
    .ok (fun k l => (t.N1 (bc t.rows k.val) * p.1 k l + v.val (bc v.len k.val) * pk0 k l) /
        (t.N1 (bc t.rows k.val) + v.val (bc v.len k.val)),
      fun k l => (t.N2 (bc t.cols k.val) * p.2 k l + v.val (bc v.len k.val) * pk0 k l) /
        (t.N2 (bc t.cols k.val) + v.val (bc v.len k.val)))
  else .error "ValueError"

/-- Stacked bars: heights and bottoms by firm class and worker type.  Used for blm.py:2336-2344 and blm.py:2279-2347. -/
structure Bars (nl nk : ℕ) where
  height : Fin nk → Fin nl → ℝ
  bottom : Fin nk → Fin nl → ℝ

/-- `np.cumsum(pk_mean, axis=1)`.  Used for blm.py:2336-2344. -/
def cums (h : Fin nk → Fin nl → ℝ) (k : Fin nk) (x : ℕ) : ℝ := ∑ l : Fin nl with l.val ≤ x, h k l

/-- blm.py:2336-2344: the first type's bars start at zero, those of type `l` at the cumulative sum of `l - 1`. -/
def stack (h : Fin nk → Fin nl → ℝ) : Bars nl nk :=
  ⟨h, fun k l => if l.val = 0 then 0 else cums h k (l.val - 1)⟩

/-- An estimated model with the attributes `NNm` and `NNs` (`None` until the fit has been run).
Used for blm.py:2294 and blm.py:2289-2324. -/
structure Job (nl nk : ℕ) where
  model : Fitted nl nk
  NNm : Option Tab
  NNs : Option Vec

/-- The guard of `subset='stayers'`: blm.py:2294 tests `NNs`, blm_dynamic.py:3923 tests `NNm`. -/
def Job.stayersGuard (j : Job nl nk) : Bool :=
  match j.model with
  | .static _ => j.NNs.isSome
  | .dyn _ => j.NNm.isSome

/-- blm.py:2289-2324 with `subset='movers'`. -/
noncomputable def Job.movers (a : Argsort) (pp : BLM.Primary) (j : Job nl nk) :
    Py ((Fin nk → Fin nl → ℝ) × (Fin nk → Fin nl → ℝ)) :=
  match j.NNm with
  | none => .error "ValueError"
  | some t => do
    let t ← sortTab (j.model.sorted a pp).order t
    moverShares (j.model.sorted a pp).pk1 t

/-- blm.py:2293-2296 and 2309-2311: `subset='stayers'`.  If the guard lets `NNs = None` pass, `_sort_parameters` returns one
value less and unpacking raises. -/
noncomputable def Job.stayers (a : Argsort) (pp : BLM.Primary) (j : Job nl nk) :
    Py ((Fin nk → Fin nl → ℝ) × (Fin nk → Fin nl → ℝ)) :=
  if j.stayersGuard then
    match j.NNs with
    | none => .error "ValueError"
    | some v => do
      let _ ← sortVec (j.model.sorted a pp).order v
      .ok ((j.model.sorted a pp).pk0, (j.model.sorted a pp).pk0)
  else .error "ValueError"

/-- blm.py:2297-2300 and 2312-2321: `subset='all'`. -/
noncomputable def Job.everyone (a : Argsort) (pp : BLM.Primary) (j : Job nl nk) :
    Py ((Fin nk → Fin nl → ℝ) × (Fin nk → Fin nl → ℝ)) :=
  match j.NNm, j.NNs with
  | some t, some v => do
    let t ← sortTab (j.model.sorted a pp).order t
    let v ← sortVec (j.model.sorted a pp).order v
    let p ← moverShares (j.model.sorted a pp).pk1 t
    withStayers (j.model.sorted a pp).pk0 t v p
  | _, _ => .error "ValueError"

/-- blm.py:2289-2324: the shares of both periods. -/
noncomputable def Job.shares (a : Argsort) (pp : BLM.Primary) (j : Job nl nk) (sub : Subset) :
    Py ((Fin nk → Fin nl → ℝ) × (Fin nk → Fin nl → ℝ)) :=
  match sub with
  | .movers => j.movers a pp
  | .stayers => j.stayers a pp
  | .all => j.everyone a pp
  | .other => .error "ValueError"

/-- `plot_type_proportions`, blm.py:2279-2347 and blm_dynamic.py:3907-3976. -/
noncomputable def typeBars (a : Argsort) (pp : BLM.Primary) (j : Job nl nk) (per : Period) (sub : Subset) :
    Py (Bars nl nk) := do
  let p ← j.shares a pp sub
  let h ← pick per p.1 p.2
  .ok (stack h)

/-- blm.py:2718-2740 and blm_dynamic.py:4348-4370: the shares of both periods, from sorted arrays. -/
noncomputable def subsetShares (s : Sorted nl nk) (t : Tab) (v : Vec) (sub : Subset) :
    Py ((Fin nk → Fin nl → ℝ) × (Fin nk → Fin nl → ℝ)) :=
  match sub with
  | .movers => moverShares s.pk1 t
  | .stayers => .ok (s.pk0, s.pk0)
  | .all => do
    let p ← moverShares s.pk1 t
    withStayers s.pk0 t v p
  | .other => .error "ValueError"

/-- The shares of one bootstrapped model, blm.py:2715-2750 and blm_dynamic.py:4345-4380: all of `pk1`, `pk0`, `NNm` and
`NNs` are sorted whatever the subset, and nothing is tested for `None` before unpacking. -/
noncomputable def Job.bootShares (a : Argsort) (pp : BLM.Primary) (j : Job nl nk) (per : Period) (sub : Subset) :
    Py (Fin nk → Fin nl → ℝ) :=
  match j.NNm, j.NNs with
  | some t, some v => do
    let t ← sortTab (j.model.sorted a pp).order t
    let v ← sortVec (j.model.sorted a pp).order v
    let p ← subsetShares (j.model.sorted a pp) t v sub
    pick per p.1 p.2
  | _, _ => .error "ValueError"

/-- blm.py:2713-2750: `pk_mean`, the running sum over the models. -/
noncomputable def sumShares (a : Argsort) (pp : BLM.Primary) (per : Period) (sub : Subset)
    (acc : Fin nk → Fin nl → ℝ) : List (Job nl nk) → Py (Fin nk → Fin nl → ℝ)
  | [] => .ok acc
  | j :: js => do
    let h ← j.bootShares a pp per sub
    sumShares a pp per sub (fun k l => acc k l + h k l) js

/-- `plot_type_proportions` of the bootstrap classes, blm.py:2697-2764 and blm_dynamic.py:4327-4394, after `fit` has
produced a list of models (with `models is None` nothing is drawn). -/
noncomputable def bootBars (a : Argsort) (pp : BLM.Primary) (js : List (Job nl nk)) (per : Period) (sub : Subset) :
    Py (Bars nl nk) := do
  let h ← sumShares a pp per sub (fun _ _ => 0) js
  .ok (stack fun k l => h k l / js.length)

/-- The entry at position `x` of a sorted array with `n + 1` entries.  Used for blm.py:2679-2690. -/
def atPos {n : ℕ} (s : Fin (n + 1) → ℝ) (x : ℕ) : ℝ := s ⟨min x n, by omega⟩

/-- `np.percentile(v, q)` with linear interpolation between the two entries next to position `q / 100 * n` of the
sorted array.  Used for blm.py:2679-2690. -/
noncomputable def percentile {n : ℕ} (q : ℝ) (v : Fin (n + 1) → ℝ) : ℝ :=
  let s := v ∘ Tuple.sort v
  let pos := q / 100 * n
  atPos s ⌊pos⌋₊ + (pos - ⌊pos⌋₊) * (atPos s (⌊pos⌋₊ + 1) - atPos s ⌊pos⌋₊)

/-- What `plt.errorbar` is given, as interval ends: the centre, the lower and the upper end.
Used for blm.py:2679-2690 and blm.py:2650-2695. -/
structure Errs (nl nk : ℕ) where
  mean : Fin nl → Fin nk → ℝ
  lower : Fin nl → Fin nk → ℝ
  upper : Fin nl → Fin nk → ℝ

/-- blm.py:2664-2677: the lines of all models. -/
noncomputable def bootLines {n : ℕ} (a : Argsort) (pp : BLM.Primary) (ms : Fin n → Fitted nl nk) (per : Period) :
    Py (Fin n → Fin nl → Fin nk → ℝ) :=
  match per with
  | .first => .ok fun i => (ms i |>.sorted a pp).A 0
  | .second => .ok fun i => (ms i |>.sorted a pp).A 1
  | .all => .ok fun i l k => ((ms i |>.sorted a pp).A 0 l k + (ms i |>.sorted a pp).A 1 l k) / 2
  | .other => .error "ValueError"

open Classical in
/-- blm.py:2679-2690: means, percentiles and the call of `plt.errorbar`, which refuses negative `yerr` (Matplotlib:
"all values must be >= 0"). -/
noncomputable def drawErrs {n : ℕ} (L : Fin (n + 1) → Fin nl → Fin nk → ℝ) : Py (Errs nl nk) :=
  let mean := fun l k => (∑ i, L i l k) / ((n : ℝ) + 1)
  let lb := fun l k => percentile 2.5 fun i => L i l k
  let ub := fun l k => percentile 97.5 fun i => L i l k
  if ∃ l k, mean l k - lb l k < 0 ∨ ub l k - mean l k < 0 then .error "ValueError" else .ok ⟨mean, lb, ub⟩

/-- `plot_log_earnings` of the bootstrap classes, blm.py:2650-2695 and blm_dynamic.py:4281-4325, with at least one
model. -/
noncomputable def bootLog {n : ℕ} (a : Argsort) (pp : BLM.Primary) (ms : Fin (n + 1) → Fitted nl nk) (per : Period) :
    Py (Errs nl nk) := do
  let L ← bootLines a pp ms per
  drawErrs L

/-! ## Specification -/

/-- Mean log earnings of worker type `l` at class `k` in the first or second period. -/
def Spec.effect : Fitted nl nk → Fin 2 → Fin nl → Fin nk → ℝ
  | .static p, t, l, k => p.base.A t l k
  | .dyn x, t, l, k => if t = 0 then x.base.Aw .p12 l k else x.base.Aw .p43 l k

/-- The effect that orders the types, by option `primary_period`. -/
noncomputable def Spec.primary (pp : BLM.Primary) (m : Fitted nl nk) (l : Fin nl) (k : Fin nk) : ℝ :=
  match pp with
  | .first => Spec.effect m 0 l k
  | .second => Spec.effect m 1 l k
  | .all => (Spec.effect m 0 l k + Spec.effect m 1 l k) / 2

/-- The probability that a mover from class `k1` to class `k2` is of type `l`. -/
def Spec.mover : Fitted nl nk → Fin nk → Fin nk → Fin nl → ℝ
  | .static p, k1, k2, l => p.pk1 (k1.val + nk * k2.val) l
  | .dyn x, k1, k2, l => x.pk1 (k1.val + nk * k2.val) l

/-- The probability that a stayer at class `k` is of type `l`. -/
def Spec.stay : Fitted nl nk → Fin nk → Fin nl → ℝ
  | .static p, k, l => p.pk0 k l
  | .dyn x, k, l => x.pk0 k l

/-- Both kinds of probabilities are probabilities. -/
structure Spec.Prob (m : Fitted nl nk) : Prop where
  mover : ∀ k1 k2, (∀ l, 0 ≤ Spec.mover m k1 k2 l) ∧ ∑ l, Spec.mover m k1 k2 l = 1
  stay : ∀ k, (∀ l, 0 ≤ Spec.stay m k l) ∧ ∑ l, Spec.stay m k l = 1

/-- The share of type `l` that the estimated probabilities `mv`, `st` give among the workers who are at class `k` in
period `t`: the average of their probabilities of being of type `l`.  Mover `i` is at class `g t i` in period `t`,
stayer `i` at class `s i`. -/
noncomputable def Spec.share {n ns : ℕ} (mv : Fin nk → Fin nk → Fin nl → ℝ) (st : Fin nk → Fin nl → ℝ)
    (g : Fin 2 → Fin n → Fin nk) (s : Fin ns → Fin nk) (sub : Subset) (t : Fin 2) (k : Fin nk) (l : Fin nl) : ℝ :=
  match sub with
  | .movers => (∑ i with g t i = k, mv (g 0 i) (g 1 i) l) / (#{i | g t i = k} : ℕ)
  | .stayers => (∑ i with s i = k, st (s i) l) / (#{i | s i = k} : ℕ)
  | _ => (∑ i with g t i = k, mv (g 0 i) (g 1 i) l + ∑ i with s i = k, st (s i) l) /
      ((#{i | g t i = k} : ℕ) + (#{i | s i = k} : ℕ))

/-- The value for the chosen period: `F 0`, `F 1` or their average. -/
noncomputable def Spec.inPeriod (per : Period) (F : Fin 2 → ℝ) : ℝ :=
  match per with
  | .first => F 0
  | .second => F 1
  | _ => (F 0 + F 1) / 2

/-- Every class has a mover in the first period, one in the second period, and a stayer. -/
structure Spec.Everywhere {n ns : ℕ} (g : Fin 2 → Fin n → Fin nk) (s : Fin ns → Fin nk) : Prop where
  movers : ∀ t k, ∃ i, g t i = k
  stayers : ∀ k, ∃ i, s i = k

/-- The bars of each class are nonnegative, stand on each other and reach one. -/
structure Spec.Stacked (b : Bars nl nk) : Prop where
  nonneg : ∀ k l, 0 ≤ b.height k l
  first : ∀ k (l : Fin nl), l.val = 0 → b.bottom k l = 0
  next : ∀ k (l l' : Fin nl), l'.val = l.val + 1 → b.bottom k l' = b.bottom k l + b.height k l
  top : ∀ k (l : Fin nl), l.val + 1 = nl → b.bottom k l + b.height k l = 1

end Pytwoway.Plots
