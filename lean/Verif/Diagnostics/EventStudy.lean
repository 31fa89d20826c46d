import Mathlib.Analysis.Real.Sqrt
import Mathlib.Algebra.BigOperators.Fin
import Mathlib.Tactic.FieldSimp
import Mathlib.Tactic.Linarith

/-!
# C94: event-study plots (`pytwoway/diagnostics/plot_extendedeventstudy.py`)

The figure is modelled by what is drawn in each subplot: positions, heights, error bars, and the
numbers in the title.  A missing number (NaN) is `none`; matplotlib draws nothing there.  Grid,
colours, axis limits and rounding of ticks are not modelled.
-/

namespace Pytwoway.Diagnostics

open scoped BigOperators

/-! ## Model -/

/-- The exceptions that can occur. -/
inductive Err | valueError | typeError | keyError
  deriving DecidableEq

/-- One row of extended event study data: wage and firm type in each period (columns `y1`, `y2`, …
and `g1`, `g2`, …; column `k` is at index `k`).  Used for plot_extendedeventstudy.py:63. -/
structure Row where
  y : ℕ → ℝ
  g : ℕ → ℕ

/-- The data: rows, the number of periods (columns `y1 … yN` and, if clustered, `g1 … gN`) and
`adata.n_clusters()` (`none` if there is no column `g`).
Used for plot_extendedeventstudy.py:52 and plot_extendedeventstudy.py:63. -/
structure Frame where
  rows : List Row
  periods : ℕ
  nClusters : Option ℕ

/-- What one subplot shows: x positions, heights, half-lengths of the error bars, and the three
numbers of the title `'{i + 1} to {j + 1} (n={len(es_plot)})'`.
Used for plot_extendedeventstudy.py:66 and plot_extendedeventstudy.py:62-69. -/
structure Panel where
  x : List ℤ
  y : List (Option ℝ)
  yerr : List (Option ℝ)
  title : ℕ × ℕ × ℕ

/-- The figure: a grid of subplots, and the tick positions of the x axis.  Used for plot_extendedeventstudy.py:32-86. -/
structure Figure where
  panels : List (List Panel)
  xticks : List ℤ

/-- `np.arange(lo, hi)`.  Used for plot_extendedeventstudy.py:51 and plot_extendedeventstudy.py:32-86. -/
def arange (lo hi : ℤ) : List ℤ := (List.range (hi - lo).toNat).map fun k : ℕ => lo + (k : ℤ)

/-- `x_vals`, plot_extendedeventstudy.py:51. -/
def xVals (pre : ℕ) : List ℤ := arange (-(pre : ℤ)) 0 ++ arange 1 ((pre : ℤ) + 1)

/-- `y_cols = adata.col_reference_dict['y']`, plot_extendedeventstudy.py:52. -/
def yCols (f : Frame) : List ℕ := (List.range f.periods).map (· + 1)

/-- The column `g{k}` of a clustered frame; another name is a `KeyError`.
plot_extendedeventstudy.py:63. -/
def gCol (f : Frame) (k : ℕ) : Except Err (Row → ℕ) :=
  if 1 ≤ k ∧ k ≤ f.periods then .ok fun r => r.g k else .error .keyError

/-- `mean(axis=0)` of one column (pandas: NaN on no rows), plot_extendedeventstudy.py:64. -/
noncomputable def colMean (v : List ℝ) : Option ℝ :=
  if v.length = 0 then none else some (v.sum / v.length)

/-- `std(axis=0)` of one column (pandas default `ddof=1`: NaN on fewer than two rows),
plot_extendedeventstudy.py:65. -/
noncomputable def colStd (v : List ℝ) : Option ℝ :=
  if v.length ≤ 1 then none
  else some (Real.sqrt ((v.map fun a => (a - v.sum / v.length) ^ 2).sum / ((v.length : ℝ) - 1)))

/-- `ax.errorbar(x_vals, y, yerr=yerr)`, plot_extendedeventstudy.py:66: matplotlib raises
`ValueError` if `x` and `y` have different lengths. -/
def errorbar (x : List ℤ) (y yerr : List (Option ℝ)) (title : ℕ × ℕ × ℕ) : Except Err Panel :=
  if x.length = y.length then .ok ⟨x, y, yerr, title⟩ else .error .valueError

/-- One pass of the inner loop, plot_extendedeventstudy.py:62-69. -/
noncomputable def panel (f : Frame) (pre i j : ℕ) : Except Err Panel :=
  match gCol f pre, gCol f (pre + 1) with
  | .error e, _ => .error e
  | .ok _, .error e => .error e
  | .ok g1, .ok g2 =>
    let es := f.rows.filter fun r => g1 r == i && g2 r == j
    let y := (yCols f).map fun c => colMean (es.map fun r => r.y c)
    let yerr := (yCols f).map fun c =>
      (colStd (es.map fun r => r.y c)).map fun s => s / Real.sqrt es.length
    errorbar (xVals pre) y yerr (i + 1, j + 1, es.length)

/-- `axs` as returned by `plt.subplots(nrows=n_clusters, ncols=n_clusters)`,
plot_extendedeventstudy.py:48: matplotlib raises `ValueError` unless both numbers are positive
integers, and squeezes a single subplot to the bare `Axes`. -/
inductive Axs
  | single
  | grid (n : ℕ)

/-- `plt.subplots`, plot_extendedeventstudy.py:48. -/
def subplots : Option ℕ → Except Err Axs
  | none => .error .valueError
  | some 0 => .error .valueError
  | some 1 => .ok .single
  | some (n + 2) => .ok (.grid (n + 2))

/-- The branch for data without clusters, plot_extendedeventstudy.py:72-79. -/
noncomputable def panelAll (f : Frame) (pre : ℕ) : Except Err Panel :=
  let y := (yCols f).map fun c => colMean (f.rows.map fun r => r.y c)
  let yerr := (yCols f).map fun c =>
    (colStd (f.rows.map fun r => r.y c)).map fun s => s / Real.sqrt f.rows.length
  errorbar (xVals pre) y yerr (0, 0, f.rows.length)

/-- The loops, plot_extendedeventstudy.py:59-79.  `enumerate` of a bare `Axes` raises `TypeError`
(60). -/
noncomputable def draw (f : Frame) (pre : ℕ) : Axs → Except Err (List (List Panel))
  | .single =>
    match f.nClusters with
    | some _ => .error .typeError
    | none => (panelAll f pre).map fun p => [[p]]
  | .grid n => (List.range n).mapM fun i => (List.range n).mapM fun j => panel f pre i j

/-- `plot_extendedeventstudy`, plot_extendedeventstudy.py:32-86. -/
noncomputable def plotExtendedEventStudy (f : Frame) (pre post : ℕ) : Except Err Figure :=
  match subplots f.nClusters with
  | .error e => .error e
  | .ok axs =>
    match draw f pre axs with
    | .error e => .error e
    | .ok ps => .ok ⟨ps, arange (-(pre : ℤ)) ((post : ℤ) + 1)⟩

/-! ## Specification -/

/-- The workers who were at a firm of type `i` in the last period before the move (period `pre`) and
at a firm of type `j` in the first period after it. -/
def Spec.movers (rows : List Row) (pre i j : ℕ) : List Row :=
  rows.filter fun r => decide (r.g pre = i ∧ r.g (pre + 1) = j)

/-- Average wage in period `c`. -/
noncomputable def Spec.avg (rows : List Row) (c : ℕ) : ℝ := (rows.map fun r => r.y c).sum / rows.length

/-- Time relative to the move of period `c` of `pre + …`: the last period before it is -1, the first
after it is 1. -/
def Spec.time (pre c : ℕ) : ℤ := if c ≤ pre then (c : ℤ) - pre - 1 else (c : ℤ) - pre

/-- Period `c` as it should be drawn for the given workers: nothing without workers; the average wage;
the standard error of the average (if there are at least two). -/
structure Spec.Shows (p : Panel) (rows : List Row) (pre c : ℕ) : Prop where
  time : p.x[c - 1]? = some (Spec.time pre c)
  empty : rows = [] → p.y[c - 1]? = some none
  mean : rows ≠ [] → p.y[c - 1]? = some (some (Spec.avg rows c))
  noError : rows.length ≤ 1 → p.yerr[c - 1]? = some none
  stdError : 2 ≤ rows.length → ∃ e, p.yerr[c - 1]? = some (some e) ∧ 0 ≤ e ∧
    e ^ 2 = (rows.map fun r => (r.y c - Spec.avg rows c) ^ 2).sum / ((rows.length - 1) * rows.length)

/-! ## Lemmas -/

theorem arange_length (lo hi : ℤ) : (arange lo hi).length = (hi - lo).toNat := by simp [arange]

theorem xVals_length (pre : ℕ) : (xVals pre).length = 2 * pre := by
  simp [xVals, arange_length]; omega

theorem xVals_get (pre c : ℕ) (h1 : 1 ≤ c) (h2 : c ≤ 2 * pre) :
    (xVals pre)[c - 1]? = some (Spec.time pre c) := by
  unfold xVals Spec.time
  by_cases h : c ≤ pre
  · rw [List.getElem?_append_left (by rw [arange_length]; omega)]
    rw [if_pos h]
    simp only [arange, List.getElem?_map]
    rw [List.getElem?_range (by omega)]
    simp; omega
  · rw [List.getElem?_append_right (by rw [arange_length]; omega), arange_length, if_neg h]
    simp only [arange, List.getElem?_map]
    rw [List.getElem?_range (by omega)]
    simp; omega

theorem yCols_get (f : Frame) (c : ℕ) (h1 : 1 ≤ c) (h2 : c ≤ f.periods) :
    (yCols f)[c - 1]? = some c := by
  simp only [yCols, List.getElem?_map]
  rw [List.getElem?_range (by omega)]
  simp; omega

theorem mapM_const_error {α β : Type} (l : List α) (f : α → Except Err β) (e : Err)
    (h : ∀ a, f a = .error e) (hl : l ≠ []) : l.mapM f = .error e := by
  cases l with
  | nil => exact absurd rfl hl
  | cons a t => simp [List.mapM_cons, h, bind, Except.bind]

theorem mapM_ok_fun {α β : Type} (l : List α) (f : α → Except Err β) (g : α → β)
    (h : ∀ a ∈ l, f a = .ok (g a)) : l.mapM f = .ok (l.map g) := by
  induction l with
  | nil => rfl
  | cons a t ih =>
    rw [List.mapM_cons, h a (by simp), ih fun b hb => h b (by simp [hb])]
    rfl

/-- The content of a panel that is drawn without error. -/
noncomputable def panelVal (f : Frame) (pre i j : ℕ) : Panel :=
  let es := f.rows.filter fun r => r.g pre == i && r.g (pre + 1) == j
  ⟨xVals pre, (yCols f).map fun c => colMean (es.map fun r => r.y c),
    (yCols f).map fun c => (colStd (es.map fun r => r.y c)).map fun s => s / Real.sqrt es.length,
    (i + 1, j + 1, es.length)⟩

theorem panel_eq (f : Frame) (pre i j : ℕ) (h1 : 1 ≤ pre) (h2 : pre + 1 ≤ f.periods) :
    panel f pre i j = if 2 * pre = f.periods then .ok (panelVal f pre i j) else .error .valueError := by
  have ha : gCol f pre = .ok fun r => r.g pre := if_pos ⟨h1, by omega⟩
  have hb : gCol f (pre + 1) = .ok fun r => r.g (pre + 1) := if_pos ⟨by omega, h2⟩
  simp only [panel, ha, hb, errorbar, xVals_length, List.length_map, yCols, List.length_range]
  rfl

theorem filter_eq (rows : List Row) (pre i j : ℕ) :
    (rows.filter fun r => r.g pre == i && r.g (pre + 1) == j) = Spec.movers rows pre i j := by
  unfold Spec.movers
  congr 1
  funext r
  by_cases h1 : r.g pre = i <;> by_cases h2 : r.g (pre + 1) = j <;> simp [h1, h2]

theorem panelVal_shows (f : Frame) (pre i j c : ℕ) (hp : 2 * pre = f.periods) (h1 : 1 ≤ c)
    (h2 : c ≤ 2 * pre) : Spec.Shows (panelVal f pre i j) (Spec.movers f.rows pre i j) pre c := by
  have hc := yCols_get f c h1 (by omega)
  have hfe := filter_eq f.rows pre i j
  set es := Spec.movers f.rows pre i j with hes
  constructor
  · exact xVals_get pre c h1 h2
  · intro h
    simp only [panelVal, List.getElem?_map, hc, Option.map_some, hfe, h]
    simp [colMean]
  · intro h
    simp only [panelVal, List.getElem?_map, hc, Option.map_some, hfe]
    have : es.length ≠ 0 := by simpa using h
    simp [colMean, this, Spec.avg]
  · intro h
    simp only [panelVal, List.getElem?_map, hc, Option.map_some, hfe]
    simp [colStd, h]
  · intro h
    have hlen : ¬ es.length ≤ 1 := by omega
    have hpos : (0 : ℝ) < es.length := by exact_mod_cast (by omega : 0 < es.length)
    have hpos1 : (0 : ℝ) < (es.length : ℝ) - 1 := by
      have : (2 : ℝ) ≤ es.length := by exact_mod_cast h
      linarith
    have hss : 0 ≤ (es.map fun r => (r.y c - Spec.avg es c) ^ 2).sum :=
      List.sum_nonneg fun x hx => by
        obtain ⟨r, _, rfl⟩ := List.mem_map.mp hx; exact sq_nonneg _
    refine ⟨Real.sqrt ((es.map fun r => (r.y c - Spec.avg es c) ^ 2).sum / ((es.length : ℝ) - 1))
      / Real.sqrt es.length, ?_, ?_, ?_⟩
    · simp only [panelVal, List.getElem?_map, hc, Option.map_some, hfe]
      simp [colStd, hlen, Spec.avg, List.map_map, Function.comp_def]
    · positivity
    · rw [div_pow, Real.sq_sqrt hpos.le, Real.sq_sqrt (div_nonneg hss hpos1.le), div_div]

theorem draw_ok (f : Frame) (pre n : ℕ) (h1 : 1 ≤ pre) (hp : f.periods = 2 * pre) :
    draw f pre (.grid n)
      = .ok ((List.range n).map fun i => (List.range n).map fun j => panelVal f pre i j) := by
  refine mapM_ok_fun _ _ _ fun i _ => mapM_ok_fun _ _ _ fun j _ => ?_
  rw [panel_eq f pre i j h1 (by omega), if_pos hp.symm]

theorem plot_ok (f : Frame) (p n : ℕ) (h1 : 1 ≤ p) (hp : f.periods = 2 * p)
    (hc : f.nClusters = some (n + 2)) :
    plotExtendedEventStudy f p p
      = .ok ⟨(List.range (n + 2)).map fun i => (List.range (n + 2)).map fun j => panelVal f p i j,
          arange (-(p : ℤ)) ((p : ℤ) + 1)⟩ := by
  simp only [plotExtendedEventStudy, hc, subplots, draw_ok f p (n + 2) h1 hp]

/-! ## Properties -/

/-- Full claim: for clustered data with `pre` periods before and `post` periods after the move, the
figure has one subplot per pair of types, which shows every period `1 … pre + post` of the workers
who made that transition.  It is false of the code: see `C94_unequal_windows` and
`C94_single_type`. -/
def Spec.Claim (f : Frame) (pre post : ℕ) : Prop :=
  ∃ fig, plotExtendedEventStudy f pre post = .ok fig ∧
    (∀ t : ℤ, t ∈ fig.xticks ↔ -(pre : ℤ) ≤ t ∧ t ≤ post) ∧
    ∀ n, f.nClusters = some n → fig.panels.length = n ∧
      ∀ i < n, ∃ row, fig.panels[i]? = some row ∧ row.length = n ∧
        ∀ j < n, ∃ p, row[j]? = some p ∧
          p.title = (i + 1, j + 1, (Spec.movers f.rows pre i j).length) ∧
          p.x.length = pre + post ∧ p.y.length = pre + post ∧ p.yerr.length = pre + post ∧
          ∀ c, 1 ≤ c → c ≤ pre + post → Spec.Shows p (Spec.movers f.rows pre i j) pre c

/-- C94, the part that holds: with at least two firm types and as many periods after the move as
before it, the figure is right.  Missing: windows with `pre ≠ post`, a single firm type, and data
that is not clustered (all of which raise). -/
theorem C94_panels_partial (f : Frame) (p n : ℕ) (hp : 1 ≤ p) (hf : f.periods = p + p) (hn : 2 ≤ n)
    (hc : f.nClusters = some n) : Spec.Claim f p p := by
  obtain ⟨n, rfl⟩ : ∃ k, n = k + 2 := ⟨n - 2, by omega⟩
  refine ⟨_, plot_ok f p n hp (by omega) hc, ?_, ?_⟩
  · intro t
    simp only [arange, List.mem_map, List.mem_range]
    constructor
    · rintro ⟨k, hk, rfl⟩; omega
    · intro h; exact ⟨(t + p).toNat, by omega, by omega⟩
  intro n' hn'
  rw [hc] at hn'
  cases hn'
  refine ⟨by simp, fun i hi => ⟨(List.range (n + 2)).map fun j => panelVal f p i j, ?_, by simp, ?_⟩⟩
  · simp only [List.getElem?_map]
    rw [List.getElem?_range hi]; rfl
  · intro j hj
    refine ⟨panelVal f p i j, ?_, ?_, ?_, ?_, ?_, ?_⟩
    · simp only [List.getElem?_map]
      rw [List.getElem?_range hj]; rfl
    · simp only [panelVal, filter_eq]
    · simp only [panelVal, xVals_length]; omega
    · simp [panelVal, yCols, hf]
    · simp [panelVal, yCols, hf]
    · intro c h1 h2
      exact panelVal_shows f p i j c (by omega) h1 (by omega)

/-- C94: every worker is in exactly one subplot, so the counts in the titles add up to the number of
workers and the averages, weighted by these counts, to the overall total. -/
theorem C94_partition (f : Frame) (p n : ℕ) (hp : 1 ≤ p) (hf : f.periods = p + p) (hn : 2 ≤ n)
    (hc : f.nClusters = some n) (hg : ∀ r ∈ f.rows, r.g p < n ∧ r.g (p + 1) < n) :
    ∃ fig, plotExtendedEventStudy f p p = .ok fig ∧
      ((fig.panels.map fun row => (row.map fun q => q.title.2.2).sum).sum = f.rows.length) ∧
      ∀ c, 1 ≤ c → c ≤ p + p →
        (fig.panels.map fun row =>
          (row.map fun q => (q.title.2.2 : ℝ) * ((q.y[c - 1]?.join).getD 0)).sum).sum
          = (f.rows.map fun r => r.y c).sum := by
  obtain ⟨n, rfl⟩ : ∃ k, n = k + 2 := ⟨n - 2, by omega⟩
  -- splitting a sum over rows by the two types
  have key : ∀ (F : Row → ℝ) (rows : List Row), (∀ r ∈ rows, r.g p < n + 2 ∧ r.g (p + 1) < n + 2) →
      ((List.range (n + 2)).map fun i => ((List.range (n + 2)).map fun j =>
        ((Spec.movers rows p i j).map F).sum).sum).sum = (rows.map F).sum := by
    intro F rows
    induction rows with
    | nil => intro _; simp [Spec.movers]
    | cons r t ih =>
      intro h
      have hr := h r (by simp)
      have hstep : ∀ i j, ((Spec.movers (r :: t) p i j).map F).sum
          = (if r.g p = i then (if r.g (p + 1) = j then F r else 0) else 0)
            + ((Spec.movers t p i j).map F).sum := by
        intro i j
        unfold Spec.movers
        rw [List.filter_cons]
        by_cases h1 : r.g p = i <;> by_cases h2 : r.g (p + 1) = j <;> simp [h1, h2]
      simp only [hstep]
      have hsplit : ∀ (l : List ℕ) (A B : ℕ → ℝ),
          (l.map fun i => A i + B i).sum = (l.map A).sum + (l.map B).sum := by
        intro l A B
        induction l with
        | nil => simp
        | cons a l ih => simp only [List.map_cons, List.sum_cons, ih]; ring
      have hdelta : ∀ (N k : ℕ) (a : ℝ), k < N →
          ((List.range N).map fun i => if k = i then a else 0).sum = a := by
        intro N k a hk
        have e : ((List.range N).map fun i => if k = i then a else 0).sum
            = ∑ i ∈ Finset.range N, if k = i then a else 0 := rfl
        rw [e, Finset.sum_ite_eq]; simp [hk]
      simp only [hsplit]
      rw [ih fun r hr => h r (by simp [hr])]
      have : ∀ i, ((List.range (n + 2)).map fun j =>
          if r.g p = i then (if r.g (p + 1) = j then F r else 0) else 0).sum
          = if r.g p = i then F r else 0 := by
        intro i
        by_cases h1 : r.g p = i
        · simp only [h1, if_true]; exact hdelta _ _ _ hr.2
        · simp [h1]
      simp only [this]
      rw [hdelta _ _ _ hr.1]
      simp
  refine ⟨_, plot_ok f p n hp (by omega) hc, ?_, ?_⟩
  · have h := key (fun _ => 1) f.rows hg
    have h' : (((List.range (n + 2)).map fun i => ((List.range (n + 2)).map fun j =>
        (Spec.movers f.rows p i j).length).sum).sum : ℕ) = f.rows.length := by
      have e1 : ∀ l : List Row, (l.map fun _ => (1 : ℝ)).sum = (l.length : ℝ) := by
        intro l; simp
      simp only [e1] at h
      have : ((((List.range (n + 2)).map fun i => ((List.range (n + 2)).map fun j =>
        (Spec.movers f.rows p i j).length).sum).sum : ℕ) : ℝ) = (f.rows.length : ℝ) := by
        rw [← h]
        simp only [Nat.cast_list_sum, List.map_map, Function.comp_def]
      exact_mod_cast this
    simp only [List.map_map, Function.comp_def, panelVal, filter_eq]
    exact h'
  · intro c h1 h2
    have h := key (fun r => r.y c) f.rows hg
    rw [← h]
    simp only [List.map_map, Function.comp_def]
    congr 1
    refine List.map_congr_left fun i _ => ?_
    congr 1
    refine List.map_congr_left fun j _ => ?_
    have hs := panelVal_shows f p i j c (by omega) h1 (by omega)
    have ht : (panelVal f p i j).title.2.2 = (Spec.movers f.rows p i j).length := by
      simp only [panelVal, filter_eq]
    rw [ht]
    by_cases he : Spec.movers f.rows p i j = []
    · rw [he]; simp
    · rw [hs.mean he]
      have hpos : ((Spec.movers f.rows p i j).length : ℝ) ≠ 0 := by
        have : (Spec.movers f.rows p i j).length ≠ 0 := by simpa using he
        exact_mod_cast this
      simp only [Option.join, Option.getD, Spec.avg, Option.bind, id]
      field_simp

/-- Defect: with a different number of periods before and after the move the function always raises,
because the x positions use the number of periods before the move twice (line 51). -/
theorem C94_unequal_windows (f : Frame) (pre post n : ℕ) (h1 : 1 ≤ pre) (h2 : 1 ≤ post)
    (hne : pre ≠ post) (hf : f.periods = pre + post) (hn : 2 ≤ n) (hc : f.nClusters = some n) :
    plotExtendedEventStudy f pre post = .error .valueError := by
  obtain ⟨n, rfl⟩ : ∃ k, n = k + 2 := ⟨n - 2, by omega⟩
  have hp : ∀ i j, panel f pre i j = .error .valueError := by
    intro i j
    rw [panel_eq f pre i j h1 (by omega), if_neg (by omega)]
  have hd : draw f pre (.grid (n + 2)) = .error .valueError := by
    refine mapM_const_error _ _ _ (fun i => mapM_const_error _ _ _ (hp i) ?_) ?_ <;> simp
  simp only [plotExtendedEventStudy, hc, subplots, hd]

/-- Defect: data without clusters always raises, although the documentation promises a single plot of
all transitions. -/
theorem C94_unclustered (f : Frame) (pre post : ℕ) (hc : f.nClusters = none) :
    plotExtendedEventStudy f pre post = .error .valueError := by
  simp only [plotExtendedEventStudy, hc, subplots]

/-- Defect: with a single firm type the function always raises. -/
theorem C94_single_type (f : Frame) (pre post : ℕ) (hc : f.nClusters = some 1) :
    plotExtendedEventStudy f pre post = .error .typeError := by
  simp only [plotExtendedEventStudy, hc, subplots, draw]

/-- Non-vacuity: three workers, two types, two periods before and after, one empty cell. -/
example : ∃ f : Frame, f.rows.length = 3 ∧ f.periods = 2 + 2 ∧ f.nClusters = some 2 ∧
    (∀ r ∈ f.rows, r.g 2 < 2 ∧ r.g (2 + 1) < 2) ∧ (Spec.movers f.rows 2 0 1).length = 2 ∧
    Spec.movers f.rows 2 1 1 = [] := by
  refine ⟨⟨[⟨fun k => k, fun k => if k ≤ 2 then 0 else 1⟩, ⟨fun _ => 7, fun k => if k ≤ 2 then 0 else 1⟩,
    ⟨fun _ => 1, fun _ => 0⟩], 4, some 2⟩, rfl, rfl, rfl, ?_, ?_, ?_⟩
  · simp
  · simp [Spec.movers]
  · simp [Spec.movers]

end Pytwoway.Diagnostics
