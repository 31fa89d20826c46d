import Verif.Attrition.Results

/-! # Plots of attrition results (attrition.py:433-683): C105

Titles, colours, fonts and legends are not modelled. -/

namespace Pytwoway.Attrition

/-- What the plotting functions raise.  Used for attrition.py:487-583. -/
inductive PExc
  | attribute
  | typeE
  | index
  | inner (e : Exc)
deriving DecidableEq

/-- Plotting code that may raise, attrition.py:487-583 and attrition.py:674. -/
abbrev PPy := Except PExc

/-- An exception of `_combine_res` seen by the plotting code, attrition.py:487-583 and attrition.py:652-681. -/
def inner {α : Type} : Py α → PPy α
  | .ok a => .ok a
  | .error e => .error (.inner e)

/-- `.mean(axis=0)` of an array with `M` columns; with no rows numpy gives `nan`, here 0.
Used for attrition.py:434-450 and attrition.py:569. -/
noncomputable def colMeans (M : ℕ) (m : List (List ℝ)) : List ℝ :=
  (List.range M).map fun j => (m.map fun r => r.getD j 0).sum / m.length

/-- `int(…['n_movers']) / int(…['n_firms'])`, attrition.py:443-444. -/
noncomputable def ratio (r : ModRes) : Py ℝ :=
  match r "n_movers", r "n_firms" with
  | some a, some b => if b = 0 then .error .other else .ok (a / b)
  | _, _ => .error .key

/-- Movers per firm, averaged over runs and increased by 5%, attrition.py:434-450. -/
noncomputable def averages (M : ℕ) (rows : List (List ModRes)) : Py (List ℝ) := do
  let m ← rows.mapM fun run => run.mapM ratio
  .ok ((colMeans M m).map fun x => x * 1.05)

/-- `bs1` and `bs2` are turned off if they were not estimated, attrition.py:502-504, 602-604. -/
def requested (estimateBs : Bool) (want : Est → Bool) : Est → Bool
  | .bs1 => estimateBs && want .bs1
  | .bs2 => estimateBs && want .bs2
  | e => want e

/-- The estimators drawn in the panel for the connected (`false`) or the leave-one-out set, in the order of
`plot_options_dict`, attrition.py:566-567, 670-672. -/
def shown (plot : Est → Bool) (h : Bool) : List Est := allEst.filter fun e => plot e && !(e == .he && !h)

/-- `data_array[i][j][estimator]`, attrition.py:548. -/
def lookup (t : List ((Bool × Est × Bool) × List (List ℝ))) (k : Bool × Est × Bool) : Py (List (List ℝ)) :=
  match t.find? (fun p => p.1 = k) with
  | some p => .ok p.2
  | none => .error .key

/-- The four panels: variance of firm effects or sorting; connected or leave-one-out set.
Used for attrition.py:433-485, 541-583 and attrition.py:585-683. -/
def panels : List (Bool × Bool) := [(true, false), (true, true), (false, false), (false, true)]

/-- One curve of a panel, attrition.py:569. -/
structure Curve where
  est : Est
  x : List ℝ
  y : List ℝ

/-- One of the two panels of the figure, attrition.py:561-569 and attrition.py:433-485, 541-583. -/
structure Panel where
  variance : Bool
  leaveOut : Bool
  line : ℝ
  curves : List Curve

/-- One curve, attrition.py:569. -/
noncomputable def curve (t : List ((Bool × Est × Bool) × List (List ℝ))) (x : List ℝ) (p : Bool × Bool) (e : Est) :
    Py Curve :=
  (lookup t (p.2, e, p.1)).map fun m => ⟨e, x, colMeans x.length m⟩

/-- One panel, attrition.py:561-569. -/
noncomputable def panel (t : List ((Bool × Est × Bool) × List (List ℝ))) (x : List ℝ) (plot : Est → Bool) (la lb : ℝ)
    (p : Bool × Bool) : Py Panel :=
  ((shown plot p.2).mapM (curve t x p)).map fun cs => ⟨p.1, p.2, if p.2 then lb else la, cs⟩

/-- `_combine_res` and the drawing of `plots`, attrition.py:433-485, 541-583.  Without a line the five results cannot
be unpacked into seven names. -/
noncomputable def drawAll (res : AllRes) (plot : Est → Bool) (fracs : List ℝ) (digits : ℕ) (line : Bool) (mpf : ℝ) :
    Py (List Panel) := do
  let tx ← combine res plot fracs digits
  if line then do
    let a ← averages tx.2.length (res false .fe)
    let b ← averages tx.2.length (res true .fe)
    let la ← lineAt mpf a tx.2
    let lb ← lineAt mpf b tx.2
    panels.mapM (panel tx.1 tx.2 plot la lb)
  else .error .value

/-- `plots`, attrition.py:487-583. -/
noncomputable def plotsAll (res : Option AllRes) (estimateBs : Bool) (want : Est → Bool) (fracs : List ℝ) (digits : ℕ)
    (line : Bool) (mpf : ℝ) : PPy (List Panel) :=
  match res with
  | none => .error .attribute
  | some res => inner (drawAll res (requested estimateBs want) fracs digits line mpf)

/-- A box plot: one box per column of `data`, with the labels `x`, in the `k`-th sub-panel.
Used for attrition.py:652-681 and attrition.py:585-683. -/
structure Box where
  k : ℕ
  est : Est
  x : List ℝ
  data : List (List ℝ)

/-- The number of sub-panels, attrition.py:637, 666: `sum(to_plot_dict.values()) - he`, plus `he` on the right. -/
def nAxes (plot : Est → Bool) (h : Bool) : ℤ :=
  ((allEst.filter plot).length : ℤ) - (if plot .he then 1 else 0) + (if plot .he ∧ h then 1 else 0)

/-- `axs[k]`, attrition.py:674: `subplots` with one column returns the sub-panel itself, which has no index. -/
def subAxes (n : ℤ) (k : ℕ) : PPy ℕ :=
  if n = 1 then .error .typeE else if n ≤ k then .error .index else .ok k

/-- One panel of `boxplots`, attrition.py:652-681.  `subplots` raises if it is asked for no column. -/
def boxPanel (t : List ((Bool × Est × Bool) × List (List ℝ))) (x : List ℝ) (plot : Est → Bool) (p : Bool × Bool) :
    PPy (List Box) :=
  if nAxes plot p.2 ≤ 0 then .error (.inner .value)
  else (shown plot p.2).zipIdx.mapM fun e =>
    (subAxes (nAxes plot p.2) e.2).bind fun k => (inner (lookup t (p.2, e.1, p.1))).map fun m => ⟨k, e.1, x, m⟩

/-- `boxplots`, attrition.py:585-683. -/
noncomputable def boxplots (res : Option AllRes) (estimateBs : Bool) (want : Est → Bool) (fracs : List ℝ) (digits : ℕ) :
    PPy (List (List Box)) :=
  match res with
  | none => .error .attribute
  | some res => (inner (combine res (requested estimateBs want) fracs digits)).bind fun tx =>
      panels.mapM (boxPanel tx.1 tx.2 (requested estimateBs want))

/-! ## C105 -/

namespace Spec

/-- The share of the variance of log wages in percent: what estimator `e` reports for firm effects (`true`) or
sorting. -/
def Share (e : Est) (v : Bool) (r : ModRes) (s : ℝ) : Prop :=
  ∃ a b, r (if v then (Spec.reported e).2.1 else (Spec.reported e).2.2.1) = some a ∧
    r (Spec.reported e).2.2.2 = some b ∧ s = 100 * (a / b)

/-- A table of shares for the results of some runs. -/
def Shares (e : Est) (v : Bool) (res : List (List ModRes)) (S : List (List ℝ)) : Prop :=
  List.Forall₂ (List.Forall₂ (Share e v)) res S

/-- The estimators wanted in a panel: those asked for, Borovickova-Shimer only if estimated, the heteroskedastic
correction only for the leave-one-out set. -/
def Wanted (estimateBs : Bool) (want : Est → Bool) (leaveOut : Bool) (e : Est) : Prop :=
  want e = true ∧ ((e = .bs1 ∨ e = .bs2) → estimateBs = true) ∧ (e = .he → leaveOut = true)

/-- Column averages. -/
def Averages (S : List (List ℝ)) (y : List ℝ) : Prop :=
  ∀ j v, y[j]? = some v → v = (S.map fun r => r.getD j 0).sum / S.length

end Spec

theorem mem_shown (b : Bool) (want : Est → Bool) (h : Bool) (e : Est) :
    e ∈ shown (requested b want) h ↔ Spec.Wanted b want h e := by
  unfold shown Spec.Wanted
  rw [List.mem_filter]
  cases e <;> cases h <;> cases b <;> simp [allEst, requested]

theorem shown_mem_keys (plot : Est → Bool) (h : Bool) (e : Est) (v : Bool) (he : e ∈ shown plot h) :
    (h, e, v) ∈ tableKeys plot := by
  unfold shown at he
  rw [List.mem_filter] at he
  unfold tableKeys
  rw [List.mem_append]
  cases h
  · left
    refine List.mem_flatMap.mpr ⟨e, List.mem_filter.mpr ⟨he.1, ?_⟩, ?_⟩
    · have := he.2
      simp only [Bool.and_eq_true, Bool.not_eq_true', Bool.not_false, Bool.and_true, beq_eq_false_iff_ne] at this
      simp [this.1, this.2]
    · cases v <;> simp
  · right
    refine List.mem_flatMap.mpr ⟨e, List.mem_filter.mpr ⟨he.1, ?_⟩, ?_⟩
    · have := he.2
      simp only [Bool.and_eq_true] at this
      exact this.1
    · cases v <;> simp

theorem cell_share {e : Est} {v : Bool} {r : ModRes} {s : ℝ}
    (h : cell (if v then varPsi e else covKey e) (varY (modelOf e)) r = .ok s) : Spec.Share e v r s := by
  unfold Spec.Share
  simp only [reported_eq]
  unfold cell at h
  split at h
  · rename_i a b ha hb
    exact ⟨a, b, ha, hb, (Except.ok.inj h).symm⟩
  · cases h

theorem matrix_shares {e : Est} {v : Bool} {res : List (List ModRes)} {m : List (List ℝ)}
    (h : matrix (if v then varPsi e else covKey e) (varY (modelOf e)) res = .ok m) : Spec.Shares e v res m := by
  unfold matrix at h
  rw [mapM_ok_iff] at h
  unfold Spec.Shares
  refine List.Forall₂.imp ?_ h
  intro run row hr
  rw [mapM_ok_iff] at hr
  exact List.Forall₂.imp (fun _ _ hc => cell_share hc) hr

theorem lookup_tables {res : AllRes} {plot : Est → Bool} {t : List ((Bool × Est × Bool) × List (List ℝ))}
    (h : tables res plot = .ok t) (k : Bool × Est × Bool) (hk : k ∈ tableKeys plot) :
    ∃ m, lookup t k = .ok m ∧ Spec.Shares k.2.1 k.2.2 (res k.1 (modelOf k.2.1)) m := by
  unfold tables at h
  rw [mapM_ok_iff] at h
  generalize tableKeys plot = l at h hk
  induction h with
  | nil => simp at hk
  | @cons a b l t hab _ ih =>
    have hb : b.1 = a ∧ Spec.Shares a.2.1 a.2.2 (res a.1 (modelOf a.2.1)) b.2 := by
      simp only [bind, Except.bind] at hab
      rcases hm : matrix (if a.2.2 = true then varPsi a.2.1 else covKey a.2.1) (varY (modelOf a.2.1))
        (res a.1 (modelOf a.2.1)) with x | m
      · rw [hm] at hab; cases hab
      · rw [hm] at hab
        rw [← Except.ok.inj hab]
        exact ⟨rfl, matrix_shares hm⟩
    by_cases hbk : b.1 = k
    · refine ⟨b.2, ?_, ?_⟩
      · unfold lookup
        rw [List.find?_cons_of_pos (by simpa using hbk)]
      · rw [← hbk, hb.1]
        exact hb.2
    · have : k ∈ l := by
        rcases List.mem_cons.mp hk with rfl | hk
        · exact absurd hb.1 hbk
        · exact hk
      obtain ⟨m, h1, h2⟩ := ih this
      refine ⟨m, ?_, h2⟩
      unfold lookup at h1 ⊢
      rwa [List.find?_cons_of_neg (by simpa using hbk)]

theorem combine_tables {res : AllRes} {plot : Est → Bool} {fracs : List ℝ} {digits : ℕ} {t x}
    (h : combine res plot fracs digits = .ok (t, x)) : tables res plot = .ok t ∧ x = axisOf digits fracs := by
  unfold combine at h
  simp only [bind, Except.bind] at h
  rcases ht : tables res plot with e | t'
  · rw [ht] at h; cases h
  rw [ht] at h
  dsimp only at h
  split at h
  · cases h
  split at h
  · cases h
  have := Except.ok.inj h
  simp only [Prod.mk.injEq] at this
  exact ⟨by rw [this.1], this.2.symm⟩

theorem colMeans_averages (M : ℕ) (m : List (List ℝ)) :
    Spec.Averages m (colMeans M m) ∧ (colMeans M m).length = M := by
  refine ⟨?_, by simp [colMeans]⟩
  intro j v hv
  unfold colMeans at hv
  rw [List.getElem?_map] at hv
  rcases hj : (List.range M)[j]? with _ | j'
  · rw [hj] at hv; cases hv
  · rw [hj] at hv
    have : j' = j := by
      rw [List.getElem?_range (by
        by_contra hc
        rw [List.getElem?_eq_none (by simpa using hc)] at hj
        cases hj)] at hj
      exact (Option.some.inj hj).symm
    rw [this] at hv
    exact (Option.some.inj hv).symm

/-- What a curve shows. -/
theorem curve_ok {res : AllRes} {plot : Est → Bool} {t : List ((Bool × Est × Bool) × List (List ℝ))} {x : List ℝ}
    (ht : tables res plot = .ok t) (p : Bool × Bool) (e : Est) (he : e ∈ shown plot p.2) :
    ∃ c, curve t x p e = .ok c ∧ c.est = e ∧ c.x = x ∧ c.y.length = x.length ∧
      ∃ S, Spec.Shares e p.1 (res p.2 (modelOf e)) S ∧ Spec.Averages S c.y := by
  obtain ⟨m, h1, h2⟩ := lookup_tables ht (p.2, e, p.1) (shown_mem_keys plot p.2 e p.1 he)
  refine ⟨⟨e, x, colMeans x.length m⟩, ?_, rfl, rfl, (colMeans_averages _ _).2, m, h2, (colMeans_averages _ _).1⟩
  unfold curve
  rw [h1]
  rfl

theorem mapM_all {α β : Type} (f : α → Py β) (l : List α) (P : α → β → Prop)
    (h : ∀ a ∈ l, ∃ b, f a = .ok b ∧ P a b) : ∃ r, l.mapM f = .ok r ∧ List.Forall₂ P l r := by
  induction l with
  | nil => exact ⟨[], rfl, List.Forall₂.nil⟩
  | cons a l ih =>
    obtain ⟨b, hb, hP⟩ := h a (by simp)
    obtain ⟨r, hr, hF⟩ := ih fun a ha => h a (by simp [ha])
    refine ⟨b :: r, ?_, List.Forall₂.cons hP hF⟩
    rw [List.mapM_cons, hb, hr]
    rfl

/-- The curves of a panel. -/
def Spec.PanelOk (res : AllRes) (x : List ℝ) (b : Bool) (want : Est → Bool) (la lb : ℝ) (p : Bool × Bool) (q : Panel) :
    Prop :=
  q.variance = p.1 ∧ q.leaveOut = p.2 ∧ q.line = (if p.2 then lb else la) ∧
  (∀ e, (∃ c ∈ q.curves, c.est = e) ↔ Spec.Wanted b want p.2 e) ∧ (q.curves.map (·.est)).Nodup ∧
  ∀ c ∈ q.curves, c.x = x ∧ c.y.length = x.length ∧
    ∃ S, Spec.Shares c.est p.1 (res p.2 (Spec.reported c.est).1) S ∧ Spec.Averages S c.y

theorem panel_ok {res : AllRes} {b : Bool} {want : Est → Bool} {t : List ((Bool × Est × Bool) × List (List ℝ))}
    {x : List ℝ} (ht : tables res (requested b want) = .ok t) (la lb : ℝ) (p : Bool × Bool) :
    ∃ q, panel t x (requested b want) la lb p = .ok q ∧ Spec.PanelOk res x b want la lb p q := by
  obtain ⟨cs, h1, h2⟩ := mapM_all (curve t x p) (shown (requested b want) p.2)
    (fun e c => c.est = e ∧ c.x = x ∧ c.y.length = x.length ∧
      ∃ S, Spec.Shares e p.1 (res p.2 (modelOf e)) S ∧ Spec.Averages S c.y)
    (fun e he => curve_ok ht p e he)
  have hest : cs.map (·.est) = shown (requested b want) p.2 := by
    clear h1
    generalize shown (requested b want) p.2 = l at h2
    induction h2 with
    | nil => rfl
    | cons h _ ih => simp only [List.map_cons, ih, h.1]
  have hall : ∀ c ∈ cs, c.x = x ∧ c.y.length = x.length ∧
      ∃ S, Spec.Shares c.est p.1 (res p.2 (modelOf c.est)) S ∧ Spec.Averages S c.y := by
    clear h1 hest
    generalize shown (requested b want) p.2 = l at h2
    induction h2 with
    | nil => simp
    | cons h _ ih =>
      intro c hc
      rcases List.mem_cons.mp hc with rfl | hc
      · rw [h.1]; exact h.2
      · exact ih c hc
  refine ⟨⟨p.1, p.2, if p.2 then lb else la, cs⟩, ?_, rfl, rfl, rfl, ?_, ?_, ?_⟩
  · unfold panel
    rw [h1]
    rfl
  · intro e
    rw [← mem_shown, ← hest]
    simp
  · show (cs.map (·.est)).Nodup
    rw [hest]
    exact List.Nodup.filter _ (by decide)
  · intro c hc
    have := hall c hc
    simpa only [reported_eq] using this

/-- C105 (partial): the plots show, in each of the four panels, one curve for every estimator asked for and no other,
over the shares of movers kept, with the average over runs of the estimated share, and a line for the full sample.
If combining and placing the lines succeeds, drawing succeeds.  Missing: attrition with decreasing fractions and plots
without the line, which raise (`C48_decreasing_raises`, `C79_no_line_raises`). -/
theorem C105_plots_partial (res : AllRes) (b : Bool) (want : Est → Bool) (fracs : List ℝ) (digits : ℕ) (mpf : ℝ)
    (t : List ((Bool × Est × Bool) × List (List ℝ))) (x a a' : List ℝ) (la lb : ℝ)
    (hc : combine res (requested b want) fracs digits = .ok (t, x))
    (ha : averages x.length (res false .fe) = .ok a) (ha' : averages x.length (res true .fe) = .ok a')
    (hla : lineAt mpf a x = .ok la) (hlb : lineAt mpf a' x = .ok lb) :
    ∃ ps, plotsAll (some res) b want fracs digits true mpf = .ok ps ∧
      List.Forall₂ (Spec.PanelOk res x b want la lb) [(true, false), (true, true), (false, false), (false, true)] ps := by
  obtain ⟨ht, _⟩ := combine_tables hc
  obtain ⟨ps, h1, h2⟩ := mapM_all (panel t x (requested b want) la lb) panels
    (Spec.PanelOk res x b want la lb) (fun p _ => panel_ok ht la lb p)
  refine ⟨ps, ?_, h2⟩
  unfold plotsAll
  dsimp only
  unfold drawAll
  simp only [bind, Except.bind, hc, if_true, ha, ha', hla, hlb]
  rw [h1]
  rfl

/-- C105: the number of movers per firm that is compared with that of the full sample is the average over runs of
movers divided by firms, increased by five percent. -/
theorem C105_averages (M : ℕ) (rows : List (List ModRes)) (a : List ℝ) (h : averages M rows = .ok a) :
    a.length = M ∧ ∃ R : List (List ℝ),
      List.Forall₂ (List.Forall₂ fun r q => ∃ n m, r "n_movers" = some n ∧ r "n_firms" = some m ∧ m ≠ 0 ∧ q = n / m)
        rows R ∧
      ∀ j v, a[j]? = some v → v = 1.05 * ((R.map fun r => r.getD j 0).sum / R.length) := by
  unfold averages at h
  simp only [bind, Except.bind] at h
  rcases hm : rows.mapM (fun run => run.mapM ratio) with e | R
  · rw [hm] at h; cases h
  rw [hm] at h
  have h := Except.ok.inj h
  refine ⟨by rw [← h, List.length_map, (colMeans_averages _ _).2], R, ?_, ?_⟩
  · rw [mapM_ok_iff] at hm
    refine List.Forall₂.imp ?_ hm
    intro run row hr
    rw [mapM_ok_iff] at hr
    refine List.Forall₂.imp ?_ hr
    intro r q hq
    unfold ratio at hq
    split at hq
    · rename_i n m hn hm
      split at hq
      · cases hq
      · rename_i hz
        exact ⟨n, m, hn, hm, hz, (Except.ok.inj hq).symm⟩
    · cases hq
  · intro j v hv
    rw [← h, List.getElem?_map] at hv
    rcases hj : (colMeans M R)[j]? with _ | w
    · rw [hj] at hv; cases hv
    · rw [hj] at hv
      rw [← Option.some.inj hv, (colMeans_averages M R).1 j w hj]
      ring

/-! ## Box plots -/

theorem shown_length (plot : Est → Bool) (h : Bool) : ((shown plot h).length : ℤ) = nAxes plot h := by
  unfold nAxes shown allEst
  rcases h1 : plot .fe with _ | _ <;> rcases h2 : plot .ho with _ | _ <;> rcases h3 : plot .he with _ | _ <;>
    rcases h4 : plot .cre with _ | _ <;> rcases h5 : plot .bs1 with _ | _ <;> rcases h6 : plot .bs2 with _ | _ <;>
    cases h <;> simp [h1, h2, h3, h4, h5, h6]

theorem mapM_allP {α β : Type} (f : α → PPy β) (l : List α) (P : α → β → Prop)
    (h : ∀ a ∈ l, ∃ b, f a = .ok b ∧ P a b) : ∃ r, l.mapM f = .ok r ∧ List.Forall₂ P l r := by
  induction l with
  | nil => exact ⟨[], rfl, List.Forall₂.nil⟩
  | cons a l ih =>
    obtain ⟨b, hb, hP⟩ := h a (by simp)
    obtain ⟨r, hr, hF⟩ := ih fun a ha => h a (by simp [ha])
    refine ⟨b :: r, ?_, List.Forall₂.cons hP hF⟩
    rw [List.mapM_cons, hb, hr]
    rfl

theorem mapM_failsP {α β : Type} (f : α → PPy β) (a : α) (l : List α) (e : PExc) (h : f a = .error e) :
    (a :: l).mapM f = .error e := by
  rw [List.mapM_cons, h]
  rfl

/-- The boxes of a panel. -/
def Spec.BoxesOk (res : AllRes) (x : List ℝ) (b : Bool) (want : Est → Bool) (p : Bool × Bool) (q : List Box) : Prop :=
  (∀ e, (∃ c ∈ q, c.est = e) ↔ Spec.Wanted b want p.2 e) ∧ (q.map (·.est)).Nodup ∧
  q.map (·.k) = List.range q.length ∧
  ∀ c ∈ q, c.x = x ∧ Spec.Shares c.est p.1 (res p.2 (Spec.reported c.est).1) c.data

theorem boxPanel_ok {res : AllRes} {b : Bool} {want : Est → Bool} {t : List ((Bool × Est × Bool) × List (List ℝ))}
    {x : List ℝ} (ht : tables res (requested b want) = .ok t) (p : Bool × Bool)
    (hn : 2 ≤ (shown (requested b want) p.2).length) :
    ∃ q, boxPanel t x (requested b want) p = .ok q ∧ Spec.BoxesOk res x b want p q := by
  have hl := shown_length (requested b want) p.2
  obtain ⟨q, h1, h2⟩ := mapM_allP (fun e : Est × ℕ =>
      (subAxes (nAxes (requested b want) p.2) e.2).bind fun k =>
        (inner (lookup t (p.2, e.1, p.1))).map fun m => (⟨k, e.1, x, m⟩ : Box))
    (shown (requested b want) p.2).zipIdx
    (fun e c => c.k = e.2 ∧ c.est = e.1 ∧ c.x = x ∧ Spec.Shares e.1 p.1 (res p.2 (modelOf e.1)) c.data)
    (by
      rintro ⟨e, k⟩ he
      have hk : k < (shown (requested b want) p.2).length := by
        have := List.snd_lt_add_of_mem_zipIdx he
        simpa using this
      have hmem : e ∈ shown (requested b want) p.2 := List.fst_mem_of_mem_zipIdx he
      obtain ⟨m, m1, m2⟩ := lookup_tables ht (p.2, e, p.1) (shown_mem_keys _ p.2 e p.1 hmem)
      refine ⟨⟨k, e, x, m⟩, ?_, rfl, rfl, rfl, m2⟩
      have : subAxes (nAxes (requested b want) p.2) k = .ok k := by
        unfold subAxes
        rw [if_neg (by omega), if_neg (by omega)]
      dsimp only
      rw [this, m1]
      rfl)
  refine ⟨q, ?_, ?_⟩
  · unfold boxPanel
    rw [if_neg (by omega)]
    exact h1
  · have hke : q.map (fun c => (c.est, c.k)) = (shown (requested b want) p.2).zipIdx := by
      clear h1
      generalize (shown (requested b want) p.2).zipIdx = l at h2
      induction h2 with
      | nil => rfl
      | cons h _ ih => simp only [List.map_cons, ih, h.1, h.2.1]
    have hest : q.map (·.est) = shown (requested b want) p.2 := by
      have := congrArg (List.map Prod.fst) hke
      simpa [List.map_map, Function.comp_def] using this
    have hk : q.map (·.k) = List.range q.length := by
      have := congrArg (List.map Prod.snd) hke
      rw [List.map_map] at this
      have hlen : q.length = (shown (requested b want) p.2).length := by
        rw [← hest, List.length_map]
      rw [hlen]
      refine Eq.trans this ?_
      rw [List.zipIdx_map_snd, List.range_eq_range']
    refine ⟨?_, ?_, hk, ?_⟩
    · intro e
      rw [← mem_shown, ← hest]
      simp
    · rw [hest]
      exact List.Nodup.filter _ (by decide)
    · clear h1 hke hest hk
      generalize (shown (requested b want) p.2).zipIdx = l at h2
      induction h2 with
      | nil => simp
      | cons h _ ih =>
        intro c hc
        rcases List.mem_cons.mp hc with rfl | hc
        · refine ⟨h.2.2.1, ?_⟩
          simp only [reported_eq]
          rw [h.2.1]
          exact h.2.2.2
        · exact ih c hc

theorem shown_mono (plot : Est → Bool) : (shown plot false).length ≤ (shown plot true).length := by
  have h1 := shown_length plot false
  have h2 := shown_length plot true
  unfold nAxes at h1 h2
  by_cases h : plot .he = true <;> simp [h] at h1 h2 <;> omega

/-- C105: box plots are drawn if at least two estimators other than the heteroskedastic correction are asked for:
each of the four panels then has one sub-panel for every estimator wanted, with the shares of all runs, and no empty
ones. -/
theorem C105_boxplots_partial (res : AllRes) (b : Bool) (want : Est → Bool) (fracs : List ℝ) (digits : ℕ)
    (t : List ((Bool × Est × Bool) × List (List ℝ))) (x : List ℝ)
    (hc : combine res (requested b want) fracs digits = .ok (t, x))
    (e e' : Est) (hne : e ≠ e') (he : Spec.Wanted b want false e) (he' : Spec.Wanted b want false e') :
    ∃ ps, boxplots (some res) b want fracs digits = .ok ps ∧
      List.Forall₂ (Spec.BoxesOk res x b want) [(true, false), (true, true), (false, false), (false, true)] ps := by
  obtain ⟨ht, _⟩ := combine_tables hc
  have h2 : 2 ≤ (shown (requested b want) false).length := by
    rw [← mem_shown] at he he'
    have : [e, e'].Subperm (shown (requested b want) false) := by
      apply List.subperm_of_subset
      · simp [hne]
      · intro a ha
        simp only [List.mem_cons, List.not_mem_nil, or_false] at ha
        rcases ha with rfl | rfl
        · exact he
        · exact he'
    simpa using this.length_le
  have h3 := shown_mono (requested b want)
  obtain ⟨ps, p1, p2⟩ := mapM_allP (boxPanel t x (requested b want)) panels (Spec.BoxesOk res x b want)
    (fun p _ => boxPanel_ok ht p (by rcases p.2 with _ | _ <;> omega))
  refine ⟨ps, ?_, p2⟩
  unfold boxplots
  dsimp only
  rw [hc]
  exact p1

/-- C105 is false for box plots of one estimator: with exactly one wanted for the connected set (for instance FE and
FE-HE), `axs[k]` raises a `TypeError`; with none, `subplots` raises a `ValueError`. -/
theorem C105_boxplots_fail (res : AllRes) (b : Bool) (want : Est → Bool) (fracs : List ℝ) (digits : ℕ)
    (t : List ((Bool × Est × Bool) × List (List ℝ))) (x : List ℝ)
    (hc : combine res (requested b want) fracs digits = .ok (t, x)) :
    (∀ e, (∀ e', Spec.Wanted b want false e' ↔ e' = e) → boxplots (some res) b want fracs digits = .error .typeE) ∧
    ((∀ e', ¬ Spec.Wanted b want false e') → boxplots (some res) b want fracs digits = .error (.inner .value)) := by
  have hl := shown_length (requested b want) false
  have nd : (shown (requested b want) false).Nodup := List.Nodup.filter _ (by decide)
  have key : ∀ err, boxPanel t x (requested b want) (true, false) = .error err →
      boxplots (some res) b want fracs digits = .error err := by
    intro err h
    unfold boxplots
    dsimp only
    rw [hc]
    exact mapM_failsP _ _ _ _ h
  constructor
  · intro e he
    have h1 : shown (requested b want) false = [e] := by
      have hp : (shown (requested b want) false).Perm [e] := by
        rw [List.perm_ext_iff_of_nodup nd (by simp)]
        intro a
        rw [mem_shown, he a]
        simp
      exact List.perm_singleton.mp hp
    apply key
    rw [h1] at hl
    unfold boxPanel
    dsimp only
    rw [← hl, if_neg (by simp), h1]
    exact mapM_failsP _ _ _ _ rfl
  · intro he
    have h1 : shown (requested b want) false = [] := by
      apply List.eq_nil_iff_forall_not_mem.mpr
      intro a ha
      exact he a ((mem_shown _ _ _ _).mp ha)
    apply key
    rw [h1] at hl
    unfold boxPanel
    dsimp only
    rw [← hl, if_pos (by simp)]

/-- FE and FE-HE: one estimator for the connected set. -/
example : ∀ e', Spec.Wanted false (fun e => e == .fe || e == .he) false e' ↔ e' = .fe := by
  intro e'
  unfold Spec.Wanted
  cases e' <;> simp

/-- The default with Borovickova-Shimer: all six estimators, two of which satisfy the hypotheses of
`C105_boxplots_partial`. -/
example : Spec.Wanted true (fun _ => true) false .fe ∧ Spec.Wanted true (fun _ => true) false .bs2 := by
  unfold Spec.Wanted
  simp

/-- C105: before `attrition()` has run, both functions raise an `AttributeError`. -/
theorem C105_not_run (b : Bool) (want : Est → Bool) (fracs : List ℝ) (digits : ℕ) (line : Bool) (mpf : ℝ) :
    plotsAll none b want fracs digits line mpf = .error .attribute ∧
    boxplots none b want fracs digits = .error .attribute := ⟨rfl, rfl⟩

/-- One run and two fractions: all hypotheses of `C105_plots_partial` hold. -/
theorem C105_run : ∃ (res : AllRes) (t : List ((Bool × Est × Bool) × List (List ℝ))) (x a : List ℝ) (la : ℝ),
    combine res (requested false fun e => e == .fe) [1 / 2, 1] 1 = .ok (t, x) ∧
    averages x.length (res false .fe) = .ok a ∧ averages x.length (res true .fe) = .ok a ∧ lineAt 3 a x = .ok la := by
  let r : ModRes := fun k => if k = "var(y)" then some 10 else if k = "var(psi)_fe" then some 2
    else if k = "cov(psi, alpha)_fe" then some 1 else if k = "n_movers" then some 6 else if k = "n_firms" then some 3 else none
  have hk : tableKeys (requested false fun e => e == .fe) =
      [(false, .fe, true), (false, .fe, false), (true, .fe, true), (true, .fe, false)] := by decide
  have c1 : cell "var(psi)_fe" "var(y)" r = .ok (100 * (2 / 10)) := rfl
  have c2 : cell "cov(psi, alpha)_fe" "var(y)" r = .ok (100 * (1 / 10)) := rfl
  have hrat : ratio r = .ok (6 / 3) := by
    show (if (3 : ℝ) = 0 then (.error .other : Py ℝ) else .ok (6 / 3)) = _
    rw [if_neg (by norm_num)]
  have ht : ∃ t, tables (fun _ _ => [[r, r]]) (requested false fun e => e == .fe) = .ok t := by
    unfold tables
    rw [hk]
    exact ⟨_, rfl⟩
  obtain ⟨t, ht⟩ := ht
  have hav : averages 2 [[r, r]] = .ok ((colMeans 2 [[6 / 3, 6 / 3]]).map fun x => x * 1.05) := by
    unfold averages
    simp only [List.mapM_cons, List.mapM_nil, hrat]
    rfl
  have hx : (axisOf 1 [1 / 2, 1]).length = 2 := by simp [axisOf]
  have hmax : listMax ((colMeans 2 [[6 / 3, 6 / 3]]).map fun x => x * 1.05) ≤ 3 := by
    simp [listMax, colMeans, List.range_succ]
    norm_num
  refine ⟨fun _ _ => [[r, r]], t, axisOf 1 [1 / 2, 1],
    (colMeans 2 [[6 / 3, 6 / 3]]).map fun x => x * 1.05, listMax (axisOf 1 [1 / 2, 1]), ?_, ?_, ?_, ?_⟩
  · unfold combine
    rw [ht]
    have hd : npDiff [1 / 2, 1] = [1 / 2] := by norm_num [npDiff]
    simp only [bind, Except.bind]
    simp only [hd]
    rw [if_neg (by simp), if_neg (by simp)]
  · rw [hx]
    exact hav
  · rw [hx]
    exact hav
  · unfold lineAt
    rw [if_pos hmax]

end Pytwoway.Attrition
