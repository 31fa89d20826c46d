import Mathlib.Data.Finset.Sort
import Verif.BS.Invariance

/-! # C115: the order of rows in the Borovickova-Shimer estimator

`Verif/BS/Model.lean` takes a group to be the set of rows with an id.  The code cuts columns with `np.split` at the first
row of each id, ids in ascending order, and multiplies the result with arrays of `groupby(sort=False)`, ids in order of
appearance.  Here this is modelled row by row.  The two agree if rows are sorted by worker (`fitRows_eq`); the code sorts by
firm itself, but not by worker. -/

namespace Pytwoway.BS

open Finset

variable {n nw nf m : ℕ}

/-! ## Model -/

/-- Rows at which an id occurs first, in the order of rows: the groups of `groupby(..., sort=False)`
(borovickovashimer.py:89, 129, 192, 227). -/
def firstRows (key : Fin n → Fin m) : List (Fin n) := (univ.filter fun o => ∀ o' < o, key o' ≠ key o).sort (· ≤ ·)

/-- `np.unique(col_groupby, return_index=True)[1]` (borovickovashimer.py:24, 27): the first row of each id, ids
ascending. -/
def uniqueIdx (key : Fin n → Fin m) : List (Fin n) :=
  ((keys key).sort (· ≤ ·)).filterMap fun k => (firstRows key).find? fun o => key o = k

/-- `np.split(col, groups)[1:]` (borovickovashimer.py:24, 28-29): the rows from each index to the one before the next; the
last piece goes to the end, and a piece whose end comes before its start is empty. -/
def pieces : List (Fin n) → List (Finset (Fin n))
  | [] => []
  | [r] => [univ.filter fun o => r ≤ o]
  | r :: r' :: rs => (univ.filter fun o => r ≤ o ∧ o < r') :: pieces (r' :: rs)

/-- `_compute_mean_sq`, borovickovashimer.py:31-48, the entry of one piece. -/
noncomputable def pieceSq (x : Fin n → ℝ) (weights : Option (Fin n → ℝ)) (G : Finset (Fin n)) : ℝ :=
  match weights with
  | none => pairSum G x / (((G.card : ℝ) * ((G.card : ℝ) - 1)) / 2)
  | some w => pairSum G x / pairSum G w

/-- `np.sum(weights_sum * _compute_mean_sq(...))` (borovickovashimer.py:113, 149, 211, 247): entries are multiplied by
position; `ws` is the column summed by `groupby`. -/
noncomputable def dotSq (key : Fin n → Fin m) (ws x : Fin n → ℝ) (weights : Option (Fin n → ℝ)) : ℝ :=
  (List.zipWith (· * ·) ((firstRows key).map fun r => ∑ o ∈ grp key (key r), ws o)
    ((pieces (uniqueIdx key)).map (pieceSq x weights))).sum

/-- `np.sum(weights_sum)` and other sums over groups alone do not depend on the order of groups.  Variance of one side
of the standard estimator (borovickovashimer.py:90-113, 128-149). -/
noncomputable def sigmaRows (key : Fin n → Fin m) (y : Fin n → ℝ) (w : Option (Fin n → ℝ)) (yBar : ℝ) : ℝ :=
  match w with
  | some w => dotSq key w (fun o => Real.sqrt (w o) * y o) (some fun o => Real.sqrt (w o)) /
      (∑ k ∈ keys key, ∑ o ∈ grp key k, w o) - yBar ^ 2
  | none => dotSq key 1 y none / (∑ k ∈ keys key, ((grp key k).card : ℝ)) - yBar ^ 2

/-- Mean and variance of one side of the alternative estimator (borovickovashimer.py:190-211, 224-247). -/
noncomputable def altRows (key : Fin n → Fin m) (y : Fin n → ℝ) (w : Option (Fin n → ℝ)) : ℝ × ℝ :=
  match w with
  | some w =>
    let wy := fun o => w o * y o
    let yb := (altW key wy w).1
    (yb, dotSq key w wy none / (2 * dotSq key w w none) - yb ^ 2)
  | none =>
    let yb := (altU key y).1
    (yb, dotSq key 1 y none / (∑ k ∈ keys key, ((grp key k).card : ℝ) * (2 * (1 / 2))) - yb ^ 2)

/-- `BSEstimator.fit`, borovickovashimer.py:58-276, on rows as they come.  `byFirm` is the order in which
`sort_values('j')` (lines 126, 224) leaves the rows.  Leave-one-out means, sums and `var(y)` go row by row with
`transform` and are those of `fit`. -/
noncomputable def fitRows (byFirm : Equiv.Perm (Fin n)) (f : Frame n nw nf) (noReturns alternative weighted : Bool) :
    Except String Res := do
  let r ← fit f noReturns alternative weighted
  let w := if weighted then f.w else none
  let jw := w.map (· ∘ byFirm)
  if alternative then
    .ok { r with
      var_lambda := (altRows f.i f.y w).2
      var_mu := (altRows (f.j ∘ byFirm) (f.y ∘ byFirm) jw).2 }
  else
    .ok { r with
      var_lambda := sigmaRows f.i f.y w r.mean_y
      var_mu := sigmaRows (f.j ∘ byFirm) (f.y ∘ byFirm) jw r.mean_y }

/-! ## Sorted rows -/

theorem mem_firstRows {key : Fin n → Fin m} {o : Fin n} : o ∈ firstRows key ↔ ∀ o' < o, key o' ≠ key o := by
  simp [firstRows]

theorem exists_firstRow (key : Fin n → Fin m) (o : Fin n) : ∃ r ∈ firstRows key, r ≤ o ∧ key r = key o := by
  induction o using WellFoundedLT.induction with
  | _ o ih =>
    by_cases h : ∀ o' < o, key o' ≠ key o
    · exact ⟨o, mem_firstRows.mpr h, le_rfl, rfl⟩
    · push Not at h
      obtain ⟨o', hlt, he⟩ := h
      obtain ⟨r, hr, hle, hk⟩ := ih o' hlt
      exact ⟨r, hr, hle.trans hlt.le, hk.trans he⟩

theorem firstRows_sorted (key : Fin n → Fin m) : (firstRows key).Pairwise (· < ·) := by
  unfold firstRows
  exact (Finset.sortedLT_sort _).pairwise

theorem firstRow_unique {key : Fin n → Fin m} {r r' : Fin n} (h : r ∈ firstRows key) (h' : r' ∈ firstRows key)
    (he : key r = key r') : r = r' := by
  rcases lt_trichotomy r r' with hl | hl | hl
  · exact absurd he (mem_firstRows.mp h' r hl)
  · exact hl
  · exact absurd he.symm (mem_firstRows.mp h r' hl)

theorem appear_eq {key : Fin n → Fin m} (h : Monotone key) : (firstRows key).map key = (keys key).sort (· ≤ ·) := by
  have hs : ((firstRows key).map key).Pairwise (· < ·) := by
    rw [List.pairwise_map]
    refine (firstRows_sorted key).imp_of_mem ?_
    intro r r' hr hr' hlt
    exact lt_of_le_of_ne (h hlt.le) (mem_firstRows.mp hr' r hlt)
  refine List.Perm.eq_of_pairwise (le := (· ≤ ·)) (fun a b _ _ h1 h2 => le_antisymm h1 h2) (hs.imp le_of_lt) (Finset.pairwise_sort _ _) ?_
  rw [List.perm_ext_iff_of_nodup (hs.imp ne_of_lt) (Finset.sort_nodup _ _)]
  intro k
  rw [Finset.mem_sort]
  simp only [List.mem_map, keys, mem_image, mem_univ, true_and]
  constructor
  · rintro ⟨r, -, rfl⟩; exact ⟨r, rfl⟩
  · rintro ⟨o, rfl⟩
    obtain ⟨r, hr, -, hk⟩ := exists_firstRow key o
    exact ⟨r, hr, hk⟩

theorem uniqueIdx_eq {key : Fin n → Fin m} (h : Monotone key) : uniqueIdx key = firstRows key := by
  unfold uniqueIdx
  rw [← appear_eq h, List.filterMap_map]
  have : ∀ l : List (Fin n), (∀ r ∈ l, r ∈ firstRows key) →
      l.filterMap ((fun k => (firstRows key).find? fun o => key o = k) ∘ key) = l := by
    intro l
    induction l with
    | nil => intro _; rfl
    | cons r l ih =>
      intro hl
      have hr := hl r List.mem_cons_self
      have : (firstRows key).find? (fun o => decide (key o = key r)) = some r := by
        cases hf : (firstRows key).find? (fun o => decide (key o = key r)) with
        | none => exact absurd (List.find?_eq_none.mp hf r hr) (by simp)
        | some r' =>
          have h1 := List.mem_of_find?_eq_some hf
          have h2 : key r' = key r := by simpa using List.find?_some hf
          rw [firstRow_unique h1 hr h2]
      have ih' := ih fun r hr => hl r (List.mem_cons_of_mem _ hr)
      rw [List.filterMap_cons]
      simp only [Function.comp_def, this] at ih' ⊢
      rw [ih']
  exact this _ fun _ h => h

theorem pieces_eq {key : Fin n → Fin m} (h : Monotone key) (l pre : List (Fin n)) (hl : firstRows key = pre ++ l) :
    pieces l = l.map fun r => grp key (key r) := by
  induction l generalizing pre with
  | nil => rfl
  | cons r l ih =>
    have hr : r ∈ firstRows key := by rw [hl]; simp
    have hso := firstRows_sorted key
    rw [hl, List.pairwise_append] at hso
    obtain ⟨-, hs, hpre⟩ := hso
    rw [List.pairwise_cons] at hs
    have hrows : ∀ r', r' ∈ firstRows key → r < r' → r' ∈ l := by
      intro r' hr' hlt
      rw [hl] at hr'
      rcases List.mem_append.mp hr' with h1 | h1
      · exact absurd (hpre r' h1 r List.mem_cons_self) (not_lt.mpr hlt.le)
      · rcases List.mem_cons.mp h1 with rfl | h2
        · exact absurd hlt (lt_irrefl _)
        · exact h2
    have low : ∀ o, key o = key r → r ≤ o := by
      intro o he
      by_contra hlt
      exact mem_firstRows.mp hr o (not_le.mp hlt) he
    cases l with
    | nil =>
      simp only [pieces, List.map_cons, List.map_nil, List.cons.injEq, and_true]
      ext o
      simp only [grp, mem_filter, mem_univ, true_and]
      refine ⟨fun hle => ?_, low o⟩
      obtain ⟨r', hr', hle', hk⟩ := exists_firstRow key o
      rcases lt_or_ge r r' with hlt | hge
      · simpa using hrows r' hr' hlt
      · exact le_antisymm (hk ▸ h hge) (h hle)
    | cons r2 l =>
      have ih' := ih (pre ++ [r]) (by rw [hl]; simp)
      have hr2 : r2 ∈ firstRows key := by rw [hl]; simp
      have hlt2 : r < r2 := hs.1 r2 List.mem_cons_self
      simp only [pieces]
      rw [ih', List.map_cons]
      congr 1
      ext o
      simp only [grp, mem_filter, mem_univ, true_and]
      constructor
      · rintro ⟨hle, hlt⟩
        obtain ⟨r', hr', hle', hk⟩ := exists_firstRow key o
        rcases lt_or_ge r r' with hlt' | hge
        · have hm := hrows r' hr' hlt'
          have : r2 ≤ r' := by
            rcases List.mem_cons.mp hm with rfl | h3
            · exact le_rfl
            · exact ((List.pairwise_cons.mp hs.2).1 r' h3).le
          exact absurd (this.trans hle') (not_le.mpr hlt)
        · exact le_antisymm (hk ▸ h hge) (h hle)
      · intro he
        refine ⟨low o he, ?_⟩
        by_contra hge
        have := h (not_lt.mp hge)
        rw [he] at this
        exact mem_firstRows.mp hr2 r hlt2 (le_antisymm (h hlt2.le) this)

theorem dotSq_eq {key : Fin n → Fin m} (h : Monotone key) (ws x : Fin n → ℝ) (weights : Option (Fin n → ℝ)) :
    dotSq key ws x weights = ∑ k ∈ keys key, (∑ o ∈ grp key k, ws o) * meanSq key x weights k := by
  unfold dotSq
  rw [uniqueIdx_eq h, pieces_eq h (firstRows key) [] rfl, List.map_map, List.zipWith_map, List.zipWith_self]
  have : (fun r => (∑ o ∈ grp key (key r), ws o) * (pieceSq x weights ∘ fun r => grp key (key r)) r) =
      (fun k => (∑ o ∈ grp key k, ws o) * meanSq key x weights k) ∘ key := by
    funext r
    cases weights <;> rfl
  rw [this, ← List.map_map, appear_eq h, ← List.sum_toFinset _ (Finset.sort_nodup _ _), Finset.sort_toFinset]

theorem card_sum (G : Finset (Fin n)) : ∑ o ∈ G, (1 : Fin n → ℝ) o = G.card := by simp

theorem sigmaRows_eq {key : Fin n → Fin m} (h : Monotone key) (y w : Fin n → ℝ) (b : ℝ) :
    sigmaRows key y (some w) b = sigmaW key y w b ∧ sigmaRows key y none b = sigmaU key y b := by
  simp only [sigmaRows, dotSq_eq h, card_sum, sigmaW, sigmaU, and_self]

theorem altRows_eq {key : Fin n → Fin m} (h : Monotone key) (y w : Fin n → ℝ) :
    altRows key y (some w) = altW key (fun o => w o * y o) w ∧ altRows key y none = altU key y := by
  constructor
  · have e : 2 * dotSq key w w none = ∑ k ∈ keys key, (∑ o ∈ grp key k, w o) * (2 * meanSq key w none k) := by
      rw [dotSq_eq h, mul_sum]; exact sum_congr rfl fun k _ => by ring
    simp only [altRows, e]
    rw [dotSq_eq h]
    rfl
  · simp only [altRows, dotSq_eq h, card_sum]
    rfl

/-- With rows sorted by worker, the row-by-row model is the model with groups as sets, whatever order of equal firms the
sort by firm leaves. -/
theorem fitRows_eq (byFirm : Equiv.Perm (Fin n)) (f : Frame n nw nf) (hi : Monotone f.i) (hj : Monotone (f.j ∘ byFirm))
    (noReturns alternative weighted : Bool) :
    fitRows byFirm f noReturns alternative weighted = fit f noReturns alternative weighted := by
  have hrel : ∀ o, f.j (byFirm o) = (1 : Equiv.Perm (Fin nf)) ((f.j ∘ byFirm) o) := fun _ => rfl
  have sW := fun y w b => sigmaW_relabel (key := f.j ∘ byFirm) (key' := f.j) hrel y w b
  have sU := fun y b => sigmaU_relabel (key := f.j ∘ byFirm) (key' := f.j) hrel y b
  have aW := fun y w => altW_relabel (key := f.j ∘ byFirm) (key' := f.j) hrel y w
  have aU := fun y => altU_relabel (key := f.j ∘ byFirm) (key' := f.j) hrel y
  unfold fitRows fit
  cases noReturns
  · rfl
  cases hw : f.w with
  | none =>
    cases alternative <;> cases weighted <;>
      simp only [bind, Except.bind, Bool.true_eq_false, Bool.false_eq_true, if_true, if_false, Option.map_none,
        (sigmaRows_eq hi f.y 1 _).2, (sigmaRows_eq hj (f.y ∘ byFirm) 1 _).2, (altRows_eq hi f.y 1).2,
        (altRows_eq hj (f.y ∘ byFirm) 1).2, ← sU, ← aU] <;> rfl
  | some w =>
    have e : ((fun o => (w ∘ byFirm) o * (f.y ∘ byFirm) o)) = (fun o => w o * f.y o) ∘ byFirm := rfl
    cases alternative <;> cases weighted <;>
      simp only [bind, Except.bind, Bool.true_eq_false, Bool.false_eq_true, if_true, if_false, Option.map_none,
        Option.map_some, (sigmaRows_eq hi f.y 1 _).2, (sigmaRows_eq hj (f.y ∘ byFirm) 1 _).2, (altRows_eq hi f.y 1).2,
        (altRows_eq hj (f.y ∘ byFirm) 1).2, (sigmaRows_eq hi f.y w _).1,
        (sigmaRows_eq hj (f.y ∘ byFirm) (w ∘ byFirm) _).1, (altRows_eq hi f.y w).1,
        (altRows_eq hj (f.y ∘ byFirm) (w ∘ byFirm)).1, e, ← sU, ← aU, ← sW, ← aW] <;> rfl

/-! ## C115 -/

variable {row : Equiv.Perm (Fin n)} {worker : Equiv.Perm (Fin nw)} {firm : Equiv.Perm (Fin nf)}

/-- C115: for two panels whose rows are sorted by worker, whatever the estimator and whatever order of equal firms the
sort by firm leaves: renaming workers and firms, reordering rows accordingly, measuring outcomes in another unit
(`a * y`) and weights in another unit (`c * w`, `c > 0`) does not change the results, which are in the unit (or squared
unit) of the outcome.  Adding a constant `b` to every outcome only moves the mean, provided no weights are used and every
worker and firm has two observations.  Missing: the constant with weights (`C115_weighted_shift_wrong`) and rows that are
not sorted by worker (`C115_unsorted_wrong`). -/
theorem C115_units_partial (f f' : Frame n nw nf) (a b c : ℝ) (hc : 0 < c)
    (h : Spec.SameObs row worker firm a b c f f') (byFirm byFirm' : Equiv.Perm (Fin n))
    (hi : Monotone f.i) (hi' : Monotone f'.i) (hj : Monotone (f.j ∘ byFirm)) (hj' : Monotone (f'.j ∘ byFirm'))
    (alternative weighted : Bool) (hb : b = 0 ∨ ((weighted = false ∨ f.w = none) ∧ f.AtLeastTwo ∧ 0 < n)) :
    ∃ r r', fitRows byFirm f true alternative weighted = .ok r ∧ fitRows byFirm' f' true alternative weighted = .ok r' ∧
      Spec.SameRes a b r r' := by
  rw [fitRows_eq byFirm f hi hj, fitRows_eq byFirm' f' hi' hj']
  exact units_sets f f' a b c hc h alternative weighted hb

/-- C115, symmetry: exchanging the roles of workers and firms (and sorting rows by the new workers, under any names)
exchanges the two variances and leaves the mean, the covariance and the correlation as they are. -/
theorem C115_sides (f : Frame n nw nf) (g : Frame n nf nw) (hw : ∀ w, f.w = some w → ∀ o, 0 < w o)
    (h : Spec.SameObs row firm worker 1 0 1 (Spec.swap f) g) (byFirm byFirm' : Equiv.Perm (Fin n))
    (hi : Monotone f.i) (hi' : Monotone g.i) (hj : Monotone (f.j ∘ byFirm)) (hj' : Monotone (g.j ∘ byFirm'))
    (alternative weighted : Bool) :
    ∃ r r', fitRows byFirm f true alternative weighted = .ok r ∧ fitRows byFirm' g true alternative weighted = .ok r' ∧
      r'.mean_y = r.mean_y ∧ r'.var_lambda = r.var_mu ∧ r'.var_mu = r.var_lambda ∧ r'.cov = r.cov ∧ r'.corr = r.corr := by
  rw [fitRows_eq byFirm f hi hj, fitRows_eq byFirm' g hi' hj']
  obtain ⟨r, r1, e, e1, h1, h2, h3, h4, h5, -⟩ := sides_sets f hw alternative weighted
  obtain ⟨r1', r', e1', e', k1, k2, k3, k4, k5⟩ := units_sets (Spec.swap f) g 1 0 1 one_pos h alternative weighted (.inl rfl)
  obtain rfl := Except.ok.inj (e1.symm.trans e1')
  refine ⟨r, r', e, e', ?_, ?_, ?_, ?_, (k5 one_ne_zero).trans h5⟩
  · rw [k1, h1]; ring
  · rw [k2, h2]; ring
  · rw [k3, h3]; ring
  · rw [k4, h4]; ring

/-- C115 fails for a constant with weights: adding 1 to every outcome changes the weighted variance of worker types
from `-64/49` to `-106/49` on a sorted panel that meets every condition of the estimator. -/
theorem C115_weighted_shift_wrong : (exShift 0).AtLeastTwo ∧ (exShift 0).DistinctMatches ∧ Monotone (exShift 0).i ∧
    Spec.SameObs 1 1 1 1 1 1 (exShift 0) (exShift 1) ∧
    ∀ byFirm : Equiv.Perm (Fin 4), Monotone ((exShift 0).j ∘ byFirm) →
      ∃ r r', fitRows byFirm (exShift 0) true false true = .ok r ∧ fitRows byFirm (exShift 1) true false true = .ok r' ∧
        r.var_lambda = -64 / 49 ∧ r'.var_lambda = -106 / 49 := by
  have hm : Monotone (exShift 0).i := by unfold Monotone; decide
  obtain ⟨h1, h2, h3, r, r', e, e', h4, h5⟩ := shift_wrong_sets
  refine ⟨h1, h2, hm, h3, fun byFirm hj => ⟨r, r', ?_, ?_, h4, h5⟩⟩
  · rw [fitRows_eq byFirm _ hm hj, e]
  · rw [fitRows_eq byFirm (exShift 1) hm hj, e']

/-- Two workers at three firms; the third observation of the first worker comes last. -/
def exUnsorted : Frame 6 2 3 := ⟨![0, 0, 1, 1, 1, 0], ![0, 1, 0, 1, 2, 2], ![0, 0, 1, 0, 0, 1], none⟩

/-- The same observations sorted by worker. -/
def exSorted : Frame 6 2 3 := ⟨![0, 0, 0, 1, 1, 1], ![0, 1, 2, 0, 1, 2], ![0, 0, 1, 1, 0, 0], none⟩

/-- The new row of each row of `exUnsorted`. -/
def exRow : Equiv.Perm (Fin 6) := ⟨![0, 1, 3, 4, 5, 2], ![0, 1, 5, 2, 3, 4], by decide, by decide⟩

/-- C115 fails for rows that are not sorted by worker: the estimator does not sort them and does not raise, and the
variance of worker types is `-1/36` instead of `-1/9`. -/
theorem C115_unsorted_wrong : Spec.SameObs exRow 1 1 1 0 1 exUnsorted exSorted ∧ exUnsorted.AtLeastTwo ∧
    exUnsorted.DistinctMatches ∧ ∀ byFirm byFirm' : Equiv.Perm (Fin 6),
      ∃ r r', fitRows byFirm exUnsorted true false false = .ok r ∧ fitRows byFirm' exSorted true false false = .ok r' ∧
        r.var_lambda = -1 / 36 ∧ r'.var_lambda = -1 / 9 := by
  have srt : ∀ (A : Finset (Fin 6)) (l : List (Fin 6)), l.Pairwise (· < ·) → l.toFinset = A → A.sort (· ≤ ·) = l := by
    intro A l hl he
    subst he
    exact (List.toFinset_sort (· ≤ ·) (hl.imp ne_of_lt)).mpr (hl.imp le_of_lt)
  have srt2 : ∀ (A : Finset (Fin 2)) (l : List (Fin 2)), l.Pairwise (· < ·) → l.toFinset = A → A.sort (· ≤ ·) = l := by
    intro A l hl he
    subst he
    exact (List.toFinset_sort (· ≤ ·) (hl.imp ne_of_lt)).mpr (hl.imp le_of_lt)
  have fr : firstRows exUnsorted.i = [0, 2] := srt _ _ (by decide) (by decide)
  have kk : (keys exUnsorted.i).sort (· ≤ ·) = [0, 1] := srt2 _ _ (by decide) (by decide)
  have ui : uniqueIdx exUnsorted.i = [0, 2] := by unfold uniqueIdx; rw [kk, fr]; decide
  have mU : (fitStdU exUnsorted).mean_y = 1 / 3 := by
    rw [meanU_eq]; simp [exUnsorted, Fin.sum_univ_succ]; norm_num
  have mS : (fitStdU exSorted).mean_y = 1 / 3 := by
    rw [meanU_eq]; simp [exSorted, Fin.sum_univ_succ]; norm_num
  have kU : keys exUnsorted.i = {0, 1} := by decide
  have g0 : grp exUnsorted.i 0 = {0, 1, 5} := by decide
  have g1 : grp exUnsorted.i 1 = {2, 3, 4} := by decide
  have p0 : (univ.filter fun o : Fin 6 => (0 : Fin 6) ≤ o ∧ o < 2) = {0, 1} := by decide
  have p1 : (univ.filter fun o : Fin 6 => (2 : Fin 6) ≤ o) = {2, 3, 4, 5} := by decide
  have kS : keys exSorted.i = {0, 1} := by decide
  have s0 : grp exSorted.i 0 = {0, 1, 2} := by decide
  have s1 : grp exSorted.i 1 = {3, 4, 5} := by decide
  refine ⟨⟨by decide, by decide, fun o => ?_, .inl ⟨rfl, rfl⟩⟩, ⟨by decide, by decide⟩,
    by unfold Frame.DistinctMatches; decide, fun byFirm byFirm' => ⟨_, _, rfl, rfl, ?_, ?_⟩⟩
  · fin_cases o <;> simp [exRow, exSorted, exUnsorted]
  · show sigmaRows exUnsorted.i exUnsorted.y none (fitStdU exUnsorted).mean_y = _
    rw [mU]
    simp only [sigmaRows, dotSq, fr, ui, pieces, p0, p1, kU, List.map_cons, List.map_nil, pieceSq, pairSum_eq, card_sum]
    have e0 : exUnsorted.i 0 = 0 := rfl
    have e2 : exUnsorted.i 2 = 1 := rfl
    have ed : ∑ x ∈ ({0, 1} : Finset (Fin 2)), ((grp exUnsorted.i x).card : ℝ) = 6 := by
      rw [sum_pair (by decide), g0, g1]
      simp
      norm_num
    rw [ed, e0, e2, g0, g1]
    simp [exUnsorted]
    norm_num
  · show sigmaRows exSorted.i exSorted.y none (fitStdU exSorted).mean_y = _
    rw [mS, (sigmaRows_eq (by unfold Monotone; decide) _ 1 _).2]
    unfold sigmaU
    rw [kS, sum_pair (by decide), sum_pair (by decide)]
    simp only [meanSq, pairSum_eq, s0, s1]
    simp [exSorted]
    norm_num

/-- Non-vacuity of C115: rows, workers and firms exchanged, outcomes `3 y + 1`, weights doubled, both panels sorted by
worker. -/
example : ∃ (f f' : Frame 4 2 2) (byFirm : Equiv.Perm (Fin 4)), f.AtLeastTwo ∧ Monotone f.i ∧ Monotone f'.i ∧
    Monotone (f.j ∘ byFirm) ∧ Monotone (f'.j ∘ byFirm) ∧
    Spec.SameObs (Equiv.swap 0 3 * Equiv.swap 1 2) (Equiv.swap 0 1) (Equiv.swap 0 1) 3 1 2 f f' ∧ f'.y ≠ f.y := by
  refine ⟨⟨![0, 0, 1, 1], ![0, 1, 0, 1], ![1, 2, 3, 5], some ![1, 4, 1, 1]⟩,
    ⟨![0, 0, 1, 1], ![0, 1, 0, 1], ![16, 10, 7, 4], some ![2, 2, 8, 2]⟩, Equiv.swap 1 2, ⟨by decide, by decide⟩,
    by unfold Monotone; decide, by unfold Monotone; decide, by unfold Monotone; decide, by unfold Monotone; decide,
    ⟨by decide, by decide, ?_, .inr ⟨_, _, rfl, rfl, ?_⟩⟩, ?_⟩
  · intro o; fin_cases o <;> simp [Equiv.swap_apply_def] <;> norm_num
  · intro o; fin_cases o <;> simp [Equiv.swap_apply_def]; norm_num
  · intro h
    have := congrFun h 0
    norm_num at this

/-- Non-vacuity of `C115_sides`: workers and firms of four observed matches exchanged. -/
example : ∃ (f : Frame 4 2 2) (g : Frame 4 2 2) (row byFirm : Equiv.Perm (Fin 4)), Monotone f.i ∧ Monotone g.i ∧
    Monotone (f.j ∘ byFirm) ∧ Monotone (g.j ∘ byFirm) ∧ Spec.SameObs row 1 1 1 0 1 (Spec.swap f) g ∧ g.y ≠ f.y := by
  refine ⟨⟨![0, 0, 1, 1], ![0, 1, 0, 1], ![1, 2, 3, 5], none⟩, ⟨![0, 0, 1, 1], ![0, 1, 0, 1], ![1, 3, 2, 5], none⟩,
    Equiv.swap 1 2, Equiv.swap 1 2, by unfold Monotone; decide, by unfold Monotone; decide, by unfold Monotone; decide,
    by unfold Monotone; decide, ⟨by decide, by decide, ?_, .inl ⟨rfl, rfl⟩⟩, ?_⟩
  · intro o; fin_cases o <;> simp [Equiv.swap_apply_def, Spec.swap]
  · intro h
    have := congrFun h 1
    norm_num at this

end Pytwoway.BS
