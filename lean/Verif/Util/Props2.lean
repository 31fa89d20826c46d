import Verif.Util.QuantileLemmas
import Mathlib.Probability.Distributions.Gaussian.Real

/-!
# Properties C03, C04, C05, C06 of `pytwoway/util.py` (and the defect of `melt`)
-/

namespace Pytwoway.Util

open scoped BigOperators

/-! ## C03 -/

section C03

/-- What is assumed of `np.argsort` applied to both arrays: a reordering, sorted by value. -/
def IsArgsort (sorter : List (ℝ × ℝ) → List (ℝ × ℝ)) : Prop :=
  ∀ d, (sorter d).Perm d ∧ (sorter d).Pairwise fun p q => p.1 ≤ q.1

/-- A sorting function exists: NumPy's stable `kind='stable'` argsort. -/
noncomputable def stableSorter (d : List (ℝ × ℝ)) : List (ℝ × ℝ) :=
  d.mergeSort fun p q => decide (p.1 ≤ q.1)

theorem stableSorter_isArgsort : IsArgsort stableSorter := by
  intro d
  refine ⟨List.mergeSort_perm _ _, ?_⟩
  have := List.pairwise_mergeSort (le := fun p q : ℝ × ℝ => decide (p.1 ≤ q.1))
    (fun a b c h1 h2 => by simp at *; linarith) (fun a b => by simp; exact le_total _ _) d
  simpa [stableSorter] using this

/-- Data a caller may pass: positive weights, and sorted values if `values_sorted` is claimed. -/
structure GoodData (data : List (ℝ × ℝ)) (valuesSorted : Bool) : Prop where
  weight_pos : ∀ p ∈ data, 0 < p.2
  sorted : valuesSorted = true → data.Pairwise fun p q => p.1 ≤ q.1

variable {sorter : List (ℝ × ℝ) → List (ℝ × ℝ)} {data : List (ℝ × ℝ)} {qs : List ℝ} {vs o : Bool}

/-- The `ValueError` of util.py:90 is raised exactly when some quantile is outside [0,1]. -/
theorem C03_error_iff :
    weightedQuantile sorter data qs vs o = .valueErrorRange ↔ ∃ q ∈ qs, q < 0 ∨ 1 < q := by
  constructor
  · intro h
    by_contra hc
    push Not at hc
    rw [weightedQuantile, if_neg] at h
    · revert h; simp only; split <;> simp
    · simp only [not_not]; exact ⟨fun q hq => (hc q hq).1, fun q hq => (hc q hq).2⟩
  · rintro ⟨q, hq, h⟩
    rw [weightedQuantile, if_pos]
    rintro ⟨h0, h1⟩
    rcases h with h | h
    · linarith [h0 q hq]
    · linarith [h1 q hq]

theorem mapM_interp {g : List (ℝ × ℝ)} (hg : g ≠ []) (qs : List ℝ) :
    ∃ r, qs.mapM (fun q => interp q g) = some r ∧
      List.Forall₂ (fun q y => interp q g = some y) qs r := by
  induction qs with
  | nil => exact ⟨[], by simp⟩
  | cons q qs ih =>
    obtain ⟨r, hr, hf⟩ := ih
    have : (interp q g).isSome := by cases g <;> simp_all [interp]
    obtain ⟨y, hy⟩ := Option.isSome_iff_exists.mp this
    exact ⟨y :: r, by simp [List.mapM_cons, hy, hr], List.Forall₂.cons hy hf⟩

/-- The grid used by `weighted_quantile`. -/
noncomputable def theGrid (sorter : List (ℝ × ℝ) → List (ℝ × ℝ)) (data : List (ℝ × ℝ))
    (vs o : Bool) : List (ℝ × ℝ) :=
  let d := if vs then data else sorter data
  scaleGrid o (d.map Prod.snd).sum (cumGrid 0 d)

theorem theGrid_good (hs : IsArgsort sorter) (hd : GoodData data vs) (hne : data ≠ []) :
    GoodGrid (theGrid sorter data vs o) := by
  obtain ⟨hp, hsort⟩ := hs data
  have key : ∀ d : List (ℝ × ℝ), d.Perm data → (d.Pairwise fun p q => p.1 ≤ q.1) →
      GoodGrid (scaleGrid o (d.map Prod.snd).sum (cumGrid 0 d)) := by
    intro d hdp hds
    have hw : ∀ p ∈ d, 0 < p.2 := fun p hp' => hd.weight_pos p (hdp.mem_iff.mp hp')
    apply scaleGrid_good (cumGrid_good 0 d hw hds)
    apply List.sum_pos
    · intro x hx
      obtain ⟨p, hp', rfl⟩ := List.mem_map.mp hx
      exact hw p hp'
    · intro h0
      rw [List.map_eq_nil_iff] at h0
      subst h0
      exact hne (List.nil_perm.mp hdp)
  unfold theGrid
  cases vs with
  | true => exact key data (List.Perm.refl _) (hd.sorted rfl)
  | false => exact key _ hp hsort

theorem theGrid_snd (hs : IsArgsort sorter) :
    ((theGrid sorter data vs o).map Prod.snd).Perm (data.map Prod.fst) := by
  unfold theGrid
  rw [scaleGrid_snd, cumGrid_snd]
  cases vs with
  | true => exact List.Perm.refl _
  | false => exact (hs data).1.map _

theorem theGrid_ne (hs : IsArgsort sorter) (hne : data ≠ []) :
    theGrid sorter data vs o ≠ [] := by
  intro h
  have := theGrid_snd (data := data) (vs := vs) (o := o) hs
  rw [h] at this
  have := List.nil_perm.mp this
  simp at this
  exact hne this

theorem weightedQuantile_ok (hs : IsArgsort sorter) (hne : data ≠ [])
    (hq : ∀ q ∈ qs, 0 ≤ q ∧ q ≤ 1) :
    ∃ r, weightedQuantile sorter data qs vs o = .ok r ∧
      List.Forall₂ (fun q y => interp q (theGrid sorter data vs o) = some y) qs r := by
  obtain ⟨r, hr, hf⟩ := mapM_interp (theGrid_ne (vs := vs) (o := o) hs hne) qs
  refine ⟨r, ?_, hf⟩
  rw [weightedQuantile, if_neg (by simp only [not_not]; exact ⟨fun q h => (hq q h).1, fun q h => (hq q h).2⟩)]
  unfold theGrid at hr
  simp only at hr ⊢
  rw [hr]

/-- On non-empty data with valid quantiles the function returns one value per quantile. -/
theorem C03_total (hs : IsArgsort sorter) (hne : data ≠ []) (hq : ∀ q ∈ qs, 0 ≤ q ∧ q ≤ 1) :
    ∃ r, weightedQuantile sorter data qs vs o = .ok r ∧ r.length = qs.length := by
  obtain ⟨r, hr, hf⟩ := weightedQuantile_ok (vs := vs) (o := o) hs hne hq
  exact ⟨r, hr, hf.length_eq.symm⟩

/-- Every returned quantile lies between two data values. -/
theorem C03_between (hs : IsArgsort sorter) (hd : GoodData data vs) (hne : data ≠ [])
    {r : List ℝ} (h : weightedQuantile sorter data qs vs o = .ok r) :
    ∀ y ∈ r, (∃ p ∈ data, p.1 ≤ y) ∧ ∃ p ∈ data, y ≤ p.1 := by
  have hq : ∀ q ∈ qs, 0 ≤ q ∧ q ≤ 1 := by
    by_contra hc
    push Not at hc
    obtain ⟨q, hq, hq'⟩ := hc
    have : weightedQuantile sorter data qs vs o = .valueErrorRange := by
      rw [C03_error_iff]
      refine ⟨q, hq, ?_⟩
      by_cases h0 : q < 0
      · exact Or.inl h0
      · exact Or.inr (hq' (not_lt.mp h0))
    rw [this] at h; cases h
  obtain ⟨r', hr', hf⟩ := weightedQuantile_ok (vs := vs) (o := o) hs hne hq
  rw [hr'] at h; cases h
  intro y hy
  obtain ⟨i, hi, rfl⟩ := List.getElem_of_mem hy
  have hfi := (List.forall₂_iff_get.mp hf).2 i (by rw [hf.length_eq]; exact hi) hi
  obtain ⟨⟨a, ha, hal⟩, ⟨b, hb, hbl⟩⟩ := interp_mem_range (theGrid_good (o := o) hs hd hne) hfi
  have hsub : ∀ a ∈ theGrid sorter data vs o, ∃ p ∈ data, p.1 = a.2 := by
    intro a ha
    have : a.2 ∈ data.map Prod.fst := (theGrid_snd hs).mem_iff.mp (List.mem_map_of_mem ha)
    exact List.mem_map.mp this
  obtain ⟨p, hp, hpe⟩ := hsub a ha
  obtain ⟨q, hq', hqe⟩ := hsub b hb
  exact ⟨⟨p, hp, by rw [hpe]; exact hal⟩, ⟨q, hq', by rw [hqe]; exact hbl⟩⟩

/-- A larger requested quantile never gives a smaller value. -/
theorem C03_monotone (hs : IsArgsort sorter) (hd : GoodData data vs) (hne : data ≠ [])
    {r : List ℝ} (h : weightedQuantile sorter data qs vs o = .ok r)
    {i j : ℕ} {q q' y y' : ℝ} (hqi : qs[i]? = some q) (hqj : qs[j]? = some q')
    (hyi : r[i]? = some y) (hyj : r[j]? = some y') (hle : q ≤ q') : y ≤ y' := by
  have hq : ∀ q ∈ qs, 0 ≤ q ∧ q ≤ 1 := by
    by_contra hc
    push Not at hc
    obtain ⟨q, hq, hq'⟩ := hc
    have : weightedQuantile sorter data qs vs o = .valueErrorRange := by
      rw [C03_error_iff]
      refine ⟨q, hq, ?_⟩
      by_cases h0 : q < 0
      · exact Or.inl h0
      · exact Or.inr (hq' (not_lt.mp h0))
    rw [this] at h; cases h
  obtain ⟨r', hr', hf⟩ := weightedQuantile_ok (vs := vs) (o := o) hs hne hq
  rw [hr'] at h; cases h
  have get : ∀ {i : ℕ} {q y : ℝ}, qs[i]? = some q → r[i]? = some y →
      interp q (theGrid sorter data vs o) = some y := by
    intro i q y h1 h2
    obtain ⟨hi1, e1⟩ := List.getElem?_eq_some_iff.mp h1
    obtain ⟨hi2, e2⟩ := List.getElem?_eq_some_iff.mp h2
    have := (List.forall₂_iff_get.mp hf).2 i hi1 hi2
    simp only [List.get_eq_getElem] at this
    rwa [e1, e2] at this
  exact interp_mono (theGrid_good (o := o) hs hd hne) hle (get hqi hyi) (get hqj hyj)

theorem interpFrom_past (x : ℝ) (p : ℝ × ℝ) (rest : List (ℝ × ℝ)) (h : ∀ q ∈ rest, q.1 ≤ x) :
    ∃ q ∈ p :: rest, interpFrom x p rest = q.2 ∧ ∀ q' ∈ rest, GoodGrid (p :: rest) → q'.2 ≤ q.2 := by
  induction rest generalizing p with
  | nil => exact ⟨p, by simp, rfl, by simp⟩
  | cons a rest ih =>
    obtain ⟨q, hq, he, hall⟩ := ih a fun q hq => h q (List.mem_cons_of_mem _ hq)
    refine ⟨q, List.mem_cons_of_mem _ hq, ?_, ?_⟩
    · rw [interpFrom, if_neg (not_lt.mpr (h a (by simp))), he]
    · intro q' hq' hg
      have hg' := (List.pairwise_cons.mp hg).2
      rcases List.mem_cons.mp hq' with rfl | hq'
      · rcases List.mem_cons.mp hq with rfl | hq
        · exact le_refl _
        · exact ((List.pairwise_cons.mp hg').1 q hq).2
      · exact hall q' hq' hg'

theorem interp_first {g : List (ℝ × ℝ)} (hg : GoodGrid g) (h0 : ∀ q ∈ g, 0 ≤ q.1) {y : ℝ}
    (h : interp 0 g = some y) : ∀ q ∈ g, y ≤ q.2 := by
  cases g with
  | nil => intro q hq; cases hq
  | cons p rest =>
    have hy : y = p.2 := by
      simp only [interp, Option.some.injEq] at h
      rw [← h]
      split
      · rfl
      · rename_i hp
        have hp0 : p.1 = 0 := le_antisymm (not_lt.mp hp) (h0 p (by simp))
        cases rest with
        | nil => rfl
        | cons a rest =>
          have := ((List.pairwise_cons.mp hg).1 a (by simp)).1
          rw [interpFrom, if_pos (by rw [← hp0]; exact this), if_pos hp0]
    intro q hq
    rw [hy]
    rcases List.mem_cons.mp hq with rfl | hq
    · exact le_refl _
    · exact ((List.pairwise_cons.mp hg).1 q hq).2

theorem interp_last {g : List (ℝ × ℝ)} (hg : GoodGrid g) (h1 : ∀ q ∈ g, q.1 ≤ 1) {y : ℝ}
    (h : interp 1 g = some y) : ∀ q ∈ g, q.2 ≤ y := by
  cases g with
  | nil => intro q hq; cases hq
  | cons p rest =>
    simp only [interp, if_neg (not_lt.mpr (h1 p (by simp))), Option.some.injEq] at h
    obtain ⟨r, hr, he, hall⟩ := interpFrom_past 1 p rest fun q hq => h1 q (List.mem_cons_of_mem _ hq)
    rw [← h, he]
    intro q hq
    rcases List.mem_cons.mp hq with rfl | hq
    · rcases List.mem_cons.mp hr with rfl | hr
      · exact le_refl _
      · exact ((List.pairwise_cons.mp hg).1 r hr).2
    · exact hall q hq hg

theorem cumGrid_bounds (c : ℝ) (d : List (ℝ × ℝ)) (hd : ∀ p ∈ d, 0 < p.2) :
    ∀ q ∈ cumGrid c d, c ≤ q.1 ∧ q.1 ≤ c + (d.map Prod.snd).sum := by
  induction d generalizing c with
  | nil => intro q hq; cases hq
  | cons p d ih =>
    obtain ⟨v, w⟩ := p
    have hw : 0 < w := hd (v, w) (by simp)
    have hs : 0 ≤ (d.map Prod.snd).sum := List.sum_nonneg fun x hx => by
      obtain ⟨p, hp, rfl⟩ := List.mem_map.mp hx
      exact (hd p (List.mem_cons_of_mem _ hp)).le
    intro q hq
    simp only [cumGrid, List.mem_cons] at hq
    simp only [List.map_cons, List.sum_cons]
    rcases hq with rfl | hq
    · constructor <;> norm_num <;> linarith
    · have := ih (c + w) (fun p hp => hd p (List.mem_cons_of_mem _ hp)) q hq
      constructor <;> linarith

theorem scaleGrid_unit (o : Bool) (d : List (ℝ × ℝ)) (hd : ∀ p ∈ d, 0 < p.2)
    (hg : GoodGrid (cumGrid 0 d)) :
    ∀ q ∈ scaleGrid o (d.map Prod.snd).sum (cumGrid 0 d), 0 ≤ q.1 ∧ q.1 ≤ 1 := by
  have hs : 0 ≤ (d.map Prod.snd).sum := List.sum_nonneg fun x hx => by
    obtain ⟨p, hp, rfl⟩ := List.mem_map.mp hx
    exact (hd p hp).le
  have hb := cumGrid_bounds 0 d hd
  intro q hq
  cases o with
  | false =>
    simp only [scaleGrid, Bool.false_eq_true, if_false, List.mem_map] at hq
    obtain ⟨p, hp, rfl⟩ := hq
    have := hb p hp
    rw [zero_add] at this
    exact ⟨div_nonneg this.1 hs, div_le_one_of_le₀ this.2 hs⟩
  | true =>
    simp only [scaleGrid, if_true, List.mem_map] at hq
    obtain ⟨p', ⟨p, hp, rfl⟩, rfl⟩ := hq
    generalize cumGrid 0 d = g at *
    cases g with
    | nil => cases hp
    | cons a g =>
      have hfirst : ∀ p ∈ a :: g, 0 ≤ p.1 - a.1 := by
        intro p hp
        rcases List.mem_cons.mp hp with rfl | hp
        · simp
        · have := ((List.pairwise_cons.mp hg).1 p hp).1
          linarith
      have hlast : ∀ p ∈ a :: g, p.1 ≤ ((a :: g).getLast (by simp)).1 := by
        intro p hp
        rcases List.mem_iff_getElem.mp hp with ⟨i, hi, rfl⟩
        rw [List.getLast_eq_getElem]
        rcases Nat.lt_or_ge i ((a :: g).length - 1) with h | h
        · exact ((List.pairwise_iff_getElem.mp hg) i ((a :: g).length - 1) hi (by simp) h).1.le
        · have : i = (a :: g).length - 1 := by omega
          subst this
          exact le_refl _
      have hx : (((a :: g).map fun p => (p.1 - a.1, p.2)).getLast?.map Prod.fst).getD 0
          = ((a :: g).getLast (by simp)).1 - a.1 := by
        rw [List.getLast?_map, List.getLast?_eq_some_getLast (by simp)]
        simp
      simp only [List.head?_cons, Option.map_some, Option.getD_some]
      rw [hx]
      have hl0 := hfirst _ (List.getLast_mem (l := a :: g) (by simp))
      exact ⟨div_nonneg (hfirst p hp) hl0,
        div_le_one_of_le₀ (by have := hlast p hp; linarith) hl0⟩

/-- Quantile 0 is the smallest value and quantile 1 the largest one. -/
theorem C03_extremes (hs : IsArgsort sorter) (hd : GoodData data vs) (hne : data ≠ [])
    {r : List ℝ} (h : weightedQuantile sorter data qs vs o = .ok r) {i : ℕ} {y : ℝ} (hyi : r[i]? = some y) :
    (qs[i]? = some 0 → IsLeast {v | ∃ p ∈ data, p.1 = v} y) ∧
    (qs[i]? = some 1 → IsGreatest {v | ∃ p ∈ data, p.1 = v} y) := by
  have hq : ∀ q ∈ qs, 0 ≤ q ∧ q ≤ 1 := by
    by_contra hc
    push Not at hc
    obtain ⟨q, hq, hq'⟩ := hc
    have : weightedQuantile sorter data qs vs o = .valueErrorRange := by
      rw [C03_error_iff]
      refine ⟨q, hq, ?_⟩
      by_cases h0 : q < 0
      · exact Or.inl h0
      · exact Or.inr (hq' (not_lt.mp h0))
    rw [this] at h; cases h
  have hbt := C03_between hs hd hne h y (List.mem_of_getElem? hyi)
  obtain ⟨r', hr', hf⟩ := weightedQuantile_ok (vs := vs) (o := o) hs hne hq
  rw [hr'] at h; cases h
  have get : ∀ {q : ℝ}, qs[i]? = some q → interp q (theGrid sorter data vs o) = some y := by
    intro q h1
    obtain ⟨hi1, e1⟩ := List.getElem?_eq_some_iff.mp h1
    obtain ⟨hi2, e2⟩ := List.getElem?_eq_some_iff.mp hyi
    have := (List.forall₂_iff_get.mp hf).2 i hi1 hi2
    simp only [List.get_eq_getElem] at this
    rwa [e1, e2] at this
  have hg := theGrid_good (o := o) hs hd hne
  have hun : ∀ q ∈ theGrid sorter data vs o, 0 ≤ q.1 ∧ q.1 ≤ 1 := by
    obtain ⟨hp, hsort⟩ := hs data
    unfold theGrid
    have key : ∀ d : List (ℝ × ℝ), d.Perm data → (d.Pairwise fun p q => p.1 ≤ q.1) →
        ∀ q ∈ scaleGrid o (d.map Prod.snd).sum (cumGrid 0 d), 0 ≤ q.1 ∧ q.1 ≤ 1 := by
      intro d hdp hds
      have hw : ∀ p ∈ d, 0 < p.2 := fun p hp' => hd.weight_pos p (hdp.mem_iff.mp hp')
      exact scaleGrid_unit o d hw (cumGrid_good 0 d hw hds)
    cases vs with
    | true => exact key data (List.Perm.refl _) (hd.sorted rfl)
    | false => exact key _ hp hsort
  have hmem : ∀ p ∈ data, ∃ a ∈ theGrid sorter data vs o, a.2 = p.1 := by
    intro p hp
    have : p.1 ∈ (theGrid sorter data vs o).map Prod.snd :=
      (theGrid_snd hs).mem_iff.mpr (List.mem_map_of_mem hp)
    exact List.mem_map.mp this
  constructor
  · intro h0
    have hall := interp_first hg (fun q hq => (hun q hq).1) (get h0)
    have hlow : ∀ p ∈ data, y ≤ p.1 := fun p hp => by
      obtain ⟨a, ha, e⟩ := hmem p hp
      rw [← e]; exact hall a ha
    obtain ⟨p, hp, hpy⟩ := hbt.1
    exact ⟨⟨p, hp, le_antisymm hpy (hlow p hp)⟩, by rintro v ⟨p, hp, rfl⟩; exact hlow p hp⟩
  · intro h1
    have hall := interp_last hg (fun q hq => (hun q hq).2) (get h1)
    have hup : ∀ p ∈ data, p.1 ≤ y := fun p hp => by
      obtain ⟨a, ha, e⟩ := hmem p hp
      rw [← e]; exact hall a ha
    obtain ⟨p, hp, hpy⟩ := hbt.2
    exact ⟨⟨p, hp, le_antisymm (hup p hp) hpy⟩, by rintro v ⟨p, hp, rfl⟩; exact hup p hp⟩

/-- Order-independence, proved when observations with equal values carry equal weights (so always
when `sample_weight=None`): any two orders of the data, sorted by any two argsorts, give the same
quantiles.  Missing from the full claim: ties with different weights, where it is false, see
`C03_order_dependence_on_ties`. -/
theorem C03_order_independent_partial {sorter' : List (ℝ × ℝ) → List (ℝ × ℝ)}
    (hs : IsArgsort sorter) (hs' : IsArgsort sorter') {data' : List (ℝ × ℝ)}
    (hp : data'.Perm data) (htie : ∀ p ∈ data, ∀ q ∈ data, p.1 = q.1 → p.2 = q.2) :
    weightedQuantile sorter' data' qs false o = weightedQuantile sorter data qs false o := by
  have : sorter' data' = sorter data := by
    apply List.Perm.eq_of_pairwise (le := fun p q : ℝ × ℝ => p.1 ≤ q.1) _ (hs' data').2 (hs data).2
      ((hs' data').1.trans (hp.trans (hs data).1.symm))
    intro a b ha hb h1 h2
    have ha' := hp.mem_iff.mp ((hs' data').1.mem_iff.mp ha)
    have hb' := (hs data).1.mem_iff.mp hb
    have he : a.1 = b.1 := le_antisymm h1 h2
    exact Prod.ext he (htie a ha' b hb' he)
  simp only [weightedQuantile, this, Bool.false_eq_true, if_false]

/-- The full order-independence claim is false of the code: two orders of the same three
observations (values 0, 1, 1 with weights 1, 1, 3) give different 20% quantiles. -/
theorem C03_order_dependence_on_ties :
    ∃ data data' : List (ℝ × ℝ), data'.Perm data ∧ (∀ p ∈ data, 0 < p.2) ∧
      weightedQuantile stableSorter data [0.2] false false = .ok [0.5] ∧
      weightedQuantile stableSorter data' [0.2] false false = .ok [0.25] := by
  refine ⟨[(0, 1), (1, 1), (1, 3)], [(0, 1), (1, 3), (1, 1)], ?_, ?_, ?_, ?_⟩
  · exact List.Perm.cons _ (List.Perm.swap _ _ _)
  · intro p hp; simp at hp; rcases hp with rfl | rfl | rfl <;> norm_num
  · have h : stableSorter [(0, 1), (1, 1), (1, 3)] = [(0, 1), (1, 1), (1, 3)] :=
      List.mergeSort_of_pairwise (by simp)
    norm_num [weightedQuantile, h, scaleGrid, cumGrid, interp, interpFrom]
  · have h : stableSorter [(0, 1), (1, 3), (1, 1)] = [(0, 1), (1, 3), (1, 1)] :=
      List.mergeSort_of_pairwise (by simp)
    norm_num [weightedQuantile, h, scaleGrid, cumGrid, interp, interpFrom]

/-- Non-vacuity: data meeting every hypothesis above. -/
example : GoodData [(0, 1), (1, 3)] true ∧ ([(0, 1), (1, 3)] : List (ℝ × ℝ)) ≠ [] ∧
    IsArgsort stableSorter ∧
    weightedQuantile stableSorter [(0, 1), (1, 3)] [0, 0.375, 1] true false = .ok [0, 0.5, 1] := by
  refine ⟨⟨?_, by simp⟩, by simp, stableSorter_isArgsort, ?_⟩
  · intro p hp; simp at hp; rcases hp with rfl | rfl <;> norm_num
  · norm_num [weightedQuantile, scaleGrid, cumGrid, interp, interpFrom]

theorem interpFrom_at (x : ℝ) (c : ℝ × ℝ) (pre : List (ℝ × ℝ)) (p : ℝ × ℝ) (rest : List (ℝ × ℝ))
    (h : GoodGrid (c :: (pre ++ p :: rest))) (hx : p.1 ≤ x) :
    interpFrom x c (pre ++ p :: rest) = interpFrom x p rest := by
  induction pre generalizing c with
  | nil =>
    simp only [List.nil_append, interpFrom]
    rw [if_neg (not_lt.mpr hx)]
  | cons b pre ih =>
    have h2 := (List.pairwise_cons.mp h).2
    have hb := (List.pairwise_cons.mp h2).1 p (by simp)
    simp only [List.cons_append, interpFrom]
    rw [if_neg (by linarith)]
    exact ih b h2

theorem interp_at (x : ℝ) (pre : List (ℝ × ℝ)) (p : ℝ × ℝ) (rest : List (ℝ × ℝ))
    (h : GoodGrid (pre ++ p :: rest)) (hx : p.1 ≤ x) :
    interp x (pre ++ p :: rest) = some (interpFrom x p rest) := by
  cases pre with
  | nil => simp only [List.nil_append, interp]; rw [if_neg (not_lt.mpr hx)]
  | cons c pre =>
    have hc := (List.pairwise_cons.mp h).1 p (by simp)
    simp only [List.cons_append, interp]
    rw [if_neg (by linarith), interpFrom_at x c pre p rest h hx]

theorem cumGrid_append (c : ℝ) (a b : List (ℝ × ℝ)) :
    cumGrid c (a ++ b) = cumGrid c a ++ cumGrid (c + (a.map Prod.snd).sum) b := by
  induction a generalizing c with
  | nil => simp [cumGrid]
  | cons p a ih => obtain ⟨v, w⟩ := p; simp [cumGrid, ih, add_assoc]

/-- What the quantile is: on sorted data with positive weights the value at the midpoint of an
observation's weight interval is that observation's value, and between neighbouring midpoints the
quantile moves linearly. -/
theorem C03_interpolates (pre post : List (ℝ × ℝ)) (v1 w1 v2 w2 t : ℝ) (ht0 : 0 ≤ t) (ht1 : t < 1)
    (hd : GoodData (pre ++ (v1, w1) :: (v2, w2) :: post) true) :
    let W := ((pre ++ (v1, w1) :: (v2, w2) :: post).map Prod.snd).sum
    let before := (pre.map Prod.snd).sum
    let mid1 := (before + w1 / 2) / W
    let mid2 := (before + w1 + w2 / 2) / W
    weightedQuantile sorter (pre ++ (v1, w1) :: (v2, w2) :: post) [mid1 + t * (mid2 - mid1)] true false
      = .ok [v1 + t * (v2 - v1)] := by
  intro W before mid1 mid2
  set data := pre ++ (v1, w1) :: (v2, w2) :: post with hdata
  have hw1 : 0 < w1 := hd.weight_pos (v1, w1) (by simp [hdata])
  have hw2 : 0 < w2 := hd.weight_pos (v2, w2) (by simp [hdata])
  have hbef : 0 ≤ before := List.sum_nonneg (by
    intro x hx; obtain ⟨p, hp, rfl⟩ := List.mem_map.mp hx
    exact (hd.weight_pos p (by simp [hdata, hp])).le)
  have hpost : 0 ≤ (post.map Prod.snd).sum := List.sum_nonneg (by
    intro x hx; obtain ⟨p, hp, rfl⟩ := List.mem_map.mp hx
    exact (hd.weight_pos p (by simp [hdata, hp])).le)
  have hWeq : W = before + (w1 + (w2 + (post.map Prod.snd).sum)) := by
    simp only [W, hdata, List.map_append, List.sum_append, List.map_cons, List.sum_cons, before]
  have hWpos : 0 < W := by rw [hWeq]; positivity
  have hmid : mid1 < mid2 := by
    apply div_lt_div_of_pos_right _ hWpos; linarith
  have hm1 : 0 ≤ mid1 := by positivity
  have hm2 : mid2 ≤ 1 := by rw [div_le_one hWpos, hWeq]; linarith
  set x := mid1 + t * (mid2 - mid1) with hx
  have hx1 : mid1 ≤ x := by nlinarith
  have hx2 : x < mid2 := by nlinarith
  have hgood := scaleGrid_good (cumGrid_good 0 data hd.weight_pos (hd.sorted rfl)) false W hWpos
  have hgrid : ∃ g1 g2, scaleGrid false W (cumGrid 0 data) = g1 ++ (mid1, v1) :: (mid2, v2) :: g2 := by
    refine ⟨(cumGrid 0 pre).map fun p => (p.1 / W, p.2),
      (cumGrid (before + w1 + w2) post).map fun p => (p.1 / W, p.2), ?_⟩
    simp only [scaleGrid, hdata, cumGrid_append, cumGrid, List.map_append, List.map_cons, zero_add,
      Bool.false_eq_true, if_false]
    simp only [mid1, mid2]
    congr 3
    · congr 1; ring
    · congr 2; ring
  obtain ⟨g1, g2, hg⟩ := hgrid
  rw [hg] at hgood
  have hval : interp x (scaleGrid false W (cumGrid 0 data)) = some (v1 + t * (v2 - v1)) := by
    rw [hg, interp_at x g1 (mid1, v1) _ hgood hx1]
    congr 1
    simp only [interpFrom]
    rw [if_pos hx2]
    have hne : mid2 - mid1 ≠ 0 := by linarith
    split
    · next h =>
      have : t = 0 := by
        have : t * (mid2 - mid1) = 0 := by linarith
        exact (mul_eq_zero.mp this).resolve_right hne
      rw [this]; ring
    · rw [hx]; field_simp; ring
  rw [weightedQuantile, if_neg (by
    simp only [not_not]
    constructor <;> intro q hq <;> simp at hq <;> rw [hq] <;> linarith)]
  simp only [if_true, List.mapM_cons, List.mapM_nil]
  rw [show (List.map Prod.snd data).sum = W from rfl, hval]
  rfl

/-- Four observations, the quantile halfway between the second and third midpoints. -/
example : GoodData ([(1, 1)] ++ (2, 3) :: (5, 1) :: [(7, 2)]) true ∧
    weightedQuantile stableSorter ([(1, 1)] ++ (2, 3) :: (5, 1) :: [(7, 2)])
      [(2.5 / 7) + 0.5 * (4.5 / 7 - 2.5 / 7)] true false = .ok [3.5] := by
  have hd : GoodData ([(1, 1)] ++ (2, 3) :: (5, 1) :: [(7, 2)]) true :=
    ⟨by intro p hp; fin_cases hp <;> norm_num, by intro; norm_num⟩
  refine ⟨hd, ?_⟩
  have := C03_interpolates (sorter := stableSorter) [(1, 1)] [(7, 2)] 2 3 5 1 0.5 (by norm_num) (by norm_num) hd
  norm_num at this ⊢
  exact this

end C03

/-! ## C04 -/

section C04
variable {ι : Type*} [Fintype ι] [Nonempty ι]

/-- `logsumexp` is exact. -/
theorem C04_exact (a : ι → ℝ) : logsumexp a = Real.log (∑ i, Real.exp (a i)) := by
  have hpos : 0 < ∑ i, Real.exp (shifted a i) :=
    Finset.sum_pos (fun i _ => Real.exp_pos _) Finset.univ_nonempty
  set m := Finset.univ.sup' Finset.univ_nonempty a with hm
  have : ∑ i, Real.exp (a i) = Real.exp m * ∑ i, Real.exp (shifted a i) := by
    rw [Finset.mul_sum]
    apply Finset.sum_congr rfl
    intro i _
    rw [← Real.exp_add]; congr 1; simp [shifted, ← hm]
  rw [this, Real.log_mul (Real.exp_ne_zero _) hpos.ne', Real.log_exp]
  simp [logsumexp, shiftedSum, ← hm, add_comm]

/-- No exponential is evaluated at a positive argument, and the largest argument is exactly 0. -/
theorem C04_arguments (a : ι → ℝ) : (∀ i, shifted a i ≤ 0) ∧ ∃ i, shifted a i = 0 := by
  constructor
  · intro i
    have := Finset.le_sup' a (Finset.mem_univ i)
    simp only [shifted]; linarith
  · obtain ⟨i, _, hi⟩ := Finset.exists_mem_eq_sup' Finset.univ_nonempty a
    exact ⟨i, by simp only [shifted]; linarith⟩

/-- The sum whose log is taken lies in [1, n]: neither overflow nor log of (almost) zero. -/
theorem C04_sum_range (a : ι → ℝ) : 1 ≤ shiftedSum a ∧ shiftedSum a ≤ Fintype.card ι := by
  obtain ⟨hle, i, hi⟩ := C04_arguments a
  constructor
  · have := Finset.single_le_sum (f := fun i => Real.exp (shifted a i))
      (fun i _ => (Real.exp_pos _).le) (Finset.mem_univ i)
    simp only [hi, Real.exp_zero] at this
    exact this
  · calc shiftedSum a ≤ ∑ _i : ι, (1 : ℝ) := by
          apply Finset.sum_le_sum
          intro i _
          exact Real.exp_le_one_iff.mpr (hle i)
      _ = Fintype.card ι := by simp

/-- The result lies between the maximum and the maximum plus `log n`. -/
theorem C04_bounds (a : ι → ℝ) :
    (∀ i, a i ≤ logsumexp a) ∧ ∃ i, logsumexp a ≤ a i + Real.log (Fintype.card ι) := by
  obtain ⟨h1, h2⟩ := C04_sum_range a
  have hm : ∀ i, a i ≤ Finset.univ.sup' Finset.univ_nonempty a :=
    fun i => Finset.le_sup' a (Finset.mem_univ i)
  constructor
  · intro i
    have := Real.log_nonneg h1
    simp only [logsumexp]; linarith [hm i]
  · obtain ⟨i, _, hi⟩ := Finset.exists_mem_eq_sup' Finset.univ_nonempty a
    refine ⟨i, ?_⟩
    have := Real.log_le_log (by linarith) h2
    simp only [logsumexp]; linarith

/-- Non-vacuity / extreme magnitudes: arguments far outside the range of `exp` on floats. -/
example : logsumexp (![1e6, 1e6] : Fin 2 → ℝ) = 1e6 + Real.log 2 := by
  rw [C04_exact]
  rw [show ∑ i, Real.exp ((![1e6, 1e6] : Fin 2 → ℝ) i) = Real.exp 1e6 * 2 by
    simp [Fin.sum_univ_two]; ring]
  rw [Real.log_mul (Real.exp_ne_zero _) two_ne_zero, Real.log_exp]

end C04

/-! ## C05 -/

section C05

/-- For conformable matrices (the documented use) the result is the diagonal of the product. -/
theorem C05_diag_of_prod {n m : ℕ} (m1 : Matrix (Fin n) (Fin m) ℝ) (m2 : Matrix (Fin m) (Fin n) ℝ)
    (i : Fin n) : diagOfProd m m m1 m2 i = (m1 * m2) i i := by
  rw [diagOfProd, dif_neg (lt_irrefl m)]
  simp [Matrix.mul_apply]

/-- For any inner shapes, including those that take the transposed branch: the inner index runs
over the common range. -/
theorem C05_diag_of_prod_any_shape {n a b : ℕ} (m1 : Matrix (Fin n) (Fin a) ℝ)
    (m2 : Matrix (Fin b) (Fin n) ℝ) (i : Fin n) :
    diagOfProd a b m1 m2 i =
      ∑ j : Fin (min a b), m1 i ⟨j, by omega⟩ * m2 ⟨j, by omega⟩ i := by
  rw [diagOfProd]
  split
  · rename_i h
    rw [diagOfProd, dif_neg (by omega)]
    refine Fintype.sum_equiv (finCongr (by omega)) _ _ ?_
    intro j
    simp [mul_comm]
  · rename_i h
    refine Fintype.sum_equiv (finCongr (by omega)) _ _ ?_
    intro j
    simp

theorem sum_filter_map_mul {n : ℕ} (l : List (Fin n × ℝ)) (f : Fin n → ℝ) (i : Fin n) :
    (((l.map fun e => (e.1, f e.1 * e.2)).filter fun e => e.1 = i).map Prod.snd).sum =
      f i * ((l.filter fun e => e.1 = i).map Prod.snd).sum := by
  induction l with
  | nil => simp
  | cons e l ih =>
    by_cases h : e.1 = i
    · simp [h, mul_add]
      rw [← ih]
    · simp [h]
      rw [← ih]

/-- `DxSP(diag, sp)` is `diag @ sp`. -/
theorem C05_DxSP {n m : ℕ} (d : DiagArg n) (sp : CSC n m) :
    (DxSP d sp).toDense = d.toMatrix * sp.toDense := by
  cases d with
  | scalar c =>
    simp only [DxSP, DiagArg.toMatrix]
    split
    · rename_i h; simp [h]
    · ext i j
      rw [Matrix.smul_mul, Matrix.one_mul]
      simpa [CSC.toDense] using sum_filter_map_mul (sp.cols j) (fun _ => c) i
  | vec d =>
    ext i j
    simp only [DxSP, DiagArg.toMatrix, Matrix.diagonal_mul]
    simpa [CSC.toDense] using sum_filter_map_mul (sp.cols j) d i

/-- `SPxD(sp, diag)` is `sp @ diag`. -/
theorem C05_SPxD {n m : ℕ} (sp : CSC n m) (d : DiagArg m) :
    (SPxD sp d).toDense = sp.toDense * d.toMatrix := by
  cases d with
  | scalar c =>
    simp only [SPxD, DiagArg.toMatrix]
    split
    · rename_i h; simp [h]
    · ext i j
      rw [Matrix.mul_smul, Matrix.mul_one]
      simpa [CSC.toDense] using sum_filter_map_mul (sp.cols j) (fun _ => c) i
  | vec d =>
    ext i j
    simp only [SPxD, DiagArg.toMatrix, Matrix.mul_diagonal]
    have := sum_filter_map_mul (sp.cols j) (fun _ => d j) i
    simp only [CSC.toDense]
    rw [mul_comm, ← this]
    simp [mul_comm]

/-- `DxM(diag, m)` is `diag @ m` and `MxD(m, diag)` is `m @ diag`. -/
theorem C05_DxM_MxD {n m : ℕ} (d : DiagArg n) (e : DiagArg m) (A : Matrix (Fin n) (Fin m) ℝ) :
    DxM d A = d.toMatrix * A ∧ MxD A e = A * e.toMatrix := by
  constructor
  · cases d with
    | scalar c =>
      simp only [DxM, DiagArg.toMatrix]
      split
      · rename_i h; simp [h]
      · simp
    | vec d => ext i j; simp [DxM, DiagArg.toMatrix, Matrix.diagonal_mul]
  · cases e with
    | scalar c =>
      simp only [MxD, DiagArg.toMatrix]
      split
      · rename_i h; simp [h]
      · simp
    | vec d => ext i j; simp [MxD, DiagArg.toMatrix, Matrix.mul_diagonal]

/-- Non-vacuity: a matrix that takes the transposed branch. -/
example : diagOfProd 1 2 (!![2; 3] : Matrix (Fin 2) (Fin 1) ℝ)
    (!![5, 7; 11, 13] : Matrix (Fin 2) (Fin 2) ℝ) = ![10, 21] := by
  ext i
  rw [C05_diag_of_prod_any_shape]
  fin_cases i <;> simp <;> norm_num

end C05

/-! ## C06 -/

section C06
open ProbabilityTheory

/-- The error branch is taken exactly when both or neither of `sd`, `var` is given. -/
theorem C06_error_iff (x mu : ℝ) (sd var : Option ℝ) :
    lognormpdf x mu sd var = .error "ValueError" ↔ (sd.isSome ↔ var.isSome) := by
  cases sd <;> cases var <;> simp [lognormpdf]

theorem lognorm_aux (x mu v : ℝ) (hv : 0 < v) :
    logpi - (1 / 2) * Real.log v - (x - mu) ^ 2 / (2 * v) =
      Real.log (gaussianPDFReal mu v.toNNReal x) := by
  have hpi : (0 : ℝ) < 2 * Real.pi := by positivity
  have hcoe : (v.toNNReal : ℝ) = v := Real.coe_toNNReal v hv.le
  rw [gaussianPDFReal_def]
  simp only [hcoe]
  rw [ Real.log_mul (by positivity) (Real.exp_ne_zero _), Real.log_exp, Real.log_inv,
    Real.log_sqrt (by positivity), Real.log_mul hpi.ne' hv.ne']
  simp only [logpi]; ring

/-- With `var` the value is the log of the Gaussian density with that variance. -/
theorem C06_var (x mu v : ℝ) (hv : 0 < v) :
    lognormpdf x mu none (some v) = .ok (Real.log (gaussianPDFReal mu v.toNNReal x)) := by
  simp only [lognormpdf, lognorm_aux x mu v hv]

/-- With `sd` the value is the log of the Gaussian density with variance `sd ** 2`. -/
theorem C06_sd (x mu s : ℝ) (hs : 0 < s) :
    lognormpdf x mu (some s) none = .ok (Real.log (gaussianPDFReal mu (s ^ 2).toNNReal x)) := by
  rw [← lognorm_aux x mu (s ^ 2) (by positivity)]
  simp only [lognormpdf, Real.log_pow]; congr 2; push_cast; ring

/-- `sd` and `var = sd ** 2` give the same number. -/
theorem C06_sd_eq_var (x mu s : ℝ) (hs : 0 < s) :
    lognormpdf x mu (some s) none = lognormpdf x mu none (some (s ^ 2)) := by
  rw [C06_sd x mu s hs, C06_var x mu (s ^ 2) (by positivity)]

/-- The grouped version returns, per observation, the ungrouped value with that observation's
parameters. -/
theorem C06_fast {ι κ : Type*} (x : ι → ℝ) (mu sd : κ → ℝ) (G : ι → κ) (i : ι) :
    lognormpdf (x i) (mu (G i)) (some (sd (G i))) none = .ok (fastLognormpdf x mu sd G i) := by
  simp [lognormpdf, fastLognormpdf]

/-- Non-vacuity: at the mean of a standard normal the value is `-log(2π)/2`. -/
example : lognormpdf 0 0 (some 1) none = .ok logpi ∧ (0 : ℝ) < 1 := by
  simp [lognormpdf]

end C06

/-! ## Defect of `melt` (not used elsewhere in the package)

`melt` should label every value with its own index pair.  On a 2×3 array it does not. -/

/-- `melt` mislabels: on a 2×3 array the row labelled `(1, 0)` carries the value of `a[0, 1]`. -/
theorem C57_melt_mislabels (a : ℕ → ℕ → ℝ) :
    (melt2 2 3 a)[1]? = some (1, 0, a 0 1) := by
  simp [melt2, List.range_succ]

/-- On a column (or any array with one column) the labels are right. -/
theorem C57_melt_one_column_partial (d0 : ℕ) (a : ℕ → ℕ → ℝ) :
    ∀ row ∈ melt2 d0 1 a, row.2.2 = a row.1 row.2.1 := by
  intro row h
  simp only [melt2, mul_one, List.mem_map, List.mem_range] at h
  obtain ⟨p, hp, rfl⟩ := h
  simp [Nat.mod_eq_of_lt hp, Nat.div_eq_of_lt hp, Nat.mod_one]

end Pytwoway.Util
