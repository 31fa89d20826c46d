import Mathlib.Algebra.BigOperators.Group.Finset.Basic
import Mathlib.Data.Finset.Sort
import Mathlib.Algebra.Order.BigOperators.Group.Finset
import Mathlib.Data.List.Count
import Mathlib.Tactic.IntervalCases
import Mathlib.Order.Interval.Finset.Nat
import Verif.FE.ResultsValues

/-! # `CREEstimator`: counts, the two frames, the stored tables and the results dictionary (cre.py): C106

The estimates themselves are modelled in `Verif.CRE.Model`. -/

namespace Pytwoway.CREPrep

open FEResults (Key get set Val)
open Finset (range)

abbrev Py (α : Type) := Except String α

/-- A row of the cross-section data, cre.py:81-103. -/
structure Row where
  i : ℕ
  j1 : ℕ
  j2 : ℕ
  g1 : ℕ
  g2 : ℕ
  y1 : ℝ
  y2 : ℝ
  m : ℕ
  cs : ℕ

/-- `Series.max()` for ids (pandas).  Used for cre.py:205-224. -/
def maxOf (l : List ℕ) : ℕ := l.foldl max 0

/-- What `__prep_vars` stores.  Used for cre.py:205-224 and cre.py:221-224. -/
structure Counts where
  nf : ℕ
  nw : ℕ
  nc : ℕ
  nm : ℕ
  ns : ℤ

/-- `__prep_vars`, cre.py:205-224.  Data without rows are not modelled (their maxima are `nan`). -/
def counts (a : List Row) : Counts where
  nf := max (maxOf (a.map (·.j1))) (maxOf (a.map (·.j2))) + 1
  nw := maxOf (a.map (·.i)) + 1
  nc := max (maxOf (a.map (·.g1))) (maxOf (a.map (·.g2))) + 1
  nm := ((a.filter fun r => r.m == 1).map (·.i)).toFinset.card
  ns := (maxOf (a.map (·.i)) + 1 : ℕ) - (((a.filter fun r => r.m == 1).map (·.i)).toFinset.card : ℤ)

/-- `jdata`, cre.py:152. -/
def moverRows (a : List Row) : List Row := a.filter fun r => decide (0 < r.m) && r.cs == 1

/-- The rows of `sdata`, cre.py:157. -/
def stayerRows (a : List Row) : List Row := a.filter fun r => r.m == 0 && r.cs == 1

/-- The two frames, cre.py:152-157: `set_index(np.arange(self.ns) + self.mn)` raises `ValueError` if the number of rows
is not `ns`. -/
def frames (a : List Row) : Py (List Row × List Row) :=
  if ((stayerRows a).length : ℤ) = max (counts a).ns 0 then .ok (moverRows a, stayerRows a) else .error "ValueError"

/-! ## Tables -/

/-- `agg('mean')` (pandas).  Used for cre.py:288-292. -/
noncomputable def meanOf (l : List ℝ) : ℝ := l.sum / l.length

/-- The mean of `v` over the rows with a key.  Used for cre.py:288-292 and cre.py:297-301. -/
noncomputable def groupMean {κ : Type} [DecidableEq κ] (rows : List Row) (key : Row → κ) (v : Row → ℝ) (k : κ) : ℝ :=
  meanOf ((rows.filter fun r => decide (key r = k)).map v)

/-- `_pd_to_np`, cre.py:62-73. -/
def pdToNp (l : List ((ℕ × ℕ) × ℝ)) (i j : ℕ) : ℝ :=
  match l.find? fun e => e.1.1 == i && e.1.2 == j with
  | some e => e.2
  | none => 0

/-- The pairs of clusters in the data, each once (the order does not matter for the table).  Used for cre.py:288-292. -/
def pairs (rows : List Row) : List (ℕ × ℕ) := (rows.map fun r => (r.g1, r.g2)).dedup

/-- `pb['EEm']`, cre.py:288-292; `v` is the column `mx` before averaging. -/
noncomputable def eem (wo : Bool) (rows : List Row) (v : Row → ℝ) : ℕ → ℕ → ℝ :=
  pdToNp ((pairs rows).map fun k => (k, if wo then 0 else groupMean rows (fun r => (r.g1, r.g2)) v k))

/-- `pb['Em']`, cre.py:297-301: one entry per cluster that occurs, in increasing order. -/
noncomputable def em (wo : Bool) (rows : List Row) (v : Row → ℝ) : List ℝ :=
  (((rows.map (·.g1)).toFinset).sort (· ≤ ·)).map fun k => if wo then 0 else groupMean rows (·.g1) v k

/-! ## Results -/

/-- The names of the moments, cre.py:312-402. -/
def momentNames : List Key := ["y1s_y1s", "y1s_y1s_count", "y1s_var", "y1s_var_count", "y1m_var", "y1m_var_count",
  "y2m_var", "y2m_var_count", "y1s_y1m1", "y1s_y1m1_count", "y1s_y2m1", "y1s_y2m1_count", "y1m1_y1m1", "y1m1_y1m1_count",
  "y2m1_y1m1", "y2m1_y1m1_count", "y2m1_y2m1", "y2m1_y2m1_count", "y1s_y1m2", "y1s_y1m2_count", "y1s_y2m2",
  "y1s_y2m2_count", "y1m2_y1m2", "y1m2_y1m2_count", "y2m2_y1m2", "y2m2_y1m2_count", "y2m2_y2m2", "y2m2_y2m2_count",
  "dym_dym", "dym_dym_count", "y1m_y2m", "y1m_y2m_count"].map String.toList

/-- The names of the parameters, cre.py:404-432. -/
def withinNames : List Key := ["cov_Am1Am1", "cov_Am1Psi1", "var_psi_m1", "cov_Am2Am2", "cov_Am2Psi2", "var_psi_m2",
  "cov_AsAm1", "cov_AsAm2", "psi_plus_cov1", "psi_plus_cov2", "var_psi", "cov_AsPsi1", "cov_AsAs", "var_eps"].map String.toList

/-- `self.res.update(...)`.  Used for cre.py:135-183. -/
def update (d : FEResults.Dict Val) (names : List Key) (v : Key → ℝ) : FEResults.Dict Val :=
  names.foldl (fun d k => set d k (.num (v k))) d

/-- What is estimated: the moments, the parameters within clusters, the terms between clusters, both variances of
income (`var1` with `ddof=1`), the posterior variance, the time.  Used for cre.py:129-130 and cre.py:472-489. -/
structure Est where
  cores : ℝ
  ndt : ℝ
  moment : Key → ℝ
  within : Key → ℝ
  varBw : ℝ
  covBw : ℝ
  var1 : ℝ
  var0 : ℝ
  posterior : Option ℝ
  time : ℝ

/-- `self.res` after `__init__`, cre.py:129-130. -/
def resInit (x : Est) : FEResults.Dict Val := [("cores".toList, .num x.cores), ("ndt".toList, .num x.ndt)]

/-- `__prep_vars`, cre.py:221-224. -/
noncomputable def resCounts (c : Counts) (d : FEResults.Dict Val) : FEResults.Dict Val :=
  set (set (set (set d "n_firms".toList (.num c.nf)) "n_workers".toList (.num c.nw)) "n_movers".toList (.num c.nm))
    "n_stayers".toList (.num c.ns)

/-- `__collect_res`, cre.py:472-489; `mn` is the number of rows of movers. -/
noncomputable def resCollect (x : Est) (ns mn : ℝ) (d : FEResults.Dict Val) : FEResults.Dict Val :=
  let vw := x.within "var_psi".toList
  let cw := (ns * x.within "cov_AsPsi1".toList + mn * x.within "cov_Am1Psi1".toList) / (ns + mn)
  set (set (set (set (set (set (set (set d "var_y".toList (.num x.var1)) "var_bw".toList (.num x.varBw))
    "cov_bw".toList (.num x.covBw)) "var_wt".toList (.num vw)) "cov_wt".toList (.num cw))
    "tot_var".toList (.num (x.varBw + vw))) "tot_cov".toList (.num (x.covBw + cw))) "var_y".toList (.num x.var0)

/-- `self.summary`, cre.py:493-498. -/
def summaryOf (d : FEResults.Dict Val) : Py (FEResults.Dict Val) := do
  let a ← get d "var_y".toList
  let b ← get d "var_bw".toList
  let c ← get d "cov_bw".toList
  let e ← get d "tot_var".toList
  let f ← get d "tot_cov".toList
  return [("var_y".toList, a), ("var_bw".toList, b), ("cov_bw".toList, c), ("var_tot".toList, e), ("cov_tot".toList, f)]

/-- `self.res` and `self.summary` at the end of `fit`, cre.py:135-183, before saving. -/
noncomputable def resFit (x : Est) (a : List Row) : Py (FEResults.Dict Val × FEResults.Dict Val) := do
  let fr ← frames a
  let d := resCounts (counts a) (resInit x)
  let d := update (update d momentNames x.moment) withinNames x.within
  let d := resCollect x (counts a).ns fr.1.length d
  let s ← summaryOf d
  let d := match x.posterior with
    | some p => set d "var_posterior".toList (.num p)
    | none => d
  return (set d "total_time".toList (.num x.time), s)

/-- `__save_res`, cre.py:571-586: the same text as in `FEEstimator`. -/
def save (repr : ℝ → String) (outputfile : Bool) (res : FEResults.Dict Val) :=
  FEResults.saveRes repr outputfile res

/-! ## C106: frames -/

namespace Spec

/-- The workers with a move. -/
def movers (a : List Row) : Finset ℕ := ((a.filter fun r => decide (0 < r.m)).map (·.i)).toFinset

/-- The number of cross-section rows without a move of a worker. -/
def stayRows (a : List Row) (i : ℕ) : ℕ := a.countP fun r => decide (r.i = i ∧ r.m = 0 ∧ r.cs = 1)

end Spec

theorem foldl_max_ge (l : List ℕ) (b : ℕ) : b ≤ l.foldl max b ∧ ∀ x ∈ l, x ≤ l.foldl max b := by
  induction l generalizing b with
  | nil => simp
  | cons a l ih =>
    simp only [List.foldl_cons, List.mem_cons, forall_eq_or_imp]
    obtain ⟨h1, h2⟩ := ih (max b a)
    exact ⟨le_trans (le_max_left _ _) h1, le_trans (le_max_right _ _) h1, h2⟩

theorem foldl_max_mem (l : List ℕ) (b : ℕ) : l.foldl max b = b ∨ l.foldl max b ∈ l := by
  induction l generalizing b with
  | nil => simp
  | cons a l ih =>
    simp only [List.foldl_cons, List.mem_cons]
    rcases ih (max b a) with h | h
    · rw [h]
      rcases le_total b a with hab | hab
      · right; left; exact max_eq_right hab
      · left; exact max_eq_left hab
    · right; right; exact h

/-- If the ids are `0, …, n-1`, the largest plus one is their number. -/
theorem maxOf_contiguous (l : List ℕ) (n : ℕ) (hn : n ≠ 0) (h : l.toFinset = range n) : maxOf l + 1 = n := by
  have hmem : ∀ x, x ∈ l ↔ x < n := fun x => by rw [← List.mem_toFinset, h, Finset.mem_range]
  have h1 : n - 1 ≤ maxOf l := (foldl_max_ge l 0).2 _ ((hmem _).mpr (by omega))
  have h2 : maxOf l < n := by
    rcases foldl_max_mem l 0 with h0 | h0
    · unfold maxOf; rw [h0]; omega
    · exact (hmem _).mp h0
  omega

theorem stayer_length (a : List Row) (n : ℕ) (h : ∀ r ∈ a, r.i < n) :
    (stayerRows a).length = ∑ i ∈ range n, Spec.stayRows a i := by
  induction a with
  | nil => simp [stayerRows, Spec.stayRows]
  | cons r a ih =>
    have ih := ih fun r' hr' => h r' (List.mem_cons_of_mem _ hr')
    have hr := h r (List.mem_cons_self ..)
    unfold stayerRows Spec.stayRows at *
    simp only [List.countP_cons, Finset.sum_add_distrib, ← ih]
    by_cases hc : r.m = 0 ∧ r.cs = 1
    · rw [List.filter_cons_of_pos (by simpa using hc), List.length_cons]
      congr 1
      have : ∀ i, decide (r.i = i ∧ r.m = 0 ∧ r.cs = 1) = decide (r.i = i) := by
        intro i
        simp [hc]
      simp only [this, decide_eq_true_eq]
      rw [Finset.sum_ite_eq, if_pos (Finset.mem_range.mpr hr)]
    · rw [List.filter_cons_of_neg (by simpa using hc)]
      have : ∀ i, decide (r.i = i ∧ r.m = 0 ∧ r.cs = 1) = false := by
        intro i
        simp only [decide_eq_false_iff_not]
        tauto
      simp [this]

theorem nm_eq (a : List Row) (hm : ∀ r ∈ a, r.m ≤ 1) : (counts a).nm = (Spec.movers a).card := by
  show (List.toFinset _).card = _
  unfold Spec.movers
  congr 3
  apply List.filter_congr
  intro r hr
  have := hm r hr
  rw [Bool.eq_iff_iff]
  simp
  omega

/-- C106: counts.  If the ids of firms, workers and clusters are `0, 1, …` without gaps and a move is marked by one, the
stored numbers are the numbers of firms, workers, clusters, movers and stayers. -/
theorem C106_counts (a : List Row) (nf nw nc : ℕ) (h0 : nf ≠ 0) (h1 : nw ≠ 0) (h2 : nc ≠ 0)
    (hi : (a.map (·.i)).toFinset = range nw) (hj : (a.map (·.j1)).toFinset ∪ (a.map (·.j2)).toFinset = range nf)
    (hg : (a.map (·.g1)).toFinset ∪ (a.map (·.g2)).toFinset = range nc) (hm : ∀ r ∈ a, r.m ≤ 1) :
    (counts a).nf = nf ∧ (counts a).nw = nw ∧ (counts a).nc = nc ∧ (counts a).nm = (Spec.movers a).card ∧
    (counts a).ns = (range nw \ Spec.movers a).card := by
  have two : ∀ (l l' : List ℕ) n, n ≠ 0 → l.toFinset ∪ l'.toFinset = range n → max (maxOf l) (maxOf l') + 1 = n := by
    intro l l' n hn h
    have hmem : ∀ x, x ∈ l ∨ x ∈ l' ↔ x < n := fun x => by
      rw [← List.mem_toFinset, ← List.mem_toFinset, ← Finset.mem_union, h, Finset.mem_range]
    have h1 : n - 1 ≤ max (maxOf l) (maxOf l') := by
      rcases (hmem (n - 1)).mpr (by omega) with h | h
      · exact le_trans ((foldl_max_ge l 0).2 _ h) (le_max_left _ _)
      · exact le_trans ((foldl_max_ge l' 0).2 _ h) (le_max_right _ _)
    have h2 : max (maxOf l) (maxOf l') < n := by
      apply max_lt
      · rcases foldl_max_mem l 0 with h0 | h0
        · unfold maxOf; rw [h0]; omega
        · exact (hmem _).mp (Or.inl h0)
      · rcases foldl_max_mem l' 0 with h0 | h0
        · unfold maxOf; rw [h0]; omega
        · exact (hmem _).mp (Or.inr h0)
    omega
  have hw : (counts a).nw = nw := maxOf_contiguous _ nw h1 hi
  refine ⟨two _ _ nf h0 hj, hw, two _ _ nc h2 hg, nm_eq a hm, ?_⟩
  have hs : (counts a).ns = ((counts a).nw : ℤ) - (counts a).nm := rfl
  have hsub : Spec.movers a ⊆ range nw := by
    rw [← hi]
    intro i h
    simp only [Spec.movers, List.mem_toFinset, List.mem_map, List.mem_filter] at h ⊢
    obtain ⟨r, ⟨hr, _⟩, rfl⟩ := h
    exact ⟨r, hr, rfl⟩
  rw [hs, hw, nm_eq a hm, Finset.card_sdiff_of_subset hsub]
  have := Finset.card_le_card hsub
  rw [Finset.card_range] at this ⊢
  omega

/-- C106: the estimation starts exactly if the data are collapsed: when every worker without a move has a row, it
raises `ValueError` unless every such worker has exactly one row and no mover has a row without a move.  Otherwise the
frames are the rows with and without a move of the cross section. -/
theorem C106_collapsed (a : List Row) (nw : ℕ) (h1 : nw ≠ 0) (hi : (a.map (·.i)).toFinset = range nw)
    (hm : ∀ r ∈ a, r.m ≤ 1) (hrow : ∀ i < nw, i ∉ Spec.movers a → 1 ≤ Spec.stayRows a i) :
    ((∀ i < nw, Spec.stayRows a i = if i ∈ Spec.movers a then 0 else 1) →
      frames a = .ok (a.filter fun r => decide (0 < r.m ∧ r.cs = 1), a.filter fun r => decide (r.m = 0 ∧ r.cs = 1))) ∧
    ((∃ i < nw, Spec.stayRows a i ≠ if i ∈ Spec.movers a then 0 else 1) → frames a = .error "ValueError") := by
  have hlen := stayer_length a nw (by
    intro r hr
    rw [← Finset.mem_range, ← hi, List.mem_toFinset]
    exact List.mem_map.mpr ⟨r, hr, rfl⟩)
  have hsub : Spec.movers a ⊆ range nw := by
    rw [← hi]
    intro i h
    simp only [Spec.movers, List.mem_toFinset, List.mem_map, List.mem_filter] at h ⊢
    obtain ⟨r, ⟨hr, _⟩, rfl⟩ := h
    exact ⟨r, hr, rfl⟩
  have hw : (counts a).nw = nw := maxOf_contiguous _ nw h1 hi
  have hns : (counts a).ns = ((range nw).filter fun i => i ∉ Spec.movers a).card := by
    have hs : (counts a).ns = ((counts a).nw : ℤ) - (counts a).nm := rfl
    rw [hs, hw, nm_eq a hm, ← Finset.sdiff_eq_filter, Finset.card_sdiff_of_subset hsub]
    have := Finset.card_le_card hsub
    rw [Finset.card_range] at this ⊢
    omega
  have hsum : (((range nw).filter fun i => i ∉ Spec.movers a).card : ℕ) =
      ∑ i ∈ range nw, if i ∈ Spec.movers a then 0 else 1 := by
    rw [Finset.card_filter]
    refine Finset.sum_congr rfl fun i _ => ?_
    by_cases h : i ∈ Spec.movers a <;> simp [h]
  constructor
  · intro h
    unfold frames
    rw [if_pos ?_]
    · unfold moverRows stayerRows
      congr 2
      · apply List.filter_congr
        intro r _
        rw [Bool.eq_iff_iff]
        simp
      · apply List.filter_congr
        intro r _
        rw [Bool.eq_iff_iff]
        simp
    · rw [hns, hlen, hsum]
      rw [Finset.sum_congr rfl fun i hi => h i (Finset.mem_range.mp hi)]
      rw [max_eq_left (by positivity)]
  · rintro ⟨i, hin, hne⟩
    unfold frames
    rw [if_neg]
    rw [hns, hlen, hsum]
    have hlt : (∑ i ∈ range nw, if i ∈ Spec.movers a then 0 else 1) < ∑ i ∈ range nw, Spec.stayRows a i := by
      refine Finset.sum_lt_sum ?_ ⟨i, Finset.mem_range.mpr hin, ?_⟩
      · intro k hk
        by_cases h : k ∈ Spec.movers a
        · simp [h]
        · rw [if_neg h]
          exact hrow k (Finset.mem_range.mp hk) h
      · by_cases h : i ∈ Spec.movers a
        · rw [if_pos h] at hne ⊢
          omega
        · rw [if_neg h] at hne ⊢
          have := hrow i hin h
          omega
    have : (0 : ℤ) ≤ ((∑ i ∈ range nw, if i ∈ Spec.movers a then 0 else 1 : ℕ) : ℤ) := by positivity
    rw [max_eq_left this]
    intro hc
    exact absurd (by exact_mod_cast hc) hlt.ne'

/-- Two stayers and a mover in two firms and clusters: collapsed, and not if a stayer has a second row. -/
noncomputable def sample : List Row :=
  [⟨0, 0, 0, 0, 0, 1, 1, 0, 1⟩, ⟨1, 1, 1, 1, 1, 2, 2, 0, 1⟩, ⟨2, 0, 1, 0, 1, 1, 3, 1, 1⟩, ⟨2, 1, 0, 1, 0, 3, 1, 1, 0⟩]

theorem C106_sample : (sample.map (·.i)).toFinset = range 3 ∧ (∀ r ∈ sample, r.m ≤ 1) ∧ Spec.movers sample = {2} ∧
    (∀ i < 3, Spec.stayRows sample i = if i ∈ Spec.movers sample then 0 else 1) ∧ (∃ fr, frames sample = .ok fr) ∧
    frames (⟨0, 0, 0, 0, 0, 1, 1, 0, 1⟩ :: sample) = .error "ValueError" := by
  have h1 : (sample.map (·.i)).toFinset = range 3 := by decide
  have h2 : ∀ r ∈ sample, r.m ≤ 1 := by simp [sample]
  have h3 : Spec.movers sample = {2} := by simp [sample, Spec.movers]
  have h4 : ∀ i < 3, Spec.stayRows sample i = if i ∈ Spec.movers sample then 0 else 1 := by
    intro i hi
    rw [h3]
    interval_cases i <;> simp [sample, Spec.stayRows]
  refine ⟨h1, h2, h3, h4, ⟨_, (C106_collapsed sample 3 (by decide) h1 h2 (fun i hi hn => by
    rw [h4 i hi, if_neg hn])).1 h4⟩, ?_⟩
  have g3 : Spec.movers (⟨0, 0, 0, 0, 0, 1, 1, 0, 1⟩ :: sample) = {2} := by simp [sample, Spec.movers]
  refine (C106_collapsed _ 3 (by decide) (by
    simp only [List.map_cons, List.toFinset_cons]
    rw [h1]
    decide) (by
    intro r hr
    rcases List.mem_cons.mp hr with rfl | hr
    · simp
    · exact h2 r hr) ?_).2 ⟨0, by decide, ?_⟩
  · intro i hi hn
    rw [g3] at hn
    interval_cases i <;> simp [sample, Spec.stayRows] at hn ⊢
  · rw [g3]
    simp [sample, Spec.stayRows]

/-! ## C106: tables -/

theorem pdToNp_map (ks : List (ℕ × ℕ)) (f : ℕ × ℕ → ℝ) (i j : ℕ) :
    pdToNp (ks.map fun k => (k, f k)) i j = if (i, j) ∈ ks then f (i, j) else 0 := by
  unfold pdToNp
  induction ks with
  | nil => simp
  | cons k ks ih =>
    by_cases h : k = (i, j)
    · subst h
      simp
    · rw [List.map_cons, List.find?_cons_of_neg (by
        intro hc
        apply h
        simp only [Bool.and_eq_true, beq_iff_eq] at hc
        exact Prod.ext hc.1 hc.2), ih]
      simp only [List.mem_cons, Ne.symm h, false_or]

/-- C106: the table for movers holds at `(i, j)` the average over the movers from cluster `i` to cluster `j`, and zero if
there are none or without variation between clusters. -/
theorem C106_mover_table (wo : Bool) (rows : List Row) (v : Row → ℝ) (i j : ℕ) :
    eem wo rows v i j = if wo ∨ ∀ r ∈ rows, ¬ (r.g1 = i ∧ r.g2 = j) then 0
      else ((rows.filter fun r => r.g1 = i ∧ r.g2 = j).map v).sum / (rows.filter fun r => r.g1 = i ∧ r.g2 = j).length := by
  unfold eem
  rw [pdToNp_map]
  have hmem : (i, j) ∈ pairs rows ↔ ∃ r ∈ rows, r.g1 = i ∧ r.g2 = j := by
    unfold pairs
    simp
  by_cases h : ∃ r ∈ rows, r.g1 = i ∧ r.g2 = j
  · rw [if_pos (hmem.mpr h)]
    rcases wo with _ | _
    · rw [if_neg (by simp), if_neg (by push Not; exact ⟨by simp, h⟩)]
      unfold groupMean meanOf
      simp only [List.length_map, Prod.mk.injEq]
    · rw [if_pos rfl, if_pos (Or.inl rfl)]
  · rw [if_neg (fun hc => h (hmem.mp hc)), if_pos (Or.inr fun r hr hc => h ⟨r, hr, hc⟩)]

theorem sort_getElem (S : Finset ℕ) (c : ℕ) (hc : c ∈ S) : (S.sort (· ≤ ·))[(S.filter (· < c)).card]? = some c := by
  have hs := Finset.sortedLT_sort S
  have hmem : c ∈ S.sort (· ≤ ·) := (Finset.mem_sort _).mpr hc
  obtain ⟨k, hk, hkc⟩ := List.getElem_of_mem hmem
  have : (S.filter (· < c)).card = k := by
    have heq : S.filter (· < c) = ((S.sort (· ≤ ·)).take k).toFinset := by
      ext x
      simp only [Finset.mem_filter, List.mem_toFinset]
      constructor
      · rintro ⟨hx, hlt⟩
        obtain ⟨l, hl, hlx⟩ := List.getElem_of_mem ((Finset.mem_sort (· ≤ ·)).mpr hx)
        have : l < k := by
          by_contra hge
          push Not at hge
          rcases hge.eq_or_lt with rfl | hlt'
          · rw [hkc] at hlx; omega
          · have := hs.getElem_lt_getElem_of_lt (hi := hk) (hj := hl) hlt'
            rw [hkc, hlx] at this
            omega
        rw [List.mem_take_iff_getElem]
        exact ⟨l, by omega, hlx⟩
      · intro hx
        rw [List.mem_take_iff_getElem] at hx
        obtain ⟨l, hl, hlx⟩ := hx
        have hl' : l < (S.sort (· ≤ ·)).length := by omega
        refine ⟨(Finset.mem_sort (· ≤ ·)).mp (hlx ▸ List.getElem_mem hl'), ?_⟩
        have := hs.getElem_lt_getElem_of_lt (hi := hl') (hj := hk) (by omega)
        rw [hkc, hlx] at this
        exact this
    rw [heq, List.toFinset_card_of_nodup (List.Nodup.sublist (List.take_sublist _ _) (Finset.sort_nodup _ _)),
      List.length_take]
    omega
  rw [this, List.getElem?_eq_getElem hk, hkc]

/-- The average over the stayers of a cluster, zero without variation between clusters. -/
noncomputable def Spec.stayerMean (wo : Bool) (rows : List Row) (v : Row → ℝ) (c : ℕ) : ℝ :=
  if wo then 0 else ((rows.filter fun r => r.g1 = c).map v).sum / (rows.filter fun r => r.g1 = c).length

/-- C106: the list for stayers holds the average of cluster `c` at the position that counts the smaller clusters with
stayers, and nothing else. -/
theorem C106_stayer_table (wo : Bool) (rows : List Row) (v : Row → ℝ) :
    (em wo rows v).length = (rows.map (·.g1)).toFinset.card ∧
    ∀ c ∈ (rows.map (·.g1)).toFinset,
      (em wo rows v)[((rows.map (·.g1)).toFinset.filter (· < c)).card]? = some (Spec.stayerMean wo rows v c) := by
  constructor
  · unfold em
    rw [List.length_map, Finset.length_sort]
  · intro c hc
    unfold em
    rw [List.getElem?_map, sort_getElem _ c hc]
    rcases wo with _ | _
    · simp [Spec.stayerMean, groupMean, meanOf]
    · simp [Spec.stayerMean]

/-- C106 (partial): if every cluster has stayers, the average of cluster `c` is at position `c`.  Missing: clusters
without stayers, see `C106_stayer_table_shifted`. -/
theorem C106_stayer_table_partial (wo : Bool) (rows : List Row) (v : Row → ℝ) (nc : ℕ)
    (h : (rows.map (·.g1)).toFinset = range nc) :
    (em wo rows v).length = nc ∧ ∀ c < nc, (em wo rows v)[c]? = some (Spec.stayerMean wo rows v c) := by
  obtain ⟨h1, h2⟩ := C106_stayer_table wo rows v
  refine ⟨by rw [h1, h, Finset.card_range], fun c hc => ?_⟩
  have := h2 c (by rw [h]; exact Finset.mem_range.mpr hc)
  rw [h] at this
  have hf : (range nc).filter (· < c) = range c := by
    ext x
    simp
    omega
  rwa [hf, Finset.card_range] at this

/-- C106 fails in full: with stayers only in the second of two clusters, their average is stored for the first. -/
theorem C106_stayer_table_shifted :
    em false [⟨0, 0, 0, 1, 1, 5, 5, 0, 1⟩] (·.y1) = [5] ∧
    Spec.stayerMean false [⟨0, 0, 0, 1, 1, 5, 5, 0, 1⟩] (·.y1) 1 = 5 := by
  constructor
  · simp [em, groupMean, meanOf]
  · simp [Spec.stayerMean]

/-! ## C106: results -/

theorem update_get (names : List Key) (hn : names.Nodup) (v : Key → ℝ) (d : FEResults.Dict Val) :
    (∀ k ∈ names, get (update d names v) k = .ok (.num (v k))) ∧ ∀ k ∉ names, get (update d names v) k = get d k := by
  induction names generalizing d with
  | nil => exact ⟨by simp, fun _ _ => rfl⟩
  | cons a l ih =>
    simp only [List.nodup_cons] at hn
    obtain ⟨i1, i2⟩ := ih hn.2 (set d a (.num (v a)))
    constructor
    · intro k hk
      rcases List.mem_cons.mp hk with rfl | hk
      · exact (i2 k hn.1).trans (FEResults.get_set_same ..)
      · exact i1 k hk
    · intro k hk
      simp only [List.mem_cons, not_or] at hk
      exact (i2 k hk.2).trans (FEResults.get_set_ne _ _ (Ne.symm hk.1))

def countNames : List Key := ["n_firms", "n_workers", "n_movers", "n_stayers"].map String.toList
def collectNames : List Key := ["var_y", "var_bw", "cov_bw", "var_wt", "cov_wt", "tot_var", "tot_cov"].map String.toList

theorem resCollect_get (x : Est) (ns mn : ℝ) (d : FEResults.Dict Val) :
    get (resCollect x ns mn d) "var_y".toList = .ok (.num x.var0) ∧
    get (resCollect x ns mn d) "var_bw".toList = .ok (.num x.varBw) ∧
    get (resCollect x ns mn d) "cov_bw".toList = .ok (.num x.covBw) ∧
    get (resCollect x ns mn d) "var_wt".toList = .ok (.num (x.within "var_psi".toList)) ∧
    get (resCollect x ns mn d) "cov_wt".toList =
      .ok (.num ((ns * x.within "cov_AsPsi1".toList + mn * x.within "cov_Am1Psi1".toList) / (ns + mn))) ∧
    get (resCollect x ns mn d) "tot_var".toList = .ok (.num (x.varBw + x.within "var_psi".toList)) ∧
    get (resCollect x ns mn d) "tot_cov".toList =
      .ok (.num (x.covBw + (ns * x.within "cov_AsPsi1".toList + mn * x.within "cov_Am1Psi1".toList) / (ns + mn))) ∧
    ∀ k ∉ collectNames, get (resCollect x ns mn d) k = get d k := by
  unfold resCollect
  dsimp only
  refine ⟨?_, ?_, ?_, ?_, ?_, ?_, ?_, ?_⟩
  · rw [FEResults.get_set_same]
  · rw [FEResults.get_set_ne _ _ (by decide), FEResults.get_set_ne _ _ (by decide), FEResults.get_set_ne _ _ (by decide),
      FEResults.get_set_ne _ _ (by decide), FEResults.get_set_ne _ _ (by decide), FEResults.get_set_ne _ _ (by decide),
      FEResults.get_set_same]
  · rw [FEResults.get_set_ne _ _ (by decide), FEResults.get_set_ne _ _ (by decide), FEResults.get_set_ne _ _ (by decide),
      FEResults.get_set_ne _ _ (by decide), FEResults.get_set_ne _ _ (by decide), FEResults.get_set_same]
  · rw [FEResults.get_set_ne _ _ (by decide), FEResults.get_set_ne _ _ (by decide), FEResults.get_set_ne _ _ (by decide),
      FEResults.get_set_ne _ _ (by decide), FEResults.get_set_same]
  · rw [FEResults.get_set_ne _ _ (by decide), FEResults.get_set_ne _ _ (by decide), FEResults.get_set_ne _ _ (by decide),
      FEResults.get_set_same]
  · rw [FEResults.get_set_ne _ _ (by decide), FEResults.get_set_ne _ _ (by decide), FEResults.get_set_same]
  · rw [FEResults.get_set_ne _ _ (by decide), FEResults.get_set_same]
  · intro k hk
    simp only [collectNames, List.map_cons, List.map_nil, List.mem_cons, List.not_mem_nil, or_false, not_or] at hk
    obtain ⟨k1, k2, k3, k4, k5, k6, k7⟩ := hk
    rw [FEResults.get_set_ne _ _ (Ne.symm k1), FEResults.get_set_ne _ _ (Ne.symm k7),
      FEResults.get_set_ne _ _ (Ne.symm k6), FEResults.get_set_ne _ _ (Ne.symm k5),
      FEResults.get_set_ne _ _ (Ne.symm k4), FEResults.get_set_ne _ _ (Ne.symm k3),
      FEResults.get_set_ne _ _ (Ne.symm k2), FEResults.get_set_ne _ _ (Ne.symm k1)]

/-- C106: the results: every moment and every parameter under its own name, the counts, the terms between and within
clusters and their totals, the variance of income with denominator n, the posterior variance if asked for; and the
summary repeats five of them. -/
theorem C106_results (x : Est) (a : List Row) (res summ : FEResults.Dict Val) (h : resFit x a = .ok (res, summ)) :
    frames a = .ok (moverRows a, stayerRows a) ∧
    (∀ k ∈ momentNames, get res k = .ok (.num (x.moment k))) ∧
    (∀ k ∈ withinNames, get res k = .ok (.num (x.within k))) ∧
    get res "n_firms".toList = .ok (.num (counts a).nf) ∧ get res "n_workers".toList = .ok (.num (counts a).nw) ∧
    get res "n_movers".toList = .ok (.num (counts a).nm) ∧ get res "n_stayers".toList = .ok (.num (counts a).ns) ∧
    get res "var_y".toList = .ok (.num x.var0) ∧
    get res "var_bw".toList = .ok (.num x.varBw) ∧ get res "cov_bw".toList = .ok (.num x.covBw) ∧
    get res "tot_var".toList = .ok (.num (x.varBw + x.within "var_psi".toList)) ∧
    get res "tot_cov".toList = .ok (.num (x.covBw +
      ((counts a).ns * x.within "cov_AsPsi1".toList + (moverRows a).length * x.within "cov_Am1Psi1".toList) /
        ((counts a).ns + (moverRows a).length))) ∧
    get res "var_posterior".toList = (match x.posterior with | some p => .ok (.num p) | none => .error "KeyError") ∧
    (∀ p ∈ [("var_y".toList, "var_y".toList), ("var_bw".toList, "var_bw".toList), ("cov_bw".toList, "cov_bw".toList),
      ("var_tot".toList, "tot_var".toList), ("cov_tot".toList, "tot_cov".toList)], get summ p.1 = get res p.2) ∧
    summ.length = 5 := by
  unfold resFit at h
  simp only [bind, Except.bind] at h
  rcases hf : frames a with e | fr
  · rw [hf] at h; cases h
  have hfr : fr = (moverRows a, stayerRows a) := by
    unfold frames at hf
    split at hf
    · exact (Except.ok.inj hf).symm
    · cases hf
  rw [hf, hfr] at h
  dsimp only at h
  have hndm : momentNames.Nodup := by decide
  have hndw : withinNames.Nodup := by decide
  obtain ⟨m1, m2⟩ := update_get momentNames hndm x.moment (resCounts (counts a) (resInit x))
  obtain ⟨w1, w2⟩ := update_get withinNames hndw x.within
    (update (resCounts (counts a) (resInit x)) momentNames x.moment)
  obtain ⟨c1, c2, c3, c4, c5, c6, c7, c8⟩ := resCollect_get x (counts a).ns ((moverRows a).length : ℝ)
    (update (update (resCounts (counts a) (resInit x)) momentNames x.moment) withinNames x.within)
  generalize hd : resCollect x (counts a).ns ((moverRows a).length : ℝ)
    (update (update (resCounts (counts a) (resInit x)) momentNames x.moment) withinNames x.within) = d at h c1 c2 c3 c4 c5 c6 c7 c8
  have hs : summaryOf d = .ok [("var_y".toList, .num x.var0), ("var_bw".toList, .num x.varBw),
      ("cov_bw".toList, .num x.covBw), ("var_tot".toList, .num (x.varBw + x.within "var_psi".toList)),
      ("cov_tot".toList, .num (x.covBw + ((counts a).ns * x.within "cov_AsPsi1".toList +
        (moverRows a).length * x.within "cov_Am1Psi1".toList) / ((counts a).ns + (moverRows a).length)))] := by
    unfold summaryOf
    rw [c1, c2, c3, c6, c7]
    rfl
  rw [hs] at h
  dsimp only at h
  have h := Except.ok.inj h
  have hfin : ∀ k, k ≠ "total_time".toList → k ≠ "var_posterior".toList → get res k = get d k := by
    intro k k1 k2
    rw [← (Prod.mk.inj h).1, FEResults.get_set_ne _ _ (Ne.symm k1)]
    rcases x.posterior with _ | p
    · rfl
    · exact FEResults.get_set_ne _ _ (Ne.symm k2)
  have n1 : ∀ k ∈ momentNames, k ≠ "total_time".toList ∧ k ≠ "var_posterior".toList ∧ k ∉ collectNames ∧
      k ∉ withinNames := by decide
  have n2 : ∀ k ∈ withinNames, k ≠ "total_time".toList ∧ k ≠ "var_posterior".toList ∧ k ∉ collectNames := by decide
  have n3 : ∀ k ∈ countNames, k ≠ "total_time".toList ∧ k ≠ "var_posterior".toList ∧ k ∉ collectNames ∧
      k ∉ withinNames ∧ k ∉ momentNames := by decide
  have hcount : ∀ k ∈ countNames, get res k = get (resCounts (counts a) (resInit x)) k := by
    intro k hk
    obtain ⟨a1, a2, a3, a4, a5⟩ := n3 k hk
    rw [hfin k a1 a2, c8 k a3, w2 k a4, m2 k a5]
  refine ⟨by rw [hfr], ?_, ?_, ?_, ?_, ?_, ?_, ?_, ?_, ?_, ?_, ?_, ?_, ?_, ?_⟩
  · intro k hk
    obtain ⟨a1, a2, a3, a4⟩ := n1 k hk
    rw [hfin k a1 a2, c8 k a3, w2 k a4, m1 k hk]
  · intro k hk
    obtain ⟨a1, a2, a3⟩ := n2 k hk
    rw [hfin k a1 a2, c8 k a3, w1 k hk]
  · rw [hcount _ (by decide)]; rfl
  · rw [hcount _ (by decide)]; rfl
  · rw [hcount _ (by decide)]; rfl
  · rw [hcount _ (by decide)]; rfl
  · rw [hfin _ (by decide) (by decide), c1]
  · rw [hfin _ (by decide) (by decide), c2]
  · rw [hfin _ (by decide) (by decide), c3]
  · rw [hfin _ (by decide) (by decide), c6]
  · rw [hfin _ (by decide) (by decide), c7]
  · rw [← (Prod.mk.inj h).1, FEResults.get_set_ne _ _ (by decide)]
    rcases hp : x.posterior with _ | p
    · dsimp only
      rw [c8 _ (by decide), w2 _ (by decide), m2 _ (by decide)]
      rfl
    · dsimp only
      rw [FEResults.get_set_same]
  · intro p hp
    rw [← (Prod.mk.inj h).2]
    simp only [List.mem_cons, List.not_mem_nil, or_false] at hp
    rcases hp with rfl | rfl | rfl | rfl | rfl
    · rw [hfin _ (by decide) (by decide), c1]; rfl
    · rw [hfin _ (by decide) (by decide), c2]; rfl
    · rw [hfin _ (by decide) (by decide), c3]; rfl
    · rw [hfin _ (by decide) (by decide), c6]; rfl
    · rw [hfin _ (by decide) (by decide), c7]; rfl
  · rw [← (Prod.mk.inj h).2]
    rfl

/-- The sample data give results. -/
theorem C106_results_sample (x : Est) : ∃ res summ, resFit x sample = .ok (res, summ) := by
  obtain ⟨_, _, _, _, ⟨fr, hf⟩, _⟩ := C106_sample
  unfold resFit
  simp only [bind, Except.bind, hf]
  obtain ⟨c1, c2, c3, c4, c5, c6, c7, c8⟩ := resCollect_get x (counts sample).ns (fr.1.length : ℝ)
    (update (update (resCounts (counts sample) (resInit x)) momentNames x.moment) withinNames x.within)
  generalize resCollect x (counts sample).ns (fr.1.length : ℝ)
    (update (update (resCounts (counts sample) (resInit x)) momentNames x.moment) withinNames x.within) = d at *
  unfold summaryOf
  simp only [bind, Except.bind, c1, c2, c3, c6, c7]
  exact ⟨_, _, rfl⟩

end Pytwoway.CREPrep
