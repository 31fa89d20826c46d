import Mathlib.Data.List.Sort
import Mathlib.Data.Real.Basic
import Mathlib.Tactic.Linarith
import Verif.BLM.Model

/-! # Choosing among runs (`BLMEstimator.fit`) and C38 -/

namespace Pytwoway.BLM

/-! ## Model -/

/-- What `BLMEstimator.fit` looks at in a fitted model: `lik1` and `connectedness` (`none` for None);
`tag` identifies the model.  Used for blm.py:2417-2444. -/
structure Cand where
  tag : ℕ
  lik : ℝ
  conn : Option ℝ

open scoped Classical in
/-- `sorted(..., reverse=True, key=...)`: a stable sort by decreasing key.  Used for blm.py:2417-2444. -/
noncomputable def sortedDesc (key : Cand → ℝ) (l : List Cand) : List Cand :=
  l.mergeSort fun a b => decide (key b ≤ key a)

/-- blm.py:2417-2444: the model kept.  `np.zeros(shape=n_init - n_best)` raises when `n_init < n_best`;
`sorted_zipped_models[0]` raises when the list is empty.  (`liks_high` and the other arrays stored for
plots are filled on the way and do not influence the choice.) -/
noncomputable def select (nInit nBest : ℕ) (ms : List Cand) : Py Cand :=
  let byLik := sortedDesc Cand.lik (ms.filter fun m => m.conn.isSome)
  if nInit < nBest then .error "ValueError"
  else match sortedDesc (fun m => m.conn.getD 0) (byLik.take nBest) with
    | [] => .error "IndexError"
    | m :: _ => .ok m

/-! ## C38 -/

theorem sortedDesc_perm (key : Cand → ℝ) (l : List Cand) : (sortedDesc key l).Perm l :=
  List.mergeSort_perm _ _

theorem sortedDesc_pairwise (key : Cand → ℝ) (l : List Cand) :
    (sortedDesc key l).Pairwise fun a b => key b ≤ key a := by
  have := List.pairwise_mergeSort (le := fun a b : Cand => decide (key b ≤ key a))
    (fun a b c h1 h2 => by simp only [decide_eq_true_eq] at *; exact le_trans h2 h1)
    (fun a b => by simp only [Bool.or_eq_true, decide_eq_true_eq]; exact le_total _ _) l
  simpa [sortedDesc] using this

/-- C38: the model kept is one of the runs; its connectedness is maximal among `top`, which consists of
`n_best` runs (all of them if there are fewer) and no run left out has a higher likelihood than a run
in `top`.  (Runs whose connectedness could not be computed are not considered.) -/
theorem C38_best (nInit nBest : ℕ) (ms : List Cand) (m : Cand) (h : select nInit nBest ms = .ok m) :
    ∃ top rest : List Cand, (top ++ rest).Perm (ms.filter fun m => m.conn.isSome) ∧
      top.length = min nBest (ms.filter fun m => m.conn.isSome).length ∧
      (∀ t ∈ top, ∀ r ∈ rest, r.lik ≤ t.lik) ∧ m ∈ ms ∧ m ∈ top ∧
      ∃ c, m.conn = some c ∧ ∀ t ∈ top, ∀ c', t.conn = some c' → c' ≤ c := by
  set F := ms.filter fun m => m.conn.isSome with hF
  refine ⟨(sortedDesc Cand.lik F).take nBest, (sortedDesc Cand.lik F).drop nBest, ?_, ?_, ?_, ?_⟩
  · rw [List.take_append_drop]; exact sortedDesc_perm _ _
  · rw [List.length_take, (sortedDesc_perm _ F).length_eq]
  · have := sortedDesc_pairwise Cand.lik F
    rw [← List.take_append_drop nBest (sortedDesc Cand.lik F), List.pairwise_append] at this
    exact this.2.2
  · simp only [select, ← hF] at h
    split at h
    · cases h
    · split at h
      · cases h
      · rename_i m' tl he
        cases h
        have hm : m ∈ (sortedDesc Cand.lik F).take nBest := by
          rw [← (sortedDesc_perm (fun m => m.conn.getD 0) _).mem_iff, he]; simp
        have hmF : m ∈ F := (sortedDesc_perm _ F).mem_iff.mp (List.mem_of_mem_take hm)
        rw [hF, List.mem_filter] at hmF
        obtain ⟨c, hc⟩ := Option.isSome_iff_exists.mp hmF.2
        refine ⟨hmF.1, hm, c, hc, fun t ht c' hc' => ?_⟩
        have hp := sortedDesc_pairwise (fun m => m.conn.getD 0) ((sortedDesc Cand.lik F).take nBest)
        rw [← (sortedDesc_perm (fun m => m.conn.getD 0) _).mem_iff, he] at ht
        rw [he, List.pairwise_cons] at hp
        rcases List.mem_cons.mp ht with rfl | ht
        · rw [hc] at hc'; cases hc'; exact le_rfl
        · simpa [hc, hc'] using hp.1 t ht

/-- C38: a model is returned exactly when `1 <= n_best <= n_init` and some run has a connectedness. -/
theorem C38_returns_iff (nInit nBest : ℕ) (ms : List Cand) :
    (∃ m, select nInit nBest ms = .ok m) ↔ 0 < nBest ∧ nBest ≤ nInit ∧ ∃ m ∈ ms, m.conn.isSome := by
  set F := ms.filter fun m => m.conn.isSome with hF
  have hlen : (sortedDesc (fun m => m.conn.getD 0) ((sortedDesc Cand.lik F).take nBest)).length =
      min nBest F.length := by
    rw [(sortedDesc_perm _ _).length_eq, List.length_take, (sortedDesc_perm _ F).length_eq]
  have hFpos : 0 < F.length ↔ ∃ m ∈ ms, m.conn.isSome := by
    rw [List.length_pos_iff_exists_mem]
    simp only [hF, List.mem_filter]
  simp only [select, ← hF]
  constructor
  · rintro ⟨m, h⟩
    split at h
    · cases h
    · rename_i hle
      split at h
      · cases h
      · rename_i he
        rw [he] at hlen
        simp only [List.length_cons] at hlen
        refine ⟨by omega, by omega, hFpos.mp (by omega)⟩
  · rintro ⟨h0, h1, h2⟩
    rw [if_neg (by omega)]
    have := hFpos.mpr h2
    split
    · rename_i he
      rw [he] at hlen
      simp only [List.length_nil] at hlen
      omega
    · exact ⟨_, rfl⟩

theorem sortedDesc_unique (key : Cand → ℝ) (l l' : List Cand) (h : l.Perm l')
    (hd : ∀ a ∈ l, ∀ b ∈ l, key a = key b → a = b) : sortedDesc key l = sortedDesc key l' := by
  refine List.Perm.eq_of_pairwise (le := fun a b => key b ≤ key a) (fun a b ha hb h1 h2 => ?_)
    (sortedDesc_pairwise key l) (sortedDesc_pairwise key l')
    (((sortedDesc_perm key l).trans h).trans (sortedDesc_perm key l').symm)
  refine hd a ((sortedDesc_perm key l).mem_iff.mp ha) b ?_ (le_antisymm h2 h1)
  exact h.mem_iff.mpr ((sortedDesc_perm key l').mem_iff.mp hb)

/-- C38: if no two runs tie in likelihood, the choice does not depend on the order
of the runs. -/
theorem C38_order (nInit nBest : ℕ) (ms ms' : List Cand) (h : ms.Perm ms')
    (hl : ∀ a ∈ ms, ∀ b ∈ ms, a.lik = b.lik → a = b) :
    select nInit nBest ms = select nInit nBest ms' := by
  have e : sortedDesc Cand.lik (ms.filter fun m => m.conn.isSome) =
      sortedDesc Cand.lik (ms'.filter fun m => m.conn.isSome) :=
    sortedDesc_unique _ _ _ (h.filter _) fun a ha b hb =>
      hl a (List.mem_filter.mp ha).1 b (List.mem_filter.mp hb).1
  simp only [select, e]

/-- Non-vacuity: the most connected run is not among the two most likely ones; the second most likely
is kept. -/
example : select 3 2 [⟨0, 5, some 1⟩, ⟨1, 1, some 9⟩, ⟨2, 4, some 2⟩] = .ok ⟨2, 4, some 2⟩ := by
  have e1 : sortedDesc Cand.lik [⟨0, 5, some 1⟩, ⟨1, 1, some 9⟩, ⟨2, 4, some 2⟩] =
      [⟨0, 5, some 1⟩, ⟨2, 4, some 2⟩, ⟨1, 1, some 9⟩] := by
    refine List.Perm.eq_of_pairwise (le := fun a b => b.lik ≤ a.lik) (fun a b ha hb h1 h2 => ?_)
      (sortedDesc_pairwise _ _) (by norm_num) ((sortedDesc_perm _ _).trans (List.Perm.cons _ (List.Perm.swap _ _ _)))
    have ha := (sortedDesc_perm _ _).mem_iff.mp ha
    simp only [List.mem_cons, List.not_mem_nil, or_false] at ha hb
    rcases ha with rfl | rfl | rfl <;> rcases hb with rfl | rfl | rfl <;> first | rfl | exact absurd (le_antisymm h1 h2) (by norm_num)
  have e2 : sortedDesc (fun m => m.conn.getD 0) [⟨0, 5, some 1⟩, ⟨2, 4, some 2⟩] =
      [⟨2, 4, some 2⟩, ⟨0, 5, some 1⟩] := by
    refine List.Perm.eq_of_pairwise (le := fun a b => b.conn.getD 0 ≤ a.conn.getD 0)
      (fun a b ha hb h1 h2 => ?_) (sortedDesc_pairwise _ _) (by norm_num)
      ((sortedDesc_perm _ _).trans (List.Perm.swap _ _ _))
    have ha := (sortedDesc_perm _ _).mem_iff.mp ha
    simp only [List.mem_cons, List.not_mem_nil, or_false] at ha hb
    rcases ha with rfl | rfl <;> rcases hb with rfl | rfl <;> first | rfl | exact absurd (le_antisymm h1 h2) (by norm_num)
  simp only [select, List.filter, Option.isSome_some, e1, List.take, e2]
  rfl

end Pytwoway.BLM
