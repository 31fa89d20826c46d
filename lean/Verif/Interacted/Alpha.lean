import Verif.Interacted.Linear

/-! # Mean worker effects by firm: C70

`pytwoway/blm_interacted.py`, `InteractedBLMEstimator.fit` (152-188). -/

namespace Pytwoway.Interacted

/-- A stayer in event-study format (`j1 = j2`): firm, two wages, two weights (1 if unweighted).
Used for blm_interacted.py:170 and blm_interacted.py:171-178. -/
structure Stayer where
  j : ℕ
  y1 : ℝ
  y2 : ℝ
  w1 : ℝ
  w2 : ℝ

/-- `sdata['alpha_j']`, blm_interacted.py:170. -/
noncomputable def Stayer.raw (A1 A2 B1 B2 : ℕ → ℝ) (s : Stayer) : ℝ :=
  (s.y1 - A1 s.j) / B1 s.j + (s.y2 - A2 s.j) / B2 s.j

/-- The group mean of one firm, blm_interacted.py:171-178 (unweighted: all weights 1). -/
noncomputable def alphaOf (A1 A2 B1 B2 : ℕ → ℝ) (l : List Stayer) (k : ℕ) : ℝ :=
  ((l.filter fun s => s.j = k).map fun s => s.raw A1 A2 B1 B2 * (s.w1 * s.w2)).sum /
    ((l.filter fun s => s.j = k).map fun s => s.w1 * s.w2).sum

/-- The third result of `fit` with `estimator='linear'`, blm_interacted.py:163-188: `groupby('j1')` has
one entry per firm that occurs, in increasing order.  `nf` is the number of firms among the movers, the
length of `A1`; a larger id raises `IndexError`. -/
noncomputable def alphaJ (nf : ℕ) (A1 A2 B1 B2 : ℕ → ℝ) (l : List Stayer) : Py (List ℝ) :=
  if l.all (fun s => s.j < nf) then
    .ok (((List.range nf).filter fun k => l.any fun s => s.j = k).map fun k =>
      1 / 2 * alphaOf A1 A2 B1 B2 l k)
  else .error "IndexError"

/-- The weighted mean of the true effects of firm `k`'s stayers, `α` giving each stayer's effect. -/
noncomputable def Spec.meanEffect (α : Stayer → ℝ) (l : List Stayer) (k : ℕ) : ℝ :=
  ((l.filter fun s => s.j = k).map fun s => α s * (s.w1 * s.w2)).sum /
    ((l.filter fun s => s.j = k).map fun s => s.w1 * s.w2).sum

/-- Stayers' wages are exactly `a[j] + b[j] * alpha` in both periods. -/
def Spec.ExactStayers (A1 A2 B1 B2 : ℕ → ℝ) (α : Stayer → ℝ) (l : List Stayer) : Prop :=
  ∀ s ∈ l, s.y1 = A1 s.j + B1 s.j * α s ∧ s.y2 = A2 s.j + B2 s.j * α s

theorem alphaOf_exact (A1 A2 B1 B2 : ℕ → ℝ) (α : Stayer → ℝ) (l : List Stayer)
    (hB : ∀ k, B1 k ≠ 0 ∧ B2 k ≠ 0) (hx : Spec.ExactStayers A1 A2 B1 B2 α l) (k : ℕ) :
    1 / 2 * alphaOf A1 A2 B1 B2 l k = Spec.meanEffect α l k := by
  have e : ((l.filter fun s => s.j = k).map fun s => s.raw A1 A2 B1 B2 * (s.w1 * s.w2)) =
      (l.filter fun s => s.j = k).map fun s => 2 * (α s * (s.w1 * s.w2)) := by
    refine List.map_congr_left fun s hs => ?_
    obtain ⟨h1, h2⟩ := hx s (List.mem_filter.mp hs).1
    obtain ⟨b1, b2⟩ := hB s.j
    rw [Stayer.raw, h1, h2]
    field_simp
    ring
  rw [alphaOf, Spec.meanEffect, e, List.sum_map_mul_left]
  ring

/-- C70 (partial): when every firm has a stayer, entry `k` of the result is the mean true effect of firm
`k`'s stayers.  Missing: firms without stayers (`C70_misaligned`). -/
theorem C70_aligned_partial (nf : ℕ) (A1 A2 B1 B2 : ℕ → ℝ) (α : Stayer → ℝ) (l : List Stayer)
    (hB : ∀ k, B1 k ≠ 0 ∧ B2 k ≠ 0) (hx : Spec.ExactStayers A1 A2 B1 B2 α l)
    (hj : ∀ s ∈ l, s.j < nf) (hall : ∀ k < nf, ∃ s ∈ l, s.j = k) :
    ∃ r, alphaJ nf A1 A2 B1 B2 l = .ok r ∧ r.length = nf ∧
      ∀ k, k < nf → r[k]? = some (Spec.meanEffect α l k) := by
  have hf : (List.range nf).filter (fun k => l.any fun s => s.j = k) = List.range nf := by
    rw [List.filter_eq_self]
    intro k hk
    obtain ⟨s, hs, e⟩ := hall k (List.mem_range.mp hk)
    simp only [List.any_eq_true, decide_eq_true_eq]
    exact ⟨s, hs, e⟩
  unfold alphaJ
  rw [if_pos (by simpa using hj), hf]
  refine ⟨_, rfl, by simp, fun k hk => ?_⟩
  rw [List.getElem?_map, List.getElem?_range hk, Option.map_some,
    alphaOf_exact A1 A2 B1 B2 α l hB hx]

/-- C70: what the result is in general.  The entries are the mean effects of the firms that have stayers,
in increasing order of firm id; firms without stayers are left out rather than marked, and a stayer of a
firm beyond the movers' firms makes the call raise. -/
theorem C70_general (nf : ℕ) (A1 A2 B1 B2 : ℕ → ℝ) (α : Stayer → ℝ) (l : List Stayer)
    (hB : ∀ k, B1 k ≠ 0 ∧ B2 k ≠ 0) (hx : Spec.ExactStayers A1 A2 B1 B2 α l) :
    ((∃ s ∈ l, nf ≤ s.j) → alphaJ nf A1 A2 B1 B2 l = .error "IndexError") ∧
    ((∀ s ∈ l, s.j < nf) → ∃ ks : List ℕ, ks.Pairwise (· < ·) ∧ (∀ k, k ∈ ks ↔ ∃ s ∈ l, s.j = k) ∧
      alphaJ nf A1 A2 B1 B2 l = .ok (ks.map (Spec.meanEffect α l))) := by
  constructor
  · rintro ⟨s, hs, h⟩
    unfold alphaJ
    rw [if_neg]
    simp only [List.all_eq_true, decide_eq_true_eq, not_forall]
    exact ⟨s, hs, not_lt.mpr h⟩
  · intro hj
    refine ⟨(List.range nf).filter fun k => l.any fun s => s.j = k,
      List.Pairwise.filter _ List.pairwise_lt_range, ?_, ?_⟩
    · intro k
      simp only [List.mem_filter, List.mem_range, List.any_eq_true, decide_eq_true_eq]
      constructor
      · rintro ⟨_, s, hs, e⟩; exact ⟨s, hs, e⟩
      · rintro ⟨s, hs, rfl⟩; exact ⟨hj s hs, s, hs, rfl⟩
    · unfold alphaJ
      rw [if_pos (by simpa using hj)]
      congr 1
      exact List.map_congr_left fun k _ => alphaOf_exact A1 A2 B1 B2 α l hB hx k

/-- One stayer, at firm 1 of two, with effect 5. -/
def lone : List Stayer := [⟨1, 5, 5, 1, 1⟩]

/-- C70 (wrong without stayers at every firm): with two firms and one stayer at firm 1, whose effect is 5,
the result has one entry, and entry 0, firm 0's place, holds 5. -/
theorem C70_misaligned :
    Spec.ExactStayers (fun _ => 0) (fun _ => 0) (fun _ => 1) (fun _ => 1) (fun s => s.y1) lone ∧
    alphaJ 2 (fun _ => 0) (fun _ => 0) (fun _ => 1) (fun _ => 1) lone = .ok [5] := by
  constructor
  · intro s hs
    simp only [lone, List.mem_singleton] at hs
    subst hs
    norm_num
  · have hr : List.range 2 = [0, 1] := rfl
    unfold alphaJ alphaOf
    rw [hr]
    simp [lone, Stayer.raw]
    norm_num

/-- Non-vacuity of `C70_aligned_partial`: one stayer at each of two firms. -/
example : ∃ r, alphaJ 2 (fun _ => 0) (fun _ => 0) (fun _ => 1) (fun _ => 1)
    [⟨0, 3, 3, 1, 1⟩, ⟨1, 5, 5, 1, 1⟩] = .ok r ∧ r.length = 2 := by
  obtain ⟨r, h1, h2, _⟩ := C70_aligned_partial 2 (fun _ => 0) (fun _ => 0) (fun _ => 1) (fun _ => 1)
    (fun s => s.y1) [⟨0, 3, 3, 1, 1⟩, ⟨1, 5, 5, 1, 1⟩] (fun _ => ⟨one_ne_zero, one_ne_zero⟩)
    (by intro s hs; simp at hs; rcases hs with rfl | rfl <;> norm_num)
    (by intro s hs; simp at hs; rcases hs with rfl | rfl <;> norm_num)
    (by
      intro k hk
      have : k = 0 ∨ k = 1 := by omega
      rcases this with rfl | rfl <;> simp)
  exact ⟨r, h1, h2⟩

end Pytwoway.Interacted
