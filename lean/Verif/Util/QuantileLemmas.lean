import Verif.Util.Model
import Mathlib.Tactic.FieldSimp
import Mathlib.Tactic.Ring
import Mathlib.Tactic.Linarith
import Mathlib.Data.List.Sort
import Mathlib.Algebra.Order.BigOperators.Group.List

/-! Helper lemmas about `np.interp` and `weighted_quantile`. -/

namespace Pytwoway.Util

/-- Strictly increasing abscissae, nondecreasing ordinates. -/
def GoodGrid (g : List (ℝ × ℝ)) : Prop := g.Pairwise fun p q => p.1 < q.1 ∧ p.2 ≤ q.2

theorem interpFrom_lower {x : ℝ} {p : ℝ × ℝ} {rest : List (ℝ × ℝ)}
    (h : GoodGrid (p :: rest)) (hx : p.1 ≤ x) : p.2 ≤ interpFrom x p rest := by
  induction rest generalizing p with
  | nil => simp [interpFrom]
  | cons q rest ih =>
    have hpq := (List.pairwise_cons.mp h).1 q (by simp)
    have hq := (List.pairwise_cons.mp h).2
    simp only [interpFrom]
    split
    · split
      · exact le_refl _
      · have : 0 ≤ (q.2 - p.2) / (q.1 - p.1) :=
          div_nonneg (by linarith [hpq.2]) (by linarith [hpq.1])
        nlinarith
    · rename_i hx'
      exact hpq.2.trans (ih hq (not_lt.mp hx'))

theorem interpFrom_upper {x b : ℝ} {p : ℝ × ℝ} {rest : List (ℝ × ℝ)}
    (h : GoodGrid (p :: rest)) (hx : p.1 ≤ x) (hb : ∀ q ∈ p :: rest, q.2 ≤ b) :
    interpFrom x p rest ≤ b := by
  induction rest generalizing p with
  | nil => exact hb p (by simp)
  | cons q rest ih =>
    have hpq := (List.pairwise_cons.mp h).1 q (by simp)
    have hq := (List.pairwise_cons.mp h).2
    simp only [interpFrom]
    split
    · rename_i hxq
      split
      · exact hb p (by simp)
      · have hbq := hb q (by simp)
        have hd : 0 < q.1 - p.1 := by linarith [hpq.1]
        have : (q.2 - p.2) / (q.1 - p.1) * (x - p.1) ≤ q.2 - p.2 := by
          rw [div_mul_eq_mul_div, div_le_iff₀ hd]
          apply mul_le_mul_of_nonneg_left _ (by linarith [hpq.2])
          linarith
        linarith
    · rename_i hx'
      exact ih hq (not_lt.mp hx') fun r hr => hb r (by simp at hr ⊢; tauto)

theorem interpFrom_le_next {x : ℝ} {p q : ℝ × ℝ} (hpq : p.1 < q.1 ∧ p.2 ≤ q.2)
    (hp : p.1 ≤ x) (hxq : x < q.1) :
    (if p.1 = x then p.2 else (q.2 - p.2) / (q.1 - p.1) * (x - p.1) + p.2) ≤ q.2 := by
  split
  · exact hpq.2
  · have hd : 0 < q.1 - p.1 := by linarith [hpq.1]
    have : (q.2 - p.2) / (q.1 - p.1) * (x - p.1) ≤ q.2 - p.2 := by
      rw [div_mul_eq_mul_div, div_le_iff₀ hd]
      apply mul_le_mul_of_nonneg_left _ (by linarith [hpq.2])
      linarith
    linarith

theorem interpFrom_mono {x y : ℝ} {p : ℝ × ℝ} {rest : List (ℝ × ℝ)}
    (h : GoodGrid (p :: rest)) (hx : p.1 ≤ x) (hxy : x ≤ y) :
    interpFrom x p rest ≤ interpFrom y p rest := by
  induction rest generalizing p with
  | nil => simp [interpFrom]
  | cons q rest ih =>
    have hpq := (List.pairwise_cons.mp h).1 q (by simp)
    have hq := (List.pairwise_cons.mp h).2
    by_cases h1 : x < q.1
    · by_cases h2 : y < q.1
      · simp only [interpFrom, h1, h2, if_true]
        have hs : 0 ≤ (q.2 - p.2) / (q.1 - p.1) :=
          div_nonneg (by linarith [hpq.2]) (by linarith [hpq.1])
        split <;> split
        · exact le_refl _
        · nlinarith
        · nlinarith
        · nlinarith
      · have := interpFrom_le_next hpq hx h1
        simp only [interpFrom, h1, h2, if_true, if_false]
        exact this.trans (interpFrom_lower hq (not_lt.mp h2))
    · have h2 : ¬ y < q.1 := by linarith [not_lt.mp h1]
      simp only [interpFrom, h1, h2, if_false]
      exact ih hq (not_lt.mp h1)

/-- Two grids with equal ordinates everywhere give the constant. -/
theorem interp_isSome (x : ℝ) (g : List (ℝ × ℝ)) : (interp x g).isSome = !g.isEmpty := by
  cases g <;> simp [interp]

theorem interp_mem_range {x : ℝ} {g : List (ℝ × ℝ)} (h : GoodGrid g) {r : ℝ}
    (hr : interp x g = some r) :
    (∃ q ∈ g, q.2 ≤ r) ∧ ∃ q ∈ g, r ≤ q.2 := by
  cases g with
  | nil => simp [interp] at hr
  | cons p rest =>
    simp only [interp, Option.some.injEq] at hr
    subst hr
    split
    · exact ⟨⟨p, by simp, le_refl _⟩, ⟨p, by simp, le_refl _⟩⟩
    · rename_i hx
      refine ⟨⟨p, by simp, interpFrom_lower h (not_lt.mp hx)⟩, ?_⟩
      -- the maximum ordinate is attained at the last point
      have hlast : ∀ q ∈ p :: rest, q.2 ≤ ((p :: rest).getLast (by simp)).2 := by
        intro q hq
        rcases eq_or_ne q ((p :: rest).getLast (by simp)) with he | hne
        · rw [he]
        · have := List.pairwise_iff_getElem.mp h
          obtain ⟨i, hi, rfl⟩ := List.getElem_of_mem hq
          rw [List.getLast_eq_getElem] at hne ⊢
          by_cases hlt : i < (p :: rest).length - 1
          · exact (this i _ hi (by simp) hlt).2
          · have : i = (p :: rest).length - 1 := by omega
            subst this; exact le_refl _
      exact ⟨_, List.getLast_mem (by simp), interpFrom_upper h (not_lt.mp hx) hlast⟩

theorem interp_mono {x y : ℝ} {g : List (ℝ × ℝ)} (h : GoodGrid g) (hxy : x ≤ y) {r s : ℝ}
    (hr : interp x g = some r) (hs : interp y g = some s) : r ≤ s := by
  cases g with
  | nil => simp [interp] at hr
  | cons p rest =>
    simp only [interp, Option.some.injEq] at hr hs
    subst hr hs
    by_cases h1 : x < p.1 <;> by_cases h2 : y < p.1
    · simp [h1, h2]
    · simp only [h1, h2, if_true, if_false]; exact interpFrom_lower h (not_lt.mp h2)
    · linarith
    · simp only [h1, h2, if_false]; exact interpFrom_mono h (not_lt.mp h1) hxy

/-! grid construction -/

theorem cumGrid_fst_lower (c : ℝ) (d : List (ℝ × ℝ)) (hw : ∀ p ∈ d, 0 < p.2) :
    ∀ q ∈ cumGrid c d, c < q.1 := by
  induction d generalizing c with
  | nil => simp [cumGrid]
  | cons p rest ih =>
    obtain ⟨v, w⟩ := p
    have hw0 : 0 < w := hw (v, w) (by simp)
    intro q hq
    simp only [cumGrid, List.mem_cons] at hq
    rcases hq with rfl | hq
    · simp; linarith
    · have := ih (c + w) (fun p hp => hw p (by simp [hp])) q hq
      linarith

theorem cumGrid_snd (c : ℝ) (d : List (ℝ × ℝ)) : (cumGrid c d).map Prod.snd = d.map Prod.fst := by
  induction d generalizing c with
  | nil => simp [cumGrid]
  | cons p rest ih => obtain ⟨v, w⟩ := p; simp [cumGrid, ih]

theorem cumGrid_good (c : ℝ) (d : List (ℝ × ℝ)) (hw : ∀ p ∈ d, 0 < p.2)
    (hs : d.Pairwise fun p q => p.1 ≤ q.1) : GoodGrid (cumGrid c d) := by
  induction d generalizing c with
  | nil => simp [cumGrid, GoodGrid]
  | cons p rest ih =>
    obtain ⟨v, w⟩ := p
    have hw0 : 0 < w := hw (v, w) (by simp)
    simp only [cumGrid, GoodGrid, List.pairwise_cons]
    have hwr : ∀ p ∈ rest, 0 < p.2 := fun p hp => hw p (by simp [hp])
    refine ⟨fun q hq => ⟨?_, ?_⟩, ih _ hwr (List.pairwise_cons.mp hs).2⟩
    · have := cumGrid_fst_lower (c + w) rest hwr q hq
      linarith
    · have hq2 : q.2 ∈ rest.map Prod.fst := by
        rw [← cumGrid_snd (c + w)]; exact List.mem_map_of_mem hq
      obtain ⟨r, hr, hre⟩ := List.mem_map.mp hq2
      rw [← hre]
      exact (List.pairwise_cons.mp hs).1 r hr

theorem GoodGrid.affine {g : List (ℝ × ℝ)} (h : GoodGrid g) (a b : ℝ) (hb : 0 < b) :
    GoodGrid (g.map fun p => ((p.1 - a) / b, p.2)) := by
  unfold GoodGrid at *
  rw [List.pairwise_map]
  refine h.imp ?_
  rintro p q ⟨h1, h2⟩
  exact ⟨div_lt_div_of_pos_right (by linarith) hb, h2⟩

theorem scaleGrid_snd (o : Bool) (t : ℝ) (g : List (ℝ × ℝ)) :
    (scaleGrid o t g).map Prod.snd = g.map Prod.snd := by
  cases o <;> simp [scaleGrid, Function.comp_def]

theorem scaleGrid_good {g : List (ℝ × ℝ)} (h : GoodGrid g) (o : Bool) (t : ℝ) (ht : 0 < t) :
    GoodGrid (scaleGrid o t g) := by
  cases o with
  | false =>
    have := h.affine 0 t ht
    simpa [scaleGrid] using this
  | true =>
    match g, h with
    | [], _ => simp [scaleGrid, GoodGrid]
    | [p], _ => simp [scaleGrid, GoodGrid]
    | p :: q :: rest, h =>
      -- the last abscissa after subtraction of the first is positive
      have hne : (p :: q :: rest) ≠ [] := by simp
      have hlast : p.1 < ((p :: q :: rest).getLast hne).1 := by
        have hm : (p :: q :: rest).getLast hne ∈ q :: rest := by
          rw [List.getLast_cons (by simp)]; exact List.getLast_mem _
        exact ((List.pairwise_cons.mp h).1 _ hm).1
      have := h.affine p.1 (((p :: q :: rest).getLast hne).1 - p.1) (by linarith)
      have he : scaleGrid true t (p :: q :: rest) =
          (p :: q :: rest).map fun r =>
            ((r.1 - p.1) / (((p :: q :: rest).getLast hne).1 - p.1), r.2) := by
        simp only [scaleGrid, if_true, List.head?_cons, Option.map_some, Option.getD_some,
          List.map_map, List.getLast?_map, List.getLast?_eq_some_getLast hne]
        rfl
      rw [he]; exact this

end Pytwoway.Util
