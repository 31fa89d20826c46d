import Verif.Util.Model
import Mathlib.Data.List.OfFn
import Mathlib.Data.List.Perm.Basic
import Mathlib.Data.List.FinRange

/-! Helper lemmas about `scramble` / `unscramble`. -/

namespace Pytwoway.Util

variable {α β : Type*}

/-- Elements at even and at odd positions. -/
def splitEO : List α → List α × List α
  | [] => ([], [])
  | x :: xs => (x :: (splitEO xs).2, (splitEO xs).1)

theorem foldl_unscrambleStep (l : List α) (k : ℕ) (a b : List α) :
    (l.zipIdx k).foldl unscrambleStep (a, b) =
      if k % 2 = 0 then (a ++ (splitEO l).1, b ++ (splitEO l).2)
      else (a ++ (splitEO l).2, b ++ (splitEO l).1) := by
  induction l generalizing k a b with
  | nil => simp [splitEO]
  | cons x xs ih =>
    simp only [List.zipIdx_cons, List.foldl_cons, unscrambleStep, splitEO]
    by_cases h : k % 2 = 0
    · have h1 : ¬ (k + 1) % 2 = 0 := by omega
      simp [h, ih, h1]
    · have h1 : (k + 1) % 2 = 0 := by omega
      simp [h, ih, h1]

theorem unscramble_eq (l : List α) : unscramble l = (splitEO l).1 ++ (splitEO l).2.reverse := by
  simp [unscramble, foldl_unscrambleStep]

theorem splitEO_length (l : List α) :
    (splitEO l).1.length = (l.length + 1) / 2 ∧ (splitEO l).2.length = l.length / 2 := by
  induction l with
  | nil => simp [splitEO]
  | cons x xs ih => simp only [splitEO, List.length_cons]; omega

theorem splitEO_get (l : List α) :
    (∀ i, (splitEO l).1[i]? = l[2 * i]?) ∧ (∀ i, (splitEO l).2[i]? = l[2 * i + 1]?) := by
  induction l with
  | nil => simp [splitEO]
  | cons x xs ih =>
    constructor
    · intro i
      cases i with
      | zero => simp [splitEO]
      | succ i =>
        simp only [splitEO, List.getElem?_cons_succ, ih.2]
        rw [show 2 * (i + 1) = (2 * i + 1) + 1 by ring, List.getElem?_cons_succ]
    · intro i
      simp only [splitEO, ih.1, List.getElem?_cons_succ]

theorem scramble_length (l : List α) : (scramble l).length = l.length := by simp [scramble]

theorem unscramble_length (l : List α) : (unscramble l).length = l.length := by
  have := splitEO_length l
  simp [unscramble_eq, this]; omega

theorem scramble_get (l : List α) (i : ℕ) (hi : i < l.length) :
    (scramble l)[i]? = if i % 2 = 0 then l[i / 2]? else l[l.length - i / 2 - 1]? := by
  rw [List.getElem?_eq_getElem (by simpa [scramble] using hi)]
  simp only [scramble, List.getElem_ofFn]
  split
  · rw [List.getElem?_eq_getElem]
  · rw [List.getElem?_eq_getElem]

theorem unscramble_get (l : List α) (i : ℕ) (hi : i < l.length) :
    (unscramble l)[i]? =
      if i < (l.length + 1) / 2 then l[2 * i]? else l[2 * (l.length - 1 - i) + 1]? := by
  have hl := splitEO_length l
  rw [unscramble_eq]
  split
  · rename_i h
    rw [List.getElem?_append_left (by omega), (splitEO_get l).1]
  · rename_i h
    rw [List.getElem?_append_right (by omega), List.getElem?_reverse (by omega),
      (splitEO_get l).2]
    congr 1; omega

theorem unscramble_scramble_aux (l : List α) : unscramble (scramble l) = l := by
  apply List.ext_getElem?
  intro i
  by_cases hi : i < l.length
  · rw [unscramble_get _ _ (by simpa [scramble] using hi), scramble_length]
    split
    · rename_i h
      rw [scramble_get _ _ (by omega), if_pos (by omega)]; congr 1; omega
    · rename_i h
      rw [scramble_get _ _ (by omega), if_neg (by omega)]; congr 1; omega
  · rw [List.getElem?_eq_none (by simp [unscramble_length, scramble_length]; omega),
      List.getElem?_eq_none (by omega)]

theorem scramble_unscramble_aux (l : List α) : scramble (unscramble l) = l := by
  apply List.ext_getElem?
  intro i
  by_cases hi : i < l.length
  · rw [scramble_get _ _ (by simpa [unscramble_length] using hi), unscramble_length]
    split
    · rename_i h
      rw [unscramble_get _ _ (by omega), if_pos (by omega)]; congr 1; omega
    · rename_i h
      rw [unscramble_get _ _ (by omega), if_neg (by omega)]; congr 1; omega
  · rw [List.getElem?_eq_none (by simp [unscramble_length, scramble_length]; omega),
      List.getElem?_eq_none (by omega)]

theorem scramble_map (f : α → β) (l : List α) : scramble (l.map f) = (scramble l).map f := by
  apply List.ext_getElem?
  intro i
  by_cases hi : i < l.length
  · rw [scramble_get _ _ (by simpa using hi)]
    simp only [List.getElem?_map, scramble_get _ _ hi, List.length_map]
    split <;> simp
  · rw [List.getElem?_eq_none (by simp [scramble_length]; omega),
      List.getElem?_eq_none (by simp [scramble_length]; omega)]

theorem splitEO_perm (l : List α) : ((splitEO l).1 ++ (splitEO l).2).Perm l := by
  induction l with
  | nil => simp [splitEO]
  | cons x xs ih =>
    simp only [splitEO, List.cons_append]
    exact List.Perm.cons x (List.perm_append_comm.trans ih)

theorem unscramble_perm_aux (l : List α) : (unscramble l).Perm l := by
  rw [unscramble_eq]
  exact ((List.reverse_perm _).append_left _).trans (splitEO_perm l)

theorem scramble_perm_aux (l : List α) : (scramble l).Perm l := by
  have h := unscramble_perm_aux (scramble l)
  rw [unscramble_scramble_aux] at h
  exact h.symm

end Pytwoway.Util
