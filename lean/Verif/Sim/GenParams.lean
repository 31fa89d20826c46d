import Mathlib.Data.Fin.Tuple.Sort
import Mathlib.Algebra.BigOperators.Fin
import Mathlib.Algebra.BigOperators.Field
import Mathlib.Data.Real.Basic
import Mathlib.Tactic.Linarith
import Mathlib.Tactic.FieldSimp
import Mathlib.Tactic.FinCases
import Mathlib.Tactic.NormNum
import Mathlib.Tactic.Ring
import Verif.Sim.Ids

/-! # Simulated BLM parameters: C45

`pytwoway/simblm.py`, `SimBLM._sort_A` (284-317) and `_gen_params` (319-444). -/

namespace Pytwoway.Sim

open Finset

variable {nl nk n : ℕ}

/-! ## Model -/

/-- `argsort`: some permutation that sorts (numpy's quicksort need not be stable).
Used for simblm.py:284-317 and simblm.py:428-444. -/
abbrev Argsort (n : ℕ) := (Fin n → ℝ) → Equiv.Perm (Fin n)

def Argsort.Right (s : Argsort n) : Prop := ∀ f, Monotone (f ∘ s f)

/-- `np.mean(A, axis=1)`.  Used for simblm.py:284-317 and simblm.py:428-444. -/
noncomputable def rowMean (A : Fin nl → Fin nk → ℝ) (l : Fin nl) : ℝ := (∑ k, A l k) / nk

/-- `np.mean(A, axis=0)`.  Used for simblm.py:284-317. -/
noncomputable def colMean (A : Fin nl → Fin nk → ℝ) (k : Fin nk) : ℝ := (∑ l, A l k) / nl

/-- `np.sort(A[l, :])` for every row, simblm.py:299-301. -/
noncomputable def sortRows (A : Fin nl → Fin nk → ℝ) (l : Fin nl) : Fin nk → ℝ := A l ∘ Tuple.sort (A l)

/-- `_sort_A`, simblm.py:284-317. -/
noncomputable def sortA (sw : Argsort nl) (sf : Argsort nk) (strict : Bool)
    (A1 A2 : Fin nl → Fin nk → ℝ) : (Fin nl → Fin nk → ℝ) × (Fin nl → Fin nk → ℝ) :=
  let B1 := if strict then sortRows A1 else A1
  let B2 := if strict then sortRows A2 else A2
  let w := sw (rowMean B1)
  let C1 : Fin nl → Fin nk → ℝ := fun l k => B1 (w l) k
  let C2 : Fin nl → Fin nk → ℝ := fun l k => B2 (w l) k
  if strict then (C1, C2)
  else
    let f := sf (colMean C1)
    (fun l k => C1 l (f k), fun l k => C2 l (f k))

/-- A two-dimensional array with its shape.  Used for simblm.py:428-444 and simblm.py:374-397. -/
structure Arr where
  rows : ℕ
  cols : ℕ
  v : ℕ → ℕ → ℝ

/-- Value of a matrix at natural indices.  Used for simblm.py:428-444. -/
noncomputable def at2 (A : Fin nl → Fin nk → ℝ) (l k : ℕ) : ℝ :=
  if h : l < nl ∧ k < nk then A ⟨l, h.1⟩ ⟨k, h.2⟩ else 0

/-- Value of a vector at natural indices, simblm.py:428-444. -/
noncomputable def at1 (a : Fin n → ℝ) (l : ℕ) : ℝ := if h : l < n then a ⟨l, h⟩ else 0

/-- A matrix as an array with its shape, simblm.py:428-444 and simblm.py:374-397. -/
noncomputable def Arr.of (A : Fin nl → Fin nk → ℝ) : Arr := ⟨nl, nk, at2 A⟩

/-- Broadcasting of `vector + matrix - vector`, the vectors of length `nl`, the matrix of shape
`(nl, nk)`: numpy aligns the vectors with the *last* axis of the matrix.
Used for simblm.py:428-444 and simblm.py:374-397. -/
noncomputable def bcast (a : Fin nl → ℝ) (A : Fin nl → Fin nk → ℝ) (b : Fin nl → ℝ) : Py Arr :=
  if nl = nk ∨ nl = 1 ∨ nk = 1 then
    .ok ⟨nl, if nl = 1 then nk else nl, fun l k =>
      at1 a (if nl = 1 then 0 else k) + at2 A l (if nk = 1 then 0 else k) - at1 b (if nl = 1 then 0 else k)⟩
  else .error "ValueError"

/-- The options, simblm.py:60-110. -/
structure GenOpts where
  statA : Bool
  statS : Bool
  statFirm : Bool
  strict : Bool

/-- Means and standard deviations of the two periods.  Used for simblm.py:428-444. -/
structure GenOut where
  A1 : Arr
  A2 : Arr
  S1 : Arr
  S2 : Arr

/-- The part of `_gen_params` after the draws, simblm.py:428-444. -/
noncomputable def genParams (sw : Argsort nl) (sf : Argsort nk) (o : GenOpts)
    (A1 A2 S1 S2 : Fin nl → Fin nk → ℝ) : Py GenOut :=
  let B := sortA sw sf o.strict A1 A2
  let B2 := if o.statA then B.1 else B.2
  let S2' := if o.statS then S1 else S2
  if o.statFirm then do
    let C2 ← bcast (rowMean B2) B.1 (rowMean B.1)
    .ok ⟨.of B.1, C2, .of S1, .of S2'⟩
  else .ok ⟨.of B.1, .of B2, .of S1, .of S2'⟩

/-- Means of a categorical control that interacts with worker type, simblm.py:374-397: draws of shape
`(nl, n)`. -/
noncomputable def genCat (statA statFirm : Bool) (A1 A2 : Fin nl → Fin n → ℝ) : Py (Arr × Arr) :=
  let B2 := if statA then A1 else A2
  if statFirm then do
    let C2 ← bcast (rowMean B2) A1 (rowMean A1)
    .ok (.of A1, C2)
  else .ok (.of A1, .of B2)

/-! ## Specification -/

/-- Both arrays have `nl` rows and `nk` columns and the same deviations from their row means. -/
def Spec.SameVariation (nl nk : ℕ) (A B : Arr) : Prop :=
  A.rows = nl ∧ B.rows = nl ∧ A.cols = nk ∧ B.cols = nk ∧
    ∀ l k, l < nl → k < nk →
      A.v l k - (∑ j ∈ range nk, A.v l j) / nk = B.v l k - (∑ j ∈ range nk, B.v l j) / nk

/-- Equal shapes and entries. -/
def Spec.SameArr (A B : Arr) : Prop :=
  A.rows = B.rows ∧ A.cols = B.cols ∧ ∀ l k, l < A.rows → k < A.cols → A.v l k = B.v l k

/-- Every row is nondecreasing. -/
def Spec.RowsMonotone (A : Arr) : Prop :=
  ∀ l k k', l < A.rows → k ≤ k' → k' < A.cols → A.v l k ≤ A.v l k'

/-- Rows in order of their means. -/
def Spec.RowsByMean (A : Arr) : Prop :=
  ∀ l l', l ≤ l' → l' < A.rows → (∑ k ∈ range A.cols, A.v l k) / A.cols ≤ (∑ k ∈ range A.cols, A.v l' k) / A.cols

/-- Columns in order of their means. -/
def Spec.ColsByMean (A : Arr) : Prop :=
  ∀ k k', k ≤ k' → k' < A.cols → (∑ l ∈ range A.rows, A.v l k) / A.rows ≤ (∑ l ∈ range A.rows, A.v l k') / A.rows

/-- Sum of a worker effect and a firm effect. -/
def Spec.Additive (A : Arr) : Prop :=
  ∃ (α ψ : ℕ → ℝ), ∀ l k, l < A.rows → k < A.cols → A.v l k = α l + ψ k

/-! ## Lemmas -/

theorem at2_fin (A : Fin nl → Fin nk → ℝ) (l : Fin nl) (k : Fin nk) : at2 A l k = A l k := by
  simp [at2]

theorem sum_at2 (A : Fin nl → Fin nk → ℝ) (l : Fin nl) : ∑ k ∈ range nk, at2 A l k = ∑ k, A l k := by
  rw [← Fin.sum_univ_eq_sum_range]
  exact sum_congr rfl fun k _ => at2_fin A l k

theorem sum_at2_col (A : Fin nl → Fin nk → ℝ) (k : Fin nk) : ∑ l ∈ range nl, at2 A l k = ∑ l, A l k := by
  rw [← Fin.sum_univ_eq_sum_range (fun l => at2 A l k)]
  exact sum_congr rfl fun l _ => at2_fin A l k

theorem sortRows_monotone (A : Fin nl → Fin nk → ℝ) (l : Fin nl) : Monotone (sortRows A l) :=
  Tuple.monotone_sort (A l)

theorem sortA_fst (sw : Argsort nl) (sf : Argsort nk) (strict : Bool) (A1 A2 : Fin nl → Fin nk → ℝ) :
    ∃ (w : Equiv.Perm (Fin nl)) (f : Equiv.Perm (Fin nk)),
      w = sw (rowMean (if strict then sortRows A1 else A1)) ∧
      (strict = true → f = 1) ∧
      (strict = false → f = sf (colMean fun l k => A1 (w l) k)) ∧
      sortA sw sf strict A1 A2 =
        (fun l k => (if strict then sortRows A1 else A1) (w l) (f k),
         fun l k => (if strict then sortRows A2 else A2) (w l) (f k)) := by
  cases strict
  · exact ⟨_, _, rfl, by simp, fun _ => rfl, rfl⟩
  · exact ⟨_, 1, rfl, fun _ => rfl, by simp, rfl⟩

theorem gen_A1 (sw : Argsort nl) (sf : Argsort nk) (o : GenOpts) (A1 A2 S1 S2 : Fin nl → Fin nk → ℝ)
    (out : GenOut) (h : genParams sw sf o A1 A2 S1 S2 = .ok out) :
    out.A1 = .of (sortA sw sf o.strict A1 A2).1 ∧ out.S1 = .of S1 ∧
      out.S2 = .of (if o.statS then S1 else S2) ∧
      (o.statFirm = false → out.A2 = .of (if o.statA then (sortA sw sf o.strict A1 A2).1
        else (sortA sw sf o.strict A1 A2).2)) ∧
      (o.statFirm = true → bcast (rowMean (if o.statA then (sortA sw sf o.strict A1 A2).1
        else (sortA sw sf o.strict A1 A2).2)) (sortA sw sf o.strict A1 A2).1
        (rowMean (sortA sw sf o.strict A1 A2).1) = .ok out.A2) := by
  unfold genParams at h
  dsimp only at h
  split at h
  · rename_i hf
    match hb : bcast (rowMean (if o.statA then (sortA sw sf o.strict A1 A2).1
        else (sortA sw sf o.strict A1 A2).2)) (sortA sw sf o.strict A1 A2).1
        (rowMean (sortA sw sf o.strict A1 A2).1) with
    | .error e => rw [hb] at h; cases h
    | .ok C =>
      rw [hb] at h
      cases h
      exact ⟨rfl, rfl, rfl, fun h => by simp [hf] at h, fun _ => rfl⟩
  · rename_i hf
    cases h
    exact ⟨rfl, rfl, rfl, fun _ => rfl, fun h => absurd h hf⟩

/-! ## C45 -/

/-- C45: worker types are numbered in order of their mean in the first period, and, without
`strictly_monotone_a`, firm types too. -/
theorem C45_sorted (sw : Argsort nl) (sf : Argsort nk) (hw : sw.Right) (hf : sf.Right) (o : GenOpts)
    (A1 A2 S1 S2 : Fin nl → Fin nk → ℝ) (out : GenOut)
    (h : genParams sw sf o A1 A2 S1 S2 = .ok out) :
    Spec.RowsByMean out.A1 ∧ (o.strict = false → Spec.ColsByMean out.A1) := by
  obtain ⟨e1, _⟩ := gen_A1 sw sf o A1 A2 S1 S2 out h
  obtain ⟨w, f, ew, _, ef, es⟩ := sortA_fst sw sf o.strict A1 A2
  rw [e1, es]
  constructor
  · intro l l' hll hl'
    change l' < nl at hl'
    have hm := hw (rowMean (if o.strict then sortRows A1 else A1)) (a := ⟨l, by omega⟩) (b := ⟨l', hl'⟩) hll
    rw [← ew] at hm
    simp only [Function.comp_apply, rowMean] at hm
    show (∑ k ∈ range nk, at2 _ l k) / (nk : ℝ) ≤ (∑ k ∈ range nk, at2 _ l' k) / (nk : ℝ)
    have s1 := sum_at2 (fun l k => (if o.strict then sortRows A1 else A1) (w l) (f k)) (⟨l, by omega⟩ : Fin nl)
    have s2 := sum_at2 (fun l k => (if o.strict then sortRows A1 else A1) (w l) (f k)) (⟨l', hl'⟩ : Fin nl)
    simp only at s1 s2
    rw [s1, s2, Equiv.sum_comp f, Equiv.sum_comp f]
    exact hm
  · intro hs k k' hkk hk'
    change k' < nk at hk'
    have hm := hf (colMean fun l k => A1 (w l) k) (a := ⟨k, by omega⟩) (b := ⟨k', hk'⟩) hkk
    rw [← ef hs] at hm
    simp only [Function.comp_apply, colMean] at hm
    show (∑ l ∈ range nl, at2 _ l k) / (nl : ℝ) ≤ (∑ l ∈ range nl, at2 _ l k') / (nl : ℝ)
    have s1 := sum_at2_col (fun l k => (if o.strict then sortRows A1 else A1) (w l) (f k)) (⟨k, by omega⟩ : Fin nk)
    have s2 := sum_at2_col (fun l k => (if o.strict then sortRows A1 else A1) (w l) (f k)) (⟨k', hk'⟩ : Fin nk)
    simp only at s1 s2
    rw [s1, s2]
    simp only [hs, Bool.false_eq_true, if_false]
    exact hm

/-- C45: with `strictly_monotone_a`, each worker type's means are nondecreasing in firm type in the first
period, and in the second unless `stationary_firm_type_variation` replaced them. -/
theorem C45_monotone (sw : Argsort nl) (sf : Argsort nk) (o : GenOpts)
    (A1 A2 S1 S2 : Fin nl → Fin nk → ℝ) (out : GenOut)
    (h : genParams sw sf o A1 A2 S1 S2 = .ok out) (hs : o.strict = true) :
    Spec.RowsMonotone out.A1 ∧ (o.statFirm = false → Spec.RowsMonotone out.A2) := by
  obtain ⟨e1, _, _, e2, _⟩ := gen_A1 sw sf o A1 A2 S1 S2 out h
  obtain ⟨w, f, _, hf1, _, es⟩ := sortA_fst sw sf o.strict A1 A2
  have key : ∀ B : Fin nl → Fin nk → ℝ, Spec.RowsMonotone (.of fun l k => sortRows B (w l) (f k)) := by
    intro B l k k' hl hkk hk'
    change l < nl at hl
    change k' < nk at hk'
    simp only [Arr.of]
    rw [at2, at2, dif_pos ⟨hl, by omega⟩, dif_pos ⟨hl, hk'⟩, hf1 hs]
    exact sortRows_monotone B _ hkk
  have d1 : (sortA sw sf o.strict A1 A2).1 = fun l k => sortRows A1 (w l) (f k) := by
    rw [es, hs]; rfl
  have d2 : (sortA sw sf o.strict A1 A2).2 = fun l k => sortRows A2 (w l) (f k) := by
    rw [es, hs]; rfl
  constructor
  · rw [e1, d1]; exact key A1
  · intro hf
    rw [e2 hf, d1, d2]
    split
    · exact key A1
    · exact key A2

/-- C45: with `stationary_A` (and without `stationary_firm_type_variation`) both periods have the same
means, and with `stationary_S` the same standard deviations. -/
theorem C45_stationary (sw : Argsort nl) (sf : Argsort nk) (o : GenOpts)
    (A1 A2 S1 S2 : Fin nl → Fin nk → ℝ) (out : GenOut)
    (h : genParams sw sf o A1 A2 S1 S2 = .ok out) :
    (o.statA = true → o.statFirm = false → Spec.SameArr out.A1 out.A2) ∧
    (o.statS = true → Spec.SameArr out.S1 out.S2) ∧
    (o.statA = true → nl = nk → Spec.SameArr out.A1 out.A2) := by
  obtain ⟨e1, e3, e4, e2, e5⟩ := gen_A1 sw sf o A1 A2 S1 S2 out h
  refine ⟨?_, ?_, ?_⟩
  · intro ha hf
    rw [e1, e2 hf, ha]
    exact ⟨rfl, rfl, fun _ _ _ _ => rfl⟩
  · intro hs
    rw [e3, e4, hs]
    exact ⟨rfl, rfl, fun _ _ _ _ => rfl⟩
  · intro ha hn
    by_cases hf : o.statFirm = true
    · have hb := e5 hf
      rw [ha] at hb
      unfold bcast at hb
      rw [if_pos (.inl hn)] at hb
      simp only [Except.ok.injEq] at hb
      rw [e1, ← hb]
      refine ⟨rfl, ?_, ?_⟩
      · show nk = if nl = 1 then nk else nl
        split <;> omega
      · intro l k hl hk
        change l < nl at hl
        change k < nk at hk
        have : (if nk = 1 then 0 else k) = k := by split <;> omega
        simp only [Arr.of, this, if_true]
        ring
    · rw [e1, e2 (by simpa using hf), ha]
      exact ⟨rfl, rfl, fun _ _ _ _ => rfl⟩

/-- C45: additive draws give additive means in both periods, sorted or not, unless
`stationary_firm_type_variation` replaced the second period. -/
theorem C45_additive (sw : Argsort nl) (sf : Argsort nk) (o : GenOpts) (α1 α2 : Fin nl → ℝ)
    (ψ1 ψ2 : Fin nk → ℝ) (S1 S2 : Fin nl → Fin nk → ℝ) (out : GenOut)
    (h : genParams sw sf o (fun l k => α1 l + ψ1 k) (fun l k => α2 l + ψ2 k) S1 S2 = .ok out) :
    Spec.Additive out.A1 ∧ (o.statFirm = false → Spec.Additive out.A2) := by
  obtain ⟨e1, _, _, e2, _⟩ := gen_A1 sw sf o _ _ S1 S2 out h
  obtain ⟨w, f, _, _, _, es⟩ := sortA_fst sw sf o.strict (fun l k => α1 l + ψ1 k) (fun l k => α2 l + ψ2 k)
  have key : ∀ (α : Fin nl → ℝ) (ψ : Fin nk → ℝ),
      Spec.Additive (.of fun l k => (if o.strict then sortRows (fun l k => α l + ψ k)
        else fun l k => α l + ψ k) (w l) (f k)) := by
    intro α ψ
    by_cases hs : o.strict = true
    · refine ⟨fun l => at1 (fun l => α (w l)) l, fun k => at1 (fun k => (ψ ∘ Tuple.sort ψ) (f k)) k, ?_⟩
      intro l k hl hk
      change l < nl at hl
      change k < nk at hk
      simp only [Arr.of]
      rw [at2, dif_pos ⟨hl, hk⟩, at1, dif_pos hl, at1, dif_pos hk]
      simp only [hs, if_true]
      have hsort : ∀ a : ℝ, (fun k => a + ψ k) ∘ Tuple.sort (fun k => a + ψ k) = fun k => a + (ψ ∘ Tuple.sort ψ) k := by
        intro a
        have m1 : Monotone ((fun k => a + ψ k) ∘ Tuple.sort ψ) := by
          intro i j hij
          have := Tuple.monotone_sort ψ hij
          simp only [Function.comp_apply] at this ⊢
          linarith
        have := Tuple.comp_sort_eq_comp_iff_monotone (f := fun k => a + ψ k) (σ := Tuple.sort ψ) |>.mpr m1
        rw [← this]
        rfl
      exact congrFun (hsort (α (w ⟨l, hl⟩))) (f ⟨k, hk⟩)
    · refine ⟨fun l => at1 (fun l => α (w l)) l, fun k => at1 (fun k => ψ (f k)) k, ?_⟩
      intro l k hl hk
      change l < nl at hl
      change k < nk at hk
      simp only [Arr.of]
      rw [at2, dif_pos ⟨hl, hk⟩, at1, dif_pos hl, at1, dif_pos hk]
      simp only [hs, Bool.false_eq_true, if_false]
  constructor
  · rw [e1, es]; exact key α1 ψ1
  · intro hf
    rw [e2 hf, es]
    split
    · exact key α1 ψ1
    · exact key α2 ψ2

/-! ### `stationary_firm_type_variation` -/

theorem rowMean_sort (strict : Bool) (A : Fin nl → Fin nk → ℝ) (w : Equiv.Perm (Fin nl))
    (f : Equiv.Perm (Fin nk)) (l : Fin nl) :
    rowMean (fun l k => (if strict then sortRows A else A) (w l) (f k)) l = rowMean A (w l) := by
  unfold rowMean
  congr 1
  cases strict
  · exact Equiv.sum_comp f (A (w l))
  · show ∑ k, (A (w l) ∘ Tuple.sort (A (w l))) (f k) = _
    rw [Equiv.sum_comp f (A (w l) ∘ Tuple.sort (A (w l)))]
    exact Equiv.sum_comp (Tuple.sort (A (w l))) (A (w l))

/-- C45 (partial): with a single worker type, `stationary_firm_type_variation` gives both periods the same
deviations from the mean.  Missing: several worker types, where it is false or raises. -/
theorem C45_firm_variation_partial (sw : Argsort 1) (sf : Argsort nk) (o : GenOpts) (hk : 0 < nk)
    (hf : o.statFirm = true) (A1 A2 S1 S2 : Fin 1 → Fin nk → ℝ) :
    ∃ out, genParams sw sf o A1 A2 S1 S2 = .ok out ∧ Spec.SameVariation 1 nk out.A1 out.A2 := by
  unfold genParams
  simp only [hf, if_true, bcast, true_or, or_true]
  refine ⟨_, rfl, rfl, rfl, rfl, rfl, ?_⟩
  intro l k hl hk'
  simp only [Arr.of]
  have e : ∀ j, j < nk → (if nk = 1 then 0 else j) = j := by
    intro j hj
    split
    · omega
    · rfl
  have e2 : ∑ j ∈ range nk, (at1 (rowMean (if o.statA = true then (sortA sw sf o.strict A1 A2).1
        else (sortA sw sf o.strict A1 A2).2)) 0 +
        at2 (sortA sw sf o.strict A1 A2).1 l (if nk = 1 then 0 else j) -
        at1 (rowMean (sortA sw sf o.strict A1 A2).1) 0) =
      nk * (at1 (rowMean (if o.statA = true then (sortA sw sf o.strict A1 A2).1
        else (sortA sw sf o.strict A1 A2).2)) 0 - at1 (rowMean (sortA sw sf o.strict A1 A2).1) 0) +
      ∑ j ∈ range nk, at2 (sortA sw sf o.strict A1 A2).1 l j := by
    have : ∀ j ∈ range nk, (at1 (rowMean (if o.statA = true then (sortA sw sf o.strict A1 A2).1
        else (sortA sw sf o.strict A1 A2).2)) 0 +
        at2 (sortA sw sf o.strict A1 A2).1 l (if nk = 1 then 0 else j) -
        at1 (rowMean (sortA sw sf o.strict A1 A2).1) 0) =
      (at1 (rowMean (if o.statA = true then (sortA sw sf o.strict A1 A2).1
        else (sortA sw sf o.strict A1 A2).2)) 0 - at1 (rowMean (sortA sw sf o.strict A1 A2).1) 0) +
        at2 (sortA sw sf o.strict A1 A2).1 l j := by
      intro j hj
      rw [e j (mem_range.mp hj)]
      ring
    rw [sum_congr rfl this, sum_add_distrib, sum_const, card_range, nsmul_eq_mul]
  rw [e2, e k hk']
  have : (nk : ℝ) ≠ 0 := Nat.cast_ne_zero.mpr hk.ne'
  field_simp
  ring

/-- C45 (raises): with different numbers of worker and firm types, both above one (the default has 6 and
10), `stationary_firm_type_variation` raises for every draw; so does the option of a worker-interacted
categorical control with a number of categories other than the number of worker types. -/
theorem C45_firm_variation_raises (sw : Argsort nl) (sf : Argsort nk) (o : GenOpts)
    (hf : o.statFirm = true) (h1 : nl ≠ nk) (h2 : nl ≠ 1) (h3 : nk ≠ 1)
    (A1 A2 S1 S2 : Fin nl → Fin nk → ℝ) :
    genParams sw sf o A1 A2 S1 S2 = .error "ValueError" ∧
    ∀ statA, genCat statA true A1 A2 = .error "ValueError" := by
  constructor
  · unfold genParams bcast
    simp only [hf, if_true, h1, h2, h3, or_self, if_false]
    rfl
  · intro statA
    unfold genCat bcast
    simp only [if_true, h1, h2, h3, or_self, if_false]
    rfl

/-- C45 (wrong): with equally many worker and firm types, `stationary_firm_type_variation` gives both
periods the same deviations from the mean only if all worker types' drawn means differ by the same amount
between the periods, an event of probability zero. -/
theorem C45_firm_variation_iff (sw : Argsort n) (sf : Argsort n) (o : GenOpts) (hn : 2 ≤ n)
    (hf : o.statFirm = true) (ha : o.statA = false) (A1 A2 S1 S2 : Fin n → Fin n → ℝ) :
    ∃ out, genParams sw sf o A1 A2 S1 S2 = .ok out ∧
      (Spec.SameVariation n n out.A1 out.A2 ↔ ∃ c, ∀ l, rowMean A2 l - rowMean A1 l = c) := by
  obtain ⟨w, f, _, _, _, es⟩ := sortA_fst sw sf o.strict A1 A2
  have h1 : ¬ n = 1 := by omega
  unfold genParams
  simp only [hf, ha, if_true, bcast, true_or, Bool.false_eq_true, if_false, h1]
  refine ⟨_, rfl, ?_⟩
  have hr1 : ∀ l, rowMean (sortA sw sf o.strict A1 A2).1 l = rowMean A1 (w l) := by
    intro l; rw [es]; exact rowMean_sort o.strict A1 w f l
  have hr2 : ∀ l, rowMean (sortA sw sf o.strict A1 A2).2 l = rowMean A2 (w l) := by
    intro l; rw [es]; exact rowMean_sort o.strict A2 w f l
  set B := (sortA sw sf o.strict A1 A2).1 with hB
  have hnR : (n : ℝ) ≠ 0 := Nat.cast_ne_zero.mpr (by omega)
  set δ : ℕ → ℝ := fun k => at1 (rowMean (sortA sw sf o.strict A1 A2).2) k - at1 (rowMean B) k with hδ
  have hδk : ∀ k : Fin n, δ k = rowMean A2 (w k) - rowMean A1 (w k) := by
    intro k
    simp only [hδ, at1, k.isLt, dif_pos, Fin.eta]
    rw [hr1, hr2]
  have hsum : ∀ l, ∑ j ∈ range n, (at1 (rowMean (sortA sw sf o.strict A1 A2).2) j + at2 B l j - at1 (rowMean B) j) =
      ∑ j ∈ range n, δ j + ∑ j ∈ range n, at2 B l j := by
    intro l
    rw [← sum_add_distrib]
    exact sum_congr rfl fun j _ => by simp only [hδ]; ring
  constructor
  · rintro ⟨_, _, _, _, h⟩
    refine ⟨(∑ j ∈ range n, δ j) / n, fun l => ?_⟩
    have := h 0 (w.symm l) (by omega) (Fin.isLt _)
    simp only [Arr.of, hsum] at this
    have h2 := hδk (w.symm l)
    rw [Equiv.apply_symm_apply] at h2
    rw [← h2]
    simp only [hδ] at this ⊢
    rw [add_div] at this
    linarith
  · rintro ⟨c, hc⟩
    refine ⟨rfl, rfl, rfl, rfl, ?_⟩
    intro l k hl hk
    simp only [Arr.of, hsum]
    have hcst : ∀ j, j < n → δ j = c := fun j hj => by
      rw [hδk ⟨j, hj⟩]; exact hc _
    have : ∑ j ∈ range n, δ j = n * c := by
      rw [sum_congr rfl fun j hj => hcst j (mem_range.mp hj), sum_const, card_range, nsmul_eq_mul]
    rw [this]
    have h3 := hcst k hk
    simp only [hδ] at h3
    rw [add_div, mul_div_cancel_left₀ _ hnR]
    linarith

/-- C45 (wrong): with one firm type and several worker types, `stationary_firm_type_variation` returns an
array of the wrong shape. -/
theorem C45_firm_variation_shape (sw : Argsort nl) (sf : Argsort 1) (o : GenOpts) (hn : 2 ≤ nl)
    (hf : o.statFirm = true) (A1 A2 S1 S2 : Fin nl → Fin 1 → ℝ) :
    ∃ out, genParams sw sf o A1 A2 S1 S2 = .ok out ∧ out.A1.cols = 1 ∧ out.A2.cols = nl := by
  have h1 : ¬ nl = 1 := by omega
  unfold genParams
  simp only [hf, if_true, bcast, or_true, h1, if_false]
  exact ⟨_, rfl, rfl, rfl⟩

/-- Sorting permutations exist. -/
theorem exists_argsort (n : ℕ) : ∃ s : Argsort n, s.Right := ⟨fun f => Tuple.sort f, fun f => Tuple.monotone_sort f⟩

/-- Non-vacuity of the C45 theorems about returned parameters: without
`stationary_firm_type_variation` the call always returns. -/
example (sw : Argsort nl) (sf : Argsort nk) (a s m : Bool) (A1 A2 S1 S2 : Fin nl → Fin nk → ℝ) :
    ∃ out, genParams sw sf ⟨a, s, false, m⟩ A1 A2 S1 S2 = .ok out := ⟨_, rfl⟩

/-- A draw for which `C45_firm_variation_iff` shows different deviations in the two periods. -/
example (sw sf : Argsort 2) : ∃ out, genParams sw sf ⟨false, false, true, false⟩
    ![![0, 1], ![2, 3]] ![![0, 0], ![4, 4]] (fun _ _ => 1) (fun _ _ => 1) = .ok out ∧
    ¬ Spec.SameVariation 2 2 out.A1 out.A2 := by
  obtain ⟨out, h, hiff⟩ := C45_firm_variation_iff sw sf ⟨false, false, true, false⟩ le_rfl rfl rfl
    ![![0, 1], ![2, 3]] ![![0, 0], ![4, 4]] (fun _ _ => 1) (fun _ _ => 1)
  refine ⟨out, h, fun hv => ?_⟩
  obtain ⟨c, hc⟩ := hiff.mp hv
  have h0 := hc 0
  have h1 := hc 1
  simp [rowMean, Fin.sum_univ_two] at h0 h1
  linarith

end Pytwoway.Sim
