import Verif.BLM.Sort

/-! # Normalising effects against categorical controls (`_normalize`) and C36 -/

namespace Pytwoway.BLM

open Finset

variable {nl nk n : ℕ}

/-! ## Model -/

/-- What `_normalize` looks at in a categorical control column: `worker_type_interaction` and whether
`cons_a` contains `cons.Stationary` (blm.py:993-999). -/
structure ColKind where
  wi : Bool
  stat : Bool

/-- The variables `any_tv_nwi`, `tv_nwi_col`, ... of blm.py:987-1015 (`none` for False). -/
structure Found where
  tvNwi : Option ℕ := none
  tnvNwi : Option ℕ := none
  tvWi : Option ℕ := none
  tnvWi : Option ℕ := none

/-- The loop of blm.py:991-1015 over the sorted columns, which stops at the first time-varying
interacted one; `j` is the position of the head of the list. -/
def scan : List ColKind → ℕ → Found → Found
  | [], _, f => f
  | c :: cs, j, f =>
    if c.wi then
      if c.stat then scan cs (j + 1) { f with tnvWi := some j }
      else { f with tvWi := some j }
    else
      if c.stat then scan cs (j + 1) { f with tnvNwi := some j }
      else scan cs (j + 1) { f with tvNwi := some j }

/-- Means and control effects: `A t l k` and `cat j t l c` (column, period, worker type, category).  An
array of a column that is not interacted with worker types has no worker axis; it is represented by a
function that does not depend on `l`.  Used for blm.py:965-1089. -/
structure Effects (nl nk : ℕ) where
  A : Fin 2 → Fin nl → Fin nk → ℝ
  cat : ℕ → Fin 2 → Fin nl → ℕ → ℝ

/-- `A_t[l, :] -= v[l]` and `A_t_cat[col][l, :] += v[l]` in the periods `ts`; with `v` constant also
`A_t -= v` and `A_t_cat[col] += v`.  Used for blm.py:965-1089. -/
def shift (e : Effects nl nk) (j : ℕ) (ts : Fin 2 → Bool) (v : Fin 2 → Fin nl → ℝ) : Effects nl nk where
  A := fun t l k => if ts t then e.A t l k - v t l else e.A t l k
  cat := fun j' t l c => if j' = j ∧ ts t then e.cat j' t l c + v t l else e.cat j' t l c

/-- `secondary_period_dict`, blm.py:1034-1038. -/
def secondary : Primary → Fin 2 → Bool
  | .first, t => t = 1
  | .second, t => t = 0
  | .all, _ => true

/-- The average over the primary periods of `A[l, m]`, blm.py:1048-1053 and 1080-1085. -/
noncomputable def adj (pp : Primary) (A : Fin 2 → Fin nl → Fin nk → ℝ) (l : Fin nl) (m : Fin nk) : ℝ :=
  match pp with
  | .first => A 0 l m
  | .second => A 1 l m
  | .all => (A 0 l m + A 1 l m) / 2

/-- `_normalize`, blm.py:965-1089, given `_min_firm_type` (blm.py:694-716) as `argsort()[0]`.  The
loops over `l` touch disjoint rows and are written as one step.  (`nl`, `nk` positive: `l0` and `k0`
are worker type 0 and position 0.) -/
noncomputable def normalize (a : Argsort) (pp : Primary) (cols : List ColKind) (l0 : Fin nl) (k0 : Fin nk)
    (e : Effects nl nk) : Effects nl nk :=
  if cols.length = 0 then e else
  let m := a.order (firmMean (primaryMean pp e.A)) k0
  let f := scan cols 0 {}
  match f.tvWi with
  | some j => shift e j (fun _ => true) (fun t l => e.A t l m)
  | none =>
    match f.tnvWi with
    | some j =>
      let e1 := shift e j (fun _ => true) (fun _ l => adj pp e.A l m)
      match f.tvNwi with
      | some j' => shift e1 j' (secondary pp) (fun t _ => e1.A t l0 m)
      | none => e1
    | none =>
      match f.tvNwi with
      | some j => shift e j (fun _ => true) (fun t _ => e.A t l0 m)
      | none =>
        match f.tnvNwi with
        | some j => shift e j (fun _ => true) (fun _ _ => adj pp e.A l0 m)
        | none => e

/-! ## Specification -/

/-- The mean wage the model predicts in period `t` for worker type `l` at firm type `k` when the
`j`-th of `n` controls is in category `c j`. -/
def predicted (n : ℕ) (e : Effects nl nk) (t : Fin 2) (l : Fin nl) (k : Fin nk) (c : ℕ → ℕ) : ℝ :=
  e.A t l k + ∑ j ∈ range n, e.cat j t l (c j)

/-- The lowest firm type the source normalises at. -/
noncomputable def lowest (a : Argsort) (pp : Primary) (k0 : Fin nk) (e : Effects nl nk) : Fin nk :=
  a.order (firmMean (primaryMean pp e.A)) k0

/-- Some control of this kind exists. -/
def Has (cols : List ColKind) (wi stat : Bool) : Prop := ∃ c ∈ cols, c.wi = wi ∧ c.stat = stat

/-! ## What the scan finds -/

/-- Column `j` exists and is of this kind. -/
def IsKind (cols : List ColKind) (j : ℕ) (wi stat : Bool) : Prop :=
  ∃ c, cols[j]? = some c ∧ c.wi = wi ∧ c.stat = stat

structure ScanOK (cols : List ColKind) (f : Found) : Prop where
  tvWi : ∀ j, f.tvWi = some j → IsKind cols j true false
  tnvWi : ∀ j, f.tnvWi = some j → IsKind cols j true true
  tvNwi : ∀ j, f.tvNwi = some j → IsKind cols j false false
  tnvNwi : ∀ j, f.tnvNwi = some j → IsKind cols j false true

theorem scan_sound (pre cs : List ColKind) (f : Found) (h : ScanOK (pre ++ cs) f) :
    ScanOK (pre ++ cs) (scan cs pre.length f) := by
  induction cs generalizing pre f with
  | nil => simpa [scan] using h
  | cons c cs ih =>
    have hc : ∀ wi stat, c.wi = wi → c.stat = stat → IsKind (pre ++ c :: cs) pre.length wi stat :=
      fun wi stat h1 h2 => ⟨c, by simp, h1, h2⟩
    have e : pre ++ c :: cs = (pre ++ [c]) ++ cs := by simp
    have el : pre.length + 1 = (pre ++ [c]).length := by simp
    unfold scan
    split
    · rename_i hw
      split
      · rename_i hs
        rw [e, el]
        apply ih
        rw [← e]
        exact ⟨h.tvWi, fun j hj => by cases hj; exact hc _ _ hw hs, h.tvNwi, h.tnvNwi⟩
      · rename_i hs
        exact ⟨fun j hj => by cases hj; exact hc _ _ hw (by simpa using hs), h.tnvWi, h.tvNwi, h.tnvNwi⟩
    · rename_i hw
      have hw' : c.wi = false := by simpa using hw
      split
      · rename_i hs
        rw [e, el]
        apply ih
        rw [← e]
        exact ⟨h.tvWi, h.tnvWi, h.tvNwi, fun j hj => by cases hj; exact hc _ _ hw' hs⟩
      · rename_i hs
        rw [e, el]
        apply ih
        rw [← e]
        exact ⟨h.tvWi, h.tnvWi, fun j hj => by cases hj; exact hc _ _ hw' (by simpa using hs), h.tnvNwi⟩

theorem scan_ok (cols : List ColKind) : ScanOK cols (scan cols 0 {}) := by
  have := scan_sound [] cols {} ⟨by simp, by simp, by simp, by simp⟩
  simpa using this

theorem scan_mono (cs : List ColKind) (j : ℕ) (f : Found) :
    (f.tvWi.isSome → (scan cs j f).tvWi.isSome) ∧ (f.tnvWi.isSome → (scan cs j f).tnvWi.isSome) ∧
    (f.tvNwi.isSome → (scan cs j f).tvNwi.isSome) ∧
    (f.tnvNwi.isSome → (scan cs j f).tnvNwi.isSome) := by
  induction cs generalizing j f with
  | nil => simp [scan]
  | cons c cs ih =>
    unfold scan
    split
    · split
      · have := ih (j + 1) { f with tnvWi := some j }
        exact ⟨this.1, fun _ => this.2.1 rfl, this.2.2.1, this.2.2.2⟩
      · simp
    · split
      · have := ih (j + 1) { f with tnvNwi := some j }
        exact ⟨this.1, this.2.1, this.2.2.1, fun _ => this.2.2.2 rfl⟩
      · have := ih (j + 1) { f with tvNwi := some j }
        exact ⟨this.1, this.2.1, fun _ => this.2.2.1 rfl, this.2.2.2⟩

theorem scan_complete (cs : List ColKind) (j : ℕ) (f : Found) :
    (Has cs true false → (scan cs j f).tvWi.isSome) ∧
    (¬ Has cs true false → (Has cs true true → (scan cs j f).tnvWi.isSome) ∧
      (Has cs false false → (scan cs j f).tvNwi.isSome) ∧
      (Has cs false true → (scan cs j f).tnvNwi.isSome)) := by
  induction cs generalizing j f with
  | nil => simp [Has]
  | cons c cs ih =>
    obtain ⟨wi, stat⟩ := c
    have hh : ∀ a b, Has (⟨wi, stat⟩ :: cs) a b ↔ (wi = a ∧ stat = b) ∨ Has cs a b := by
      intro a b; simp [Has]
    simp only [hh]
    cases wi <;> cases stat
    · have e : scan (⟨false, false⟩ :: cs) j f = scan cs (j + 1) { f with tvNwi := some j } := by
        simp [scan]
      rw [e]
      have := ih (j + 1) { f with tvNwi := some j }
      have m := scan_mono cs (j + 1) { f with tvNwi := some j }
      refine ⟨fun h => this.1 (by simpa using h), fun h => ⟨fun h' => (this.2 (by simpa using h)).1
        (by simpa using h'), fun _ => m.2.2.1 rfl, fun h' => (this.2 (by simpa using h)).2.2
        (by simpa using h')⟩⟩
    · have e : scan (⟨false, true⟩ :: cs) j f = scan cs (j + 1) { f with tnvNwi := some j } := by
        simp [scan]
      rw [e]
      have := ih (j + 1) { f with tnvNwi := some j }
      have m := scan_mono cs (j + 1) { f with tnvNwi := some j }
      refine ⟨fun h => this.1 (by simpa using h), fun h => ⟨fun h' => (this.2 (by simpa using h)).1
        (by simpa using h'), fun h' => (this.2 (by simpa using h)).2.1 (by simpa using h'),
        fun _ => m.2.2.2 rfl⟩⟩
    · have e : scan (⟨true, false⟩ :: cs) j f = { f with tvWi := some j } := by simp [scan]
      rw [e]
      refine ⟨fun _ => rfl, fun h => absurd (Or.inl ⟨rfl, rfl⟩) h⟩
    · have e : scan (⟨true, true⟩ :: cs) j f = scan cs (j + 1) { f with tnvWi := some j } := by
        simp [scan]
      rw [e]
      have := ih (j + 1) { f with tnvWi := some j }
      have m := scan_mono cs (j + 1) { f with tnvWi := some j }
      refine ⟨fun h => this.1 (by simpa using h), fun h => ⟨fun _ => m.2.1 rfl,
        fun h' => (this.2 (by simpa using h)).2.1 (by simpa using h'), fun h' => (this.2
        (by simpa using h)).2.2 (by simpa using h')⟩⟩

theorem isKind_lt {cols : List ColKind} {j : ℕ} {wi stat : Bool} (h : IsKind cols j wi stat) :
    j < cols.length := by
  obtain ⟨c, h, _⟩ := h
  exact (List.getElem?_eq_some_iff.mp h).1

theorem isKind_has {cols : List ColKind} {j : ℕ} {wi stat : Bool} (h : IsKind cols j wi stat) :
    Has cols wi stat := by
  obtain ⟨c, h, h1, h2⟩ := h
  exact ⟨c, List.mem_of_getElem? h, h1, h2⟩

/-! ## The five outcomes -/

theorem shift_predicted (n : ℕ) (e : Effects nl nk) (j : ℕ) (hj : j < n) (ts : Fin 2 → Bool)
    (v : Fin 2 → Fin nl → ℝ) (t : Fin 2) (l : Fin nl) (k : Fin nk) (c : ℕ → ℕ) :
    predicted n (shift e j ts v) t l k c = predicted n e t l k c := by
  unfold predicted shift
  cases ht : ts t with
  | false => simp [ht]
  | true =>
    simp only [ht, if_true, and_true]
    have : ∀ j', (if j' = j then e.cat j' t l (c j') + v t l else e.cat j' t l (c j')) =
        e.cat j' t l (c j') + if j' = j then v t l else 0 := by
      intro j'; split <;> simp
    simp only [this, sum_add_distrib, sum_ite_eq', mem_range, hj, if_true]
    ring

/-- C36: the predicted mean wage of every worker type, firm type, period and combination of control
categories is the same after normalising, whatever kinds of controls there are. -/
theorem C36_predictions (a : Argsort) (pp : Primary) (cols : List ColKind) (l0 : Fin nl) (k0 : Fin nk)
    (e : Effects nl nk) (t : Fin 2) (l : Fin nl) (k : Fin nk) (c : ℕ → ℕ) :
    predicted cols.length (normalize a pp cols l0 k0 e) t l k c = predicted cols.length e t l k c := by
  have ok := scan_ok cols
  unfold normalize
  dsimp only
  split
  · rfl
  · cases h1 : (scan cols 0 {}).tvWi with
    | some j => exact shift_predicted _ _ _ (isKind_lt (ok.tvWi j h1)) _ _ _ _ _ _
    | none =>
      cases h2 : (scan cols 0 {}).tnvWi with
      | some j =>
        cases h3 : (scan cols 0 {}).tvNwi with
        | some j' =>
          simp only
          rw [shift_predicted _ _ _ (isKind_lt (ok.tvNwi j' h3)),
            shift_predicted _ _ _ (isKind_lt (ok.tnvWi j h2))]
        | none => exact shift_predicted _ _ _ (isKind_lt (ok.tnvWi j h2)) _ _ _ _ _ _
      | none =>
        cases h3 : (scan cols 0 {}).tvNwi with
        | some j => exact shift_predicted _ _ _ (isKind_lt (ok.tvNwi j h3)) _ _ _ _ _ _
        | none =>
          cases h4 : (scan cols 0 {}).tnvNwi with
          | some j => exact shift_predicted _ _ _ (isKind_lt (ok.tnvNwi j h4)) _ _ _ _ _ _
          | none => rfl

theorem shift_eq (e : Effects nl nk) (j : ℕ) (ts : Fin 2 → Bool) (v : Fin 2 → Fin nl → ℝ) (j' : ℕ)
    (t : Fin 2) (l : Fin nl) (c : ℕ) :
    (shift e j ts v).cat j' t l c = e.cat j' t l c + if j' = j ∧ ts t then v t l else 0 := by
  unfold shift; simp only; split <;> simp

/-- C36: a stationary control keeps the same effects in both periods. -/
theorem C36_stationary (a : Argsort) (pp : Primary) (cols : List ColKind) (l0 : Fin nl) (k0 : Fin nk)
    (e : Effects nl nk) (j : ℕ) (c : ColKind) (hc : cols[j]? = some c) (hs : c.stat = true)
    (he : e.cat j 0 = e.cat j 1) :
    (normalize a pp cols l0 k0 e).cat j 0 = (normalize a pp cols l0 k0 e).cat j 1 := by
  have ok := scan_ok cols
  have ne : ∀ j' wi, IsKind cols j' wi false → j ≠ j' := by
    rintro j' wi ⟨c', h, -, h'⟩ rfl
    rw [hc] at h; cases h; rw [hs] at h'; cases h'
  have key : ∀ (e : Effects nl nk) j' (ts : Fin 2 → Bool) (v : Fin 2 → Fin nl → ℝ),
      e.cat j 0 = e.cat j 1 → (j ≠ j' ∨ (ts 0 = ts 1 ∧ v 0 = v 1)) →
      (shift e j' ts v).cat j 0 = (shift e j' ts v).cat j 1 := by
    intro e j' ts v he h
    funext l x
    rw [shift_eq, shift_eq, he]
    rcases h with h | ⟨h, h'⟩
    · simp [h]
    · rw [h, h']
  unfold normalize
  dsimp only
  split
  · exact he
  · cases h1 : (scan cols 0 {}).tvWi with
    | some j' => exact key _ _ _ _ he (Or.inl (ne j' _ (ok.tvWi j' h1)))
    | none =>
      cases h2 : (scan cols 0 {}).tnvWi with
      | some j' =>
        have h5 := key e j' (fun _ => true)
          (fun _ l => adj pp e.A l (a.order (firmMean (primaryMean pp e.A)) k0)) he (Or.inr ⟨rfl, rfl⟩)
        cases h3 : (scan cols 0 {}).tvNwi with
        | some j'' => exact key _ _ _ _ h5 (Or.inl (ne j'' _ (ok.tvNwi j'' h3)))
        | none => exact h5
      | none =>
        cases h3 : (scan cols 0 {}).tvNwi with
        | some j' => exact key _ _ _ _ he (Or.inl (ne j' _ (ok.tvNwi j' h3)))
        | none =>
          cases h4 : (scan cols 0 {}).tnvNwi with
          | some j' => exact key _ _ _ _ he (Or.inr ⟨rfl, rfl⟩)
          | none => exact he

/-- C36: a control that is not interacted with worker types keeps effects common to all of them (so
its array, which has no worker axis, is well defined). -/
theorem C36_noninteracted (a : Argsort) (pp : Primary) (cols : List ColKind) (l0 : Fin nl) (k0 : Fin nk)
    (e : Effects nl nk) (j : ℕ) (c : ColKind) (hc : cols[j]? = some c) (hs : c.wi = false)
    (he : ∀ t l l', e.cat j t l = e.cat j t l') (t : Fin 2) (l l' : Fin nl) :
    (normalize a pp cols l0 k0 e).cat j t l = (normalize a pp cols l0 k0 e).cat j t l' := by
  have ok := scan_ok cols
  have ne : ∀ j' stat, IsKind cols j' true stat → j ≠ j' := by
    rintro j' wi ⟨c', h, h', -⟩ rfl
    rw [hc] at h; cases h; rw [hs] at h'; cases h'
  have key : ∀ (e : Effects nl nk) j' (ts : Fin 2 → Bool) (v : Fin 2 → Fin nl → ℝ),
      e.cat j t l = e.cat j t l' → (j ≠ j' ∨ v t l = v t l') →
      (shift e j' ts v).cat j t l = (shift e j' ts v).cat j t l' := by
    intro e j' ts v he h
    funext x
    rw [shift_eq, shift_eq, he]
    rcases h with h | h
    · simp [h]
    · rw [h]
  unfold normalize
  dsimp only
  split
  · exact he t l l'
  · cases h1 : (scan cols 0 {}).tvWi with
    | some j' => exact key _ _ _ _ (he t l l') (Or.inl (ne j' _ (ok.tvWi j' h1)))
    | none =>
      cases h2 : (scan cols 0 {}).tnvWi with
      | some j' =>
        have h5 := key e j' (fun _ => true)
          (fun _ l => adj pp e.A l (a.order (firmMean (primaryMean pp e.A)) k0)) (he t l l')
          (Or.inl (ne j' _ (ok.tnvWi j' h2)))
        cases h3 : (scan cols 0 {}).tvNwi with
        | some j'' => exact key _ _ _ _ h5 (Or.inr rfl)
        | none => exact h5
      | none =>
        cases h3 : (scan cols 0 {}).tvNwi with
        | some j' => exact key _ _ _ _ (he t l l') (Or.inr rfl)
        | none =>
          cases h4 : (scan cols 0 {}).tnvNwi with
          | some j' => exact key _ _ _ _ (he t l l') (Or.inr rfl)
          | none => exact he t l l'

/-- C36: the entries normalised to zero at the lowest firm type, by the kinds of controls present:
time-varying interacted: every worker type in both periods; otherwise stationary interacted: every
worker type's primary-period mean, and with a time-varying control also worker type 0 in the secondary
periods; otherwise worker type 0, in both periods if some control is time-varying and in the mean of
the primary periods if all are stationary. -/
theorem C36_zeros (a : Argsort) (pp : Primary) (cols : List ColKind) (l0 : Fin nl) (k0 : Fin nk)
    (e : Effects nl nk) :
    let m := lowest a pp k0 e
    let A' := (normalize a pp cols l0 k0 e).A
    (Has cols true false → ∀ t l, A' t l m = 0) ∧
    (¬ Has cols true false → Has cols true true → (∀ l, primaryMean pp A' l m = 0) ∧
      (Has cols false false → ∀ t, (pp = .all ∨ pp = .first ∧ t = 1 ∨ pp = .second ∧ t = 0) →
        A' t l0 m = 0)) ∧
    (¬ Has cols true false → ¬ Has cols true true → Has cols false false → ∀ t, A' t l0 m = 0) ∧
    (¬ Has cols true false → ¬ Has cols true true → ¬ Has cols false false → Has cols false true →
      primaryMean pp A' l0 m = 0) := by
  have ok := scan_ok cols
  obtain ⟨cp1, cp2⟩ := scan_complete cols 0 {}
  have hlen : ∀ a b, Has cols a b → ¬ cols.length = 0 := by
    rintro a b ⟨c, hc, -⟩ h
    rw [List.length_eq_zero_iff] at h; rw [h] at hc; cases hc
  have none1 : ¬ Has cols true false → (scan cols 0 {}).tvWi = none := by
    intro h
    cases h1 : (scan cols 0 {}).tvWi with
    | none => rfl
    | some j => exact absurd (isKind_has (ok.tvWi j h1)) h
  have none2 : ¬ Has cols true true → (scan cols 0 {}).tnvWi = none := by
    intro h
    cases h1 : (scan cols 0 {}).tnvWi with
    | none => rfl
    | some j => exact absurd (isKind_has (ok.tnvWi j h1)) h
  have none3 : ¬ Has cols false false → (scan cols 0 {}).tvNwi = none := by
    intro h
    cases h1 : (scan cols 0 {}).tvNwi with
    | none => rfl
    | some j => exact absurd (isKind_has (ok.tvNwi j h1)) h
  intro m A'
  refine ⟨fun h t l => ?_, fun h h' => ?_, fun h h' h'' t => ?_, fun h h' h'' h''' => ?_⟩
  · obtain ⟨j, hj⟩ := Option.isSome_iff_exists.mp (cp1 h)
    simp only [A', normalize, hlen _ _ h, if_false, hj, shift, if_true]
    simp [m, lowest]
  · obtain ⟨j, hj⟩ := Option.isSome_iff_exists.mp ((cp2 h).1 h')
    by_cases h3 : Has cols false false
    · obtain ⟨j', hj'⟩ := Option.isSome_iff_exists.mp ((cp2 h).2.1 h3)
      have hA : ∀ t l, A' t l m = if secondary pp t then
          (e.A t l m - adj pp e.A l m) - (e.A t l0 m - adj pp e.A l0 m)
          else e.A t l m - adj pp e.A l m := by
        intro t l
        simp only [A', normalize, hlen _ _ h', if_false, none1 h, hj, hj', shift, if_true]
        rfl
      refine ⟨fun l => ?_, fun _ t ht => ?_⟩
      · cases pp
        · simp [primaryMean, hA, secondary, adj]
        · simp [primaryMean, hA, secondary, adj]
        · simp only [primaryMean, hA, secondary, adj, if_true]; ring
      · have hs : secondary pp t = true := by
          rcases ht with rfl | ⟨rfl, rfl⟩ | ⟨rfl, rfl⟩ <;> rfl
        rw [hA, if_pos hs]; ring
    · have hA : ∀ t l, A' t l m = e.A t l m - adj pp e.A l m := by
        intro t l
        simp only [A', normalize, hlen _ _ h', if_false, none1 h, hj, none3 h3, shift, if_true]
        rfl
      refine ⟨fun l => ?_, fun h4 => absurd h4 h3⟩
      cases pp
      · simp [primaryMean, hA, adj]
      · simp [primaryMean, hA, adj]
      · simp only [primaryMean, hA, adj]; ring
  · obtain ⟨j, hj⟩ := Option.isSome_iff_exists.mp ((cp2 h).2.1 h'')
    simp only [A', normalize, hlen _ _ h'', if_false, none1 h, none2 h', hj, shift, if_true]
    simp [m, lowest]
  · obtain ⟨j, hj⟩ := Option.isSome_iff_exists.mp ((cp2 h).2.2 h''')
    have hA : ∀ t l, A' t l m = e.A t l m - adj pp e.A l0 m := by
      intro t l
      simp only [A', normalize, hlen _ _ h''', if_false, none1 h, none2 h', none3 h'', hj, shift,
        if_true]
      rfl
    cases pp
    · simp [primaryMean, hA, adj]
    · simp [primaryMean, hA, adj]
    · simp only [primaryMean, hA, adj]; ring

/-- C36: the firm type normalised at has the lowest mean effect in the primary period (with
`k0` the first position). -/
theorem C36_lowest (a : Argsort) (ha : a.Right) (pp : Primary) (k0 : Fin nk) (h0 : k0.val = 0)
    (e : Effects nl nk) (k : Fin nk) :
    firmMean (primaryMean pp e.A) (lowest a pp k0 e) ≤ firmMean (primaryMean pp e.A) k := by
  have := ha nk (firmMean (primaryMean pp e.A))
    (show k0 ≤ (a.order (firmMean (primaryMean pp e.A))).symm k from
      Fin.le_def.mpr (by rw [h0]; exact Nat.zero_le _))
  simpa [lowest] using this

/-- C36: with no categorical control nothing is changed. -/
theorem C36_no_controls (a : Argsort) (pp : Primary) (l0 : Fin nl) (k0 : Fin nk) (e : Effects nl nk) :
    normalize a pp [] l0 k0 e = e := by
  simp [normalize]

/-- Non-vacuity: a list with a stationary interacted and a time-varying non-interacted control. -/
example : ¬ Has [⟨true, true⟩, ⟨false, false⟩] true false ∧ Has [⟨true, true⟩, ⟨false, false⟩] true true ∧
    Has [⟨true, true⟩, ⟨false, false⟩] false false := by
  simp [Has]

end Pytwoway.BLM
