import Verif.Precond.ICholDense
import Verif.Precond.Backsub
import Mathlib.Data.List.Nodup
import Mathlib.Data.Finset.Card
import Mathlib.Tactic.Tauto

/-! # The sparse factorisation computes the dense one -/

namespace Pytwoway.Precond

open scoped BigOperators

/-! ## The accumulator -/

/-- The accumulator holds `f`, which vanishes outside its list of marked rows; these lie strictly between `j` and `n`. -/
structure AccOk (j n : ℕ) (w : Acc) (f : ℕ → ℝ) : Prop where
  val : ∀ i, w.a i = f i
  mark : ∀ i, w.b i = true ↔ i ∈ w.c
  nodup : w.c.Nodup
  zero : ∀ i, i ∉ w.c → f i = 0
  range : ∀ i ∈ w.c, j < i ∧ i < n

theorem AccOk.add {j n : ℕ} {w : Acc} {f : ℕ → ℝ} (h : AccOk j n w f) {i : ℕ} (hi : j < i ∧ i < n) (v : ℝ) :
    AccOk j n (w.add i v) (fun k => f k + if i = k then v else 0) := by
  have hmem : ∀ k, k ∈ (w.add i v).c ↔ k = i ∨ k ∈ w.c := by
    intro k
    unfold Acc.add
    by_cases hb : w.b i = true
    · simp only [hb, if_true]
      have := (h.mark i).mp hb
      constructor
      · exact Or.inr
      · rintro (rfl | hk)
        · exact this
        · exact hk
    · simp only [hb, if_false, Bool.false_eq_true]
      rw [List.mem_append, List.mem_singleton, or_comm]
  refine ⟨?_, ?_, ?_, ?_, ?_⟩
  · intro k
    unfold Acc.add
    simp only
    by_cases hk : k = i
    · subst hk; rw [Function.update_self, h.val, if_pos rfl]
    · rw [Function.update_of_ne hk, h.val, if_neg (Ne.symm hk), add_zero]
  · intro k
    rw [hmem]
    unfold Acc.add
    simp only
    by_cases hb : w.b i = true
    · simp only [hb, if_true]
      rw [h.mark]
      constructor
      · exact Or.inr
      · rintro (rfl | hk)
        · exact (h.mark k).mp hb
        · exact hk
    · rw [if_neg hb]
      by_cases hk : k = i
      · subst hk; simp
      · rw [Function.update_of_ne hk, h.mark]; simp [hk]
  · unfold Acc.add
    by_cases hb : w.b i = true
    · simp only [hb, if_true]; exact h.nodup
    · simp only [hb, if_false, Bool.false_eq_true]
      rw [List.nodup_append]
      refine ⟨h.nodup, by simp, ?_⟩
      intro a ha b hb'
      rw [List.mem_singleton] at hb'
      rintro rfl
      exact hb ((h.mark i).mpr (hb' ▸ ha))
  · intro k hk
    rw [hmem, not_or] at hk
    rw [h.zero k hk.2, if_neg (Ne.symm hk.1), add_zero]
  · intro k hk
    rw [hmem] at hk
    rcases hk with rfl | hk
    · exact hi
    · exact h.range k hk

theorem AccOk.congr {j n : ℕ} {w : Acc} {f g : ℕ → ℝ} (h : AccOk j n w f) (e : ∀ i, f i = g i) : AccOk j n w g := by
  rwa [← funext e]

theorem loadCol_ok {j n : ℕ} (es : Col) (hes : ∀ e ∈ es, e.1 < n) : ∀ (w : Acc) (f : ℕ → ℝ), AccOk j n w f →
    AccOk j n (loadCol j es w) (fun i => f i + if j < i then entry es i else 0) := by
  induction es with
  | nil =>
    intro w f h
    refine h.congr fun i => ?_
    rw [entry_nil, ite_self, add_zero]
  | cons e es ih =>
    intro w f h
    have ih := ih fun x hx => hes x (List.mem_cons_of_mem _ hx)
    unfold loadCol at ih ⊢
    rw [List.foldl_cons]
    by_cases hc : e.2 ≠ 0 ∧ j < e.1
    · rw [if_pos hc]
      refine (ih _ _ (h.add ⟨hc.2, hes e (List.mem_cons_self ..)⟩ e.2)).congr fun i => ?_
      rw [entry_cons]
      by_cases hi : e.1 = i
      · subst hi; simp only [hc.2, if_true]; ring
      · simp only [hi, if_false]; split <;> ring
    · rw [if_neg hc]
      refine (ih _ _ h).congr fun i => ?_
      rw [entry_cons]
      by_cases hi : e.1 = i
      · subst hi
        split
        · rename_i h2
          have : e.2 = 0 := by
            by_contra h0
            exact hc ⟨h0, h2⟩
          rw [if_pos rfl, this, zero_add]
        · rfl
      · rw [if_neg hi, zero_add]

theorem subtract_ok {j n : ℕ} (v : ℝ) (rest : Col) (hr : ∀ e ∈ rest, j < e.1 ∧ e.1 < n) :
    ∀ (w : Acc) (f : ℕ → ℝ), AccOk j n w f →
    AccOk j n (rest.foldl (fun w e => w.add e.1 (-(e.2 * v))) w) (fun i => f i - entry rest i * v) := by
  induction rest with
  | nil =>
    intro w f h
    refine h.congr fun i => ?_
    rw [entry_nil, zero_mul, sub_zero]
  | cons e rest ih =>
    intro w f h
    have ih := ih fun x hx => hr x (List.mem_cons_of_mem _ hx)
    rw [List.foldl_cons]
    refine (ih _ _ (h.add (hr e (List.mem_cons_self ..)) _)).congr fun i => ?_
    rw [entry_cons]
    split <;> ring

/-! ## Linked lists -/

/-- The list of columns reached from a pointer. -/
def Chain (l : ℕ → Option ℕ) : Option ℕ → List ℕ → Prop
  | none, [] => True
  | some k, k' :: t => k = k' ∧ Chain l (l k) t
  | _, _ => False

theorem Chain.congr {l l' : ℕ → Option ℕ} : ∀ {t : List ℕ} {p : Option ℕ}, (∀ k ∈ t, l k = l' k) → Chain l p t →
    Chain l' p t := by
  intro t
  induction t with
  | nil =>
    intro p _ h
    cases p with
    | none => exact h
    | some k => exact h
  | cons k t ih =>
    intro p he h
    cases p with
    | none => exact h
    | some k' =>
      obtain ⟨h1, h2⟩ := h
      subst h1
      refine ⟨rfl, ?_⟩
      rw [← he k' (List.mem_cons_self ..)]
      exact ih (fun x hx => he x (List.mem_cons_of_mem _ hx)) h2

/-- Row of the first entry. -/
def headRow (c : Col) : Option ℕ := c.head?.map (·.1)

/-- The entries of a column from row `j` on. -/
def from' (j : ℕ) (c : Col) : Col := c.filter fun e => j ≤ e.1

/-- Position of a column once the rows before `j` are done: at the entries from row `j` on or, when there are none,
somewhere before. -/
def PosOk (j : ℕ) (c sk : Col) : Prop :=
  (from' j c ≠ [] → sk = from' j c) ∧ (from' j c = [] → ∀ e ∈ sk, e.1 < j)

/-- Rows increase along the column. -/
def Sorted (c : Col) : Prop := c.Pairwise fun x y => x.1 < y.1

theorem from_cons_lt {j : ℕ} {e : ℕ × ℝ} {c : Col} (h : e.1 < j) : from' j (e :: c) = from' j c := by
  unfold from'
  rw [List.filter_cons_of_neg (by simpa using h)]

theorem from_all {j : ℕ} {c : Col} (h : ∀ e ∈ c, j ≤ e.1) : from' j c = c := by
  unfold from'
  rw [List.filter_eq_self]
  simpa using h

theorem entry_from {j i : ℕ} (h : j ≤ i) (c : Col) : entry (from' j c) i = entry c i := by
  induction c with
  | nil => rfl
  | cons e c ih =>
    by_cases he : e.1 < j
    · rw [from_cons_lt he, ih, entry_cons, if_neg (by omega), zero_add]
    · unfold from' at ih ⊢
      rw [List.filter_cons_of_pos (by simpa using he), entry_cons, entry_cons, ih]

theorem from_from {j : ℕ} (c : Col) : from' (j + 1) (from' j c) = from' (j + 1) c := by
  unfold from'
  rw [List.filter_filter]
  congr 1
  funext e
  by_cases h : j + 1 ≤ e.1
  · have : j ≤ e.1 := by omega
    simp [h, this]
  · simp [h]

theorem Sorted.from {c : Col} (h : Sorted c) (j : ℕ) : Sorted (from' j c) := List.Pairwise.filter _ h

/-- A column whose position is at row `j`. -/
theorem at_row {j : ℕ} {c sk : Col} (hc : Sorted c) (hp : PosOk j c sk) (hh : headRow sk = some j) :
    ∃ v rest, sk = (j, v) :: rest ∧ rest = from' (j + 1) c ∧ entry c j = v := by
  cases sk with
  | nil => cases hh
  | cons e rest =>
    obtain ⟨k, v⟩ := e
    have hk : k = j := by simpa [headRow] using hh
    subst hk
    have hne : from' k c ≠ [] := fun h0 => by
      have := hp.2 h0 (k, v) (List.mem_cons_self ..)
      simp at this
    have hs := hp.1 hne
    have hsort := hc.from k
    rw [← hs] at hsort
    have hrest : ∀ e ∈ rest, k + 1 ≤ e.1 := fun e he => (List.pairwise_cons.mp hsort).1 e he
    refine ⟨v, rest, rfl, ?_, ?_⟩
    · rw [← from_from, ← hs, from_cons_lt (by simp), from_all hrest]
    · rw [← entry_from le_rfl, ← hs, entry_cons, if_pos rfl, entry_zero fun e he => by
        have := hrest e he; omega]
      simp

/-- A column whose position is not at row `j` has no entry there. -/
theorem not_at_row {j : ℕ} {c sk : Col} (hc : Sorted c) (hp : PosOk j c sk) (hh : headRow sk ≠ some j) :
    entry c j = 0 ∧ PosOk (j + 1) c sk := by
  by_cases h0 : from' j c = []
  · refine ⟨by rw [← entry_from le_rfl, h0, entry_nil], ?_, ?_⟩
    · intro h
      rw [← from_from, h0] at h
      exact absurd rfl h
    · intro _ e he
      have := hp.2 h0 e he
      omega
  · have hs := hp.1 h0
    have hsort := hc.from j
    have hall : ∀ e ∈ from' j c, j + 1 ≤ e.1 := by
      cases hf : from' j c with
      | nil => exact absurd hf h0
      | cons e rest =>
        rw [hf] at hsort hs
        have h1 : j ≤ e.1 := by
          have : e ∈ from' j c := by rw [hf]; exact List.mem_cons_self ..
          unfold from' at this
          simpa using (List.mem_filter.mp this).2
        have h2 : e.1 ≠ j := fun h => hh (by rw [hs]; simp [headRow, h])
        intro x hx
        rcases List.mem_cons.mp hx with rfl | hx
        · omega
        · have := (List.pairwise_cons.mp hsort).1 x hx
          omega
    have hff : from' (j + 1) c = from' j c := by rw [← from_from, from_all hall]
    refine ⟨?_, ?_, ?_⟩
    · rw [← entry_from le_rfl]
      exact entry_zero fun e he => by have := hall e he; omega
    · intro _; rw [hff]; exact hs
    · intro h; rw [hff] at h; exact absurd h h0

/-- The lists of the rows after `j` hold exactly the columns whose position is at that row. -/
def ListsOk (j m : ℕ) (l : ℕ → Option ℕ) (s : ℕ → Col) : Prop :=
  ∀ i, m ≤ i → ∃ P, Chain l (l i) P ∧ P.Nodup ∧ ∀ k, k ∈ P ↔ k < j ∧ headRow (s k) = some i

theorem walk_ok {j n : ℕ} (low : ℕ → Col) (hlow : ∀ k < j, Sorted (low k) ∧ ∀ e ∈ low k, e.1 < n) :
    ∀ (t : List ℕ) (fuel : ℕ) (p : Option ℕ) (x : Walk) (f : ℕ → ℝ), t.length ≤ fuel → Chain x.l p t → t.Nodup →
    (∀ k ∈ t, k < j ∧ headRow (x.s k) = some j ∧ PosOk j (low k) (x.s k)) →
    (∀ k < j, k ∉ t → PosOk (j + 1) (low k) (x.s k)) →
    ListsOk j (j + 1) x.l x.s → AccOk j n x.w f →
    (∀ k < j, PosOk (j + 1) (low k) ((walk fuel p x).s k)) ∧
    ListsOk j (j + 1) (walk fuel p x).l (walk fuel p x).s ∧
    AccOk j n (walk fuel p x).w
      (fun i => f i - if j < i then (t.map fun k => entry (low k) i * entry (low k) j).sum else 0) := by
  intro t
  induction t with
  | nil =>
    intro fuel p x f _ hch _ _ h2 h3 h4
    have hp : p = none := by
      cases p with
      | none => rfl
      | some k => exact absurd hch (by simp [Chain])
    subst hp
    have : walk fuel none x = x := by cases fuel <;> rfl
    rw [this]
    refine ⟨fun k hk => h2 k hk (by simp), h3, h4.congr fun i => ?_⟩
    simp
  | cons k t ih =>
    intro fuel p x f hfuel hch hnd h1 h2 h3 h4
    cases p with
    | none => exact absurd hch (by simp [Chain])
    | some k' =>
    obtain ⟨rfl, hch⟩ := hch
    obtain ⟨fuel, rfl⟩ : ∃ g, fuel = g + 1 := ⟨fuel - 1, by simp at hfuel; omega⟩
    obtain ⟨hkj, hhead, hpos⟩ := h1 k' (List.mem_cons_self ..)
    obtain ⟨hsk, hlt⟩ := hlow k' hkj
    obtain ⟨v, rest, hs, hrest, hv⟩ := at_row hsk hpos hhead
    obtain ⟨hknt, hnd⟩ := List.nodup_cons.mp hnd
    have hfuel' : t.length ≤ fuel := by simpa using hfuel
    have hent : ∀ i, j < i → entry rest i = entry (low k') i := fun i hi => by rw [hrest]; exact entry_from hi _
    cases hr : rest with
    | nil =>
      have hw : walk (fuel + 1) (some k') x = walk fuel (x.l k') x := by
        rw [walk, hs, hr]
      rw [hw]
      obtain ⟨r1, r2, r3⟩ := ih fuel (x.l k') x f hfuel' hch hnd (fun q hq => h1 q (List.mem_cons_of_mem _ hq))
        (fun q hq hqt => by
          by_cases hqk : q = k'
          · subst hqk
            refine ⟨fun hne => ?_, fun _ e he => ?_⟩
            · rw [← hrest, hr] at hne; exact absurd rfl hne
            · rw [hs, hr, List.mem_singleton] at he
              rw [he]; simp
          · exact h2 q hq (by simp [hqk, hqt])) h3 h4
      refine ⟨r1, r2, r3.congr fun i => ?_⟩
      by_cases hi : j < i
      · have : entry (low k') i = 0 := by rw [← hent i hi, hr, entry_nil]
        simp only [hi, if_true, List.map_cons, List.sum_cons, this, zero_mul, zero_add]
      · simp only [hi, if_false]
    | cons e more =>
      obtain ⟨i, vi⟩ := e
      set x' : Walk := {
          l := Function.update (Function.update x.l k' (x.l i)) i (some k')
          s := Function.update x.s k' ((i, vi) :: more)
          w := ((i, vi) :: more).foldl (fun w e => w.add e.1 (-(e.2 * v))) x.w } with hx'
      have hw : walk (fuel + 1) (some k') x = walk fuel (x.l k') x' := by
        rw [walk, hs, hr]
      have hmem : ∀ e ∈ rest, j < e.1 ∧ e.1 < n := by
        intro e he
        rw [hrest] at he
        unfold from' at he
        obtain ⟨a, b⟩ := List.mem_filter.mp he
        exact ⟨by simpa using b, hlt e a⟩
      have hij : j < i := (hmem (i, vi) (by rw [hr]; exact List.mem_cons_self ..)).1
      have hki : k' ≠ i := by omega
      rw [hw]
      have hs' : ∀ q, q ≠ k' → x'.s q = x.s q := fun q hq => Function.update_of_ne hq _ _
      have hsk' : x'.s k' = rest := by rw [hx', hr]; exact Function.update_self ..
      have hl' : ∀ q, q ≠ k' → q ≠ i → x'.l q = x.l q := fun q h h' => by
        rw [hx']
        simp only
        rw [Function.update_of_ne h', Function.update_of_ne h]
      obtain ⟨r1, r2, r3⟩ := ih fuel (x.l k') x' (fun a => f a - entry rest a * v) hfuel'
        (hch.congr fun q hq => (hl' q (fun h => hknt (h ▸ hq)) (by
          have := (h1 q (List.mem_cons_of_mem _ hq)).1; omega)).symm) hnd
        (fun q hq => by
          have hqk : q ≠ k' := fun h => hknt (h ▸ hq)
          rw [hs' q hqk]
          exact h1 q (List.mem_cons_of_mem _ hq))
        (fun q hq hqt => by
          by_cases hqk : q = k'
          · subst hqk
            rw [hsk']
            exact ⟨fun _ => hrest, fun h => by rw [← hrest, hr] at h; cases h⟩
          · rw [hs' q hqk]
            exact h2 q hq (by simp [hqk, hqt]))
        (by
          intro i' hi'
          obtain ⟨P, c1, c2, c3⟩ := h3 i' hi'
          have hkP : k' ∉ P := fun h => by
            have := ((c3 k').mp h).2
            rw [hhead] at this
            have := Option.some.inj this
            omega
          by_cases hii : i' = i
          · subst hii
            refine ⟨k' :: P, ?_, List.nodup_cons.mpr ⟨hkP, c2⟩, ?_⟩
            · have e1 : x'.l i' = some k' := by rw [hx']; exact Function.update_self ..
              have e2 : x'.l k' = x.l i' := by
                rw [hx']
                simp only
                rw [Function.update_of_ne hki, Function.update_self]
              rw [e1]
              refine ⟨rfl, ?_⟩
              rw [e2]
              refine c1.congr fun q hq => (hl' q (fun h => hkP (h ▸ hq)) ?_).symm
              have := ((c3 q).mp hq).1
              omega
            · intro q
              rw [List.mem_cons]
              by_cases hqk : q = k'
              · subst hqk
                rw [hsk', hr]
                simp [headRow, hkj]
              · rw [hs' q hqk, ← c3 q]
                simp [hqk]
          · refine ⟨P, ?_, c2, ?_⟩
            · rw [hl' i' (by omega) hii]
              refine c1.congr fun q hq => (hl' q (fun h => hkP (h ▸ hq)) ?_).symm
              have := ((c3 q).mp hq).1
              omega
            · intro q
              by_cases hqk : q = k'
              · subst hqk
                rw [hsk', hr]
                constructor
                · intro h; exact absurd h hkP
                · rintro ⟨_, h⟩
                  have : i = i' := by simpa [headRow] using h
                  exact absurd this.symm hii
              · rw [hs' q hqk]
                exact c3 q)
        (by
          rw [hx', ← hr]
          exact subtract_ok v rest hmem x.w f h4)
      refine ⟨r1, r2, r3.congr fun a => ?_⟩
      by_cases ha : j < a
      · simp only [ha, if_true, List.map_cons, List.sum_cons, hent a ha, hv]
        ring
      · have : entry rest a = 0 := entry_zero fun e he => by have := (hmem e he).1; omega
        simp only [ha, if_false, this, zero_mul, sub_zero]

/-! ## Writing a column -/

open scoped Classical in
/-- The rows kept, with their values. -/
noncomputable def keptCol (o : Opts) (dj rj : ℝ) (a : ℕ → ℝ) (cs : List ℕ) : Col :=
  (cs.filter fun i => Kept o rj dj (a i)).map fun i => (i, a i / dj)

theorem keptCol_congr (o : Opts) (dj rj : ℝ) {a a' : ℕ → ℝ} : ∀ {cs : List ℕ}, (∀ i ∈ cs, a i = a' i) →
    keptCol o dj rj a cs = keptCol o dj rj a' cs := by
  intro cs
  induction cs with
  | nil => intro _; rfl
  | cons i cs ih =>
    intro h
    have h1 := h i (List.mem_cons_self ..)
    have h2 := ih fun q hq => h q (List.mem_cons_of_mem _ hq)
    unfold keptCol at h2 ⊢
    rw [List.filter_cons, List.filter_cons, h1]
    split
    · rw [List.map_cons, List.map_cons, h1, h2]
    · exact h2

open scoped Classical in
theorem emit_fold (o : Opts) (dj rj : ℝ) : ∀ (cs : List ℕ) (x : Emit), cs.Nodup →
    (∀ i, (cs.foldl (emit o dj rj) x).d i =
      if i ∈ cs ∧ (o.keep = true ∨ Kept o rj dj (x.a i)) then x.d i - (x.a i / dj) ^ 2 else x.d i) ∧
    (∀ i, (cs.foldl (emit o dj rj) x).a i = if i ∈ cs then 0 else x.a i) ∧
    (∀ i, (cs.foldl (emit o dj rj) x).b i = if i ∈ cs then false else x.b i) ∧
    (cs.foldl (emit o dj rj) x).out = x.out ++ keptCol o dj rj x.a cs := by
  intro cs
  induction cs with
  | nil =>
    intro x _
    refine ⟨fun i => by simp, fun i => by simp, fun i => by simp, by simp [keptCol]⟩
  | cons q cs ih =>
    intro x hnd
    obtain ⟨hq, hnd⟩ := List.nodup_cons.mp hnd
    rw [List.foldl_cons]
    obtain ⟨r1, r2, r3, r4⟩ := ih (emit o dj rj x q) hnd
    have ea : ∀ i, i ≠ q → (emit o dj rj x q).a i = x.a i := fun i hi => Function.update_of_ne hi _ _
    have eb : ∀ i, i ≠ q → (emit o dj rj x q).b i = x.b i := fun i hi => Function.update_of_ne hi _ _
    have ed : ∀ i, i ≠ q → (emit o dj rj x q).d i = x.d i := fun i hi => by
      unfold emit
      simp only
      split <;> split <;> simp [Function.update_of_ne hi]
    have edq : (emit o dj rj x q).d q =
        if o.keep = true ∨ Kept o rj dj (x.a q) then x.d q - (x.a q / dj) ^ 2 else x.d q := by
      unfold emit Kept
      by_cases hk : o.keep = true
      · simp [hk, sq]
      · by_cases hb : |x.a q / dj| > o.discard ∧ |x.a q| > o.rel * rj
        · simp only [hk, hb, Bool.false_eq_true, not_false_eq_true, and_self, if_true, if_false, false_or,
            Function.update_self, sq]
        · simp only [hk, hb, Bool.false_eq_true, false_and, if_false, false_or]
    refine ⟨?_, ?_, ?_, ?_⟩
    · intro i
      rw [r1]
      by_cases hi : i = q
      · subst hi
        simp only [hq, false_and, if_false, List.mem_cons_self, true_and]
        rw [edq]
      · rw [ea i hi, ed i hi]
        simp only [List.mem_cons, hi, false_or]
    · intro i
      rw [r2]
      by_cases hi : i = q
      · subst hi
        simp only [hq, if_false, List.mem_cons_self, if_true]
        exact Function.update_self ..
      · rw [ea i hi]
        simp only [List.mem_cons, hi, false_or]
    · intro i
      rw [r3]
      by_cases hi : i = q
      · subst hi
        simp only [hq, if_false, List.mem_cons_self, if_true]
        exact Function.update_self ..
      · rw [eb i hi]
        simp only [List.mem_cons, hi, false_or]
    · rw [r4, keptCol_congr o dj rj (a' := x.a) fun i hi => ea i fun h => hq (h ▸ hi)]
      have : (emit o dj rj x q).out = if Kept o rj dj (x.a q) then x.out ++ [(q, x.a q / dj)] else x.out := by
        unfold emit Kept
        by_cases hb : |x.a q / dj| > o.discard ∧ |x.a q| > o.rel * rj
        · simp only [hb, and_self, if_true]
        · simp only [hb, if_false]
      rw [this]
      unfold keptCol
      rw [List.filter_cons]
      by_cases hk : Kept o rj dj (x.a q)
      · simp [hk]
      · simp [hk]

theorem keptCol_mem {o : Opts} {dj rj : ℝ} {a : ℕ → ℝ} {cs : List ℕ} {e : ℕ × ℝ} (h : e ∈ keptCol o dj rj a cs) :
    e.1 ∈ cs := by
  unfold keptCol at h
  obtain ⟨i, hi, rfl⟩ := List.mem_map.mp h
  exact (List.mem_filter.mp hi).1

theorem keptCol_sorted (o : Opts) (dj rj : ℝ) (a : ℕ → ℝ) {cs : List ℕ} (h : cs.Pairwise (· < ·)) :
    Sorted (keptCol o dj rj a cs) := by
  unfold Sorted keptCol
  rw [List.pairwise_map]
  exact h.filter _

open scoped Classical in
theorem entry_keptCol (o : Opts) (dj rj : ℝ) (a : ℕ → ℝ) (i : ℕ) : ∀ {cs : List ℕ}, cs.Nodup →
    entry (keptCol o dj rj a cs) i = if i ∈ cs ∧ Kept o rj dj (a i) then a i / dj else 0 := by
  intro cs
  induction cs with
  | nil => intro _; simp [keptCol, entry]
  | cons q cs ih =>
    intro hnd
    obtain ⟨hq, hnd⟩ := List.nodup_cons.mp hnd
    have ih := ih hnd
    unfold keptCol at ih ⊢
    rw [List.filter_cons]
    by_cases hi : i = q
    · subst hi
      simp only [hq, false_and, if_false] at ih
      by_cases hk : Kept o rj dj (a i)
      · simp [hk, entry_cons, ih]
      · simp [hk, ih]
    · by_cases hk : Kept o rj dj (a q)
      · simp [hk, entry_cons, ih, hi, Ne.symm hi]
      · simp [hk, ih, hi]

/-! ## One column -/

/-- Input: rows increase along each column and are smaller than `n`, and each column stores its diagonal entry. -/
def Canonical (A : Csc) : Prop :=
  ∀ j < A.n, Sorted (A.cols j) ∧ (∀ e ∈ A.cols j, e.1 < A.n) ∧ ∃ e ∈ A.cols j, e.1 = j

/-- Entry `i, j` of the input. -/
noncomputable def ent (A : Csc) (i j : ℕ) : ℝ := entry (A.cols j) i

theorem scan_col {j : ℕ} : ∀ {c : Col}, Sorted c → (∃ e ∈ c, e.1 = j) →
    (∀ e ∈ (c.dropWhile fun e => e.1 ≠ j).tail, e ∈ c) ∧
    ∀ i, j < i → entry (c.dropWhile fun e => e.1 ≠ j).tail i = entry c i := by
  intro c
  induction c with
  | nil => rintro _ ⟨e, he, _⟩; cases he
  | cons e c ih =>
    intro hs hex
    obtain ⟨h1, h2⟩ := List.pairwise_cons.mp hs
    rw [List.dropWhile_cons]
    by_cases he : e.1 = j
    · simp only [he, ne_eq, not_true, decide_false, Bool.false_eq_true, if_false, List.tail_cons]
      refine ⟨fun x hx => List.mem_cons_of_mem _ hx, fun i hi => ?_⟩
      rw [entry_cons, if_neg (by omega), zero_add]
    · have hex' : ∃ e ∈ c, e.1 = j := by
        obtain ⟨x, hx, hxj⟩ := hex
        rcases List.mem_cons.mp hx with rfl | hx
        · exact absurd hxj he
        · exact ⟨x, hx, hxj⟩
      obtain ⟨r1, r2⟩ := ih h2 hex'
      simp only [ne_eq, he, not_false_eq_true, decide_true, if_true]
      refine ⟨fun x hx => List.mem_cons_of_mem _ (r1 x hx), fun i hi => ?_⟩
      have : e.1 < j := by
        obtain ⟨x, hx, rfl⟩ := hex'
        exact h1 x hx
      rw [entry_cons, if_neg (by omega), zero_add]
      exact r2 i hi

theorem scan_ok {A : Csc} (hA : Canonical A) {j : ℕ} (hj : j < A.n) :
    (∀ e ∈ scan A j, e.1 < A.n) ∧ ∀ i, j < i → entry (scan A j) i = ent A i j := by
  obtain ⟨h1, h2, e, he, hej⟩ := hA j hj
  have hany : ((A.cols j).any fun e => e.1 = j) = true := by
    rw [List.any_eq_true]
    exact ⟨e, he, by simpa using hej⟩
  obtain ⟨r1, r2⟩ := scan_col (j := j) h1 ⟨e, he, hej⟩
  unfold scan
  rw [if_pos hany]
  exact ⟨fun x hx => h2 x (r1 x hx), r2⟩

theorem diag0_eq (A : Csc) (o : Opts) (j : ℕ) : diag0 A o j = ent A j j + o.shift := by
  unfold diag0 ent
  rw [add_comm]
  congr 1
  generalize A.cols j = c
  induction c with
  | nil => rfl
  | cons e c ih =>
    rw [entry_cons, List.filter_cons]
    by_cases h : e.1 = j
    · simp only [h, decide_true, if_true, List.map_cons, List.sum_cons, ih]
    · simp only [h, decide_false, Bool.false_eq_true, if_false, ih, zero_add]

/-- What the sparse and the dense algorithm have in common after `j` columns. -/
structure Sim (A : Csc) (j : ℕ) (st : St) (ds : DSt) (low : ℕ → Col) : Prop where
  acc : st.w = ⟨fun _ => 0, fun _ => false, []⟩
  col : ∀ k < j, ∃ e, st.L k = (k, e) :: low k ∧ 0 < e
  sorted : ∀ k < j, Sorted (low k)
  below : ∀ k < j, ∀ e ∈ low k, k < e.1 ∧ e.1 < A.n
  pos : ∀ k < j, PosOk j (low k) (st.s k)
  lists : ListsOk j j st.l st.s
  L : ∀ k < j, ∀ i, ds.L i k = entry (st.L k) i
  d : ∀ i, j ≤ i → st.d i = ds.d i
  nnz : st.nnz ≤ j * A.n

theorem step_ok {A : Csc} (hA : Canonical A) {o : Opts} {j : ℕ} (hj : j < A.n) {st : St} {ds : DSt} {low : ℕ → Col}
    (h : Sim A j st ds low) :
    match icholStep A o st j with
    | .error .notPosDef => denseStep (ent A) (colAbs A) o ds j = none
    | .error .tooMany => o.maxNnz < A.n * A.n
    | .ok st' => ∃ ds' low', denseStep (ent A) (colAbs A) o ds j = some ds' ∧ Sim A (j + 1) st' ds' low' := by
  classical
  obtain ⟨hscan, hscanv⟩ := scan_ok hA hj
  -- the accumulator after loading and walking
  have a0 : AccOk j A.n st.w (fun _ => 0) := by
    rw [h.acc]
    refine ⟨fun _ => rfl, fun i => by simp, by simp, fun _ _ => rfl, fun i hi => by simp at hi⟩
  have a1 := loadCol_ok (scan A j) hscan st.w _ a0
  obtain ⟨t, hch, hnd, hmem⟩ := h.lists j le_rfl
  have hlen : t.length ≤ A.n := by
    have : t.toFinset ⊆ Finset.range j := fun k hk => Finset.mem_range.mpr ((hmem k).mp (List.mem_toFinset.mp hk)).1
    have := Finset.card_le_card this
    rw [List.toFinset_card_of_nodup hnd, Finset.card_range] at this
    omega
  obtain ⟨w1, w2, w3⟩ := walk_ok low (fun k hk => ⟨h.sorted k hk, fun e he => (h.below k hk e he).2⟩) t A.n (st.l j)
    ⟨st.l, st.s, loadCol j (scan A j) st.w⟩ _ hlen hch hnd
    (fun k hk => ⟨((hmem k).mp hk).1, ((hmem k).mp hk).2, h.pos k ((hmem k).mp hk).1⟩)
    (fun k hk hkt => (not_at_row (h.sorted k hk) (h.pos k hk) fun hh => hkt ((hmem k).mpr ⟨hk, hh⟩)).2)
    (fun i hi => h.lists i (by omega)) a1
  set x := walk A.n (st.l j) ⟨st.l, st.s, loadCol j (scan A j) st.w⟩ with hx
  have hLlow : ∀ k < j, ∀ i, k < i → entry (st.L k) i = entry (low k) i := by
    intro k hk i hi
    obtain ⟨e, he, _⟩ := h.col k hk
    rw [he, entry_cons, if_neg hi.ne, zero_add]
  have hval : ∀ i, j < i → x.w.a i = resid (ent A) ds.L i j := by
    intro i hi
    rw [w3.val i]
    simp only [hi, if_true, zero_add]
    rw [hscanv i hi, resid]
    congr 1
    have e1 : ∑ k ∈ Finset.range j, ds.L i k * ds.L j k = ∑ k ∈ Finset.range j, entry (low k) i * entry (low k) j :=
      Finset.sum_congr rfl fun k hk => by
        have hk := Finset.mem_range.mp hk
        rw [h.L k hk, h.L k hk, hLlow k hk i (by omega), hLlow k hk j hk]
    rw [e1, ← List.sum_toFinset _ hnd]
    refine (Finset.sum_subset (fun k hk => Finset.mem_range.mpr ((hmem k).mp (List.mem_toFinset.mp hk)).1) ?_)
    intro k hk hkt
    have hk := Finset.mem_range.mp hk
    rw [(not_at_row (h.sorted k hk) (h.pos k hk) fun hh => hkt (List.mem_toFinset.mpr ((hmem k).mpr ⟨hk, hh⟩))).1,
      mul_zero]
  have hclen : 1 + x.w.c.length ≤ A.n := by
    have : x.w.c.toFinset ⊆ Finset.Ico (j + 1) A.n := fun k hk => by
      have := w3.range k (List.mem_toFinset.mp hk)
      exact Finset.mem_Ico.mpr ⟨by omega, this.2⟩
    have := Finset.card_le_card this
    rw [List.toFinset_card_of_nodup w3.nodup, Nat.card_Ico] at this
    omega
  unfold icholStep
  simp only
  rw [← hx]
  by_cases hd : st.d j ≤ 0
  · simp only [hd, if_true]
    unfold denseStep
    rw [if_pos (by rw [← h.d j le_rfl]; exact hd)]
  by_cases hmax : st.nnz + 1 + x.w.c.length > o.maxNnz
  · simp only [hd, hmax, if_false, if_true]
    have h1 := h.nnz
    have h2 : (j + 1) * A.n ≤ A.n * A.n := Nat.mul_le_mul_right _ hj
    have h3 : (j + 1) * A.n = j * A.n + A.n := by ring
    omega
  simp only [hd, hmax, if_false]
  have hd' : ¬ ds.d j ≤ 0 := by rw [← h.d j le_rfl]; exact hd
  have hdpos : 0 < st.d j := not_le.mp hd
  set cs := x.w.c.mergeSort (fun p q => decide (p ≤ q)) with hcs
  have hperm : cs.Perm x.w.c := List.mergeSort_perm _ _
  have hcsnd : cs.Nodup := hperm.nodup_iff.mpr w3.nodup
  have hcsmem : ∀ i, i ∈ cs ↔ i ∈ x.w.c := fun i => hperm.mem_iff
  have hcslt : cs.Pairwise (· < ·) := by
    have h1 : cs.Pairwise (fun p q => decide (p ≤ q) = true) :=
      List.pairwise_mergeSort (fun a b c hab hbc => by simp at *; omega) (fun a b => by simp; omega) _
    refine (h1.and hcsnd).imp fun {a b} hab => ?_
    have : a ≤ b := by simpa using hab.1
    have := hab.2
    omega
  set dj := √(st.d j) with hdj
  have hdjpos : 0 < dj := Real.sqrt_pos.mpr hdpos
  obtain ⟨r1, r2, r3, r4⟩ := emit_fold o dj (colAbs A j) cs ⟨Function.update st.d j dj, x.w.a, x.w.b, []⟩ hcsnd
  set E := cs.foldl (emit o dj (colAbs A j)) ⟨Function.update st.d j dj, x.w.a, x.w.b, []⟩ with hE
  simp only [List.nil_append] at r4
  have hout : ∀ e ∈ E.out, j < e.1 ∧ e.1 < A.n := fun e he => by
    rw [r4] at he
    exact w3.range e.1 ((hcsmem _).mp (keptCol_mem he))
  have houtsort : Sorted E.out := by rw [r4]; exact keptCol_sorted _ _ _ _ hcslt
  have hzero : ∀ i, i ∉ cs → x.w.a i = 0 := fun i hi => by
    rw [w3.val]
    exact w3.zero i fun hc => hi ((hcsmem i).mpr hc)
  have hentout : ∀ i, j < i → entry E.out i =
      if Kept o (colAbs A j) dj (resid (ent A) ds.L i j) then resid (ent A) ds.L i j / dj else 0 := by
    intro i hi
    rw [r4, entry_keptCol _ _ _ _ _ hcsnd, hval i hi]
    by_cases hic : i ∈ cs
    · simp only [hic, true_and]
    · have : resid (ent A) ds.L i j = 0 := by rw [← hval i hi]; exact hzero i hic
      simp only [hic, false_and, if_false, this, zero_div, ite_self]
  unfold denseStep
  rw [if_neg hd', ← h.d j le_rfl, ← hdj]
  refine ⟨_, Function.update low j E.out, rfl, ?_⟩
  have hlow : ∀ k, k ≠ j → Function.update low j E.out k = low k := fun k hk => Function.update_of_ne hk _ _
  have hlowj : Function.update low j E.out j = E.out := Function.update_self ..
  refine ⟨?_, ?_, ?_, ?_, ?_, ?_, ?_, ?_, ?_⟩
  · simp only
    congr 1
    · funext i
      rw [r2]
      split
      · rfl
      · rename_i hi
        exact hzero i hi
    · funext i
      rw [r3]
      split
      · rfl
      · rename_i hi
        have := (w3.mark i).not.mpr fun hc => hi ((hcsmem i).mpr hc)
        simpa using this
  · intro k hk
    rcases Nat.lt_succ_iff_lt_or_eq.mp hk with hk | rfl
    · simp only
      rw [Function.update_of_ne hk.ne, hlow k hk.ne]
      exact h.col k hk
    · simp only
      rw [Function.update_self, hlowj]
      exact ⟨dj, rfl, hdjpos⟩
  · intro k hk
    rcases Nat.lt_succ_iff_lt_or_eq.mp hk with hk | rfl
    · rw [hlow k hk.ne]; exact h.sorted k hk
    · rw [hlowj]; exact houtsort
  · intro k hk
    rcases Nat.lt_succ_iff_lt_or_eq.mp hk with hk | rfl
    · rw [hlow k hk.ne]; exact h.below k hk
    · rw [hlowj]; exact hout
  · intro k hk
    rcases Nat.lt_succ_iff_lt_or_eq.mp hk with hk | rfl
    · simp only
      rw [hlow k hk.ne, Function.update_of_ne hk.ne]
      exact w1 k hk
    · simp only
      rw [hlowj, Function.update_self]
      have : from' (k + 1) E.out = E.out := from_all fun e he => (hout e he).1
      rw [PosOk, this]
      exact ⟨fun _ => rfl, fun h => by rw [h]; intro e he; cases he⟩
  · intro i hi
    obtain ⟨P, c1, c2, c3⟩ := w2 i hi
    have hjP : j ∉ P := fun hjP => absurd ((c3 j).mp hjP).1 (by omega)
    have hs : ∀ k, k ≠ j → Function.update x.s j E.out k = x.s k := fun k hk => Function.update_of_ne hk _ _
    cases hEo : E.out with
    | nil =>
      refine ⟨P, c1, c2, fun k => ?_⟩
      by_cases hk : k = j
      · subst hk
        simp only [Function.update_self]
        constructor
        · intro h'; exact absurd h' hjP
        · rintro ⟨_, h'⟩; simp [headRow] at h'
      · simp only
        rw [Function.update_of_ne hk, c3 k]
        constructor
        · rintro ⟨u, v⟩; exact ⟨by omega, v⟩
        · rintro ⟨u, v⟩; exact ⟨by omega, v⟩
    | cons e more =>
      obtain ⟨q, vq⟩ := e
      have hqj : j < q := (hout (q, vq) (by rw [hEo]; exact List.mem_cons_self ..)).1
      have hl' : ∀ k, k ≠ j → k ≠ q → Function.update (Function.update x.l j (x.l q)) q (some j) k = x.l k :=
        fun k h1 h2 => by rw [Function.update_of_ne h2, Function.update_of_ne h1]
      have hPl : ∀ k ∈ P, x.l k = Function.update (Function.update x.l j (x.l q)) q (some j) k := fun k hk => by
        have := ((c3 k).mp hk).1
        exact (hl' k (by omega) (by omega)).symm
      by_cases hiq : i = q
      · subst hiq
        refine ⟨j :: P, ?_, List.nodup_cons.mpr ⟨hjP, c2⟩, fun k => ?_⟩
        · simp only [Function.update_self]
          refine ⟨rfl, ?_⟩
          rw [Function.update_of_ne (by omega : j ≠ i), Function.update_self]
          exact c1.congr hPl
        · rw [List.mem_cons]
          by_cases hk : k = j
          · subst hk; simp [headRow]
          · simp only
            rw [Function.update_of_ne hk, c3 k]
            constructor
            · rintro (u | ⟨u, v⟩)
              · exact absurd u hk
              · exact ⟨by omega, v⟩
            · rintro ⟨u, v⟩; exact Or.inr ⟨by omega, v⟩
      · refine ⟨P, ?_, c2, fun k => ?_⟩
        · simp only
          rw [hl' i (by omega) hiq]
          exact c1.congr hPl
        · by_cases hk : k = j
          · subst hk
            simp only [Function.update_self]
            constructor
            · intro h'; exact absurd h' hjP
            · rintro ⟨_, h'⟩
              have : q = i := by simpa [headRow] using h'
              exact absurd this.symm hiq
          · simp only
            rw [Function.update_of_ne hk, c3 k]
            constructor
            · rintro ⟨u, v⟩; exact ⟨by omega, v⟩
            · rintro ⟨u, v⟩; exact ⟨by omega, v⟩
  · intro k hk i
    rcases Nat.lt_succ_iff_lt_or_eq.mp hk with hk | rfl
    · simp only
      rw [if_neg hk.ne, Function.update_of_ne hk.ne]
      exact h.L k hk i
    · simp only [if_true]
      rw [Function.update_self, entry_cons]
      rcases lt_trichotomy i k with hi | rfl | hi
      · rw [if_neg hi.ne, if_neg (fun hc => absurd hc.1 (by omega)), if_neg (by simpa using hi.ne'), zero_add,
          entry_zero fun e he => by have := (hout e he).1; omega]
      · simp only [if_true]
        rw [entry_zero fun e he => by have := (hout e he).1; omega, add_zero]
      · simp only [hi.ne', hi.ne, hi, if_false, true_and, zero_add]
        rw [hentout i hi]
  · intro i hi
    have hij : j < i := hi
    simp only
    rw [r1]
    simp only
    rw [Function.update_of_ne hij.ne', h.d i (by omega), hval i hij]
    simp only [hij, true_and]
    by_cases hic : i ∈ cs
    · simp only [hic, true_and]
    · have : resid (ent A) ds.L i j = 0 := by rw [← hval i hij]; exact hzero i hic
      simp only [hic, false_and, if_false, this, zero_div]
      split <;> ring
  · have h1 := h.nnz
    have h2 : E.out.length ≤ x.w.c.length := by
      rw [r4, keptCol, List.length_map, ← hperm.length_eq]
      exact List.length_filter_le _ _
    have h3 : (j + 1) * A.n = j * A.n + A.n := by ring
    simp only
    omega

/-- The sparse factorisation is the dense one: it fails with code -1 exactly when the dense algorithm meets a pivot that
is not positive, and otherwise stores the dense factor, unless `max_nnz` is smaller than `n * n` and exceeded. -/
theorem ichol_refines {A : Csc} (hA : Canonical A) (o : Opts) :
    match icholRun A o with
    | .error .notPosDef => dense (ent A) (colAbs A) o A.n = none
    | .error .tooMany => o.maxNnz < A.n * A.n
    | .ok st => LowerCols st.L A.n ∧ ∃ ds, dense (ent A) (colAbs A) o A.n = some ds ∧
        ∀ k < A.n, ∀ i, ds.L i k = entry (st.L k) i := by
  have main : ∀ m ≤ A.n, match (List.range m).foldlM (icholStep A o) (icholInit A o) with
      | .error .notPosDef => dense (ent A) (colAbs A) o m = none
      | .error .tooMany => o.maxNnz < A.n * A.n
      | .ok st => ∃ ds low, dense (ent A) (colAbs A) o m = some ds ∧ Sim A m st ds low := by
    intro m
    induction m with
    | zero =>
      intro _
      change ∃ ds low, dense (ent A) (colAbs A) o 0 = some ds ∧ Sim A 0 (icholInit A o) ds low
      refine ⟨_, fun _ => [], rfl, ?_⟩
      refine ⟨rfl, ?_, ?_, ?_, ?_, ?_, ?_, ?_, ?_⟩
      · intro k hk; omega
      · intro k hk; omega
      · intro k hk; omega
      · intro k hk; omega
      · intro i _
        exact ⟨[], trivial, List.nodup_nil, fun k => by simp⟩
      · intro k hk; omega
      · intro i _
        exact diag0_eq A o i
      · exact Nat.zero_le _
    | succ m ih =>
      intro hm
      have ih := ih (by omega)
      rw [List.range_succ, List.foldlM_append]
      cases hr : (List.range m).foldlM (icholStep A o) (icholInit A o) with
      | error c =>
        rw [hr] at ih
        cases c with
        | notPosDef =>
          change dense (ent A) (colAbs A) o (m + 1) = none
          rw [dense, ih]; rfl
        | tooMany => exact ih
      | ok st =>
        rw [hr] at ih
        obtain ⟨ds, low, hds, hsim⟩ := ih
        have hstep := step_ok hA (o := o) (by omega : m < A.n) hsim
        have hone : ((Except.ok st : Except Code St) >>= fun s' => [m].foldlM (icholStep A o) s') = icholStep A o st m := by
          simp only [bind, Except.bind, List.foldlM_cons, List.foldlM_nil]
          cases icholStep A o st m <;> rfl
        rw [hone]
        cases hs : icholStep A o st m with
        | error c =>
          rw [hs] at hstep
          cases c with
          | notPosDef =>
            change dense (ent A) (colAbs A) o (m + 1) = none
            rw [dense, hds]; exact hstep
          | tooMany => exact hstep
        | ok st' =>
          rw [hs] at hstep
          obtain ⟨ds', low', h1, h2⟩ := hstep
          refine ⟨ds', low', ?_, h2⟩
          rw [dense, hds]; exact h1
  have h := main A.n le_rfl
  unfold icholRun
  cases hr : (List.range A.n).foldlM (icholStep A o) (icholInit A o) with
  | error c => rw [hr] at h; cases c <;> exact h
  | ok st =>
    rw [hr] at h
    obtain ⟨ds, low, h1, h2⟩ := h
    refine ⟨fun j hj => ?_, ds, h1, h2.L⟩
    obtain ⟨e, he, hp⟩ := h2.col j hj
    exact ⟨e, low j, he, hp, h2.below j hj⟩

end Pytwoway.Precond
