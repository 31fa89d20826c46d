import Verif.Sorkin.Model
import Mathlib.Tactic.FieldSimp
import Mathlib.Tactic.Ring
import Mathlib.Tactic.Linarith
import Mathlib.Tactic.Positivity
import Mathlib.Tactic.FinCases
import Mathlib.Algebra.BigOperators.Group.Finset.Sigma
import Mathlib.Algebra.BigOperators.Field
import Mathlib.Data.Finset.Max
import Mathlib.Logic.Relation

/-! # C30, C67: the revealed-preference fixed point -/

namespace Pytwoway.Sorkin

variable {nf : ℕ}

/-! ## Specification -/

/-- The number of moves from firm `j` to firm `k`. -/
def moves (rows : List (Fin nf × Fin nf)) (j k : Fin nf) : ℕ := rows.count (j, k)

/-- The number of moves out of firm `k`. -/
def leaving (rows : List (Fin nf × Fin nf)) (k : Fin nf) : ℕ := (rows.filter fun r => r.1 = k).length

/-- Firm values `v` balance the flows: at each firm, value times moves out of it equals the values of the firms its
joiners left, each counted once per mover. -/
def Balanced (rows : List (Fin nf × Fin nf)) (v : Fin nf → ℝ) : Prop :=
  ∀ k, v k * (leaving rows k : ℝ) = ∑ j, (moves rows j k : ℝ) * v j

/-- Every firm can be reached from every firm by moves. -/
def StronglyConnected (rows : List (Fin nf × Fin nf)) : Prop :=
  ∀ a b, Relation.ReflTransGen (fun j k => (j, k) ∈ rows) a b

/-! ## Helper lemmas -/

theorem flows_eq (rows : List (Fin nf × Fin nf)) (k j : Fin nf) : flows rows k j = moves rows j k := by
  unfold flows moves
  rw [List.count_eq_length_filter]
  congr 1
  refine List.filter_congr fun r _ => ?_
  rcases r with ⟨a, b⟩
  rw [Bool.eq_iff_iff]; simp

theorem outflow_eq (rows : List (Fin nf × Fin nf)) (k : Fin nf) : outflow (flows rows) k = leaving rows k := by
  unfold outflow leaving flows
  induction rows with
  | nil => simp
  | cons r rs ih =>
    simp only [List.filter_cons]
    by_cases h : r.1 = k
    · simp only [h, true_and, decide_true, if_true, List.length_cons, ← ih]
      rw [← Finset.add_sum_erase _ _ (Finset.mem_univ r.2), ← Finset.add_sum_erase (a := r.2) _ _ (Finset.mem_univ r.2)]
      simp only [decide_true, if_true, List.length_cons]
      have : ∀ x ∈ Finset.univ.erase r.2, (if decide (r.2 = x) = true
          then r :: List.filter (fun r => decide (r.1 = k ∧ r.2 = x)) rs
          else List.filter (fun r => decide (r.1 = k ∧ r.2 = x)) rs).length
          = (List.filter (fun r => decide (r.1 = k ∧ r.2 = x)) rs).length := by
        intro x hx
        rw [if_neg]
        simpa using (Finset.ne_of_mem_erase hx).symm
      rw [Finset.sum_congr rfl this]
      omega
    · simp only [h, false_and, decide_false, Bool.false_eq_true, if_false]
      exact ih

theorem lhs_nonneg (M : Fin nf → Fin nf → ℕ) (k j : Fin nf) : 0 ≤ lhs M k j := by unfold lhs; positivity

/-- For a nonnegative guess the absolute value does nothing. -/
theorem step_eq {M : Fin nf → Fin nf → ℕ} {p : Fin nf → ℝ} (hp : ∀ k, 0 ≤ p k) (k : Fin nf) :
    step M p k = (∑ j, lhs M k j * p j) / ∑ k', ∑ j, lhs M k' j * p j := by
  have : ∀ k, |∑ j, lhs M k j * p j| = ∑ j, lhs M k j * p j := fun k =>
    abs_of_nonneg (Finset.sum_nonneg fun j _ => mul_nonneg (lhs_nonneg M k j) (hp j))
  unfold step
  simp only [this]

theorem step_nonneg (M : Fin nf → Fin nf → ℕ) (p : Fin nf → ℝ) (k : Fin nf) : 0 ≤ step M p k := by
  unfold step; positivity

/-- The guesses of the last pass: the new one is the update of the previous one, both are nonnegative, and if the
loop ended before its last pass the test held. -/
theorem loop_spec {M : Fin nf → Fin nf → ℕ} {thr : ℝ} {n : ℕ} {p prev new : Fin nf → ℝ} (hp : ∀ k, 0 ≤ p k)
    (h : loop M thr n p = some (prev, new)) : (∀ k, 0 ≤ prev k) ∧ new = step M prev := by
  induction n using Nat.strong_induction_on generalizing p with
  | _ n ih =>
    match n with
    | 0 => cases h
    | 1 => cases h; exact ⟨hp, rfl⟩
    | n + 2 =>
      rw [loop] at h
      split at h
      · cases h; exact ⟨hp, rfl⟩
      · exact ih (n + 1) (by omega) (step_nonneg M p) h

theorem balance_scalar {rows : List (Fin nf × Fin nf)} (ho : ∀ k, leaving rows k ≠ 0) {v : Fin nf → ℝ} {c : ℝ}
    (hv : ∀ k, 0 < v k) (hn : 0 < nf)
    (h : ∀ k, c * v k * (leaving rows k : ℝ) = ∑ j, (moves rows j k : ℝ) * v j) : c = 1 := by
  have hs : c * ∑ k, v k * (leaving rows k : ℝ) = ∑ k, v k * (leaving rows k : ℝ) := by
    calc c * ∑ k, v k * (leaving rows k : ℝ) = ∑ k, ∑ j, (moves rows j k : ℝ) * v j := by
          rw [Finset.mul_sum]
          exact Finset.sum_congr rfl fun k _ => by rw [← h]; ring
      _ = ∑ j, ∑ k, (moves rows j k : ℝ) * v j := Finset.sum_comm
      _ = ∑ j, v j * (leaving rows j : ℝ) := by
          refine Finset.sum_congr rfl fun j _ => ?_
          rw [← Finset.sum_mul, ← outflow_eq, outflow, mul_comm]
          push_cast
          simp only [flows_eq]
  have hpos : 0 < ∑ k, v k * (leaving rows k : ℝ) := by
    apply Finset.sum_pos _ ⟨⟨0, hn⟩, Finset.mem_univ _⟩
    intro k _
    have : 0 < (leaving rows k : ℝ) := by exact_mod_cast Nat.pos_of_ne_zero (ho k)
    exact mul_pos (hv k) this
  have : (c - 1) * ∑ k, v k * (leaving rows k : ℝ) = 0 := by linarith
  rcases mul_eq_zero.1 this with h | h
  · linarith
  · exact absurd h hpos.ne'

theorem step_balance {rows : List (Fin nf × Fin nf)} (ho : ∀ k, leaving rows k ≠ 0) {p : Fin nf → ℝ} (hp : ∀ k, 0 ≤ p k)
    (k : Fin nf) : (∑ k', ∑ j, lhs (flows rows) k' j * p j) ≠ 0 →
    (∑ k', ∑ j, lhs (flows rows) k' j * p j) * step (flows rows) p k * (leaving rows k : ℝ)
      = ∑ j, (moves rows j k : ℝ) * p j := by
  intro hc
  rw [step_eq hp]
  have hk : (leaving rows k : ℝ) ≠ 0 := by exact_mod_cast ho k
  rw [mul_div_assoc', mul_div_cancel_left₀ _ hc, Finset.sum_mul]
  refine Finset.sum_congr rfl fun j _ => ?_
  rw [lhs, outflow_eq, flows_eq]
  field_simp

theorem sum_pos_of_moves {rows : List (Fin nf × Fin nf)} {p : Fin nf → ℝ} (ho : ∀ k, leaving rows k ≠ 0) (hp : ∀ k, 0 < p k)
    {r : Fin nf × Fin nf} (hr : r ∈ rows) : 0 < ∑ k', ∑ j, lhs (flows rows) k' j * p j := by
  have h0 : ∀ k j, 0 ≤ lhs (flows rows) k j * p j := fun k j => mul_nonneg (lhs_nonneg _ _ _) (hp j).le
  have h1 : 0 < lhs (flows rows) r.2 r.1 * p r.1 := by
    refine mul_pos ?_ (hp _)
    rw [lhs, outflow_eq, flows_eq]
    have a : 0 < (leaving rows r.2 : ℝ) := by exact_mod_cast Nat.pos_of_ne_zero (ho _)
    have b : 0 < (moves rows r.1 r.2 : ℝ) := by exact_mod_cast List.count_pos_iff.2 hr
    positivity
  calc (0 : ℝ) < lhs (flows rows) r.2 r.1 * p r.1 := h1
    _ ≤ ∑ j, lhs (flows rows) r.2 j * p j := Finset.single_le_sum (f := fun j => lhs (flows rows) r.2 j * p j)
        (fun j _ => h0 _ j) (Finset.mem_univ _)
    _ ≤ _ := Finset.single_le_sum (f := fun k => ∑ j, lhs (flows rows) k j * p j)
        (fun k _ => Finset.sum_nonneg fun j _ => h0 k j) (Finset.mem_univ _)

/-! ## C30 -/

/-- What a successful fit returns: logs of a positive guess summing to one, which is the update of the guess of the
pass before. -/
theorem fit_spec {rows : List (Fin nf × Fin nf)} {N : ℕ} {thr : ℝ} {V : Fin nf → ℝ} (h : fit rows N thr = .ok V) :
    (∀ k, leaving rows k ≠ 0) ∧ ∃ prev new, loop (flows rows) thr N (start nf) = some (prev, new) ∧
      (∀ k, 0 ≤ prev k) ∧ new = step (flows rows) prev ∧ (∀ k, 0 < new k) ∧ V = fun k => Real.log (new k) := by
  unfold fit at h
  simp only at h
  split at h
  · cases h
  · rename_i ho
    push Not at ho
    split at h
    · cases h
    · rename_i prev new hl
      split at h
      · cases h
      · rename_i hz
        push Not at hz
        obtain ⟨h1, h2⟩ := loop_spec (fun k => by unfold start; positivity) hl
        cases h
        refine ⟨fun k => by rw [← outflow_eq]; exact ho k, prev, new, hl, h1, h2, fun k => ?_, rfl⟩
        exact lt_of_le_of_ne (h2 ▸ step_nonneg _ _ _) (hz k).symm

/-- C30: the exponentiated values sum to one. -/
theorem C30_normalised {rows : List (Fin nf × Fin nf)} {N : ℕ} {thr : ℝ} {V : Fin nf → ℝ} (hn : 0 < nf)
    (h : fit rows N thr = .ok V) : ∑ k, Real.exp (V k) = 1 := by
  obtain ⟨ho, prev, new, -, h1, h2, h3, rfl⟩ := fit_spec h
  simp only [Real.exp_log (h3 _)]
  have hc : (∑ k', ∑ j, lhs (flows rows) k' j * prev j) ≠ 0 := by
    intro hc
    have := h3 ⟨0, hn⟩
    rw [h2, step_eq h1, hc, div_zero] at this
    exact absurd this (lt_irrefl _)
  simp only [h2, step_eq h1, ← Finset.sum_div]
  exact div_self hc

/-- C30: if the last pass changed nothing, the exponentiated values balance the flows. -/
theorem C30_fixed_point {rows : List (Fin nf × Fin nf)} {N : ℕ} {thr : ℝ} {V : Fin nf → ℝ} (hn : 0 < nf)
    (h : fit rows N thr = .ok V)
    (hfix : ∀ prev new, loop (flows rows) thr N (start nf) = some (prev, new) → new = prev) :
    Balanced rows fun k => Real.exp (V k) := by
  obtain ⟨ho, prev, new, hl, h1, h2, h3, rfl⟩ := fit_spec h
  have he := hfix _ _ hl
  subst he
  simp only [Real.exp_log (h3 _)]
  have hc : (∑ k', ∑ j, lhs (flows rows) k' j * new j) ≠ 0 := by
    intro hc
    have := h3 ⟨0, hn⟩
    rw [h2, step_eq h1, hc, div_zero] at this
    exact absurd this (lt_irrefl _)
  have hb := fun k => step_balance ho h1 k hc
  rw [← h2] at hb
  have h1' := balance_scalar ho h3 hn hb
  intro k
  have := hb k
  rw [h1', one_mul] at this
  exact this

/-- C30: any two positive solutions of the balance equation are proportional when the firms are strongly connected,
so the values the estimator looks for are unique once they sum to one. -/
theorem C30_unique {rows : List (Fin nf × Fin nf)} (hc : StronglyConnected rows) {u v : Fin nf → ℝ}
    (hu : ∀ k, 0 < u k) (hv : ∀ k, 0 < v k) (bu : Balanced rows u) (bv : Balanced rows v) :
    (∃ c : ℝ, ∀ k, u k = c * v k) ∧ (∑ k, u k = 1 → ∑ k, v k = 1 → u = v) := by
  have key : ∃ c : ℝ, ∀ k, u k = c * v k := by
    rcases Nat.eq_zero_or_pos nf with h0 | hpos
    · subst h0; exact ⟨0, fun k => k.elim0⟩
    obtain ⟨k0, -, hk0⟩ := Finset.exists_min_image Finset.univ (fun k => u k / v k) ⟨⟨0, hpos⟩, Finset.mem_univ _⟩
    refine ⟨u k0 / v k0, ?_⟩
    set c := u k0 / v k0 with hcdef
    set w : Fin nf → ℝ := fun k => u k - c * v k with hw
    have hw0 : ∀ k, 0 ≤ w k := by
      intro k
      have := hk0 k (Finset.mem_univ _)
      rw [le_div_iff₀ (hv k)] at this
      simp only [hw]; linarith
    have hwk0 : w k0 = 0 := by simp only [hw, hcdef]; have := (hv k0).ne'; field_simp; ring
    have bw : ∀ k, w k * (leaving rows k : ℝ) = ∑ j, (moves rows j k : ℝ) * w j := by
      intro k
      simp only [hw, sub_mul, mul_sub, Finset.sum_sub_distrib, ← bu k]
      congr 1
      rw [mul_assoc, bv k, Finset.mul_sum]
      exact Finset.sum_congr rfl fun j _ => by ring
    have hback : ∀ j k, (j, k) ∈ rows → w k = 0 → w j = 0 := by
      intro j k hjk hk
      have h := bw k
      rw [hk, zero_mul] at h
      have := (Finset.sum_eq_zero_iff_of_nonneg (fun j _ => mul_nonneg (Nat.cast_nonneg _) (hw0 j))).1 h.symm j
        (Finset.mem_univ _)
      rcases mul_eq_zero.1 this with h' | h'
      · exact absurd h' (by exact_mod_cast (List.count_pos_iff.2 hjk).ne')
      · exact h'
    intro k
    have : w k = 0 := by
      have hr := hc k k0
      induction hr using Relation.ReflTransGen.head_induction_on with
      | refl => exact hwk0
      | head h1 _ ih => exact hback _ _ h1 ih
    simp only [hw] at this; linarith
  refine ⟨key, fun su sv => ?_⟩
  obtain ⟨c, hcv⟩ := key
  have : c = 1 := by
    simp only [hcv, ← Finset.mul_sum, sv] at su
    linarith
  funext k; rw [hcv, this, one_mul]

/-- C30: when the loop ends by its test, the values balance the flows up to the threshold: with `c` the growth of the
last pass, each side of the (scaled) equation differs by at most the threshold times the value the previous guess
gives. -/
theorem C30_threshold {rows : List (Fin nf × Fin nf)} (ho : ∀ k, leaving rows k ≠ 0) {thr : ℝ}
    {prev : Fin nf → ℝ} (h1 : ∀ k, 0 < prev k) (hne : rows ≠ []) (hconv : converged thr prev (step (flows rows) prev)) :
    ∃ c : ℝ, 0 < c ∧ ∀ k, |c * step (flows rows) prev k * (leaving rows k : ℝ)
      - ∑ j, (moves rows j k : ℝ) * step (flows rows) prev j| ≤ thr * ∑ j, (moves rows j k : ℝ) * prev j := by
  obtain ⟨r, hr⟩ := List.exists_mem_of_ne_nil rows hne
  have hc := sum_pos_of_moves ho h1 hr
  refine ⟨_, hc, fun k => ?_⟩
  rw [step_balance ho (fun k => (h1 k).le) k hc.ne', ← Finset.sum_sub_distrib, Finset.mul_sum]
  refine (Finset.abs_sum_le_sum_abs _ _).trans (Finset.sum_le_sum fun j _ => ?_)
  have := (hconv j).2
  rw [abs_div, abs_of_pos (h1 j), div_le_iff₀ (h1 j)] at this
  rw [← mul_sub, abs_mul, abs_of_nonneg (Nat.cast_nonneg _), abs_sub_comm]
  calc (moves rows j k : ℝ) * |step (flows rows) prev j - prev j| ≤ (moves rows j k : ℝ) * (thr * prev j) :=
        mul_le_mul_of_nonneg_left this (Nat.cast_nonneg _)
    _ = _ := by ring

/-- Two firms, two moves from firm 0 to firm 1 and one back. -/
def exRows : List (Fin 2 × Fin 2) := [(0, 1), (0, 1), (1, 0)]

theorem ex_lhs : lhs (flows exRows) 0 0 = 0 ∧ lhs (flows exRows) 0 1 = 1 / 2 ∧ lhs (flows exRows) 1 0 = 2 ∧
    lhs (flows exRows) 1 1 = 0 := by
  have h : flows exRows 0 0 = 0 ∧ flows exRows 0 1 = 1 ∧ flows exRows 1 0 = 2 ∧ flows exRows 1 1 = 0 ∧
    outflow (flows exRows) 0 = 2 ∧ outflow (flows exRows) 1 = 1 := by decide
  simp [lhs, h]

theorem ex_step (a b : ℝ) (ha : 0 < a) (hb : 0 < b) : step (flows exRows) ![a, b] =
    ![b / 2 / (b / 2 + 2 * a), 2 * a / (b / 2 + 2 * a)] := by
  obtain ⟨h1, h2, h3, h4⟩ := ex_lhs
  funext k
  unfold step
  simp only [Fin.sum_univ_two, h1, h2, h3, h4, Matrix.cons_val_zero, Matrix.cons_val_one, zero_mul, zero_add, add_zero]
  have e1 : |1 / 2 * b| = b / 2 := by rw [abs_of_pos (by positivity)]; ring
  have e2 : |2 * a| = 2 * a := abs_of_pos (by positivity)
  rw [e1, e2]
  fin_cases k
  · simp only [Fin.zero_eta, h1, h2, zero_mul, zero_add, e1]; rfl
  · simp only [Fin.mk_one, h3, h4, zero_mul, add_zero, e2]; rfl

theorem ex_step1 : step (flows exRows) ![1 / 2, 1 / 2] = ![1 / 5, 4 / 5] := by
  rw [ex_step _ _ (by norm_num) (by norm_num)]
  funext k; fin_cases k <;> norm_num

theorem ex_step2 : step (flows exRows) ![1 / 5, 4 / 5] = ![1 / 2, 1 / 2] := by
  rw [ex_step _ _ (by norm_num) (by norm_num)]
  funext k; fin_cases k <;> norm_num

theorem ex_not_conv1 {thr : ℝ} (h : thr < 3 / 5) : ¬ converged thr (![1 / 2, 1 / 2] : Fin 2 → ℝ) ![1 / 5, 4 / 5] := by
  intro hc
  have := (hc 0).2
  norm_num [abs_of_neg] at this
  linarith

theorem ex_not_conv2 {thr : ℝ} (h : thr < 3 / 5) : ¬ converged thr (![1 / 5, 4 / 5] : Fin 2 → ℝ) ![1 / 2, 1 / 2] := by
  intro hc
  have := (hc 0).2
  norm_num [abs_of_pos] at this
  linarith

theorem ex_loop {thr : ℝ} (h : thr < 3 / 5) (n : ℕ) :
    loop (flows exRows) thr (2 * n + 1) ![1 / 2, 1 / 2] = some (![1 / 2, 1 / 2], ![1 / 5, 4 / 5]) ∧
    loop (flows exRows) thr (2 * n + 2) ![1 / 2, 1 / 2] = some (![1 / 5, 4 / 5], ![1 / 2, 1 / 2]) := by
  have key : ∀ n, loop (flows exRows) thr (n + 2 + 1) ![1 / 2, 1 / 2] = loop (flows exRows) thr (n + 1) ![1 / 2, 1 / 2] := by
    intro n
    rw [loop, ex_step1, if_neg (ex_not_conv1 h), loop, ex_step2, if_neg (ex_not_conv2 h)]
  induction n with
  | zero =>
    constructor
    · rw [loop, ex_step1]
    · rw [loop, ex_step1, if_neg (ex_not_conv1 h), loop, ex_step2]
  | succ n ih =>
    constructor
    · rw [show 2 * (n + 1) + 1 = 2 * n + 2 + 1 by ring, key]; exact ih.1
    · rw [show 2 * (n + 1) + 2 = (2 * n + 1) + 2 + 1 by ring, key]; exact ih.2

/-- C30 fails in general: the iteration need not converge, and the last guess is returned anyway.  With two moves one
way and one back (strongly connected), for every number of passes and every threshold below 0.6 the returned values
do not balance the flows; with an even number of passes, such as the default 500, both firms get the same value
although the balancing values are 1/3 and 2/3. -/
theorem C30_not_convergent {thr : ℝ} (h : thr < 3 / 5) {N : ℕ} (hN : N ≠ 0) :
    StronglyConnected exRows ∧ Balanced exRows ![1 / 3, 2 / 3] ∧
    ∃ V, fit exRows N thr = .ok V ∧ ¬ Balanced exRows (fun k => Real.exp (V k)) ∧ (Even N → V 0 = V 1) := by
  have hstart : start 2 = ![1 / 2, 1 / 2] := by funext k; fin_cases k <;> simp [start]
  have ho : ¬ ∃ k, outflow (flows exRows) k = 0 := by decide
  have hb : ∀ a b : ℝ, Balanced exRows ![a, b] ↔ 2 * a = b := by
    intro a b
    have e : leaving exRows 0 = 2 ∧ leaving exRows 1 = 1 ∧ moves exRows 0 0 = 0 ∧ moves exRows 1 0 = 1 ∧
      moves exRows 0 1 = 2 ∧ moves exRows 1 1 = 0 := by decide
    unfold Balanced
    rw [Fin.forall_fin_two]
    simp only [Fin.sum_univ_two, e]
    simp
    constructor
    · rintro ⟨h1, h2⟩; linarith
    · intro h; exact ⟨by linarith, by linarith⟩
  refine ⟨?_, (hb _ _).2 (by norm_num), ?_⟩
  · intro a b
    have h01 : Relation.ReflTransGen (fun j k => (j, k) ∈ exRows) 0 1 := .single (by simp [exRows])
    have h10 : Relation.ReflTransGen (fun j k => (j, k) ∈ exRows) 1 0 := .single (by simp [exRows])
    fin_cases a <;> fin_cases b <;> first | exact .refl | exact h01 | exact h10
  · rcases Nat.even_or_odd N with he | hodd
    · obtain ⟨n, rfl⟩ : ∃ n, N = 2 * n + 2 := by
        obtain ⟨m, hm⟩ := he; exact ⟨m - 1, by omega⟩
      refine ⟨fun k => Real.log ((![1 / 2, 1 / 2] : Fin 2 → ℝ) k), ?_, ?_, fun _ => rfl⟩
      · simp only [fit, if_neg ho, hstart, (ex_loop h n).2]
        rw [if_neg]
        rintro ⟨k, hk⟩; fin_cases k <;> norm_num at hk
      · have : (fun k => Real.exp (Real.log ((![1 / 2, 1 / 2] : Fin 2 → ℝ) k))) = ![1 / 2, 1 / 2] := by
          funext k; fin_cases k <;> exact Real.exp_log (by norm_num)
        rw [this, hb]; norm_num
    · obtain ⟨n, rfl⟩ := hodd
      refine ⟨fun k => Real.log ((![1 / 5, 4 / 5] : Fin 2 → ℝ) k), ?_, ?_, fun he => ?_⟩
      · simp only [fit, if_neg ho, hstart, (ex_loop h n).1]
        rw [if_neg]
        rintro ⟨k, hk⟩; fin_cases k <;> norm_num at hk
      · have : (fun k => Real.exp (Real.log ((![1 / 5, 4 / 5] : Fin 2 → ℝ) k))) = ![1 / 5, 4 / 5] := by
          funext k; fin_cases k <;> exact Real.exp_log (by norm_num)
        rw [this, hb]; norm_num
      · exact absurd he (by simp)

/-- With no passes the estimator raises `UnboundLocalError`. -/
theorem C30_no_passes {rows : List (Fin nf × Fin nf)} (thr : ℝ) (ho : ∀ k, leaving rows k ≠ 0) :
    fit rows 0 thr = .error "UnboundLocalError" := by
  unfold fit
  simp only [loop]
  rw [if_neg]
  push Not
  exact fun k => by rw [outflow_eq]; exact ho k

/-- A balanced two-firm exchange converges at once, so the hypotheses of `C30_fixed_point` are met. -/
example : ∃ V, fit [((0 : Fin 2), (1 : Fin 2)), (1, 0)] 5 0 = .ok V := by
  have hst : step (flows [((0 : Fin 2), (1 : Fin 2)), (1, 0)]) (start 2) = start 2 := by
    have e : flows [((0 : Fin 2), (1 : Fin 2)), (1, 0)] 0 0 = 0 ∧ flows [((0 : Fin 2), (1 : Fin 2)), (1, 0)] 0 1 = 1 ∧
      flows [((0 : Fin 2), (1 : Fin 2)), (1, 0)] 1 0 = 1 ∧ flows [((0 : Fin 2), (1 : Fin 2)), (1, 0)] 1 1 = 0 ∧
      outflow (flows [((0 : Fin 2), (1 : Fin 2)), (1, 0)]) 0 = 1 ∧
      outflow (flows [((0 : Fin 2), (1 : Fin 2)), (1, 0)]) 1 = 1 := by decide
    funext k
    fin_cases k <;> simp [step, lhs, Fin.sum_univ_two, e, start] <;> norm_num
  unfold fit
  have ho : ¬ ∃ k, outflow (flows [((0 : Fin 2), (1 : Fin 2)), (1, 0)]) k = 0 := by decide
  have hcv : converged 0 (start 2) (start 2) := by intro k; simp [start]
  have hl : loop (flows [((0 : Fin 2), (1 : Fin 2)), (1, 0)]) 0 5 (start 2) = some (start 2, start 2) := by
    rw [loop, hst, if_pos hcv]
  simp only [if_neg ho, hl]
  rw [if_neg (by rintro ⟨k, hk⟩; simp [start] at hk)]
  exact ⟨_, rfl⟩

/-! ## C67: the attrition correlation -/

/-- C67 fails: the vector correlated with the firm values is shifted.  `psi k` is the estimated effect of firm `k`
(zero for the normalised firm 0); the entry compared with the value of firm `k` is the effect of the next firm, and
for the last firm it is zero. -/
theorem C67_shifted {m : ℕ} (psi : Fin (m + 1) → ℝ) :
    (∀ k : Fin m, attritionPsi (fun k => psi k.succ) k.castSucc = psi k.succ) ∧
    attritionPsi (fun k => psi k.succ) (Fin.last m) = 0 := by
  simp [attritionPsi]

/-- C67: each firm's value is compared with its own effect only if all estimated effects are zero. -/
theorem C67_aligned_iff_partial {m : ℕ} (psi : Fin (m + 1) → ℝ) (h0 : psi 0 = 0) :
    attritionPsi (fun k => psi k.succ) = psi ↔ psi = 0 := by
  constructor
  · intro h
    have hs : ∀ k : Fin m, psi k.succ = psi k.castSucc := fun k => by
      rw [← (C67_shifted psi).1 k, h]
    funext k
    induction k using Fin.induction with
    | zero => exact h0
    | succ i ih => rw [hs i, ih]; rfl
  · intro h
    subst h
    funext k
    refine Fin.lastCases ?_ (fun i => ?_) k <;> simp [attritionPsi]

end Pytwoway.Sorkin
