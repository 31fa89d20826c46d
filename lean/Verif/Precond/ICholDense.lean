import Verif.Precond.IChol
import Mathlib.LinearAlgebra.Matrix.PosDef
import Mathlib.Tactic.Linarith
import Mathlib.Tactic.Ring
import Mathlib.Tactic.Positivity
import Mathlib.Tactic.FieldSimp

/-! # Dense thresholded Cholesky factorisation: what `ichol` computes, and when it succeeds

The specification follows the dense implementation in the docstring of `ichol`, with both thresholds, the shift and
`diag_keep_discarded`. -/

namespace Pytwoway.Precond

open scoped BigOperators

/-- What is left of entry `i, j` once the earlier columns are subtracted. -/
noncomputable def resid (A L : ℕ → ℕ → ℝ) (i j : ℕ) : ℝ := A i j - ∑ k ∈ Finset.range j, L i k * L j k

/-- The entry is large enough to be kept: `x` before, `x / dj` after division by the diagonal. -/
def Kept (o : Opts) (r dj x : ℝ) : Prop := |x / dj| > o.discard ∧ |x| > o.rel * r

/-- Factor and running diagonal. -/
structure DSt where
  L : ℕ → ℕ → ℝ
  d : ℕ → ℝ

open scoped Classical in
/-- One column of the dense algorithm. -/
noncomputable def denseStep (A : ℕ → ℕ → ℝ) (r : ℕ → ℝ) (o : Opts) (st : DSt) (j : ℕ) : Option DSt :=
  if st.d j ≤ 0 then none
  else some {
    L := fun i k =>
      if k = j then
        if i = j then √(st.d j)
        else if j < i ∧ Kept o (r j) (√(st.d j)) (resid A st.L i j) then resid A st.L i j / √(st.d j) else 0
      else st.L i k
    d := fun i =>
      if j < i ∧ (o.keep = true ∨ Kept o (r j) (√(st.d j)) (resid A st.L i j)) then
        st.d i - (resid A st.L i j / √(st.d j)) ^ 2
      else st.d i }

/-- The dense algorithm on the leading `n` rows and columns. -/
noncomputable def dense (A : ℕ → ℕ → ℝ) (r : ℕ → ℝ) (o : Opts) : ℕ → Option DSt
  | 0 => some ⟨fun _ _ => 0, fun i => A i i + o.shift⟩
  | n + 1 => (dense A r o n).bind fun st => denseStep A r o st n

open scoped Classical in
/-- What the factor of an entry takes from the diagonal. -/
noncomputable def taken (A : ℕ → ℕ → ℝ) (r : ℕ → ℝ) (o : Opts) (L : ℕ → ℕ → ℝ) (i k : ℕ) : ℝ :=
  if o.keep = true ∨ Kept o (r k) (L k k) (resid A L i k) then (resid A L i k / L k k) ^ 2 else 0

open scoped Classical in
/-- The first `n` columns of a thresholded Cholesky factor. -/
structure IsFactor (A : ℕ → ℕ → ℝ) (r : ℕ → ℝ) (o : Opts) (n : ℕ) (L : ℕ → ℕ → ℝ) : Prop where
  pos : ∀ k < n, 0 < L k k
  upper : ∀ k, ∀ i < k, L i k = 0
  rest : ∀ i k, n ≤ k → L i k = 0
  below : ∀ k < n, ∀ i, k < i → L i k =
    if Kept o (r k) (L k k) (resid A L i k) then resid A L i k / L k k else 0
  diag : ∀ k < n, L k k ^ 2 = A k k + o.shift - ∑ m ∈ Finset.range k, taken A r o L k m

theorem resid_congr {A L L' : ℕ → ℕ → ℝ} {i j : ℕ} (h : ∀ i, ∀ k < j, L i k = L' i k) : resid A L i j = resid A L' i j := by
  unfold resid
  congr 1
  exact Finset.sum_congr rfl fun k hk => by rw [h _ _ (Finset.mem_range.mp hk), h _ _ (Finset.mem_range.mp hk)]

theorem taken_congr {A : ℕ → ℕ → ℝ} {r : ℕ → ℝ} {o : Opts} {L L' : ℕ → ℕ → ℝ} {i j : ℕ}
    (h : ∀ i, ∀ k ≤ j, L i k = L' i k) : taken A r o L i j = taken A r o L' i j := by
  unfold taken
  rw [resid_congr (L' := L') fun i k hk => h i k hk.le, h j j le_rfl]

/-- The dense algorithm computes a factor, and its running diagonal. -/
theorem dense_factor (A : ℕ → ℕ → ℝ) (r : ℕ → ℝ) (o : Opts) : ∀ (n : ℕ) (st : DSt), dense A r o n = some st →
    IsFactor A r o n st.L ∧ ∀ i, n ≤ i → st.d i = A i i + o.shift - ∑ m ∈ Finset.range n, taken A r o st.L i m := by
  classical
  intro n
  induction n with
  | zero =>
    intro st h
    cases h
    refine ⟨⟨fun k hk => absurd hk (Nat.not_lt_zero _), fun _ _ _ => rfl, fun _ _ _ => rfl,
      fun k hk => absurd hk (Nat.not_lt_zero _), fun k hk => absurd hk (Nat.not_lt_zero _)⟩, fun i _ => by simp⟩
  | succ n ih =>
    intro st' h
    rw [dense] at h
    obtain ⟨st, hst, h⟩ := Option.bind_eq_some_iff.mp h
    obtain ⟨hf, hd⟩ := ih st hst
    unfold denseStep at h
    split at h
    · cases h
    rename_i hpos
    rw [not_le] at hpos
    cases h
    set L' : ℕ → ℕ → ℝ := fun i k =>
      if k = n then
        if i = n then √(st.d n)
        else if n < i ∧ Kept o (r n) (√(st.d n)) (resid A st.L i n) then resid A st.L i n / √(st.d n) else 0
      else st.L i k with hL'
    have hold : ∀ i k, k ≠ n → L' i k = st.L i k := fun i k hk => by rw [hL']; simp only [if_neg hk]
    have hdiag : L' n n = √(st.d n) := by rw [hL']; simp
    have hres : ∀ i k, k ≤ n → resid A L' i k = resid A st.L i k := fun i k hk =>
      resid_congr fun i' k' hk' => hold i' k' (by omega)
    have htak : ∀ i k, k < n → taken A r o L' i k = taken A r o st.L i k := fun i k hk =>
      taken_congr fun i' k' hk' => hold i' k' (by omega)
    have hsq : ∀ i, n ≤ i → ∑ m ∈ Finset.range n, taken A r o L' i m = ∑ m ∈ Finset.range n, taken A r o st.L i m :=
      fun i _ => Finset.sum_congr rfl fun m hm => htak i m (Finset.mem_range.mp hm)
    change IsFactor A r o (n + 1) L' ∧ ∀ i, n + 1 ≤ i →
      (if n < i ∧ (o.keep = true ∨ Kept o (r n) (√(st.d n)) (resid A st.L i n)) then
        st.d i - (resid A st.L i n / √(st.d n)) ^ 2
      else st.d i) = A i i + o.shift - ∑ m ∈ Finset.range (n + 1), taken A r o L' i m
    refine ⟨⟨?_, ?_, ?_, ?_, ?_⟩, ?_⟩
    · intro k hk
      rcases Nat.lt_succ_iff_lt_or_eq.mp hk with h | h
      · rw [hold _ _ h.ne]; exact hf.pos k h
      · rw [h, hdiag]; exact Real.sqrt_pos.mpr hpos
    · intro k i hik
      by_cases h : k = n
      · subst h
        rw [hL']
        simp only [if_true]
        rw [if_neg hik.ne, if_neg (fun h => absurd h.1 (by omega))]
      · rw [hold _ _ h]; exact hf.upper k i hik
    · intro i k hk
      rw [hold _ _ (by omega)]
      exact hf.rest i k (by omega)
    · intro k hk i hi
      rcases Nat.lt_succ_iff_lt_or_eq.mp hk with h | h
      · rw [hold _ _ h.ne, hold _ _ h.ne, hres _ _ h.le]
        exact hf.below k h i hi
      · subst h
        rw [hdiag, hres _ _ le_rfl, hL']
        simp only [if_true]
        rw [if_neg hi.ne']
        simp only [hi, true_and]
    · intro k hk
      rcases Nat.lt_succ_iff_lt_or_eq.mp hk with h | h
      · rw [hold _ _ h.ne, hf.diag k h]
        congr 1
        exact Finset.sum_congr rfl fun m hm => (htak k m (by have := Finset.mem_range.mp hm; omega)).symm
      · subst h
        rw [hdiag, Real.sq_sqrt hpos.le, hd k le_rfl, hsq k le_rfl]
    · intro i hi
      rw [Finset.sum_range_succ, hsq i (by omega)]
      have : taken A r o L' i n = if n < i ∧ (o.keep = true ∨ Kept o (r n) (√(st.d n)) (resid A st.L i n)) then
          (resid A st.L i n / √(st.d n)) ^ 2 else 0 := by
        unfold taken
        rw [hdiag, hres _ _ le_rfl]
        have : n < i := hi
        simp only [this, true_and]
      rw [this]
      have h0 := hd i (by omega)
      split <;> rw [h0] <;> ring

/-- If the dense algorithm fails, some leading block has a factor whose next pivot is not positive. -/
theorem dense_none (A : ℕ → ℕ → ℝ) (r : ℕ → ℝ) (o : Opts) : ∀ n, dense A r o n = none →
    ∃ j < n, ∃ st, dense A r o j = some st ∧ st.d j ≤ 0 := by
  intro n
  induction n with
  | zero => intro h; cases h
  | succ n ih =>
    intro h
    rw [dense] at h
    cases hst : dense A r o n with
    | none =>
      obtain ⟨j, hj, r⟩ := ih hst
      exact ⟨j, by omega, r⟩
    | some st =>
      rw [hst] at h
      refine ⟨n, by omega, st, hst, ?_⟩
      by_contra hp
      unfold denseStep at h
      rw [Option.bind_some, if_neg hp] at h
      cases h

/-! ## What the factor is -/

section Factor

variable {A : ℕ → ℕ → ℝ} {r : ℕ → ℝ} {o : Opts} {n : ℕ} {L : ℕ → ℕ → ℝ}

/-- Entry `i, j` of `L * L^T`. -/
noncomputable def gram (n : ℕ) (L : ℕ → ℕ → ℝ) (i j : ℕ) : ℝ := ∑ k ∈ Finset.range n, L i k * L j k

theorem gram_below (hf : IsFactor A r o n L) {i j : ℕ} (hj : j < n) :
    gram n L i j = ∑ k ∈ Finset.range j, L i k * L j k + L i j * L j j := by
  unfold gram
  have h : Finset.range (j + 1) ⊆ Finset.range n := Finset.range_mono hj
  rw [← Finset.sum_range_succ, ← Finset.sum_subset h]
  intro k _ hk
  have : j < k := by
    by_contra hc
    exact hk (Finset.mem_range.mpr (by omega))
  rw [hf.upper k j this, mul_zero]

/-- Below the diagonal the product of the factors is the matrix, up to the entries discarded. -/
theorem gram_error (hf : IsFactor A r o n L) {i j : ℕ} (hj : j < n) (hij : j < i) :
    (Kept o (r j) (L j j) (resid A L i j) ∧ gram n L i j = A i j) ∨
    (¬ Kept o (r j) (L j j) (resid A L i j) ∧ A i j - gram n L i j = resid A L i j) := by
  have hp := hf.pos j hj
  have hg := gram_below (i := i) hf hj
  have hb := hf.below j hj i hij
  by_cases hk : Kept o (r j) (L j j) (resid A L i j)
  · left
    refine ⟨hk, ?_⟩
    rw [if_pos hk] at hb
    rw [hg, hb, div_mul_cancel₀ _ hp.ne', resid]
    ring
  · right
    refine ⟨hk, ?_⟩
    rw [if_neg hk] at hb
    rw [hg, hb, resid]
    ring

/-- The error below the diagonal is bounded by the thresholds. -/
theorem gram_bound (hf : IsFactor A r o n L) {i j : ℕ} (hj : j < n) (hij : j < i) (h0 : 0 ≤ o.discard) :
    |A i j - gram n L i j| ≤ max (o.discard * L j j) (o.rel * r j) := by
  have hp := hf.pos j hj
  rcases gram_error hf hj hij with ⟨_, h⟩ | ⟨hk, h⟩
  · rw [h, sub_self, abs_zero]
    exact le_max_of_le_left (mul_nonneg h0 hp.le)
  · rw [h]
    unfold Kept at hk
    rw [not_and_or, not_lt, not_lt, abs_div, abs_of_pos hp] at hk
    rcases hk with hk | hk
    · exact le_max_of_le_left ((div_le_iff₀ hp).mp hk)
    · exact le_max_of_le_right hk

/-- With zero thresholds nothing but zeros is discarded. -/
theorem below_exact (hf : IsFactor A r o n L) (h1 : o.discard = 0) (h2 : o.rel = 0) {i k : ℕ} (hk : k < n)
    (hi : k < i) : L i k = resid A L i k / L k k := by
  rw [hf.below k hk i hi]
  split
  · rfl
  · rename_i h
    unfold Kept at h
    rw [h1, h2, zero_mul, not_and_or, not_lt, not_lt] at h
    rcases h with h | h
    · exact (abs_nonpos_iff.mp h).symm
    · rw [abs_nonpos_iff.mp h, zero_div]

theorem taken_exact (hf : IsFactor A r o n L) (h1 : o.discard = 0) (h2 : o.rel = 0) {i k : ℕ} (hk : k < n)
    (hi : k < i) : taken A r o L i k = L i k ^ 2 := by
  rw [below_exact hf h1 h2 hk hi]
  unfold taken
  split
  · rfl
  · rename_i h
    rw [not_or] at h
    have h := h.2
    unfold Kept at h
    rw [h1, h2, zero_mul, not_and_or, not_lt, not_lt] at h
    rcases h with h | h
    · rw [abs_nonpos_iff.mp h]; ring
    · rw [abs_nonpos_iff.mp h]; ring

/-- With zero thresholds the product of the factors is the shifted matrix. -/
theorem gram_exact (hf : IsFactor A r o n L) (h1 : o.discard = 0) (h2 : o.rel = 0) {i j : ℕ} (hj : j < n)
    (hij : j ≤ i) : gram n L i j = A i j + if i = j then o.shift else 0 := by
  rcases hij.eq_or_lt with h | h
  · subst h
    rw [gram_below hf hj, if_pos rfl, ← sq, hf.diag j hj,
      Finset.sum_congr rfl fun k hk => (taken_exact hf h1 h2 ((Finset.mem_range.mp hk).trans hj)
        (Finset.mem_range.mp hk)).trans (sq _)]
    ring
  · rw [if_neg h.ne', add_zero, gram_below hf hj, below_exact hf h1 h2 hj h,
      div_mul_cancel₀ _ (hf.pos j hj).ne', resid]
    ring

end Factor

/-! ## When it succeeds -/

section Success

variable {A : ℕ → ℕ → ℝ} {r : ℕ → ℝ} {o : Opts} {n : ℕ}

/-- What is left of the matrix after `j` columns. -/
noncomputable def left (A : ℕ → ℕ → ℝ) (st : DSt) (j i k : ℕ) : ℝ :=
  if i = k then st.d i else A i k - ∑ m ∈ Finset.range j, st.L i m * st.L k m

theorem left_self (st : DSt) (j i : ℕ) : left A st j i i = st.d i := if_pos rfl

theorem left_symm (hA : ∀ i < n, ∀ k < n, A i k = A k i) (st : DSt) (j : ℕ) {i k : ℕ} (hi : i < n) (hk : k < n) :
    left A st j i k = left A st j k i := by
  unfold left
  by_cases h : i = k
  · subst h; rfl
  · rw [if_neg h, if_neg (Ne.symm h), hA i hi k hk]
    congr 1
    exact Finset.sum_congr rfl fun m _ => mul_comm _ _

theorem left_resid (st : DSt) {j i : ℕ} (h : j < i) : left A st j i j = resid A st.L i j := by
  unfold left resid
  rw [if_neg h.ne']

open scoped Classical in
/-- One column, seen on what is left. -/
theorem left_step {st st' : DSt} {j : ℕ} (hd : 0 < st.d j) (h : denseStep A r o st j = some st') :
    ∀ i k, j < i → j < k → left A st' (j + 1) i k =
      left A st j i k -
        if (if i = k then (o.keep = true ∨ Kept o (r j) (√(st.d j)) (left A st j i j)) else
          Kept o (r j) (√(st.d j)) (left A st j i j) ∧ Kept o (r j) (√(st.d j)) (left A st j k j)) then
          (left A st j i j / √(st.d j)) * (left A st j k j / √(st.d j)) else 0 := by
  unfold denseStep at h
  rw [if_neg (not_le.mpr hd)] at h
  cases h
  intro i k hi hk
  by_cases hik : i = k
  · subst hik
    rw [left_self, left_self, left_resid st hi]
    simp only [hi, true_and, if_true]
    split
    · ring
    · ring
  · unfold left
    rw [if_neg hik, if_neg hik, if_neg hi.ne', if_neg hk.ne', Finset.sum_range_succ]
    have e : ∑ m ∈ Finset.range j, (if m = j then
          if i = j then √(st.d j) else if j < i ∧ Kept o (r j) (√(st.d j)) (resid A st.L i j) then
            resid A st.L i j / √(st.d j) else 0 else st.L i m) *
        (if m = j then
          if k = j then √(st.d j) else if j < k ∧ Kept o (r j) (√(st.d j)) (resid A st.L k j) then
            resid A st.L k j / √(st.d j) else 0 else st.L k m) = ∑ m ∈ Finset.range j, st.L i m * st.L k m :=
      Finset.sum_congr rfl fun m hm => by
        have := (Finset.mem_range.mp hm).ne
        rw [if_neg this, if_neg this]
    rw [e]
    simp only [if_true, hi.ne', hk.ne', hi, hk, true_and, if_false, hik]
    change _ = _ - ∑ m ∈ Finset.range j, st.L i m * st.L k m -
      if Kept o (r j) (√(st.d j)) (resid A st.L i j) ∧ Kept o (r j) (√(st.d j)) (resid A st.L k j) then
        (resid A st.L i j / √(st.d j)) * (resid A st.L k j / √(st.d j)) else 0
    by_cases h1 : Kept o (r j) (√(st.d j)) (resid A st.L i j)
    · by_cases h2 : Kept o (r j) (√(st.d j)) (resid A st.L k j)
      · simp only [h1, h2, and_self, if_true]; ring
      · simp only [h2, and_false, if_false]; ring
    · simp only [h1, false_and, if_false]; ring

theorem left_cases {st st' : DSt} {j : ℕ} (hd : 0 < st.d j) (h : denseStep A r o st j = some st') (i k : ℕ)
    (hi : j < i) (hk : j < k) :
    left A st' (j + 1) i k =
      left A st j i k - (left A st j i j / √(st.d j)) * (left A st j k j / √(st.d j)) ∨
    (left A st' (j + 1) i k = left A st j i k ∧
      (¬ Kept o (r j) (√(st.d j)) (left A st j i j) ∨ ¬ Kept o (r j) (√(st.d j)) (left A st j k j))) := by
  classical
  rw [left_step hd h i k hi hk]
  split
  · split
    · exact Or.inl rfl
    · rename_i hc
      exact Or.inr ⟨sub_zero _, Or.inl fun h => hc (Or.inr h)⟩
  · split
    · exact Or.inl rfl
    · rename_i hc
      exact Or.inr ⟨sub_zero _, not_and_or.mp hc⟩

theorem denseStep_some {st : DSt} {j : ℕ} (hd : 0 < st.d j) : ∃ st', denseStep A r o st j = some st' := by
  unfold denseStep
  rw [if_neg (not_le.mpr hd)]
  exact ⟨_, rfl⟩

theorem dense_le : ∀ {n j : ℕ}, j ≤ n → (∃ st, dense A r o n = some st) → ∃ st, dense A r o j = some st := by
  intro n
  induction n with
  | zero => intro j hj h; obtain rfl : j = 0 := by omega
            exact h
  | succ n ih =>
    intro j hj h
    rcases hj.eq_or_lt with e | e
    · rw [e]; exact h
    · refine ih (by omega) ?_
      obtain ⟨st, hst⟩ := h
      rw [dense] at hst
      obtain ⟨st0, h0, _⟩ := Option.bind_eq_some_iff.mp hst
      exact ⟨st0, h0⟩

/-- The dense algorithm succeeds on every symmetric matrix with non-positive off-diagonal entries that maps some
positive vector to a positive one, whatever the thresholds. -/
theorem dense_mmatrix (hA : ∀ i < n, ∀ k < n, A i k = A k i) (hoff : ∀ i < n, ∀ k < n, i ≠ k → A i k ≤ 0)
    (v : ℕ → ℝ) (hv : ∀ i < n, 0 < v i) (hrow : ∀ i < n, 0 < ∑ k ∈ Finset.range n, A i k * v k)
    (hs : 0 ≤ o.shift) : ∃ st, dense A r o n = some st := by
  have main : ∀ j ≤ n, ∃ st, dense A r o j = some st ∧
      (∀ i k, j ≤ i → i < n → j ≤ k → k < n → i ≠ k → left A st j i k ≤ 0) ∧
      (∀ i, j ≤ i → i < n → 0 < ∑ k ∈ Finset.Ico j n, left A st j i k * v k) := by
    intro j
    induction j with
    | zero =>
      intro _
      refine ⟨_, rfl, ?_, ?_⟩
      · intro i k _ hi _ hk hik
        unfold left
        rw [if_neg hik, Finset.sum_range_zero, sub_zero]
        exact hoff i hi k hk hik
      · intro i _ hi
        rw [← Finset.range_eq_Ico]
        refine (hrow i hi).trans_le (Finset.sum_le_sum fun k hk => ?_)
        refine mul_le_mul_of_nonneg_right ?_ (hv k (Finset.mem_range.mp hk)).le
        unfold left
        split
        · rename_i h; subst h
          simp only
          linarith
        · rw [Finset.sum_range_zero, sub_zero]
    | succ j ih =>
      intro hj
      obtain ⟨st, hst, h1, h2⟩ := ih (by omega)
      have hsplit : ∀ i, ∑ k ∈ Finset.Ico j n, left A st j i k * v k = left A st j i j * v j +
          ∑ k ∈ Finset.Ico (j + 1) n, left A st j i k * v k := fun i => Finset.sum_eq_sum_Ico_succ_bot (by omega) _
      have hvj := hv j (by omega)
      have hd : 0 < st.d j := by
        have h := h2 j le_rfl (by omega)
        rw [hsplit, left_self] at h
        have hn : ∑ k ∈ Finset.Ico (j + 1) n, left A st j j k * v k ≤ 0 := by
          refine Finset.sum_nonpos fun k hk => ?_
          rw [Finset.mem_Ico] at hk
          exact mul_nonpos_of_nonpos_of_nonneg (h1 j k le_rfl (by omega) (by omega) hk.2 (by omega)) (hv k hk.2).le
        by_contra hc
        have : st.d j * v j ≤ 0 := mul_nonpos_of_nonpos_of_nonneg (not_lt.mp hc) hvj.le
        linarith
      obtain ⟨st', hst'⟩ := denseStep_some (A := A) (r := r) (o := o) hd
      have hsq : 0 < √(st.d j) := Real.sqrt_pos.mpr hd
      have hss : √(st.d j) * √(st.d j) = st.d j := Real.mul_self_sqrt hd.le
      set t : ℕ → ℝ := fun i => left A st j i j / √(st.d j) with ht
      have htn : ∀ i, j < i → i < n → t i ≤ 0 := fun i hi hin =>
        div_nonpos_of_nonpos_of_nonneg (h1 i j hi.le hin le_rfl (by omega) hi.ne') hsq.le
      have hstep := left_cases hd hst'
      refine ⟨st', by rw [dense, hst]; exact hst', ?_, ?_⟩
      · intro i k hi hin hk hkn hik
        have h := h1 i k (by omega) hin (by omega) hkn hik
        have hp : 0 ≤ t i * t k := mul_nonneg_of_nonpos_of_nonpos (htn i (by omega) hin) (htn k (by omega) hkn)
        rcases hstep i k (by omega) (by omega) with e | ⟨e, _⟩ <;> rw [e]
        · change _ - t i * t k ≤ 0
          linarith
        · exact h
      · intro i hi hin
        have hge : ∀ k, j < k → k < n → left A st j i k - t i * t k ≤ left A st' (j + 1) i k := by
          intro k hk hkn
          have hp : 0 ≤ t i * t k := mul_nonneg_of_nonpos_of_nonpos (htn i (by omega) hin) (htn k hk hkn)
          rcases hstep i k (by omega) hk with e | ⟨e, _⟩ <;> rw [e]
          linarith
        have hA1 := h2 i (by omega) hin
        have hA2 := h2 j le_rfl (by omega)
        rw [hsplit] at hA1 hA2
        rw [left_self] at hA2
        have e1 : left A st j i j = t i * √(st.d j) := by rw [ht]; field_simp
        have e2 : ∑ k ∈ Finset.Ico (j + 1) n, left A st j j k * v k =
            √(st.d j) * ∑ k ∈ Finset.Ico (j + 1) n, t k * v k := by
          rw [Finset.mul_sum]
          refine Finset.sum_congr rfl fun k hk => ?_
          rw [Finset.mem_Ico] at hk
          rw [left_symm hA st j (by omega) hk.2, ht]
          field_simp
        have e3 : -(√(st.d j) * v j) < ∑ k ∈ Finset.Ico (j + 1) n, t k * v k := by
          have : 0 < √(st.d j) * (√(st.d j) * v j + ∑ k ∈ Finset.Ico (j + 1) n, t k * v k) := by
            rw [mul_add, ← mul_assoc, hss, ← e2]
            exact hA2
          have := (mul_pos_iff_of_pos_left hsq).mp this
          linarith
        have e4 : ∑ k ∈ Finset.Ico (j + 1) n, (left A st j i k - t i * t k) * v k =
            ∑ k ∈ Finset.Ico (j + 1) n, left A st j i k * v k - t i * ∑ k ∈ Finset.Ico (j + 1) n, t k * v k := by
          rw [Finset.mul_sum, ← Finset.sum_sub_distrib]
          exact Finset.sum_congr rfl fun k _ => by ring
        have e5 : ∑ k ∈ Finset.Ico (j + 1) n, (left A st j i k - t i * t k) * v k ≤
            ∑ k ∈ Finset.Ico (j + 1) n, left A st' (j + 1) i k * v k :=
          Finset.sum_le_sum fun k hk => by
            rw [Finset.mem_Ico] at hk
            exact mul_le_mul_of_nonneg_right (hge k (by omega) hk.2) (hv k hk.2).le
        have e6 := mul_le_mul_of_nonpos_left e3.le (htn i (by omega) hin)
        rw [e1] at hA1
        rw [e4] at e5
        nlinarith
  obtain ⟨st, h, _⟩ := main n le_rfl
  exact ⟨st, h⟩

/-- With zero thresholds the dense algorithm succeeds on every symmetric positive definite matrix. -/
theorem dense_posDef (hA : ∀ i < n, ∀ k < n, A i k = A k i)
    (hpos : ∀ x : ℕ → ℝ, (∃ i < n, x i ≠ 0) → 0 < ∑ i ∈ Finset.range n, ∑ k ∈ Finset.range n, A i k * x i * x k)
    (hs : 0 ≤ o.shift) (h1 : o.discard = 0) (h2 : o.rel = 0) : ∃ st, dense A r o n = some st := by
  have main : ∀ j ≤ n, ∃ st, dense A r o j = some st ∧ ∀ x : ℕ → ℝ, (∃ i, j ≤ i ∧ i < n ∧ x i ≠ 0) →
      0 < ∑ i ∈ Finset.Ico j n, ∑ k ∈ Finset.Ico j n, left A st j i k * x i * x k := by
    intro j
    induction j with
    | zero =>
      intro _
      refine ⟨_, rfl, ?_⟩
      rintro x ⟨i, _, hi, hx⟩
      rw [← Finset.range_eq_Ico]
      refine (hpos x ⟨i, hi, hx⟩).trans_le ?_
      refine Finset.sum_le_sum fun a _ => Finset.sum_le_sum fun b _ => ?_
      unfold left
      split
      · rename_i h; subst h
        simp only
        nlinarith [sq_nonneg (x a)]
      · rw [Finset.sum_range_zero, sub_zero]
    | succ j ih =>
      intro hj
      obtain ⟨st, hst, hq⟩ := ih (by omega)
      have hsum : ∀ f : ℕ → ℝ, ∑ k ∈ Finset.Ico j n, f k = f j + ∑ k ∈ Finset.Ico (j + 1) n, f k :=
        fun f => Finset.sum_eq_sum_Ico_succ_bot (by omega) f
      have hd : 0 < st.d j := by
        have h := hq (fun i => if i = j then 1 else 0) ⟨j, le_rfl, by omega, by simp⟩
        have e : ∑ i ∈ Finset.Ico j n, ∑ k ∈ Finset.Ico j n, left A st j i k * (if i = j then 1 else 0) *
            (if k = j then (1 : ℝ) else 0) = st.d j := by
          rw [hsum, hsum]
          have z1 : ∑ k ∈ Finset.Ico (j + 1) n, left A st j j k * (if j = j then 1 else 0) *
              (if k = j then (1 : ℝ) else 0) = 0 := Finset.sum_eq_zero fun k hk => by
            rw [Finset.mem_Ico] at hk
            rw [if_neg (by omega : ¬ k = j), mul_zero]
          have z2 : ∑ i ∈ Finset.Ico (j + 1) n, ∑ k ∈ Finset.Ico j n, left A st j i k * (if i = j then 1 else 0) *
              (if k = j then (1 : ℝ) else 0) = 0 := Finset.sum_eq_zero fun i hi => Finset.sum_eq_zero fun k _ => by
            rw [Finset.mem_Ico] at hi
            rw [if_neg (by omega : ¬ i = j), mul_zero, zero_mul]
          rw [z1, z2, left_self]
          simp
        rwa [e] at h
      obtain ⟨st', hst'⟩ := denseStep_some (A := A) (r := r) (o := o) hd
      have hsq : 0 < √(st.d j) := Real.sqrt_pos.mpr hd
      have hss : √(st.d j) * √(st.d j) = st.d j := Real.mul_self_sqrt hd.le
      set t : ℕ → ℝ := fun i => left A st j i j / √(st.d j) with ht
      have hzero : ∀ i, ¬ Kept o (r j) (√(st.d j)) (left A st j i j) → t i = 0 := by
        intro i h
        unfold Kept at h
        rw [h1, h2, zero_mul, not_and_or, not_lt, not_lt] at h
        rcases h with h | h
        · exact abs_nonpos_iff.mp h
        · rw [ht]
          simp only
          rw [abs_nonpos_iff.mp h, zero_div]
      have hstep : ∀ i k, j < i → j < k → left A st' (j + 1) i k = left A st j i k - t i * t k := by
        intro i k hi hk
        rcases left_cases hd hst' i k hi hk with e | ⟨e, h⟩
        · exact e
        · rw [e]
          rcases h with h | h
          · rw [hzero i h, zero_mul, sub_zero]
          · rw [hzero k h, mul_zero, sub_zero]
      refine ⟨st', by rw [dense, hst]; exact hst', ?_⟩
      rintro x ⟨i, hi, hin, hx⟩
      set P := ∑ k ∈ Finset.Ico (j + 1) n, t k * x k with hP
      set y : ℕ → ℝ := Function.update x j (-(P / √(st.d j))) with hy
      have hyx : ∀ k, j < k → y k = x k := fun k hk => Function.update_of_ne hk.ne' _ _
      have hyj : y j = -(P / √(st.d j)) := Function.update_self ..
      have h := hq y ⟨i, by omega, hin, by rw [hyx i (by omega)]; exact hx⟩
      have e1 : ∑ k ∈ Finset.Ico (j + 1) n, left A st j j k * y j * y k = √(st.d j) * y j * P := by
        rw [hP, Finset.mul_sum]
        refine Finset.sum_congr rfl fun k hk => ?_
        rw [Finset.mem_Ico] at hk
        rw [left_symm hA st j (by omega) hk.2, hyx k (by omega), ht]
        field_simp
      have e2 : ∑ i ∈ Finset.Ico (j + 1) n, ∑ k ∈ Finset.Ico j n, left A st j i k * y i * y k =
          √(st.d j) * y j * P + ∑ i ∈ Finset.Ico (j + 1) n, ∑ k ∈ Finset.Ico (j + 1) n, left A st j i k * x i * x k := by
        rw [hP, Finset.mul_sum, ← Finset.sum_add_distrib]
        refine Finset.sum_congr rfl fun a ha => ?_
        rw [Finset.mem_Ico] at ha
        rw [hsum]
        congr 1
        · rw [hyx a (by omega), ht]
          field_simp
        · refine Finset.sum_congr rfl fun k hk => ?_
          rw [Finset.mem_Ico] at hk
          rw [hyx a (by omega), hyx k (by omega)]
      have e3 : ∑ i ∈ Finset.Ico (j + 1) n, ∑ k ∈ Finset.Ico (j + 1) n, left A st' (j + 1) i k * x i * x k =
          ∑ i ∈ Finset.Ico (j + 1) n, ∑ k ∈ Finset.Ico (j + 1) n, left A st j i k * x i * x k - P * P := by
        have : P * P = ∑ i ∈ Finset.Ico (j + 1) n, ∑ k ∈ Finset.Ico (j + 1) n, t i * t k * x i * x k := by
          rw [hP, Finset.sum_mul_sum]
          exact Finset.sum_congr rfl fun a _ => Finset.sum_congr rfl fun b _ => by ring
        rw [this, ← Finset.sum_sub_distrib]
        refine Finset.sum_congr rfl fun a ha => ?_
        rw [← Finset.sum_sub_distrib]
        refine Finset.sum_congr rfl fun b hb => ?_
        rw [Finset.mem_Ico] at ha hb
        rw [hstep a b (by omega) (by omega)]
        ring
      rw [hsum, hsum, e1, e2, left_self, hyj] at h
      rw [e3]
      have e4 : st.d j * -(P / √(st.d j)) * -(P / √(st.d j)) = P * P := by
        nth_rw 1 [← hss]
        field_simp
      have e5 : √(st.d j) * -(P / √(st.d j)) * P = -(P * P) := by field_simp
      rw [e4, e5] at h
      linarith
  obtain ⟨st, h, _⟩ := main n le_rfl
  exact ⟨st, h⟩

end Success

end Pytwoway.Precond
