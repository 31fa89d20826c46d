import Verif.Constraints.Spec
import Mathlib.Tactic.Ring
import Mathlib.Tactic.Linarith
import Mathlib.Tactic.Push
import Mathlib.Algebra.BigOperators.Ring.Finset

/-!
# Helper lemmas on matrices written entry by entry
-/

namespace Pytwoway.Constraints

open scoped BigOperators

/-- Entries after a list of writes (no bounds check). -/
def actAll (os : List Op) (e : ℕ → ℕ → ℝ) : ℕ → ℕ → ℝ := os.foldl (fun e o => o.act e) e

theorem writes_ok (os : List Op) (M : Mat) (h : ∀ o ∈ os, o.row < M.rows ∧ o.col < M.cols) :
    M.writes os = .ok { M with e := actAll os M.e } := by
  induction os generalizing M with
  | nil => rfl
  | cons o os ih =>
    have h1 := h o (by simp)
    simp only [Mat.writes, List.foldlM_cons, Mat.write, h1, and_self, if_true, actAll, List.foldl_cons]
    have := ih { M with e := o.act M.e } (fun o' ho' => h o' (by simp [ho']))
    exact this

/-- Contribution of the writes to row `r` of the product with `x`. -/
def rowSum (os : List Op) (x : ℕ → ℝ) (r : ℕ) : ℝ :=
  (os.map fun o => if o.row = r then o.val * x o.col else 0).sum

/-- Every plain assignment hits an entry that no earlier write touched. -/
def Fresh (os : List Op) : Prop :=
  os.Pairwise fun a b => match b with
    | .set r c _ => ¬ (a.row = r ∧ a.col = c)
    | .inc _ _ _ => True

theorem actAll_untouched (os : List Op) (e : ℕ → ℕ → ℝ) (r c : ℕ)
    (h : ∀ o ∈ os, ¬ (o.row = r ∧ o.col = c)) : actAll os e r c = e r c := by
  induction os generalizing e with
  | nil => rfl
  | cons o os ih =>
    have h1 := h o (by simp)
    rw [actAll, List.foldl_cons]
    have := ih (o.act e) (fun o' ho' => h o' (by simp [ho']))
    rw [actAll] at this
    rw [this]
    cases o with
    | set r' c' v =>
      simp only [Op.act]; rw [if_neg]; rintro ⟨rfl, rfl⟩; exact h1 ⟨rfl, rfl⟩
    | inc r' c' v =>
      simp only [Op.act]; rw [if_neg]; rintro ⟨rfl, rfl⟩; exact h1 ⟨rfl, rfl⟩

theorem dot_actAll (os : List Op) (n : ℕ) (x : ℕ → ℝ) (r : ℕ) (hc : ∀ o ∈ os, o.col < n)
    (hf : Fresh os) :
    ∑ c ∈ Finset.range n, actAll os (fun _ _ => 0) r c * x c = rowSum os x r := by
  induction os using List.reverseRecOn with
  | nil => simp [actAll, rowSum]
  | append_singleton os o ih =>
    have hf' : Fresh os := (List.pairwise_append.mp hf).1
    have ih := ih (fun o' ho' => hc o' (by simp [ho'])) hf'
    have hfo := (List.pairwise_append.mp hf).2.2
    have hco : o.col < n := hc o (by simp)
    have e1 : actAll (os ++ [o]) (fun _ _ => 0) = o.act (actAll os fun _ _ => 0) := by
      simp [actAll]
    have e2 : rowSum (os ++ [o]) x r = rowSum os x r + if o.row = r then o.val * x o.col else 0 := by
      simp [rowSum]
    rw [e1, e2, ← ih]
    have key : ∀ c, o.act (actAll os fun _ _ => 0) r c * x c
        = actAll os (fun _ _ => 0) r c * x c
          + if c = o.col then (if o.row = r then o.val * x o.col else 0) else 0 := by
      intro c
      cases o with
      | set r' c' v =>
        have h0 : actAll os (fun _ _ => 0) r' c' = 0 :=
          actAll_untouched os _ r' c' (fun o' ho' => hfo o' ho' (.set r' c' v) (by simp))
        simp only [Op.act, Op.row, Op.col, Op.val]
        by_cases h1 : r = r'
        · subst h1
          by_cases h2 : c = c'
          · subst h2; simp [h0]
          · simp [h2]
        · simp [h1, Ne.symm h1]
      | inc r' c' v =>
        simp only [Op.act, Op.row, Op.col, Op.val]
        by_cases h1 : r = r'
        · subst h1
          by_cases h2 : c = c'
          · subst h2; simp; ring
          · simp [h2]
        · simp [h1, Ne.symm h1]
    rw [Finset.sum_congr rfl (fun c _ => key c), Finset.sum_add_distrib, Finset.sum_ite_eq']
    simp [hco]

theorem zeros2_ok (r c : ℕ) : zeros2 r c = .ok ⟨r, c, fun _ _ => 0⟩ := by
  simp [zeros2]

/-- How an equality constraint built by writes reads. -/
theorem encode_eq {R C : ℤ} (rows cols : ℕ) (hR : R = rows) (hC : C = cols) (os : List Op)
    (hb : ∀ o ∈ os, o.row < rows ∧ o.col < cols) (hf : Fresh os) :
    Encodes (do let A ← zeros2 R C; let A ← A.writes os; return eqCon A) cols
      (fun x => ∀ r < rows, rowSum os x r = 0) := by
  subst hR hC
  have hw := writes_ok os ⟨rows, cols, fun _ _ => 0⟩ hb
  refine ⟨eqCon ⟨rows, cols, actAll os fun _ _ => 0⟩, ?_, ?_, ?_⟩
  · rw [zeros2_ok]; change (do let A ← Mat.writes _ os; return eqCon A) = _; rw [hw]; rfl
  · constructor
    · intro G hG; simp [eqCon] at hG
    · intro A hA
      simp only [eqCon, Option.some.injEq] at hA
      subst hA
      exact ⟨rfl, _, rfl, rfl⟩
  · intro x
    have hd := fun r => dot_actAll os cols x r (fun o ho => (hb o ho).2) hf
    simp only [Con.Sat, eqCon, Mat.dot, Vec.const]
    constructor
    · rintro ⟨_, h⟩ r hr
      have := h _ _ rfl rfl r hr
      rw [← hd r]; exact this
    · intro h
      refine ⟨by simp, ?_⟩
      rintro A b hA hb' r hr
      simp only [Option.some.injEq] at hA hb'
      subst hA hb'
      have := h r hr
      rw [← hd r] at this; exact this

/-- How an inequality constraint built by writes reads. -/
theorem encode_ineq {R C : ℤ} (rows cols : ℕ) (hR : R = rows) (hC : C = cols) (os : List Op)
    (md : ℝ) (keep : Bool) (hb : ∀ o ∈ os, o.row < rows ∧ o.col < cols) (hf : Fresh os) :
    Encodes (do let G ← zeros2 R C; let G ← G.writes os; return ineqCon md keep G) cols
      (fun x => ∀ r < rows, (if keep then rowSum os x r else - rowSum os x r) ≤ -md) := by
  subst hR hC
  have hw := writes_ok os ⟨rows, cols, fun _ _ => 0⟩ hb
  refine ⟨ineqCon md keep ⟨rows, cols, actAll os fun _ _ => 0⟩, ?_, ?_, ?_⟩
  · rw [zeros2_ok]; change (do let A ← Mat.writes _ os; return ineqCon md keep A) = _; rw [hw]; rfl
  · constructor
    · intro G hG
      simp only [ineqCon, Option.some.injEq] at hG
      subst hG
      cases keep <;> exact ⟨rfl, _, rfl, rfl⟩
    · intro A hA; simp [ineqCon] at hA
  · intro x
    have hd := fun r => dot_actAll os cols x r (fun o ho => (hb o ho).2) hf
    have hd' : ∀ r, Mat.dot (if keep then ⟨rows, cols, actAll os fun _ _ => 0⟩
        else Mat.scale (-1) ⟨rows, cols, actAll os fun _ _ => 0⟩) x r
        = if keep then rowSum os x r else - rowSum os x r := by
      intro r
      cases keep with
      | true => simpa [Mat.dot] using hd r
      | false => simpa [Mat.dot, Mat.scale, Finset.sum_neg_distrib] using hd r
    have hr' : ∀ keep : Bool, (if keep then (⟨rows, cols, actAll os fun _ _ => 0⟩ : Mat)
        else Mat.scale (-1) ⟨rows, cols, actAll os fun _ _ => 0⟩).rows = rows := by
      intro keep; cases keep <;> rfl
    simp only [Con.Sat, ineqCon, Vec.const]
    constructor
    · rintro ⟨h, _⟩ r hr
      have := h _ _ rfl rfl r (by rw [hr']; exact hr)
      rw [hd' r] at this; exact this
    · intro h
      refine ⟨?_, by simp⟩
      rintro G b hG hb' r hr
      simp only [Option.some.injEq] at hG hb'
      subst hG hb'
      rw [hr'] at hr
      rw [hd' r]; exact h r hr

/-! ### Loops -/

theorem rowSum_append (a b : List Op) (x : ℕ → ℝ) (r : ℕ) :
    rowSum (a ++ b) x r = rowSum a x r + rowSum b x r := by simp [rowSum]

theorem rowSum_flatMap {α : Type*} (l : List α) (f : α → List Op) (x : ℕ → ℝ) (r : ℕ) :
    rowSum (l.flatMap f) x r = (l.map fun a => rowSum (f a) x r).sum := by
  induction l with
  | nil => simp [rowSum]
  | cons a l ih => rw [List.flatMap_cons, rowSum_append, ih]; simp

theorem sum_map_range (n : ℕ) (f : ℕ → ℝ) :
    ((List.range n).map f).sum = ∑ i ∈ Finset.range n, f i := by
  induction n with
  | zero => simp
  | succ n ih => rw [List.range_succ, Finset.sum_range_succ]; simp [ih]

theorem enum_eq (nnt : List ℕ) :
    enum nnt = (List.range nnt.length).map fun i => (nnt.getD i 0, i) := by
  apply List.ext_getElem
  · simp
  · intro i h1 h2
    simp only [List.length_zipIdx] at h1
    simp [h1]

theorem rowSum_range (n : ℕ) (f : ℕ → List Op) (x : ℕ → ℝ) (r : ℕ) :
    rowSum ((List.range n).flatMap f) x r = ∑ i ∈ Finset.range n, rowSum (f i) x r := by
  rw [rowSum_flatMap, sum_map_range]

theorem flatMap_enum {β : Type*} (nnt : List ℕ) (f : ℕ × ℕ → List β) :
    (enum nnt).flatMap f = (List.range nnt.length).flatMap fun i => f (nnt.getD i 0, i) := by
  rw [enum_eq, List.flatMap_map]

theorem fresh_range (n : ℕ) (f : ℕ → List Op) (h1 : ∀ i < n, Fresh (f i))
    (h2 : ∀ i < n, ∀ j < n, i < j → ∀ a ∈ f i, ∀ b ∈ f j, ¬ (a.row = b.row ∧ a.col = b.col)) :
    Fresh ((List.range n).flatMap f) := by
  rw [Fresh, List.pairwise_flatMap]
  refine ⟨fun i hi => h1 i (List.mem_range.mp hi), ?_⟩
  refine List.Pairwise.imp_of_mem ?_ (List.pairwise_lt_range (n := n))
  intro i j hi hj hij a ha b hb
  have := h2 i (List.mem_range.mp hi) j (List.mem_range.mp hj) hij a ha b hb
  cases b with
  | set r c v => simpa [Op.row, Op.col] using this
  | inc r c v => trivial

/-! ### Mixed-radix indices -/

theorem idx2_inj {m a b l l' : ℕ} (hl : l < m) (hl' : l' < m) (h : a * m + l = b * m + l') :
    a = b ∧ l = l' := by
  have hm : 0 < m := by omega
  have h1 : (a * m + l) / m = a := by
    rw [Nat.mul_comm, Nat.mul_add_div hm, Nat.div_eq_of_lt hl, Nat.add_zero]
  have h2 : (b * m + l') / m = b := by
    rw [Nat.mul_comm, Nat.mul_add_div hm, Nat.div_eq_of_lt hl', Nat.add_zero]
  have hab : a = b := by rw [← h1, h, h2]
  subst hab
  exact ⟨rfl, by omega⟩

theorem idx2_lt {m n a l : ℕ} (hl : l < m) (ha : a < n) : a * m + l < n * m := by
  calc a * m + l < a * m + m := by omega
    _ = (a + 1) * m := by ring
    _ ≤ n * m := Nat.mul_le_mul_right m ha

theorem idx2_surj {m n r : ℕ} (h : r < n * m) : ∃ a < n, ∃ l < m, r = a * m + l := by
  have hm : 0 < m := by rcases Nat.eq_zero_or_pos m with rfl | h' <;> omega
  refine ⟨r / m, ?_, r % m, Nat.mod_lt _ hm, ?_⟩
  · exact Nat.div_lt_of_lt_mul (by rw [Nat.mul_comm]; exact h)
  · rw [Nat.mul_comm]; exact (Nat.div_add_mod r m).symm

theorem idx3_eq (p m nk k l : ℕ) : p * m * nk + k * m + l = (p * nk + k) * m + l := by ring

theorem idx3_inj {m nk p p' k k' l l' : ℕ} (hl : l < m) (hl' : l' < m) (hk : k < nk) (hk' : k' < nk)
    (h : p * m * nk + k * m + l = p' * m * nk + k' * m + l') : p = p' ∧ k = k' ∧ l = l' := by
  rw [idx3_eq, idx3_eq] at h
  obtain ⟨h1, h2⟩ := idx2_inj hl hl' h
  obtain ⟨h3, h4⟩ := idx2_inj hk hk' h1
  exact ⟨h3, h4, h2⟩

theorem idx3_lt {n m nk p k l : ℕ} (hp : p < n) (hk : k < nk) (hl : l < m) :
    p * m * nk + k * m + l < n * m * nk := by
  rw [idx3_eq]
  have := idx2_lt hl (idx2_lt hk hp)
  calc _ < n * nk * m := this
    _ = n * m * nk := by ring

theorem idx3_surj {n m nk r : ℕ} (h : r < n * m * nk) :
    ∃ p < n, ∃ k < nk, ∃ l < m, r = p * m * nk + k * m + l := by
  have h' : r < n * nk * m := by calc r < n * m * nk := h
    _ = n * nk * m := by ring
  obtain ⟨a, ha, l, hl, rfl⟩ := idx2_surj h'
  obtain ⟨p, hp, k, hk, rfl⟩ := idx2_surj ha
  exact ⟨p, hp, k, hk, l, hl, (idx3_eq _ _ _ _ _).symm⟩

/-- A triple loop in which one iteration writes row `r` leaves just that iteration's contribution. -/
theorem sum3_single {n m nk : ℕ} (F : ℕ → ℕ → ℕ → ℝ) (p k l : ℕ) (hp : p < n) (hk : k < nk)
    (hl : l < m) :
    ∑ i ∈ Finset.range n, ∑ j ∈ Finset.range nk, ∑ q ∈ Finset.range m,
      (if i * m * nk + j * m + q = p * m * nk + k * m + l then F i j q else 0) = F p k l := by
  rw [Finset.sum_eq_single p]
  · rw [Finset.sum_eq_single k]
    · rw [Finset.sum_eq_single l]
      · simp
      · intro q hq hne
        rw [if_neg]; intro h
        exact hne (idx3_inj (Finset.mem_range.mp hq) hl hk hk h).2.2
      · intro h; exact absurd (Finset.mem_range.mpr hl) h
    · intro j hj hne
      apply Finset.sum_eq_zero; intro q hq
      rw [if_neg]; intro h
      exact hne (idx3_inj (Finset.mem_range.mp hq) hl (Finset.mem_range.mp hj) hk h).2.1
    · intro h; exact absurd (Finset.mem_range.mpr hk) h
  · intro i hi hne
    apply Finset.sum_eq_zero; intro j hj
    apply Finset.sum_eq_zero; intro q hq
    rw [if_neg]; intro h
    exact hne (idx3_inj (Finset.mem_range.mp hq) hl (Finset.mem_range.mp hj) hk h).1
  · intro h; exact absurd (Finset.mem_range.mpr hp) h

theorem sum2_single {n m : ℕ} (F : ℕ → ℕ → ℝ) (p l : ℕ) (hp : p < n) (hl : l < m) :
    ∑ i ∈ Finset.range n, ∑ q ∈ Finset.range m,
      (if i * m + q = p * m + l then F i q else 0) = F p l := by
  rw [Finset.sum_eq_single p]
  · rw [Finset.sum_eq_single l]
    · simp
    · intro q hq hne
      rw [if_neg]; intro h
      exact hne (idx2_inj (Finset.mem_range.mp hq) hl h).2
    · intro h; exact absurd (Finset.mem_range.mpr hl) h
  · intro i hi hne
    apply Finset.sum_eq_zero; intro q hq
    rw [if_neg]; intro h
    exact hne (idx2_inj (Finset.mem_range.mp hq) hl h).1
  · intro h; exact absurd (Finset.mem_range.mpr hp) h

/-- Column of the effect `(t, l, k)` is within the parameter vector. -/
theorem col_lt {nt nl nk t l k : ℕ} (ht : t < nt) (hl : l < nl) (hk : k < nk) :
    (t * nl + l) * nk + k < nt * nl * nk := idx2_lt hk (idx2_lt hl ht)

theorem col_inj {nl nk t l k t' l' k' : ℕ} (hl : l < nl) (hk : k < nk) (hl' : l' < nl)
    (hk' : k' < nk) (h : (t * nl + l) * nk + k = (t' * nl + l') * nk + k') :
    t = t' ∧ l = l' ∧ k = k' := by
  obtain ⟨h1, h2⟩ := idx2_inj hk hk' h
  obtain ⟨h3, h4⟩ := idx2_inj hl hl' h1
  exact ⟨h3, h4, h2⟩

/-! ### Loops that fill one row per iteration -/

/-- The writes of one iteration: entries `ent` in row `row`. -/
def rowOps (row : ℕ) (ent : List (ℕ × ℝ)) : List Op := ent.map fun cv => .set row cv.1 cv.2

/-- Product of the entries with `x`. -/
def entDot (ent : List (ℕ × ℝ)) (x : ℕ → ℝ) : ℝ := (ent.map fun cv => cv.2 * x cv.1).sum

theorem rowSum_rowOps (row : ℕ) (ent : List (ℕ × ℝ)) (x : ℕ → ℝ) (r : ℕ) :
    rowSum (rowOps row ent) x r = if row = r then entDot ent x else 0 := by
  simp only [rowSum, rowOps, List.map_map, entDot]
  by_cases h : row = r
  · simp [h, Function.comp_def, Op.row, Op.val, Op.col]
  · simp [h, Function.comp_def, Op.row]

theorem fresh_rowOps (row : ℕ) (ent : List (ℕ × ℝ)) (h : (ent.map Prod.fst).Nodup) :
    Fresh (rowOps row ent) := by
  rw [Fresh, rowOps, List.pairwise_map]
  rw [List.Nodup, List.pairwise_map] at h
  refine h.imp ?_
  intro a b hab
  simp only [Op.row, Op.col, true_and]
  exact hab

theorem mem_rowOps {row : ℕ} {ent : List (ℕ × ℝ)} {o : Op} (h : o ∈ rowOps row ent) :
    o.row = row ∧ ∃ cv ∈ ent, o.col = cv.1 := by
  simp only [rowOps, List.mem_map] at h
  obtain ⟨cv, hcv, rfl⟩ := h
  exact ⟨rfl, cv, hcv, rfl⟩

/-- A triple loop that fills row `(i, k, l)`. -/
def ops3 (n nk m : ℕ) (ent : ℕ → ℕ → ℕ → List (ℕ × ℝ)) : List Op :=
  (List.range n).flatMap fun i => (List.range nk).flatMap fun k => (List.range m).flatMap fun l =>
    rowOps (i * m * nk + k * m + l) (ent i k l)

theorem mem_ops3 {n nk m : ℕ} {ent : ℕ → ℕ → ℕ → List (ℕ × ℝ)} {o : Op}
    (h : o ∈ ops3 n nk m ent) :
    ∃ i < n, ∃ k < nk, ∃ l < m, o.row = i * m * nk + k * m + l ∧ ∃ cv ∈ ent i k l, o.col = cv.1 := by
  simp only [ops3, List.mem_flatMap, List.mem_range] at h
  obtain ⟨i, hi, k, hk, l, hl, ho⟩ := h
  exact ⟨i, hi, k, hk, l, hl, mem_rowOps ho⟩

theorem fresh_ops3 {n nk m : ℕ} {ent : ℕ → ℕ → ℕ → List (ℕ × ℝ)}
    (h : ∀ i < n, ∀ k < nk, ∀ l < m, ((ent i k l).map Prod.fst).Nodup) :
    Fresh (ops3 n nk m ent) := by
  refine fresh_range _ _ (fun i hi => fresh_range _ _ (fun k hk => fresh_range _ _ (fun l hl =>
    fresh_rowOps _ _ (h i hi k hk l hl)) ?_) ?_) ?_
  · rintro l hl l' hl' hll a ha b hb ⟨h1, _⟩
    have := (mem_rowOps ha).1; have := (mem_rowOps hb).1; omega
  · rintro k hk k' hk' hkk a ha b hb ⟨h1, _⟩
    simp only [List.mem_flatMap, List.mem_range] at ha hb
    obtain ⟨l, hl, ha⟩ := ha
    obtain ⟨l', hl', hb⟩ := hb
    rw [(mem_rowOps ha).1, (mem_rowOps hb).1] at h1
    have := (idx3_inj hl hl' hk hk' h1).2.1
    omega
  · rintro i hi i' hi' hii a ha b hb ⟨h1, _⟩
    simp only [List.mem_flatMap, List.mem_range] at ha hb
    obtain ⟨k, hk, l, hl, ha⟩ := ha
    obtain ⟨k', hk', l', hl', hb⟩ := hb
    rw [(mem_rowOps ha).1, (mem_rowOps hb).1] at h1
    have := (idx3_inj hl hl' hk hk' h1).1
    omega

theorem rowSum_ops3 {n nk m : ℕ} (ent : ℕ → ℕ → ℕ → List (ℕ × ℝ)) (x : ℕ → ℝ) {p k l : ℕ}
    (hp : p < n) (hk : k < nk) (hl : l < m) :
    rowSum (ops3 n nk m ent) x (p * m * nk + k * m + l) = entDot (ent p k l) x := by
  simp only [ops3, rowSum_range, rowSum_rowOps]
  exact sum3_single (fun i k l => entDot (ent i k l) x) p k l hp hk hl

/-- All rows of a triple loop. -/
theorem rows_ops3 {n nk m : ℕ} (ent : ℕ → ℕ → ℕ → List (ℕ × ℝ)) (x : ℕ → ℝ) (Q : ℝ → Prop) :
    (∀ r < n * m * nk, Q (rowSum (ops3 n nk m ent) x r)) ↔
      ∀ p < n, ∀ k < nk, ∀ l < m, Q (entDot (ent p k l) x) := by
  constructor
  · intro h p hp k hk l hl
    have := h _ (idx3_lt hp hk hl)
    rwa [rowSum_ops3 ent x hp hk hl] at this
  · intro h r hr
    obtain ⟨p, hp, k, hk, l, hl, rfl⟩ := idx3_surj hr
    rw [rowSum_ops3 ent x hp hk hl]
    exact h p hp k hk l hl

/-- A double loop that fills row `base + (i, l)`. -/
def ops2 (base n m : ℕ) (ent : ℕ → ℕ → List (ℕ × ℝ)) : List Op :=
  (List.range n).flatMap fun i => (List.range m).flatMap fun l =>
    rowOps (base + i * m + l) (ent i l)

theorem mem_ops2 {base n m : ℕ} {ent : ℕ → ℕ → List (ℕ × ℝ)} {o : Op}
    (h : o ∈ ops2 base n m ent) :
    ∃ i < n, ∃ l < m, o.row = base + i * m + l ∧ ∃ cv ∈ ent i l, o.col = cv.1 := by
  simp only [ops2, List.mem_flatMap, List.mem_range] at h
  obtain ⟨i, hi, l, hl, ho⟩ := h
  exact ⟨i, hi, l, hl, mem_rowOps ho⟩

theorem fresh_ops2 {base n m : ℕ} {ent : ℕ → ℕ → List (ℕ × ℝ)}
    (h : ∀ i < n, ∀ l < m, ((ent i l).map Prod.fst).Nodup) :
    Fresh (ops2 base n m ent) := by
  refine fresh_range _ _ (fun i hi => fresh_range _ _ (fun l hl =>
    fresh_rowOps _ _ (h i hi l hl)) ?_) ?_
  · rintro l hl l' hl' hll a ha b hb ⟨h1, _⟩
    have := (mem_rowOps ha).1; have := (mem_rowOps hb).1; omega
  · rintro i hi i' hi' hii a ha b hb ⟨h1, _⟩
    simp only [List.mem_flatMap, List.mem_range] at ha hb
    obtain ⟨l, hl, ha⟩ := ha
    obtain ⟨l', hl', hb⟩ := hb
    rw [(mem_rowOps ha).1, (mem_rowOps hb).1] at h1
    have := (idx2_inj hl hl' (a := i) (b := i') (by omega)).1
    omega

theorem rowSum_ops2 {base n m : ℕ} (ent : ℕ → ℕ → List (ℕ × ℝ)) (x : ℕ → ℝ) {p l : ℕ}
    (hp : p < n) (hl : l < m) :
    rowSum (ops2 base n m ent) x (base + p * m + l) = entDot (ent p l) x := by
  simp only [ops2, rowSum_range, rowSum_rowOps]
  have : ∀ i q, (base + i * m + q = base + p * m + l) ↔ (i * m + q = p * m + l) := by
    intro i q; omega
  simp only [this]
  exact sum2_single (fun i l => entDot (ent i l) x) p l hp hl

/-- All rows of a double loop. -/
theorem rows_ops2 {n m : ℕ} (ent : ℕ → ℕ → List (ℕ × ℝ)) (x : ℕ → ℝ) (Q : ℝ → Prop) :
    (∀ r < n * m, Q (rowSum (ops2 0 n m ent) x r)) ↔ ∀ p < n, ∀ l < m, Q (entDot (ent p l) x) := by
  constructor
  · intro h p hp l hl
    have := h _ (idx2_lt hl hp)
    have e := rowSum_ops2 (base := 0) ent x hp hl
    rw [Nat.zero_add] at e
    rwa [e] at this
  · intro h r hr
    obtain ⟨p, hp, l, hl, rfl⟩ := idx2_surj hr
    have e := rowSum_ops2 (base := 0) ent x hp hl
    rw [Nat.zero_add] at e
    rw [e]
    exact h p hp l hl

theorem rowSum_eq_zero {os : List Op} {x : ℕ → ℝ} {r : ℕ} (h : ∀ o ∈ os, o.row ≠ r) :
    rowSum os x r = 0 := by
  rw [rowSum]
  apply List.sum_eq_zero
  intro v hv
  simp only [List.mem_map] at hv
  obtain ⟨o, ho, rfl⟩ := hv
  rw [if_neg (h o ho)]

theorem fresh_append {a b : List Op} (ha : Fresh a) (hb : Fresh b)
    (hab : ∀ o ∈ a, ∀ o' ∈ b, ¬ (o.row = o'.row ∧ o.col = o'.col)) : Fresh (a ++ b) := by
  refine List.pairwise_append.mpr ⟨ha, hb, ?_⟩
  intro o ho o' ho'
  have := hab o ho o' ho'
  cases o' with
  | set r c v => simpa [Op.row, Op.col] using this
  | inc r c v => trivial

theorem writes_append (M : Mat) (a b : List Op) :
    M.writes (a ++ b) = (do let M ← M.writes a; M.writes b) := by
  simp [Mat.writes, List.foldlM_append]

/-- Selected periods by position or by membership. -/
theorem forall_periods (nnt : List ℕ) (Q : ℕ → Prop) :
    (∀ i < nnt.length, Q (nnt.getD i 0)) ↔ ∀ t ∈ nnt, Q t := by
  constructor
  · intro h t ht
    obtain ⟨i, hi, rfl⟩ := List.getElem_of_mem ht
    have := h i hi
    simpa [hi] using this
  · intro h i hi
    have : nnt.getD i 0 = nnt[i] := by simp [hi]
    rw [this]; exact h _ (List.getElem_mem hi)

end Pytwoway.Constraints
