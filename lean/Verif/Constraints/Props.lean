import Verif.Constraints.Lemmas
import Mathlib.Tactic.NormNum
import Mathlib.Tactic.FieldSimp

/-!
# Properties C08, C10, C11, C12, C14 of `pytwoway/constraints/constraints.py`
-/

namespace Pytwoway.Constraints

open scoped BigOperators

theorem Encodes.congr {r : Py Con} {n : ℕ} {P Q : (ℕ → ℝ) → Prop} (h : Encodes r n P)
    (hPQ : ∀ x, P x ↔ Q x) : Encodes r n Q := by
  obtain ⟨c, h1, h2, h3⟩ := h
  exact ⟨c, h1, h2, fun x => (h3 x).trans (hPQ x)⟩

/-! ## C08 -/

/-- C08: `Monotonic(md)` is satisfied exactly when, in every period and for every firm type, the
effect rises (falls, if `increasing=False`) by at least `md` from each worker type to the next. -/
theorem C08_monotonic (md : ℝ) (increasing : Bool) (nt nl nk : ℕ) (hnl : 1 ≤ nl) :
    Encodes (monotonic md increasing nt nl nk) (nt * nl * nk) fun x =>
      ∀ t < nt, ∀ k < nk, ∀ l, l + 1 < nl →
        if increasing then eff nl nk x t l k + md ≤ eff nl nk x t (l + 1) k
        else eff nl nk x t (l + 1) k + md ≤ eff nl nk x t l k := by
  let ent : ℕ → ℕ → ℕ → List (ℕ × ℝ) := fun p k l =>
    [((p * nl * nk + k) + nk * l, 1), ((p * nl * nk + k) + nk * (l + 1), -1)]
  have hops : monotonicOps nt nl nk = ops3 nt nk (nl - 1) ent := rfl
  have h := encode_ineq (R := nt * ((nl : ℤ) - 1) * nk) (C := nt * nl * nk) (nt * (nl - 1) * nk)
    (nt * nl * nk) (by push_cast [Nat.cast_sub hnl]; ring) (by push_cast; ring)
    (monotonicOps nt nl nk) md increasing ?_ ?_
  · refine h.congr fun x => ?_
    rw [hops, rows_ops3 ent x (fun v => (if increasing then v else -v) ≤ -md)]
    have e1 : ∀ p k l, (p * nl * nk + k) + nk * l = (p * nl + l) * nk + k := by intros; ring
    constructor
    · intro h t ht k hk l hl
      have := h t ht k hk l (by omega)
      simp only [ent, entDot, e1, eff] at this ⊢
      cases increasing <;> simp at this ⊢ <;> linarith
    · intro h t ht k hk l hl
      have := h t ht k hk l (by omega)
      simp only [ent, entDot, e1, eff] at this ⊢
      cases increasing <;> simp at this ⊢ <;> linarith
  · intro o ho
    rw [hops] at ho
    obtain ⟨i, hi, k, hk, l, hl, h1, cv, hcv, h2⟩ := mem_ops3 ho
    refine ⟨h1 ▸ idx3_lt hi hk hl, ?_⟩
    rw [h2]
    simp only [ent, List.mem_cons, List.not_mem_nil, or_false] at hcv
    rcases hcv with rfl | rfl
    · have := col_lt (nl := nl) (l := l) hi (by omega) hk
      calc _ = (i * nl + l) * nk + k := by ring
        _ < _ := this
    · have := col_lt (nl := nl) (l := l + 1) hi (by omega) hk
      calc _ = (i * nl + (l + 1)) * nk + k := by ring
        _ < _ := this
  · rw [hops]
    refine fresh_ops3 fun i _ k hk l _ => ?_
    have : nk * (l + 1) = nk * l + nk := by ring
    simp only [ent, List.map_cons, List.map_nil, List.nodup_cons, List.mem_singleton,
      List.not_mem_nil, not_false_eq_true, List.nodup_nil, and_true]
    omega

/-- C08: consequently two worker types `l < l'` differ by at least `(l' - l) * md`. -/
theorem C08_monotonic_far (md : ℝ) (nt nl nk : ℕ) (c : Con)
    (hc : monotonic md true nt nl nk = .ok c) (x : ℕ → ℝ) (hx : c.Sat x) (t k l d : ℕ)
    (ht : t < nt) (hk : k < nk) (hl : l + d < nl) :
    eff nl nk x t l k + d * md ≤ eff nl nk x t (l + d) k := by
  obtain ⟨c', h1, _, h3⟩ := C08_monotonic md true nt nl nk (by omega)
  rw [hc] at h1
  cases h1
  have hx' := (h3 x).mp hx
  induction d with
  | zero => simp
  | succ d ih =>
    have h4 := ih (by omega)
    have h5 := hx' t ht k hk (l + d) (by omega)
    simp only [if_true] at h5
    push_cast
    rw [← Nat.add_assoc]
    linarith

/-- With no worker type the code fails instead of returning a constraint. -/
theorem C08_no_worker_types (md : ℝ) (inc : Bool) (nt nk : ℕ) (h1 : 1 ≤ nt) (h2 : 1 ≤ nk) :
    monotonic md inc nt 0 nk = .error .valueError := by
  have : zeros2 (nt * (((0 : ℕ) : ℤ) - 1) * nk) (nt * (0 : ℕ) * nk) = .error .valueError := by
    rw [zeros2, if_pos]
    left
    have h1' : (1 : ℤ) ≤ nt := by exact_mod_cast h1
    have h2' : (1 : ℤ) ≤ nk := by exact_mod_cast h2
    have := mul_pos (show (0 : ℤ) < nt by omega) (show (0 : ℤ) < nk by omega)
    push_cast
    linarith [show (nt : ℤ) * (0 - 1) * nk = - (nt * nk) by ring]
  unfold monotonic; rw [this]; rfl

/-- The constraint is neither empty nor everything. -/
example : ∃ c, monotonic 1 true 2 3 2 = .ok c ∧ c.Sat (fun i => ((i / 2 : ℕ) : ℝ)) ∧ ¬ c.Sat (fun _ => 0) := by
  obtain ⟨c, h1, _, h3⟩ := C08_monotonic 1 true 2 3 2 (by norm_num)
  refine ⟨c, h1, (h3 _).mpr ?_, fun h => ?_⟩
  · intro t _ k hk l hl
    simp only [if_true, eff]
    have e1 : ((t * 3 + l) * 2 + k) / 2 = t * 3 + l := by omega
    have e2 : ((t * 3 + (l + 1)) * 2 + k) / 2 = t * 3 + l + 1 := by omega
    rw [e1, e2]; push_cast; exact le_refl _
  · have := (h3 _).mp h 0 (by norm_num) 0 (by norm_num) 0 (by norm_num)
    simp only [if_true, eff] at this
    norm_num at this

/-! ## C14 -/

/-- C14: `BoundedBelow(lb)` holds exactly when every parameter is at least `lb`. -/
theorem C14_boundedBelow (lb : ℝ) (nt nl nk : ℕ) :
    Encodes (.ok (boundedBelow lb nt nl nk)) (nt * nl * nk) fun x =>
      ∀ t < nt, ∀ l < nl, ∀ k < nk, lb ≤ eff nl nk x t l k := by
  refine ⟨_, rfl, ⟨?_, ?_⟩, ?_⟩
  · intro G hG
    simp only [boundedBelow, Option.some.injEq] at hG
    subst hG; exact ⟨rfl, _, rfl, rfl⟩
  · intro A hA; simp [boundedBelow] at hA
  · intro x
    have hdot : ∀ r < nt * nl * nk, Mat.dot ((eye (nt * nl * nk)).scale (-1)) x r = - x r := by
      intro r hr
      simp [Mat.dot, Mat.scale, eye, hr]
    constructor
    · rintro ⟨h, _⟩ t ht l hl k hk
      have := h _ _ rfl rfl _ (col_lt ht hl hk)
      rw [hdot _ (col_lt ht hl hk)] at this
      simp only [Vec.const] at this
      simp only [eff]; linarith
    · intro h
      refine ⟨?_, by simp [boundedBelow]⟩
      rintro G b hG hb r hr
      simp only [boundedBelow, Option.some.injEq] at hG hb
      subst hG hb
      have hr' : r < nt * nl * nk := hr
      rw [hdot r hr']
      obtain ⟨a, ha, k, hk, rfl⟩ := idx2_surj hr'
      obtain ⟨t, ht, l, hl, rfl⟩ := idx2_surj ha
      have := h t ht l hl k hk
      simp only [eff] at this
      simp only [Vec.const]; linarith

/-- C14: `BoundedAbove(ub)` holds exactly when every parameter is at most `ub`. -/
theorem C14_boundedAbove (ub : ℝ) (nt nl nk : ℕ) :
    Encodes (.ok (boundedAbove ub nt nl nk)) (nt * nl * nk) fun x =>
      ∀ t < nt, ∀ l < nl, ∀ k < nk, eff nl nk x t l k ≤ ub := by
  refine ⟨_, rfl, ⟨?_, ?_⟩, ?_⟩
  · intro G hG
    simp only [boundedAbove, Option.some.injEq] at hG
    subst hG; exact ⟨rfl, _, rfl, rfl⟩
  · intro A hA; simp [boundedAbove] at hA
  · intro x
    have hdot : ∀ r < nt * nl * nk, Mat.dot (eye (nt * nl * nk)) x r = x r := by
      intro r hr
      simp [Mat.dot, eye, hr]
    constructor
    · rintro ⟨h, _⟩ t ht l hl k hk
      have := h _ _ rfl rfl _ (col_lt ht hl hk)
      rw [hdot _ (col_lt ht hl hk)] at this
      exact this
    · intro h
      refine ⟨?_, by simp [boundedAbove]⟩
      rintro G b hG hb r hr
      simp only [boundedAbove, Option.some.injEq] at hG hb
      subst hG hb
      have hr' : r < nt * nl * nk := hr
      rw [hdot r hr']
      obtain ⟨a, ha, k, hk, rfl⟩ := idx2_surj hr'
      obtain ⟨t, ht, l, hl, rfl⟩ := idx2_surj ha
      exact h t ht l hl k hk

/-- The two bounds together leave exactly the constant vector when `lb = ub`. -/
example : (boundedBelow 2 2 3 2).Sat (fun _ => 2) ∧ ¬ (boundedBelow 2 2 3 2).Sat (fun _ => 1) := by
  obtain ⟨c, h1, _, h3⟩ := C14_boundedBelow 2 2 3 2
  cases h1
  refine ⟨(h3 _).mpr (fun _ _ _ _ _ _ => by simp [eff]), fun h => ?_⟩
  have := (h3 _).mp h 0 (by norm_num) 0 (by norm_num) 0 (by norm_num)
  simp only [eff] at this; norm_num at this

/-! ## C11 -/

/-- C11: `NoWorkerTypeInteraction` holds exactly when, in every selected period and at every firm
type, all worker types have the same effect. -/
theorem C11_noWorkerTypeInteraction (nnt : List ℕ) (nt nl nk : ℕ) (hnl : 1 ≤ nl)
    (hnnt : ∀ t ∈ nnt, t < nt) :
    Encodes (noWorkerTypeInteraction nnt nt nl nk) (nt * nl * nk) fun x =>
      ∀ t ∈ nnt, ∀ k < nk, ∀ l < nl, ∀ l' < nl, eff nl nk x t l k = eff nl nk x t l' k := by
  let ent : ℕ → ℕ → ℕ → List (ℕ × ℝ) := fun i k l =>
    [((nnt.getD i 0 * nl * nk + k) + nk * l, 1), ((nnt.getD i 0 * nl * nk + k) + nk * (l + 1), -1)]
  have hops : noInteractionOps nnt nl nk = ops3 nnt.length nk (nl - 1) ent := by
    rw [noInteractionOps, flatMap_enum]; rfl
  have hlt := (forall_periods nnt (· < nt)).mpr hnnt
  have h := encode_eq (R := nnt.length * ((nl : ℤ) - 1) * nk) (C := nt * nl * nk)
    (nnt.length * (nl - 1) * nk) (nt * nl * nk) (by push_cast [Nat.cast_sub hnl]; ring)
    (by push_cast; ring) (noInteractionOps nnt nl nk) ?_ ?_
  · refine h.congr fun x => ?_
    rw [hops, rows_ops3 ent x (fun v => v = 0),
      ← forall_periods nnt (fun t => ∀ k < nk, ∀ l < nl, ∀ l' < nl, eff nl nk x t l k = eff nl nk x t l' k)]
    have e1 : ∀ p k l, (p * nl * nk + k) + nk * l = (p * nl + l) * nk + k := by intros; ring
    constructor
    · intro h i hi k hk
      have h0 : ∀ l < nl, eff nl nk x (nnt.getD i 0) l k = eff nl nk x (nnt.getD i 0) 0 k := by
        intro l
        induction l with
        | zero => intro _; rfl
        | succ l ih =>
          intro hl
          have := h i hi k hk l (by omega)
          simp only [ent, entDot, e1, List.map_cons, List.map_nil, List.sum_cons, List.sum_nil] at this
          rw [← ih (by omega)]
          simp only [eff]; linarith
      intro l hl l' hl'
      rw [h0 l hl, h0 l' hl']
    · intro h i hi k hk l hl
      have := h i hi k hk l (by omega) (l + 1) (by omega)
      simp only [eff] at this
      simp only [ent, entDot, e1, List.map_cons, List.map_nil, List.sum_cons, List.sum_nil]
      linarith
  · intro o ho
    rw [hops] at ho
    obtain ⟨i, hi, k, hk, l, hl, h1, cv, hcv, h2⟩ := mem_ops3 ho
    refine ⟨h1 ▸ idx3_lt hi hk hl, ?_⟩
    rw [h2]
    simp only [ent, List.mem_cons, List.not_mem_nil, or_false] at hcv
    rcases hcv with rfl | rfl
    · have := col_lt (nl := nl) (l := l) (hlt i hi) (by omega) hk
      calc _ = (nnt.getD i 0 * nl + l) * nk + k := by ring
        _ < _ := this
    · have := col_lt (nl := nl) (l := l + 1) (hlt i hi) (by omega) hk
      calc _ = (nnt.getD i 0 * nl + (l + 1)) * nk + k := by ring
        _ < _ := this
  · rw [hops]
    refine fresh_ops3 fun i _ k hk l _ => ?_
    have : nk * (l + 1) = nk * l + nk := by ring
    simp only [ent, List.map_cons, List.map_nil, List.nodup_cons, List.mem_singleton,
      List.not_mem_nil, not_false_eq_true, List.nodup_nil, and_true]
    omega

/-- C11: `NormalizeAll` holds exactly when every worker type's effect at the minimum firm type is 0 in
every selected period. -/
theorem C11_normalizeAll (m : ℕ) (nnt : List ℕ) (nt nl nk : ℕ) (hm : m < nk)
    (hnnt : ∀ t ∈ nnt, t < nt) :
    Encodes (normalizeAll m false nnt nt nl nk) (nt * nl * nk) fun x =>
      ∀ t ∈ nnt, ∀ l < nl, eff nl nk x t l m = 0 := by
  let ent : ℕ → ℕ → List (ℕ × ℝ) := fun i l => [(nnt.getD i 0 * nl * nk + l * nk + m, 1)]
  have hops : normalizeAllOps m false nnt nl nk = ops2 0 nnt.length nl ent := by
    rw [normalizeAllOps, flatMap_enum]
    simp [ops2, rowOps, ent]
  have hlt := (forall_periods nnt (· < nt)).mpr hnnt
  have e1 : ∀ p l, p * nl * nk + l * nk + m = (p * nl + l) * nk + m := by intros; ring
  have h := encode_eq (R := if false then (nl : ℤ) else nnt.length * nl) (C := nt * nl * nk)
    (nnt.length * nl) (nt * nl * nk) (by simp)
    (by push_cast; ring) (normalizeAllOps m false nnt nl nk) ?_ ?_
  · refine h.congr fun x => ?_
    rw [hops, rows_ops2 ent x (fun v => v = 0), ← forall_periods nnt]
    simp only [ent, entDot, e1, eff, List.map_cons, List.map_nil, List.sum_cons, List.sum_nil,
      one_mul, add_zero]
  · intro o ho
    rw [hops] at ho
    obtain ⟨i, hi, l, hl, h1, cv, hcv, h2⟩ := mem_ops2 ho
    refine ⟨by rw [h1, Nat.zero_add]; exact idx2_lt hl hi, ?_⟩
    rw [h2]
    simp only [ent, List.mem_singleton] at hcv
    subst hcv
    rw [e1]; exact col_lt (hlt i hi) hl hm
  · rw [hops]
    exact fresh_ops2 fun i _ l _ => by simp [ent]

/-- C11: `NormalizeLowest` holds exactly when the effect of (worker type 0, minimum firm type) is 0 in
every selected period. -/
theorem C11_normalizeLowest (m : ℕ) (nnt : List ℕ) (nt nl nk : ℕ) (hnl : 1 ≤ nl) (hm : m < nk)
    (hnnt : ∀ t ∈ nnt, t < nt) :
    Encodes (normalizeLowest m false nnt nt nl nk) (nt * nl * nk) fun x =>
      ∀ t ∈ nnt, eff nl nk x t 0 m = 0 := by
  let ent : ℕ → ℕ → List (ℕ × ℝ) := fun i _ => [(nnt.getD i 0 * nl * nk + m, 1)]
  have hops : normalizeLowestOps m false nnt nl nk = ops2 0 nnt.length 1 ent := by
    rw [normalizeLowestOps, flatMap_enum]
    simp [ops2, rowOps, ent]
  have hlt := (forall_periods nnt (· < nt)).mpr hnnt
  have e1 : ∀ p, p * nl * nk + m = (p * nl + 0) * nk + m := by intros; ring
  have h := encode_eq (R := if false then (1 : ℤ) else nnt.length) (C := nt * nl * nk)
    (nnt.length * 1) (nt * nl * nk) (by simp)
    (by push_cast; ring) (normalizeLowestOps m false nnt nl nk) ?_ ?_
  · refine h.congr fun x => ?_
    rw [hops, rows_ops2 ent x (fun v => v = 0), ← forall_periods nnt]
    simp only [ent, entDot, e1, eff, List.map_cons, List.map_nil, List.sum_cons, List.sum_nil,
      one_mul, add_zero, Nat.lt_one_iff, forall_eq]
  · intro o ho
    rw [hops] at ho
    obtain ⟨i, hi, l, hl, h1, cv, hcv, h2⟩ := mem_ops2 ho
    refine ⟨by rw [h1, Nat.zero_add]; exact idx2_lt hl hi, ?_⟩
    rw [h2]
    simp only [ent, List.mem_singleton] at hcv
    subst hcv
    rw [e1]; exact col_lt (hlt i hi) hnl hm
  · rw [hops]
    exact fresh_ops2 fun i _ l _ => by simp [ent]

/-- Position and value of distinct list elements. -/
theorem getD_inj {l : List ℕ} (h : l.Nodup) {i j : ℕ} (hi : i < l.length) (hj : j < l.length)
    (hij : l.getD i 0 = l.getD j 0) : i = j := by
  have e : ∀ a (ha : a < l.length), l.getD a 0 = l[a] := by intro a ha; simp [ha]
  rw [e i hi, e j hj] at hij
  exact (List.Nodup.getElem_inj_iff h).mp hij

/-- Sums over the positions of a list. -/
theorem sum_getD (l : List ℕ) (f : ℕ → ℝ) :
    ∑ i ∈ Finset.range l.length, f (l.getD i 0) = (l.map f).sum := by
  rw [← sum_map_range]
  congr 1
  apply List.ext_getElem
  · simp
  · intro i h1 h2
    simp only [List.length_map, List.length_range] at h1
    simp [h1]

/-- C11: with `cross_period_normalize=True`, `NormalizeAll` holds exactly when for every worker type
the mean over the selected (distinct) periods of the effect at the minimum firm type is 0. -/
theorem C11_normalizeAll_cross (m : ℕ) (nnt : List ℕ) (nt nl nk : ℕ) (hm : m < nk)
    (hnnt : ∀ t ∈ nnt, t < nt) (hnd : nnt.Nodup) :
    Encodes (normalizeAll m true nnt nt nl nk) (nt * nl * nk) fun x =>
      ∀ l < nl, meanOver nnt (fun t => eff nl nk x t l m) = 0 := by
  have hops : normalizeAllOps m true nnt nl nk
      = (List.range nnt.length).flatMap fun i => (List.range nl).flatMap fun l =>
        rowOps l [(nnt.getD i 0 * nl * nk + l * nk + m, 1 / (nnt.length : ℝ))] := by
    rw [normalizeAllOps, flatMap_enum]; simp [rowOps]
  have hlt := (forall_periods nnt (· < nt)).mpr hnnt
  have e1 : ∀ p l, p * nl * nk + l * nk + m = (p * nl + l) * nk + m := by intros; ring
  have h := encode_eq (R := if true then (nl : ℤ) else nnt.length * nl) (C := nt * nl * nk)
    nl (nt * nl * nk) (by simp)
    (by push_cast; ring) (normalizeAllOps m true nnt nl nk) ?_ ?_
  · refine h.congr fun x => ?_
    refine forall₂_congr fun l hl => ?_
    rw [hops]
    simp only [rowSum_range, rowSum_rowOps, e1, entDot, List.map_cons, List.map_nil,
      List.sum_cons, List.sum_nil, add_zero, Finset.sum_ite_eq', Finset.mem_range, hl, if_true]
    rw [← Finset.mul_sum, sum_getD nnt (fun t => x ((t * nl + l) * nk + m)), meanOver]
    rw [one_div, mul_comm, ← div_eq_mul_inv]
    rfl
  · intro o ho
    rw [hops] at ho
    simp only [List.mem_flatMap, List.mem_range] at ho
    obtain ⟨i, hi, l, hl, ho⟩ := ho
    obtain ⟨h1, cv, hcv, h2⟩ := mem_rowOps ho
    rw [List.mem_singleton] at hcv
    subst hcv
    refine ⟨h1 ▸ hl, ?_⟩
    rw [h2, e1]; exact col_lt (hlt i hi) hl hm
  · rw [hops]
    refine fresh_range _ _ (fun i hi => fresh_range _ _ (fun l hl => fresh_rowOps _ _ (by simp)) ?_) ?_
    · rintro l hl l' hl' hll a ha b hb ⟨h1, _⟩
      have := (mem_rowOps ha).1; have := (mem_rowOps hb).1; omega
    · rintro i hi i' hi' hii a ha b hb ⟨_, h1⟩
      simp only [List.mem_flatMap, List.mem_range] at ha hb
      obtain ⟨l, hl, ha⟩ := ha
      obtain ⟨l', hl', hb⟩ := hb
      obtain ⟨_, cv, hcv, h2⟩ := mem_rowOps ha
      obtain ⟨_, cv', hcv', h2'⟩ := mem_rowOps hb
      rw [List.mem_singleton] at hcv hcv'
      subst hcv hcv'
      rw [h2, h2', e1, e1] at h1
      have := getD_inj hnd hi hi' (col_inj hl hm hl' hm h1).1
      omega

/-- C11: with `cross_period_normalize=True`, `NormalizeLowest` holds exactly when the mean over the
selected (distinct) periods of the effect of (worker type 0, minimum firm type) is 0. -/
theorem C11_normalizeLowest_cross (m : ℕ) (nnt : List ℕ) (nt nl nk : ℕ) (hnl : 1 ≤ nl) (hm : m < nk)
    (hnnt : ∀ t ∈ nnt, t < nt) (hnd : nnt.Nodup) :
    Encodes (normalizeLowest m true nnt nt nl nk) (nt * nl * nk) fun x =>
      meanOver nnt (fun t => eff nl nk x t 0 m) = 0 := by
  have hops : normalizeLowestOps m true nnt nl nk
      = (List.range nnt.length).flatMap fun i =>
        rowOps 0 [(nnt.getD i 0 * nl * nk + m, 1 / (nnt.length : ℝ))] := by
    rw [normalizeLowestOps, flatMap_enum]; simp [rowOps]
  have hlt := (forall_periods nnt (· < nt)).mpr hnnt
  have e1 : ∀ p, p * nl * nk + m = (p * nl + 0) * nk + m := by intros; ring
  have h := encode_eq (R := if true then (1 : ℤ) else nnt.length) (C := nt * nl * nk)
    1 (nt * nl * nk) (by simp)
    (by push_cast; ring) (normalizeLowestOps m true nnt nl nk) ?_ ?_
  · refine h.congr fun x => ?_
    rw [hops]
    simp only [rowSum_range, rowSum_rowOps, e1, entDot, List.map_cons, List.map_nil,
      List.sum_cons, List.sum_nil, Nat.lt_one_iff, forall_eq, if_true, add_zero]
    rw [← Finset.mul_sum, sum_getD nnt (fun t => x ((t * nl + 0) * nk + m)), meanOver]
    rw [one_div, mul_comm, ← div_eq_mul_inv]
    rfl
  · intro o ho
    rw [hops] at ho
    simp only [List.mem_flatMap, List.mem_range] at ho
    obtain ⟨i, hi, ho⟩ := ho
    obtain ⟨h1, cv, hcv, h2⟩ := mem_rowOps ho
    rw [List.mem_singleton] at hcv
    subst hcv
    refine ⟨by omega, ?_⟩
    rw [h2, e1]; exact col_lt (hlt i hi) hnl hm
  · rw [hops]
    refine fresh_range _ _ (fun i hi => fresh_rowOps _ _ (by simp)) ?_
    rintro i hi i' hi' hii a ha b hb ⟨_, h1⟩
    obtain ⟨_, cv, hcv, h2⟩ := mem_rowOps ha
    obtain ⟨_, cv', hcv', h2'⟩ := mem_rowOps hb
    rw [List.mem_singleton] at hcv hcv'
    subst hcv hcv'
    rw [h2, h2', e1, e1] at h1
    have := getD_inj hnd hi hi' (col_inj (by omega) hm (by omega) hm h1).1
    omega

/-- A minimum firm type that does not exist makes `NormalizeAll` constrain a different effect: with
`m = nk` it is the first firm type of the next worker type, silently. -/
theorem C11_normalizeLowest_bad_type :
    ∃ c, normalizeLowest 2 false [0] 2 2 2 = .ok c ∧
      ∀ x, c.Sat x ↔ eff 2 2 x 0 1 0 = 0 := by
  have h := encode_eq (R := if false then (1 : ℤ) else ([0] : List ℕ).length) (C := 2 * 2 * 2)
    1 8 (by simp) (by norm_num) (normalizeLowestOps 2 false [0] 2 2)
    (by simp [normalizeLowestOps, Op.row, Op.col]) (by simp [normalizeLowestOps, Fresh])
  obtain ⟨c, h1, _, h3⟩ := h
  refine ⟨c, h1, fun x => (h3 x).trans ?_⟩
  simp [normalizeLowestOps, rowSum, Op.row, Op.col, Op.val, eff]

/-- The hypotheses are met by the calls in blm.py:834-848. -/
example : Encodes (normalizeAll 1 true [0, 1] 2 3 2) 12 fun x =>
    ∀ l < 3, meanOver [0, 1] (fun t => eff 3 2 x t l 1) = 0 :=
  C11_normalizeAll_cross 1 [0, 1] 2 3 2 (by norm_num) (by simp) (by simp)

/-! ## C10 -/

section C10
variable (nnt : List ℕ) (nt nl nk : ℕ)

/-- Entries written by the linear part. -/
def linEnt (i k l : ℕ) : List (ℕ × ℝ) :=
    [((nnt.getD i 0 * nl * nk + k) + nk * l, 1), ((nnt.getD i 0 * nl * nk + k) + nk * (l + 1), -2),
      ((nnt.getD i 0 * nl * nk + k) + nk * (l + 2), 1)]

theorem linearOps_eq : linearOps nnt nl nk = ops3 nnt.length nk (nl - 2) (linEnt nnt nl nk) := by
  rw [linearOps, flatMap_enum]; rfl

theorem linEnt_col {i k l : ℕ} (hlt : ∀ i < nnt.length, nnt.getD i 0 < nt) (hi : i < nnt.length)
    (hk : k < nk) (hl : l < nl - 2) {cv : ℕ × ℝ} (hcv : cv ∈ linEnt nnt nl nk i k l) :
    cv.1 < nt * nl * nk := by
  simp only [linEnt, List.mem_cons, List.not_mem_nil, or_false] at hcv
  rcases hcv with rfl | rfl | rfl
  · calc _ = (nnt.getD i 0 * nl + l) * nk + k := by ring
      _ < _ := col_lt (hlt i hi) (by omega) hk
  · calc _ = (nnt.getD i 0 * nl + (l + 1)) * nk + k := by ring
      _ < _ := col_lt (hlt i hi) (by omega) hk
  · calc _ = (nnt.getD i 0 * nl + (l + 2)) * nk + k := by ring
      _ < _ := col_lt (hlt i hi) (by omega) hk

theorem linEnt_nodup {i k l : ℕ} (hk : k < nk) : ((linEnt nnt nl nk i k l).map Prod.fst).Nodup := by
  have h1 : nk * (l + 1) = nk * l + nk := by ring
  have h2 : nk * (l + 2) = nk * l + nk + nk := by ring
  simp only [linEnt, List.map_cons, List.map_nil, List.nodup_cons, List.mem_cons,
    List.not_mem_nil, not_false_eq_true, List.nodup_nil, and_true, or_false]
  omega

theorem linEnt_dot (i k l : ℕ) (x : ℕ → ℝ) : entDot (linEnt nnt nl nk i k l) x
    = eff nl nk x (nnt.getD i 0) l k - 2 * eff nl nk x (nnt.getD i 0) (l + 1) k
      + eff nl nk x (nnt.getD i 0) (l + 2) k := by
  have e1 : ∀ p k l, (p * nl * nk + k) + nk * l = (p * nl + l) * nk + k := by intros; ring
  simp only [linEnt, entDot, e1, eff, List.map_cons, List.map_nil, List.sum_cons, List.sum_nil]
  ring

/-- C10: `Linear` holds exactly when, in every selected period and at every firm type, the effect is
an affine function of the worker type's number. -/
theorem C10_linear (hnl : 2 ≤ nl) (hnnt : ∀ t ∈ nnt, t < nt) :
    Encodes (linear nnt nt nl nk) (nt * nl * nk) fun x =>
      ∀ t ∈ nnt, ∀ k < nk, ∃ a d : ℝ, ∀ l < nl, eff nl nk x t l k = a + l * d := by
  have hlt := (forall_periods nnt (· < nt)).mpr hnnt
  have hops := linearOps_eq nnt nl nk
  have h := encode_eq (R := nnt.length * ((nl : ℤ) - 2) * nk) (C := nt * nl * nk)
    (nnt.length * (nl - 2) * nk) (nt * nl * nk) (by push_cast [Nat.cast_sub hnl]; ring)
    (by push_cast; ring) (linearOps nnt nl nk) ?_ ?_
  · refine h.congr fun x => ?_
    rw [hops, rows_ops3 _ x (fun v => v = 0), ← forall_periods nnt (fun t => ∀ k < nk, ∃ a d : ℝ, ∀ l < nl, eff nl nk x t l k = a + l * d)]
    refine forall₂_congr fun i hi => forall₂_congr fun k hk => ?_
    simp only [linEnt_dot]
    constructor
    · intro h
      refine ⟨eff nl nk x (nnt.getD i 0) 0 k, eff nl nk x (nnt.getD i 0) 1 k - eff nl nk x (nnt.getD i 0) 0 k, ?_⟩
      intro l
      induction l using Nat.strong_induction_on with
      | _ l ih =>
        intro hl
        match l, ih, hl with
        | 0, _, _ => simp
        | 1, _, _ => simp
        | l + 2, ih, hl =>
          have h0 := ih l (by omega) (by omega)
          have h1 := ih (l + 1) (by omega) (by omega)
          have h2 := h l (by omega)
          push_cast at h0 h1 ⊢
          linarith
    · rintro ⟨a, d, h⟩ l hl
      rw [h l (by omega), h (l + 1) (by omega), h (l + 2) (by omega)]
      push_cast; ring
  · intro o ho
    rw [hops] at ho
    obtain ⟨i, hi, k, hk, l, hl, h1, cv, hcv, h2⟩ := mem_ops3 ho
    refine ⟨h1 ▸ idx3_lt hi hk hl, ?_⟩
    rw [h2]; exact linEnt_col nnt nt nl nk hlt hi hk hl hcv
  · rw [hops]
    exact fresh_ops3 fun i _ k hk l _ => linEnt_nodup nnt nl nk hk

/-- C10: with a single worker type `Linear` raises ValueError instead of being vacuous. -/
theorem C10_linear_single_worker_type (h1 : nnt ≠ []) (h2 : 1 ≤ nk) :
    linear nnt nt 1 nk = .error .valueError := by
  have hl : 1 ≤ nnt.length := List.length_pos_of_ne_nil h1
  have : zeros2 (nnt.length * (((1 : ℕ) : ℤ) - 2) * nk) (nt * (1 : ℕ) * nk) = .error .valueError := by
    rw [zeros2, if_pos]
    left
    have := mul_pos (show (0 : ℤ) < nnt.length by omega) (show (0 : ℤ) < nk by omega)
    push_cast
    linarith [show (nnt.length : ℤ) * (1 - 2) * nk = - (nnt.length * nk) by ring]
  unfold linear; rw [this]; rfl

/-- C10: `LinearAdditive` holds exactly when, in every selected period, the effect is a firm effect
plus a multiple of the worker type's number with one slope for all firm types. -/
theorem C10_linearAdditive (hnl : 2 ≤ nl) (hnk : 1 ≤ nk) (hnnt : ∀ t ∈ nnt, t < nt) :
    Encodes (linearAdditive nnt nt nl nk) (nt * nl * nk) fun x =>
      ∀ t ∈ nnt, ∃ (d : ℝ) (psi : ℕ → ℝ), ∀ l < nl, ∀ k < nk, eff nl nk x t l k = l * d + psi k := by
  have hlt := (forall_periods nnt (· < nt)).mpr hnnt
  have hops := linearOps_eq nnt nl nk
  let ent : ℕ → ℕ → List (ℕ × ℝ) := fun i k =>
    [(nnt.getD i 0 * nl * nk + k, 1), (nnt.getD i 0 * nl * nk + nk + k, -1),
      (nnt.getD i 0 * nl * nk + k + 1, -1), (nnt.getD i 0 * nl * nk + nk + k + 1, 1)]
  have hops' : additiveOps nnt nl nk
      = ops2 (nnt.length * (nl - 2) * nk) nnt.length (nk - 1) ent := by
    rw [additiveOps, flatMap_enum]; rfl
  have hmodel : linearAdditive nnt nt nl nk = (do
      let A ← zeros2 (nnt.length * (((nl : ℤ) - 2) * nk + ((nk : ℤ) - 1))) (nt * nl * nk)
      let A ← A.writes (linearOps nnt nl nk ++ additiveOps nnt nl nk)
      return eqCon A) := by
    rw [linearAdditive]
    congr 1; funext A
    rw [writes_append]
    simp
  rw [hmodel]
  have h := encode_eq (R := nnt.length * (((nl : ℤ) - 2) * nk + ((nk : ℤ) - 1))) (C := nt * nl * nk)
    (nnt.length * (nl - 2) * nk + nnt.length * (nk - 1)) (nt * nl * nk)
    (by push_cast [Nat.cast_sub hnl, Nat.cast_sub hnk]; ring)
    (by push_cast; ring) (linearOps nnt nl nk ++ additiveOps nnt nl nk) ?_ ?_
  · refine h.congr fun x => ?_
    have hsplit : (∀ r < nnt.length * (nl - 2) * nk + nnt.length * (nk - 1),
          rowSum (linearOps nnt nl nk ++ additiveOps nnt nl nk) x r = 0) ↔
        (∀ i < nnt.length, ∀ k < nk, ∀ l < nl - 2, entDot (linEnt nnt nl nk i k l) x = 0) ∧
        (∀ i < nnt.length, ∀ k < nk - 1, entDot (ent i k) x = 0) := by
      rw [hops, hops']
      constructor
      · intro h
        constructor
        · intro i hi k hk l hl
          have := h _ (Nat.lt_add_right _ (idx3_lt hi hk hl))
          rw [rowSum_append, rowSum_ops3 _ x hi hk hl, rowSum_eq_zero, add_zero] at this
          · exact this
          · intro o ho
            obtain ⟨i', _, l', _, h1, _⟩ := mem_ops2 ho
            have := idx3_lt hi hk hl
            omega
        · intro i hi k hk
          have := h (nnt.length * (nl - 2) * nk + i * (nk - 1) + k) (by have := idx2_lt hk hi; omega)
          rw [rowSum_append, rowSum_ops2 ent x hi hk, rowSum_eq_zero, zero_add] at this
          · exact this
          · intro o ho
            obtain ⟨i', hi', k', hk', l', hl', h1, _⟩ := mem_ops3 ho
            have := idx3_lt hi' hk' hl'
            omega
      · rintro ⟨ha, hb⟩ r hr
        rw [rowSum_append]
        by_cases hr' : r < nnt.length * (nl - 2) * nk
        · rw [rowSum_eq_zero (os := ops2 _ _ _ _), add_zero]
          · exact (rows_ops3 _ x (fun v => v = 0)).mpr ha r hr'
          · intro o ho
            obtain ⟨i', _, l', _, h1, _⟩ := mem_ops2 ho
            omega
        · rw [rowSum_eq_zero (os := ops3 _ _ _ _), zero_add]
          · obtain ⟨i, hi, k, hk, hrr⟩ := idx2_surj
              (show r - nnt.length * (nl - 2) * nk < nnt.length * (nk - 1) by omega)
            have : r = nnt.length * (nl - 2) * nk + i * (nk - 1) + k := by omega
            rw [this, rowSum_ops2 ent x hi hk]
            exact hb i hi k hk
          · intro o ho
            obtain ⟨i', hi', k', hk', l', hl', h1, _⟩ := mem_ops3 ho
            have := idx3_lt hi' hk' hl'
            omega
    rw [hsplit, ← forall_periods nnt (fun t => ∃ (d : ℝ) (psi : ℕ → ℝ), ∀ l < nl, ∀ k < nk, eff nl nk x t l k = l * d + psi k),
      ← forall₂_and]
    refine forall₂_congr fun i hi => ?_
    have hdot : ∀ k, entDot (ent i k) x = eff nl nk x (nnt.getD i 0) 0 k - eff nl nk x (nnt.getD i 0) 1 k
        - eff nl nk x (nnt.getD i 0) 0 (k + 1) + eff nl nk x (nnt.getD i 0) 1 (k + 1) := by
      intro k
      have e0 : ∀ p k, (p * nl + 0) * nk + k = p * nl * nk + k := by intros; ring
      have e1 : ∀ p k, (p * nl + 1) * nk + k = p * nl * nk + nk + k := by intros; ring
      simp only [ent, entDot, eff, e0, e1, List.map_cons, List.map_nil, List.sum_cons, List.sum_nil,
        ← Nat.add_assoc]
      ring
    simp only [linEnt_dot, hdot]
    generalize nnt.getD i 0 = t
    constructor
    · rintro ⟨h1, h2⟩
      have hslope : ∀ k < nk, eff nl nk x t 1 k - eff nl nk x t 0 k = eff nl nk x t 1 0 - eff nl nk x t 0 0 := by
        intro k
        induction k with
        | zero => intro _; rfl
        | succ k ih =>
          intro hk
          have := h2 k (by omega)
          have := ih (by omega)
          linarith
      refine ⟨eff nl nk x t 1 0 - eff nl nk x t 0 0, fun k => eff nl nk x t 0 k, ?_⟩
      intro l
      induction l using Nat.strong_induction_on with
      | _ l ih =>
        intro hl k hk
        match l, ih, hl with
        | 0, _, _ => simp
        | 1, _, _ => have := hslope k hk; simp; linarith
        | l + 2, ih, hl =>
          have h0 := ih l (by omega) (by omega) k hk
          have h1' := ih (l + 1) (by omega) (by omega) k hk
          have h2 := h1 k hk l (by omega)
          push_cast at h0 h1' ⊢
          linarith
    · rintro ⟨d, psi, h⟩
      refine ⟨fun k hk l hl => ?_, fun k hk => ?_⟩
      · rw [h l (by omega) k hk, h (l + 1) (by omega) k hk, h (l + 2) (by omega) k hk]
        push_cast; ring
      · rw [h 0 (by omega) k (by omega), h 1 (by omega) k (by omega),
          h 0 (by omega) (k + 1) (by omega), h 1 (by omega) (k + 1) (by omega)]
        push_cast; ring
  · intro o ho
    rcases List.mem_append.mp ho with ho | ho
    · rw [hops] at ho
      obtain ⟨i, hi, k, hk, l, hl, h1, cv, hcv, h2⟩ := mem_ops3 ho
      refine ⟨h1 ▸ Nat.lt_add_right _ (idx3_lt hi hk hl), ?_⟩
      rw [h2]; exact linEnt_col nnt nt nl nk hlt hi hk hl hcv
    · rw [hops'] at ho
      obtain ⟨i, hi, k, hk, h1, cv, hcv, h2⟩ := mem_ops2 ho
      refine ⟨by have := idx2_lt hk hi; omega, ?_⟩
      rw [h2]
      simp only [ent, List.mem_cons, List.not_mem_nil, or_false] at hcv
      rcases hcv with rfl | rfl | rfl | rfl
      · calc _ = (nnt.getD i 0 * nl + 0) * nk + k := by ring
          _ < _ := col_lt (hlt i hi) (by omega) (by omega)
      · calc _ = (nnt.getD i 0 * nl + 1) * nk + k := by ring
          _ < _ := col_lt (hlt i hi) (by omega) (by omega)
      · calc _ = (nnt.getD i 0 * nl + 0) * nk + (k + 1) := by ring
          _ < _ := col_lt (hlt i hi) (by omega) (by omega)
      · calc _ = (nnt.getD i 0 * nl + 1) * nk + (k + 1) := by ring
          _ < _ := col_lt (hlt i hi) (by omega) (by omega)
  · refine fresh_append ?_ ?_ ?_
    · rw [hops]
      exact fresh_ops3 fun i _ k hk l _ => linEnt_nodup nnt nl nk hk
    · rw [hops']
      refine fresh_ops2 fun i _ k hk => ?_
      simp only [ent, List.map_cons, List.map_nil, List.nodup_cons, List.mem_cons,
        List.not_mem_nil, not_false_eq_true, List.nodup_nil, and_true, or_false]
      omega
    · rintro o ho o' ho' ⟨h1, _⟩
      rw [hops] at ho
      rw [hops'] at ho'
      obtain ⟨i, hi, k, hk, l, hl, h2, _⟩ := mem_ops3 ho
      obtain ⟨i', _, l', _, h3, _⟩ := mem_ops2 ho'
      have := idx3_lt hi hk hl
      omega

end C10

/-- C10: a vector that is additive but not linear in the worker type is rejected by
`LinearAdditive` (with three worker types), so it is stronger than `alpha[l] + psi[k]`. -/
theorem C10_linearAdditive_stronger_than_additive :
    ∃ c, linearAdditive [0] 1 3 2 = .ok c ∧ ∃ x, ¬ c.Sat x ∧
      ∃ alpha psi : ℕ → ℝ, ∀ l < 3, ∀ k < 2, eff 3 2 x 0 l k = alpha l + psi k := by
  obtain ⟨c, h1, _, h3⟩ := C10_linearAdditive [0] 1 3 2 (by norm_num) (by norm_num) (by simp)
  refine ⟨c, h1, fun i => if i < 4 then 0 else 1, ?_, fun l => if l < 2 then 0 else 1, fun _ => 0, ?_⟩
  · rw [h3]
    intro h
    obtain ⟨d, psi, h⟩ := h 0 (by simp)
    have a0 := h 0 (by norm_num) 0 (by norm_num)
    have a1 := h 1 (by norm_num) 0 (by norm_num)
    have a2 := h 2 (by norm_num) 0 (by norm_num)
    simp [eff] at a0 a1 a2
    linarith
  · intro l hl k hk
    simp only [eff, Nat.zero_mul, Nat.zero_add, add_zero]
    by_cases h : l < 2
    · rw [if_pos h, if_pos (by omega)]
    · rw [if_neg h, if_neg (by omega)]

/-- With two worker types `LinearAdditive` is exactly `alpha[l] + psi[k]`. -/
theorem C10_linearAdditive_two_types (nnt : List ℕ) (nt nk : ℕ) (hnk : 1 ≤ nk) (hnnt : ∀ t ∈ nnt, t < nt) :
    Encodes (linearAdditive nnt nt 2 nk) (nt * 2 * nk) fun x =>
      ∀ t ∈ nnt, ∃ alpha psi : ℕ → ℝ, ∀ l < 2, ∀ k < nk, eff 2 nk x t l k = alpha l + psi k := by
  refine (C10_linearAdditive nnt nt 2 nk (by norm_num) hnk hnnt).congr fun x => ?_
  refine forall₂_congr fun t _ => ?_
  constructor
  · rintro ⟨d, psi, h⟩
    exact ⟨fun l => l * d, psi, h⟩
  · rintro ⟨alpha, psi, h⟩
    refine ⟨alpha 1 - alpha 0, fun k => alpha 0 + psi k, ?_⟩
    intro l hl k hk
    rw [h l hl k hk]
    have : l = 0 ∨ l = 1 := by omega
    rcases this with rfl | rfl <;> push_cast <;> ring

example : ∃ c, linearAdditive [0, 1] 2 3 2 = .ok c ∧ c.Sat (fun i => (i : ℝ)) := by
  obtain ⟨c, h1, _, h3⟩ := C10_linearAdditive [0, 1] 2 3 2 (by norm_num) (by norm_num) (by simp)
  refine ⟨c, h1, (h3 _).mpr ?_⟩
  intro t _
  refine ⟨2, fun k => t * 6 + k, ?_⟩
  intro l _ k _
  simp only [eff]; push_cast; ring

end Pytwoway.Constraints
