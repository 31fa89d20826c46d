import Mathlib.Tactic.FieldSimp
import Mathlib.Tactic.FinCases
import Mathlib.Algebra.BigOperators.Field
import Mathlib.Algebra.BigOperators.Group.Finset.Sigma
import Mathlib.Algebra.Order.BigOperators.Ring.Finset
import Verif.BLM.Normalize

/-! # Re-allocating workers (`_simulate_types_wages` with `reallocate=True`) and C37 -/

namespace Pytwoway.BLM

open Finset

variable {nl nk : ℕ}

/-! ## Model -/

/-- Values of `reallocate_period`.  Used for blm.py:342-405. -/
inductive RPeriod | first | second | all | other
  deriving DecidableEq

/-- Numbers of movers by pair of firm types and of stayers by firm type (`NNm`, `NNs`), and worker-type
proportions: `pk1` at the flattened pair index, `pk0` by firm type.  Used for blm.py:346 and blm.py:347. -/
structure Props (nl nk : ℕ) where
  NNm : Fin nk → Fin nk → ℕ
  NNs : Fin nk → ℕ
  pk1 : ℕ → Fin nl → ℝ
  pk0 : Fin nk → Fin nl → ℝ

/-- blm.py:346 `NNm_1`. -/
def Props.N1 (p : Props nl nk) (a : Fin nk) : ℝ := ∑ b, (p.NNm a b : ℝ)

/-- blm.py:347 `NNm_2`. -/
def Props.N2 (p : Props nl nk) (b : Fin nk) : ℝ := ∑ a, (p.NNm a b : ℝ)

/-- blm.py:348 `nm`. -/
def Props.nm (p : Props nl nk) : ℝ := ∑ a, ∑ b, (p.NNm a b : ℝ)

/-- blm.py:349 `ns`. -/
def Props.ns (p : Props nl nk) : ℝ := ∑ k, (p.NNs k : ℝ)

/-- blm.py:352 `np.reshape(pk1, (nk, nk, nl))`: entry `(a, b)` is row `a * nk + b`. -/
def Props.reshaped (p : Props nl nk) (a b : Fin nk) (l : Fin nl) : ℝ := p.pk1 (a.val * nk + b.val) l

/-- blm.py:353 `pk1_period1`, for firm types with movers (other rows are `NaN`, see `realloc`). -/
noncomputable def Props.period1 (p : Props nl nk) (a : Fin nk) (l : Fin nl) : ℝ :=
  (∑ b, (p.NNm a b : ℝ) * p.reshaped a b l) / p.N1 a

/-- blm.py:354 `pk1_period2`. -/
noncomputable def Props.period2 (p : Props nl nk) (b : Fin nk) (l : Fin nl) : ℝ :=
  (∑ a, (p.NNm a b : ℝ) * p.reshaped a b l) / p.N2 b

/-- blm.py:355-360: the averages over movers and stayers used with `reallocate_jointly`. -/
noncomputable def Props.joint1 (p : Props nl nk) (a : Fin nk) (l : Fin nl) : ℝ :=
  (p.N1 a * p.period1 a l + p.NNs a * p.pk0 a l) / (p.N1 a + p.NNs a)

/-- Share of the worker types at a firm class in period 2, movers and stayers together, blm.py:342-405. -/
noncomputable def Props.joint2 (p : Props nl nk) (a : Fin nk) (l : Fin nl) : ℝ :=
  (p.N2 a * p.period2 a l + p.NNs a * p.pk0 a l) / (p.N2 a + p.NNs a)

/-- blm.py:342-405: the probability vectors from which the types of movers (by flattened pair index)
and stayers (by firm type) are drawn.  `0 / 0 = NaN` makes `rng.choice` raise `ValueError`; that
happens when a firm type used in the chosen period has no mover, or, if movers and stayers are
separate, when there are no stayers.  `pk0_period2` is never assigned unless `reallocate_jointly`
(lines 363-364 assign `pk0_period1` twice). -/
noncomputable def realloc (jointly : Bool) (per : RPeriod) (p : Props nl nk) :
    Py ((ℕ → Fin nl → ℝ) × (Fin nk → Fin nl → ℝ)) := by
  classical exact
  match per with
  | .other => .error "ValueError"
  | .first =>
    if ∃ a, p.N1 a = 0 then .error "ValueError"
    else if jointly then
      let v := fun l => (∑ a, (p.N1 a + p.NNs a) * p.joint1 a l) / (p.nm + p.ns)
      .ok (fun _ => v, fun _ => v)
    else if p.ns = 0 then .error "ValueError"
    else .ok (fun _ l => (∑ a, p.N1 a * p.period1 a l) / p.nm,
      fun _ l => (∑ k, (p.NNs k : ℝ) * p.pk0 k l) / p.ns)
  | .second =>
    if jointly then
      if ∃ a, p.N2 a = 0 then .error "ValueError"
      else
        let v := fun l => (∑ a, (p.N2 a + p.NNs a) * p.joint2 a l) / (p.nm + p.ns)
        .ok (fun _ => v, fun _ => v)
    else .error "UnboundLocalError"
  | .all =>
    if jointly then
      if ∃ a, p.N1 a = 0 ∨ p.N2 a = 0 then .error "ValueError"
      else
        let v := fun l => (∑ a, ((p.N1 a + p.N2 a) / 2 + p.NNs a) *
          ((p.joint1 a l + p.joint2 a l) / 2)) / (p.nm + p.ns)
        .ok (fun _ => v, fun _ => v)
    else .error "UnboundLocalError"

/-! ## Specification -/

/-- Movers from firm type `k1` to `k2` that the model expects to be of worker type `l`: row
`k1 + nk * k2` of `pk1` belongs to that pair (as in the E-step, `KK = G1 + nk * G2`). -/
def Spec.moversOfType (p : Props nl nk) (l : Fin nl) : ℝ :=
  ∑ k1, ∑ k2, (p.NNm k1 k2 : ℝ) * p.pk1 (k1.val + nk * k2.val) l

/-- Stayers expected to be of worker type `l`. -/
def Spec.stayersOfType (p : Props nl nk) (l : Fin nl) : ℝ := ∑ k, (p.NNs k : ℝ) * p.pk0 k l

/-- The share of worker type `l` in the population. -/
noncomputable def Spec.popShare (p : Props nl nk) (l : Fin nl) : ℝ :=
  (Spec.moversOfType p l + Spec.stayersOfType p l) / (p.nm + p.ns)

/-- The number of workers of type `l` computed when every flow is paired with the proportions of the
opposite flow. -/
def Spec.transposed (p : Props nl nk) (l : Fin nl) : ℝ :=
  ∑ k1, ∑ k2, (p.NNm k1 k2 : ℝ) * p.pk1 (k2.val + nk * k1.val) l

/-! ## Algebra -/

theorem N1_nonneg (p : Props nl nk) (a : Fin nk) : 0 ≤ p.N1 a := sum_nonneg fun _ _ => Nat.cast_nonneg _
theorem N2_nonneg (p : Props nl nk) (a : Fin nk) : 0 ≤ p.N2 a := sum_nonneg fun _ _ => Nat.cast_nonneg _

theorem sum_N1 (p : Props nl nk) : ∑ a, p.N1 a = p.nm := rfl

theorem sum_N2 (p : Props nl nk) : ∑ a, p.N2 a = p.nm := by
  unfold Props.N2 Props.nm
  rw [sum_comm]

theorem mul_period1 (p : Props nl nk) (h : ∀ a, p.N1 a ≠ 0) (l : Fin nl) :
    ∑ a, p.N1 a * p.period1 a l = Spec.transposed p l := by
  unfold Spec.transposed
  refine sum_congr rfl fun a _ => ?_
  unfold Props.period1
  rw [mul_div_cancel₀ _ (h a)]
  refine sum_congr rfl fun b _ => ?_
  unfold Props.reshaped
  rw [Nat.mul_comm, Nat.add_comm]

theorem mul_period2 (p : Props nl nk) (h : ∀ a, p.N2 a ≠ 0) (l : Fin nl) :
    ∑ a, p.N2 a * p.period2 a l = Spec.transposed p l := by
  unfold Spec.transposed
  rw [sum_comm]
  refine sum_congr rfl fun a _ => ?_
  unfold Props.period2
  rw [mul_div_cancel₀ _ (h a)]
  refine sum_congr rfl fun b _ => ?_
  unfold Props.reshaped
  rw [Nat.mul_comm, Nat.add_comm]

theorem mul_joint1 (p : Props nl nk) (h : ∀ a, p.N1 a ≠ 0) (l : Fin nl) :
    ∑ a, (p.N1 a + p.NNs a) * p.joint1 a l = Spec.transposed p l + Spec.stayersOfType p l := by
  rw [← mul_period1 p h l]
  unfold Spec.stayersOfType
  rw [← sum_add_distrib]
  refine sum_congr rfl fun a _ => ?_
  unfold Props.joint1
  have h1 : 0 < p.N1 a := lt_of_le_of_ne (N1_nonneg p a) (h a).symm
  have h2 : (0 : ℝ) ≤ p.NNs a := Nat.cast_nonneg _
  rw [mul_div_cancel₀ _ (by linarith)]

theorem mul_joint2 (p : Props nl nk) (h : ∀ a, p.N2 a ≠ 0) (l : Fin nl) :
    ∑ a, (p.N2 a + p.NNs a) * p.joint2 a l = Spec.transposed p l + Spec.stayersOfType p l := by
  rw [← mul_period2 p h l]
  unfold Spec.stayersOfType
  rw [← sum_add_distrib]
  refine sum_congr rfl fun a _ => ?_
  unfold Props.joint2
  have h1 : 0 < p.N2 a := lt_of_le_of_ne (N2_nonneg p a) (h a).symm
  have h2 : (0 : ℝ) ≤ p.NNs a := Nat.cast_nonneg _
  rw [mul_div_cancel₀ _ (by linarith)]

theorem transposed_symm (p : Props nl nk) (h : ∀ a b, p.NNm a b = p.NNm b a) (l : Fin nl) :
    Spec.transposed p l = Spec.moversOfType p l := by
  unfold Spec.transposed Spec.moversOfType
  rw [sum_comm]
  refine sum_congr rfl fun a _ => sum_congr rfl fun b _ => ?_
  rw [h]

/-! ## C37 -/

/-- C37 (partial: only for symmetric flows).  If as many workers move from `k1` to `k2` as back, and
every firm type has movers, then with `reallocate_jointly` every worker's type is drawn from the
population shares, whichever period is chosen. -/
theorem C37_joint_partial (p : Props nl nk) (hsym : ∀ a b, p.NNm a b = p.NNm b a)
    (hpos : ∀ a, ∃ b, 0 < p.NNm a b) (per : RPeriod) (hper : per ≠ .other) :
    realloc true per p = .ok (fun _ => Spec.popShare p, fun _ => Spec.popShare p) := by
  have h1 : ∀ a, p.N1 a ≠ 0 := by
    intro a
    obtain ⟨b, hb⟩ := hpos a
    have : (0 : ℝ) < p.N1 a := lt_of_lt_of_le (Nat.cast_pos.mpr hb)
      (single_le_sum (f := fun b => (p.NNm a b : ℝ)) (fun _ _ => Nat.cast_nonneg _) (mem_univ b))
    exact this.ne'
  have h12 : ∀ a, p.N2 a = p.N1 a := by
    intro a; unfold Props.N2 Props.N1; exact sum_congr rfl fun b _ => by rw [hsym]
  have h2 : ∀ a, p.N2 a ≠ 0 := fun a => by rw [h12]; exact h1 a
  cases per with
  | other => exact absurd rfl hper
  | first =>
    simp only [realloc, h1, exists_false, if_false, if_true, mul_joint1 p h1, transposed_symm p hsym]
    rfl
  | second =>
    simp only [realloc, h2, exists_false, if_false, if_true, mul_joint2 p h2, transposed_symm p hsym]
    rfl
  | all =>
    have e : ∀ l, ∑ a, ((p.N1 a + p.N2 a) / 2 + p.NNs a) * ((p.joint1 a l + p.joint2 a l) / 2) =
        Spec.transposed p l + Spec.stayersOfType p l := by
      intro l
      have := congrArg₂ (· + ·) (mul_joint1 p h1 l) (mul_joint2 p h2 l)
      simp only [← sum_add_distrib] at this
      have h3 : ∑ a, ((p.N1 a + p.N2 a) / 2 + p.NNs a) * ((p.joint1 a l + p.joint2 a l) / 2) =
          (∑ a, ((p.N1 a + p.NNs a) * p.joint1 a l + (p.N2 a + p.NNs a) * p.joint2 a l)) / 2 := by
        rw [sum_div]
        refine sum_congr rfl fun a _ => ?_
        rw [h12]; ring
      rw [h3, this]; ring
    simp only [realloc, h1, h2, or_self, exists_false, if_false, if_true, e, transposed_symm p hsym]
    rfl

/-- C37 (partial: only for symmetric flows and `reallocate_period='first'`).  Without
`reallocate_jointly` movers' types are drawn from the shares among movers, stayers' from the shares
among stayers. -/
theorem C37_separate_partial (p : Props nl nk) (hsym : ∀ a b, p.NNm a b = p.NNm b a)
    (hpos : ∀ a, ∃ b, 0 < p.NNm a b) (hns : ∃ k, 0 < p.NNs k) :
    realloc false .first p = .ok (fun _ l => Spec.moversOfType p l / p.nm,
      fun _ l => Spec.stayersOfType p l / p.ns) := by
  have h1 : ∀ a, p.N1 a ≠ 0 := by
    intro a
    obtain ⟨b, hb⟩ := hpos a
    have : (0 : ℝ) < p.N1 a := lt_of_lt_of_le (Nat.cast_pos.mpr hb)
      (single_le_sum (f := fun b => (p.NNm a b : ℝ)) (fun _ _ => Nat.cast_nonneg _) (mem_univ b))
    exact this.ne'
  have h2 : p.ns ≠ 0 := by
    obtain ⟨k, hk⟩ := hns
    have : (0 : ℝ) < p.ns := lt_of_lt_of_le (Nat.cast_pos.mpr hk)
      (single_le_sum (f := fun b => (p.NNs b : ℝ)) (fun _ _ => Nat.cast_nonneg _) (mem_univ k))
    exact this.ne'
  simp only [realloc, h1, exists_false, if_false, Bool.false_eq_true, h2, mul_period1 p h1,
    transposed_symm p hsym]
  rfl

/-- C37 fails: without `reallocate_jointly`, periods 'second' and 'all' always raise. -/
theorem C37_separate_raises (p : Props nl nk) (per : RPeriod) (h : per = .second ∨ per = .all) :
    realloc false per p = .error "UnboundLocalError" := by
  rcases h with rfl | rfl <;> rfl

/-- C37 fails for asymmetric flows: what is drawn from is the share in which every flow is paired with
the type proportions of the opposite flow. -/
theorem C37_transposed (p : Props nl nk) (per : RPeriod) (hper : per = .first ∨ per = .second)
    (r : (ℕ → Fin nl → ℝ) × (Fin nk → Fin nl → ℝ)) (h : realloc true per p = .ok r) :
    (∀ x l, r.1 x l = (Spec.transposed p l + Spec.stayersOfType p l) / (p.nm + p.ns)) ∧
    ∀ k, r.2 k = r.1 0 := by
  rcases hper with rfl | rfl
  · simp only [realloc] at h
    split at h
    · cases h
    · rename_i hn
      push Not at hn
      rw [if_pos trivial] at h
      cases h
      exact ⟨fun _ l => by beta_reduce; rw [← mul_joint1 p hn], fun _ => rfl⟩
  · simp only [realloc] at h
    rw [if_pos trivial] at h
    split at h
    · cases h
    · rename_i hn
      push Not at hn
      cases h
      exact ⟨fun _ l => by beta_reduce; rw [← mul_joint2 p hn], fun _ => rfl⟩

/-- Two firm types, three moves up for one move down; upward movers are of type 1, all others of type
0; one stayer per firm type. -/
def exProps : Props 2 2 where
  NNm := fun a b => if a = 0 ∧ b = 1 then 3 else 1
  NNs := fun _ => 1
  pk1 := fun x l => if x = 2 then (if l = 1 then 1 else 0) else (if l = 0 then 1 else 0)
  pk0 := fun _ l => if l = 0 then 1 else 0

/-- C37 fails: in `exProps` three of eight workers are of type 1, but the types are drawn with
probability one eighth. -/
theorem C37_wrong : ∃ r, realloc true .first exProps = .ok r ∧ (∀ x, r.1 x 1 = 1 / 8) ∧
    Spec.popShare exProps 1 = 3 / 8 := by
  have h : ¬ ∃ a, exProps.N1 a = 0 := by
    rintro ⟨a, ha⟩
    fin_cases a <;> simp [Props.N1, exProps, Fin.sum_univ_two] at ha <;> norm_num at ha
  have hr : ∃ r, realloc true .first exProps = .ok r := by
    simp only [realloc, if_neg h]
    exact ⟨_, rfl⟩
  obtain ⟨r, hr⟩ := hr
  refine ⟨r, hr, fun x => ?_, ?_⟩
  · rw [(C37_transposed _ _ (Or.inl rfl) _ hr).1]
    simp [Spec.transposed, Spec.stayersOfType, Props.nm, Props.ns, exProps, Fin.sum_univ_two]
    norm_num
  · simp [Spec.popShare, Spec.moversOfType, Spec.stayersOfType, Props.nm, Props.ns, exProps,
      Fin.sum_univ_two]
    norm_num

/-- C37: whenever re-allocation succeeds all movers share one vector and all stayers share one (the
same one with `reallocate_jointly`), and these are probability vectors if the model's proportions
are. -/
theorem C37_probability (p : Props nl nk) (jointly : Bool) (per : RPeriod)
    (hp1 : ∀ x < nk * nk, (∀ l, 0 ≤ p.pk1 x l) ∧ ∑ l, p.pk1 x l = 1)
    (hp0 : ∀ k, (∀ l, 0 ≤ p.pk0 k l) ∧ ∑ l, p.pk0 k l = 1) (hnk : 0 < nk)
    (r : (ℕ → Fin nl → ℝ) × (Fin nk → Fin nl → ℝ)) (h : realloc jointly per p = .ok r) :
    ∃ v v' : Fin nl → ℝ, (∀ x, r.1 x = v) ∧ (∀ k, r.2 k = v') ∧ (jointly = true → v = v') ∧
      (∀ l, 0 ≤ v l) ∧ (∀ l, 0 ≤ v' l) ∧ ∑ l, v l = 1 ∧ ∑ l, v' l = 1 := by
  have hre : ∀ a b : Fin nk, (∀ l, 0 ≤ p.reshaped a b l) ∧ ∑ l, p.reshaped a b l = 1 := by
    intro a b
    apply hp1
    calc a.val * nk + b.val < a.val * nk + nk := by have := b.isLt; omega
      _ = (a.val + 1) * nk := by ring
      _ ≤ nk * nk := Nat.mul_le_mul_right _ a.isLt
  have f1 : ∀ a, p.N1 a ≠ 0 → (∀ l, 0 ≤ p.period1 a l) ∧ ∑ l, p.period1 a l = 1 := by
    intro a ha
    refine ⟨fun l => div_nonneg (sum_nonneg fun b _ => mul_nonneg (Nat.cast_nonneg _) ((hre a b).1 l))
      (N1_nonneg p a), ?_⟩
    unfold Props.period1
    rw [← sum_div, sum_comm]
    simp only [← mul_sum, (hre a _).2, mul_one]
    exact div_self ha
  have f2 : ∀ a, p.N2 a ≠ 0 → (∀ l, 0 ≤ p.period2 a l) ∧ ∑ l, p.period2 a l = 1 := by
    intro a ha
    refine ⟨fun l => div_nonneg (sum_nonneg fun b _ => mul_nonneg (Nat.cast_nonneg _) ((hre b a).1 l))
      (N2_nonneg p a), ?_⟩
    unfold Props.period2
    rw [← sum_div, sum_comm]
    simp only [← mul_sum, (hre _ a).2, mul_one]
    exact div_self ha
  have g1 : ∀ a, p.N1 a ≠ 0 → (∀ l, 0 ≤ p.joint1 a l) ∧ ∑ l, p.joint1 a l = 1 := by
    intro a ha
    have h1 : 0 < p.N1 a := lt_of_le_of_ne (N1_nonneg p a) ha.symm
    have h2 : (0 : ℝ) ≤ p.NNs a := Nat.cast_nonneg _
    refine ⟨fun l => div_nonneg (add_nonneg (mul_nonneg h1.le ((f1 a ha).1 l))
      (mul_nonneg h2 ((hp0 a).1 l))) (by linarith), ?_⟩
    unfold Props.joint1
    rw [← sum_div, sum_add_distrib, ← mul_sum, ← mul_sum, (f1 a ha).2, (hp0 a).2, mul_one, mul_one]
    exact div_self (by linarith)
  have g2 : ∀ a, p.N2 a ≠ 0 → (∀ l, 0 ≤ p.joint2 a l) ∧ ∑ l, p.joint2 a l = 1 := by
    intro a ha
    have h1 : 0 < p.N2 a := lt_of_le_of_ne (N2_nonneg p a) ha.symm
    have h2 : (0 : ℝ) ≤ p.NNs a := Nat.cast_nonneg _
    refine ⟨fun l => div_nonneg (add_nonneg (mul_nonneg h1.le ((f2 a ha).1 l))
      (mul_nonneg h2 ((hp0 a).1 l))) (by linarith), ?_⟩
    unfold Props.joint2
    rw [← sum_div, sum_add_distrib, ← mul_sum, ← mul_sum, (f2 a ha).2, (hp0 a).2, mul_one, mul_one]
    exact div_self (by linarith)
  have hns : 0 ≤ p.ns := sum_nonneg fun _ _ => Nat.cast_nonneg _
  have hnm1 : (∀ a, p.N1 a ≠ 0) → 0 < p.nm := by
    intro h
    rw [← sum_N1]
    have : Nonempty (Fin nk) := ⟨⟨0, hnk⟩⟩
    exact sum_pos (fun a _ => lt_of_le_of_ne (N1_nonneg p a) (h a).symm) univ_nonempty
  have hnm2 : (∀ a, p.N2 a ≠ 0) → 0 < p.nm := by
    intro h
    rw [← sum_N2]
    have : Nonempty (Fin nk) := ⟨⟨0, hnk⟩⟩
    exact sum_pos (fun a _ => lt_of_le_of_ne (N2_nonneg p a) (h a).symm) univ_nonempty
  have avg : ∀ (w : Fin nk → ℝ) (q : Fin nk → Fin nl → ℝ) (tot : ℝ), 0 < tot → (∀ a, 0 ≤ w a) →
      ∑ a, w a = tot → (∀ a, (∀ l, 0 ≤ q a l) ∧ ∑ l, q a l = 1) →
      (∀ l, 0 ≤ (∑ a, w a * q a l) / tot) ∧ ∑ l, (∑ a, w a * q a l) / tot = 1 := by
    intro w q tot ht hw hs hq
    refine ⟨fun l => div_nonneg (sum_nonneg fun a _ => mul_nonneg (hw a) ((hq a).1 l)) ht.le, ?_⟩
    rw [← sum_div, sum_comm]
    simp only [← mul_sum, (hq _).2, mul_one, hs]
    exact div_self ht.ne'
  cases per with
  | other => simp only [realloc] at h; cases h
  | first =>
    simp only [realloc] at h
    split at h
    · cases h
    · rename_i hn
      push Not at hn
      cases jointly with
      | true =>
        rw [if_pos rfl] at h
        cases h
        obtain ⟨a1, a2⟩ := avg (fun a => p.N1 a + p.NNs a) p.joint1 (p.nm + p.ns)
          (by linarith [hnm1 hn]) (fun a => add_nonneg (N1_nonneg p a) (Nat.cast_nonneg _))
          (by rw [sum_add_distrib, sum_N1]; rfl) (fun a => g1 a (hn a))
        exact ⟨_, _, fun _ => rfl, fun _ => rfl, fun _ => rfl, a1, a1, a2, a2⟩
      | false =>
        rw [if_neg (by simp)] at h
        split at h
        · cases h
        · rename_i hs
          cases h
          obtain ⟨a1, a2⟩ := avg p.N1 p.period1 p.nm (hnm1 hn) (N1_nonneg p) (sum_N1 p)
            (fun a => f1 a (hn a))
          obtain ⟨b1, b2⟩ := avg (fun k => (p.NNs k : ℝ)) p.pk0 p.ns
            (lt_of_le_of_ne hns (Ne.symm hs)) (fun k => Nat.cast_nonneg _) rfl hp0
          exact ⟨_, _, fun _ => rfl, fun _ => rfl, (fun h => by cases h), a1, b1, a2, b2⟩
  | second =>
    simp only [realloc] at h
    cases jointly with
    | false => rw [if_neg (by simp)] at h; cases h
    | true =>
      rw [if_pos rfl] at h
      split at h
      · cases h
      · rename_i hn
        push Not at hn
        cases h
        obtain ⟨a1, a2⟩ := avg (fun a => p.N2 a + p.NNs a) p.joint2 (p.nm + p.ns)
          (by linarith [hnm2 hn]) (fun a => add_nonneg (N2_nonneg p a) (Nat.cast_nonneg _))
          (by rw [sum_add_distrib, sum_N2]; rfl) (fun a => g2 a (hn a))
        exact ⟨_, _, fun _ => rfl, fun _ => rfl, fun _ => rfl, a1, a1, a2, a2⟩
  | all =>
    simp only [realloc] at h
    cases jointly with
    | false => rw [if_neg (by simp)] at h; cases h
    | true =>
      rw [if_pos rfl] at h
      split at h
      · cases h
      · rename_i hn
        push Not at hn
        cases h
        obtain ⟨a1, a2⟩ := avg (fun a => (p.N1 a + p.N2 a) / 2 + p.NNs a)
          (fun a l => (p.joint1 a l + p.joint2 a l) / 2) (p.nm + p.ns)
          (by linarith [hnm2 fun a => (hn a).2])
          (fun a => by
            have := N1_nonneg p a; have := N2_nonneg p a
            have : (0 : ℝ) ≤ p.NNs a := Nat.cast_nonneg _
            linarith)
          (by
            rw [sum_add_distrib, ← sum_div, sum_add_distrib, sum_N1, sum_N2]
            unfold Props.ns; ring)
          (fun a => ⟨fun l => by
            have := (g1 a (hn a).1).1 l; have := (g2 a (hn a).2).1 l; linarith, by
            rw [← sum_div, sum_add_distrib, (g1 a (hn a).1).2, (g2 a (hn a).2).2]; norm_num⟩)
        exact ⟨_, _, fun _ => rfl, fun _ => rfl, fun _ => rfl, a1, a1, a2, a2⟩

/-- Non-vacuity of `C37_joint_partial` and `C37_separate_partial`: a symmetric flow matrix. -/
example : ∃ p : Props 2 2, (∀ a b, p.NNm a b = p.NNm b a) ∧ (∀ a, ∃ b, 0 < p.NNm a b) ∧
    (∃ k, 0 < p.NNs k) ∧ Spec.popShare p 1 = 1 / 4 :=
  ⟨⟨fun _ _ => 1, fun _ => 2, fun x l => if x = 2 ∨ x = 1 then (if l = 1 then 1 else 0) else
      (if l = 0 then 1 else 0), fun _ l => if l = 0 then 1 else 0⟩, fun _ _ => rfl, fun _ => ⟨0, by simp⟩,
    ⟨0, by simp⟩, by
      simp only [Spec.popShare, Spec.moversOfType, Spec.stayersOfType, Props.nm, Props.ns,
        Fin.sum_univ_two]
      norm_num⟩

end Pytwoway.BLM
