import Verif.Sorkin.Props
import Mathlib.Analysis.SpecificLimits.Basic
import Mathlib.Topology.Algebra.Order.Field
import Mathlib.Data.Matrix.Mul
import Mathlib.LinearAlgebra.Matrix.Notation
import Mathlib.Topology.MetricSpace.Cauchy
import Mathlib.Topology.MetricSpace.Pseudo.Pi

/-! # C122: the revealed-preference iteration settles

`C30` shows that the iteration can go back and forth for ever.  Here: when some number of moves leads from every firm to
every firm, it converges to the balancing values, whatever the data; and it depends on the moves only. -/

namespace Pytwoway.Sorkin

variable {nf : ℕ}

/-! ## Specification -/

/-- One can get from firm `j` to firm `k` by exactly `n` moves, each seen in the data. -/
def Spec.Chain (rows : List (Fin nf × Fin nf)) : ℕ → Fin nf → Fin nf → Prop
  | 0, j, k => j = k
  | n + 1, j, k => ∃ i, (j, i) ∈ rows ∧ Spec.Chain rows n i k

/-- Some number of moves leads from every firm to every firm. -/
def Spec.Mixing (rows : List (Fin nf × Fin nf)) : Prop := ∃ m, ∀ j k, Spec.Chain rows m j k

/-! ## The transition matrix -/

open Matrix Filter Topology

/-- The share of moves out of `j` that go to `k`. -/
noncomputable def trans (rows : List (Fin nf × Fin nf)) : Matrix (Fin nf) (Fin nf) ℝ :=
  fun k j => (flows rows k j : ℝ) / (outflow (flows rows) j : ℝ)

/-- Sum of absolute values. -/
noncomputable def size (x : Fin nf → ℝ) : ℝ := ∑ k, |x k|

/-- The values belonging to a distribution of moves `u`. -/
noncomputable def val (rows : List (Fin nf × Fin nf)) (u : Fin nf → ℝ) (k : Fin nf) : ℝ :=
  u k / (outflow (flows rows) k : ℝ) / ∑ k', u k' / (outflow (flows rows) k' : ℝ)

/-- The guess after `n` passes. -/
noncomputable def guess (rows : List (Fin nf × Fin nf)) (n : ℕ) : Fin nf → ℝ :=
  val rows ((trans rows ^ n) *ᵥ fun k => (outflow (flows rows) k : ℝ))

section
variable {rows : List (Fin nf × Fin nf)}

theorem trans_nonneg (k j : Fin nf) : 0 ≤ trans rows k j := by unfold trans; positivity

theorem trans_sum (ho : ∀ k, outflow (flows rows) k ≠ 0) (j : Fin nf) : ∑ k, trans rows k j = 1 := by
  unfold trans
  rw [← Finset.sum_div, div_eq_one_iff_eq (by exact_mod_cast ho j)]
  simp [outflow]

theorem pow_nonneg' (n : ℕ) (k j : Fin nf) : 0 ≤ (trans rows ^ n) k j := by
  induction n generalizing k j with
  | zero => rw [pow_zero, Matrix.one_apply]; split <;> norm_num
  | succ n ih =>
    rw [pow_succ, Matrix.mul_apply]
    exact Finset.sum_nonneg fun i _ => mul_nonneg (ih _ _) (trans_nonneg _ _)

theorem pow_sum (ho : ∀ k, outflow (flows rows) k ≠ 0) (n : ℕ) (j : Fin nf) : ∑ k, (trans rows ^ n) k j = 1 := by
  induction n generalizing j with
  | zero => simp [Matrix.one_apply]
  | succ n ih =>
    simp only [pow_succ, Matrix.mul_apply]
    rw [Finset.sum_comm]
    simp only [← Finset.sum_mul, ih, one_mul]
    exact trans_sum ho j

theorem pow_pos_of_chain (ho : ∀ k, outflow (flows rows) k ≠ 0) {n : ℕ} {j k : Fin nf} (h : Spec.Chain rows n j k) :
    0 < (trans rows ^ n) k j := by
  induction n generalizing j with
  | zero => cases h; simp
  | succ n ih =>
    obtain ⟨i, hi, hc⟩ := h
    rw [pow_succ, Matrix.mul_apply]
    refine lt_of_lt_of_le (mul_pos (ih hc) ?_) (Finset.single_le_sum
      (f := fun i => (trans rows ^ n) k i * trans rows i j)
      (fun i _ => mul_nonneg (pow_nonneg' _ _ _) (trans_nonneg _ _)) (Finset.mem_univ i))
    unfold trans
    rw [flows_eq]
    have a : 0 < (moves rows j i : ℝ) := by exact_mod_cast List.count_pos_iff.2 hi
    have b : 0 < (outflow (flows rows) j : ℝ) := by exact_mod_cast Nat.pos_of_ne_zero (ho j)
    positivity

theorem mulVec_sum (ho : ∀ k, outflow (flows rows) k ≠ 0) (n : ℕ) (x : Fin nf → ℝ) :
    ∑ k, ((trans rows ^ n) *ᵥ x) k = ∑ k, x k := by
  simp only [Matrix.mulVec, dotProduct]
  rw [Finset.sum_comm]
  simp only [← Finset.sum_mul, pow_sum ho, one_mul]

theorem size_nonneg (x : Fin nf → ℝ) : 0 ≤ size x := Finset.sum_nonneg fun _ _ => abs_nonneg _

theorem le_size (x : Fin nf → ℝ) (k : Fin nf) : |x k| ≤ size x :=
  Finset.single_le_sum (f := fun k => |x k|) (fun _ _ => abs_nonneg _) (Finset.mem_univ k)

/-- Moving on never increases the distance. -/
theorem size_mulVec_le (ho : ∀ k, outflow (flows rows) k ≠ 0) (n : ℕ) (x : Fin nf → ℝ) :
    size ((trans rows ^ n) *ᵥ x) ≤ size x := by
  unfold size
  calc ∑ k, |((trans rows ^ n) *ᵥ x) k| ≤ ∑ k, ∑ j, (trans rows ^ n) k j * |x j| := by
        refine Finset.sum_le_sum fun k _ => ?_
        simp only [Matrix.mulVec, dotProduct]
        refine (Finset.abs_sum_le_sum_abs _ _).trans (le_of_eq ?_)
        exact Finset.sum_congr rfl fun j _ => by rw [abs_mul, abs_of_nonneg (pow_nonneg' _ _ _)]
    _ = _ := by
        rw [Finset.sum_comm]
        simp only [← Finset.sum_mul, pow_sum ho, one_mul]

/-- After `m` moves that lead anywhere with probability at least `e`, the distance has shrunk. -/
theorem size_contract (ho : ∀ k, outflow (flows rows) k ≠ 0) {m : ℕ} {e : ℝ} (he : ∀ k j, e ≤ (trans rows ^ m) k j)
    {x : Fin nf → ℝ} (hx : ∑ k, x k = 0) : size ((trans rows ^ m) *ᵥ x) ≤ (1 - nf * e) * size x := by
  unfold size
  calc ∑ k, |((trans rows ^ m) *ᵥ x) k| ≤ ∑ k, ∑ j, ((trans rows ^ m) k j - e) * |x j| := by
        refine Finset.sum_le_sum fun k _ => ?_
        have : ((trans rows ^ m) *ᵥ x) k = ∑ j, ((trans rows ^ m) k j - e) * x j := by
          simp only [sub_mul, Finset.sum_sub_distrib, ← Finset.mul_sum, hx, mul_zero, sub_zero]; rfl
        rw [this]
        refine (Finset.abs_sum_le_sum_abs _ _).trans (le_of_eq ?_)
        exact Finset.sum_congr rfl fun j _ => by rw [abs_mul, abs_of_nonneg (sub_nonneg.2 (he k j))]
    _ = _ := by
        rw [Finset.sum_comm, Finset.mul_sum]
        refine Finset.sum_congr rfl fun j _ => ?_
        rw [← Finset.sum_mul, Finset.sum_sub_distrib, pow_sum ho]
        simp

/-! ## Values and passes -/

theorem val_pos (ho : ∀ k, outflow (flows rows) k ≠ 0) {u : Fin nf → ℝ} (hu : ∀ k, 0 < u k) (k : Fin nf) :
    0 < val rows u k := by
  have hs : ∀ k, 0 < u k / (outflow (flows rows) k : ℝ) := fun k =>
    div_pos (hu k) (by exact_mod_cast Nat.pos_of_ne_zero (ho k))
  exact div_pos (hs k) (Finset.sum_pos (fun k _ => hs k) ⟨k, Finset.mem_univ _⟩)

/-- A pass moves the distribution one step on. -/
theorem step_val (ho : ∀ k, outflow (flows rows) k ≠ 0) {u : Fin nf → ℝ} (hu : ∀ k, 0 < u k) :
    step (flows rows) (val rows u) = val rows (trans rows *ᵥ u) := by
  have ho' : ∀ k, (outflow (flows rows) k : ℝ) ≠ 0 := fun k => by exact_mod_cast ho k
  funext k
  rw [step_eq fun k => (val_pos ho hu k).le]
  set c := ∑ k', u k' / (outflow (flows rows) k' : ℝ) with hc
  have hc0 : 0 < c := Finset.sum_pos
    (fun k _ => div_pos (hu k) (by exact_mod_cast Nat.pos_of_ne_zero (ho k))) ⟨k, Finset.mem_univ _⟩
  have key : ∀ k, ∑ j, lhs (flows rows) k j * val rows u j
      = (trans rows *ᵥ u) k / (outflow (flows rows) k : ℝ) * c⁻¹ := by
    intro k
    simp only [Matrix.mulVec, dotProduct]
    rw [Finset.sum_div, Finset.sum_mul]
    refine Finset.sum_congr rfl fun j _ => ?_
    unfold lhs val trans
    rw [← hc]
    have := ho' j; have := ho' k
    field_simp
  simp only [key, ← Finset.sum_mul]
  rw [mul_div_mul_right _ _ (inv_ne_zero hc0.ne')]
  rfl

theorem mulVec_pos (ho : ∀ k, outflow (flows rows) k ≠ 0) (hi : ∀ k, ∃ j, (j, k) ∈ rows) {u : Fin nf → ℝ}
    (hu : ∀ k, 0 < u k) (k : Fin nf) : 0 < (trans rows *ᵥ u) k := by
  obtain ⟨j, hj⟩ := hi k
  refine lt_of_lt_of_le (mul_pos ?_ (hu j)) (Finset.single_le_sum (f := fun j => trans rows k j * u j)
    (fun j _ => mul_nonneg (trans_nonneg _ _) (hu j).le) (Finset.mem_univ j))
  unfold trans
  rw [flows_eq]
  have a : 0 < (moves rows j k : ℝ) := by exact_mod_cast List.count_pos_iff.2 hj
  have b : 0 < (outflow (flows rows) j : ℝ) := by exact_mod_cast Nat.pos_of_ne_zero (ho j)
  positivity

theorem dist_pos (ho : ∀ k, outflow (flows rows) k ≠ 0) (hi : ∀ k, ∃ j, (j, k) ∈ rows) (n : ℕ) (k : Fin nf) :
    0 < ((trans rows ^ n) *ᵥ fun k => (outflow (flows rows) k : ℝ)) k := by
  induction n generalizing k with
  | zero => rw [pow_zero, Matrix.one_mulVec]; exact_mod_cast Nat.pos_of_ne_zero (ho k)
  | succ n ih => rw [pow_succ', ← Matrix.mulVec_mulVec]; exact mulVec_pos ho hi ih k

theorem guess_pos (ho : ∀ k, outflow (flows rows) k ≠ 0) (hi : ∀ k, ∃ j, (j, k) ∈ rows) (n : ℕ) (k : Fin nf) :
    0 < guess rows n k := val_pos ho (dist_pos ho hi n) k

theorem guess_zero (ho : ∀ k, outflow (flows rows) k ≠ 0) : guess rows 0 = start nf := by
  funext k
  have ho' : ∀ k, (outflow (flows rows) k : ℝ) ≠ 0 := fun k => by exact_mod_cast ho k
  simp only [guess, val, pow_zero, Matrix.one_mulVec, start, div_self (ho' _)]
  simp

theorem step_guess (ho : ∀ k, outflow (flows rows) k ≠ 0) (hi : ∀ k, ∃ j, (j, k) ∈ rows) (n : ℕ) :
    step (flows rows) (guess rows n) = guess rows (n + 1) := by
  unfold guess
  rw [step_val ho (dist_pos ho hi n), pow_succ', ← Matrix.mulVec_mulVec]

/-- The loop's result is the first guess that meets the test, or the last guess. -/
theorem loop_guess (ho : ∀ k, outflow (flows rows) k ≠ 0) (hi : ∀ k, ∃ j, (j, k) ∈ rows) (thr : ℝ) (N n : ℕ) :
    ∃ q ≤ N, loop (flows rows) thr (N + 1) (guess rows n) = some (guess rows (n + q), guess rows (n + q + 1)) ∧
      (q = N ∨ converged thr (guess rows (n + q)) (guess rows (n + q + 1))) ∧
      ∀ p < q, ¬ converged thr (guess rows (n + p)) (guess rows (n + p + 1)) := by
  induction N generalizing n with
  | zero => exact ⟨0, le_rfl, by rw [loop, step_guess ho hi]; rfl, Or.inl rfl, fun p hp => absurd hp (Nat.not_lt_zero _)⟩
  | succ N ih =>
    by_cases hc : converged thr (guess rows n) (guess rows (n + 1))
    · refine ⟨0, Nat.zero_le _, ?_, Or.inr hc, fun p hp => absurd hp (Nat.not_lt_zero _)⟩
      rw [loop, step_guess ho hi, if_pos hc]; rfl
    · obtain ⟨q, hq, h1, h2, h3⟩ := ih (n + 1)
      refine ⟨q + 1, by omega, ?_, ?_, ?_⟩
      · rw [loop, step_guess ho hi, if_neg hc, h1]
        rw [show n + (q + 1) = n + 1 + q by omega]
      · rw [show n + (q + 1) = n + 1 + q by omega]
        rcases h2 with h2 | h2
        · exact Or.inl (by omega)
        · exact Or.inr h2
      · intro p hp
        match p with
        | 0 => exact hc
        | p + 1 =>
          rw [show n + (p + 1) = n + 1 + p by omega]
          exact h3 p (by omega)

/-! ## Convergence -/

theorem mixing_in_out (hn : 2 ≤ nf) (h : Spec.Mixing rows) :
    (∀ k, outflow (flows rows) k ≠ 0) ∧ ∀ k, ∃ j, (j, k) ∈ rows := by
  obtain ⟨m, hm⟩ := h
  have hm0 : m ≠ 0 := by
    rintro rfl
    have := hm (⟨0, by omega⟩ : Fin nf) ⟨1, by omega⟩
    simp [Spec.Chain] at this
  obtain ⟨m, rfl⟩ := Nat.exists_eq_succ_of_ne_zero hm0
  have hlast : ∀ n j k, Spec.Chain rows (n + 1) j k → ∃ i, (i, k) ∈ rows := by
    intro n
    induction n with
    | zero => rintro j k ⟨i, hi, rfl⟩; exact ⟨j, hi⟩
    | succ n ih => rintro j k ⟨i, -, hc⟩; exact ih i k hc
  constructor
  · intro k h0
    obtain ⟨i, hi, -⟩ := hm k k
    rw [outflow_eq, leaving, List.length_eq_zero_iff, List.filter_eq_nil_iff] at h0
    exact h0 _ hi (by simp)
  · intro k; exact hlast m k k (hm k k)

/-- The distributions of moves converge, to a positive distribution that moving on does not change. -/
theorem exists_limit (hn : 0 < nf) (ho : ∀ k, outflow (flows rows) k ≠ 0) (h : Spec.Mixing rows) :
    ∃ u : Fin nf → ℝ, (∀ k, 0 < u k) ∧ trans rows *ᵥ u = u ∧
      Tendsto (fun n => (trans rows ^ n) *ᵥ fun k => (outflow (flows rows) k : ℝ)) atTop (𝓝 u) := by
  obtain ⟨m, hm⟩ := h
  obtain ⟨e, he0, he⟩ : ∃ e : ℝ, 0 < e ∧ ∀ k j, e ≤ (trans rows ^ m) k j := by
    have hne : (Finset.univ : Finset (Fin nf × Fin nf)).Nonempty := ⟨(⟨0, hn⟩, ⟨0, hn⟩), Finset.mem_univ _⟩
    obtain ⟨r, -, hr⟩ := Finset.exists_min_image Finset.univ
      (fun r : Fin nf × Fin nf => (trans rows ^ m) r.1 r.2) hne
    exact ⟨_, pow_pos_of_chain ho (hm r.2 r.1), fun k j => hr (k, j) (Finset.mem_univ _)⟩
  set r : ℝ := 1 - nf * e with hr
  have hr1 : r < 1 := by
    have : (0 : ℝ) < nf := by exact_mod_cast hn
    have := mul_pos this he0
    linarith
  have hr0 : 0 ≤ r := by
    have h1 := pow_sum ho m (⟨0, hn⟩ : Fin nf)
    have h2 : ∑ _k : Fin nf, e ≤ ∑ k, (trans rows ^ m) k ⟨0, hn⟩ := Finset.sum_le_sum fun k _ => he k _
    rw [h1] at h2
    simp at h2
    linarith
  set s : Fin nf → ℝ := fun k => (outflow (flows rows) k : ℝ) with hs
  set w : ℕ → Fin nf → ℝ := fun q => (trans rows ^ (m * q)) *ᵥ s with hw
  have hwstep : ∀ q, w (q + 1) = (trans rows ^ m) *ᵥ w q := by
    intro q
    simp only [hw]
    rw [Matrix.mulVec_mulVec, ← pow_add, show m * (q + 1) = m + m * q by ring]
  have hgeo : ∀ q, size (w (q + 1) - w q) ≤ size (w 1 - w 0) * r ^ q := by
    intro q
    induction q with
    | zero => simp
    | succ q ih =>
      have h0 : ∑ k, (w (q + 1) - w q) k = 0 := by
        simp only [Pi.sub_apply, Finset.sum_sub_distrib, hw, mulVec_sum ho, sub_self]
      have := size_contract ho he h0
      rw [Matrix.mulVec_sub, ← hwstep, ← hwstep, ← hr] at this
      calc _ ≤ r * size (w (q + 1) - w q) := this
        _ ≤ r * (size (w 1 - w 0) * r ^ q) := mul_le_mul_of_nonneg_left ih hr0
        _ = _ := by ring
  have hdist : ∀ x y : Fin nf → ℝ, dist x y ≤ size (y - x) := by
    intro x y
    refine (dist_pi_le_iff (size_nonneg _)).2 fun k => ?_
    rw [Real.dist_eq, abs_sub_comm]
    exact le_size (y - x) k
  have hcau : CauchySeq w := cauchySeq_of_le_geometric r _ hr1 fun q => (hdist _ _).trans (hgeo q)
  obtain ⟨u, hu⟩ := cauchySeq_tendsto_of_complete hcau
  have hcont : ∀ n, Continuous fun x : Fin nf → ℝ => (trans rows ^ n) *ᵥ x := fun n =>
    continuous_pi fun k => by
      simp only [Matrix.mulVec, dotProduct]
      exact continuous_finsetSum _ fun j _ => continuous_const.mul (continuous_apply j)
  have hum : (trans rows ^ m) *ᵥ u = u := by
    have h1 : Tendsto (fun q => w (q + 1)) atTop (𝓝 u) := hu.comp (tendsto_add_atTop_nat 1)
    have h2 : Tendsto (fun q => w (q + 1)) atTop (𝓝 ((trans rows ^ m) *ᵥ u)) := by
      simp only [hwstep]
      exact ((hcont m).tendsto u).comp hu
    exact tendsto_nhds_unique h2 h1
  have hsum : ∑ k, u k = ∑ k, s k := by
    have h1 : Tendsto (fun q => ∑ k, w q k) atTop (𝓝 (∑ k, u k)) :=
      tendsto_finsetSum _ fun k _ => (tendsto_pi_nhds.1 hu) k
    simp only [hw, mulVec_sum ho] at h1
    exact (tendsto_nhds_unique h1 tendsto_const_nhds)
  have hsz : ∀ x : Fin nf → ℝ, size x ≤ 0 → x = 0 := by
    intro x hx
    funext k
    exact abs_eq_zero.1 (le_antisymm ((le_size x k).trans hx) (abs_nonneg _))
  have hfix : trans rows *ᵥ u = u := by
    set y := trans rows *ᵥ u - u with hy
    have h0 : ∑ k, y k = 0 := by
      have := mulVec_sum ho 1 u
      rw [pow_one] at this
      simp only [hy, Pi.sub_apply, Finset.sum_sub_distrib, this, sub_self]
    have h1 : (trans rows ^ m) *ᵥ y = y := by
      rw [hy, Matrix.mulVec_sub, hum, Matrix.mulVec_mulVec, ← pow_succ, pow_succ', ← Matrix.mulVec_mulVec, hum]
    have h2 := size_contract ho he h0
    rw [h1, ← hr] at h2
    have h3 : size y ≤ 0 := by nlinarith [size_nonneg y]
    exact sub_eq_zero.1 (hsz y h3)
  have hfixn : ∀ n, (trans rows ^ n) *ᵥ u = u := by
    intro n
    induction n with
    | zero => simp
    | succ n ih => rw [pow_succ, ← Matrix.mulVec_mulVec, hfix, ih]
  refine ⟨u, ?_, hfix, ?_⟩
  · intro k
    have hspos : 0 < ∑ k, s k := Finset.sum_pos
      (fun k _ => by simp only [hs]; exact_mod_cast Nat.pos_of_ne_zero (ho k)) ⟨⟨0, hn⟩, Finset.mem_univ _⟩
    have hu0 : ∀ k, 0 ≤ u k := by
      intro k
      refine ge_of_tendsto' ((tendsto_pi_nhds.1 hu) k) fun q => ?_
      simp only [hw, Matrix.mulVec, dotProduct]
      exact Finset.sum_nonneg fun j _ => mul_nonneg (pow_nonneg' _ _ _) (by simp only [hs]; positivity)
    rw [← hum]
    calc 0 < e * ∑ j, u j := mul_pos he0 (hsum ▸ hspos)
      _ = ∑ j, e * u j := Finset.mul_sum _ _ _
      _ ≤ _ := Finset.sum_le_sum fun j _ => mul_le_mul_of_nonneg_right (he k j) (hu0 j)
  · rw [Metric.tendsto_atTop]
    intro d hd
    -- a term of the subsequence close to the limit
    have hsz' : Tendsto (fun q => size (w q - u)) atTop (𝓝 0) := by
      have : Tendsto (fun q => ∑ k, |w q k - u k|) atTop (𝓝 (∑ _k : Fin nf, 0)) :=
        tendsto_finsetSum _ fun k _ => by
          have h1 := ((tendsto_pi_nhds.1 hu) k).sub_const (u k)
          rw [sub_self] at h1
          simpa using h1.abs
      simpa [size] using this
    obtain ⟨q, hq⟩ := ((Metric.tendsto_atTop.1 hsz') d hd)
    have hq' := hq q le_rfl
    rw [Real.dist_eq, sub_zero, abs_of_nonneg (size_nonneg _)] at hq'
    refine ⟨m * q, fun n hnq => ?_⟩
    obtain ⟨p, rfl⟩ := Nat.exists_eq_add_of_le' hnq
    have h1 : (trans rows ^ (p + m * q)) *ᵥ s - u = (trans rows ^ p) *ᵥ (w q - u) := by
      rw [Matrix.mulVec_sub, hfixn, pow_add, ← Matrix.mulVec_mulVec]
    rw [dist_comm]
    refine lt_of_le_of_lt (hdist _ _) (lt_of_le_of_lt ?_ hq')
    rw [h1]
    exact size_mulVec_le ho p _

theorem tendsto_val (hn : 0 < nf) (ho : ∀ k, outflow (flows rows) k ≠ 0) {u : Fin nf → ℝ} (hu : ∀ k, 0 < u k)
    {f : ℕ → Fin nf → ℝ} (hf : Tendsto f atTop (𝓝 u)) (k : Fin nf) :
    Tendsto (fun n => val rows (f n) k) atTop (𝓝 (val rows u k)) := by
  have hs : ∀ k, 0 < u k / (outflow (flows rows) k : ℝ) := fun k =>
    div_pos (hu k) (by exact_mod_cast Nat.pos_of_ne_zero (ho k))
  unfold val
  refine Tendsto.div (((tendsto_pi_nhds.1 hf) k).div_const _)
    (tendsto_finsetSum _ fun k _ => ((tendsto_pi_nhds.1 hf) k).div_const _) ?_
  exact (Finset.sum_pos (fun k _ => hs k) ⟨⟨0, hn⟩, Finset.mem_univ _⟩).ne'

theorem val_sum (hn : 0 < nf) (ho : ∀ k, outflow (flows rows) k ≠ 0) {u : Fin nf → ℝ} (hu : ∀ k, 0 < u k) :
    ∑ k, val rows u k = 1 := by
  have hs : ∀ k, 0 < u k / (outflow (flows rows) k : ℝ) := fun k =>
    div_pos (hu k) (by exact_mod_cast Nat.pos_of_ne_zero (ho k))
  unfold val
  rw [← Finset.sum_div]
  exact div_self (Finset.sum_pos (fun k _ => hs k) ⟨⟨0, hn⟩, Finset.mem_univ _⟩).ne'

theorem val_balanced (ho : ∀ k, outflow (flows rows) k ≠ 0) {u : Fin nf → ℝ} (hfix : trans rows *ᵥ u = u) :
    Balanced rows (val rows u) := by
  intro k
  have ho' : ∀ k, (outflow (flows rows) k : ℝ) ≠ 0 := fun k => by exact_mod_cast ho k
  unfold val
  set c := ∑ k', u k' / (outflow (flows rows) k' : ℝ)
  have h := congrFun hfix k
  simp only [Matrix.mulVec, dotProduct, trans, flows_eq] at h
  rw [← outflow_eq]
  calc u k / (outflow (flows rows) k : ℝ) / c * (outflow (flows rows) k : ℝ) = u k / c := by
        have := ho' k
        rcases eq_or_ne c 0 with h0 | h0
        · simp [h0]
        · field_simp
    _ = (∑ j, (moves rows j k : ℝ) / (outflow (flows rows) j : ℝ) * u j) / c := by rw [h]
    _ = _ := by
        rw [Finset.sum_div]
        exact Finset.sum_congr rfl fun j _ => by ring

/-- A guess that a pass does not change balances the flows. -/
theorem balanced_of_fixed (hn : 0 < nf) (ho : ∀ k, outflow (flows rows) k ≠ 0) {p : Fin nf → ℝ} (hp : ∀ k, 0 < p k)
    (hne : rows ≠ []) (h : step (flows rows) p = p) : Balanced rows p := by
  have ho' : ∀ k, leaving rows k ≠ 0 := fun k => by rw [← outflow_eq]; exact ho k
  obtain ⟨r, hr⟩ := List.exists_mem_of_ne_nil rows hne
  have hc := sum_pos_of_moves ho' hp hr
  have hb := fun k => step_balance ho' (fun k => (hp k).le) k hc.ne'
  rw [h] at hb
  have h1 := balance_scalar ho' hp hn hb
  intro k
  rw [← hb k, h1, one_mul]

theorem converged_of_pos {thr : ℝ} {prev new : Fin nf → ℝ} (hp : ∀ k, 0 < prev k)
    (h : ∀ k, |(new k - prev k) / prev k| ≤ thr) : converged thr prev new := fun k => ⟨(hp k).ne', h k⟩

theorem chain_append {m n : ℕ} {a b c : Fin nf} (h1 : Spec.Chain rows m a b) (h2 : Spec.Chain rows n b c) :
    Spec.Chain rows (m + n) a c := by
  induction m generalizing a with
  | zero => cases h1; rwa [Nat.zero_add]
  | succ m ih =>
    obtain ⟨i, hi, hc⟩ := h1
    rw [show m + 1 + n = m + n + 1 by omega]
    exact ⟨i, hi, ih hc⟩

theorem chain_reflTransGen {n : ℕ} {a b : Fin nf} (h : Spec.Chain rows n a b) :
    Relation.ReflTransGen (fun j k => (j, k) ∈ rows) a b := by
  induction n generalizing a with
  | zero => cases h; exact .refl
  | succ n ih => obtain ⟨i, hi, hc⟩ := h; exact .head hi (ih hc)

theorem exists_chain {a b : Fin nf} (h : Relation.ReflTransGen (fun j k => (j, k) ∈ rows) a b) :
    ∃ n, Spec.Chain rows n a b := by
  induction h using Relation.ReflTransGen.head_induction_on with
  | refl => exact ⟨0, rfl⟩
  | head hi _ ih => obtain ⟨n, hn⟩ := ih; exact ⟨n + 1, _, hi, hn⟩

theorem fit_eq (ho : ∀ k, outflow (flows rows) k ≠ 0) (hi : ∀ k, ∃ j, (j, k) ∈ rows) (thr : ℝ) (N : ℕ) :
    ∃ q ≤ N, fit rows (N + 1) thr = .ok (fun k => Real.log (guess rows (q + 1) k)) ∧
      (q = N ∨ converged thr (guess rows q) (guess rows (q + 1))) ∧
      ∀ p < q, ¬ converged thr (guess rows p) (guess rows (p + 1)) := by
  obtain ⟨q, hq, h1, h2, h3⟩ := loop_guess ho hi thr N 0
  simp only [Nat.zero_add] at h1 h2 h3
  refine ⟨q, hq, ?_, h2, h3⟩
  rw [guess_zero ho] at h1
  simp only [fit]
  rw [if_neg (by push Not; exact ho), h1]
  simp only
  rw [if_neg (by push Not; exact fun k => (guess_pos ho hi _ k).ne')]

/-! ## The theorems -/

/-- C122: when some number of moves leads from every firm to every firm, the values returned come as close as one
likes to the values that balance the flows, for every sufficiently small threshold and every sufficiently large number
of iterations. -/
theorem C122_converges (hn : 2 ≤ nf) (h : Spec.Mixing rows) :
    ∃ v : Fin nf → ℝ, (∀ k, 0 < v k) ∧ ∑ k, v k = 1 ∧ Balanced rows v ∧
      ∀ d > 0, ∃ t > 0, ∃ N₀, ∀ thr ≤ t, ∀ N ≥ N₀,
        ∃ V, fit rows N thr = .ok V ∧ ∀ k, |Real.exp (V k) - v k| ≤ d := by
  have hn0 : 0 < nf := by omega
  obtain ⟨ho, hi⟩ := mixing_in_out hn h
  obtain ⟨u, hu, hfix, hlim⟩ := exists_limit hn0 ho h
  have hb := val_balanced ho hfix
  have hsc : StronglyConnected rows := fun a b => chain_reflTransGen (h.choose_spec a b)
  have hne : rows ≠ [] := by
    obtain ⟨j, hj⟩ := hi ⟨0, hn0⟩
    exact List.ne_nil_of_mem hj
  refine ⟨val rows u, val_pos ho hu, val_sum hn0 ho hu, hb, fun d hd => ?_⟩
  have hg : ∀ k, Tendsto (fun n => guess rows n k) atTop (𝓝 (val rows u k)) := fun k => tendsto_val hn0 ho hu hlim k
  obtain ⟨N₀, hN₀⟩ : ∃ N₀, ∀ n ≥ N₀, ∀ k, |guess rows n k - val rows u k| ≤ d := by
    have : ∀ k, ∃ N, ∀ n ≥ N, |guess rows n k - val rows u k| ≤ d := fun k => by
      obtain ⟨N, hN⟩ := (Metric.tendsto_atTop.1 (hg k)) d hd
      exact ⟨N, fun n hn => (Real.dist_eq _ _ ▸ hN n hn).le⟩
    choose N hN using this
    exact ⟨Finset.univ.sup N, fun n hn k => hN k n ((Finset.le_sup (Finset.mem_univ k)).trans hn)⟩
  -- an early stop with a small threshold is a stop at the limit
  obtain ⟨t, ht0, ht⟩ : ∃ t > 0, ∀ n < N₀, converged t (guess rows n) (guess rows (n + 1)) →
      guess rows (n + 1) = guess rows n := by
    clear hN₀
    induction N₀ with
    | zero => exact ⟨1, one_pos, fun n hn => absurd hn (Nat.not_lt_zero _)⟩
    | succ N ih =>
      obtain ⟨t, ht0, ht⟩ := ih
      by_cases he : guess rows (N + 1) = guess rows N
      · refine ⟨t, ht0, fun n hn hc => ?_⟩
        rcases Nat.lt_succ_iff_lt_or_eq.1 hn with h1 | rfl
        · exact ht n h1 hc
        · exact he
      · obtain ⟨k, hk⟩ : ∃ k, guess rows (N + 1) k ≠ guess rows N k := by
          by_contra hcon
          push Not at hcon
          exact he (funext hcon)
        set x := |(guess rows (N + 1) k - guess rows N k) / guess rows N k| with hx
        have hx0 : 0 < x := abs_pos.2 (div_ne_zero (sub_ne_zero.2 hk) (guess_pos ho hi N k).ne')
        refine ⟨min t (x / 2), lt_min ht0 (by linarith), fun n hn hc => ?_⟩
        rcases Nat.lt_succ_iff_lt_or_eq.1 hn with h1 | rfl
        · exact ht n h1 fun k => ⟨(hc k).1, (hc k).2.trans (min_le_left _ _)⟩
        · have := (hc k).2.trans (min_le_right _ _)
          rw [← hx] at this
          linarith
  refine ⟨t, ht0, N₀ + 1, fun thr hthr N hN => ?_⟩
  obtain ⟨N, rfl⟩ : ∃ M, N = M + 1 := ⟨N - 1, by omega⟩
  obtain ⟨q, hq, h1, h2, -⟩ := fit_eq ho hi thr N
  refine ⟨_, h1, fun k => ?_⟩
  simp only [Real.exp_log (guess_pos ho hi _ _)]
  by_cases hqN : N₀ ≤ q + 1
  · exact hN₀ _ hqN k
  · have hc : converged t (guess rows q) (guess rows (q + 1)) := by
      rcases h2 with h2 | h2
      · omega
      · exact fun k => ⟨(h2 k).1, (h2 k).2.trans hthr⟩
    have he := ht q (by omega) hc
    have hbq : Balanced rows (guess rows q) :=
      balanced_of_fixed hn0 ho (guess_pos ho hi q) hne (by rw [step_guess ho hi, he])
    have := (C30_unique hsc (guess_pos ho hi q) (val_pos ho hu) hbq hb).2
      (val_sum hn0 ho (dist_pos ho hi q)) (val_sum hn0 ho hu)
    rw [he, this, sub_self, abs_zero]
    exact hd.le

/-- C122: with a positive threshold the iteration ends by itself: from some number of iterations on, allowing more
changes nothing, and the values returned balance the flows up to the threshold. -/
theorem C122_stops (hn : 2 ≤ nf) (h : Spec.Mixing rows) {thr : ℝ} (h0 : 0 < thr) (h1 : thr < 1) :
    ∃ N₀ V, (∀ N ≥ N₀, fit rows N thr = .ok V) ∧
      ∃ c > 0, ∀ k, |c * Real.exp (V k) * (leaving rows k : ℝ) - ∑ j, (moves rows j k : ℝ) * Real.exp (V j)|
        ≤ thr / (1 - thr) * ∑ j, (moves rows j k : ℝ) * Real.exp (V j) := by
  have hn0 : 0 < nf := by omega
  obtain ⟨ho, hi⟩ := mixing_in_out hn h
  obtain ⟨u, hu, hfix, hlim⟩ := exists_limit hn0 ho h
  have hne : rows ≠ [] := by
    obtain ⟨j, hj⟩ := hi ⟨0, hn0⟩
    exact List.ne_nil_of_mem hj
  have hg : ∀ k, Tendsto (fun n => guess rows n k) atTop (𝓝 (val rows u k)) := fun k => tendsto_val hn0 ho hu hlim k
  have hex : ∃ q, converged thr (guess rows q) (guess rows (q + 1)) := by
    have hr : ∀ k, ∃ N, ∀ n ≥ N, |(guess rows (n + 1) k - guess rows n k) / guess rows n k| ≤ thr := fun k => by
      have h2 : Tendsto (fun n => (guess rows (n + 1) k - guess rows n k) / guess rows n k) atTop (𝓝 0) := by
        have := (((hg k).comp (tendsto_add_atTop_nat 1)).sub (hg k)).div (hg k) (val_pos ho hu k).ne'
        rw [sub_self, zero_div] at this
        exact this
      obtain ⟨N, hN⟩ := (Metric.tendsto_atTop.1 h2) thr h0
      exact ⟨N, fun n hn => by have := hN n hn; rw [Real.dist_eq, sub_zero] at this; exact this.le⟩
    choose N hN using hr
    exact ⟨Finset.univ.sup N, converged_of_pos (guess_pos ho hi _)
      fun k => hN k _ (Finset.le_sup (Finset.mem_univ k))⟩
  classical
  set q := Nat.find hex with hqdef
  have hq := Nat.find_spec hex
  refine ⟨q + 1, fun k => Real.log (guess rows (q + 1) k), fun N hN => ?_, ?_⟩
  · obtain ⟨N, rfl⟩ : ∃ M, N = M + 1 := ⟨N - 1, by omega⟩
    obtain ⟨p, hp, e1, e2, e3⟩ := fit_eq ho hi thr N
    have : p = q := by
      refine le_antisymm ?_ ?_
      · by_contra hlt
        exact e3 q (by omega) hq
      · rcases e2 with e2 | e2
        · omega
        · exact Nat.find_min' hex e2
    rw [e1, this]
  · have ho' : ∀ k, leaving rows k ≠ 0 := fun k => by rw [← outflow_eq]; exact ho k
    have hq' := hq
    rw [← hqdef, ← step_guess ho hi] at hq'
    obtain ⟨c, hc, hc'⟩ := C30_threshold ho' (guess_pos ho hi q) hne hq'
    refine ⟨c, hc, fun k => ?_⟩
    simp only [Real.exp_log (guess_pos ho hi _ _)]
    rw [step_guess ho hi] at hc'
    refine (hc' k).trans ?_
    rw [div_mul_eq_mul_div, mul_div_assoc]
    refine mul_le_mul_of_nonneg_left ?_ h0.le
    rw [le_div_iff₀ (by linarith), Finset.sum_mul]
    refine Finset.sum_le_sum fun j _ => ?_
    rw [mul_assoc]
    refine mul_le_mul_of_nonneg_left ?_ (Nat.cast_nonneg _)
    have hj := (hq j).2
    rw [← hqdef, abs_div, abs_of_pos (guess_pos ho hi q j), div_le_iff₀ (guess_pos ho hi q j)] at hj
    have := (abs_le.1 hj).1
    nlinarith

/-- C122: connected flows in which some mover's row keeps the firm (as in data that are not collapsed) mix. -/
theorem C122_mixing_of_stay (hc : StronglyConnected rows) {j : Fin nf} (hj : (j, j) ∈ rows) : Spec.Mixing rows := by
  have h1 : ∀ a, ∃ n, Spec.Chain rows n a j := fun a => exists_chain (hc a j)
  have h2 : ∀ b, ∃ n, Spec.Chain rows n j b := fun b => exists_chain (hc j b)
  choose f hf using h1
  choose g hg using h2
  have hloop : ∀ n, Spec.Chain rows n j j := by
    intro n
    induction n with
    | zero => rfl
    | succ n ih => exact ⟨j, hj, ih⟩
  refine ⟨Finset.univ.sup f + Finset.univ.sup g, fun a b => ?_⟩
  have ha : f a ≤ Finset.univ.sup f := Finset.le_sup (Finset.mem_univ a)
  have hb : g b ≤ Finset.univ.sup g := Finset.le_sup (Finset.mem_univ b)
  have := chain_append (chain_append (hf a) (hloop ((Finset.univ.sup f - f a) + (Finset.univ.sup g - g b)))) (hg b)
  rwa [show f a + (Finset.univ.sup f - f a + (Finset.univ.sup g - g b)) + g b
    = Finset.univ.sup f + Finset.univ.sup g by omega] at this

/-- C122: rows that keep the firm do not change the balancing values. -/
theorem C122_stays (v : Fin nf → ℝ) :
    Balanced rows v ↔ Balanced (rows.filter fun r => r.1 ≠ r.2) v := by
  have h1 : ∀ k, leaving rows k = leaving (rows.filter fun r => r.1 ≠ r.2) k + moves rows k k := by
    intro k
    induction rows with
    | nil => simp [leaving, moves]
    | cons r rs ih =>
      unfold leaving moves at ih ⊢
      rcases r with ⟨a, b⟩
      simp only [List.filter_cons, List.count_cons]
      by_cases e2 : a = k
      · subst e2
        by_cases e1 : b = a
        · subst e1; simp_all; omega
        · have e1' : ¬ a = b := fun h => e1 h.symm
          simp_all; omega
      · have e3 : ((a, b) == (k, k)) = false := by simp [e2]
        by_cases e1 : a = b <;> simp_all
  have h2 : ∀ j k, moves (rows.filter fun r => r.1 ≠ r.2) j k = if j = k then 0 else moves rows j k := by
    intro j k
    unfold moves
    split
    · rename_i e; subst e
      exact List.count_eq_zero.2 (by simp)
    · rename_i e
      exact List.count_filter (by simpa using e)
  unfold Balanced
  refine forall_congr' fun k => ?_
  rw [h1 k]
  simp only [h2]
  rw [← Finset.add_sum_erase Finset.univ (fun j => (moves rows j k : ℝ) * v j) (Finset.mem_univ k),
    ← Finset.add_sum_erase Finset.univ (fun j => ((if j = k then 0 else moves rows j k : ℕ) : ℝ) * v j) (Finset.mem_univ k)]
  have h3 : ∑ j ∈ Finset.univ.erase k, ((if j = k then 0 else moves rows j k : ℕ) : ℝ) * v j
      = ∑ j ∈ Finset.univ.erase k, (moves rows j k : ℝ) * v j :=
    Finset.sum_congr rfl fun j hj => by rw [if_neg (Finset.ne_of_mem_erase hj)]
  rw [h3]
  push_cast
  simp only [if_true, zero_mul, zero_add]
  constructor <;> intro h <;> linarith

end

/-! ## Names, order and copies -/

theorem moves_map (σ : Equiv.Perm (Fin nf)) (rows : List (Fin nf × Fin nf)) (j k : Fin nf) :
    moves (rows.map fun r => (σ r.1, σ r.2)) (σ j) (σ k) = moves rows j k := by
  unfold moves
  exact List.count_map_of_injective rows (fun r : Fin nf × Fin nf => (σ r.1, σ r.2))
    (fun a b h => by
      have h1 := σ.injective (congrArg Prod.fst h)
      have h2 := σ.injective (congrArg Prod.snd h)
      exact Prod.ext h1 h2) (j, k)

theorem step_scale {M M' : Fin nf → Fin nf → ℕ} {c : ℕ} (hc : c ≠ 0) (hM : ∀ k j, M' k j = c * M k j) : lhs M' = lhs M := by
  have hc' : (c : ℝ) ≠ 0 := by exact_mod_cast hc
  funext k j
  unfold lhs outflow
  simp only [hM, ← Finset.mul_sum]
  push_cast
  rw [one_div, one_div, mul_inv, mul_mul_mul_comm, inv_mul_cancel₀ hc', one_mul]

/-- The fit depends on the matrix only through the ratios of flows. -/
theorem fit_scale {rows rows' : List (Fin nf × Fin nf)} {c : ℕ} (hc : c ≠ 0)
    (hM : ∀ k j, moves rows' j k = c * moves rows j k) (N : ℕ) (thr : ℝ) : fit rows' N thr = fit rows N thr := by
  have hM' : ∀ k j, flows rows' k j = c * flows rows k j := fun k j => by rw [flows_eq, flows_eq, hM]
  have hl : lhs (flows rows') = lhs (flows rows) := step_scale hc hM'
  have hs : step (flows rows') = step (flows rows) := by funext p k; unfold step; rw [hl]
  have hloop : ∀ n p, loop (flows rows') thr n p = loop (flows rows) thr n p := by
    intro n
    induction n with
    | zero => intro p; rfl
    | succ n ih =>
      intro p
      match n with
      | 0 => simp only [loop, hs]
      | n + 1 => rw [loop, loop, hs, ih]
  have ho : (∃ k, outflow (flows rows') k = 0) ↔ ∃ k, outflow (flows rows) k = 0 := by
    refine exists_congr fun k => ?_
    unfold outflow
    simp only [hM', ← Finset.mul_sum]
    simp [hc]
  simp only [fit, hloop]
  by_cases h : ∃ k, outflow (flows rows) k = 0
  · rw [if_pos h, if_pos (ho.2 h)]
  · rw [if_neg h, if_neg (mt ho.1 h)]

/-- C122: the order of the rows does not matter. -/
theorem C122_order {rows rows' : List (Fin nf × Fin nf)} (h : rows.Perm rows') (N : ℕ) (thr : ℝ) :
    fit rows' N thr = fit rows N thr :=
  fit_scale one_ne_zero (fun k j => by rw [one_mul]; exact (h.count_eq _).symm) N thr

/-- C122: observing every move `c` times gives the same values as observing it once. -/
theorem C122_copies {rows : List (Fin nf × Fin nf)} {c : ℕ} (hc : c ≠ 0) (N : ℕ) (thr : ℝ) :
    fit (List.replicate c rows).flatten N thr = fit rows N thr :=
  fit_scale hc (fun k j => by unfold moves; rw [List.count_flatten]; simp) N thr

/-- C122: renaming the firms renames the values. -/
theorem C122_names (σ : Equiv.Perm (Fin nf)) {rows : List (Fin nf × Fin nf)} {N : ℕ} {thr : ℝ} {V : Fin nf → ℝ}
    (h : fit rows N thr = .ok V) :
    ∃ V', fit (rows.map fun r => (σ r.1, σ r.2)) N thr = .ok V' ∧ ∀ k, V' (σ k) = V k := by
  set rows' := rows.map fun r => (σ r.1, σ r.2) with hrows
  have hM : ∀ k j, flows rows' (σ k) (σ j) = flows rows k j := fun k j => by rw [flows_eq, flows_eq, hrows, moves_map]
  have hout : ∀ k, outflow (flows rows') (σ k) = outflow (flows rows) k := fun k => by
    unfold outflow
    rw [← Equiv.sum_comp σ]
    simp only [hM]
  have hl : ∀ k j, lhs (flows rows') (σ k) (σ j) = lhs (flows rows) k j := fun k j => by
    unfold lhs; rw [hout, hM]
  have hs : ∀ p p' : Fin nf → ℝ, (∀ k, p' (σ k) = p k) → ∀ k, step (flows rows') p' (σ k) = step (flows rows) p k := by
    intro p p' hp k
    have e : ∀ k, ∑ j, lhs (flows rows') (σ k) j * p' j = ∑ j, lhs (flows rows) k j * p j := fun k => by
      rw [← Equiv.sum_comp σ]; simp only [hl, hp]
    unfold step
    rw [← Equiv.sum_comp σ (fun k' => |∑ j, lhs (flows rows') k' j * p' j|)]
    simp only [e]
  have hcv : ∀ p p' q q' : Fin nf → ℝ, (∀ k, p' (σ k) = p k) → (∀ k, q' (σ k) = q k) →
      (converged thr p' q' ↔ converged thr p q) := by
    intro p p' q q' hp hq
    unfold converged
    rw [← σ.forall_congr_right]
    simp only [hp, hq]
  have hloop : ∀ n p p', (∀ k, p' (σ k) = p k) → ∀ a b, loop (flows rows) thr n p = some (a, b) →
      ∃ a' b', loop (flows rows') thr n p' = some (a', b') ∧ ∀ k, b' (σ k) = b k := by
    intro n
    induction n with
    | zero => intro p p' _ a b hab; cases hab
    | succ n ih =>
      intro p p' hp a b hab
      match n with
      | 0 => cases hab; exact ⟨_, _, rfl, hs p p' hp⟩
      | n + 1 =>
        rw [loop] at hab ⊢
        by_cases hc : converged thr p (step (flows rows) p)
        · rw [if_pos hc] at hab
          cases hab
          exact ⟨_, _, by rw [if_pos ((hcv _ _ _ _ hp (hs p p' hp)).2 hc)], hs p p' hp⟩
        · rw [if_neg hc] at hab
          obtain ⟨a', b', h1, h2⟩ := ih _ _ (hs p p' hp) a b hab
          exact ⟨a', b', by rw [if_neg (mt (hcv _ _ _ _ hp (hs p p' hp)).1 hc)]; exact h1, h2⟩
  obtain ⟨ho, prev, new, h1, -, -, h2, rfl⟩ := fit_spec h
  obtain ⟨a', b', h3, h4⟩ := hloop N (start nf) (start nf) (fun _ => rfl) prev new h1
  refine ⟨fun k => Real.log (b' k), ?_, fun k => by simp only [h4]⟩
  simp only [fit]
  rw [if_neg, h3]
  · simp only
    rw [if_neg]
    rintro ⟨k, hk⟩
    obtain ⟨k, rfl⟩ := σ.surjective k
    rw [h4] at hk
    exact (h2 k).ne' hk
  · rintro ⟨k, hk⟩
    obtain ⟨k, rfl⟩ := σ.surjective k
    rw [hout, outflow_eq] at hk
    exact ho k hk

/-! ## A case -/

/-- The data of `C30_not_convergent` with one more row of a mover who stays at firm 0. -/
def stayRows : List (Fin 2 × Fin 2) := (0, 0) :: exRows

theorem stayRows_mixing : Spec.Mixing stayRows := by
  refine C122_mixing_of_stay (fun a b => ?_) (j := 0) (by simp [stayRows])
  have h01 : Relation.ReflTransGen (fun j k => (j, k) ∈ stayRows) 0 1 := .single (by simp [stayRows, exRows])
  have h10 : Relation.ReflTransGen (fun j k => (j, k) ∈ stayRows) 1 0 := .single (by simp [stayRows, exRows])
  fin_cases a <;> fin_cases b <;> first | exact .refl | exact h01 | exact h10

/-- With that row the iteration, which without it never settles, ends near the values 1/3 and 2/3. -/
theorem C122_case : ∀ d > 0, ∃ t > 0, ∃ N₀, ∀ thr ≤ t, ∀ N ≥ N₀,
    ∃ V, fit stayRows N thr = .ok V ∧ |Real.exp (V 0) - 1 / 3| ≤ d ∧ |Real.exp (V 1) - 2 / 3| ≤ d := by
  obtain ⟨v, hv, hs, hb, h⟩ := C122_converges le_rfl stayRows_mixing
  have hb' : Balanced stayRows ![1 / 3, 2 / 3] := by
    rw [C122_stays]
    have : (stayRows.filter fun r => r.1 ≠ r.2) = exRows := by decide
    rw [this]
    exact (C30_not_convergent (thr := 0) (by norm_num) (N := 1) one_ne_zero).2.1
  have hsc : StronglyConnected stayRows := fun a b => chain_reflTransGen (stayRows_mixing.choose_spec a b)
  have he := (C30_unique hsc hv (v := ![1 / 3, 2 / 3]) (fun k => by fin_cases k <;> norm_num) hb hb').2 hs
    (by rw [Fin.sum_univ_two]; norm_num)
  intro d hd
  obtain ⟨t, ht, N₀, h1⟩ := h d hd
  refine ⟨t, ht, N₀, fun thr hthr N hN => ?_⟩
  obtain ⟨V, hV, hk⟩ := h1 thr hthr N hN
  refine ⟨V, hV, ?_, ?_⟩
  · simpa [he] using hk 0
  · simpa [he] using hk 1

/-- Renaming and copying the case. -/
example : ∃ V V', fit stayRows 1 0 = .ok V ∧
    fit (stayRows.map fun r => (Equiv.swap 0 1 r.1, Equiv.swap 0 1 r.2)) 1 0 = .ok V' ∧ V' 1 = V 0 ∧
    fit (List.replicate 3 stayRows).flatten 1 0 = .ok V := by
  obtain ⟨ho, hi⟩ := mixing_in_out le_rfl stayRows_mixing
  obtain ⟨q, -, h, -⟩ := fit_eq ho hi 0 0
  obtain ⟨V', h1, h2⟩ := C122_names (Equiv.swap 0 1) h
  exact ⟨_, V', h, h1, by simpa using h2 0, (C122_copies (by norm_num) 1 0).trans h⟩

end Pytwoway.Sorkin
