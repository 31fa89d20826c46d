import Verif.BLM.Lemmas

/-! # Properties of the E-step and of the type-proportion updates (C31, C32) -/

namespace Pytwoway.BLM

open Finset ProbabilityTheory

variable {ni nl nk : ℕ}

/-! ## C31 -/

theorem exp_lpMovers (d : Data ni nk) (b : Base nl nk) (cs : List (Ctrl ni nl))
    (pk1 : ℕ → Fin nl → ℝ) (i : Fin ni) (l : Fin nl)
    (hS : ∀ t, 0 < b.S t l (d.G t i)) (hpk : 0 < pk1 (KK d i) l) :
    Real.exp (lpMovers d b cs pk1 i l) = pk1 (KK d i) l *
      Spec.wageDensity d b cs 0 i l ^ d.W 0 i * Spec.wageDensity d b cs 1 i l ^ d.W 1 i := by
  unfold lpMovers
  rw [Real.exp_add, Real.exp_add, Real.exp_log hpk, lpWage_eq _ _ _ _ _ _ (hS 0),
    lpWage_eq _ _ _ _ _ _ (hS 1), Real.rpow_def_of_pos (wageDensity_pos _ _ _ _ _ _ (hS 0)),
    Real.rpow_def_of_pos (wageDensity_pos _ _ _ _ _ _ (hS 1)), mul_comm (Real.log _) (d.W 0 i),
    mul_comm (Real.log _) (d.W 1 i)]

theorem exp_lpStayers (d : Data ni nk) (b : Base nl nk) (cs : List (Ctrl ni nl))
    (pk0 : Fin nk → Fin nl → ℝ) (i : Fin ni) (l : Fin nl)
    (hS : 0 < b.S 0 l (d.G 0 i)) (hpk : 0 < pk0 (d.G 0 i) l) :
    Real.exp (lpStayers d b cs (fun k => some (pk0 k)) i l) = pk0 (d.G 0 i) l *
      Spec.wageDensity d b cs 0 i l ^ d.W 0 i := by
  unfold lpStayers
  rw [Real.exp_add, Option.getD_some, Real.exp_log hpk, lpWage_eq _ _ _ _ _ _ hS,
    Real.rpow_def_of_pos (wageDensity_pos _ _ _ _ _ _ hS), mul_comm (Real.log _) (d.W 0 i), mul_comm]

/-- C31 for movers, with any controls and weights (a weight acts as a power of the density): the
posterior row is a probability vector and is given by Bayes' rule. -/
theorem C31_movers [NeZero nl] (d : Data ni nk) (b : Base nl nk) (cs : List (Ctrl ni nl))
    (pk1 : ℕ → Fin nl → ℝ) (i : Fin ni)
    (hS : ∀ t l, 0 < b.S t l (d.G t i))
    (hpk : ∀ l, 0 < pk1 ((d.G 0 i).val + nk * (d.G 1 i).val) l) :
    (∀ l, 0 ≤ posterior (lpMovers d b cs pk1) i l) ∧
    ∑ l, posterior (lpMovers d b cs pk1) i l = 1 ∧
    ∀ l, posterior (lpMovers d b cs pk1) i l =
      (pk1 ((d.G 0 i).val + nk * (d.G 1 i).val) l * Spec.wageDensity d b cs 0 i l ^ d.W 0 i *
        Spec.wageDensity d b cs 1 i l ^ d.W 1 i) /
      ∑ l', pk1 ((d.G 0 i).val + nk * (d.G 1 i).val) l' *
        Spec.wageDensity d b cs 0 i l' ^ d.W 0 i * Spec.wageDensity d b cs 1 i l' ^ d.W 1 i := by
  refine ⟨fun l => (posterior_pos _ i l).le, posterior_sum _ i, fun l => ?_⟩
  rw [posterior_eq, exp_lpMovers d b cs pk1 i l (fun t => hS t l) (hpk l)]
  congr 1
  exact sum_congr rfl fun l' _ => exp_lpMovers d b cs pk1 i l' (fun t => hS t l') (hpk l')

/-- C31 for movers without weights: prior times the densities of both wages over the total. -/
theorem C31_movers_unweighted [NeZero nl] (d : Data ni nk) (b : Base nl nk) (cs : List (Ctrl ni nl))
    (pk1 : ℕ → Fin nl → ℝ) (i : Fin ni) (hW : ∀ t, d.W t i = 1)
    (hS : ∀ t l, 0 < b.S t l (d.G t i))
    (hpk : ∀ l, 0 < pk1 ((d.G 0 i).val + nk * (d.G 1 i).val) l) (l : Fin nl) :
    posterior (lpMovers d b cs pk1) i l =
      (pk1 ((d.G 0 i).val + nk * (d.G 1 i).val) l * Spec.wageDensity d b cs 0 i l *
        Spec.wageDensity d b cs 1 i l) /
      ∑ l', pk1 ((d.G 0 i).val + nk * (d.G 1 i).val) l' *
        Spec.wageDensity d b cs 0 i l' * Spec.wageDensity d b cs 1 i l' := by
  rw [(C31_movers d b cs pk1 i hS hpk).2.2 l]
  simp only [hW, Real.rpow_one]

/-- C31 for stayers: only the first wage enters (both wages of a stayer carry the same firm type; the
source comments the second one out). -/
theorem C31_stayers [NeZero nl] (d : Data ni nk) (b : Base nl nk) (cs : List (Ctrl ni nl))
    (pk0 : Fin nk → Fin nl → ℝ) (i : Fin ni)
    (hS : ∀ l, 0 < b.S 0 l (d.G 0 i)) (hpk : ∀ l, 0 < pk0 (d.G 0 i) l) :
    (∀ l, 0 ≤ posterior (lpStayers d b cs fun k => some (pk0 k)) i l) ∧
    ∑ l, posterior (lpStayers d b cs fun k => some (pk0 k)) i l = 1 ∧
    ∀ l, posterior (lpStayers d b cs fun k => some (pk0 k)) i l =
      (pk0 (d.G 0 i) l * Spec.wageDensity d b cs 0 i l ^ d.W 0 i) /
      ∑ l', pk0 (d.G 0 i) l' * Spec.wageDensity d b cs 0 i l' ^ d.W 0 i := by
  refine ⟨fun l => (posterior_pos _ i l).le, posterior_sum _ i, fun l => ?_⟩
  rw [posterior_eq, exp_lpStayers d b cs pk0 i l (hS l) (hpk l)]
  congr 1
  exact sum_congr rfl fun l' _ => exp_lpStayers d b cs pk0 i l' (hS l') (hpk l')

/-- A small data set: two movers, two firm types, both directions, and controls of every kind. -/
noncomputable def exData : Data 2 2 where
  Y t i := t.val + i.val
  G t i := if t.val = i.val then 0 else 1
  W _ _ := 1

noncomputable def exBase : Base 2 2 where
  A _ l k := l.val + k.val
  S _ _ _ := 1

noncomputable def exCtrls : List (Ctrl 2 2) :=
  [.catW (fun t i => t.val + i.val) (fun _ l c => l.val + c) (fun _ _ _ => 1),
   .catN (fun _ i => i.val) (fun _ c => c) (fun _ _ => 1),
   .ctsW (fun _ i => i.val) (fun _ l => l.val) (fun _ _ => 0),
   .ctsN (fun t _ => t.val) (fun _ => 1) (fun _ => 2)]

/-- Non-vacuity of C31: the hypotheses hold for a concrete model with four controls. -/
example : (∀ t l i, 0 < exBase.S t l (exData.G t i)) ∧
    (∀ (p : ℕ) (l : Fin 2), 0 < (fun _ _ => 1 / 2 : ℕ → Fin 2 → ℝ) p l) ∧
    (∀ t i, exData.W t i = 1) ∧ exCtrls.length = 4 := by
  refine ⟨fun _ _ _ => by simp [exBase], fun _ _ => by norm_num, fun _ _ => rfl, rfl⟩

/-! ## C32 -/

theorem KK_lt (d : Data ni nk) (i : Fin ni) : KK d i < nk ^ 2 := by
  unfold KK
  have h0 := (d.G 0 i).isLt
  have h1 := (d.G 1 i).isLt
  nlinarith

theorem KK_eq_iff (d : Data ni nk) (i : Fin ni) (k1 k2 : Fin nk) :
    KK d i = k1.val + nk * k2.val ↔ d.G 0 i = k1 ∧ d.G 1 i = k2 := by
  unfold KK
  have h0 := (d.G 0 i).isLt
  have hk := k1.isLt
  constructor
  · intro h
    have hm := congrArg (· % nk) h
    simp only [Nat.add_mul_mod_self_left, Nat.mod_eq_of_lt h0, Nat.mod_eq_of_lt hk] at hm
    have h2 : nk * (d.G 1 i).val = nk * k2.val := by omega
    exact ⟨Fin.ext hm, Fin.ext (Nat.eq_of_mul_eq_mul_left (by omega) h2)⟩
  · rintro ⟨h1, h2⟩; rw [h1, h2]

/-- Two-digit positions are read back correctly. -/
theorem digits_eq {n : ℕ} {a b x y : ℕ} (ha : a < n) (hb : b < n) :
    a + n * x = y * n + b ↔ a = b ∧ x = y := by
  constructor
  · intro h
    have hm := congrArg (· % n) h
    rw [show y * n + b = b + n * y by ring] at hm
    simp only [Nat.add_mul_mod_self_left, Nat.mod_eq_of_lt ha, Nat.mod_eq_of_lt hb] at hm
    have h2 : n * x = n * y := by rw [hm] at h; nlinarith
    exact ⟨hm, Nat.eq_of_mul_eq_mul_left (by omega) h2⟩
  · rintro ⟨rfl, rfl⟩; ring

theorem bincount_two {n : ℕ} (idx : Fin ni → ℕ) (hidx : ∀ i, idx i < n)
    (w : Fin ni × Fin nl → ℝ) (l : Fin nl) (p : ℕ) (hp : p < n) :
    (bincount (fun x : Fin ni × Fin nl => idx x.1 + n * x.2.val) w).val (l.val * n + p) =
      ∑ i, if idx i = p then w (i, l) else 0 := by
  unfold bincount
  simp only
  rw [Fintype.sum_prod_type]
  refine sum_congr rfl fun i _ => ?_
  simp only [digits_eq (hidx i) hp]
  by_cases h : idx i = p
  · simp [h, ← Fin.ext_iff]
  · simp [h]

theorem bincount_two_len {n : ℕ} [NeZero nl] (idx : Fin ni → ℕ) (hidx : ∀ i, idx i < n)
    (w : Fin ni × Fin nl → ℝ) (hn : 0 < n) :
    (bincount (fun x : Fin ni × Fin nl => idx x.1 + n * x.2.val) w).len = nl * n ↔
      ∃ i, idx i = n - 1 := by
  have hl : 0 < nl := Nat.pos_of_neZero nl
  have hlt : ∀ x : Fin ni × Fin nl, idx x.1 + n * x.2.val < nl * n := by
    intro x
    have h1 := hidx x.1
    have h2 : n * (x.2.val + 1) ≤ n * nl := Nat.mul_le_mul_left n x.2.isLt
    nlinarith
  rw [bincount_len_eq _ _ _ (Nat.mul_pos hl hn) hlt]
  constructor
  · rintro ⟨⟨i, l⟩, h⟩
    refine ⟨i, ?_⟩
    have h1 := hidx i
    have h2 : n * (l.val + 1) ≤ n * nl := Nat.mul_le_mul_left n l.isLt
    have h3 : idx i + n * l.val = nl * n - 1 := h
    have h4 : n * (l.val + 1) = n * l.val + n := by ring
    have h5 : nl * n = n * nl := Nat.mul_comm _ _
    omega
  · rintro ⟨i, h⟩
    refine ⟨(i, ⟨nl - 1, by omega⟩), ?_⟩
    simp only [h]
    obtain ⟨m, rfl⟩ : ∃ m, nl = m + 1 := ⟨nl - 1, by omega⟩
    simp only [Nat.add_sub_cancel]
    have : (m + 1) * n = n * m + n := by ring
    omega

/-- Every ordered pair of firm types occurs among the movers. -/
def AllPairs (d : Data ni nk) : Prop := ∀ k1 k2, ∃ i, d.G 0 i = k1 ∧ d.G 1 i = k2

/-- A flattened position is the pair of its digits. -/
theorem pair_of_lt {p : ℕ} (h : p < nk ^ 2) : ∃ k1 k2 : Fin nk, p = k1.val + nk * k2.val := by
  have hk : 0 < nk := by
    rcases Nat.eq_zero_or_pos nk with h0 | h0
    · subst h0; simp at h
    · exact h0
  refine ⟨⟨p % nk, Nat.mod_lt _ hk⟩, ⟨p / nk, Nat.div_lt_of_lt_mul (by rwa [← sq])⟩, ?_⟩
  exact (Nat.mod_add_div p nk).symm

theorem sumPk1_ok [NeZero nl] (d : Data ni nk) (q : Fin ni → Fin nl → ℝ) (dprior : ℝ)
    (e : ℕ → Fin nl → ℝ) (h : sumPk1 d q dprior = .ok e) (k1 k2 : Fin nk) (l : Fin nl) :
    e (k1.val + nk * k2.val) l = ∑ i with d.G 0 i = k1 ∧ d.G 1 i = k2,
      jointW d i * (q i l + dprior - 1) := by
  unfold sumPk1 at h
  simp only at h
  split at h
  · cases h
    have hp : k1.val + nk * k2.val < nk ^ 2 := by
      have h0 := k1.isLt; have h1 := k2.isLt; nlinarith
    simp only
    rw [bincount_two (KK d) (KK_lt d) _ l _ hp, sum_filter]
    simp only [KK_eq_iff]
  · exact absurd h (by simp)

theorem rowsum_eq (d : Data ni nk) (q : Fin ni → Fin nl → ℝ) (dprior : ℝ)
    (hq1 : ∀ i, ∑ l, q i l = 1) (k1 k2 : Fin nk) :
    ∑ l, ∑ i with d.G 0 i = k1 ∧ d.G 1 i = k2, jointW d i * (q i l + dprior - 1) =
      (1 + nl * (dprior - 1)) * ∑ i with d.G 0 i = k1 ∧ d.G 1 i = k2, jointW d i := by
  rw [sum_comm, mul_sum]
  refine sum_congr rfl fun i _ => ?_
  rw [← mul_sum]
  have : ∑ l, (q i l + dprior - 1) = 1 + nl * (dprior - 1) := by
    simp only [add_sub_assoc, sum_add_distrib, hq1, sum_const, card_univ, Fintype.card_fin,
      nsmul_eq_mul]
  rw [this]; ring

theorem jointW_pos (d : Data ni nk) (hW : ∀ t i, 0 < d.W t i) (i : Fin ni) : 0 < jointW d i :=
  Real.sqrt_pos.mpr (mul_pos (hW 0 i) (hW 1 i))

/-- C32 for movers: if every pair of firm types is observed, the update succeeds and, for each pair,
the new proportions are the (weighted) averages over that pair's movers of posterior plus prior,
normalised: they are nonnegative and sum to one. -/
theorem C32_movers [NeZero nl] (d : Data ni nk) (q : Fin ni → Fin nl → ℝ) (dprior : ℝ)
    (hW : ∀ t i, 0 < d.W t i) (hd : 1 ≤ dprior) (hq : ∀ i l, 0 ≤ q i l)
    (hq1 : ∀ i, ∑ l, q i l = 1) (hnk : 0 < nk) (hall : AllPairs d) :
    ∃ pk, updatePk1 d q dprior = .ok pk ∧ ∀ k1 k2 : Fin nk,
      (∀ l, pk (k1.val + nk * k2.val) l =
        (∑ i with d.G 0 i = k1 ∧ d.G 1 i = k2, √(d.W 0 i * d.W 1 i) * (q i l + (dprior - 1))) /
        ((∑ i with d.G 0 i = k1 ∧ d.G 1 i = k2, √(d.W 0 i * d.W 1 i)) * (1 + nl * (dprior - 1)))) ∧
      (∀ l, 0 ≤ pk (k1.val + nk * k2.val) l) ∧ ∑ l, pk (k1.val + nk * k2.val) l = 1 := by
  have hlen : ∃ e, sumPk1 d q dprior = .ok e := by
    unfold sumPk1
    simp only
    rw [if_pos]
    · exact ⟨_, rfl⟩
    · rw [bincount_two_len (KK d) (KK_lt d) _ (by positivity)]
      obtain ⟨i, hi⟩ := hall ⟨nk - 1, by omega⟩ ⟨nk - 1, by omega⟩
      refine ⟨i, ?_⟩
      rw [(KK_eq_iff d i _ _).mpr hi]
      obtain ⟨m, rfl⟩ : ∃ m, nk = m + 1 := ⟨nk - 1, by omega⟩
      simp only [Nat.add_sub_cancel]
      have : (m + 1) ^ 2 = (m + 1) * m + m + 1 := by ring
      omega
  obtain ⟨e, he⟩ := hlen
  have hev := sumPk1_ok d q dprior e he
  have hWp : ∀ k1 k2 : Fin nk, 0 < ∑ i with d.G 0 i = k1 ∧ d.G 1 i = k2, jointW d i := by
    intro k1 k2
    obtain ⟨i, hi⟩ := hall k1 k2
    exact sum_pos (fun i _ => jointW_pos d hW i) ⟨i, by simp [hi]⟩
  have hpr : (0 : ℝ) < 1 + nl * (dprior - 1) := by
    have : (0 : ℝ) ≤ nl * (dprior - 1) := mul_nonneg (Nat.cast_nonneg _) (by linarith)
    linarith
  have hrow : ∀ k1 k2 : Fin nk, ∑ l, e (k1.val + nk * k2.val) l =
      (1 + nl * (dprior - 1)) * ∑ i with d.G 0 i = k1 ∧ d.G 1 i = k2, jointW d i := by
    intro k1 k2
    rw [← rowsum_eq d q dprior hq1 k1 k2]
    exact sum_congr rfl fun l _ => hev k1 k2 l
  refine ⟨fun p l => 1 / (∑ l', e p l') * e p l, ?_, ?_⟩
  · unfold updatePk1
    rw [he]
    simp only [bind, Except.bind]
    rw [if_neg]
    rintro ⟨p, hp, h0⟩
    obtain ⟨k1, k2, rfl⟩ := pair_of_lt hp
    rw [hrow] at h0
    exact (mul_pos hpr (hWp k1 k2)).ne' h0
  · intro k1 k2
    have hr := mul_pos hpr (hWp k1 k2)
    refine ⟨fun l => ?_, fun l => ?_, ?_⟩
    · simp only
      rw [hrow, hev, one_div, inv_mul_eq_div, mul_comm (1 + (nl : ℝ) * (dprior - 1))]
      simp only [add_sub_assoc]; rfl
    · simp only
      rw [hrow, hev]
      apply mul_nonneg (by positivity)
      refine sum_nonneg fun i _ => mul_nonneg (jointW_pos d hW i).le ?_
      have := hq i l; linarith
    · simp only
      rw [← mul_sum, one_div, inv_mul_cancel₀]
      rw [hrow]; exact hr.ne'

/-- C32, the other half: if some pair of firm types has no mover, the update raises `ValueError`. -/
theorem C32_movers_raises [NeZero nl] (d : Data ni nk) (q : Fin ni → Fin nl → ℝ) (dprior : ℝ)
    (hnot : ¬ AllPairs d) : updatePk1 d q dprior = .error "ValueError" := by
  unfold updatePk1
  cases he : sumPk1 d q dprior with
  | error m =>
    unfold sumPk1 at he
    simp only at he
    split at he
    · exact absurd he (by simp)
    · cases he; rfl
  | ok e =>
    simp only [bind, Except.bind]
    rw [if_pos]
    unfold AllPairs at hnot
    push Not at hnot
    obtain ⟨k1, k2, h⟩ := hnot
    refine ⟨k1.val + nk * k2.val, ?_, ?_⟩
    · have h0 := k1.isLt; have h1 := k2.isLt; nlinarith
    · refine sum_eq_zero fun l _ => ?_
      rw [sumPk1_ok d q dprior e he]
      apply sum_eq_zero
      intro i hi
      rw [mem_filter] at hi
      exact absurd hi.2.2 (h i hi.2.1)

/-- Non-vacuity of C32: four movers covering the four pairs of two firm types. -/
example : AllPairs (⟨fun _ _ => 0, fun t i => if t = 0 then ⟨i.val % 2, by omega⟩ else
    ⟨i.val / 2, by omega⟩, fun _ _ => 1⟩ : Data 4 2) := by
  intro k1 k2
  refine ⟨⟨k1.val + 2 * k2.val, by omega⟩, Fin.ext ?_, Fin.ext ?_⟩
  · simp; omega
  · simp; omega

/-- Non-vacuity of the error case: both movers of `exData` change firm type, so no pair `(0, 0)`. -/
example : ¬ AllPairs exData := by
  intro h
  obtain ⟨i, h0, h1⟩ := h 0 0
  fin_cases i <;> simp [exData] at h0 h1

theorem sumPk0_ok (d : Data ni nk) (q : Fin ni → Fin nl → ℝ) (dprior : ℝ)
    (e : Fin nk → Fin nl → ℝ) (h : sumPk0 d q dprior = .ok e) (k : Fin nk) (l : Fin nl) :
    e k l = ∑ i with d.G 0 i = k, d.W 0 i * (q i l + dprior - 1) := by
  unfold sumPk0 at h
  simp only at h
  split at h
  · cases h
    simp only
    rw [bincount_two (fun i => (d.G 0 i).val) (fun i => (d.G 0 i).isLt) _ l _ k.isLt, sum_filter]
    simp only [← Fin.ext_iff]
  · exact absurd h (by simp)

theorem sumPk0_isOk [NeZero nl] (d : Data ni nk) (q : Fin ni → Fin nl → ℝ) (dprior : ℝ)
    (hnk : 0 < nk) : (∃ e, sumPk0 d q dprior = .ok e) ↔ ∃ i, (d.G 0 i).val = nk - 1 := by
  rw [← bincount_two_len (nl := nl) (n := nk) (fun i => (d.G 0 i).val) (fun i => (d.G 0 i).isLt)
    (fun x => d.W 0 x.1 * (q x.1 x.2 + dprior - 1)) hnk]
  unfold sumPk0
  simp only
  constructor
  · rintro ⟨e, he⟩
    by_contra hne
    rw [if_neg hne] at he
    exact absurd he (by simp)
  · intro h
    rw [if_pos h]
    exact ⟨_, rfl⟩

theorem rowsum0_eq (d : Data ni nk) (q : Fin ni → Fin nl → ℝ) (dprior : ℝ)
    (hq1 : ∀ i, ∑ l, q i l = 1) (k : Fin nk) :
    ∑ l, ∑ i with d.G 0 i = k, d.W 0 i * (q i l + dprior - 1) =
      (1 + nl * (dprior - 1)) * ∑ i with d.G 0 i = k, d.W 0 i := by
  rw [sum_comm, mul_sum]
  refine sum_congr rfl fun i _ => ?_
  rw [← mul_sum]
  have : ∑ l, (q i l + dprior - 1) = 1 + nl * (dprior - 1) := by
    simp only [add_sub_assoc, sum_add_distrib, hq1, sum_const, card_univ, Fintype.card_fin,
      nsmul_eq_mul]
  rw [this]; ring

/-- C32 for stayers: the update returns for every *observed* firm type the normalised average, a
probability vector. -/
theorem C32_stayers [NeZero nl] (d : Data ni nk) (q : Fin ni → Fin nl → ℝ) (dprior : ℝ)
    (hW : ∀ i, 0 < d.W 0 i) (hd : 1 ≤ dprior) (hq : ∀ i l, 0 ≤ q i l)
    (hq1 : ∀ i, ∑ l, q i l = 1) (pk : Fin nk → Option (Fin nl → ℝ))
    (h : updatePk0 d q dprior = .ok pk) (k : Fin nk) (hk : ∃ i, d.G 0 i = k) :
    ∃ row, pk k = some row ∧
      (∀ l, row l = (∑ i with d.G 0 i = k, d.W 0 i * (q i l + (dprior - 1))) /
        ((∑ i with d.G 0 i = k, d.W 0 i) * (1 + nl * (dprior - 1)))) ∧
      (∀ l, 0 ≤ row l) ∧ ∑ l, row l = 1 := by
  unfold updatePk0 at h
  cases he : sumPk0 d q dprior with
  | error m => rw [he] at h; simp [bind, Except.bind] at h
  | ok e =>
    rw [he] at h
    simp only [bind, Except.bind, Except.ok.injEq] at h
    have hev := sumPk0_ok d q dprior e he
    have hWp : 0 < ∑ i with d.G 0 i = k, d.W 0 i := by
      obtain ⟨i, hi⟩ := hk
      exact sum_pos (fun i _ => hW i) ⟨i, by simp [hi]⟩
    have hpr : (0 : ℝ) < 1 + nl * (dprior - 1) := by
      have : (0 : ℝ) ≤ nl * (dprior - 1) := mul_nonneg (Nat.cast_nonneg _) (by linarith)
      linarith
    have hrow : ∑ l, e k l = (1 + nl * (dprior - 1)) * ∑ i with d.G 0 i = k, d.W 0 i := by
      rw [← rowsum0_eq d q dprior hq1 k]
      exact sum_congr rfl fun l _ => hev k l
    have hr := mul_pos hpr hWp
    have hne : ¬ ∑ l, e k l = 0 := by rw [hrow]; exact hr.ne'
    refine ⟨fun l => 1 / (∑ l', e k l') * e k l, ?_, fun l => ?_, fun l => ?_, ?_⟩
    · rw [← h]; simp only; rw [if_neg hne]
    · simp only
      rw [hrow, hev, one_div, inv_mul_eq_div, mul_comm (1 + (nl : ℝ) * (dprior - 1))]
      simp only [add_sub_assoc]
    · simp only
      rw [hrow, hev]
      apply mul_nonneg (by positivity)
      refine sum_nonneg fun i _ => mul_nonneg (hW i).le ?_
      have := hq i l; linarith
    · simp only
      rw [← mul_sum, one_div, inv_mul_cancel₀ hne]

/-- When the stayers' update raises: exactly when the *highest* firm type has no stayer. -/
theorem C32_stayers_raises_iff [NeZero nl] (d : Data ni nk) (q : Fin ni → Fin nl → ℝ) (dprior : ℝ)
    (hnk : 0 < nk) :
    updatePk0 d q dprior = .error "ValueError" ↔ ¬ ∃ i, (d.G 0 i).val = nk - 1 := by
  rw [← sumPk0_isOk (nl := nl) d q dprior hnk]
  unfold updatePk0
  cases he : sumPk0 d q dprior with
  | ok e => simp [bind, Except.bind]
  | error m =>
    unfold sumPk0 at he
    simp only at he
    split at he
    · exact absurd he (by simp)
    · cases he; simp [bind, Except.bind]

/-- Defect: unlike the movers' update, the stayers' update stores a row of `NaN` without complaint
for any other firm type that has no stayer. -/
theorem C32_stayers_silent_nan [NeZero nl] (d : Data ni nk) (q : Fin ni → Fin nl → ℝ) (dprior : ℝ)
    (hnk : 0 < nk) (htop : ∃ i, (d.G 0 i).val = nk - 1) (k : Fin nk) (hk : ∀ i, d.G 0 i ≠ k) :
    ∃ pk, updatePk0 d q dprior = .ok pk ∧ pk k = none := by
  obtain ⟨e, he⟩ := (sumPk0_isOk (nl := nl) d q dprior hnk).mpr htop
  unfold updatePk0
  rw [he]
  refine ⟨_, rfl, ?_⟩
  rw [if_pos]
  refine sum_eq_zero fun l _ => ?_
  rw [sumPk0_ok d q dprior e he]
  apply sum_eq_zero
  intro i hi
  rw [mem_filter] at hi
  exact absurd hi.2 (hk i)

/-- Non-vacuity: one stayer, at the higher of two firm types; the update succeeds with `NaN` for the
lower type. -/
example : ∃ d : Data 1 2, (∃ i, (d.G 0 i).val = 2 - 1) ∧ ∀ i, d.G 0 i ≠ 0 :=
  ⟨⟨fun _ _ => 0, fun _ _ => 1, fun _ _ => 1⟩, ⟨0, rfl⟩, fun _ => by simp⟩

end Pytwoway.BLM
