import Mathlib.Logic.Equiv.Fin.Basic
import Mathlib.Data.Fin.Tuple.Sort
import Verif.BLM.EM
import Verif.BLM.Sort
import Verif.BLM.Normalize

/-!
# BLM estimates do not depend on names, order, the direction of time or units (C114)

Two runs of the movers' loop on the same data written down differently: the movers listed in another
order, the firm types numbered in another way, the worker types of the starting values numbered in
another way, the two periods exchanged, and wages measured in other units (`a * Y + b`).  The specification
is the renaming itself; the theorem says that the whole run is renamed.
-/

namespace Pytwoway.BLM

open Finset

variable {ni nl nk : ℕ}

/-! ## Specification -/

/-- Another way to write down the same data and the same starting values. -/
structure Spec.Renaming (ni nl nk : ℕ) where
  /-- new row of each mover -/
  row : Equiv.Perm (Fin ni)
  /-- new number of each worker type -/
  worker : Equiv.Perm (Fin nl)
  /-- new number of each firm type -/
  firm : Equiv.Perm (Fin nk)
  /-- new number of each period -/
  period : Equiv.Perm (Fin 2)
  /-- wages are measured as `scale * Y + shift` -/
  scale : ℝ
  shift : ℝ
  scale_pos : 0 < scale

namespace Spec.Renaming

variable (g : Spec.Renaming ni nl nk)

/-- `d'` is `d` written down in the new way. -/
structure SameData (d d' : Data ni nk) : Prop where
  wage : ∀ t i, d'.Y (g.period t) (g.row i) = g.scale * d.Y t i + g.shift
  type : ∀ t i, d'.G (g.period t) (g.row i) = g.firm (d.G t i)
  weight : ∀ t i, d'.W (g.period t) (g.row i) = d.W t i

/-- Mean wages `A'` are `A` in the new way. -/
def SameMeans (A A' : Fin 2 → Fin nl → Fin nk → ℝ) : Prop :=
  ∀ t l k, A' (g.period t) (g.worker l) (g.firm k) = g.scale * A t l k + g.shift

/-- Standard deviations `S'` are `S` in the new way. -/
def SameSds (S S' : Fin 2 → Fin nl → Fin nk → ℝ) : Prop :=
  ∀ t l k, S' (g.period t) (g.worker l) (g.firm k) = g.scale * S t l k

/-- The proportions of worker types among movers between firm types `k 0` and `k 1`, read from the
flattened array (`k1 + nk * k2`), are the same in the new way. -/
def SameProps (pk pk' : ℕ → Fin nl → ℝ) : Prop :=
  ∀ (k : Fin 2 → Fin nk) l,
    pk' ((g.firm (k (g.period.symm 0))).val + nk * (g.firm (k (g.period.symm 1))).val) (g.worker l) =
      pk ((k 0).val + nk * (k 1).val) l

/-- What changing the unit of wages takes off the average log likelihood: `log scale` for every
(weighted) wage. -/
noncomputable def likShift (d : Data ni nk) : ℝ :=
  Real.log g.scale * (∑ i, (d.W 0 i + d.W 1 i)) / ni

/-- Two states of the estimation that are the same up to the renaming. -/
structure SameState (d : Data ni nk) (s s' : MoverState nl nk) : Prop where
  means : g.SameMeans s.base.A s'.base.A
  sds : g.SameSds s.base.S s'.base.S
  props : g.SameProps s.pk1 s'.pk1
  liks : s'.liks = s.liks.map (· - g.likShift d)

/-- The same outcome up to the renaming: both raise the same error, or both return states that are the
same up to the renaming. -/
def SameOutcome (d : Data ni nk) : Py (MoverState nl nk) → Py (MoverState nl nk) → Prop
  | .ok s, .ok s' => g.SameState d s s'
  | .error e, .error e' => e = e'
  | _, _ => False

end Spec.Renaming

/-- A convex set of mean wages (every constraint of the package is linear). -/
def Spec.Midconvex (F : (Fin 2 → Fin nl → Fin nk → ℝ) → Prop) : Prop :=
  ∀ A B, F A → F B → F fun t l k => (A t l k + B t l k) / 2

namespace Spec.Renaming

variable {g : Spec.Renaming ni nl nk} {d d' : Data ni nk}

/-! ## E-step -/

theorem period_cases (p : Equiv.Perm (Fin 2)) : (p.symm 0 = 0 ∧ p.symm 1 = 1 ∧ p 0 = 0 ∧ p 1 = 1) ∨
    (p.symm 0 = 1 ∧ p.symm 1 = 0 ∧ p 0 = 1 ∧ p 1 = 0) := by
  have h : ∀ x : Fin 2, x = 0 ∨ x = 1 := by intro x; fin_cases x <;> simp
  have hne : p 0 ≠ p 1 := fun h => by simpa using p.injective h
  rcases h (p 0) with h0 | h0 <;> rcases h (p 1) with h1 | h1
  · exact absurd (h0.trans h1.symm) hne
  · left; exact ⟨by rw [← h0, p.symm_apply_apply, h0], by rw [← h1, p.symm_apply_apply, h1], h0, h1⟩
  · right; refine ⟨?_, ?_, h0, h1⟩
    · rw [Equiv.symm_apply_eq, h1]
    · rw [Equiv.symm_apply_eq, h0]
  · exact absurd (h0.trans h1.symm) hne

/-- Sums over periods, rows, types can be taken in the new order. -/
theorem sum_period (p : Equiv.Perm (Fin 2)) (f : Fin 2 → ℝ) : f (p 0) + f (p 1) = f 0 + f 1 := by
  rcases period_cases p with ⟨-, -, h0, h1⟩ | ⟨-, -, h0, h1⟩ <;> rw [h0, h1]
  exact add_comm _ _

theorem lpWage_ren (hd : g.SameData d d') {b b' : Base nl nk} (hA : g.SameMeans b.A b'.A)
    (hS : g.SameSds b.S b'.S) (hpos : ∀ t l k, 0 < b.S t l k) (t : Fin 2) (l : Fin nl) (i : Fin ni) :
    lpWage d' b' [] (g.period t) (g.worker l) (g.row i) = lpWage d b [] t l i - Real.log g.scale := by
  have ha := g.scale_pos
  have hs := hpos t l (d.G t i)
  rw [lpWage_nil, lpWage_nil, hd.type, hd.wage, hA, hS, Real.log_mul ha.ne' hs.ne']
  have : (g.scale * d.Y t i + g.shift - (g.scale * b.A t l (d.G t i) + g.shift)) ^ 2 /
      (2 * (g.scale * b.S t l (d.G t i)) ^ 2) =
      (d.Y t i - b.A t l (d.G t i)) ^ 2 / (2 * b.S t l (d.G t i) ^ 2) := by
    field_simp
    ring
  rw [this]
  ring

theorem pk_ren (hd : g.SameData d d') {pk pk' : ℕ → Fin nl → ℝ} (hp : g.SameProps pk pk') (i : Fin ni)
    (l : Fin nl) : pk' (KK d' (g.row i)) (g.worker l) = pk (KK d i) l := by
  unfold KK
  rw [← hp (fun t => d.G t i) l, ← hd.type, ← hd.type, Equiv.apply_symm_apply, Equiv.apply_symm_apply]

theorem lpMovers_ren (hd : g.SameData d d') {b b' : Base nl nk} (hA : g.SameMeans b.A b'.A)
    (hS : g.SameSds b.S b'.S) (hpos : ∀ t l k, 0 < b.S t l k) {pk pk' : ℕ → Fin nl → ℝ}
    (hp : g.SameProps pk pk') (i : Fin ni) (l : Fin nl) :
    lpMovers d' b' [] pk' (g.row i) (g.worker l) =
      lpMovers d b [] pk i l - Real.log g.scale * (d.W 0 i + d.W 1 i) := by
  have e := sum_period g.period fun t => d'.W t (g.row i) * lpWage d' b' [] t (g.worker l) (g.row i)
  simp only [hd.weight, lpWage_ren hd hA hS hpos] at e
  unfold lpMovers
  rw [pk_ren hd hp, add_assoc, ← e]
  ring

theorem lse_ren [NeZero nl] (hd : g.SameData d d') {b b' : Base nl nk} (hA : g.SameMeans b.A b'.A)
    (hS : g.SameSds b.S b'.S) (hpos : ∀ t l k, 0 < b.S t l k) {pk pk' : ℕ → Fin nl → ℝ}
    (hp : g.SameProps pk pk') (i : Fin ni) :
    Util.logsumexp (lpMovers d' b' [] pk' (g.row i)) =
      Util.logsumexp (lpMovers d b [] pk i) - Real.log g.scale * (d.W 0 i + d.W 1 i) := by
  rw [lse_eq, lse_eq, ← Equiv.sum_comp g.worker]
  simp only [lpMovers_ren hd hA hS hpos hp, Real.exp_sub]
  rw [← sum_div, Real.log_div (sum_exp_pos _).ne' (Real.exp_pos _).ne', Real.log_exp]

theorem posterior_ren [NeZero nl] (hd : g.SameData d d') {b b' : Base nl nk} (hA : g.SameMeans b.A b'.A)
    (hS : g.SameSds b.S b'.S) (hpos : ∀ t l k, 0 < b.S t l k) {pk pk' : ℕ → Fin nl → ℝ}
    (hp : g.SameProps pk pk') (i : Fin ni) (l : Fin nl) :
    posterior (lpMovers d' b' [] pk') (g.row i) (g.worker l) = posterior (lpMovers d b [] pk) i l := by
  unfold posterior
  rw [lpMovers_ren hd hA hS hpos hp, lse_ren hd hA hS hpos hp]
  congr 1
  ring

theorem meanLse_ren [NeZero nl] (hd : g.SameData d d') {b b' : Base nl nk} (hA : g.SameMeans b.A b'.A)
    (hS : g.SameSds b.S b'.S) (hpos : ∀ t l k, 0 < b.S t l k) {pk pk' : ℕ → Fin nl → ℝ}
    (hp : g.SameProps pk pk') :
    meanLse (lpMovers d' b' [] pk') = meanLse (lpMovers d b [] pk) - g.likShift d := by
  unfold meanLse likShift
  rw [← Equiv.sum_comp g.row]
  simp only [lse_ren hd hA hS hpos hp]
  rw [sum_sub_distrib, ← mul_sum, sub_div]

theorem sum_pairs (f : ℕ → ℝ) :
    ∑ p ∈ range (nk ^ 2), f p = ∑ k2 : Fin nk, ∑ k1 : Fin nk, f (k1.val + nk * k2.val) := by
  rw [sq, sum_range_mul]
  refine sum_congr rfl fun k2 _ => sum_congr rfl fun k1 _ => ?_
  rw [Nat.mul_comm, Nat.add_comm]

theorem logProps_ren {pk pk' : ℕ → Fin nl → ℝ} (hp : g.SameProps pk pk') :
    ∑ p ∈ range (nk ^ 2), ∑ l, Real.log (pk' p l) = ∑ p ∈ range (nk ^ 2), ∑ l, Real.log (pk p l) := by
  rw [sum_pairs, sum_pairs]
  have h : ∀ (k1 k2 : Fin nk), ∑ l, Real.log (pk (k1.val + nk * k2.val) l) = ∑ l, Real.log
      (pk' ((g.firm (![k1, k2] (g.period.symm 0))).val + nk * (g.firm (![k1, k2] (g.period.symm 1))).val) l) := by
    intro k1 k2
    rw [← Equiv.sum_comp g.worker fun l => Real.log
      (pk' ((g.firm (![k1, k2] (g.period.symm 0))).val + nk * (g.firm (![k1, k2] (g.period.symm 1))).val) l)]
    refine sum_congr rfl fun l _ => ?_
    rw [hp ![k1, k2] l]
    rfl
  simp only [h]
  rcases period_cases g.period with ⟨h0, h1, -, -⟩ | ⟨h0, h1, -, -⟩
  · simp only [h0, h1, Matrix.cons_val_zero, Matrix.cons_val_one]
    rw [Equiv.sum_comp g.firm fun k2 => ∑ k1, ∑ l, Real.log (pk' ((g.firm k1).val + nk * k2.val) l)]
    refine sum_congr rfl fun k2 _ => ?_
    exact (Equiv.sum_comp g.firm fun k1 => ∑ l, Real.log (pk' (k1.val + nk * k2.val) l)).symm
  · simp only [h0, h1, Matrix.cons_val_zero, Matrix.cons_val_one]
    rw [Equiv.sum_comp g.firm fun k2 => ∑ k1, ∑ l, Real.log (pk' (k2.val + nk * (g.firm k1).val) l), sum_comm]
    refine sum_congr rfl fun k2 _ => ?_
    exact (Equiv.sum_comp g.firm fun k1 => ∑ l, Real.log (pk' (k2.val + nk * k1.val) l)).symm

theorem lik_ren [NeZero nl] (hd : g.SameData d d') {b b' : Base nl nk} (hA : g.SameMeans b.A b'.A)
    (hS : g.SameSds b.S b'.S) (hpos : ∀ t l k, 0 < b.S t l k) {pk pk' : ℕ → Fin nl → ℝ}
    (hp : g.SameProps pk pk') (first updPk : Bool) (dp : ℝ) :
    likMovers d' b' [] pk' first updPk dp = likMovers d b [] pk first updPk dp - g.likShift d := by
  unfold likMovers
  rw [meanLse_ren hd hA hS hpos hp, logProps_ren hp]
  ring

/-! ## M-step: proportions -/

theorem allPairs_ren (hd : g.SameData d d') : AllPairs d' ↔ AllPairs d := by
  have h : ∀ i t, d'.G t (g.row i) = g.firm (d.G (g.period.symm t) i) := by
    intro i t
    rw [← hd.type, Equiv.apply_symm_apply]
  unfold AllPairs
  constructor
  · intro H k1 k2
    obtain ⟨i, h0, h1⟩ := H (g.firm (![k1, k2] (g.period.symm 0))) (g.firm (![k1, k2] (g.period.symm 1)))
    refine ⟨g.row.symm i, ?_⟩
    rw [← g.row.apply_symm_apply i, h] at h0 h1
    have h0 := g.firm.injective h0
    have h1 := g.firm.injective h1
    rcases period_cases g.period with ⟨e0, e1, -, -⟩ | ⟨e0, e1, -, -⟩
    · rw [e0] at h0; rw [e1] at h1; exact ⟨h0, h1⟩
    · rw [e0] at h0; rw [e1] at h1; exact ⟨h1, h0⟩
  · intro H k1 k2
    obtain ⟨i, h0, h1⟩ := H (g.firm.symm (![k1, k2] (g.period 0))) (g.firm.symm (![k1, k2] (g.period 1)))
    refine ⟨g.row i, ?_⟩
    rw [h, h]
    rcases period_cases g.period with ⟨e0, e1, e2, e3⟩ | ⟨e0, e1, e2, e3⟩
    · rw [e2] at h0; rw [e3] at h1
      rw [e0, e1, h0, h1]; simp
    · rw [e2] at h0; rw [e3] at h1
      rw [e0, e1, h0, h1]; simp

theorem updatePk1_ren [NeZero nl] (hd : g.SameData d d') {q q' : Fin ni → Fin nl → ℝ} (dp : ℝ) (hnk : 0 < nk)
    (hW : ∀ t i, 0 < d.W t i) (hdp : 1 ≤ dp) (hq : ∀ i l, 0 ≤ q i l) (hq1 : ∀ i, ∑ l, q i l = 1)
    (hqq : ∀ i l, q' (g.row i) (g.worker l) = q i l) :
    (∃ pk pk', updatePk1 d q dp = .ok pk ∧ updatePk1 d' q' dp = .ok pk' ∧ g.SameProps pk pk') ∨
    (updatePk1 d q dp = .error "ValueError" ∧ updatePk1 d' q' dp = .error "ValueError") := by
  by_cases hall : AllPairs d
  · left
    have hW' : ∀ t i, 0 < d'.W t i := by
      intro t i
      have := hW (g.period.symm t) (g.row.symm i)
      rwa [← hd.weight, Equiv.apply_symm_apply, Equiv.apply_symm_apply] at this
    have hq' : ∀ i l, 0 ≤ q' i l := by
      intro i l
      rw [← g.row.apply_symm_apply i, ← g.worker.apply_symm_apply l, hqq]
      exact hq _ _
    have hq1' : ∀ i, ∑ l, q' i l = 1 := by
      intro i
      rw [← g.row.apply_symm_apply i, ← Equiv.sum_comp g.worker]
      simp only [hqq]
      exact hq1 _
    obtain ⟨pk, h1, h2⟩ := C32_movers d q dp hW hdp hq hq1 hnk hall
    obtain ⟨pk', h1', h2'⟩ := C32_movers d' q' dp hW' hdp hq' hq1' hnk ((allPairs_ren hd).mpr hall)
    refine ⟨pk, pk', h1, h1', fun k l => ?_⟩
    rw [(h2' _ _).1, (h2 _ _).1]
    have hG : ∀ i, (d'.G 0 (g.row i) = g.firm (k (g.period.symm 0)) ∧
        d'.G 1 (g.row i) = g.firm (k (g.period.symm 1))) ↔ (d.G 0 i = k 0 ∧ d.G 1 i = k 1) := by
      intro i
      have h : ∀ t, d'.G t (g.row i) = g.firm (d.G (g.period.symm t) i) := by
        intro t; rw [← hd.type, Equiv.apply_symm_apply]
      rw [h, h, g.firm.injective.eq_iff, g.firm.injective.eq_iff]
      rcases period_cases g.period with ⟨e0, e1, -, -⟩ | ⟨e0, e1, -, -⟩ <;> rw [e0, e1]
      exact and_comm
    have hw : ∀ i, d'.W 0 (g.row i) * d'.W 1 (g.row i) = d.W 0 i * d.W 1 i := by
      intro i
      have h : ∀ t, d'.W t (g.row i) = d.W (g.period.symm t) i := by
        intro t; rw [← hd.weight, Equiv.apply_symm_apply]
      rw [h, h]
      rcases period_cases g.period with ⟨e0, e1, -, -⟩ | ⟨e0, e1, -, -⟩ <;> rw [e0, e1]
      exact mul_comm _ _
    have hsum : ∀ f : Fin ni → ℝ, ∑ i with d'.G 0 i = g.firm (k (g.period.symm 0)) ∧
        d'.G 1 i = g.firm (k (g.period.symm 1)), f i = ∑ i with d.G 0 i = k 0 ∧ d.G 1 i = k 1, f (g.row i) := by
      intro f
      rw [sum_filter, sum_filter, ← Equiv.sum_comp g.row]
      simp only [hG]
    rw [hsum, hsum]
    simp only [hw, hqq]
  · right
    exact ⟨C32_movers_raises d q dp hall, C32_movers_raises d' q' dp (fun h => hall ((allPairs_ren hd).mp h))⟩

/-! ## M-step: means and standard deviations -/

/-- `A` written in the new way. -/
def new (g : Spec.Renaming ni nl nk) (A : Fin 2 → Fin nl → Fin nk → ℝ) : Fin 2 → Fin nl → Fin nk → ℝ :=
  fun t l k => g.scale * A (g.period.symm t) (g.worker.symm l) (g.firm.symm k) + g.shift

/-- `A'` written in the old way. -/
noncomputable def old (g : Spec.Renaming ni nl nk) (A : Fin 2 → Fin nl → Fin nk → ℝ) : Fin 2 → Fin nl → Fin nk → ℝ :=
  fun t l k => (A (g.period t) (g.worker l) (g.firm k) - g.shift) / g.scale

theorem same_new (A : Fin 2 → Fin nl → Fin nk → ℝ) : g.SameMeans A (g.new A) := by
  intro t l k
  simp [new]

theorem same_old (A : Fin 2 → Fin nl → Fin nk → ℝ) : g.SameMeans (g.old A) A := by
  intro t l k
  have := g.scale_pos.ne'
  unfold old
  field_simp
  ring

theorem same_iff_new {A A' : Fin 2 → Fin nl → Fin nk → ℝ} (h : g.SameMeans A A') : A' = g.new A := by
  funext t l k
  have := h (g.period.symm t) (g.worker.symm l) (g.firm.symm k)
  simpa [new] using this

theorem wsse_ren (hd : g.SameData d d') {q q' : Fin ni → Fin nl → ℝ}
    (hqq : ∀ i l, q' (g.row i) (g.worker l) = q i l) {S S' A A' : Fin 2 → Fin nl → Fin nk → ℝ}
    (hS : g.SameSds S S') (hA : g.SameMeans A A') (hpos : ∀ t l k, 0 < S t l k) :
    wsse d' q' S' A' = wsse d q S A := by
  unfold wsse
  rw [← Equiv.sum_comp g.period]
  refine sum_congr rfl fun t _ => ?_
  rw [← Equiv.sum_comp g.worker]
  refine sum_congr rfl fun l _ => ?_
  rw [← Equiv.sum_comp g.row]
  refine sum_congr rfl fun i _ => ?_
  have ha := g.scale_pos.ne'
  have hs := (hpos t l (d.G t i)).ne'
  rw [hd.type, hd.wage, hd.weight, hqq, hS, hA]
  field_simp
  ring

/-- The weighted sum of squares has at most one minimiser over a convex set when every cell is observed. -/
theorem wsse_unique {q : Fin ni → Fin nl → ℝ} {S : Fin 2 → Fin nl → Fin nk → ℝ}
    {F : (Fin 2 → Fin nl → Fin nk → ℝ) → Prop} (hF : Spec.Midconvex F) (hobs : ∀ t k, ∃ i, d.G t i = k)
    (hW : ∀ t i, 0 < d.W t i) (hq : ∀ i l, 0 < q i l) (hpos : ∀ t l k, 0 < S t l k)
    {A B : Fin 2 → Fin nl → Fin nk → ℝ} (hA : F A) (hB : F B)
    (hAm : ∀ C, F C → wsse d q S A ≤ wsse d q S C) (hBm : ∀ C, F C → wsse d q S B ≤ wsse d q S C) : A = B := by
  have hw : ∀ t l i, 0 < d.W t i * q i l / S t l (d.G t i) ^ 2 := fun t l i =>
    div_pos (mul_pos (hW t i) (hq i l)) (pow_pos (hpos _ _ _) 2)
  have e : wsse d q S A / 2 + wsse d q S B / 2 - wsse d q S (fun t l k => (A t l k + B t l k) / 2) =
      ∑ t, ∑ l, ∑ i, d.W t i * q i l / S t l (d.G t i) ^ 2 * ((A t l (d.G t i) - B t l (d.G t i)) ^ 2 / 4) := by
    unfold wsse
    simp only [sum_div, ← sum_add_distrib, ← sum_sub_distrib]
    refine sum_congr rfl fun t _ => sum_congr rfl fun l _ => sum_congr rfl fun i _ => ?_
    ring
  have h1 := hAm _ (hF A B hA hB)
  have h2 := hBm _ (hF A B hA hB)
  have h3 := hAm B hB
  have h4 := hBm A hA
  have hn : ∀ t l i, 0 ≤ d.W t i * q i l / S t l (d.G t i) ^ 2 * ((A t l (d.G t i) - B t l (d.G t i)) ^ 2 / 4) :=
    fun t l i => mul_nonneg (hw t l i).le (by positivity)
  have h0 : ∑ t, ∑ l, ∑ i, d.W t i * q i l / S t l (d.G t i) ^ 2 * ((A t l (d.G t i) - B t l (d.G t i)) ^ 2 / 4) = 0 :=
    le_antisymm (by linarith) (sum_nonneg fun t _ => sum_nonneg fun l _ => sum_nonneg fun i _ => hn t l i)
  funext t l k
  obtain ⟨i, rfl⟩ := hobs t k
  rw [sum_eq_zero_iff_of_nonneg fun t _ => sum_nonneg fun l _ => sum_nonneg fun i _ => hn t l i] at h0
  have h0 := h0 t (mem_univ _)
  rw [sum_eq_zero_iff_of_nonneg fun l _ => sum_nonneg fun i _ => hn t l i] at h0
  have h0 := h0 l (mem_univ _)
  rw [sum_eq_zero_iff_of_nonneg fun i _ => hn t l i] at h0
  have h0 := h0 i (mem_univ _)
  rcases mul_eq_zero.mp h0 with h | h
  · exact absurd h (hw t l i).ne'
  · have : (A t l (d.G t i) - B t l (d.G t i)) ^ 2 = 0 := by linarith
    linarith [pow_eq_zero_iff (n := 2) (by norm_num) |>.mp this]

/-- What the M-step returns when every firm type is observed in both periods. -/
theorem mstep_spec (q : Fin ni → Fin nl → ℝ) (b : Base nl nk) (uA uS : Bool) (sA sS : Solver)
    (F : (Fin 2 → Fin nl → Fin nk → ℝ) → Prop) (lb : ℝ) (hnk : 0 < nk)
    (hsA : RightSolver (2 * (nl * nk)) (fun x => F (unflatten nl nk x)) sA)
    (hsS : RightSolver (2 * (nl * nk)) (BoundS nl nk lb) sS)
    (hobs : ∀ t k, ∃ i, d.G t i = k) (hW : ∀ t i, 0 < d.W t i) (hq : ∀ i l, 0 < q i l)
    (hF : ∃ A, F A) (hS : ∀ t l k, 0 < b.S t l k) :
    ∃ A1 S1, (uA = false → A1 = b.A) ∧
      (uA = true → F A1 ∧ ∀ A, F A → wsse d q b.S A1 ≤ wsse d q b.S A) ∧
      (∀ t l k, S1 t l k = √(max lb ((∑ i with d.G t i = k, d.W t i * q i l * (d.Y t i - A1 t l k) ^ 2) /
        cellW d q t l k))) ∧
      mstep d q b uA uS sA sS = (if uA || uS then (if uS then .ok ⟨A1, S1⟩ else .error "UnboundLocalError")
        else .ok b) := by
  have htop : TopObserved d := by
    intro t
    obtain ⟨i, hi⟩ := hobs t ⟨nk - 1, by omega⟩
    exact ⟨i, by rw [hi]⟩
  have hcpos : ∀ t l k, 0 < cellW d q t l k := by
    intro t l k
    obtain ⟨i, hi⟩ := hobs t k
    exact sum_pos (fun i _ => mul_pos (hW t i) (hq i l)) ⟨i, by simp [hi]⟩
  obtain ⟨X, hX, hXv⟩ := assemble_ok d htop fun t l i => wts d b.S q t l i
  obtain ⟨Yv, hY, hYv⟩ := assemble_ok d htop fun t l i => wts d b.S q t l i * d.Y t i
  have hXc : ∀ (t : Fin 2) (l : Fin nl) (k : Fin nk), X (t.val * (nl * nk) + l.val * nk + k.val) =
      cellW d q t l k / b.S t l k ^ 2 := by
    intro t l k
    rw [hXv]
    unfold cellW wts
    rw [sum_div]
    exact sum_congr rfl fun i hi => by rw [(mem_filter.mp hi).2]
  have hP : ∀ p < 2 * (nl * nk), 0 < X p := by
    intro p hp
    obtain ⟨t, l, k, rfl⟩ := exists_pos hp
    rw [hXc]
    exact div_pos (hcpos t l k) (pow_pos (hS t l k) 2)
  obtain ⟨A0, hA0⟩ := hF
  obtain ⟨x0, hx0⟩ := exists_flat A0
  obtain ⟨x, hx⟩ := hsA.complete X (fun p => - Yv p) hP ⟨x0, by rw [hx0]; exact hA0⟩
  obtain ⟨hfx, hmin⟩ := hsA.sound _ _ _ hx
  have hs : solveA sA X Yv b.A = unflatten nl nk x := by unfold solveA; rw [hx]
  obtain ⟨A1, hA1⟩ : ∃ A1, A1 = (if uA then unflatten nl nk x else b.A) := ⟨_, rfl⟩
  obtain ⟨Z, hZ, hZv⟩ := assemble_ok d htop fun t l i => wts d b.S q t l i *
    (d.Y t i - A1 t l (d.G t i)) ^ 2
  obtain ⟨z, hz⟩ := hsS.complete X (fun p => - Z p) hP ⟨fun _ => lb, fun _ _ => le_rfl⟩
  have hzs : solveS sS X Z b.S = fun t l k => √(unflatten nl nk z t l k) := by unfold solveS; rw [hz]
  refine ⟨A1, fun t l k => √(unflatten nl nk z t l k), ?_, ?_, ?_, ?_⟩
  · intro h; rw [hA1, h]; rfl
  · intro h
    rw [hA1, h]
    refine ⟨hfx, fun A hA => ?_⟩
    obtain ⟨y, hy⟩ := exists_flat A
    have := hmin y (by rw [hy]; exact hA)
    rw [obj_eq_wsse d q b.S X Yv x hXv hYv, obj_eq_wsse d q b.S X Yv y hXv hYv, hy] at this
    simp only [if_true]
    linarith
  · intro t l k
    have hS2 : 0 < b.S t l k ^ 2 := pow_pos (hS t l k) 2
    have hzc := box_coord hsS hz (pos_lt t l k) (hP _ (pos_lt t l k))
    simp only [unflatten]
    rw [hzc, hZv, hXc]
    have hZc : ∑ i with d.G t i = k, wts d b.S q t l i * (d.Y t i - A1 t l (d.G t i)) ^ 2 =
        (∑ i with d.G t i = k, d.W t i * q i l * (d.Y t i - A1 t l k) ^ 2) / b.S t l k ^ 2 := by
      unfold wts
      rw [sum_div]
      refine sum_congr rfl fun i hi => ?_
      rw [(mem_filter.mp hi).2]; ring
    rw [hZc, div_div_div_cancel_right₀ hS2.ne']
  · unfold mstep
    simp only [hX, hY, bind, Except.bind, pure, Except.pure, hs]
    cases uA <;> cases uS <;> simp only [Bool.or_self, Bool.or_true, Bool.or_false, Bool.false_or, Bool.true_or,
      Bool.false_eq_true, if_true, if_false] at hA1 ⊢
    · rw [← hA1, hZ]; simp only [hzs]
    · rw [← hA1, hZ]; simp only [hzs]

theorem mstep_ren (hd : g.SameData d d') {q q' : Fin ni → Fin nl → ℝ} {b b' : Base nl nk} (uA uS : Bool)
    {sA sA' sS sS' : Solver} {F F' : (Fin 2 → Fin nl → Fin nk → ℝ) → Prop} {lb : ℝ} (hlb : 0 < lb)
    (hnk : 0 < nk)
    (hsA : RightSolver (2 * (nl * nk)) (fun x => F (unflatten nl nk x)) sA)
    (hsA' : RightSolver (2 * (nl * nk)) (fun x => F' (unflatten nl nk x)) sA')
    (hsS : RightSolver (2 * (nl * nk)) (BoundS nl nk lb) sS)
    (hsS' : RightSolver (2 * (nl * nk)) (BoundS nl nk (g.scale ^ 2 * lb)) sS')
    (hFc : Spec.Midconvex F) (hF : ∃ A, F A) (hFF : ∀ A A', g.SameMeans A A' → (F' A' ↔ F A))
    (hobs : ∀ t k, ∃ i, d.G t i = k) (hW : ∀ t i, 0 < d.W t i) (hq : ∀ i l, 0 < q i l)
    (hqq : ∀ i l, q' (g.row i) (g.worker l) = q i l)
    (hA : g.SameMeans b.A b'.A) (hS : g.SameSds b.S b'.S) (hpos : ∀ t l k, 0 < b.S t l k) :
    (∃ c c', mstep d q b uA uS sA sS = .ok c ∧ mstep d' q' b' uA uS sA' sS' = .ok c' ∧
      g.SameMeans c.A c'.A ∧ g.SameSds c.S c'.S ∧ ∀ t l k, 0 < c.S t l k) ∨
    (∃ e, mstep d q b uA uS sA sS = .error e ∧ mstep d' q' b' uA uS sA' sS' = .error e) := by
  have ha := g.scale_pos
  have hW' : ∀ t i, 0 < d'.W t i := by
    intro t i
    have := hW (g.period.symm t) (g.row.symm i)
    rwa [← hd.weight, Equiv.apply_symm_apply, Equiv.apply_symm_apply] at this
  have hq' : ∀ i l, 0 < q' i l := by
    intro i l
    rw [← g.row.apply_symm_apply i, ← g.worker.apply_symm_apply l, hqq]
    exact hq _ _
  have hobs' : ∀ t k, ∃ i, d'.G t i = k := by
    intro t k
    obtain ⟨i, hi⟩ := hobs (g.period.symm t) (g.firm.symm k)
    refine ⟨g.row i, ?_⟩
    rw [← g.period.apply_symm_apply t, hd.type, hi, Equiv.apply_symm_apply]
  have hpos' : ∀ t l k, 0 < b'.S t l k := by
    intro t l k
    rw [← g.period.apply_symm_apply t, ← g.worker.apply_symm_apply l, ← g.firm.apply_symm_apply k, hS]
    exact mul_pos ha (hpos _ _ _)
  have hF' : ∃ A, F' A := by
    obtain ⟨A, hA⟩ := hF
    exact ⟨g.new A, (hFF A _ (same_new A)).mpr hA⟩
  obtain ⟨A1, S1, h1, h2, h3, h4⟩ := mstep_spec q b uA uS sA sS F lb hnk hsA hsS hobs hW hq hF hpos
  obtain ⟨A1', S1', h1', h2', h3', h4'⟩ := mstep_spec q' b' uA uS sA' sS' F' (g.scale ^ 2 * lb) hnk hsA' hsS'
    hobs' hW' hq' hF' hpos'
  have hA1 : g.SameMeans A1 A1' := by
    cases uA with
    | false => rw [h1 rfl, h1' rfl]; exact hA
    | true =>
      obtain ⟨f, hm⟩ := h2 rfl
      obtain ⟨f', hm'⟩ := h2' rfl
      have := wsse_unique hFc hobs hW hq hpos f ((hFF _ _ (same_old A1')).mp f') hm (by
        intro C hC
        have := hm' (g.new C) ((hFF C _ (same_new C)).mpr hC)
        rwa [wsse_ren hd hqq hS (same_old A1') hpos, wsse_ren hd hqq hS (same_new C) hpos] at this)
      rw [this]
      exact same_old A1'
  have hS1 : g.SameSds S1 S1' := by
    intro t l k
    rw [h3, h3']
    have hsum : ∀ f : Fin ni → ℝ, ∑ i with d'.G (g.period t) i = g.firm k, f i =
        ∑ i with d.G t i = k, f (g.row i) := by
      intro f
      rw [sum_filter, sum_filter, ← Equiv.sum_comp g.row]
      simp only [hd.type, g.firm.injective.eq_iff]
    have hc : cellW d' q' (g.period t) (g.worker l) (g.firm k) = cellW d q t l k := by
      unfold cellW
      rw [hsum]
      simp only [hd.weight, hqq]
    have hr : ∑ i with d'.G (g.period t) i = g.firm k, d'.W (g.period t) i * q' i (g.worker l) *
        (d'.Y (g.period t) i - A1' (g.period t) (g.worker l) (g.firm k)) ^ 2 =
        g.scale ^ 2 * ∑ i with d.G t i = k, d.W t i * q i l * (d.Y t i - A1 t l k) ^ 2 := by
      rw [hsum, mul_sum]
      refine sum_congr rfl fun i _ => ?_
      rw [hd.weight, hqq, hd.wage, hA1]
      ring
    rw [hc, hr, mul_div_assoc, ← mul_max_of_nonneg _ _ (sq_nonneg g.scale), Real.sqrt_mul (sq_nonneg _),
      Real.sqrt_sq ha.le]
  rw [h4, h4']
  cases uA <;> cases uS <;> simp only [Bool.or_self, Bool.or_true, Bool.or_false, Bool.false_or, Bool.true_or,
      Bool.false_eq_true, if_true, if_false]
  · exact .inl ⟨_, _, rfl, rfl, hA, hS, hpos⟩
  · exact .inl ⟨_, _, rfl, rfl, hA1, hS1, fun t l k => by
      show 0 < S1 t l k
      rw [h3]; exact Real.sqrt_pos.mpr (hlb.trans_le (le_max_left _ _))⟩
  · exact .inr ⟨_, rfl, rfl⟩
  · exact .inl ⟨_, _, rfl, rfl, hA1, hS1, fun t l k => by
      show 0 < S1 t l k
      rw [h3]; exact Real.sqrt_pos.mpr (hlb.trans_le (le_max_left _ _))⟩

end Spec.Renaming

/-! ## The loop -/

open Spec.Renaming in
/-- C114 for movers: the whole run on the renamed data from the renamed starting values is the renamed
run, iteration by iteration, for any number of iterations, any threshold, any combination of update
flags and any convex constraints that correspond under the renaming: mean wages, standard deviations and
proportions of worker types are the same ones written down in the new way, every recorded likelihood is
shifted by the same constant (so the loop stops at the same iteration), and if one run raises so does
the other.  A lower bound on variances must be given in the new unit; `_min_firm_type` must pick
corresponding types (any injective correspondence `φ`).  With controls: `C114_movers_controls`. -/
theorem C114_movers [NeZero nl] (g : Spec.Renaming ni nl nk) (d d' : Data ni nk) (o : MoverOpts)
    (sA sA' sS sS' : Solver) (minType minType' : (Fin 2 → Fin nl → Fin nk → ℝ) → ℕ) (φ : ℕ → ℕ)
    (F F' : (Fin 2 → Fin nl → Fin nk → ℝ) → Prop) (lb : ℝ)
    (hd : g.SameData d d') (hlb : 0 < lb) (hnk : 0 < nk) (hdp : 1 ≤ o.dprior)
    (hsA : RightSolver (2 * (nl * nk)) (fun x => F (unflatten nl nk x)) sA)
    (hsA' : RightSolver (2 * (nl * nk)) (fun x => F' (unflatten nl nk x)) sA')
    (hsS : RightSolver (2 * (nl * nk)) (BoundS nl nk lb) sS)
    (hsS' : RightSolver (2 * (nl * nk)) (BoundS nl nk (g.scale ^ 2 * lb)) sS')
    (hFc : Spec.Midconvex F) (hF : ∃ A, F A) (hFF : ∀ A A', g.SameMeans A A' → (F' A' ↔ F A))
    (hφ : Function.Injective φ) (hmin : ∀ A A', g.SameMeans A A' → minType' A' = φ (minType A))
    (hobs : ∀ t k, ∃ i, d.G t i = k) (hW : ∀ t i, 0 < d.W t i) (fuel : ℕ) :
    ∀ (first : Bool) (prev : Option ℝ) (pm : ℕ) (s s' : MoverState nl nk),
      (∀ t l k, 0 < s.base.S t l k) → g.SameState d s s' →
      g.SameOutcome d (moversLoop d o sA sS minType fuel first prev pm s)
        (moversLoop d' o sA' sS' minType' fuel first (prev.map (· - g.likShift d)) (φ pm) s') := by
  induction fuel with
  | zero => intro first prev pm s s' _ hs; exact hs
  | succ fuel ih =>
    intro first prev pm s s' hpos hs
    unfold moversLoop
    simp only
    have hlik := lik_ren hd hs.means hs.sds hpos hs.props first o.updPk o.dprior
    have hq := posterior_ren hd hs.means hs.sds hpos hs.props
    rw [hlik, hmin _ _ hs.means]
    have hstop : stop (likMovers d s.base [] s.pk1 first o.updPk o.dprior - g.likShift d)
        (prev.map (· - g.likShift d)) o.threshold (φ (minType s.base.A) == φ pm) =
        stop (likMovers d s.base [] s.pk1 first o.updPk o.dprior) prev o.threshold (minType s.base.A == pm) := by
      have e : (φ (minType s.base.A) == φ pm) = (minType s.base.A == pm) := by
        rw [Bool.eq_iff_iff, beq_iff_eq, beq_iff_eq]
        exact hφ.eq_iff
      rw [e]
      unfold stop
      cases prev with
      | none => rfl
      | some p => simp
    rw [hstop]
    split
    · exact ⟨hs.means, hs.sds, hs.props, by simp [hs.liks]⟩
    · set q := posterior (lpMovers d s.base [] s.pk1) with hqd
      set q' := posterior (lpMovers d' s'.base [] s'.pk1) with hqd'
      have hq0 : ∀ i l, 0 < q i l := posterior_pos _
      have hnext : (∃ pk pk', nextPk1 o.updPk d q o.dprior s.pk1 = .ok pk ∧
          nextPk1 o.updPk d' q' o.dprior s'.pk1 = .ok pk' ∧ g.SameProps pk pk') ∨
          (nextPk1 o.updPk d q o.dprior s.pk1 = .error "ValueError" ∧
            nextPk1 o.updPk d' q' o.dprior s'.pk1 = .error "ValueError") := by
        unfold nextPk1
        cases o.updPk with
        | false => exact .inl ⟨_, _, rfl, rfl, hs.props⟩
        | true => exact updatePk1_ren hd o.dprior hnk hW hdp (fun i l => (hq0 i l).le) (posterior_sum _) hq
      rcases hnext with ⟨pk, pk', e1, e1', hpk⟩ | ⟨e1, e1'⟩
      · rw [e1, e1']
        simp only [bind, Except.bind]
        rcases mstep_ren hd o.updA o.updS hlb hnk hsA hsA' hsS hsS' hFc hF hFF hobs hW hq0 hq hs.means hs.sds hpos
          with ⟨c, c', e2, e2', hA, hS, hp⟩ | ⟨e, e2, e2'⟩
        · rw [e2, e2']
          simp only
          have := ih false (some (likMovers d s.base [] s.pk1 first o.updPk o.dprior)) (minType s.base.A)
            ⟨c, pk, s.liks ++ [likMovers d s.base [] s.pk1 first o.updPk o.dprior]⟩
            ⟨c', pk', s'.liks ++ [likMovers d s.base [] s.pk1 first o.updPk o.dprior - g.likShift d]⟩ hp
            ⟨hA, hS, hpk, by simp [hs.liks]⟩
          exact this
        · rw [e2, e2']
          exact rfl
      · rw [e1, e1']
        exact rfl

/-! ## The lowest firm type -/

/-- The primary period in the new way. -/
def Spec.Renaming.newPrimary (g : Spec.Renaming ni nl nk) : Primary → Primary
  | .all => .all
  | .first => if g.period 0 = 0 then .first else .second
  | .second => if g.period 0 = 0 then .second else .first

/-- An `argsort` that only compares (as every sorting algorithm does). -/
def Spec.ByComparison (a : Argsort) : Prop :=
  ∀ (n : ℕ) (v w : Fin n → ℝ), (∀ i j, v i ≤ v j ↔ w i ≤ w j) → a.order v = a.order w

/-- Such an `argsort` exists: the stable one. -/
theorem Spec.exists_byComparison : ∃ a : Argsort, a.Right ∧ Spec.ByComparison a := by
  refine ⟨⟨fun v => Tuple.sort v⟩, fun n v => Tuple.monotone_sort v, fun n v w h => ?_⟩
  rw [Tuple.eq_sort_iff]
  obtain ⟨h1, h2⟩ := Tuple.eq_sort_iff.mp (rfl : Tuple.sort v = Tuple.sort v)
  refine ⟨fun i j hij => (h _ _).mp (h1 hij), fun i j hij e => h2 i j hij ?_⟩
  exact le_antisymm ((h _ _).mpr e.le) ((h _ _).mpr e.ge)

theorem Spec.Renaming.firmMean_ren [NeZero nl] (g : Spec.Renaming ni nl nk) (pp : Primary)
    {A A' : Fin 2 → Fin nl → Fin nk → ℝ} (h : g.SameMeans A A') (k : Fin nk) :
    firmMean (primaryMean (g.newPrimary pp) A') (g.firm k) = g.scale * firmMean (primaryMean pp A) k + g.shift := by
  have hnl : (nl : ℝ) ≠ 0 := by exact_mod_cast NeZero.ne nl
  have hl : ∀ l, primaryMean (g.newPrimary pp) A' (g.worker l) (g.firm k) =
      g.scale * primaryMean pp A l k + g.shift := by
    intro l
    have h0 := h 0 l k
    have h1 := h 1 l k
    rcases period_cases g.period with ⟨-, -, e0, e1⟩ | ⟨-, -, e0, e1⟩ <;> rw [e0] at h0 <;> rw [e1] at h1 <;>
      cases pp <;> simp [newPrimary, primaryMean, e0, h0, h1] <;> ring
  unfold firmMean
  rw [← Equiv.sum_comp g.worker]
  simp only [hl]
  rw [sum_add_distrib, ← mul_sum, sum_const, card_univ, Fintype.card_fin, nsmul_eq_mul]
  field_simp

/-- C114, lowest firm type: it is the same firm type whatever the numbering, when no other firm type
ties with it. -/
theorem C114_lowest_firm_type [NeZero nl] (g : Spec.Renaming ni nl nk) (a a' : Argsort) (ha : a.Right)
    (ha' : a'.Right) (pp : Primary) (k0 : Fin nk) (hk0 : k0.val = 0) (A A' : Fin 2 → Fin nl → Fin nk → ℝ)
    (h : g.SameMeans A A') (m : Fin nk)
    (hm : ∀ k ≠ m, firmMean (primaryMean pp A) m < firmMean (primaryMean pp A) k) :
    a.order (firmMean (primaryMean pp A)) k0 = m ∧
    a'.order (firmMean (primaryMean (g.newPrimary pp) A')) k0 = g.firm m := by
  have key : ∀ (a : Argsort) (ha : a.Right) (v : Fin nk → ℝ) (m : Fin nk), (∀ k ≠ m, v m < v k) →
      a.order v k0 = m := by
    intro a ha v m hm
    by_contra hne
    have h1 := hm _ hne
    have h2 : v (a.order v k0) ≤ v (a.order v ((a.order v).symm m)) :=
      ha nk v (by rw [Fin.le_def, hk0]; exact Nat.zero_le _)
    rw [Equiv.apply_symm_apply] at h2
    linarith
  refine ⟨key a ha _ m hm, key a' ha' _ _ fun k hk => ?_⟩
  have hk' : g.firm.symm k ≠ m := fun e => hk (by rw [← e, Equiv.apply_symm_apply])
  have := hm _ hk'
  rw [← g.firm.apply_symm_apply k, g.firmMean_ren pp h, g.firmMean_ren pp h]
  have := mul_lt_mul_of_pos_left this g.scale_pos
  linarith

/-- C114, the same for ties: without renumbering the firm types, an `argsort` that only compares picks
the same lowest firm type. -/
theorem C114_lowest_firm_type_ties [NeZero nl] (g : Spec.Renaming ni nl nk) (hfirm : g.firm = 1) (a : Argsort)
    (ha : Spec.ByComparison a) (pp : Primary) (A A' : Fin 2 → Fin nl → Fin nk → ℝ) (h : g.SameMeans A A') :
    a.order (firmMean (primaryMean (g.newPrimary pp) A')) = a.order (firmMean (primaryMean pp A)) := by
  apply ha
  have e := g.firmMean_ren pp h
  rw [hfirm] at e
  simp only [Equiv.Perm.coe_one, id] at e
  intro i j
  rw [e, e]
  constructor
  · intro hle
    exact le_of_mul_le_mul_left (by linarith) g.scale_pos
  · intro hle
    have := mul_le_mul_of_nonneg_left hle g.scale_pos.le
    linarith

/-- C114 for movers with the lowest firm type as the source computes it (blm.py:694-716): the order of the
rows, the numbering of worker types, the direction of time and the units do not matter.  Missing:
other numberings of firm types, which matter when two types are tied for the lowest. -/
theorem C114_movers_lowest_partial [NeZero nl] (g : Spec.Renaming ni nl nk) (hfirm : g.firm = 1) (d d' : Data ni nk)
    (o : MoverOpts) (sA sA' sS sS' : Solver) (a : Argsort) (ha : Spec.ByComparison a) (pp : Primary) (k0 : Fin nk)
    (F F' : (Fin 2 → Fin nl → Fin nk → ℝ) → Prop) (lb : ℝ)
    (hd : g.SameData d d') (hlb : 0 < lb) (hdp : 1 ≤ o.dprior)
    (hsA : RightSolver (2 * (nl * nk)) (fun x => F (unflatten nl nk x)) sA)
    (hsA' : RightSolver (2 * (nl * nk)) (fun x => F' (unflatten nl nk x)) sA')
    (hsS : RightSolver (2 * (nl * nk)) (BoundS nl nk lb) sS)
    (hsS' : RightSolver (2 * (nl * nk)) (BoundS nl nk (g.scale ^ 2 * lb)) sS')
    (hFc : Spec.Midconvex F) (hF : ∃ A, F A) (hFF : ∀ A A', g.SameMeans A A' → (F' A' ↔ F A))
    (hobs : ∀ t k, ∃ i, d.G t i = k) (hW : ∀ t i, 0 < d.W t i) (nIters pm : ℕ) (s s' : MoverState nl nk)
    (hpos : ∀ t l k, 0 < s.base.S t l k) (hs : g.SameState d s s') :
    g.SameOutcome d
      (moversLoop d o sA sS (fun A => (a.order (firmMean (primaryMean pp A)) k0).val) nIters true none pm s)
      (moversLoop d' o sA' sS' (fun A => (a.order (firmMean (primaryMean (g.newPrimary pp) A)) k0).val) nIters
        true none pm s') :=
  C114_movers g d d' o sA sA' sS sS' _ _ id F F' lb hd hlb k0.pos hdp hsA hsA' hsS hsS' hFc hF hFF
    Function.injective_id (fun A A' h => by simp only [C114_lowest_firm_type_ties g hfirm a ha pp A A' h, id])
    hobs hW nIters true none pm s s' hpos hs

/-! ## Stayers -/

namespace Spec.Renaming

variable {g : Spec.Renaming ni nl nk} {d d' : Data ni nk}

/-- The proportions of worker types among stayers, in the new way (`None` is a row of `NaN`). -/
def SameProps0 (g : Spec.Renaming ni nl nk) (pk pk' : Fin nk → Option (Fin nl → ℝ)) : Prop :=
  ∀ k, pk' (g.firm k) = (pk k).map fun row l => row (g.worker.symm l)

/-- What the unit of wages takes off the average log likelihood of stayers. -/
noncomputable def likShift0 (g : Spec.Renaming ni nl nk) (d : Data ni nk) : ℝ :=
  Real.log g.scale * (∑ i, d.W 0 i) / ni

/-- `d'` is `d` written down in the new way, as far as stayers are concerned: only period 1 is read. -/
structure SameStayers (g : Spec.Renaming ni nl nk) (d d' : Data ni nk) : Prop where
  wage : ∀ i, d'.Y 0 (g.row i) = g.scale * d.Y 0 i + g.shift
  type : ∀ i, d'.G 0 (g.row i) = g.firm (d.G 0 i)
  weight : ∀ i, d'.W 0 (g.row i) = d.W 0 i

/-- The same result of `fit_stayers`: the same proportions and the same path of likelihoods up to the unit. -/
def SameStayersOutcome (g : Spec.Renaming ni nl nk) (d : Data ni nk) :
    Py ((Fin nk → Option (Fin nl → ℝ)) × List (Option ℝ)) → Py ((Fin nk → Option (Fin nl → ℝ)) × List (Option ℝ)) → Prop
  | .ok r, .ok r' => g.SameProps0 r.1 r'.1 ∧ r'.2 = r.2.map (Option.map (· - g.likShift0 d))
  | _, _ => False

variable {b b' : Base nl nk} {pk pk' : Fin nk → Option (Fin nl → ℝ)}

/-- The wage parameters of period 1 in the new way. -/
structure SameBase0 (g : Spec.Renaming ni nl nk) (b b' : Base nl nk) : Prop where
  means : ∀ l k, b'.A 0 (g.worker l) (g.firm k) = g.scale * b.A 0 l k + g.shift
  sds : ∀ l k, b'.S 0 (g.worker l) (g.firm k) = g.scale * b.S 0 l k

theorem lpWage0_ren (hd : g.SameStayers d d') (hb : g.SameBase0 b b') (hpos : ∀ l k, 0 < b.S 0 l k) (i : Fin ni)
    (l : Fin nl) : lpWage d' b' [] 0 (g.worker l) (g.row i) = lpWage d b [] 0 l i - Real.log g.scale := by
  have ha := g.scale_pos
  have hs := hpos l (d.G 0 i)
  rw [lpWage_nil, lpWage_nil, hd.type, hd.wage, hb.means, hb.sds, Real.log_mul ha.ne' hs.ne']
  have : (g.scale * d.Y 0 i + g.shift - (g.scale * b.A 0 l (d.G 0 i) + g.shift)) ^ 2 /
      (2 * (g.scale * b.S 0 l (d.G 0 i)) ^ 2) =
      (d.Y 0 i - b.A 0 l (d.G 0 i)) ^ 2 / (2 * b.S 0 l (d.G 0 i) ^ 2) := by
    field_simp
    ring
  rw [this]
  ring

variable {cs cs' : List (Ctrl ni nl)}

theorem lpStayers_ren (hd : g.SameStayers d d')
    (hw : ∀ i l, lpWage d' b' cs' 0 (g.worker l) (g.row i) = lpWage d b cs 0 l i - Real.log g.scale)
    (hp : g.SameProps0 pk pk') (i : Fin ni) (l : Fin nl) :
    lpStayers d' b' cs' pk' (g.row i) (g.worker l) = lpStayers d b cs pk i l - Real.log g.scale * d.W 0 i := by
  unfold lpStayers
  rw [hw, hd.type, hd.weight, hp]
  cases pk (d.G 0 i) <;> simp <;> ring

theorem lseStayers_ren [NeZero nl] (hd : g.SameStayers d d')
    (hw : ∀ i l, lpWage d' b' cs' 0 (g.worker l) (g.row i) = lpWage d b cs 0 l i - Real.log g.scale)
    (hp : g.SameProps0 pk pk') (i : Fin ni) :
    Util.logsumexp (lpStayers d' b' cs' pk' (g.row i)) =
      Util.logsumexp (lpStayers d b cs pk i) - Real.log g.scale * d.W 0 i := by
  rw [lse_eq, lse_eq, ← Equiv.sum_comp g.worker]
  simp only [lpStayers_ren hd hw hp, Real.exp_sub]
  rw [← sum_div, Real.log_div (sum_exp_pos _).ne' (Real.exp_pos _).ne', Real.log_exp]

theorem posteriorStayers_ren [NeZero nl] (hd : g.SameStayers d d')
    (hw : ∀ i l, lpWage d' b' cs' 0 (g.worker l) (g.row i) = lpWage d b cs 0 l i - Real.log g.scale) (hp : g.SameProps0 pk pk') (i : Fin ni) (l : Fin nl) :
    posterior (lpStayers d' b' cs' pk') (g.row i) (g.worker l) = posterior (lpStayers d b cs pk) i l := by
  unfold posterior
  rw [lpStayers_ren hd hw hp, lseStayers_ren hd hw hp]
  congr 1
  ring

theorem likStayers_ren [NeZero nl] (hd : g.SameStayers d d')
    (hw : ∀ i l, lpWage d' b' cs' 0 (g.worker l) (g.row i) = lpWage d b cs 0 l i - Real.log g.scale) (hp : g.SameProps0 pk pk') (first : Bool) (dp : ℝ) :
    likStayers d' b' cs' pk' first dp = (likStayers d b cs pk first dp).map (· - g.likShift0 d) := by
  have hm : meanLse (lpStayers d' b' cs' pk') = meanLse (lpStayers d b cs pk) - g.likShift0 d := by
    unfold meanLse likShift0
    rw [← Equiv.sum_comp g.row]
    simp only [lseStayers_ren hd hw hp]
    rw [sum_sub_distrib, ← mul_sum, sub_div]
  have hnone : (∃ k, pk' k = none) ↔ ∃ k, pk k = none := by
    constructor
    · rintro ⟨k, hk⟩
      refine ⟨g.firm.symm k, ?_⟩
      rw [← g.firm.apply_symm_apply k, hp] at hk
      simpa using hk
    · rintro ⟨k, hk⟩
      exact ⟨g.firm k, by rw [hp, hk]; rfl⟩
  have hlog : ∑ k, ∑ l, Real.log ((pk' k).getD (fun _ => 1) l) = ∑ k, ∑ l, Real.log ((pk k).getD (fun _ => 1) l) := by
    rw [← Equiv.sum_comp g.firm]
    refine sum_congr rfl fun k _ => ?_
    rw [← Equiv.sum_comp g.worker]
    refine sum_congr rfl fun l _ => ?_
    rw [hp]
    cases pk k <;> simp
  unfold likStayers
  simp only [hnone, hm, hlog]
  split
  · rfl
  · split
    · rfl
    · simp only [Option.map_some]
      congr 1
      ring

theorem updatePk0_ren [NeZero nl] (hd : g.SameStayers d d') {q q' : Fin ni → Fin nl → ℝ} (dp : ℝ) (hnk : 0 < nk)
    (htop : ∃ i, (d.G 0 i).val = nk - 1) (htop' : ∃ i, (d'.G 0 i).val = nk - 1)
    (hqq : ∀ i l, q' (g.row i) (g.worker l) = q i l) :
    ∃ pk pk', updatePk0 d q dp = .ok pk ∧ updatePk0 d' q' dp = .ok pk' ∧ g.SameProps0 pk pk' := by
  obtain ⟨e, he⟩ := (sumPk0_isOk (nl := nl) d q dp hnk).mpr htop
  obtain ⟨e', he'⟩ := (sumPk0_isOk (nl := nl) d' q' dp hnk).mpr htop'
  have hee : ∀ k l, e' (g.firm k) (g.worker l) = e k l := by
    intro k l
    rw [sumPk0_ok d q dp e he, sumPk0_ok d' q' dp e' he', sum_filter, sum_filter, ← Equiv.sum_comp g.row]
    simp only [hd.type, hd.weight, hqq, g.firm.injective.eq_iff]
  have hrow : ∀ k, ∑ l, e' (g.firm k) l = ∑ l, e k l := by
    intro k
    rw [← Equiv.sum_comp g.worker]
    simp only [hee]
  refine ⟨_, _, by unfold updatePk0; rw [he]; rfl, by unfold updatePk0; rw [he']; rfl, fun k => ?_⟩
  simp only [hrow]
  split
  · rfl
  · simp only [Option.map_some]
    congr 1
    funext l
    rw [← hee, Equiv.apply_symm_apply]

end Spec.Renaming

open Spec.Renaming in
theorem stayers_ren [NeZero nl] (g : Spec.Renaming ni nl nk) (d d' : Data ni nk) (b b' : Base nl nk)
    (cs cs' : List (Ctrl ni nl)) (dp thr : ℝ) (hd : g.SameStayers d d')
    (hw : ∀ i l, lpWage d' b' cs' 0 (g.worker l) (g.row i) = lpWage d b cs 0 l i - Real.log g.scale) (hnk : 0 < nk)
    (htop : ∃ i, (d.G 0 i).val = nk - 1) (htop' : ∃ i, (d'.G 0 i).val = nk - 1)
    (nIters : ℕ) (pk0 pk0' : Fin nk → Fin nl → ℝ) (hp : ∀ k l, pk0' (g.firm k) (g.worker l) = pk0 k l) :
    g.SameStayersOutcome d (fitStayers d b cs dp thr nIters pk0) (fitStayers d' b' cs' dp thr nIters pk0') := by
  have loop : ∀ (fuel : ℕ) (first : Bool) (prev : Option ℝ) (pk pk' : Fin nk → Option (Fin nl → ℝ))
      (acc acc' : List (Option ℝ)), g.SameProps0 pk pk' → acc' = acc.map (Option.map (· - g.likShift0 d)) →
      g.SameStayersOutcome d (stayersLoop d b cs dp thr fuel first prev pk acc)
        (stayersLoop d' b' cs' dp thr fuel first (prev.map (· - g.likShift0 d)) pk' acc') := by
    intro fuel
    induction fuel with
    | zero => intro first prev pk pk' acc acc' h h2; exact ⟨h, h2⟩
    | succ fuel ih =>
      intro first prev pk pk' acc acc' h h2
      unfold stayersLoop
      simp only
      have hlik := likStayers_ren hd hw h first dp
      have hq := posteriorStayers_ren hd hw h
      have hstop : stopStayers (likStayers d' b' cs' pk' first dp) (prev.map (· - g.likShift0 d)) thr =
          stopStayers (likStayers d b cs pk first dp) prev thr := by
        rw [hlik]
        unfold stopStayers
        cases likStayers d b cs pk first dp <;> cases prev <;> simp
      rw [hstop]
      have hacc : acc' ++ [likStayers d' b' cs' pk' first dp] =
          (acc ++ [likStayers d b cs pk first dp]).map (Option.map (· - g.likShift0 d)) := by
        rw [h2, hlik, List.map_append]; rfl
      split
      · exact ⟨h, hacc⟩
      · obtain ⟨p, p', e1, e1', hpp⟩ := updatePk0_ren hd dp hnk htop htop' hq
        rw [e1, e1']
        simp only [bind, Except.bind]
        rw [hlik] at hacc ⊢
        exact ih false _ p p' _ _ hpp hacc
  refine loop nIters true none _ _ [] [] (fun k => ?_) rfl
  simp only [Option.map_some]
  congr 1
  funext l
  rw [← hp, Equiv.apply_symm_apply]

/-- C114 for stayers: the whole run of `fit_stayers` on renamed data is the renamed run, provided the
highest-numbered firm type has a stayer in both numberings (without it the function raises, see
`C114_stayers_numbering`).  With controls: `C114_stayers_controls`. -/
theorem C114_stayers [NeZero nl] (g : Spec.Renaming ni nl nk) (d d' : Data ni nk) (b b' : Base nl nk)
    (dp thr : ℝ) (hd : g.SameStayers d d') (hb : g.SameBase0 b b') (hnk : 0 < nk)
    (hpos : ∀ l k, 0 < b.S 0 l k) (htop : ∃ i, (d.G 0 i).val = nk - 1) (htop' : ∃ i, (d'.G 0 i).val = nk - 1)
    (nIters : ℕ) (pk0 pk0' : Fin nk → Fin nl → ℝ) (hp : ∀ k l, pk0' (g.firm k) (g.worker l) = pk0 k l) :
    g.SameStayersOutcome d (fitStayers d b [] dp thr nIters pk0) (fitStayers d' b' [] dp thr nIters pk0') := 
  stayers_ren g d d' b b' [] [] dp thr hd (Spec.Renaming.lpWage0_ren hd hb hpos) hnk htop htop' nIters pk0 pk0' hp

/-! ## Non-vacuity and the exception -/

/-- The data written down in the new way. -/
def Spec.Renaming.data (g : Spec.Renaming ni nl nk) (d : Data ni nk) : Data ni nk :=
  ⟨fun t i => g.scale * d.Y (g.period.symm t) (g.row.symm i) + g.shift,
    fun t i => g.firm (d.G (g.period.symm t) (g.row.symm i)), fun t i => d.W (g.period.symm t) (g.row.symm i)⟩

/-- Every data set can be written down in every new way. -/
theorem Spec.Renaming.data_same (g : Spec.Renaming ni nl nk) (d : Data ni nk) : g.SameData d (g.data d) :=
  ⟨fun t i => by simp [data], fun t i => by simp [data], fun t i => by simp [data]⟩

/-- Every state of the estimation can be written down in every new way. -/
theorem Spec.Renaming.exists_state (g : Spec.Renaming ni nl nk) (d : Data ni nk) (hnk : 0 < nk) (s : MoverState nl nk) :
    ∃ s', g.SameState d s s' := by
  refine ⟨⟨⟨g.new s.base.A, fun t l k => g.scale * s.base.S (g.period.symm t) (g.worker.symm l) (g.firm.symm k)⟩,
    fun p l =>
      let k' : Fin 2 → Fin nk := ![⟨p % nk, Nat.mod_lt _ hnk⟩, ⟨p / nk % nk, Nat.mod_lt _ hnk⟩]
      s.pk1 ((g.firm.symm (k' (g.period 0))).val + nk * (g.firm.symm (k' (g.period 1))).val) (g.worker.symm l),
    s.liks.map (· - g.likShift d)⟩, same_new _, fun t l k => by simp, fun k l => ?_, rfl⟩
  have h : ∀ x y : Fin nk, (![⟨(x.val + nk * y.val) % nk, Nat.mod_lt _ hnk⟩,
      ⟨(x.val + nk * y.val) / nk % nk, Nat.mod_lt _ hnk⟩] : Fin 2 → Fin nk) = ![x, y] := by
    intro x y
    have h1 : (x.val + nk * y.val) % nk = x.val := by rw [Nat.add_mul_mod_self_left, Nat.mod_eq_of_lt x.isLt]
    have h2 : (x.val + nk * y.val) / nk % nk = y.val := by
      rw [Nat.add_mul_div_left _ _ hnk, Nat.div_eq_of_lt x.isLt, Nat.zero_add, Nat.mod_eq_of_lt y.isLt]
    funext t
    fin_cases t
    · exact Fin.ext h1
    · exact Fin.ext h2
  simp only [h]
  rcases period_cases g.period with ⟨e0, e1, e2, e3⟩ | ⟨e0, e1, e2, e3⟩ <;> simp [e0, e1, e2, e3]

/-- Four movers covering the four pairs of two firm types. -/
def fourMovers : Data 4 2 := ⟨fun t i => if t = 0 then i.val else 2 * i.val, fun t i => if t = 0 then ⟨i.val % 2, by omega⟩
  else ⟨i.val / 2, by omega⟩, fun t i => if t = 0 then 1 else 2⟩

/-- Rows, worker types, firm types and periods all exchanged, wages in other units. -/
def allChanged : Spec.Renaming 4 2 2 := ⟨Equiv.swap 0 3, Equiv.swap 0 1, Equiv.swap 0 1, Equiv.swap 0 1, 2, 5, two_pos⟩

/-- Non-vacuity of C114: all the hypotheses hold together for `fourMovers` renamed by `allChanged`. -/
example : ∃ (d' : Data 4 2) (sA sA' sS sS' : Solver) (s s' : MoverState 2 2),
    allChanged.SameData fourMovers d' ∧ d' ≠ fourMovers ∧
    RightSolver (2 * (2 * 2)) (fun _ => True) sA ∧ RightSolver (2 * (2 * 2)) (fun _ => True) sA' ∧
    RightSolver (2 * (2 * 2)) (BoundS 2 2 1) sS ∧ RightSolver (2 * (2 * 2)) (BoundS 2 2 (allChanged.scale ^ 2 * 1)) sS' ∧
    Spec.Midconvex (nl := 2) (nk := 2) (fun _ => True) ∧ (∀ t k, ∃ i, fourMovers.G t i = k) ∧
    (∀ t i, 0 < fourMovers.W t i) ∧ (∀ t l k, 0 < s.base.S t l k) ∧ allChanged.SameState fourMovers s s' ∧
    ∃ (minType minType' : (Fin 2 → Fin 2 → Fin 2 → ℝ) → ℕ), ∀ A A', allChanged.SameMeans A A' → minType' A' = id (minType A) := by
  obtain ⟨sA, hA⟩ := rightSolver_free (2 * (2 * 2))
  obtain ⟨sS, hS⟩ := rightSolver_box (2 * (2 * 2)) 1
  obtain ⟨sS', hS'⟩ := rightSolver_box (2 * (2 * 2)) (allChanged.scale ^ 2 * 1)
  obtain ⟨s', hs'⟩ := allChanged.exists_state fourMovers two_pos
    ⟨⟨fun _ l _ => l.val, fun _ _ _ => 1⟩, fun _ _ => 1 / 2, []⟩
  refine ⟨allChanged.data fourMovers, sA, sA, sS, sS', _, s', allChanged.data_same _, ?_, hA, hA, hS, hS',
    fun _ _ _ _ => trivial, ?_, ?_, fun _ _ _ => one_pos, hs', fun _ => 0, fun _ => 0, fun _ _ _ => rfl⟩
  · intro h
    have := congrFun (congrFun (congrArg Data.Y h) 0) 3
    simp [Spec.Renaming.data, allChanged, fourMovers] at this
  · intro t k
    fin_cases t
    · exact ⟨⟨k.val, by omega⟩, Fin.ext (by simp [fourMovers]; omega)⟩
    · exact ⟨⟨2 * k.val, by omega⟩, Fin.ext (by simp [fourMovers])⟩
  · intro t i
    simp only [fourMovers]
    split <;> norm_num

/-- Three firm types, three stayers, one for each of the types `0`, `0` and `2`: type 1 has no stayer. -/
def gapData : Data 3 3 := ⟨fun _ _ => 0, fun _ i => if i = 2 then 2 else 0, fun _ _ => 1⟩

/-- Firm types 1 and 2 exchanged. -/
def gapSwap : Spec.Renaming 3 1 3 := ⟨1, 1, Equiv.swap 1 2, 1, 1, 0, one_pos⟩

/-- C114 does not hold for stayers without its condition: with a firm type that has no stayer,
`fit_stayers` returns or raises according to whether that firm type happens to have the highest number. -/
theorem C114_stayers_numbering : ∃ (d d' : Data 3 3) (g : Spec.Renaming 3 1 3) (b : Base 1 3)
    (pk0 : Fin 3 → Fin 1 → ℝ), g.SameData d d' ∧ (∀ t l k, 0 < b.S t l k) ∧ g.SameMeans b.A b.A ∧ g.SameSds b.S b.S ∧
      (∃ r, fitStayers d b [] 1 0 1 pk0 = .ok r) ∧ fitStayers d' b [] 1 0 1 pk0 = .error "ValueError" := by
  refine ⟨gapData, gapSwap.data gapData, gapSwap, ⟨fun _ _ _ => 0, fun _ _ _ => 1⟩, fun _ _ => 1,
    gapSwap.data_same gapData, fun _ _ _ => one_pos, fun _ _ _ => by simp [gapSwap], fun _ _ _ => by simp [gapSwap],
    ?_, ?_⟩
  · have hs : ∀ l, stopStayers l none 0 = false := by intro l; unfold stopStayers; cases l <;> rfl
    unfold fitStayers stayersLoop
    simp only [hs, Bool.false_eq_true, if_false]
    obtain ⟨e, he⟩ := (sumPk0_isOk (nl := 1) gapData (posterior (lpStayers gapData
      (⟨fun _ _ _ => 0, fun _ _ _ => 1⟩ : Base 1 3) [] fun _ => some fun _ => 1)) 1 (by norm_num)).mpr ⟨2, rfl⟩
    unfold updatePk0
    rw [he]
    exact ⟨_, rfl⟩
  · have hs : ∀ l, stopStayers l none 0 = false := by intro l; unfold stopStayers; cases l <;> rfl
    unfold fitStayers stayersLoop
    simp only [hs, Bool.false_eq_true, if_false]
    have hno : ¬ ∃ i, ((gapSwap.data gapData).G 0 i).val = 3 - 1 := by decide
    have h := mt (sumPk0_isOk (nl := 1) (gapSwap.data gapData) (posterior (lpStayers (gapSwap.data gapData)
      (⟨fun _ _ _ => 0, fun _ _ _ => 1⟩ : Base 1 3) [] fun _ => some fun _ => 1)) 1 (by norm_num)).mp hno
    unfold updatePk0
    cases he : sumPk0 (gapSwap.data gapData) (posterior (lpStayers (gapSwap.data gapData)
      (⟨fun _ _ _ => 0, fun _ _ _ => 1⟩ : Base 1 3) [] fun _ => some fun _ => 1)) 1 with
    | ok e => exact absurd ⟨e, he⟩ h
    | error m =>
      simp only [bind, Except.bind]
      unfold sumPk0 at he
      simp only at he
      split at he
      · cases he
      · cases he; rfl

end Pytwoway.BLM
