import Verif.FE.Props4

/-! # Variances of stayers: C60 -/

namespace Pytwoway.FE

open Matrix Pytwoway.Util
open scoped BigOperators

variable {n m nw : ℕ} {d : Panel n m nw} {solve : (Fin m → ℝ) → (Fin m → ℝ)}

section C60

/-- Leverage of a row of a worker who never changes firm: its share in the worker's total weight. -/
theorem C60_stayer_leverage (hv : d.Valid) (hc : d.Connected) (o : Fin n)
    (hst : ∀ b, d.i b = d.i o → d.j b = d.j o) :
    d.computePii d.blocksFull o = d.Dp o / ∑ b with d.i b = d.i o, d.Dp b := by
  have hu := d.nmat_unit hv hc
  have hT := d.Dw_pos hv (d.i o)
  rw [d.computePii_eq hv hu]
  change hat d.X d.Dp o o = d.Dp o / d.Dw (d.i o)
  set t : Fin m ⊕ Fin nw → ℝ := Sum.elim 0 (Pi.single (d.i o) (d.Dp o / d.Dw (d.i o))) with ht
  have hXt : ∀ b, (d.X *ᵥ t) b = if d.i b = d.i o then d.Dp o / d.Dw (d.i o) else 0 := by
    intro b
    rw [ht, d.X_mulVec]
    have : Panel.withZero (0 : Fin m → ℝ) (d.j b) = 0 := by
      refine Fin.cases ?_ (fun k => ?_) (d.j b) <;> simp [Panel.withZero]
    rw [this, zero_add, Pi.single_apply]
  have hsum : ∀ c : Fin n → ℝ, (∀ b, d.i b = d.i o → c b = c o) →
      ∑ b, c b * (d.Dp b * (if d.i b = d.i o then d.Dp o / d.Dw (d.i o) else 0)) = c o * d.Dp o := by
    intro c hcst
    have : ∀ b, c b * (d.Dp b * (if d.i b = d.i o then d.Dp o / d.Dw (d.i o) else 0))
        = (c o * (d.Dp o / d.Dw (d.i o))) * (if d.i b = d.i o then d.Dp b else 0) := by
      intro b; split
      · next h => rw [hcst b h]; ring
      · ring
    simp only [this]
    rw [← Finset.mul_sum, ← Finset.sum_filter]
    change c o * (d.Dp o / d.Dw (d.i o)) * d.Dw (d.i o) = _
    field_simp
  have hN : nmat d.X d.Dp *ᵥ t = (d.Xᵀ * diagonal d.Dp) *ᵥ Pi.single o 1 := by
    rw [nmat, ← mulVec_mulVec]
    ext k
    rw [← mulVec_mulVec, ← mulVec_mulVec]
    have hd : ∀ v : Fin n → ℝ, diagonal d.Dp *ᵥ v = fun b => d.Dp b * v b := by
      intro v; ext b; rw [mulVec_diagonal]
    rw [hd, hd]
    have h2 : (d.Xᵀ *ᵥ fun b => d.Dp b * (Pi.single o 1 : Fin n → ℝ) b) k = d.X o k * d.Dp o := by
      simp [mulVec, dotProduct, Pi.single_apply]
    rw [h2]
    simp only [mulVec, dotProduct, transpose_apply]
    have hXt' : ∀ b, (∑ x, d.X b x * t x) = if d.i b = d.i o then d.Dp o / d.Dw (d.i o) else 0 := hXt
    simp only [hXt']
    refine hsum (fun b => d.X b k) fun b hb => ?_
    rcases k with k | i
    · simp [Panel.X, Panel.J, Panel.Jfull, hst b hb]
    · simp [Panel.X, Panel.W, hb]
  have hfit : hat d.X d.Dp *ᵥ Pi.single o 1 = d.X *ᵥ t := by
    have : hat d.X d.Dp = d.X * ((nmat d.X d.Dp)⁻¹ * (d.Xᵀ * diagonal d.Dp)) := by
      rw [hat]; simp only [Matrix.mul_assoc]
    rw [this, ← mulVec_mulVec, ← mulVec_mulVec, ← hN, mulVec_mulVec t, nonsing_inv_mul _ hu, one_mulVec]
  have := congrFun hfit o
  rw [hXt, if_pos rfl] at this
  rw [← this]; simp

/-- C60, `Sii_stayers='firm_mean'`: movers keep their own variance estimate; a stayer's estimate, times
the row's weight, is the weighted average over the movers' rows at the same firm of weight times
variance estimate; a stayer whose firm has no mover gets none. -/
theorem C60_firm_mean (hv : d.Valid) (Pii : Fin n → ℝ) (o : Fin n) :
    (d.workerM o → d.siiHe solve .firmMean Pii o = some (d.looSii solve Pii o)) ∧
    (¬ d.workerM o → (∃ b, d.workerM b ∧ d.j b = d.j o) → ∃ s, d.siiHe solve .firmMean Pii o = some s ∧
      (d.Dp o * s) * (∑ b with d.workerM b ∧ d.j b = d.j o, d.Dp b)
        = ∑ b with d.workerM b ∧ d.j b = d.j o, d.Dp b * (d.Dp b * d.looSii solve Pii b)) ∧
    (¬ d.workerM o → (¬ ∃ b, d.workerM b ∧ d.j b = d.j o) → d.siiHe solve .firmMean Pii o = none) := by
  refine ⟨fun h => by simp [Panel.siiHe, h], fun h hb => ?_, fun h hb => by simp only [Panel.siiHe, if_neg h, if_neg hb]⟩
  have hpos : 0 < ∑ b with d.workerM b ∧ d.j b = d.j o, d.Dp b := by
    obtain ⟨b, hb⟩ := hb
    exact Finset.sum_pos (fun o _ => hv.wpos o) ⟨b, by simp [hb]⟩
  have hw := hv.wpos o
  simp only [Panel.siiHe, if_neg h, if_pos hb]
  split
  · refine ⟨_, rfl, ?_⟩
    simp only [← mul_assoc, ← pow_two]
    field_simp
  · next hwt =>
    refine ⟨_, rfl, ?_⟩
    have h1 : ∀ b, d.Dp b = 1 := fun b => by simp [Panel.Dp, hwt]
    simp only [h1, Finset.sum_const, nsmul_eq_mul, mul_one, one_mul] at hpos ⊢
    field_simp

/-- C60, `Sii_stayers='upper_bound'` without weights: the estimate is refused exactly when some stayer
has a single row; otherwise every row gets the leave-one-out estimate, and for a row of a stayer seen
`T` times this is the deviation from the mean times the residual times `T / (T - 1)`. -/
theorem C60_upper_bound_unweighted (hv : d.Valid) (hc : d.Connected) (hw : d.weighted = false) (o : Fin n) :
    (d.siiHe solve .upperBound d.exactPii o = none ↔
      ∃ s, ¬ d.workerM s ∧ ∀ b, ¬ d.workerM b → d.i b = d.i s → b = s) ∧
    (∀ v, d.siiHe solve .upperBound d.exactPii o = some v →
      v = d.looSii solve d.exactPii o ∧
      ((∀ b, d.i b = d.i o → d.j b = d.j o) → ∀ T : ℕ, T = (Finset.univ.filter fun b => d.i b = d.i o).card →
        T ≠ 1 → v = (d.y o - (∑ b, d.y b) / n) * d.E solve o * (T / (T - 1 : ℝ)))) := by
  have h1 : ∀ b, d.Dp b = 1 := fun b => by simp [Panel.Dp, hw]
  have hex : (∃ s, ¬ d.workerM s ∧ (Finset.univ.filter fun o' => ¬ d.workerM o' ∧ d.i o' = d.i s).card = 1)
      ↔ ∃ s, ¬ d.workerM s ∧ ∀ b, ¬ d.workerM b → d.i b = d.i s → b = s := by
    refine exists_congr fun s => and_congr_right fun hs => ?_
    rw [Finset.card_eq_one]
    constructor
    · rintro ⟨a, ha⟩ b hb hbi
      have m1 : b ∈ ({a} : Finset (Fin n)) := ha ▸ by simp [hb, hbi]
      have m2 : s ∈ ({a} : Finset (Fin n)) := ha ▸ by simp [hs]
      rw [Finset.mem_singleton] at m1 m2
      rw [m1, m2]
    · intro h
      refine ⟨s, ?_⟩
      ext b
      simp only [Finset.mem_filter, Finset.mem_univ, true_and, Finset.mem_singleton]
      exact ⟨fun hb => h b hb.1 hb.2, fun hb => by subst hb; exact ⟨hs, rfl⟩⟩
  have hval : d.siiHe solve .upperBound d.exactPii o
      = if ∃ s, ¬ d.workerM s ∧ ∀ b, ¬ d.workerM b → d.i b = d.i s → b = s then none
        else some (d.looSii solve d.exactPii o) := by
    simp only [Panel.siiHe, hw, hex]
    simp
  rw [hval]
  refine ⟨by split <;> simp_all, fun v hvv => ?_⟩
  split at hvv
  · cases hvv
  cases hvv
  refine ⟨rfl, fun hst T hT hT1 => ?_⟩
  have hlev := C60_stayer_leverage hv hc o hst
  simp only [h1, Finset.sum_const, nsmul_eq_mul, mul_one] at hlev
  have hP : d.exactPii o = 1 / (T : ℝ) := by
    rw [Panel.exactPii, hT, ← hlev]; simp [hw]
  have hTpos : 1 ≤ T := by
    rw [hT]; exact Finset.card_pos.2 ⟨o, by simp⟩
  have hT2 : (T : ℝ) - 1 ≠ 0 := by
    rw [sub_ne_zero]; exact_mod_cast hT1
  have hT0 : (T : ℝ) ≠ 0 := by positivity
  have hmean : weightedMean d.y (.vec d.Dp) = (∑ b, d.y b) / n := by
    have : d.Dp = fun _ => 1 := funext h1
    simp [weightedMean, this]
  rw [Panel.looSii, hP, hmean]
  have : (1 : ℝ) - 1 / T = (T - 1) / T := by field_simp
  rw [this]
  field_simp

/-- C60, `Sii_stayers='upper_bound'` with weights (partial: it is the leave-one-out estimate only for a
row of weight 1, because the code takes `1 / T` for the leverage `w / T` of a row of weight `w` of a
stayer of total weight `T`, `C60_stayer_leverage`): refused exactly when some stayer has total weight 1;
movers keep their estimate; for a stayer, weight times estimate times `1 - 1/T` is the deviation from the
weighted mean times the residual, and for a row of weight 1 this is the leave-one-out estimate. -/
theorem C60_upper_bound_weighted_partial (hv : d.Valid) (hc : d.Connected) (hw : d.weighted = true)
    (Pii : Fin n → ℝ) (o : Fin n) :
    (d.siiHe solve .upperBound Pii o = none ↔
      ∃ s, ¬ d.workerM s ∧ ∑ b with d.i b = d.i s, d.Dp b = 1) ∧
    (∀ v, d.siiHe solve .upperBound Pii o = some v →
      (d.workerM o → v = d.looSii solve Pii o) ∧
      (¬ d.workerM o →
        d.Dp o * v * (1 - 1 / ∑ b with d.i b = d.i o, d.Dp b)
          = (d.y o - (∑ b, d.Dp b * d.y b) / ∑ b, d.Dp b)
            * (d.y o - (d.psiCol solve o + d.alphaCol solve o)) ∧
        (d.Dp o = 1 → v = d.looSii solve (d.computePii d.blocksFull) o))) := by
  have hst : ∀ s, ¬ d.workerM s → ∀ b, (¬ d.workerM b ∧ d.i b = d.i s ↔ d.i b = d.i s) := by
    intro s hs b
    refine ⟨fun h => h.2, fun h => ⟨?_, h⟩⟩
    rintro ⟨c, hc1, hc2⟩
    by_cases hjb : d.j b = d.j s
    · exact hs ⟨c, by rw [hc1, h], by rw [← hjb]; exact hc2⟩
    · exact hs ⟨b, h, hjb⟩
  have hsum : ∀ s, ¬ d.workerM s → (∑ b with ¬ d.workerM b ∧ d.i b = d.i s, d.Dp b)
      = ∑ b with d.i b = d.i s, d.Dp b := by
    intro s hs
    congr 1
    ext b
    simp only [Finset.mem_filter, Finset.mem_univ, true_and, hst s hs]
  have hex : (∃ s, ¬ d.workerM s ∧ 1 / (∑ b with ¬ d.workerM b ∧ d.i b = d.i s, d.Dp b) = 1)
      ↔ ∃ s, ¬ d.workerM s ∧ ∑ b with d.i b = d.i s, d.Dp b = 1 := by
    refine exists_congr fun s => and_congr_right fun hs => ?_
    rw [hsum s hs]
    have := d.Dw_pos hv (d.i s)
    rw [Panel.Dw] at this
    rw [div_eq_one_iff_eq this.ne', eq_comm]
  have hval : d.siiHe solve .upperBound Pii o
      = if ∃ s, ¬ d.workerM s ∧ ∑ b with d.i b = d.i s, d.Dp b = 1 then none
        else if d.workerM o then some (d.looSii solve Pii o)
        else some ((d.y o - weightedMean d.y (.vec d.Dp))
          * (d.E solve o / (1 - 1 / (∑ o' with ¬ d.workerM o' ∧ d.i o' = d.i o, d.Dp o'))) / d.Dp o) := by
    simp only [Panel.siiHe, hw, hex]
    simp
  rw [hval]
  refine ⟨by split <;> [simp_all; (split <;> simp_all)], fun v hvv => ?_⟩
  split at hvv
  · cases hvv
  next hno =>
  refine ⟨fun hm => by rw [if_pos hm] at hvv; cases hvv; rfl, fun hm => ?_⟩
  rw [if_neg hm, hsum o hm] at hvv
  cases hvv
  have hT := d.Dw_pos hv (d.i o)
  rw [Panel.Dw] at hT
  have hT1 : 1 - 1 / (∑ b with d.i b = d.i o, d.Dp b) ≠ 0 := by
    intro h
    refine hno ⟨o, hm, ?_⟩
    have := (div_eq_one_iff_eq hT.ne').1 (sub_eq_zero.1 h).symm
    exact this.symm
  have hwo := (hv.wpos o).ne'
  have hE : d.E solve o = d.y o - (d.psiCol solve o + d.alphaCol solve o) := by
    simp only [Panel.E, Panel.multA, Pi.add_apply, d.J_mulVec, d.W_mulVec, Panel.psiCol, Panel.alphaCol]
  have hmean : weightedMean d.y (.vec d.Dp) = (∑ b, d.Dp b * d.y b) / ∑ b, d.Dp b := by
    simp [weightedMean]
  constructor
  · rw [hE, hmean]
    generalize 1 - 1 / (∑ b with d.i b = d.i o, d.Dp b) = u at hT1 ⊢
    field_simp
  · intro h1
    have hlev := C60_stayer_leverage hv hc o fun b hb => by
      by_contra h
      exact hm ⟨b, hb, h⟩
    rw [Panel.looSii, hlev, h1, div_one]

/-- C60 fails with weights: a stayer seen in a single row of weight other than 1 has leverage 1, so no
leave-one-out prediction exists, yet `'upper_bound'` returns an estimate, and it is 0. -/
theorem C60_single_row_stayer (hv : d.Valid) (hc : d.Connected) (hs : d.GoodSolver solve)
    (hw : d.weighted = true) (Pii : Fin n → ℝ) (o : Fin n) (hone : ∀ b, d.i b = d.i o → b = o)
    (hne : ∀ s, ¬ d.workerM s → ∑ b with d.i b = d.i s, d.Dp b ≠ 1) :
    d.computePii d.blocksFull o = 1 ∧ d.siiHe solve .upperBound Pii o = some 0 := by
  have hm : ¬ d.workerM o := by
    rintro ⟨b, hb, hj⟩
    exact hj (by rw [hone b hb])
  have hfil : (Finset.univ.filter fun b => d.i b = d.i o) = {o} := by
    ext b; simp only [Finset.mem_filter, Finset.mem_univ, true_and, Finset.mem_singleton]
    exact ⟨hone b, fun h => by rw [h]⟩
  obtain ⟨h1, h2⟩ := C60_upper_bound_weighted_partial (solve := solve) hv hc hw Pii o
  refine ⟨?_, ?_⟩
  · rw [C60_stayer_leverage hv hc o fun b hb => by rw [hone b hb], hfil, Finset.sum_singleton,
      div_self (hv.wpos o).ne']
  · rcases hvv : d.siiHe solve .upperBound Pii o with _ | v
    · obtain ⟨s, hs1, hs2⟩ := h1.1 hvv
      exact absurd hs2 (hne s hs1)
    · have h3 := ((h2 v hvv).2 hm).1
      have hn := (C15_normal_equations hv hs).2 (d.i o)
      rw [hfil, Finset.sum_singleton] at hn
      have hr : d.y o - (d.psiCol solve o + d.alphaCol solve o) = 0 := by
        have := (mul_eq_zero.1 hn).resolve_left (hv.wpos o).ne'
        linarith
      rw [hr, mul_zero, hfil, Finset.sum_singleton] at h3
      have hw1 := hne o hm
      rw [hfil, Finset.sum_singleton] at hw1
      have hw0 := (hv.wpos o).ne'
      have : (1 : ℝ) - 1 / d.Dp o ≠ 0 := by
        intro h
        have h' := (div_eq_one_iff_eq hw0).1 (sub_eq_zero.1 h).symm
        exact hw1 h'.symm
      have : v = 0 := by
        rcases mul_eq_zero.1 h3 with h | h
        · exact (mul_eq_zero.1 h).resolve_left hw0
        · exact absurd h this
      rw [this]

/-- A weighted panel with two movers linking two firms and a stayer in a single row of weight 2. -/
def ex60 : Panel 5 1 3 where
  j := ![0, 1, 0, 1, 1]
  i := ![0, 0, 1, 1, 2]
  y := ![1, 3, 2, 7, 5]
  weighted := true
  w := ![1, 2, 1, 3, 2]

theorem ex60_stayer (o : Fin 5) : ex60.workerM o ↔ o ≠ 4 := by
  revert o; unfold Panel.workerM ex60; decide

/-- The hypotheses of the C60 theorems hold of `ex60`. -/
example : ex60.Valid ∧ ex60.Connected ∧ ¬ ex60.workerM 4 ∧ (∃ b, ex60.workerM b ∧ ex60.j b = ex60.j 4) ∧
    (∀ b, ex60.i b = ex60.i 4 → b = 4) ∧
    (∀ s, ¬ ex60.workerM s → ∑ b with ex60.i b = ex60.i s, ex60.Dp b ≠ 1) := by
  refine ⟨⟨?_, ?_⟩, ?_, ?_, ?_, ?_, ?_⟩
  · intro o; fin_cases o <;> norm_num [Panel.Dp, ex60]
  · intro i; fin_cases i; exacts [⟨0, rfl⟩, ⟨2, rfl⟩, ⟨4, rfl⟩]
  · have h : ∀ a b, ex60.Linked a b := by
      intro a b
      fin_cases a <;> fin_cases b
      exacts [⟨0, 0, rfl, rfl, rfl⟩, ⟨0, 1, rfl, rfl, rfl⟩, ⟨1, 0, rfl, rfl, rfl⟩, ⟨1, 1, rfl, rfl, rfl⟩]
    exact fun a b => .single (h a b)
  · simp [ex60_stayer]
  · exact ⟨1, by simp [ex60_stayer], rfl⟩
  · intro b; revert b; unfold ex60; decide
  · intro s hs
    have : s = 4 := by by_contra h; exact hs ((ex60_stayer s).2 h)
    subst this
    have : (Finset.univ.filter fun b => ex60.i b = ex60.i 4) = {4} := by
      unfold ex60; decide
    rw [this, Finset.sum_singleton]
    norm_num [Panel.Dp, ex60]
    show (2 : ℝ) ≠ 1
    norm_num

end C60

end Pytwoway.FE
