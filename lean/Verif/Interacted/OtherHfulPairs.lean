import Verif.Interacted.OtherHfulEx

/-! # C100: `hful` with firm pairs of different sizes, and with weights -/

namespace Pytwoway.Interacted

open Finset

variable {ni nf n m : ℕ}

/-! ## Running `hful` on three columns -/

/-- `hful` with `C = 0` and three columns, from the matrices it forms: `r` is the smallest eigenvalue of `M` and
`(1, y0, y1)` the only direction belonging to it. -/
theorem hful_three (e : EigVec) (he : e.Right) (X : Fin ni → ℕ → ℝ) (D : Fin ni → ℝ) (weighted : Bool) (z : Instr ni)
    (tik : ℝ) (B Bi A M : Matrix (Fin 3) (Fin 3) ℝ) (hB : cross 3 3 (fun _ => 1) X X = B) (hBi : B * Bi = 1)
    (hA : wzH 3 X D z tik = A) (hM : Bi * A = M) (r y0 y1 : ℝ) (hv : M.mulVec ![1, y0, y1] = r • ![1, y0, y1])
    (hmin : ∀ μ < r, (M - μ • (1 : Matrix (Fin 3) (Fin 3) ℝ)).det ≠ 0) (wt : Fin 3 → ℝ)
    (hrw : rowWeights 3 weighted D = .ok wt) (hwt : ∀ a, 0 < wt a)
    (hker : ∀ a b, (M - r • (1 : Matrix (Fin 3) (Fin 3) ℝ)).mulVec ![0, a, b] = 0 → a = 0 ∧ b = 0) :
    hful e 3 X D weighted z tik 0 0 = .ok (insert1 0 (ext 2 ![y0, y1])) := by
  have hne : (![1, y0, y1] : Fin 3 → ℝ) ≠ 0 := fun h => by have := congrFun h 0; norm_num at this
  obtain ⟨p, hp⟩ := smallest_ok e he M r _ hne hv
  obtain ⟨hp0, heig, hlow⟩ := smallest_spec e he M hp
  have hpr : p.1 = r := by
    refine le_antisymm (hlow _ _ hne hv) ?_
    by_contra hc
    push Not at hc
    refine hmin p.1 hc (Matrix.exists_mulVec_eq_zero_iff.mp ⟨p.2, hp0, ?_⟩)
    rw [Matrix.sub_mulVec, Matrix.smul_mulVec, Matrix.one_mulVec, heig, sub_self]
  have hdet : B.det ≠ 0 := fun h => by
    have := congrArg Matrix.det hBi
    rw [Matrix.det_mul, h, zero_mul, Matrix.det_one] at this
    exact zero_ne_one this
  unfold hful
  simp only [bind, Except.bind]
  rw [hB, hA, invOf_eq hdet, Matrix.inv_eq_right_inv hBi]
  dsimp only
  rw [hM, hp]
  dsimp only
  rw [hpr, lambda2_zero]
  set V := M - r • (1 : Matrix (Fin 3) (Fin 3) ℝ) with hV
  have hVv : ∀ c, V c 0 + V c 1 * y0 + V c 2 * y1 = 0 := by
    have h : V.mulVec ![1, y0, y1] = 0 := by
      rw [hV, Matrix.sub_mulVec, Matrix.smul_mulVec, Matrix.one_mulVec, hv, sub_self]
    intro c
    have := congrFun h c
    simpa [Matrix.mulVec, dotProduct, Fin.sum_univ_three] using this
  unfold hfulSolve
  rw [dif_pos (by norm_num)]
  simp only [bind, Except.bind, hrw]
  have hd0 : ∀ c, dropCol 0 V c 0 = V c 1 := fun c => by simp [dropCol, skip]
  have hd1 : ∀ c, dropCol 0 V c 1 = V c 2 := fun c => by simp [dropCol, skip]
  have hG : hfulG 0 wt V = (!![∑ c, wt c * V c 1 * V c 1, ∑ c, wt c * V c 1 * V c 2;
      ∑ c, wt c * V c 2 * V c 1, ∑ c, wt c * V c 2 * V c 2] : Matrix (Fin 2) (Fin 2) ℝ) := by
    funext a b
    change Fin 2 at a b
    fin_cases a <;> fin_cases b <;> simp [hfulG, hd0, hd1]
  have hA' : hfulA ⟨0, by norm_num⟩ wt V = (![∑ c, wt c * V c 1 * - V c 0, ∑ c, wt c * V c 2 * - V c 0] : Fin 2 → ℝ) := by
    funext a
    change Fin 2 at a
    fin_cases a <;> simp [hfulA, hd0, hd1]
  rw [hG, hA']
  have hs : solveQP (!![∑ c, wt c * V c 1 * V c 1, ∑ c, wt c * V c 1 * V c 2;
      ∑ c, wt c * V c 2 * V c 1, ∑ c, wt c * V c 2 * V c 2] : Matrix (Fin 2) (Fin 2) ℝ)
      ![∑ c, wt c * V c 1 * - V c 0, ∑ c, wt c * V c 2 * - V c 0] = .ok ![y0, y1] := by
    apply solveQP_eq
    · intro v hv'
      have e1 : ∑ a, v a * (!![∑ c, wt c * V c 1 * V c 1, ∑ c, wt c * V c 1 * V c 2;
          ∑ c, wt c * V c 2 * V c 1, ∑ c, wt c * V c 2 * V c 2] : Matrix (Fin 2) (Fin 2) ℝ).mulVec v a =
          wt 0 * (V 0 1 * v 0 + V 0 2 * v 1) ^ 2 + wt 1 * (V 1 1 * v 0 + V 1 2 * v 1) ^ 2 +
            wt 2 * (V 2 1 * v 0 + V 2 2 * v 1) ^ 2 := by
        simp [Matrix.mulVec, dotProduct, Fin.sum_univ_two, Fin.sum_univ_three]
        ring
      rw [e1]
      by_contra hc
      push Not at hc
      have g0 := mul_nonneg (hwt 0).le (sq_nonneg (V 0 1 * v 0 + V 0 2 * v 1))
      have g1 := mul_nonneg (hwt 1).le (sq_nonneg (V 1 1 * v 0 + V 1 2 * v 1))
      have g2 := mul_nonneg (hwt 2).le (sq_nonneg (V 2 1 * v 0 + V 2 2 * v 1))
      have z0 : V 0 1 * v 0 + V 0 2 * v 1 = 0 :=
        pow_eq_zero_iff two_ne_zero |>.mp ((mul_eq_zero.mp (le_antisymm (by linarith) g0)).resolve_left (hwt 0).ne')
      have z1 : V 1 1 * v 0 + V 1 2 * v 1 = 0 :=
        pow_eq_zero_iff two_ne_zero |>.mp ((mul_eq_zero.mp (le_antisymm (by linarith) g1)).resolve_left (hwt 1).ne')
      have z2 : V 2 1 * v 0 + V 2 2 * v 1 = 0 :=
        pow_eq_zero_iff two_ne_zero |>.mp ((mul_eq_zero.mp (le_antisymm (by linarith) g2)).resolve_left (hwt 2).ne')
      obtain ⟨k0, k1⟩ := hker (v 0) (v 1) (by
        funext c
        fin_cases c <;> simp only [Matrix.mulVec, dotProduct, Fin.sum_univ_three]
        · simpa using z0
        · simpa using z1
        · simpa using z2)
      apply hv'
      funext a
      fin_cases a
      · exact k0
      · exact k1
    · have v0 := hVv 0
      have v1 := hVv 1
      have v2 := hVv 2
      funext a
      fin_cases a <;> simp [Matrix.mulVec, dotProduct, Fin.sum_univ_two, Fin.sum_univ_three]
      · linear_combination wt 0 * V 0 1 * v0 + wt 1 * V 1 1 * v1 + wt 2 * V 2 1 * v2
      · linear_combination wt 0 * V 0 2 * v0 + wt 1 * V 1 2 * v1 + wt 2 * V 2 2 * v2
  erw [hs]

theorem hful_fit {e : EigVec} {rss : Data ni 2 → (Fin ni → ℝ) → ℕ → ℝ} {d : Data ni 2} {weighted : Bool} {C : ℝ}
    {W : Fin ni → ℕ} {nw : ℕ} {β : ℕ → ℝ}
    (h : hful e 3 (XX d (exOpts .hful)) d.D weighted (.one (pairKey d)) 0 C 0 = .ok β) :
    fitAll e rss d (exOpts .hful) weighted C W nw true = .ok (extract 2 (exOpts .hful) β) := by
  refine fitAll_run (by decide) rfl (z := .one (pairKey d)) (by unfold instrOf; rw [if_pos rfl]; rfl) ?_
  unfold coefficients
  rw [if_neg (by decide), if_neg (by decide), if_neg (by decide), onDesign, if_neg (by decide)]
  exact h

/-! ## Pairs of different sizes -/

/-- Two movers from firm 0 to firm 1 and four from firm 1 to firm 0, with equal weights. -/
def unevenSix : Data 6 2 where
  Y1 := ![1, -2, 0, 1, 1, 1]
  Y2 := ![2, -3, 1, -1, 2, 1]
  J1 := ![0, 0, 1, 1, 1, 1]
  J2 := ![1, 1, 0, 0, 0, 0]
  D := fun _ => 1

theorem six_XX (i : Fin 6) (c : ℕ) (hc : c < 3) : XX unevenSix (exOpts .hful) i c =
    (![![-1, 2, -1], ![2, -3, -1], ![1, 0, 1], ![-1, -1, 1], ![2, -1, 1], ![1, -1, 1]] i) ⟨c, hc⟩ := by
  have : c = 0 ∨ c = 1 ∨ c = 2 := by omega
  rcases this with rfl | rfl | rfl <;> fin_cases i <;>
    simp [XX, hcat, w1, exOpts, X1, X2, YY, JJ, drop1, unevenSix]

theorem six_cross : cross 3 3 (fun _ => 1) (XX unevenSix (exOpts .hful)) (XX unevenSix (exOpts .hful)) =
    !![12, -10, 2; -10, 16, -2; 2, -2, 6] := by
  ext a b
  fin_cases a <;> fin_cases b <;> simp [cross, Fin.sum_univ_six, six_XX] <;> norm_num

theorem six_cols (F : ℕ × ℕ → ℝ) : ∑ c ∈ (Instr.one (pairKey unevenSix)).cols, F c = F (0, 2) + F (0, 1) := by
  rw [one_cols]
  have : univ.image (pairKey unevenSix) = {2, 1} := by
    ext z
    simp only [mem_image, mem_univ, true_and, Fin.exists_fin_succ, mem_insert, mem_singleton]
    simp [pairKey, unevenSix, eq_comm]
  rw [this, sum_pair (by norm_num)]

theorem six_sum2 (u x : Fin 6 → ℝ) : (Instr.one (pairKey unevenSix)).sum u x (0, 2) = u 0 * x 0 + u 1 * x 1 := by
  rw [one_sum, zsum, sum_filter]
  simp [Fin.sum_univ_six, pairKey, unevenSix]

theorem six_sum1 (u x : Fin 6 → ℝ) :
    (Instr.one (pairKey unevenSix)).sum u x (0, 1) = u 2 * x 2 + u 3 * x 3 + u 4 * x 4 + u 5 * x 5 := by
  rw [one_sum, zsum, sum_filter]
  simp [Fin.sum_univ_six, pairKey, unevenSix]

theorem six_wzH : wzH 3 (XX unevenSix (exOpts .hful)) unevenSix.D (.one (pairKey unevenSix)) 0 =
    !![-3/2, 7/4, 7/4; 7/4, -9/2, -7/4; 7/4, -7/4, 4] := by
  have hP : pzDiag (.one (pairKey unevenSix)) (fun _ => 1) 0 = ![1/2, 1/2, 1/4, 1/4, 1/4, 1/4] := by
    funext i
    rw [pzDiag_const _ one_pos]
    have : (Spec.peers unevenSix i).card = ![2, 2, 4, 4, 4, 4] i := by
      unfold Spec.peers
      fin_cases i <;> decide
    rw [this]
    fin_cases i <;> norm_num
  unfold wzH
  rw [show unevenSix.D = fun _ => 1 from rfl, hP]
  ext a b
  rw [Matrix.sub_apply]
  unfold crossZ Instr.inv
  rw [six_cols]
  simp only [six_sum1, six_sum2, Real.sqrt_one]
  fin_cases a <;> fin_cases b <;> simp [cross, Fin.sum_univ_six, six_XX] <;> norm_num

theorem six_moments (j1 j2 : Fin 2) :
    ∑ i with unevenSix.J1 i = j1 ∧ unevenSix.J2 i = j2, Spec.moment unevenSix unitEffects i = 0 := by
  rw [sum_filter]
  fin_cases j1 <;> fin_cases j2 <;>
    simp [Fin.sum_univ_six, unevenSix, Spec.moment, unitEffects] <;> norm_num

theorem six_identified : Spec.Identified unevenSix (exOpts .hful) unitEffects := by
  refine ⟨fun β h => ?_, fun β h => ?_⟩
  · have h0 := h 0
    have h1 := h 1
    have h2 := h 2
    have h3 := h 3
    simp only [exXX] at h0 h1 h2 h3
    simp [unevenSix] at h0 h1 h2 h3
    intro c hc
    change c < 3 at hc
    have : c = 0 ∨ c = 1 ∨ c = 2 := by omega
    rcases this with rfl | rfl | rfl <;> linarith
  · have h1 := h 0 1
    have h2 := h 1 0
    simp only [exXX] at h1 h2
    rw [sum_filter] at h1 h2
    simp [Fin.sum_univ_six, unevenSix] at h1 h2
    refine ⟨β 0, fun c hc => ?_⟩
    change c < 3 at hc
    rw [coeffs_unit .hful c hc]
    have : c = 0 ∨ c = 1 ∨ c = 2 := by omega
    rcases this with rfl | rfl | rfl <;> norm_num <;> linarith

/-- `hful` does not recover the effects when the firm pairs have different numbers of movers, even with `C = 0` and equal
weights: in `unevenSix` the moments of every firm pair average to zero at slopes one and intercepts zero, which are the
only such effects, and everything else `C100_hful_returns` asks for holds, yet `hful` returns the slope 1/2 for firm 1. -/
theorem C100_hful_pairs_wrong (e : EigVec) (he : e.Right) (rss : Data 6 2 → (Fin 6 → ℝ) → ℕ → ℝ) (weighted : Bool)
    (W : Fin 6 → ℕ) (nw : ℕ) :
    (∀ i, unevenSix.D i = 1) ∧ Spec.Admissible (exOpts .hful) unitEffects ∧ Spec.Normalised (exOpts .hful) unitEffects ∧
    (∀ j1 j2, ∑ i with unevenSix.J1 i = j1 ∧ unevenSix.J2 i = j2, Spec.moment unevenSix unitEffects i = 0) ∧
    Spec.Identified unevenSix (exOpts .hful) unitEffects ∧
    ∃ x, fitAll e rss unevenSix (exOpts .hful) weighted 0 W nw true = .ok x ∧ x.B1 1 = 1 / 2 := by
  refine ⟨fun _ => rfl, unit_admissible _, unit_normalised _, six_moments, six_identified, ?_⟩
  refine ⟨_, hful_fit (hful_three e he _ _ weighted _ 0 _
    !![23/130, 7/65, -3/130; 7/65, 17/130, 1/130; -3/130, 1/130, 23/130] _
    !![-61/520, -7/52, 3/104; 21/260, -43/104, -1/104; 93/260, -5/13, 17/26] six_cross ?_ six_wzH ?_ (-3/8) 2 (2/5) ?_ ?_
    (fun _ => 1) ?_ (fun _ => one_pos) ?_), ?_⟩
  · ext a b
    fin_cases a <;> fin_cases b <;> simp [Matrix.mul_apply, Fin.sum_univ_three] <;> norm_num
  · ext a b
    fin_cases a <;> fin_cases b <;> simp [Matrix.mul_apply, Fin.sum_univ_three] <;> norm_num
  · funext a
    fin_cases a <;> simp [Matrix.mulVec, dotProduct, Fin.sum_univ_three] <;> norm_num
  · intro μ hμ h
    rw [Matrix.det_fin_three] at h
    simp at h
    have h1 : (μ + 3/8) * (μ ^ 2 - 259/520 * μ - 239/2080) = 0 := by linear_combination -h
    rcases mul_eq_zero.mp h1 with h2 | h2
    · linarith
    · nlinarith
  · unfold rowWeights
    cases weighted
    · rw [if_neg (by decide)]
    · rw [if_pos rfl, dif_pos (by norm_num)]
      rfl
  · intro a b h
    have h0 := congrFun h 0
    have h1 := congrFun h 1
    simp [Matrix.mulVec, dotProduct, Fin.sum_univ_three] at h0 h1
    constructor <;> linarith
  · simp [extract, insert1, ext]

/-! ## Weights -/

/-- Two movers in each direction with weights 1 and 4, and 1 and 1. -/
def wtHful : Data 4 2 := fourMovers ![-1, -1, 0, 0] ![-5, 0, 0, 0] ![1, 4, 1, 1]

theorem wtHful_XX (i : Fin 4) (c : ℕ) (hc : c < 3) : XX wtHful (exOpts .hful) i c =
    (![![1, -5, -1], ![1, 0, -1], ![0, 0, 1], ![0, 0, 1]] i) ⟨c, hc⟩ := by
  rw [wtHful, four_XX _ _ _ _ _ c hc]
  have : c = 0 ∨ c = 1 ∨ c = 2 := by omega
  rcases this with rfl | rfl | rfl <;> fin_cases i <;> simp

theorem wtHful_wzH : wzH 3 (XX wtHful (exOpts .hful)) wtHful.D (.one (pairKey wtHful)) 0 =
    !![4/5, -2, -4/5; -2, 0, 2; -4/5, 2, 9/5] := by
  have hD : wtHful.D = ![1, 4, 1, 1] := rfl
  have hP : pzDiag (.one (pairKey wtHful)) wtHful.D 0 = ![1/5, 4/5, 1/2, 1/2] := by
    funext i
    unfold pzDiag
    change ∑ k ∈ range 1, _ = _
    rw [sum_range_one]
    unfold Instr.inv
    rw [show (Instr.one (pairKey wtHful)).key 0 i = ![2, 2, 1, 1] i by
      fin_cases i <;> simp [Instr.one, pairKey, wtHful, fourMovers], hD]
    fin_cases i
    · simp [wtHful, four_sum2]
      norm_num
    · simp [wtHful, four_sum2, sqrt_four]
      norm_num
    · simp [wtHful, four_sum1]
      norm_num
    · simp [wtHful, four_sum1]
      norm_num
  unfold wzH
  rw [hP, hD]
  ext a b
  rw [Matrix.sub_apply, wtHful, four_crossZ, ← wtHful]
  fin_cases a <;> fin_cases b <;> simp [cross, Fin.sum_univ_four, wtHful_XX, sqrt_four] <;> norm_num

theorem wtHful_cross : cross 3 3 (fun _ => 1) (XX wtHful (exOpts .hful)) (XX wtHful (exOpts .hful)) =
    !![2, -5, -2; -5, 25, 5; -2, 5, 4] := by
  ext a b
  fin_cases a <;> fin_cases b <;> simp [cross, Fin.sum_univ_four, wtHful_XX] <;> norm_num

/-- `hful` with weights is wrong, even with `C = 0` and as many movers in every pair of firms: in `wtHful` the weighted
moments of every firm pair vanish at slopes one and intercepts zero, which are the only such effects, yet `hful` returns
the slope 5/2 for firm 1. -/
theorem C100_hful_weighted_wrong (e : EigVec) (he : e.Right) (rss : Data 4 2 → (Fin 4 → ℝ) → ℕ → ℝ) (W : Fin 4 → ℕ)
    (nw : ℕ) :
    (∀ i, (univ.filter fun i' => wtHful.J1 i' = wtHful.J1 i ∧ wtHful.J2 i' = wtHful.J2 i).card = 2) ∧
    (∀ j1 j2, ∑ i with wtHful.J1 i = j1 ∧ wtHful.J2 i = j2, wtHful.D i * Spec.moment wtHful unitEffects i = 0) ∧
    (∀ x, Spec.Admissible (exOpts .hful) x → Spec.Normalised (exOpts .hful) x →
      (∀ j1 j2, ∑ i with wtHful.J1 i = j1 ∧ wtHful.J2 i = j2, wtHful.D i * Spec.moment wtHful x i = 0) → x.B1 1 = 1) ∧
    ∃ x, fitAll e rss wtHful (exOpts .hful) true 0 W nw true = .ok x ∧ x.B1 1 = 5 / 2 := by
  refine ⟨by decide, ?_, ?_, ?_⟩
  · intro j1 j2
    rw [sum_filter]
    fin_cases j1 <;> fin_cases j2 <;>
      simp [Fin.sum_univ_four, wtHful, fourMovers, Spec.moment, unitEffects] <;> norm_num
  · intro x hx hn hm
    have h01 := hm 0 1
    have h10 := hm 1 0
    rw [sum_filter] at h01 h10
    simp only [fun i => (resid_coeffs wtHful (exOpts .hful) rfl x hx i).symm, resid, exXX] at h01 h10
    have b0 : coeffs (exOpts .hful) x 0 = 1 := coeffs_norm (o := exOpts .hful) (by decide) hn
    have b1 : coeffs (exOpts .hful) x 1 = 1 / x.B1 1 := coeffs_b1 (exOpts .hful) x 1
    simp [Fin.sum_univ_four, wtHful, fourMovers, b0, b1] at h01 h10
    have h : (x.B1 1)⁻¹ = 1 := by linarith
    rw [← inv_inv (x.B1 1), h, inv_one]
  · refine ⟨_, hful_fit (hful_three e he _ _ true _ 0 _ !![3/2, 1/5, 1/2; 1/5, 2/25, 0; 1/2, 0, 1/2] _
      !![2/5, -2, 1/10; 0, -2/5, 0; 0, 0, 1/2] wtHful_cross ?_ wtHful_wzH ?_ (-2/5) (2/5) 0 ?_ ?_ ![1, 4, 1] ?_ ?_ ?_), ?_⟩
    · ext a b
      fin_cases a <;> fin_cases b <;> simp [Matrix.mul_apply, Fin.sum_univ_three] <;> norm_num
    · ext a b
      fin_cases a <;> fin_cases b <;> simp [Matrix.mul_apply, Fin.sum_univ_three] <;> norm_num
    · funext a
      fin_cases a <;> simp [Matrix.mulVec, dotProduct, Fin.sum_univ_three] <;> norm_num
    · intro μ hμ h
      rw [Matrix.det_fin_three] at h
      simp at h
      rcases h with (h | h) | h <;> linarith
    · unfold rowWeights
      rw [if_pos rfl, dif_pos (by norm_num)]
      congr 1
      funext r
      fin_cases r <;> rfl
    · intro a
      fin_cases a <;> norm_num
    · intro a b h
      have h0 := congrFun h 0
      have h2 := congrFun h 2
      simp [Matrix.mulVec, dotProduct, Fin.sum_univ_three] at h0 h2
      have hb : b = 0 := by
        rcases h2 with h2 | h2
        · norm_num at h2
        · exact h2
      exact ⟨by rw [hb] at h0; linarith, hb⟩
    · simp [extract, insert1, ext]

end Pytwoway.Interacted
