import Verif.Interacted.OtherHful

/-! # C100: concrete cases -/

namespace Pytwoway.Interacted

open Finset

variable {ni nf n m : ℕ}

/-! ## Running the model -/

theorem limlTwo_run {e : EigVec} {d : Data ni nf} {o : Opts} {z : Instr ni} (hn : o.normFid < w1 nf o.statB)
    {inv2 : Matrix (Fin (w2 nf o.statA)) (Fin (w2 nf o.statA)) ℝ} {wz : Matrix (Fin (w1 nf o.statB)) (Fin (w1 nf o.statB)) ℝ}
    {p : ℝ × (Fin (w1 nf o.statB) → ℝ)} {x : Fin (ncol nf o - 1) → ℝ}
    (h1 : invOf (cross (w2 nf o.statA) (w2 nf o.statA) d.D (X2 d o.statA) (X2 d o.statA)) = .ok inv2)
    (h2 : invOf (wz2 d o z) = .ok wz) (h3 : smallest e (wx2 d o inv2 * wz) = .ok p)
    (h4 : solveQP (rr2 d o z p.1) (ry2 d o z p.1) = .ok x) : limlTwo e d o z = .ok (insert1 o.normFid (ext _ x)) := by
  unfold limlTwo
  rw [if_neg (by omega)]
  simp only [bind, Except.bind]
  rw [h1]
  dsimp only
  rw [h2]
  dsimp only
  rw [h3]
  dsimp only
  rw [h4]

theorem fitAll_run {e : EigVec} {rss : Data ni nf → (Fin ni → ℝ) → ℕ → ℝ} {d : Data ni nf} {o : Opts} {weighted : Bool}
    {C : ℝ} {W : Fin ni → ℕ} {nw : ℕ} {cz : Bool} (hm : o.method ≠ .linear) (hv : validate o = .ok ()) {z : Instr ni}
    {β : ℕ → ℝ} (hz : instrOf d o W nw cz = .ok z) (hc : coefficients e rss d o weighted C z = .ok β) :
    fitAll e rss d o weighted C W nw cz = .ok (extract nf o β) := by
  unfold fitAll
  simp only [bind, Except.bind, hv]
  rw [if_neg hm, hz]
  dsimp only
  rw [hc]

/-- Four movers, two in each direction, with given wages and weights. -/
def fourMovers (Y1 Y2 D : Fin 4 → ℝ) : Data 4 2 where
  Y1 := Y1
  Y2 := Y2
  J1 := ![0, 0, 1, 1]
  J2 := ![1, 1, 0, 0]
  D := D

theorem four_cols (Y1 Y2 D : Fin 4 → ℝ) (F : ℕ × ℕ → ℝ) :
    ∑ c ∈ (Instr.one (pairKey (fourMovers Y1 Y2 D))).cols, F c = F (0, 2) + F (0, 1) := by
  rw [one_cols]
  have : univ.image (pairKey (fourMovers Y1 Y2 D)) = {2, 1} := by
    ext z
    simp only [mem_image, mem_univ, true_and, Fin.exists_fin_succ, mem_insert, mem_singleton]
    simp [pairKey, fourMovers, eq_comm]
  rw [this, sum_pair (by norm_num)]

theorem four_sum2 (Y1 Y2 D u x : Fin 4 → ℝ) :
    (Instr.one (pairKey (fourMovers Y1 Y2 D))).sum u x (0, 2) = u 0 * x 0 + u 1 * x 1 := by
  rw [one_sum, zsum, sum_filter]
  simp [Fin.sum_univ_four, pairKey, fourMovers]

theorem four_sum1 (Y1 Y2 D u x : Fin 4 → ℝ) :
    (Instr.one (pairKey (fourMovers Y1 Y2 D))).sum u x (0, 1) = u 2 * x 2 + u 3 * x 3 := by
  rw [one_sum, zsum, sum_filter]
  simp [Fin.sum_univ_four, pairKey, fourMovers]

theorem four_crossZ (Y1 Y2 D D' u v : Fin 4 → ℝ) (A B : Fin 4 → ℕ → ℝ) (a : Fin n) (b : Fin m) :
    crossZ n m (.one (pairKey (fourMovers Y1 Y2 D))) D' 0 u v A B a b =
      (u 0 * A 0 a.val + u 1 * A 1 a.val) * (1 / (D' 0 + D' 1)) * (v 0 * B 0 b.val + v 1 * B 1 b.val) +
        (u 2 * A 2 a.val + u 3 * A 3 a.val) * (1 / (D' 2 + D' 3)) * (v 2 * B 2 b.val + v 3 * B 3 b.val) := by
  unfold crossZ Instr.inv
  rw [four_cols]
  simp only [four_sum1, four_sum2, mul_one, add_zero]

/-- The rows of the design, with stationary slopes and intercepts. -/
theorem four_XX (Y1 Y2 D : Fin 4 → ℝ) (mt : Method) (i : Fin 4) (c : ℕ) (hc : c < 3) :
    XX (fourMovers Y1 Y2 D) (exOpts mt) i c =
      (![![- Y1 0, Y2 0, -1], ![- Y1 1, Y2 1, -1], ![Y2 2, - Y1 2, 1], ![Y2 3, - Y1 3, 1]] i) ⟨c, hc⟩ := by
  have : c = 0 ∨ c = 1 ∨ c = 2 := by omega
  rcases this with rfl | rfl | rfl <;> fin_cases i <;>
    simp [XX, hcat, w1, exOpts, X1, X2, YY, JJ, drop1, fourMovers]

/-- Four movers with weights 1, 4, 1 and 1. -/
def wtFour : Data 4 2 := fourMovers ![3, -3, 0, -3] ![7, -4, 0, -3] ![1, 4, 1, 1]

theorem wtFour_X2 (i : Fin 4) : X2 wtFour true i 0 = ![-1, -1, 1, 1] i := by
  fin_cases i <;> simp [X2, drop1, JJ, wtFour, fourMovers]

theorem wtFour_RR1 (i : Fin 4) (c : ℕ) (hc : c < 2) :
    RR1 wtFour (exOpts .liml2) i c = (![![3, 7], ![-3, -4], ![0, 0], ![3, 3]] i) ⟨c, hc⟩ := by
  have : c = 0 ∨ c = 1 := by omega
  rcases this with rfl | rfl <;> fin_cases i <;>
    simp [RR1, X1, exOpts, YY, skip, wtFour, fourMovers]

theorem wtFour_XXn (i : Fin 4) (c : ℕ) (hc : c < 2) :
    XXn wtFour (exOpts .liml2) i c = (![![7, -1], ![-4, -1], ![0, 1], ![3, 1]] i) ⟨c, hc⟩ := by
  have : c = 0 ∨ c = 1 := by omega
  rcases this with rfl | rfl <;> fin_cases i <;>
    simp [XXn, exOpts, XX, hcat, w1, X1, X2, drop1, JJ, YY, skip, wtFour, fourMovers]

theorem wtFour_D (i : Fin 4) : wtFour.D i = ![1, 4, 1, 1] i := rfl

theorem sqrt_four : √(4 : ℝ) = 2 := by
  rw [show (4 : ℝ) = 2 ^ 2 by norm_num]; exact Real.sqrt_sq two_pos.le

/-- `liml_2` with weights is wrong: in `wtFour` the weighted moments of every firm pair vanish at slopes one and
intercepts zero, which are the only such effects, yet `liml_2` returns the slope 37/21 for firm 1. -/
theorem C100_liml2_weighted_wrong (e : EigVec) (he : e.Right) (rss : Data 4 2 → (Fin 4 → ℝ) → ℕ → ℝ) (C : ℝ)
    (W : Fin 4 → ℕ) (nw : ℕ) :
    (∀ j1 j2, ∑ i with wtFour.J1 i = j1 ∧ wtFour.J2 i = j2, wtFour.D i * Spec.moment wtFour unitEffects i = 0) ∧
    (∀ x, Spec.Admissible (exOpts .liml2) x → Spec.Normalised (exOpts .liml2) x →
      (∀ j1 j2, ∑ i with wtFour.J1 i = j1 ∧ wtFour.J2 i = j2, wtFour.D i * Spec.moment wtFour x i = 0) → x.B1 1 = 1) ∧
    ∃ x, fitAll e rss wtFour (exOpts .liml2) true C W nw true = .ok x ∧ x.B1 1 = 37 / 21 := by
  refine ⟨?_, ?_, ?_⟩
  · intro j1 j2
    rw [sum_filter]
    fin_cases j1 <;> fin_cases j2 <;>
      simp [Fin.sum_univ_four, wtFour, fourMovers, Spec.moment, unitEffects] <;> norm_num
  · intro x hx hn hm
    have h01 := hm 0 1
    have h10 := hm 1 0
    rw [sum_filter] at h01 h10
    simp only [fun i => (resid_coeffs wtFour (exOpts .liml2) rfl x hx i).symm, resid, exXX] at h01 h10
    have b0 : coeffs (exOpts .liml2) x 0 = 1 := coeffs_norm (o := exOpts .liml2) (by decide) hn
    have b1 : coeffs (exOpts .liml2) x 1 = 1 / x.B1 1 := coeffs_b1 (exOpts .liml2) x 1
    simp [Fin.sum_univ_four, wtFour, fourMovers, b0, b1] at h01 h10
    have h : (x.B1 1)⁻¹ = 1 := by linarith
    rw [← inv_inv (x.B1 1), h, inv_one]
  · have hG : cross (w2 2 true) (w2 2 true) wtFour.D (X2 wtFour true) (X2 wtFour true) = (!![7] : Matrix (Fin 1) (Fin 1) ℝ) := by
      funext a b
      change Fin 1 at a b
      fin_cases a; fin_cases b
      simp [cross, Fin.sum_univ_four, wtFour_X2, wtFour_D]
      norm_num
    have hGi : (!![7] : Matrix (Fin 1) (Fin 1) ℝ)⁻¹ = !![1 / 7] := by
      apply Matrix.inv_eq_right_inv
      ext a b
      fin_cases a; fin_cases b
      simp [Matrix.mul_apply]
    have hz : wz2 wtFour (exOpts .liml2) (.one (pairKey wtFour)) =
        (!![369 / 10, 117 / 2; 693 / 10, 225 / 2] : Matrix (Fin 2) (Fin 2) ℝ) := by
      funext a b
      change Fin 2 at a b
      change cross 2 2 wtFour.D (RR1 wtFour (exOpts .liml2)) (RR1 wtFour (exOpts .liml2)) a b -
        crossZ 2 2 (.one (pairKey wtFour)) wtFour.D 0 (fun i => √(wtFour.D i)) (fun i => √(wtFour.D i) * wtFour.D i)
          (RR1 wtFour (exOpts .liml2)) (RR1 wtFour (exOpts .liml2)) a b = _
      rw [show pairKey wtFour = pairKey (fourMovers ![3, -3, 0, -3] ![7, -4, 0, -3] ![1, 4, 1, 1]) from rfl, four_crossZ]
      fin_cases a <;> fin_cases b <;>
        simp [cross, Fin.sum_univ_four, wtFour_RR1, wtFour_D, sqrt_four] <;> norm_num
    have hzi : (!![369 / 10, 117 / 2; 693 / 10, 225 / 2] : Matrix (Fin 2) (Fin 2) ℝ)⁻¹ =
        !![125 / 108, -65 / 108; -77 / 108, 41 / 108] := by
      apply Matrix.inv_eq_right_inv
      ext a b
      fin_cases a <;> fin_cases b <;> simp [Matrix.mul_apply, Fin.sum_univ_two] <;> norm_num
    have hx : wx2 wtFour (exOpts .liml2) (!![1 / 7] : Matrix (Fin 1) (Fin 1) ℝ) =
        (!![234 / 7, 366 / 7; 78, 122] : Matrix (Fin 2) (Fin 2) ℝ) := by
      funext a b
      change Fin 2 at a b
      change cross 2 2 wtFour.D (RR1 wtFour (exOpts .liml2)) (RR1 wtFour (exOpts .liml2)) a b -
        (cross 2 1 (fun _ => 1) (RR1 wtFour (exOpts .liml2)) (X2 wtFour true) *
          (!![1 / 7] : Matrix (Fin 1) (Fin 1) ℝ) *
          cross 1 2 (fun i => wtFour.D i * wtFour.D i) (X2 wtFour true) (RR1 wtFour (exOpts .liml2))) a b = _
      fin_cases a <;> fin_cases b <;>
        simp [Matrix.mul_apply, cross, Fin.sum_univ_four, wtFour_RR1, wtFour_X2, wtFour_D] <;> norm_num
    have hM : (!![234 / 7, 366 / 7; 78, 122] : Matrix (Fin 2) (Fin 2) ℝ) *
        !![125 / 108, -65 / 108; -77 / 108, 41 / 108] = !![89 / 63, -17 / 63; 89 / 27, -17 / 27] := by
      ext a b
      fin_cases a <;> fin_cases b <;> simp [Matrix.mul_apply, Fin.sum_univ_two] <;> norm_num
    have hmv : ∀ v : Fin 2 → ℝ, (!![89 / 63, -17 / 63; 89 / 27, -17 / 27] : Matrix (Fin 2) (Fin 2) ℝ).mulVec v =
        ![89 / 63 * v 0 - 17 / 63 * v 1, 89 / 27 * v 0 - 17 / 27 * v 1] := by
      intro v
      funext a
      fin_cases a <;> simp [Matrix.mulVec, dotProduct, Fin.sum_univ_two] <;> ring
    have h0 : (!![89 / 63, -17 / 63; 89 / 27, -17 / 27] : Matrix (Fin 2) (Fin 2) ℝ).mulVec ![17, 89] =
        (0 : ℝ) • (![17, 89] : Fin 2 → ℝ) := by
      rw [hmv]
      funext a
      fin_cases a <;> norm_num
    have hne : (![17, 89] : Fin 2 → ℝ) ≠ 0 := fun h => by have := congrFun h 0; norm_num at this
    obtain ⟨p, hp⟩ := smallest_ok e he _ 0 _ hne h0
    obtain ⟨hv, heig, hmin⟩ := smallest_spec e he _ hp
    have hp0 : p.1 = 0 := by
      have hle := hmin 0 _ hne h0
      by_contra hn0
      rw [hmv] at heig
      have e0 := congrFun heig 0
      have e1 := congrFun heig 1
      simp at e0 e1
      have h3 : p.1 * (63 * p.2 0 - 27 * p.2 1) = 0 := by linarith
      have h4 := (mul_eq_zero.mp h3).resolve_left hn0
      have h5 : p.2 1 = 7 / 3 * p.2 0 := by linarith
      rw [h5] at e0
      have h6 : p.2 0 * (148 / 189 - p.1) = 0 := by linarith
      rcases mul_eq_zero.mp h6 with h7 | h7
      · apply hv
        funext a
        fin_cases a
        · exact h7
        · change p.2 1 = 0
          rw [h5, h7, mul_zero]
      · linarith
    have hrr : rr2 wtFour (exOpts .liml2) (.one (pairKey wtFour)) 0 = (!![74, 0; 0, 4] : Matrix (Fin 2) (Fin 2) ℝ) := by
      funext a b
      change Fin 2 at a b
      change (1 - 0) * cross 2 2 (fun _ => 1) (XXn wtFour (exOpts .liml2)) (XXn wtFour (exOpts .liml2)) a b + 0 * _ = _
      rw [zero_mul, add_zero]
      fin_cases a <;> fin_cases b <;> simp [cross, Fin.sum_univ_four, wtFour_XXn] <;> norm_num
    have hry : ry2 wtFour (exOpts .liml2) (.one (pairKey wtFour)) 0 = (![42, 3] : Fin 2 → ℝ) := by
      funext a
      change Fin 2 at a
      change (1 - 0) * cross 2 1 (fun _ => 1) (XXn wtFour (exOpts .liml2)) (RR1 wtFour (exOpts .liml2)) a 0 + 0 * _ = _
      rw [zero_mul, add_zero]
      fin_cases a <;> simp [cross, Fin.sum_univ_four, wtFour_XXn, wtFour_RR1] <;> norm_num
    have hPD : PosDef (!![74, 0; 0, 4] : Matrix (Fin 2) (Fin 2) ℝ) := by
      intro v hv
      simp [Matrix.mulVec, dotProduct, Fin.sum_univ_two]
      have : v 0 ≠ 0 ∨ v 1 ≠ 0 := by
        by_contra hc
        push Not at hc
        apply hv
        funext a
        fin_cases a
        · exact hc.1
        · exact hc.2
      rcases this with h | h
      · have := sq_pos_of_ne_zero h
        nlinarith [sq_nonneg (v 1)]
      · have := sq_pos_of_ne_zero h
        nlinarith [sq_nonneg (v 0)]
    have hsol : solveQP (!![74, 0; 0, 4] : Matrix (Fin 2) (Fin 2) ℝ) ![42, 3] = .ok ![21 / 37, 3 / 4] := by
      apply solveQP_eq hPD
      funext a
      fin_cases a <;> simp [Matrix.mulVec, dotProduct, Fin.sum_univ_two] <;> norm_num
    have hrun : limlTwo e wtFour (exOpts .liml2) (.one (pairKey wtFour)) =
        .ok (insert1 0 (ext 2 ![21 / 37, 3 / 4])) := by
      have i1 : invOf (cross (w2 2 true) (w2 2 true) wtFour.D (X2 wtFour true) (X2 wtFour true)) =
          .ok (!![1 / 7] : Matrix (Fin 1) (Fin 1) ℝ) := by
        rw [hG]
        change invOf (!![7] : Matrix (Fin 1) (Fin 1) ℝ) = _
        unfold invOf
        rw [if_neg (by simp), hGi]
        rfl
      have i2 : invOf (wz2 wtFour (exOpts .liml2) (.one (pairKey wtFour))) =
          .ok (!![125 / 108, -65 / 108; -77 / 108, 41 / 108] : Matrix (Fin 2) (Fin 2) ℝ) := by
        rw [hz]
        change invOf (!![369 / 10, 117 / 2; 693 / 10, 225 / 2] : Matrix (Fin 2) (Fin 2) ℝ) = _
        unfold invOf
        rw [if_neg (by rw [Matrix.det_fin_two]; norm_num), hzi]
        rfl
      refine limlTwo_run (e := e) (d := wtFour) (o := exOpts .liml2) (by decide) i1 i2 (p := p) ?_ ?_
      · rw [hx]
        rw [← hM] at hp
        exact hp
      · rw [hp0, hrr, hry]
        exact hsol
    refine ⟨extract 2 (exOpts .liml2) (insert1 0 (ext 2 ![21 / 37, 3 / 4])), ?_, ?_⟩
    · refine fitAll_run (by decide) rfl (z := .one (pairKey wtFour)) (by unfold instrOf; rw [if_pos rfl]; rfl) ?_
      unfold coefficients
      rw [if_neg (by decide), if_pos (by decide), hrun]
    · simp [extract, insert1, ext]

end Pytwoway.Interacted
