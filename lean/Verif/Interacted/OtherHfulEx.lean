import Verif.Interacted.OtherReturns

/-! # C100: examples for `liml_2` and `hful` -/

namespace Pytwoway.Interacted

open Finset

variable {ni nf n m : ℕ}

/-- Four movers with equal weights whose moments at slopes one and intercepts zero average to zero in each direction. -/
def l2Four : Data 4 2 := fourMovers ![1, 3, 1, 2] ![3, 1, 1, 2] (fun _ => 1)

theorem unit_normalised (mt : Method) : Spec.Normalised (exOpts mt) unitEffects := fun _ _ => rfl

theorem l2Four_moments (j1 j2 : Fin 2) :
    ∑ i with l2Four.J1 i = j1 ∧ l2Four.J2 i = j2, Spec.moment l2Four unitEffects i = 0 := by
  rw [sum_filter]
  fin_cases j1 <;> fin_cases j2 <;>
    simp [Fin.sum_univ_four, l2Four, fourMovers, Spec.moment, unitEffects]

theorem l2Four_identified (mt : Method) : Spec.Identified l2Four (exOpts mt) unitEffects := by
  refine ⟨fun β h => ?_, fun β h => ?_⟩
  · have h0 := h 0
    have h1 := h 1
    have h2 := h 2
    have h3 := h 3
    simp only [exXX] at h0 h1 h2 h3
    simp [l2Four, fourMovers] at h0 h1 h2 h3
    intro c hc
    change c < 3 at hc
    have : c = 0 ∨ c = 1 ∨ c = 2 := by omega
    rcases this with rfl | rfl | rfl <;> linarith
  · have h1 := h 0 1
    have h2 := h 1 0
    simp only [exXX] at h1 h2
    rw [sum_filter] at h1 h2
    simp [Fin.sum_univ_four, l2Four, fourMovers] at h1 h2
    refine ⟨β 0, fun c hc => ?_⟩
    change c < 3 at hc
    rw [coeffs_unit mt c hc]
    have : c = 0 ∨ c = 1 ∨ c = 2 := by omega
    rcases this with rfl | rfl | rfl <;> norm_num <;> linarith

theorem four_peers (Y1 Y2 D : Fin 4 → ℝ) : Spec.peers (fourMovers Y1 Y2 D) 0 = {0, 1} ∧
    Spec.peers (fourMovers Y1 Y2 D) 1 = {0, 1} ∧ Spec.peers (fourMovers Y1 Y2 D) 2 = {2, 3} ∧
    Spec.peers (fourMovers Y1 Y2 D) 3 = {2, 3} := by
  have h : ∀ k, Spec.peers (fourMovers Y1 Y2 D) k = univ.filter fun i => (![0, 0, 1, 1] : Fin 4 → Fin 2) i =
    (![0, 0, 1, 1] : Fin 4 → Fin 2) k ∧ (![1, 1, 0, 0] : Fin 4 → Fin 2) i = (![1, 1, 0, 0] : Fin 4 → Fin 2) k := fun _ => rfl
  simp only [h]
  decide

theorem four_within (Y1 Y2 D f : Fin 4 → ℝ) : Spec.within (fourMovers Y1 Y2 D) f =
    (f 0 - f 1) ^ 2 / 2 + (f 2 - f 3) ^ 2 / 2 := by
  obtain ⟨e0, e1, e2, e3⟩ := four_peers Y1 Y2 D
  simp only [Spec.within, Spec.avg, Fin.sum_univ_four, e0, e1, e2, e3]
  rw [sum_pair (by decide), sum_pair (by decide), card_pair (by decide), card_pair (by decide)]
  push_cast
  ring

theorem four_jack (Y1 Y2 D f : Fin 4 → ℝ) : Spec.jack (fourMovers Y1 Y2 D) f = f 0 * f 1 + f 2 * f 3 := by
  obtain ⟨e0, e1, e2, e3⟩ := four_peers Y1 Y2 D
  simp only [Spec.jack, Fin.sum_univ_four, e0, e1, e2, e3]
  rw [show ({0, 1} : Finset (Fin 4)).erase 0 = {1} by decide, show ({0, 1} : Finset (Fin 4)).erase 1 = {0} by decide,
    show ({2, 3} : Finset (Fin 4)).erase 2 = {3} by decide, show ({2, 3} : Finset (Fin 4)).erase 3 = {2} by decide,
    card_pair (by decide), card_pair (by decide)]
  simp only [sum_singleton]
  push_cast
  ring

theorem four_total (f : Fin 4 → ℝ) : Spec.total f = f 0 ^ 2 + f 1 ^ 2 + f 2 ^ 2 + f 3 ^ 2 := by
  rw [Spec.total, Fin.sum_univ_four]

/-- Non-vacuity of `C100_liml2_returns`, `C100_liml2_minimises` and `C100_liml2_recovers_partial`. -/
theorem l2Four_liml2 (e : EigVec) (he : e.Right) (rss : Data 4 2 → (Fin 4 → ℝ) → ℕ → ℝ) (weighted : Bool) (C : ℝ)
    (W : Fin 4 → ℕ) (nw : ℕ) : fitAll e rss l2Four (exOpts .liml2) weighted C W nw true = .ok unitEffects := by
  refine C100_liml2_returns e he rss l2Four (exOpts .liml2) weighted C W nw rfl rfl rfl rfl 1 one_pos (fun _ => rfl)
    (by decide) _ (unit_admissible _) (unit_normalised _) l2Four_moments (l2Four_identified _) ?_
  intro β h
  rw [l2Four, four_within] at h
  simp only [exXX] at h
  simp [fourMovers] at h
  intro c hc
  change c < 2 at hc
  have h1 : (3 * β 1 - β 0 - (β 1 - 3 * β 0)) ^ 2 = 0 := by
    refine le_antisymm ?_ (sq_nonneg _)
    have := sq_nonneg (β 0 - β 1 - (2 * β 0 - 2 * β 1))
    linarith
  have h2 : (β 0 - β 1 - (2 * β 0 - 2 * β 1)) ^ 2 = 0 := by linarith
  have h3 := pow_eq_zero_iff two_ne_zero |>.mp h1
  have h4 := pow_eq_zero_iff two_ne_zero |>.mp h2
  have : c = 0 ∨ c = 1 := by omega
  rcases this with rfl | rfl <;> linarith

/-- Non-vacuity of `C100_hful_returns`, `C100_hful_minimises_partial` and `C100_hful_recovers_partial`. -/
theorem l2Four_hful (e : EigVec) (he : e.Right) (rss : Data 4 2 → (Fin 4 → ℝ) → ℕ → ℝ) (weighted : Bool)
    (W : Fin 4 → ℕ) (nw : ℕ) : fitAll e rss l2Four (exOpts .hful) weighted 0 W nw true = .ok unitEffects := by
  refine C100_hful_returns e he rss l2Four (exOpts .hful) weighted W nw rfl rfl rfl rfl 1 one_pos (fun _ => rfl)
    (by decide) (fun _ => by decide) 2 ?_ _ (unit_admissible _) (unit_normalised _) l2Four_moments (l2Four_identified _)
  decide

example : ∃ e : EigVec, e.Right := exists_eigVec

theorem exData_four : exData = fourMovers ![1, 3, 1, 2] ![3, 1, 2, 1] (fun _ => 1) := rfl

theorem exData_cross : cross 3 3 (fun _ => 1) (XX exData (exOpts .hful)) (XX exData (exOpts .hful)) =
    !![15, -10, 7; -10, 15, -7; 7, -7, 4] := by
  rw [exData_four]
  ext a b
  fin_cases a <;> fin_cases b <;> simp [cross, Fin.sum_univ_four, four_XX] <;> norm_num

theorem exData_wzH : wzH 3 (XX exData (exOpts .hful)) (fun _ => 1) (.one (pairKey exData)) 0 =
    !![5, -15/2, 7/2; -15/2, 5, -7/2; 7/2, -7/2, 2] := by
  have hP : pzDiag (.one (pairKey exData)) (fun _ => 1) 0 = fun _ => 1 / 2 := by
    funext i
    rw [pzDiag_const _ one_pos]
    congr 1
    have : (Spec.peers exData i).card = 2 := by
      unfold Spec.peers
      fin_cases i <;> decide
    rw [this]
    norm_num
  unfold wzH
  rw [hP, exData_four]
  ext a b
  rw [Matrix.sub_apply, four_crossZ]
  fin_cases a <;> fin_cases b <;> simp [cross, Fin.sum_univ_four, four_XX] <;> norm_num

/-- `hful` with its default `C = 1` does not compute its estimator.  In `exData` the
smallest ratio of the jackknife form to the sum of squares is -1/2, reached at the unit effects, so with Fuller's correction the estimator minimises the jackknife form minus `α` times the sum of squares, with `α` as below, over
the normalised effects.  The effects returned do not: at the unit effects that criterion is smaller. -/
theorem C100_hful_default_wrong (e : EigVec) (he : e.Right) (rss : Data 4 2 → (Fin 4 → ℝ) → ℕ → ℝ) (weighted : Bool)
    (W : Fin 4 → ℕ) (nw : ℕ) (lam α : ℝ) (hlam : lam = -1 / 2)
    (hα : α = (lam - (1 - lam) * (1 / 4)) / (1 - (1 - lam) * (1 / 4))) :
    (∀ x, Spec.Admissible (exOpts .hful) x →
      lam * Spec.total (Spec.moment exData x) ≤ Spec.jack exData (Spec.moment exData x)) ∧
    Spec.jack exData (Spec.moment exData unitEffects) = lam * Spec.total (Spec.moment exData unitEffects) ∧
    ∃ x, fitAll e rss exData (exOpts .hful) weighted 1 W nw true = .ok x ∧ Spec.Admissible (exOpts .hful) x ∧
      Spec.Normalised (exOpts .hful) x ∧ x.B1 1 = 221 / 140 ∧
      Spec.jack exData (Spec.moment exData unitEffects) - α * Spec.total (Spec.moment exData unitEffects) <
        Spec.jack exData (Spec.moment exData x) - α * Spec.total (Spec.moment exData x) := by
  have hα' : α = -7 / 5 := by rw [hα, hlam]; norm_num
  have hu : Spec.jack exData (Spec.moment exData unitEffects) = -5 ∧ Spec.total (Spec.moment exData unitEffects) = 10 := by
    rw [exData_four, four_jack, four_total]
    constructor <;> simp [Spec.moment, fourMovers, unitEffects] <;> norm_num
  refine ⟨fun x _ => ?_, ?_, ?_⟩
  · rw [exData_four, four_jack, four_total, hlam]
    nlinarith [sq_nonneg (Spec.moment (fourMovers ![1, 3, 1, 2] ![3, 1, 2, 1] (fun _ => 1)) x 0 + Spec.moment (fourMovers ![1, 3, 1, 2] ![3, 1, 2, 1] (fun _ => 1)) x 1),
      sq_nonneg (Spec.moment (fourMovers ![1, 3, 1, 2] ![3, 1, 2, 1] (fun _ => 1)) x 2 + Spec.moment (fourMovers ![1, 3, 1, 2] ![3, 1, 2, 1] (fun _ => 1)) x 3)]
  · rw [hu.1, hu.2, hlam]; norm_num
  · have hdet : (!![15, -10, 7; -10, 15, -7; 7, -7, 4] : Matrix (Fin 3) (Fin 3) ℝ).det = 10 := by
      rw [Matrix.det_fin_three]
      simp
      norm_num
    have hinv : (!![15, -10, 7; -10, 15, -7; 7, -7, 4] : Matrix (Fin 3) (Fin 3) ℝ)⁻¹ =
        !![11/10, -9/10, -7/2; -9/10, 11/10, 7/2; -7/2, 7/2, 25/2] := by
      apply Matrix.inv_eq_right_inv
      ext a b
      fin_cases a <;> fin_cases b <;> simp [Matrix.mul_apply, Fin.sum_univ_three] <;> norm_num
    have hM : (!![11/10, -9/10, -7/2; -9/10, 11/10, 7/2; -7/2, 7/2, 25/2] : Matrix (Fin 3) (Fin 3) ℝ) *
        !![5, -15/2, 7/2; -15/2, 5, -7/2; 7/2, -7/2, 2] = !![0, -1/2, 0; -1/2, 0, 0; 0, 0, 1/2] := by
      ext a b
      fin_cases a <;> fin_cases b <;> simp [Matrix.mul_apply, Fin.sum_univ_three] <;> norm_num
    have hmv : ∀ v : Fin 3 → ℝ, (!![0, -1/2, 0; -1/2, 0, 0; 0, 0, 1/2] : Matrix (Fin 3) (Fin 3) ℝ).mulVec v =
        ![-1/2 * v 1, -1/2 * v 0, 1/2 * v 2] := by
      intro v
      funext a
      fin_cases a <;> simp [Matrix.mulVec, dotProduct, Fin.sum_univ_three]
    have hne : (![1, 1, 0] : Fin 3 → ℝ) ≠ 0 := fun h => by have := congrFun h 0; norm_num at this
    have h0 : (!![0, -1/2, 0; -1/2, 0, 0; 0, 0, 1/2] : Matrix (Fin 3) (Fin 3) ℝ).mulVec ![1, 1, 0] =
        (-1/2 : ℝ) • (![1, 1, 0] : Fin 3 → ℝ) := by
      rw [hmv]
      funext a
      fin_cases a <;> simp
    obtain ⟨p, hp⟩ := smallest_ok e he _ (-1/2) _ hne h0
    obtain ⟨hv, heig, hmin⟩ := smallest_spec e he _ hp
    have hp0 : p.1 = -1/2 := by
      have hle := hmin _ _ hne h0
      rw [hmv] at heig
      have e0 := congrFun heig 0
      have e1 := congrFun heig 1
      have e2 := congrFun heig 2
      simp at e0 e1 e2
      by_contra hc
      have hlt : p.1 < -1/2 := lt_of_le_of_ne hle hc
      have h2 : p.2 2 = 0 := by
        rcases e2 with h | h
        · norm_num at h
          linarith
        · exact h
      have h1 : p.2 0 = 0 := by
        have : p.2 0 * ((p.1 - 1/2) * (p.1 + 1/2)) = 0 := by
          have h3 : p.1 * (p.1 * p.2 0) = 1/4 * p.2 0 := by rw [← e0]; linear_combination (-1/2 : ℝ) * e1.symm
          linear_combination h3
        rcases mul_eq_zero.mp this with h | h
        · exact h
        · rcases mul_eq_zero.mp h with h | h <;> linarith
      have h3 : p.2 1 = 0 := by rw [h1] at e0; linarith
      apply hv
      funext a
      fin_cases a
      · exact h1
      · exact h3
      · exact h2
    set x : ℕ → ℝ := insert1 0 (ext 2 ![140 / 221, 0]) with hxd
    have hrun : hful e 3 (XX exData (exOpts .hful)) (fun _ => 1) weighted (.one (pairKey exData)) 0 1 0 = .ok x := by
      unfold hful
      simp only [bind, Except.bind]
      rw [exData_cross, exData_wzH]
      rw [show invOf (!![15, -10, 7; -10, 15, -7; 7, -7, 4] : Matrix (Fin 3) (Fin 3) ℝ) = .ok _ from
        invOf_eq (by rw [hdet]; norm_num), hinv]
      dsimp only
      rw [hM, hp]
      dsimp only
      rw [hp0, show lambda2 (-1/2) 1 4 = -7/5 by unfold lambda2; norm_num]
      have hW : (!![0, -1/2, 0; -1/2, 0, 0; 0, 0, 1/2] : Matrix (Fin 3) (Fin 3) ℝ) - (-7/5 : ℝ) • (1 : Matrix (Fin 3) (Fin 3) ℝ) =
          !![7/5, -1/2, 0; -1/2, 7/5, 0; 0, 0, 19/10] := by
        ext a b
        fin_cases a <;> fin_cases b <;> simp <;> norm_num
      rw [hW]
      unfold hfulSolve
      rw [dif_pos (by norm_num)]
      have hrw : rowWeights 3 weighted (fun _ : Fin 4 => (1 : ℝ)) = .ok fun _ => 1 := by
        unfold rowWeights
        cases weighted
        · rw [if_neg (by decide)]
        · rw [if_pos rfl, dif_pos (by norm_num)]
      simp only [bind, Except.bind, hrw]
      have hG : hfulG 0 (fun _ => 1) (!![7/5, -1/2, 0; -1/2, 7/5, 0; 0, 0, 19/10] : Matrix (Fin 3) (Fin 3) ℝ) =
          (!![221/100, 0; 0, 361/100] : Matrix (Fin 2) (Fin 2) ℝ) := by
        funext a b
        change Fin 2 at a b
        fin_cases a <;> fin_cases b <;> simp [hfulG, dropCol, skip, Fin.sum_univ_three] <;> norm_num
      have hA : hfulA ⟨0, by norm_num⟩ (fun _ => 1) (!![7/5, -1/2, 0; -1/2, 7/5, 0; 0, 0, 19/10] : Matrix (Fin 3) (Fin 3) ℝ) =
          (![7/5, 0] : Fin 2 → ℝ) := by
        funext a
        change Fin 2 at a
        fin_cases a <;> simp [hfulA, dropCol, skip, Fin.sum_univ_three] <;> norm_num
      rw [hG, hA]
      have hs : solveQP (!![221/100, 0; 0, 361/100] : Matrix (Fin 2) (Fin 2) ℝ) ![7/5, 0] = .ok ![140/221, 0] := by
        apply solveQP_eq
        · intro v hv
          simp [Matrix.mulVec, dotProduct, Fin.sum_univ_two]
          have : v 0 ≠ 0 ∨ v 1 ≠ 0 := by
            by_contra hc
            push Not at hc
            apply hv
            funext a
            fin_cases a
            · exact hc.1
            · exact hc.2
          rcases this with h | h
          · have := sq_pos_of_ne_zero h
            nlinarith [sq_nonneg (v 1)]
          · have := sq_pos_of_ne_zero h
            nlinarith [sq_nonneg (v 0)]
        · funext a
          fin_cases a <;> simp [Matrix.mulVec, dotProduct, Fin.sum_univ_two] <;> norm_num
      erw [hs]
    have hslope : ∀ j, (extract 2 (exOpts .hful) x).B1 j ≠ 0 ∧ (extract 2 (exOpts .hful) x).B2 j ≠ 0 := by
      intro j
      fin_cases j <;> simp [extract, hxd, insert1, ext, exOpts]
    refine ⟨extract 2 (exOpts .hful) x, ?_, ?_, ?_, ?_, ?_⟩
    · refine fitAll_run (by decide) rfl (z := .one (pairKey exData)) (by unfold instrOf; rw [if_pos rfl]; rfl) ?_
      unfold coefficients
      rw [if_neg (by decide), if_neg (by decide), if_neg (by decide), onDesign, if_neg (by decide)]
      exact hrun
    · exact extract_admissible _ _ hslope
    · exact extract_norm _ _ (by simp [hxd, insert1, exOpts])
    · simp [extract, hxd, insert1, ext]
    · have hr : Spec.moment exData (extract 2 (exOpts .hful) x) = resid exData (exOpts .hful) x :=
        (funext fun i => C41_layout exData _ rfl x (extract_slopes _ rfl x hslope) i).symm
      have x0 : x 0 = 1 := by simp [hxd, insert1]
      have x1 : x 1 = 140 / 221 := by simp [hxd, insert1, ext]
      have x2 : x 2 = 0 := by simp [hxd, insert1, ext]
      rw [hu.1, hu.2, hα', hr, exData_four, four_jack, four_total]
      simp only [resid, exXX]
      simp [fourMovers, x0, x1, x2]
      norm_num

end Pytwoway.Interacted
