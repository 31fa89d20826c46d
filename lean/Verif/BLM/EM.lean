import Mathlib.Data.List.Chain
import Verif.BLM.MStep

/-! # EM never lowers the likelihood (C33) -/

namespace Pytwoway.BLM

open Finset

variable {ni nl nk : ℕ}

/-! ## Stayers -/

/-- Invariant of the stayers' loop: every row of `pk0` is a positive sub-probability vector. -/
def GoodPk0 (pk : Fin nk → Option (Fin nl → ℝ)) : Prop :=
  ∀ k, ∃ row, pk k = some row ∧ (∀ l, 0 < row l) ∧ ∑ l, row l ≤ 1

theorem updatePk0_row [NeZero nl] (d : Data ni nk) (q : Fin ni → Fin nl → ℝ) (c : ℝ) (hc : 0 < c)
    (hW : ∀ i, d.W 0 i = c) (hq : ∀ i l, 0 < q i l) (hq1 : ∀ i, ∑ l, q i l = 1)
    (hall : ∀ k, ∃ i, d.G 0 i = k) (pk : Fin nk → Option (Fin nl → ℝ))
    (h : updatePk0 d q 1 = .ok pk) (k : Fin nk) :
    pk k = some fun l => (∑ i with d.G 0 i = k, q i l) / ∑ l', ∑ i with d.G 0 i = k, q i l' := by
  obtain ⟨row, hrow, hv, -, -⟩ := C32_stayers d q 1 (fun i => by rw [hW]; exact hc) le_rfl
    (fun i l => (hq i l).le) hq1 pk h k (hall k)
  rw [hrow]
  congr 1
  funext l
  rw [hv]
  simp only [hW, sub_self, add_zero, mul_zero, mul_one, ← mul_sum]
  rw [sum_comm (s := univ)]
  simp only [hq1, sum_const, nsmul_eq_mul, mul_one]
  rw [mul_comm (_ : ℝ) c, mul_div_mul_left _ _ hc.ne']

/-- One iteration: the new proportions do not lower the average log likelihood. -/
theorem stayers_step [NeZero nl] (d : Data ni nk) (b : Base nl nk) (cs : List (Ctrl ni nl)) (c : ℝ)
    (hc : 0 < c) (hW : ∀ i, d.W 0 i = c) (hall : ∀ k, ∃ i, d.G 0 i = k)
    (pk pk' : Fin nk → Option (Fin nl → ℝ)) (hg : GoodPk0 pk)
    (h : updatePk0 d (posterior (lpStayers d b cs pk)) 1 = .ok pk') :
    GoodPk0 pk' ∧ meanLse (lpStayers d b cs pk) ≤ meanLse (lpStayers d b cs pk') := by
  set q := posterior (lpStayers d b cs pk) with hqdef
  have hq : ∀ i l, 0 < q i l := posterior_pos _
  have hq1 : ∀ i, ∑ l, q i l = 1 := posterior_sum _
  have hrow := updatePk0_row d q c hc hW hq hq1 hall pk' h
  have hcpos : ∀ (k : Fin nk) (l : Fin nl), 0 < ∑ i with d.G 0 i = k, q i l := by
    intro k l
    obtain ⟨i, hi⟩ := hall k
    exact sum_pos (fun i _ => hq i l) ⟨i, by simp [hi]⟩
  have htot : ∀ k : Fin nk, 0 < ∑ l', ∑ i with d.G 0 i = k, q i l' := fun k =>
    sum_pos (fun l _ => hcpos k l) univ_nonempty
  refine ⟨fun k => ⟨_, hrow k, fun l => div_pos (hcpos k l) (htot k), ?_⟩, ?_⟩
  · rw [← sum_div, div_self (htot k).ne']
  · apply em_mean
    rw [← hqdef]
    choose row hr hrp hrs using hg
    have e1 : ∀ i l, lpStayers d b cs pk' i l - lpStayers d b cs pk i l =
        Real.log ((∑ i' with d.G 0 i' = d.G 0 i, q i' l) /
          ∑ l', ∑ i' with d.G 0 i' = d.G 0 i, q i' l') - Real.log (row (d.G 0 i) l) := by
      intro i l
      unfold lpStayers
      rw [hrow, hr]
      simp only [Option.getD_some]
      ring
    simp only [e1]
    rw [sum_cells d 0 (fun i k => ∑ l, q i l * (Real.log ((∑ i' with d.G 0 i' = k, q i' l) /
      ∑ l', ∑ i' with d.G 0 i' = k, q i' l') - Real.log (row k l)))]
    refine sum_nonneg fun k _ => ?_
    rw [sum_comm]
    have := gibbs (fun l => ∑ i with d.G 0 i = k, q i l) (row k) (hcpos k) (hrp k) (hrs k)
    simpa only [sum_mul] using this

theorem likStayers_good [NeZero nl] (d : Data ni nk) (b : Base nl nk) (cs : List (Ctrl ni nl))
    (pk : Fin nk → Option (Fin nl → ℝ)) (hg : GoodPk0 pk) (first : Bool) :
    likStayers d b cs pk first 1 = some (meanLse (lpStayers d b cs pk)) := by
  unfold likStayers
  split
  · rfl
  · rw [if_neg]
    · simp
    · rintro ⟨k, hk⟩
      obtain ⟨row, hr, -⟩ := hg k
      rw [hr] at hk; cases hk

theorem stayersLoop_mono [NeZero nl] (d : Data ni nk) (b : Base nl nk) (cs : List (Ctrl ni nl))
    (c thr : ℝ) (hc : 0 < c) (hW : ∀ i, d.W 0 i = c) (hall : ∀ k, ∃ i, d.G 0 i = k) (fuel : ℕ) :
    ∀ (first : Bool) (prev : Option ℝ) (pk : Fin nk → Option (Fin nl → ℝ)) (acc : List ℝ)
      (pk' : Fin nk → Option (Fin nl → ℝ)) (liks : List (Option ℝ)), GoodPk0 pk →
      acc.Pairwise (· ≤ ·) → (∀ x ∈ acc, x ≤ meanLse (lpStayers d b cs pk)) →
      stayersLoop d b cs 1 thr fuel first prev pk (acc.map some) = .ok (pk', liks) →
      GoodPk0 pk' ∧ ∃ ls : List ℝ, liks = ls.map some ∧ ls.Pairwise (· ≤ ·) := by
  induction fuel with
  | zero =>
    intro first prev pk acc pk' liks hg hp _ h
    simp only [stayersLoop, Except.ok.injEq, Prod.mk.injEq] at h
    exact ⟨h.1 ▸ hg, acc, h.2.symm, hp⟩
  | succ fuel ih =>
    intro first prev pk acc pk' liks hg hp hle h
    have hp' : (acc ++ [meanLse (lpStayers d b cs pk)]).Pairwise (· ≤ ·) := by
      rw [List.pairwise_append]
      refine ⟨hp, List.pairwise_singleton _ _, fun a ha x hx => ?_⟩
      rw [List.mem_singleton] at hx
      rw [hx]; exact hle a ha
    have hmap : acc.map some ++ [some (meanLse (lpStayers d b cs pk))] =
        (acc ++ [meanLse (lpStayers d b cs pk)]).map some := by simp
    unfold stayersLoop at h
    simp only [likStayers_good d b cs pk hg first, hmap] at h
    split at h
    · simp only [Except.ok.injEq, Prod.mk.injEq] at h
      exact ⟨h.1 ▸ hg, _, h.2.symm, hp'⟩
    · cases hu : updatePk0 d (posterior (lpStayers d b cs pk)) 1 with
      | error m => rw [hu] at h; simp [bind, Except.bind] at h
      | ok pk2 =>
        rw [hu] at h
        simp only [bind, Except.bind] at h
        obtain ⟨hg2, hm⟩ := stayers_step d b cs c hc hW hall pk pk2 hg hu
        refine ih false _ pk2 _ pk' liks hg2 hp' ?_ h
        intro x hx
        rw [List.mem_append, List.mem_singleton] at hx
        rcases hx with hx | hx
        · exact (hle x hx).trans hm
        · rw [hx]; exact hm

/-- C33 for stayers: with no Dirichlet prior, equal weights, every firm type observed and positive
starting proportions, every recorded likelihood is a number and the recorded path never decreases,
for any number of iterations, any threshold, any controls and any wage parameters. -/
theorem C33_stayers [NeZero nl] (d : Data ni nk) (b : Base nl nk) (cs : List (Ctrl ni nl))
    (c thr : ℝ) (hc : 0 < c) (hW : ∀ i, d.W 0 i = c) (hall : ∀ k, ∃ i, d.G 0 i = k) (nIters : ℕ)
    (pk0 : Fin nk → Fin nl → ℝ) (hpos : ∀ k l, 0 < pk0 k l) (hsum : ∀ k, ∑ l, pk0 k l ≤ 1)
    (pk0' : Fin nk → Option (Fin nl → ℝ)) (liks : List (Option ℝ))
    (h : fitStayers d b cs 1 thr nIters pk0 = .ok (pk0', liks)) :
    ∃ ls : List ℝ, liks = ls.map some ∧ ls.Pairwise (· ≤ ·) :=
  (stayersLoop_mono d b cs c thr hc hW hall nIters true none _ [] pk0' liks
    (fun k => ⟨pk0 k, rfl, hpos k, hsum k⟩) List.Pairwise.nil (by simp) h).2

theorem updatePk0_ok [NeZero nl] (d : Data ni nk) (q : Fin ni → Fin nl → ℝ) (dp : ℝ) (hnk : 0 < nk)
    (hall : ∀ k, ∃ i, d.G 0 i = k) : ∃ pk, updatePk0 d q dp = .ok pk := by
  obtain ⟨i, hi⟩ := hall ⟨nk - 1, by omega⟩
  obtain ⟨e, he⟩ := (sumPk0_isOk (nl := nl) d q dp hnk).mpr ⟨i, by rw [hi]⟩
  unfold updatePk0
  rw [he]
  exact ⟨_, rfl⟩

theorem stayersLoop_ok [NeZero nl] (d : Data ni nk) (b : Base nl nk) (cs : List (Ctrl ni nl))
    (dp thr : ℝ) (hnk : 0 < nk) (hall : ∀ k, ∃ i, d.G 0 i = k) (fuel : ℕ) :
    ∀ first prev pk acc, ∃ r, stayersLoop d b cs dp thr fuel first prev pk acc = .ok r := by
  induction fuel with
  | zero => intro first prev pk acc; exact ⟨_, rfl⟩
  | succ fuel ih =>
    intro first prev pk acc
    unfold stayersLoop
    simp only
    split
    · exact ⟨_, rfl⟩
    · obtain ⟨pk2, h2⟩ := updatePk0_ok d (posterior (lpStayers d b cs pk)) dp hnk hall
      rw [h2]
      simp only [bind, Except.bind]
      exact ih _ _ _ _

/-- `fit_stayers` does return when every firm type is observed, so that C33 is not vacuous. -/
theorem C33_stayers_returns [NeZero nl] (d : Data ni nk) (b : Base nl nk) (cs : List (Ctrl ni nl))
    (dp thr : ℝ) (hnk : 0 < nk) (hall : ∀ k, ∃ i, d.G 0 i = k) (nIters : ℕ)
    (pk0 : Fin nk → Fin nl → ℝ) : ∃ r, fitStayers d b cs dp thr nIters pk0 = .ok r :=
  stayersLoop_ok d b cs dp thr hnk hall nIters _ _ _ _

/-- Non-vacuity of C33: the hypotheses hold for `exData` with half-half proportions. -/
example : (∀ i, exData.W 0 i = 1) ∧ (∀ k, ∃ i, exData.G 0 i = k) ∧
    (∀ (k l : Fin 2), 0 < (fun _ _ => 1 / 2 : Fin 2 → Fin 2 → ℝ) k l) ∧
    ∀ k : Fin 2, ∑ l, (fun _ _ => 1 / 2 : Fin 2 → Fin 2 → ℝ) k l ≤ 1 := by
  refine ⟨fun _ => rfl, fun k => ?_, fun _ _ => by norm_num, fun _ => by norm_num⟩
  fin_cases k
  · exact ⟨0, by simp [exData]⟩
  · exact ⟨1, by simp [exData]⟩

/-! ## Movers -/

/-- In one cell with total weight `c` and weighted squared residuals `M`, the bounded variance
estimate is at least as likely as any admissible variance. -/
theorem cell_variance (c M lb s s' : ℝ) (hc : 0 < c) (hlb : 0 < lb) (hs : lb ≤ s)
    (hs' : s' = max lb (M / c)) :
    c * Real.log s' + M / s' ≤ c * Real.log s + M / s := by
  have hsp : 0 < s := lt_of_lt_of_le hlb hs
  have hs'p : 0 < s' := by rw [hs']; exact lt_of_lt_of_le hlb (le_max_left _ _)
  have h1 : Real.log s' - Real.log s ≤ s' / s - 1 := by
    rw [← Real.log_div hs'p.ne' hsp.ne']
    exact Real.log_le_sub_one_of_pos (by positivity)
  have h2 : c * (s' / s - 1) + M / s' - M / s = (s' - s) * (c * s' - M) / (s * s') := by
    field_simp
    ring
  have h3 : (s' - s) * (c * s' - M) ≤ 0 := by
    rcases le_total lb (M / c) with h | h
    · rw [max_eq_right h] at hs'
      have : c * s' - M = 0 := by rw [hs']; field_simp; ring
      rw [this, mul_zero]
    · rw [max_eq_left h] at hs'
      rw [hs']
      have h4 : M ≤ lb * c := (div_le_iff₀ hc).mp h
      nlinarith
  have h4 : (s' - s) * (c * s' - M) / (s * s') ≤ 0 :=
    div_nonpos_of_nonpos_of_nonneg h3 (by positivity)
  have h5 := mul_le_mul_of_nonneg_left h1 hc.le
  nlinarith

/-- Expected log density of the wages (up to the posterior weights). -/
noncomputable def wageQ (d : Data ni nk) (q : Fin ni → Fin nl → ℝ) (b : Base nl nk) : ℝ :=
  ∑ t, ∑ l, ∑ i, d.W t i * q i l * lpWage d b [] t l i

theorem lpWage_nil (d : Data ni nk) (b : Base nl nk) (t : Fin 2) (l : Fin nl) (i : Fin ni) :
    lpWage d b [] t l i = Util.logpi - Real.log (b.S t l (d.G t i)) -
      (d.Y t i - b.A t l (d.G t i)) ^ 2 / (2 * b.S t l (d.G t i) ^ 2) := by
  simp [lpWage, Util.fastLognormpdf]

/-- Changing the means: the expected log density falls with the weighted sum of squares. -/
theorem wageQ_means (d : Data ni nk) (q : Fin ni → Fin nl → ℝ) (A A' S : Fin 2 → Fin nl → Fin nk → ℝ)
    (h : wsse d q S A' ≤ wsse d q S A) : wageQ d q ⟨A, S⟩ ≤ wageQ d q ⟨A', S⟩ := by
  have : wageQ d q ⟨A', S⟩ - wageQ d q ⟨A, S⟩ = (wsse d q S A - wsse d q S A') / 2 := by
    unfold wageQ wsse
    rw [← sum_sub_distrib, ← sum_sub_distrib, sum_div]
    refine sum_congr rfl fun t _ => ?_
    rw [← sum_sub_distrib, ← sum_sub_distrib, sum_div]
    refine sum_congr rfl fun l _ => ?_
    rw [← sum_sub_distrib, ← sum_sub_distrib, sum_div]
    refine sum_congr rfl fun i _ => ?_
    rw [lpWage_nil, lpWage_nil]
    simp only
    ring
  linarith

/-- Changing the standard deviations cell by cell. -/
theorem wageQ_sds (d : Data ni nk) (q : Fin ni → Fin nl → ℝ) (A S S' : Fin 2 → Fin nl → Fin nk → ℝ)
    (lb : ℝ) (hlb : 0 < lb) (hW : ∀ t i, 0 < d.W t i) (hq : ∀ i l, 0 < q i l)
    (hS : ∀ t l k, 0 < S t l k ∧ lb ≤ S t l k ^ 2) 
    (h : ∀ t l k, (∃ i, d.G t i = k) → S' t l k ^ 2 = max lb
      ((∑ i with d.G t i = k, d.W t i * q i l * (d.Y t i - A t l k) ^ 2) / cellW d q t l k)) :
    wageQ d q ⟨A, S⟩ ≤ wageQ d q ⟨A, S'⟩ := by
  unfold wageQ
  refine sum_le_sum fun t _ => sum_le_sum fun l _ => ?_
  simp only [lpWage_nil]
  rw [sum_cells d t (fun i k => d.W t i * q i l * (Util.logpi - Real.log (S t l k) -
      (d.Y t i - A t l k) ^ 2 / (2 * S t l k ^ 2))),
    sum_cells d t (fun i k => d.W t i * q i l * (Util.logpi - Real.log (S' t l k) -
      (d.Y t i - A t l k) ^ 2 / (2 * S' t l k ^ 2)))]
  refine sum_le_sum fun k _ => ?_
  by_cases hk : ∃ i, d.G t i = k
  · set M := ∑ i with d.G t i = k, d.W t i * q i l * (d.Y t i - A t l k) ^ 2 with hM
    have hcpos : 0 < cellW d q t l k := by
      obtain ⟨i, hi⟩ := hk
      exact sum_pos (fun i _ => mul_pos (hW t i) (hq i l)) ⟨i, by simp [hi]⟩
    have hv := cell_variance (cellW d q t l k) M lb (S t l k ^ 2) (S' t l k ^ 2) hcpos hlb
      (hS t l k).2 (h t l k hk)
    have e : ∀ T : ℝ, ∑ i with d.G t i = k, d.W t i * q i l * (Util.logpi - Real.log T -
        (d.Y t i - A t l k) ^ 2 / (2 * T ^ 2)) =
        cellW d q t l k * Util.logpi - (cellW d q t l k * Real.log (T ^ 2) + M / T ^ 2) / 2 := by
      intro T
      rw [Real.log_pow, hM]
      unfold cellW
      rw [sum_mul, sum_mul, sum_div, ← sum_add_distrib, sum_div, ← sum_sub_distrib]
      refine sum_congr rfl fun i _ => ?_
      push_cast
      ring
    rw [e, e]
    linarith
  · have : (univ.filter fun i => d.G t i = k) = ∅ :=
      filter_false_of_mem fun i _ hi => hk ⟨i, hi⟩
    rw [this, sum_empty, sum_empty]

/-- The M-step does not lower the expected log density of the wages and keeps the invariant, for any
constraint set on the means that the old means satisfy. -/
theorem mstep_improves (d : Data ni nk) (q : Fin ni → Fin nl → ℝ) (b b' : Base nl nk)
    (updA updS : Bool) (sA sS : Solver) (F : (Fin 2 → Fin nl → Fin nk → ℝ) → Prop) (lb : ℝ)
    (hlb : 0 < lb)
    (hsA : ∀ P r x, sA P r = .ok (some x) → F (unflatten nl nk x) ∧
      ∀ y, F (unflatten nl nk y) → qpObj (2 * (nl * nk)) P r x ≤ qpObj (2 * (nl * nk)) P r y)
    (hsS : RightSolver (2 * (nl * nk)) (BoundS nl nk lb) sS)
    (htop : TopObserved d) (hW : ∀ t i, 0 < d.W t i) (hq : ∀ i l, 0 < q i l)
    (hF : F b.A) (hS : ∀ t l k, 0 < b.S t l k ∧ lb ≤ b.S t l k ^ 2)
    (h : mstep d q b updA updS sA sS = .ok b') :
    F b'.A ∧ (∀ t l k, 0 < b'.S t l k ∧ lb ≤ b'.S t l k ^ 2) ∧ wageQ d q b ≤ wageQ d q b' := by
  by_cases hupd : (updA || updS) = true
  swap
  · unfold mstep at h
    rw [if_neg hupd] at h
    cases h
    exact ⟨hF, hS, le_rfl⟩
  obtain ⟨X, hX, hXv⟩ := assemble_ok d htop fun t l i => wts d b.S q t l i
  obtain ⟨Yv, hY, hYv⟩ := assemble_ok d htop fun t l i => wts d b.S q t l i * d.Y t i
  -- the means
  have hA : ∀ A', A' = (if updA then solveA sA X Yv b.A else b.A) →
      F A' ∧ wageQ d q b ≤ wageQ d q ⟨A', b.S⟩ := by
    rintro A' rfl
    cases updA with
    | false => exact ⟨hF, le_rfl⟩
    | true =>
      simp only [if_true]
      unfold solveA
      split
      · rename_i x hx
        obtain ⟨hfx, hmin⟩ := hsA _ _ _ hx
        refine ⟨hfx, wageQ_means d q b.A _ b.S ?_⟩
        obtain ⟨y, hy⟩ := exists_flat b.A
        have := hmin y (by rw [hy]; exact hF)
        rw [obj_eq_wsse d q b.S X Yv x hXv hYv, obj_eq_wsse d q b.S X Yv y hXv hYv, hy] at this
        linarith
      · exact ⟨hF, le_rfl⟩
      · exact ⟨hF, le_rfl⟩
  cases updS with
  | false =>
    unfold mstep at h
    simp only [hupd, if_true, hX, hY, bind, Except.bind, pure, Except.pure] at h
    cases updA <;> simp at h
  | true =>
    obtain ⟨A', hA'⟩ : ∃ A', A' = (if updA then solveA sA X Yv b.A else b.A) := ⟨_, rfl⟩
    obtain ⟨hFA, hQA⟩ := hA A' hA'
    obtain ⟨Z, hZ, hZv⟩ := assemble_ok d htop fun t l i => wts d b.S q t l i *
      (d.Y t i - A' t l (d.G t i)) ^ 2
    have hb' : b' = ⟨A', solveS sS X Z b.S⟩ := by
      unfold mstep at h
      simp only [hupd, if_true, hX, hY, bind, Except.bind, pure, Except.pure] at h
      cases updA with
      | true =>
        simp only [if_true] at h hA'
        rw [← hA', hZ] at h
        simp only [Except.ok.injEq] at h
        exact h.symm
      | false =>
        simp only [Bool.false_eq_true, if_false] at h hA'
        rw [← hA', hZ] at h
        simp only [Except.ok.injEq] at h
        exact h.symm
    subst hb'
    refine ⟨hFA, ?_⟩
    cases hz : sS X (fun p => - Z p) with
    | error m =>
      have : solveS sS X Z b.S = b.S := by unfold solveS; rw [hz]
      simp only [this]
      exact ⟨hS, hQA⟩
    | ok r =>
      cases r with
      | none =>
        have : solveS sS X Z b.S = b.S := by unfold solveS; rw [hz]
        simp only [this]
        exact ⟨hS, hQA⟩
      | some z =>
        have hsv : solveS sS X Z b.S = fun t l k => √(unflatten nl nk z t l k) := by
          unfold solveS; rw [hz]
        simp only [hsv]
        have hzlb : ∀ t l k, lb ≤ unflatten nl nk z t l k := fun t l k =>
          (hsS.sound _ _ _ hz).1 _ (pos_lt t l k)
        have hsq : ∀ t l k, (√(unflatten nl nk z t l k)) ^ 2 = unflatten nl nk z t l k :=
          fun t l k => Real.sq_sqrt (hlb.le.trans (hzlb t l k))
        refine ⟨fun t l k => ⟨Real.sqrt_pos.mpr (hlb.trans_le (hzlb t l k)), ?_⟩, ?_⟩
        · rw [hsq]; exact hzlb t l k
        · refine hQA.trans (wageQ_sds d q A' b.S _ lb hlb hW hq hS ?_)
          intro t l k hk
          rw [hsq]
          have hcpos : 0 < cellW d q t l k := by
            obtain ⟨i, hi⟩ := hk
            exact sum_pos (fun i _ => mul_pos (hW t i) (hq i l)) ⟨i, by simp [hi]⟩
          have hS2 : 0 < b.S t l k ^ 2 := hlb.trans_le (hS t l k).2
          have hXc : X (t.val * (nl * nk) + l.val * nk + k.val) =
              cellW d q t l k / b.S t l k ^ 2 := by
            rw [hXv]
            unfold cellW wts
            rw [sum_div]
            exact sum_congr rfl fun i hi => by rw [(mem_filter.mp hi).2]
          have hzc := box_coord hsS hz (pos_lt t l k) (by rw [hXc]; exact div_pos hcpos hS2)
          unfold unflatten
          rw [hzc, hZv, hXc]
          have hZc : ∑ i with d.G t i = k, wts d b.S q t l i *
              (d.Y t i - A' t l (d.G t i)) ^ 2 =
              (∑ i with d.G t i = k, d.W t i * q i l * (d.Y t i - A' t l k) ^ 2) /
                b.S t l k ^ 2 := by
            unfold wts
            rw [sum_div]
            refine sum_congr rfl fun i hi => ?_
            rw [(mem_filter.mp hi).2]; ring
          rw [hZc, div_div_div_cancel_right₀ hS2.ne']

/-- Invariant of the movers' loop. -/
structure GoodState (F : (Fin 2 → Fin nl → Fin nk → ℝ) → Prop) (lb : ℝ) (b : Base nl nk)
    (pk1 : ℕ → Fin nl → ℝ) : Prop where
  feas : F b.A
  sds : ∀ t l k, 0 < b.S t l k ∧ lb ≤ b.S t l k ^ 2
  pos : ∀ p < nk ^ 2, ∀ l, 0 < pk1 p l
  sum : ∀ p < nk ^ 2, ∑ l, pk1 p l ≤ 1

theorem top_of_updatePk1 [NeZero nl] (d : Data ni nk) (q : Fin ni → Fin nl → ℝ) (dp : ℝ)
    (pk : ℕ → Fin nl → ℝ) (h : updatePk1 d q dp = .ok pk) : AllPairs d := by
  by_contra hne
  rw [C32_movers_raises d q dp hne] at h
  cases h

/-- The pair proportions: the new ones fit the posteriors at least as well as the old ones. -/
theorem pk1_improves [NeZero nl] (d : Data ni nk) (q : Fin ni → Fin nl → ℝ) (pk pk' : ℕ → Fin nl → ℝ)
    (hnk : 0 < nk) (c : ℝ) (hW : ∀ t i, 0 < d.W t i) (hWc : ∀ i, d.W 0 i * d.W 1 i = c)
    (hq : ∀ i l, 0 < q i l) (hq1 : ∀ i, ∑ l, q i l = 1)
    (hpos : ∀ p < nk ^ 2, ∀ l, 0 < pk p l) (hsum : ∀ p < nk ^ 2, ∑ l, pk p l ≤ 1)
    (h : updatePk1 d q 1 = .ok pk') :
    (∀ p < nk ^ 2, ∀ l, 0 < pk' p l) ∧ (∀ p < nk ^ 2, ∑ l, pk' p l ≤ 1) ∧
    0 ≤ ∑ i, ∑ l, q i l * (Real.log (pk' (KK d i) l) - Real.log (pk (KK d i) l)) := by
  have hall := top_of_updatePk1 d q 1 pk' h
  obtain ⟨pk2, h2, hv⟩ := C32_movers d q 1 hW le_rfl (fun i l => (hq i l).le) hq1 hnk hall
  rw [h] at h2
  cases h2
  have hcp : 0 < √c := by
    obtain ⟨i, -⟩ := hall ⟨0, hnk⟩ ⟨0, hnk⟩
    rw [← hWc i]
    exact Real.sqrt_pos.mpr (mul_pos (hW 0 i) (hW 1 i))
  have hform : ∀ (k1 k2 : Fin nk) (l : Fin nl), pk' (k1.val + nk * k2.val) l =
      (∑ i with d.G 0 i = k1 ∧ d.G 1 i = k2, q i l) /
        ∑ l', ∑ i with d.G 0 i = k1 ∧ d.G 1 i = k2, q i l' := by
    intro k1 k2 l
    rw [(hv k1 k2).1 l]
    simp only [hWc, sub_self, add_zero, mul_zero, mul_one, ← mul_sum]
    rw [sum_comm (s := univ)]
    simp only [hq1, sum_const, nsmul_eq_mul, mul_one]
    rw [mul_comm (_ : ℝ) (√c), mul_div_mul_left _ _ hcp.ne']
  have hcpos : ∀ (k1 k2 : Fin nk) (l : Fin nl), 0 < ∑ i with d.G 0 i = k1 ∧ d.G 1 i = k2, q i l := by
    intro k1 k2 l
    obtain ⟨i, hi⟩ := hall k1 k2
    exact sum_pos (fun i _ => hq i l) ⟨i, by simp [hi]⟩
  have htot : ∀ k1 k2 : Fin nk, 0 < ∑ l', ∑ i with d.G 0 i = k1 ∧ d.G 1 i = k2, q i l' :=
    fun k1 k2 => sum_pos (fun l _ => hcpos k1 k2 l) univ_nonempty
  refine ⟨?_, ?_, ?_⟩
  · intro p hp l
    obtain ⟨k1, k2, rfl⟩ := pair_of_lt hp
    rw [hform]
    exact div_pos (hcpos k1 k2 l) (htot k1 k2)
  · intro p hp
    obtain ⟨k1, k2, rfl⟩ := pair_of_lt hp
    exact (hv k1 k2).2.2.le
  · have e : ∑ i, ∑ l, q i l * (Real.log (pk' (KK d i) l) - Real.log (pk (KK d i) l)) =
        ∑ k : Fin nk × Fin nk, ∑ i with (d.G 0 i, d.G 1 i) = k, ∑ l, q i l *
          (Real.log (pk' (k.1.val + nk * k.2.val) l) - Real.log (pk (k.1.val + nk * k.2.val) l)) := by
      rw [← sum_fiberwise_of_maps_to (s := univ) (t := univ) (g := fun i => (d.G 0 i, d.G 1 i))
        (fun i _ => mem_univ _)]
      refine sum_congr rfl fun k _ => sum_congr rfl fun i hi => ?_
      rw [← (mem_filter.mp hi).2]
      rfl
    rw [e]
    refine sum_nonneg fun k _ => ?_
    obtain ⟨k1, k2⟩ := k
    rw [sum_comm]
    have hlt : k1.val + nk * k2.val < nk ^ 2 := by
      have h0 := k1.isLt; have h1 := k2.isLt; nlinarith
    have := gibbs (fun l => ∑ i with d.G 0 i = k1 ∧ d.G 1 i = k2, q i l) (pk (k1.val + nk * k2.val))
      (hcpos k1 k2) (hpos _ hlt) (hsum _ hlt)
    simp only [Prod.mk.injEq]
    simp only [hform]
    simpa only [sum_mul] using this

/-- One iteration of the movers' loop. -/
theorem movers_step [NeZero nl] (d : Data ni nk) (b b' : Base nl nk) (pk pk' : ℕ → Fin nl → ℝ)
    (updA updS updPk : Bool) (sA sS : Solver) (F : (Fin 2 → Fin nl → Fin nk → ℝ) → Prop) (lb c : ℝ)
    (hlb : 0 < lb) (hnk : 0 < nk)
    (hsA : ∀ P r x, sA P r = .ok (some x) → F (unflatten nl nk x) ∧
      ∀ y, F (unflatten nl nk y) → qpObj (2 * (nl * nk)) P r x ≤ qpObj (2 * (nl * nk)) P r y)
    (hsS : RightSolver (2 * (nl * nk)) (BoundS nl nk lb) sS)
    (htop : TopObserved d) (hW : ∀ t i, 0 < d.W t i)
    (hWc : updPk = true → ∀ i, d.W 0 i * d.W 1 i = c) (hg : GoodState F lb b pk)
    (hpk : nextPk1 updPk d (posterior (lpMovers d b [] pk)) 1 pk = .ok pk')
    (hm : mstep d (posterior (lpMovers d b [] pk)) b updA updS sA sS = .ok b') :
    GoodState F lb b' pk' ∧ meanLse (lpMovers d b [] pk) ≤ meanLse (lpMovers d b' [] pk') := by
  set q := posterior (lpMovers d b [] pk) with hqdef
  have hq : ∀ i l, 0 < q i l := posterior_pos _
  have hq1 : ∀ i, ∑ l, q i l = 1 := posterior_sum _
  obtain ⟨hF, hS, hQ⟩ := mstep_improves d q b b' updA updS sA sS F lb hlb hsA hsS htop hW hq hg.feas
    hg.sds hm
  have hP : (∀ p < nk ^ 2, ∀ l, 0 < pk' p l) ∧ (∀ p < nk ^ 2, ∑ l, pk' p l ≤ 1) ∧
      0 ≤ ∑ i, ∑ l, q i l * (Real.log (pk' (KK d i) l) - Real.log (pk (KK d i) l)) := by
    cases updPk with
    | true =>
      simp only [nextPk1, if_true] at hpk
      exact pk1_improves d q pk pk' hnk c hW (hWc rfl) hq hq1 hg.pos hg.sum hpk
    | false =>
      simp only [nextPk1, Bool.false_eq_true, if_false, Except.ok.injEq] at hpk
      subst hpk
      exact ⟨hg.pos, hg.sum, by simp⟩
  refine ⟨⟨hF, hS, hP.1, hP.2.1⟩, em_mean _ _ ?_⟩
  rw [← hqdef]
  have e : ∑ i, ∑ l, q i l * (lpMovers d b' [] pk' i l - lpMovers d b [] pk i l) =
      ∑ i, ∑ l, q i l * (Real.log (pk' (KK d i) l) - Real.log (pk (KK d i) l)) +
        (wageQ d q b' - wageQ d q b) := by
    unfold wageQ
    rw [← sum_sub_distrib, Fin.sum_univ_two]
    simp only [← sum_sub_distrib]
    rw [sum_comm (s := (univ : Finset (Fin nl))) (f := fun l i => d.W 0 i * q i l * lpWage d b' [] 0 l i - _),
      sum_comm (s := (univ : Finset (Fin nl))) (f := fun l i => d.W 1 i * q i l * lpWage d b' [] 1 l i - _),
      ← sum_add_distrib, ← sum_add_distrib]
    refine sum_congr rfl fun i _ => ?_
    rw [← sum_add_distrib, ← sum_add_distrib]
    refine sum_congr rfl fun l _ => ?_
    unfold lpMovers
    ring
  rw [e]
  have := hP.2.2
  linarith

theorem moversLoop_mono [NeZero nl] (d : Data ni nk) (o : MoverOpts) (sA sS : Solver)
    (minType : (Fin 2 → Fin nl → Fin nk → ℝ) → ℕ)
    (F : (Fin 2 → Fin nl → Fin nk → ℝ) → Prop) (lb c : ℝ) (hlb : 0 < lb) (hnk : 0 < nk)
    (hsA : ∀ P r x, sA P r = .ok (some x) → F (unflatten nl nk x) ∧
      ∀ y, F (unflatten nl nk y) → qpObj (2 * (nl * nk)) P r x ≤ qpObj (2 * (nl * nk)) P r y)
    (hsS : RightSolver (2 * (nl * nk)) (BoundS nl nk lb) sS)
    (htop : TopObserved d) (hW : ∀ t i, 0 < d.W t i)
    (hWc : o.updPk = true → ∀ i, d.W 0 i * d.W 1 i = c) (hd : o.dprior = 1) (fuel : ℕ) :
    ∀ (first : Bool) (prev : Option ℝ) (pm : ℕ) (s s' : MoverState nl nk),
      GoodState F lb s.base s.pk1 → s.liks.Pairwise (· ≤ ·) →
      (∀ x ∈ s.liks, x ≤ meanLse (lpMovers d s.base [] s.pk1)) →
      moversLoop d o sA sS minType fuel first prev pm s = .ok s' →
      s'.liks.Pairwise (· ≤ ·) ∧ GoodState F lb s'.base s'.pk1 := by
  induction fuel with
  | zero =>
    intro first prev pm s s' hg hp _ h
    simp only [moversLoop, Except.ok.injEq] at h
    subst h
    exact ⟨hp, hg⟩
  | succ fuel ih =>
    intro first prev pm s s' hg hp hle h
    have hlik : likMovers d s.base [] s.pk1 first o.updPk o.dprior =
        meanLse (lpMovers d s.base [] s.pk1) := by
      unfold likMovers; rw [hd]; simp
    have hp' : (s.liks ++ [meanLse (lpMovers d s.base [] s.pk1)]).Pairwise (· ≤ ·) := by
      rw [List.pairwise_append]
      refine ⟨hp, List.pairwise_singleton _ _, fun a ha x hx => ?_⟩
      rw [List.mem_singleton] at hx
      rw [hx]; exact hle a ha
    unfold moversLoop at h
    simp only [hlik] at h
    split at h
    · simp only [Except.ok.injEq] at h
      subst h
      exact ⟨hp', hg⟩
    · cases hu : nextPk1 o.updPk d (posterior (lpMovers d s.base [] s.pk1)) o.dprior s.pk1 with
      | error m => rw [hu] at h; simp [bind, Except.bind] at h
      | ok pk2 =>
        cases hm : mstep d (posterior (lpMovers d s.base [] s.pk1)) s.base o.updA o.updS sA sS with
        | error m => rw [hu, hm] at h; simp [bind, Except.bind] at h
        | ok b2 =>
          rw [hu, hm] at h
          simp only [bind, Except.bind] at h
          rw [hd] at hu
          obtain ⟨hg2, hmm⟩ := movers_step d s.base b2 s.pk1 pk2 o.updA o.updS o.updPk sA sS F lb c
            hlb hnk hsA hsS htop hW hWc hg hu hm
          refine ih false _ _ _ s' hg2 hp' ?_ h
          intro x hx
          rw [List.mem_append, List.mem_singleton] at hx
          rcases hx with hx | hx
          · exact (hle x hx).trans hmm
          · rw [hx]; exact hmm

/-- C33 for movers: with no Dirichlet prior and without controls, the path of likelihoods recorded by
the movers' EM loop never decreases.  It holds for any number of iterations, thresholds and update
flags, any positive weights if `pk1` is held fixed and weights with constant product otherwise, and any
constraint set `F` on the means met by the starting means, provided the variances start at or above
their lower bound. -/
theorem C33_movers [NeZero nl] (d : Data ni nk) (o : MoverOpts) (sA sS : Solver)
    (minType : (Fin 2 → Fin nl → Fin nk → ℝ) → ℕ)
    (F : (Fin 2 → Fin nl → Fin nk → ℝ) → Prop) (lb c : ℝ) (hlb : 0 < lb) (hnk : 0 < nk)
    (hsA : RightSolver (2 * (nl * nk)) (fun x => F (unflatten nl nk x)) sA)
    (hsS : RightSolver (2 * (nl * nk)) (BoundS nl nk lb) sS)
    (htop : TopObserved d) (hW : ∀ t i, 0 < d.W t i)
    (hWc : o.updPk = true → ∀ i, d.W 0 i * d.W 1 i = c) (hd : o.dprior = 1) (nIters pm : ℕ)
    (b : Base nl nk) (pk1 : ℕ → Fin nl → ℝ) (hF : F b.A)
    (hS : ∀ t l k, 0 < b.S t l k ∧ lb ≤ b.S t l k ^ 2)
    (hpos : ∀ p < nk ^ 2, ∀ l, 0 < pk1 p l) (hsum : ∀ p < nk ^ 2, ∑ l, pk1 p l ≤ 1)
    (s' : MoverState nl nk)
    (h : moversLoop d o sA sS minType nIters true none pm ⟨b, pk1, []⟩ = .ok s') :
    s'.liks.Pairwise (· ≤ ·) :=
  (moversLoop_mono d o sA sS minType F lb c hlb hnk hsA.sound hsS htop hW hWc hd nIters true none pm
    ⟨b, pk1, []⟩ s' ⟨hF, hS, hpos, hsum⟩ List.Pairwise.nil (by simp) h).1

theorem mstep_ok (d : Data ni nk) (q : Fin ni → Fin nl → ℝ) (b : Base nl nk) (updA : Bool)
    (sA sS : Solver) (htop : TopObserved d) : ∃ b', mstep d q b updA true sA sS = .ok b' := by
  obtain ⟨X, hX, -⟩ := assemble_ok d htop fun t l i => wts d b.S q t l i
  obtain ⟨Yv, hY, -⟩ := assemble_ok d htop fun t l i => wts d b.S q t l i * d.Y t i
  unfold mstep
  cases updA with
  | true =>
    obtain ⟨Z, hZ, -⟩ := assemble_ok d htop fun t l i => wts d b.S q t l i *
      (d.Y t i - solveA sA X Yv b.A t l (d.G t i)) ^ 2
    simp only [Bool.true_or, if_true, hX, hY, bind, Except.bind, pure, Except.pure, hZ]
    exact ⟨_, rfl⟩
  | false =>
    obtain ⟨Z, hZ, -⟩ := assemble_ok d htop fun t l i => wts d b.S q t l i *
      (d.Y t i - b.A t l (d.G t i)) ^ 2
    simp only [Bool.or_true, if_true, hX, bind, Except.bind, pure, Except.pure, hZ,
      Bool.false_eq_true, if_false]
    exact ⟨_, rfl⟩

/-- The movers' loop does return (with `update_s`) when every pair of firm types is observed, for any
solvers. -/
theorem C33_movers_returns [NeZero nl] (d : Data ni nk) (o : MoverOpts) (sA sS : Solver)
    (minType : (Fin 2 → Fin nl → Fin nk → ℝ) → ℕ) (hnk : 0 < nk) (hall : AllPairs d)
    (hW : ∀ t i, 0 < d.W t i) (hd : 1 ≤ o.dprior) (hs : o.updS = true) (fuel : ℕ) :
    ∀ first prev pm (s : MoverState nl nk),
      ∃ r, moversLoop d o sA sS minType fuel first prev pm s = .ok r := by
  have htop : TopObserved d := by
    intro t
    obtain ⟨i, h0, h1⟩ := hall ⟨nk - 1, by omega⟩ ⟨nk - 1, by omega⟩
    refine ⟨i, ?_⟩
    fin_cases t
    · exact congrArg Fin.val h0
    · exact congrArg Fin.val h1
  induction fuel with
  | zero => intro first prev pm s; exact ⟨_, rfl⟩
  | succ fuel ih =>
    intro first prev pm s
    unfold moversLoop
    simp only
    split
    · exact ⟨_, rfl⟩
    · obtain ⟨pk, hpk⟩ : ∃ pk, nextPk1 o.updPk d (posterior (lpMovers d s.base [] s.pk1)) o.dprior
          s.pk1 = .ok pk := by
        unfold nextPk1
        split
        · obtain ⟨pk, h, -⟩ := C32_movers d (posterior (lpMovers d s.base [] s.pk1)) o.dprior hW hd
            (fun i l => (posterior_pos _ i l).le) (posterior_sum _) hnk hall
          exact ⟨pk, h⟩
        · exact ⟨_, rfl⟩
      obtain ⟨b', hb'⟩ := mstep_ok d (posterior (lpMovers d s.base [] s.pk1)) s.base o.updA sA sS htop
      rw [hpk, hs, hb']
      simp only [bind, Except.bind]
      exact ih _ _ _ _

/-- Non-vacuity of C33 for movers: four movers covering all pairs of two firm types, unit weights and
standard deviations, even proportions, no constraint on the means. -/
example : ∃ d : Data 4 2, AllPairs d ∧ TopObserved d ∧ (∀ t i, 0 < d.W t i) ∧
    (∀ i, d.W 0 i * d.W 1 i = 1) ∧ (∀ t l k, 0 < exBase.S t l k ∧ 1 / 10000000 ≤ exBase.S t l k ^ 2) ∧
    (∀ p < 2 ^ 2, ∑ l : Fin 2, (fun _ _ => 1 / 2 : ℕ → Fin 2 → ℝ) p l ≤ 1) ∧
    ∃ sA, RightSolver (2 * (2 * 2)) (fun _ => True) sA := by
  refine ⟨⟨fun _ _ => 0, fun t i => if t = 0 then ⟨i.val % 2, by omega⟩ else ⟨i.val / 2, by omega⟩,
    fun _ _ => 1⟩, ?_, ?_, fun _ _ => by norm_num, fun _ => by norm_num, fun _ _ _ => ?_,
    fun _ _ => by norm_num, rightSolver_free _⟩
  · intro k1 k2
    refine ⟨⟨k1.val + 2 * k2.val, by omega⟩, Fin.ext ?_, Fin.ext ?_⟩
    · simp; omega
    · simp; omega
  · intro t
    refine ⟨3, ?_⟩
    fin_cases t <;> simp
  · simp only [exBase]; norm_num

/-! ## With a Dirichlet prior the recorded path may fall -/

/-- The hypothesis `d_prior = 1` is needed: the prior term is left out of the first recorded value
and included afterwards, so for every `d_prior > 1` (the default is `1 + 1e-7`) there is a data set,
already at the fixed point of EM, whose second recorded likelihood is below the first. -/
theorem C33_prior_lowers (dp thr : ℝ) (hdp : 1 < dp) :
    ∃ (d : Data 1 1) (b : Base 2 1) (pk0 : Fin 1 → Fin 2 → ℝ) (pk' : _) (x y : ℝ),
      (∀ k l, 0 < pk0 k l) ∧ (∀ k, ∑ l, pk0 k l = 1) ∧
      fitStayers d b [] dp thr 2 pk0 = .ok (pk', [some x, some y]) ∧ y < x := by
  let d : Data 1 1 := ⟨fun _ _ => 0, fun _ _ => 0, fun _ _ => 1⟩
  let b : Base 2 1 := ⟨fun _ _ _ => 0, fun _ _ _ => 1⟩
  let pk0 : Fin 1 → Fin 2 → ℝ := fun _ _ => 1 / 2
  set P0 : Fin 1 → Option (Fin 2 → ℝ) := fun k => some (pk0 k) with hP0
  have hpost : ∀ i l, posterior (lpStayers d b [] P0) i l = 1 / 2 := by
    intro i l
    rw [posterior_eq]
    have : ∀ l', lpStayers d b [] P0 i l' = lpStayers d b [] P0 i 0 := fun _ => rfl
    simp only [this, sum_const, card_univ, Fintype.card_fin, nsmul_eq_mul]
    have := (Real.exp_pos (lpStayers d b [] P0 i 0)).ne'
    push_cast
    field_simp
  have hall : ∀ k : Fin 1, ∃ i : Fin 1, d.G 0 i = k := fun k => ⟨0, Subsingleton.elim _ _⟩
  obtain ⟨pk1, h1⟩ := updatePk0_ok (nl := 2) d (posterior (lpStayers d b [] P0)) dp one_pos hall
  have hpk1 : pk1 = P0 := by
    funext k
    obtain ⟨row, hr, hv, -, -⟩ := C32_stayers d (posterior (lpStayers d b [] P0)) dp
      (fun _ => one_pos) hdp.le (fun i l => (posterior_pos _ i l).le) (posterior_sum _) pk1 h1 k
      (hall k)
    rw [hr, hP0]
    congr 1
    funext l
    rw [hv]
    simp only [hpost, d, pk0]
    have hk : (0 : Fin 1) = k := Subsingleton.elim _ _
    simp only [hk, filter_true, univ_unique, sum_singleton]
    have : (1 : ℝ) + 2 * (dp - 1) ≠ 0 := by linarith
    push_cast
    field_simp
  set x := meanLse (lpStayers d b [] P0) with hx
  have hl2 : ∑ k : Fin 1, ∑ l : Fin 2, Real.log ((P0 k).getD (fun _ => 1) l) =
      2 * Real.log (1 / 2) := by
    simp [hP0, pk0]
  have hneg : Real.log (1 / 2 : ℝ) < 0 := Real.log_neg (by norm_num) (by norm_num)
  have hlik1 : likStayers d b [] P0 true dp = some x := by simp [likStayers, hx]
  have hlik2 : likStayers d b [] P0 false dp = some (x + (dp - 1) * (2 * Real.log (1 / 2))) := by
    unfold likStayers
    rw [if_neg (by simp), if_neg (by rintro ⟨k, hk⟩; simp [hP0] at hk), hl2]
  have hrun : ∃ pk', fitStayers d b [] dp thr 2 pk0 =
      .ok (pk', [some x, some (x + (dp - 1) * (2 * Real.log (1 / 2)))]) := by
    unfold fitStayers
    rw [stayersLoop]
    simp only [← hP0, hlik1, stopStayers, h1, bind, Except.bind, hpk1]
    rw [stayersLoop]
    simp only [hlik2, h1, bind, Except.bind, hpk1, stayersLoop]
    simp only [List.nil_append, List.singleton_append, Bool.false_eq_true, if_false]
    split <;> exact ⟨_, rfl⟩
  obtain ⟨pk', hrun⟩ := hrun
  refine ⟨d, b, pk0, pk', x, _, fun _ _ => by norm_num [pk0], fun _ => by norm_num [pk0], hrun, ?_⟩
  nlinarith

end Pytwoway.BLM
