import Verif.BLM.Stop

/-! # The EM loops end by themselves (C133)

With a positive threshold the loops do not need `n_iters`: the recorded likelihood never falls (C33), each
iteration that is not the last raises it by at least the threshold (C68), and it cannot exceed a bound that
follows from the lower bound on the variances. -/

namespace Pytwoway.BLM

open Finset

variable {ni nl nk : ℕ}

/-- The largest log density of a normal variable whose variance is at least `lb`: `-log(2π lb) / 2`. -/
noncomputable def Spec.topLogDensity (lb : ℝ) : ℝ := -(1 / 2) * Real.log (2 * Real.pi * lb)

/-! ## Bounds on densities -/

theorem lnvar_le {x mu v lb : ℝ} (hlb : 0 < lb) (hv : lb ≤ v) : lnvar x mu v ≤ Spec.topLogDensity lb := by
  have hvp : 0 < v := hlb.trans_le hv
  have hl : Real.log lb ≤ Real.log v := Real.log_le_log hlb hv
  have hp : (2 * Real.pi) ≠ 0 := by positivity
  have : 0 ≤ (x - mu) ^ 2 / (2 * v) := by positivity
  simp only [lnvar, Util.lognormpdf, Util.logpi, Spec.topLogDensity]
  rw [Real.log_mul hp hlb.ne']
  norm_num at *
  linarith

theorem lpWage_le (d : Data ni nk) (b : Base nl nk) (cs : List (Ctrl ni nl)) (t : Fin 2) (l : Fin nl)
    (i : Fin ni) {lb : ℝ} (hlb : 0 < lb)
    (hv : lb ≤ b.S t l (d.G t i) ^ 2 + sumNonS cs t i + sumByS cs l t i) :
    lpWage d b cs t l i ≤ Spec.topLogDensity lb := by
  unfold lpWage
  split
  · rename_i hc
    have hc' : cs = [] := List.isEmpty_iff.mp hc
    subst hc'
    simp only [sumNonS, sumByS, List.foldl_nil, add_zero] at hv
    have hsq : 0 < b.S t l (d.G t i) ^ 2 := hlb.trans_le hv
    have hl : Real.log lb ≤ Real.log (b.S t l (d.G t i) ^ 2) := Real.log_le_log hlb hv
    rw [Real.log_pow] at hl
    have hp : (2 * Real.pi) ≠ 0 := by positivity
    have : 0 ≤ (d.Y t i - b.A t l (d.G t i)) ^ 2 / (2 * b.S t l (d.G t i) ^ 2) := by positivity
    simp only [Util.fastLognormpdf, Util.logpi, Spec.topLogDensity]
    rw [Real.log_mul hp hlb.ne']
    norm_num at *
    linarith
  · exact lnvar_le hlb hv

theorem lse_le [NeZero nl] (p : Fin nl → ℝ) (x : Fin nl → ℝ) (M : ℝ) (hp : ∀ l, 0 < p l)
    (hs : ∑ l, p l ≤ 1) (hx : ∀ l, x l ≤ M) :
    Util.logsumexp (fun l => Real.log (p l) + x l) ≤ M := by
  rw [Util.C04_exact]
  have h1 : ∑ l, Real.exp (Real.log (p l) + x l) ≤ Real.exp M := by
    calc ∑ l, Real.exp (Real.log (p l) + x l) ≤ ∑ l, p l * Real.exp M := by
          refine sum_le_sum fun l _ => ?_
          rw [Real.exp_add, Real.exp_log (hp l)]
          exact mul_le_mul_of_nonneg_left (Real.exp_le_exp.mpr (hx l)) (hp l).le
      _ = (∑ l, p l) * Real.exp M := by rw [sum_mul]
      _ ≤ Real.exp M := by
          have := Real.exp_pos M
          nlinarith
  calc Real.log (∑ l, Real.exp (Real.log (p l) + x l)) ≤ Real.log (Real.exp M) :=
        Real.log_le_log (sum_pos (fun l _ => Real.exp_pos _) univ_nonempty) h1
    _ = M := Real.log_exp M

/-- The highest value the movers' average log likelihood can take when no variance is below `lb`. -/
noncomputable def Spec.topMovers (d : Data ni nk) (lb : ℝ) : ℝ :=
  (∑ i, (d.W 0 i + d.W 1 i) * Spec.topLogDensity lb) / ni

/-- The highest value the stayers' average log likelihood can take when no variance is below `lb`. -/
noncomputable def Spec.topStayers (d : Data ni nk) (lb : ℝ) : ℝ :=
  (∑ i, d.W 0 i * Spec.topLogDensity lb) / ni

theorem movers_top [NeZero nl] (d : Data ni nk) (F : (Fin 2 → Fin nl → Fin nk → ℝ) → Prop) {lb : ℝ}
    (hlb : 0 < lb) (hW : ∀ t i, 0 < d.W t i) (b : Base nl nk) (pk : ℕ → Fin nl → ℝ)
    (hg : GoodState F lb b pk) : meanLse (lpMovers d b [] pk) ≤ Spec.topMovers d lb := by
  unfold meanLse Spec.topMovers
  refine div_le_div_of_nonneg_right (sum_le_sum fun i _ => ?_) (Nat.cast_nonneg _)
  have hk := KK_lt d i
  have e : lpMovers d b [] pk i = fun l => Real.log (pk (KK d i) l) +
      (d.W 0 i * lpWage d b [] 0 l i + d.W 1 i * lpWage d b [] 1 l i) := by
    funext l; unfold lpMovers; ring
  rw [e]
  refine lse_le _ _ _ (hg.pos _ hk) (hg.sum _ hk) fun l => ?_
  have hb : ∀ t, lpWage d b [] t l i ≤ Spec.topLogDensity lb := fun t =>
    lpWage_le d b [] t l i hlb (by simpa [sumNonS, sumByS] using (hg.sds t l (d.G t i)).2)
  have h0 := mul_le_mul_of_nonneg_left (hb 0) (hW 0 i).le
  have h1 := mul_le_mul_of_nonneg_left (hb 1) (hW 1 i).le
  linarith

theorem stayers_top [NeZero nl] (d : Data ni nk) (b : Base nl nk) (cs : List (Ctrl ni nl)) {lb : ℝ}
    (hlb : 0 < lb) (hW : ∀ i, 0 < d.W 0 i)
    (hv : ∀ l i, lb ≤ b.S 0 l (d.G 0 i) ^ 2 + sumNonS cs 0 i + sumByS cs l 0 i)
    (pk : Fin nk → Option (Fin nl → ℝ)) (hg : GoodPk0 pk) :
    meanLse (lpStayers d b cs pk) ≤ Spec.topStayers d lb := by
  unfold meanLse Spec.topStayers
  refine div_le_div_of_nonneg_right (sum_le_sum fun i _ => ?_) (Nat.cast_nonneg _)
  obtain ⟨row, hr, hp, hs⟩ := hg (d.G 0 i)
  have e : lpStayers d b cs pk i = fun l => Real.log (row l) + d.W 0 i * lpWage d b cs 0 l i := by
    funext l
    unfold lpStayers
    rw [hr, Option.getD_some]
    ring
  rw [e]
  exact lse_le _ _ _ hp hs fun l =>
    mul_le_mul_of_nonneg_left (lpWage_le d b cs 0 l i hlb (hv l i)) (hW i).le

/-! ## Movers -/

theorem moversLoop_gain [NeZero nl] (d : Data ni nk) (o : MoverOpts) (sA sS : Solver)
    (minType : (Fin 2 → Fin nl → Fin nk → ℝ) → ℕ)
    (F : (Fin 2 → Fin nl → Fin nk → ℝ) → Prop) (lb c : ℝ) (hlb : 0 < lb) (hnk : 0 < nk)
    (hsA : ∀ P r x, sA P r = .ok (some x) → F (unflatten nl nk x) ∧
      ∀ y, F (unflatten nl nk y) → qpObj (2 * (nl * nk)) P r x ≤ qpObj (2 * (nl * nk)) P r y)
    (hsS : RightSolver (2 * (nl * nk)) (BoundS nl nk lb) sS)
    (htop : TopObserved d) (hW : ∀ t i, 0 < d.W t i)
    (hWc : o.updPk = true → ∀ i, d.W 0 i * d.W 1 i = c) (hd : o.dprior = 1)
    (hthr : 0 < o.threshold) (pm : ℕ) (hmin : ∀ A, F A → minType A = pm) (fuel : ℕ) :
    ∀ (p : ℝ) (s s' : MoverState nl nk),
      GoodState F lb s.base s.pk1 → p ≤ meanLse (lpMovers d s.base [] s.pk1) →
      moversLoop d o sA sS minType fuel false (some p) pm s = .ok s' →
      ((s'.liks.length : ℝ) - s.liks.length - 1) * o.threshold ≤ Spec.topMovers d lb - p := by
  induction fuel with
  | zero =>
    intro p s s' hg hp h
    simp only [moversLoop, Except.ok.injEq] at h
    subst h
    have := movers_top d F hlb hW _ _ hg
    linarith
  | succ fuel ih =>
    intro p s s' hg hp h
    have hT := movers_top d F hlb hW _ _ hg
    have hlik : likMovers d s.base [] s.pk1 false o.updPk o.dprior =
        meanLse (lpMovers d s.base [] s.pk1) := by
      unfold likMovers; rw [hd]; simp
    unfold moversLoop at h
    simp only [hlik, hmin _ hg.feas, beq_self_eq_true] at h
    split at h
    · simp only [Except.ok.injEq] at h
      subst h
      simp only [List.length_append, List.length_singleton]
      push_cast
      nlinarith
    · rename_i hstop
      have hgain : o.threshold ≤ meanLse (lpMovers d s.base [] s.pk1) - p := by
        rw [stop] at hstop
        simp only [Bool.and_true, decide_eq_true_eq, not_lt] at hstop
        rwa [abs_of_nonneg (by linarith)] at hstop
      cases hu : nextPk1 o.updPk d (posterior (lpMovers d s.base [] s.pk1)) o.dprior s.pk1 with
      | error m => rw [hu] at h; simp [bind, Except.bind] at h
      | ok pk2 =>
        cases hm : mstep d (posterior (lpMovers d s.base [] s.pk1)) s.base o.updA o.updS sA sS with
        | error m => rw [hu, hm] at h; simp [bind, Except.bind] at h
        | ok b2 =>
          rw [hu, hm] at h
          simp only [bind, Except.bind] at h
          rw [hd] at hu
          obtain ⟨hg2, hmm⟩ := movers_step d s.base b2 s.pk1 pk2 o.updA o.updS o.updPk sA sS F lb c
            hlb hnk hsA hsS htop hW hWc hg hu hm
          have := ih (meanLse (lpMovers d s.base [] s.pk1))
            ⟨b2, pk2, s.liks ++ [meanLse (lpMovers d s.base [] s.pk1)]⟩ s' hg2 hmm h
          simp only [List.length_append, List.length_singleton] at this
          push_cast at this
          linarith

/-- Once the loop has stopped by itself, further iterations change nothing. -/
theorem moversLoop_more [NeZero nl] (d : Data ni nk) (o : MoverOpts) (sA sS : Solver)
    (minType : (Fin 2 → Fin nl → Fin nk → ℝ) → ℕ) (fuel k : ℕ) :
    ∀ (first : Bool) (prev : Option ℝ) (pm : ℕ) (s s' : MoverState nl nk),
      moversLoop d o sA sS minType fuel first prev pm s = .ok s' →
      s'.liks.length < s.liks.length + fuel →
      moversLoop d o sA sS minType (fuel + k) first prev pm s = .ok s' := by
  induction fuel with
  | zero =>
    intro first prev pm s s' h hl
    simp only [moversLoop, Except.ok.injEq] at h
    subst h
    omega
  | succ fuel ih =>
    intro first prev pm s s' h hl
    rw [show fuel + 1 + k = fuel + k + 1 by ring]
    unfold moversLoop at h ⊢
    dsimp only at h ⊢
    split at h
    · rename_i hs
      rw [if_pos hs]
      exact h
    · rename_i hs
      rw [if_neg hs]
      cases hu : nextPk1 o.updPk d (posterior (lpMovers d s.base [] s.pk1)) o.dprior s.pk1 with
      | error m => rw [hu] at h; cases h
      | ok pk2 =>
        cases hb : mstep d (posterior (lpMovers d s.base [] s.pk1)) s.base o.updA o.updS sA sS with
        | error m => rw [hu, hb] at h; cases h
        | ok b2 =>
          rw [hu, hb] at h
          simp only [bind, Except.bind] at h ⊢
          refine ih false _ _ _ s' h ?_
          simp only [List.length_append, List.length_singleton]
          omega

/-- C133 for movers: with a positive threshold (no Dirichlet prior, no controls, a constraint set `F` on the
means over which the lowest firm type is settled), the number of recorded likelihoods is at most two plus
the distance from the starting likelihood to its highest possible value, measured in thresholds, however
many iterations are allowed. -/
theorem C133_movers_bound [NeZero nl] (d : Data ni nk) (o : MoverOpts) (sA sS : Solver)
    (minType : (Fin 2 → Fin nl → Fin nk → ℝ) → ℕ)
    (F : (Fin 2 → Fin nl → Fin nk → ℝ) → Prop) (lb c : ℝ) (hlb : 0 < lb) (hnk : 0 < nk)
    (hsA : RightSolver (2 * (nl * nk)) (fun x => F (unflatten nl nk x)) sA)
    (hsS : RightSolver (2 * (nl * nk)) (BoundS nl nk lb) sS)
    (htop : TopObserved d) (hW : ∀ t i, 0 < d.W t i)
    (hWc : o.updPk = true → ∀ i, d.W 0 i * d.W 1 i = c) (hd : o.dprior = 1)
    (hthr : 0 < o.threshold) (pm : ℕ) (hmin : ∀ A, F A → minType A = pm) (nIters : ℕ)
    (b : Base nl nk) (pk1 : ℕ → Fin nl → ℝ) (hF : F b.A)
    (hS : ∀ t l k, 0 < b.S t l k ∧ lb ≤ b.S t l k ^ 2)
    (hpos : ∀ p < nk ^ 2, ∀ l, 0 < pk1 p l) (hsum : ∀ p < nk ^ 2, ∑ l, pk1 p l ≤ 1)
    (s' : MoverState nl nk)
    (h : moversLoop d o sA sS minType nIters true none pm ⟨b, pk1, []⟩ = .ok s') :
    (s'.liks.length : ℝ) ≤ 2 + (Spec.topMovers d lb -
      (∑ i, Real.log (∑ l, Real.exp (lpMovers d b [] pk1 i l))) / ni) / o.threshold := by
  have hg : GoodState F lb b pk1 := ⟨hF, hS, hpos, hsum⟩
  have hfirst : (∑ i, Real.log (∑ l, Real.exp (lpMovers d b [] pk1 i l))) / ni =
      meanLse (lpMovers d b [] pk1) := by simp [meanLse, Util.C04_exact]
  have hT := movers_top d F hlb hW _ _ hg
  have key : ((s'.liks.length : ℝ) - 2) * o.threshold ≤ Spec.topMovers d lb -
      meanLse (lpMovers d b [] pk1) := by
    cases nIters with
    | zero =>
      simp only [moversLoop, Except.ok.injEq] at h
      subst h
      simp
      linarith
    | succ n =>
      have hlik : likMovers d b [] pk1 true o.updPk o.dprior = meanLse (lpMovers d b [] pk1) := by
        simp [likMovers]
      unfold moversLoop at h
      simp only [hlik, hmin _ hF] at h
      rw [if_neg (by simp [stop])] at h
      cases hu : nextPk1 o.updPk d (posterior (lpMovers d b [] pk1)) o.dprior pk1 with
      | error m => rw [hu] at h; simp [bind, Except.bind] at h
      | ok pk2 =>
        cases hm : mstep d (posterior (lpMovers d b [] pk1)) b o.updA o.updS sA sS with
        | error m => rw [hu, hm] at h; simp [bind, Except.bind] at h
        | ok b2 =>
          rw [hu, hm] at h
          simp only [bind, Except.bind] at h
          rw [hd] at hu
          obtain ⟨hg2, hmm⟩ := movers_step d b b2 pk1 pk2 o.updA o.updS o.updPk sA sS F lb c
            hlb hnk hsA.sound hsS htop hW hWc hg hu hm
          have := moversLoop_gain d o sA sS minType F lb c hlb hnk hsA.sound hsS htop hW hWc hd hthr pm
            hmin n (meanLse (lpMovers d b [] pk1)) ⟨b2, pk2, [] ++ [meanLse (lpMovers d b [] pk1)]⟩ s' hg2
            hmm h
          simp at this
          linarith
  rw [hfirst]
  have : (s'.liks.length : ℝ) - 2 ≤ (Spec.topMovers d lb - meanLse (lpMovers d b [] pk1)) / o.threshold :=
    (le_div_iff₀ hthr).mpr key
  linarith

/-- C133 for movers: hence, under the same conditions and whatever the data, once `n_iters` exceeds that
number the loop has ended because the likelihood has settled, and allowing more iterations returns the
same parameters and the same path. -/
theorem C133_movers_ends [NeZero nl] (d : Data ni nk) (o : MoverOpts) (sA sS : Solver)
    (minType : (Fin 2 → Fin nl → Fin nk → ℝ) → ℕ)
    (F : (Fin 2 → Fin nl → Fin nk → ℝ) → Prop) (lb c : ℝ) (hlb : 0 < lb) (hnk : 0 < nk)
    (hsA : RightSolver (2 * (nl * nk)) (fun x => F (unflatten nl nk x)) sA)
    (hsS : RightSolver (2 * (nl * nk)) (BoundS nl nk lb) sS)
    (htop : TopObserved d) (hW : ∀ t i, 0 < d.W t i)
    (hWc : o.updPk = true → ∀ i, d.W 0 i * d.W 1 i = c) (hd : o.dprior = 1)
    (hthr : 0 < o.threshold) (pm : ℕ) (hmin : ∀ A, F A → minType A = pm) (nIters : ℕ)
    (b : Base nl nk) (pk1 : ℕ → Fin nl → ℝ) (hF : F b.A)
    (hS : ∀ t l k, 0 < b.S t l k ∧ lb ≤ b.S t l k ^ 2)
    (hpos : ∀ p < nk ^ 2, ∀ l, 0 < pk1 p l) (hsum : ∀ p < nk ^ 2, ∑ l, pk1 p l ≤ 1)
    (hn : 2 + (Spec.topMovers d lb -
      (∑ i, Real.log (∑ l, Real.exp (lpMovers d b [] pk1 i l))) / ni) / o.threshold < nIters)
    (s' : MoverState nl nk)
    (h : moversLoop d o sA sS minType nIters true none pm ⟨b, pk1, []⟩ = .ok s') :
    (∃ pre x y, s'.liks = pre ++ [x, y] ∧ |y - x| < o.threshold) ∧
    ∀ more, moversLoop d o sA sS minType (nIters + more) true none pm ⟨b, pk1, []⟩ = .ok s' := by
  have hb := C133_movers_bound d o sA sS minType F lb c hlb hnk hsA hsS htop hW hWc hd hthr pm hmin nIters
    b pk1 hF hS hpos hsum s' h
  have hl : s'.liks.length < nIters := by exact_mod_cast hb.trans_lt hn
  exact ⟨(C68_movers_stop d o sA sS minType nIters pm b pk1 s' h).2.1 hl,
    fun k => moversLoop_more d o sA sS minType nIters k _ _ _ _ s' h (by simpa using hl)⟩

/-! ## Stayers -/

theorem stayersLoop_gain [NeZero nl] (d : Data ni nk) (b : Base nl nk) (cs : List (Ctrl ni nl))
    (c thr lb : ℝ) (hlb : 0 < lb) (hc : 0 < c) (hW : ∀ i, d.W 0 i = c) (hall : ∀ k, ∃ i, d.G 0 i = k)
    (hv : ∀ l i, lb ≤ b.S 0 l (d.G 0 i) ^ 2 + sumNonS cs 0 i + sumByS cs l 0 i) (hthr : 0 < thr)
    (fuel : ℕ) :
    ∀ (p : ℝ) (pk : Fin nk → Option (Fin nl → ℝ)) (acc : List (Option ℝ))
      (pk' : Fin nk → Option (Fin nl → ℝ)) (liks : List (Option ℝ)), GoodPk0 pk →
      p ≤ meanLse (lpStayers d b cs pk) →
      stayersLoop d b cs 1 thr fuel false (some p) pk acc = .ok (pk', liks) →
      ((liks.length : ℝ) - acc.length - 1) * thr ≤ Spec.topStayers d lb - p := by
  have hW' : ∀ i, 0 < d.W 0 i := fun i => by rw [hW]; exact hc
  induction fuel with
  | zero =>
    intro p pk acc pk' liks hg hp h
    simp only [stayersLoop, Except.ok.injEq, Prod.mk.injEq] at h
    rw [← h.2]
    have := stayers_top d b cs hlb hW' hv pk hg
    linarith
  | succ fuel ih =>
    intro p pk acc pk' liks hg hp h
    have hT := stayers_top d b cs hlb hW' hv pk hg
    unfold stayersLoop at h
    simp only [likStayers_good d b cs pk hg false] at h
    split at h
    · simp only [Except.ok.injEq, Prod.mk.injEq] at h
      rw [← h.2]
      simp only [List.length_append, List.length_singleton]
      push_cast
      nlinarith
    · rename_i hstop
      have hgain : thr ≤ meanLse (lpStayers d b cs pk) - p := by
        rw [stopStayers] at hstop
        simp only [decide_eq_true_eq, not_lt] at hstop
        rwa [abs_of_nonneg (by linarith)] at hstop
      cases hu : updatePk0 d (posterior (lpStayers d b cs pk)) 1 with
      | error m => rw [hu] at h; simp [bind, Except.bind] at h
      | ok pk2 =>
        rw [hu] at h
        simp only [bind, Except.bind] at h
        obtain ⟨hg2, hm⟩ := stayers_step d b cs c hc hW hall pk pk2 hg hu
        have := ih _ pk2 _ pk' liks hg2 hm h
        simp only [List.length_append, List.length_singleton] at this
        push_cast at this
        linarith

theorem stayersLoop_more [NeZero nl] (d : Data ni nk) (b : Base nl nk) (cs : List (Ctrl ni nl))
    (dp thr : ℝ) (fuel k : ℕ) :
    ∀ (first : Bool) (prev : Option ℝ) (pk : Fin nk → Option (Fin nl → ℝ)) (acc : List (Option ℝ))
      (pk' : Fin nk → Option (Fin nl → ℝ)) (liks : List (Option ℝ)),
      stayersLoop d b cs dp thr fuel first prev pk acc = .ok (pk', liks) →
      liks.length < acc.length + fuel →
      stayersLoop d b cs dp thr (fuel + k) first prev pk acc = .ok (pk', liks) := by
  induction fuel with
  | zero =>
    intro first prev pk acc pk' liks h hl
    simp only [stayersLoop, Except.ok.injEq, Prod.mk.injEq] at h
    rw [← h.2] at hl
    omega
  | succ fuel ih =>
    intro first prev pk acc pk' liks h hl
    rw [show fuel + 1 + k = fuel + k + 1 by ring]
    unfold stayersLoop at h ⊢
    dsimp only at h ⊢
    split at h
    · rename_i hs
      rw [if_pos hs]
      exact h
    · rename_i hs
      rw [if_neg hs]
      cases hu : updatePk0 d (posterior (lpStayers d b cs pk)) dp with
      | error m => rw [hu] at h; cases h
      | ok pk2 =>
        rw [hu] at h
        simp only [bind, Except.bind] at h ⊢
        refine ih false _ pk2 _ pk' liks h ?_
        simp only [List.length_append, List.length_singleton]
        omega

/-- C133 for stayers: with a positive threshold, no Dirichlet prior, equal weights, every firm type observed
and total variances of at least `lb`, with any controls, the number of recorded likelihoods is at most two
plus the distance from the starting likelihood to its highest possible value, measured in thresholds. -/
theorem C133_stayers_bound [NeZero nl] (d : Data ni nk) (b : Base nl nk) (cs : List (Ctrl ni nl))
    (c thr lb : ℝ) (hlb : 0 < lb) (hc : 0 < c) (hW : ∀ i, d.W 0 i = c) (hall : ∀ k, ∃ i, d.G 0 i = k)
    (hv : ∀ l i, lb ≤ b.S 0 l (d.G 0 i) ^ 2 + sumNonS cs 0 i + sumByS cs l 0 i) (hthr : 0 < thr)
    (nIters : ℕ) (pk0 : Fin nk → Fin nl → ℝ) (hpos : ∀ k l, 0 < pk0 k l) (hsum : ∀ k, ∑ l, pk0 k l ≤ 1)
    (pk0' : Fin nk → Option (Fin nl → ℝ)) (liks : List (Option ℝ))
    (h : fitStayers d b cs 1 thr nIters pk0 = .ok (pk0', liks)) :
    (liks.length : ℝ) ≤ 2 + (Spec.topStayers d lb - (∑ i, Real.log (∑ l,
      Real.exp (d.W 0 i * lpWage d b cs 0 l i + Real.log (pk0 (d.G 0 i) l)))) / ni) / thr := by
  have hW' : ∀ i, 0 < d.W 0 i := fun i => by rw [hW]; exact hc
  have hg : GoodPk0 (fun k => some (pk0 k)) := fun k => ⟨pk0 k, rfl, hpos k, hsum k⟩
  have hfirst : (∑ i, Real.log (∑ l,
      Real.exp (d.W 0 i * lpWage d b cs 0 l i + Real.log (pk0 (d.G 0 i) l)))) / ni =
      meanLse (lpStayers d b cs fun k => some (pk0 k)) := by
    simp only [meanLse, Util.C04_exact, lpStayers, Option.getD_some]
  have hT := stayers_top d b cs hlb hW' hv _ hg
  have key : ((liks.length : ℝ) - 2) * thr ≤ Spec.topStayers d lb -
      meanLse (lpStayers d b cs fun k => some (pk0 k)) := by
    cases nIters with
    | zero =>
      simp only [fitStayers, stayersLoop, Except.ok.injEq, Prod.mk.injEq] at h
      rw [← h.2]
      simp
      linarith
    | succ n =>
      unfold fitStayers stayersLoop at h
      simp only [likStayers_good d b cs _ hg true] at h
      rw [if_neg (by simp [stopStayers])] at h
      cases hu : updatePk0 d (posterior (lpStayers d b cs fun k => some (pk0 k))) 1 with
      | error m => rw [hu] at h; simp [bind, Except.bind] at h
      | ok pk2 =>
        rw [hu] at h
        simp only [bind, Except.bind] at h
        obtain ⟨hg2, hm⟩ := stayers_step d b cs c hc hW hall _ pk2 hg hu
        have := stayersLoop_gain d b cs c thr lb hlb hc hW hall hv hthr n _ pk2 _ _ _ hg2 hm h
        simp at this
        linarith
  rw [hfirst]
  have : (liks.length : ℝ) - 2 ≤ (Spec.topStayers d lb -
      meanLse (lpStayers d b cs fun k => some (pk0 k))) / thr := (le_div_iff₀ hthr).mpr key
  linarith

/-- C133 for stayers: once `n_iters` exceeds that number the loop has ended because the likelihood has
settled, and allowing more iterations returns the same proportions and the same path. -/
theorem C133_stayers_ends [NeZero nl] (d : Data ni nk) (b : Base nl nk) (cs : List (Ctrl ni nl))
    (c thr lb : ℝ) (hlb : 0 < lb) (hc : 0 < c) (hW : ∀ i, d.W 0 i = c) (hall : ∀ k, ∃ i, d.G 0 i = k)
    (hv : ∀ l i, lb ≤ b.S 0 l (d.G 0 i) ^ 2 + sumNonS cs 0 i + sumByS cs l 0 i) (hthr : 0 < thr)
    (nIters : ℕ) (pk0 : Fin nk → Fin nl → ℝ) (hpos : ∀ k l, 0 < pk0 k l) (hsum : ∀ k, ∑ l, pk0 k l ≤ 1)
    (hn : 2 + (Spec.topStayers d lb - (∑ i, Real.log (∑ l,
      Real.exp (d.W 0 i * lpWage d b cs 0 l i + Real.log (pk0 (d.G 0 i) l)))) / ni) / thr < nIters)
    (pk0' : Fin nk → Option (Fin nl → ℝ)) (liks : List (Option ℝ))
    (h : fitStayers d b cs 1 thr nIters pk0 = .ok (pk0', liks)) :
    (∃ pre x y, liks = pre ++ [some x, some y] ∧ |y - x| < thr) ∧
    ∀ more, fitStayers d b cs 1 thr (nIters + more) pk0 = .ok (pk0', liks) := by
  have hb := C133_stayers_bound d b cs c thr lb hlb hc hW hall hv hthr nIters pk0 hpos hsum pk0' liks h
  have hl : liks.length < nIters := by exact_mod_cast hb.trans_lt hn
  exact ⟨(C68_stayers_stop d b cs 1 thr nIters pk0 pk0' liks h).2.1 hl,
    fun k => stayersLoop_more d b cs 1 thr nIters k _ _ _ _ _ _ h (by simpa using hl)⟩

/-! ## Without a positive threshold -/

/-- C133, the limit of the claim: with a threshold of zero (or below) the loops never end by themselves,
whatever the data: they record exactly `n_iters` values. -/
theorem C133_no_threshold [NeZero nl] (d : Data ni nk) (b : Base nl nk) (cs : List (Ctrl ni nl))
    (dp thr : ℝ) (hthr : thr ≤ 0) (nIters : ℕ) (pk0 : Fin nk → Fin nl → ℝ)
    (pk0' : Fin nk → Option (Fin nl → ℝ)) (liks : List (Option ℝ))
    (o : MoverOpts) (ho : o.threshold = thr) (sA sS : Solver)
    (minType : (Fin 2 → Fin nl → Fin nk → ℝ) → ℕ) (pm : ℕ) (pk1 : ℕ → Fin nl → ℝ)
    (s' : MoverState nl nk) :
    (fitStayers d b cs dp thr nIters pk0 = .ok (pk0', liks) → liks.length = nIters) ∧
    (moversLoop d o sA sS minType nIters true none pm ⟨b, pk1, []⟩ = .ok s' →
      s'.liks.length = nIters) := by
  constructor
  · intro h
    obtain ⟨h1, h2, -⟩ := C68_stayers_stop d b cs dp thr nIters pk0 pk0' liks h
    by_contra hne
    obtain ⟨pre, x, y, -, hlt⟩ := h2 (lt_of_le_of_ne h1 hne)
    have := abs_nonneg (y - x)
    linarith
  · intro h
    obtain ⟨h1, h2, -⟩ := C68_movers_stop d o sA sS minType nIters pm b pk1 s' h
    by_contra hne
    obtain ⟨pre, x, y, -, hlt⟩ := h2 (lt_of_le_of_ne h1 hne)
    have := abs_nonneg (y - x)
    linarith

/-- Even proportions. -/
noncomputable def exHalf : Fin 2 → Fin 2 → ℝ := fun _ _ => 1 / 2

/-- Non-vacuity: two stayers, two firm types, two worker types, unit variances, any positive threshold:
there is a number of iterations from which `fit_stayers` returns the same answer for ever. -/
theorem C133_case (thr : ℝ) (hthr : 0 < thr) : ∃ n r, ∀ more,
    fitStayers exData exBase [] 1 thr (n + more) exHalf = .ok r := by
  have hall : ∀ k, ∃ i, exData.G 0 i = k := by
    intro k
    fin_cases k
    · exact ⟨0, by simp [exData]⟩
    · exact ⟨1, by simp [exData]⟩
  have hv : ∀ l i, (1 : ℝ) ≤ exBase.S 0 l (exData.G 0 i) ^ 2 +
      sumNonS (nl := 2) [] 0 i + sumByS [] l 0 i := fun l i => by simp [exBase, sumNonS, sumByS]
  obtain ⟨n, hn⟩ := exists_nat_gt (2 + (Spec.topStayers exData 1 - (∑ i, Real.log (∑ l,
      Real.exp (exData.W 0 i * lpWage exData exBase [] 0 l i +
        Real.log (exHalf (exData.G 0 i) l)))) / (2 : ℕ)) / thr)
  obtain ⟨⟨pk, liks⟩, h⟩ := C33_stayers_returns exData exBase [] 1 thr (by norm_num) hall n exHalf
  have hp : ∀ k l, 0 < exHalf k l := fun _ _ => by norm_num [exHalf]
  have hs : ∀ k, ∑ l, exHalf k l ≤ 1 := fun _ => by norm_num [exHalf]
  exact ⟨n, (pk, liks), (C133_stayers_ends exData exBase [] 1 thr 1 one_pos one_pos (fun _ => rfl) hall
    hv hthr n exHalf hp hs hn pk liks h).2⟩

/-- Four movers covering all pairs of two firm types, with any wages. -/
def exPairs (Y : Fin 2 → Fin 4 → ℝ) : Data 4 2 where
  Y := Y
  G t i := if t = 0 then ⟨i.val % 2, by omega⟩ else ⟨i.val / 2, by omega⟩
  W _ _ := 1

theorem exPairs_all (Y : Fin 2 → Fin 4 → ℝ) : AllPairs (exPairs Y) := by
  intro k1 k2
  refine ⟨⟨k1.val + 2 * k2.val, by omega⟩, Fin.ext ?_, Fin.ext ?_⟩
  · simp [exPairs]; omega
  · simp [exPairs]; omega

theorem exPairs_top (Y : Fin 2 → Fin 4 → ℝ) : TopObserved (exPairs Y) := by
  intro t
  refine ⟨3, ?_⟩
  fin_cases t <;> simp [exPairs]

/-- Non-vacuity: four movers covering all pairs of two firm types, with the free solver for the means and
the bounded one for the variances, the lowest firm type held as with `force_min_firm_type`. -/
theorem C133_case_movers (thr : ℝ) (hthr : 0 < thr) (Y : Fin 2 → Fin 4 → ℝ) :
    ∃ sA sS n r, ∀ more, moversLoop (exPairs Y) ⟨true, true, true, 1, thr⟩ sA sS (fun _ => 0) (n + more)
      true none 0 ⟨exBase, fun _ _ => 1 / 2, []⟩ = .ok r := by
  obtain ⟨sA, hsA⟩ := rightSolver_free (2 * (2 * 2))
  obtain ⟨sS, hsS⟩ := rightSolver_box (2 * (2 * 2)) (1 / 10000000)
  obtain ⟨n, hn⟩ := exists_nat_gt (2 + (Spec.topMovers (exPairs Y) (1 / 10000000) - (∑ i, Real.log (∑ l,
      Real.exp (lpMovers (exPairs Y) exBase [] (fun _ _ => 1 / 2) i l))) / (4 : ℕ)) / thr)
  obtain ⟨r, h⟩ := C33_movers_returns (exPairs Y) ⟨true, true, true, 1, thr⟩ sA sS (fun _ => 0)
    (by norm_num) (exPairs_all Y) (fun _ _ => one_pos) le_rfl rfl n true none 0
    ⟨exBase, fun _ _ => 1 / 2, []⟩
  have hS : ∀ t l k, 0 < exBase.S t l k ∧ 1 / 10000000 ≤ exBase.S t l k ^ 2 := fun _ _ _ => by
    simp only [exBase]; norm_num
  have hWc : ∀ i, (exPairs Y).W 0 i * (exPairs Y).W 1 i = 1 := fun i => by simp [exPairs]
  exact ⟨sA, sS, n, r, (C133_movers_ends (exPairs Y) ⟨true, true, true, 1, thr⟩ sA sS (fun _ => 0)
    (fun _ => True) (1 / 10000000) 1 (by norm_num) (by norm_num) hsA hsS (exPairs_top Y)
    (fun _ _ => one_pos) (fun _ => hWc) rfl hthr 0 (fun _ _ => rfl) n exBase (fun _ _ => 1 / 2) trivial
    hS (fun _ _ _ => by norm_num) (fun _ _ => by norm_num) hn r h).2⟩

end Pytwoway.BLM
