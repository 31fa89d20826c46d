import Verif.BLM.Converge

/-! # The movers' EM loop settles down (C139)

The likelihood of the movers need not be concave, so the loop has no best limit to run to.  What does hold:
the changes of the posterior type probabilities from one iteration to the next are square summable (in their
square roots), so the posteriors settle down; with free means and a prior above one so do the estimates, and
whatever they accumulate at is left unchanged by a further iteration. -/

namespace Pytwoway.BLM

open Finset Filter Topology

variable {ni nl nk : ℕ}

/-- Bayes' rule: the probability that mover `i` is of type `l`, given both wages and firm types. -/
noncomputable def Spec.bayes (d : Data ni nk) (A S : Fin 2 → Fin nl → Fin nk → ℝ) (pk : ℕ → Fin nl → ℝ)
    (i : Fin ni) (l : Fin nl) : ℝ :=
  Real.exp (Real.log (pk ((d.G 0 i).val + nk * (d.G 1 i).val) l) +
    ∑ t, d.W t i * (-(1 / 2) * Real.log (2 * Real.pi) - Real.log (S t l (d.G t i)) -
      (d.Y t i - A t l (d.G t i)) ^ 2 / (2 * S t l (d.G t i) ^ 2))) /
  ∑ l', Real.exp (Real.log (pk ((d.G 0 i).val + nk * (d.G 1 i).val) l') +
    ∑ t, d.W t i * (-(1 / 2) * Real.log (2 * Real.pi) - Real.log (S t l' (d.G t i)) -
      (d.Y t i - A t l' (d.G t i)) ^ 2 / (2 * S t l' (d.G t i) ^ 2)))

theorem bayes_eq [NeZero nl] (d : Data ni nk) (b : Base nl nk) (pk : ℕ → Fin nl → ℝ) :
    Spec.bayes d b.A b.S pk = posterior (lpMovers d b [] pk) := by
  funext i l
  rw [posterior_eq]
  unfold Spec.bayes
  simp only [lpMovers, lpWage_nil, Fin.sum_univ_two, KK, Util.logpi, add_assoc]
  norm_num

/-! ## One iteration gains at least the change of the posteriors -/

theorem em_row_gain [NeZero nl] (lp lp' : Fin ni → Fin nl → ℝ) (i : Fin ni) :
    ∑ l, posterior lp i l * (lp' i l - lp i l) + ∑ l, (√(posterior lp i l) - √(posterior lp' i l)) ^ 2 ≤
      Util.logsumexp (lp' i) - Util.logsumexp (lp i) := by
  have hlog : ∀ (f : Fin ni → Fin nl → ℝ) l, Real.log (posterior f i l) = f i l - Util.logsumexp (f i) := by
    intro f l
    unfold posterior
    rw [Real.log_exp]
  have h := sum_le_sum fun l (_ : l ∈ (univ : Finset (Fin nl))) =>
    hellinger_le (posterior_pos lp i l).le (posterior_pos lp' i l)
  simp only [hlog, sum_add_distrib, sum_sub_distrib, mul_sub, posterior_sum, ← sum_mul] at h
  simp only [mul_sub, sum_sub_distrib]
  linarith

theorem movers_step_gain [NeZero nl] (d : Data ni nk) (b b' : Base nl nk) (pk pk' : ℕ → Fin nl → ℝ)
    (updA updS updPk : Bool) (sA sS : Solver) (F : (Fin 2 → Fin nl → Fin nk → ℝ) → Prop) (lb c dp : ℝ)
    (hlb : 0 < lb) (hnk : 0 < nk) (hdp : 1 ≤ dp)
    (hsA : ∀ P r x, sA P r = .ok (some x) → F (unflatten nl nk x) ∧
      ∀ y, F (unflatten nl nk y) → qpObj (2 * (nl * nk)) P r x ≤ qpObj (2 * (nl * nk)) P r y)
    (hsS : RightSolver (2 * (nl * nk)) (BoundS nl nk lb) sS)
    (htop : TopObserved d) (hW : ∀ t i, 0 < d.W t i)
    (hWc : updPk = true → ∀ i, d.W 0 i * d.W 1 i = c) (hg : GoodState F lb b pk)
    (hpk : nextPk1 updPk d (posterior (lpMovers d b [] pk)) dp pk = .ok pk')
    (hm : mstep d (posterior (lpMovers d b [] pk)) b updA updS sA sS = .ok b') :
    GoodState F lb b' pk' ∧ Spec.penLikMovers d dp b.A b.S pk +
      (∑ i, ∑ l, (√(posterior (lpMovers d b [] pk) i l) - √(posterior (lpMovers d b' [] pk') i l)) ^ 2) / ni ≤
      Spec.penLikMovers d dp b'.A b'.S pk' := by
  have hem := sum_le_sum fun i (_ : i ∈ (univ : Finset (Fin ni))) =>
    em_row_gain (lpMovers d b [] pk) (lpMovers d b' [] pk') i
  set q := posterior (lpMovers d b [] pk) with hqdef
  have hq : ∀ i l, 0 < q i l := posterior_pos _
  have hq1 : ∀ i, ∑ l, q i l = 1 := posterior_sum _
  obtain ⟨hF, hS, hQ⟩ := mstep_improves d q b b' updA updS sA sS F lb hlb hsA hsS htop hW hq hg.feas
    hg.sds hm
  have hP : (∀ p < nk ^ 2, ∀ l, 0 < pk' p l) ∧ (∀ p < nk ^ 2, ∑ l, pk' p l ≤ 1) ∧
      0 ≤ ∑ i, ∑ l, (q i l + (dp - 1)) * (Real.log (pk' (KK d i) l) - Real.log (pk (KK d i) l)) := by
    cases updPk with
    | true =>
      simp only [nextPk1, if_true] at hpk
      exact pk1_improves_prior d q pk pk' dp hdp hnk c hW (hWc rfl) hq hq1 hg.pos hg.sum hpk
    | false =>
      simp only [nextPk1, Bool.false_eq_true, if_false, Except.ok.injEq] at hpk
      subst hpk
      exact ⟨hg.pos, hg.sum, by simp⟩
  refine ⟨⟨hF, hS, hP.1, hP.2.1⟩, ?_⟩
  unfold Spec.penLikMovers
  rw [logLik_eq, logLik_eq]
  unfold meanLse
  rw [← add_div, ← add_div, ← add_div]
  refine div_le_div_of_nonneg_right ?_ (Nat.cast_nonneg _)
  have e : ∑ i, ∑ l, q i l * (lpMovers d b' [] pk' i l - lpMovers d b [] pk i l) =
      ∑ i, ∑ l, q i l * (Real.log (pk' (KK d i) l) - Real.log (pk (KK d i) l)) +
        (wageQ d q b' - wageQ d q b) := by
    unfold wageQ
    rw [← sum_sub_distrib, Fin.sum_univ_two]
    simp only [← sum_sub_distrib]
    rw [sum_comm (s := (univ : Finset (Fin nl))) (f := fun l i => d.W 0 i * q i l * lpWage d b' [] 0 l i - _),
      sum_comm (s := (univ : Finset (Fin nl))) (f := fun l i => d.W 1 i * q i l * lpWage d b' [] 1 l i - _),
      ← sum_add_distrib, ← sum_add_distrib]
    refine sum_congr rfl fun i _ => ?_
    rw [← sum_add_distrib, ← sum_add_distrib]
    refine sum_congr rfl fun l _ => ?_
    unfold lpMovers
    ring
  rw [sum_add_distrib, e] at hem
  have h3 := hP.2.2
  simp only [add_mul, mul_sub, sum_add_distrib, sum_sub_distrib] at h3 hem
  have hK : ∀ i, (d.G 0 i).val + nk * (d.G 1 i).val = KK d i := fun i => rfl
  simp only [hK, mul_sum]
  linarith

/-! ## The loop, one iteration at a time -/

theorem stop_nonpos (lik : ℝ) (prev : Option ℝ) {thr : ℝ} (same : Bool) (h : thr ≤ 0) :
    stop lik prev thr same = false := by
  unfold stop
  rcases prev with _ | p
  · rfl
  · simp only [Bool.and_eq_false_iff, decide_eq_false_iff_not, not_lt]
    exact Or.inl (h.trans (abs_nonneg _))

theorem moversLoop_next [NeZero nl] (d : Data ni nk) (o : MoverOpts) (sA sS : Solver)
    (minType : (Fin 2 → Fin nl → Fin nk → ℝ) → ℕ) (hthr : o.threshold ≤ 0) (fuel : ℕ) :
    ∀ (first : Bool) (prev : Option ℝ) (pm : ℕ) (s s1 s2 : MoverState nl nk),
      moversLoop d o sA sS minType fuel first prev pm s = .ok s1 →
      moversLoop d o sA sS minType (fuel + 1) first prev pm s = .ok s2 →
      nextPk1 o.updPk d (posterior (lpMovers d s1.base [] s1.pk1)) o.dprior s1.pk1 = .ok s2.pk1 ∧
      mstep d (posterior (lpMovers d s1.base [] s1.pk1)) s1.base o.updA o.updS sA sS = .ok s2.base := by
  induction fuel with
  | zero =>
    intro first prev pm s s1 s2 h1 h2
    simp only [moversLoop, Except.ok.injEq] at h1
    subst h1
    unfold moversLoop at h2
    dsimp only at h2
    rw [stop_nonpos _ _ _ hthr] at h2
    cases hu : nextPk1 o.updPk d (posterior (lpMovers d s.base [] s.pk1)) o.dprior s.pk1 with
    | error m => rw [hu] at h2; cases h2
    | ok pk2 =>
      cases hb : mstep d (posterior (lpMovers d s.base [] s.pk1)) s.base o.updA o.updS sA sS with
      | error m => rw [hu, hb] at h2; cases h2
      | ok b2 =>
        rw [hu, hb] at h2
        simp only [Bind.bind, Except.bind, moversLoop, Bool.false_eq_true, if_false, Except.ok.injEq] at h2
        subst h2
        exact ⟨rfl, rfl⟩
  | succ fuel ih =>
    intro first prev pm s s1 s2 h1 h2
    unfold moversLoop at h1 h2
    dsimp only at h1 h2
    rw [stop_nonpos _ _ _ hthr] at h1 h2
    cases hu : nextPk1 o.updPk d (posterior (lpMovers d s.base [] s.pk1)) o.dprior s.pk1 with
    | error m => rw [hu] at h2; cases h2
    | ok pk2 =>
      cases hb : mstep d (posterior (lpMovers d s.base [] s.pk1)) s.base o.updA o.updS sA sS with
      | error m => rw [hu, hb] at h2; cases h2
      | ok b2 =>
        rw [hu, hb] at h1 h2
        exact ih false _ _ ⟨b2, pk2, _⟩ s1 s2 h1 h2

theorem penLik_top [NeZero nl] (d : Data ni nk) (F : (Fin 2 → Fin nl → Fin nk → ℝ) → Prop) {lb dp : ℝ}
    (hlb : 0 < lb) (hdp : 1 ≤ dp) (hW : ∀ t i, 0 < d.W t i) (b : Base nl nk) (pk : ℕ → Fin nl → ℝ)
    (hg : GoodState F lb b pk) : Spec.penLikMovers d dp b.A b.S pk ≤ Spec.topMovers d lb := by
  have h := movers_top d F hlb hW b pk hg
  unfold Spec.penLikMovers
  rw [logLik_eq]
  have h2 : (∑ i, (dp - 1) * ∑ l, Real.log (pk ((d.G 0 i).val + nk * (d.G 1 i).val) l)) / ni ≤ 0 := by
    refine div_nonpos_of_nonpos_of_nonneg (sum_nonpos fun i _ => ?_) (Nat.cast_nonneg _)
    refine mul_nonpos_of_nonneg_of_nonpos (by linarith) (sum_nonpos fun l _ => ?_)
    have hk : (d.G 0 i).val + nk * (d.G 1 i).val < nk ^ 2 := KK_lt d i
    refine Real.log_nonpos (hg.pos _ hk l).le ?_
    exact (single_le_sum (f := fun l => pk ((d.G 0 i).val + nk * (d.G 1 i).val) l)
      (fun l _ => (hg.pos _ hk l).le) (mem_univ l)).trans (hg.sum _ hk)
  linarith

/-- Partial sums of squares that stay bounded: the terms tend to zero. -/
theorem tendsto_zero_of_sums {f : ℕ → ℝ} {B : ℝ} (hf : ∀ n, 0 ≤ f n)
    (h : ∀ N, ∑ n ∈ range N, f n ≤ B) : Tendsto f atTop (𝓝 0) :=
  (summable_of_sum_range_le hf h).tendsto_atTop_zero

/-- C139 for the posteriors: without early stopping, under the conditions of C136 (any prior of at least one,
any constraints on the means, anything updated or not), Bayes' probabilities of the worker types at the
estimates after `n` and `n + 1` iterations differ, in their square roots, by square summable amounts: the sum
over all iterations is bounded by the number of movers times the distance of the starting likelihood from the
highest possible one.  So the probabilities change less and less. -/
theorem C139_posteriors [NeZero nl] (d : Data ni nk) (o : MoverOpts) (sA sS : Solver)
    (minType : (Fin 2 → Fin nl → Fin nk → ℝ) → ℕ)
    (F : (Fin 2 → Fin nl → Fin nk → ℝ) → Prop) (lb c : ℝ) (hlb : 0 < lb) (hnk : 0 < nk)
    (hsA : RightSolver (2 * (nl * nk)) (fun x => F (unflatten nl nk x)) sA)
    (hsS : RightSolver (2 * (nl * nk)) (BoundS nl nk lb) sS)
    (htop : TopObserved d) (hW : ∀ t i, 0 < d.W t i)
    (hWc : o.updPk = true → ∀ i, d.W 0 i * d.W 1 i = c) (hd : 1 ≤ o.dprior) (hthr : o.threshold ≤ 0)
    (pm : ℕ) (b : Base nl nk) (pk1 : ℕ → Fin nl → ℝ) (hF : F b.A)
    (hS : ∀ t l k, 0 < b.S t l k ∧ lb ≤ b.S t l k ^ 2)
    (hpos : ∀ p < nk ^ 2, ∀ l, 0 < pk1 p l) (hsum : ∀ p < nk ^ 2, ∑ l, pk1 p l ≤ 1)
    (s : ℕ → MoverState nl nk)
    (hs : ∀ n, moversLoop d o sA sS minType n true none pm ⟨b, pk1, []⟩ = .ok (s n)) :
    (∀ N, ∑ n ∈ range N, ∑ i, ∑ l,
        (√(Spec.bayes d (s n).base.A (s n).base.S (s n).pk1 i l) -
          √(Spec.bayes d (s (n + 1)).base.A (s (n + 1)).base.S (s (n + 1)).pk1 i l)) ^ 2 ≤
      ni * (Spec.topMovers d lb - Spec.penLikMovers d o.dprior b.A b.S pk1)) ∧
    ∀ i l, Tendsto (fun n =>
      Spec.bayes d (s (n + 1)).base.A (s (n + 1)).base.S (s (n + 1)).pk1 i l -
        Spec.bayes d (s n).base.A (s n).base.S (s n).pk1 i l) atTop (𝓝 0) := by
  simp only [bayes_eq]
  set q := fun n => posterior (lpMovers d (s n).base [] (s n).pk1) with hqdef
  set g := fun n => ∑ i, ∑ l, (√(q n i l) - √(q (n + 1) i l)) ^ 2 with hgdef
  have h0 : s 0 = ⟨b, pk1, []⟩ := by
    have := hs 0
    simp only [moversLoop, Except.ok.injEq] at this
    exact this.symm
  have hgood : ∀ n, GoodState F lb (s n).base (s n).pk1 := fun n =>
    (moversLoop_prior d o sA sS minType F lb c hlb hnk hsA.sound hsS htop hW hWc hd n true none pm _ (s n)
      ⟨hF, hS, hpos, hsum⟩ (hs n)).1
  have hstep : ∀ n, Spec.penLikMovers d o.dprior (s n).base.A (s n).base.S (s n).pk1 + g n / ni ≤
      Spec.penLikMovers d o.dprior (s (n + 1)).base.A (s (n + 1)).base.S (s (n + 1)).pk1 := by
    intro n
    obtain ⟨hu, hm⟩ := moversLoop_next d o sA sS minType hthr n true none pm _ (s n) (s (n + 1)) (hs n)
      (hs (n + 1))
    exact (movers_step_gain d _ _ _ _ o.updA o.updS o.updPk sA sS F lb c o.dprior hlb hnk hd hsA.sound hsS
      htop hW hWc (hgood n) hu hm).2
  have hni : (0 : ℝ) < ni := by
    obtain ⟨i, -⟩ := htop 0
    exact_mod_cast (Nat.zero_le _).trans_lt i.isLt
  have hsums : ∀ N, Spec.penLikMovers d o.dprior b.A b.S pk1 + (∑ n ∈ range N, g n) / ni ≤
      Spec.penLikMovers d o.dprior (s N).base.A (s N).base.S (s N).pk1 := by
    intro N
    induction N with
    | zero => simp [h0]
    | succ N ih =>
      rw [sum_range_succ, add_div]
      linarith [hstep N]
  have hbound : ∀ N, ∑ n ∈ range N, g n ≤
      ni * (Spec.topMovers d lb - Spec.penLikMovers d o.dprior b.A b.S pk1) := by
    intro N
    have h1 := (hsums N).trans (penLik_top d F hlb hd hW _ _ (hgood N))
    have h2 : (∑ n ∈ range N, g n) / ni ≤
        Spec.topMovers d lb - Spec.penLikMovers d o.dprior b.A b.S pk1 := by linarith
    rw [div_le_iff₀ hni] at h2
    linarith
  refine ⟨hbound, fun i l => ?_⟩
  have hg0 : Tendsto g atTop (𝓝 0) :=
    tendsto_zero_of_sums (fun n => sum_nonneg fun i _ => sum_nonneg fun l _ => sq_nonneg _) hbound
  have hsq : Tendsto (fun n => (√(q n i l) - √(q (n + 1) i l)) ^ 2) atTop (𝓝 0) := by
    refine squeeze_zero (fun n => sq_nonneg _) (fun n => ?_) hg0
    exact (single_le_sum (f := fun l => (√(q n i l) - √(q (n + 1) i l)) ^ 2) (fun l _ => sq_nonneg _)
      (mem_univ l)).trans (single_le_sum (f := fun i => ∑ l, (√(q n i l) - √(q (n + 1) i l)) ^ 2)
      (fun i _ => sum_nonneg fun l _ => sq_nonneg _) (mem_univ i))
  have habs : Tendsto (fun n => |√(q n i l) - √(q (n + 1) i l)|) atTop (𝓝 0) := by
    have := (Real.continuous_sqrt.tendsto 0).comp hsq
    simpa [Function.comp_def, Real.sqrt_sq_eq_abs] using this
  refine squeeze_zero_norm (a := fun n => 2 * |√(q n i l) - √(q (n + 1) i l)|) (fun n => ?_)
    (by simpa using habs.const_mul 2)
  have e : ∀ n, 0 ≤ q n i l ∧ q n i l ≤ 1 := fun n => ⟨(posterior_pos _ i l).le, posterior_le_one _ i l⟩
  have e1 := Real.sq_sqrt (e n).1
  have e2 := Real.sq_sqrt (e (n + 1)).1
  have f1 : √(q n i l) ≤ 1 := Real.sqrt_le_one.mpr (e n).2
  have f2 : √(q (n + 1) i l) ≤ 1 := Real.sqrt_le_one.mpr (e (n + 1)).2
  have g1 := Real.sqrt_nonneg (q n i l)
  have g2 := Real.sqrt_nonneg (q (n + 1) i l)
  have : q (n + 1) i l - q n i l = -(√(q n i l) + √(q (n + 1) i l)) * (√(q n i l) - √(q (n + 1) i l)) := by
    nlinarith
  change ‖q (n + 1) i l - q n i l‖ ≤ _
  rw [this, Real.norm_eq_abs, abs_mul, abs_neg, abs_of_nonneg (by linarith : 0 ≤ √(q n i l) + √(q (n + 1) i l))]
  exact mul_le_mul_of_nonneg_right (by linarith) (abs_nonneg _)

/-! ## The next estimates are continuous functions of the posteriors -/

noncomputable def stepA (d : Data ni nk) (q : Fin ni → Fin nl → ℝ) (t : Fin 2) (l : Fin nl) (k : Fin nk) : ℝ :=
  (∑ i with d.G t i = k, d.W t i * q i l * d.Y t i) / cellW d q t l k

noncomputable def stepS (d : Data ni nk) (lb : ℝ) (q : Fin ni → Fin nl → ℝ) (t : Fin 2) (l : Fin nl)
    (k : Fin nk) : ℝ :=
  √(max lb ((∑ i with d.G t i = k, d.W t i * q i l * (d.Y t i - stepA d q t l k) ^ 2) / cellW d q t l k))

noncomputable def stepP (d : Data ni nk) (dp : ℝ) (q : Fin ni → Fin nl → ℝ) (p : ℕ) (l : Fin nl) : ℝ :=
  (∑ i with KK d i = p, √(d.W 0 i * d.W 1 i) * (q i l + (dp - 1))) /
    ((∑ i with KK d i = p, √(d.W 0 i * d.W 1 i)) * (1 + nl * (dp - 1)))

theorem step_forms [NeZero nl] (d : Data ni nk) (q : Fin ni → Fin nl → ℝ) (b b' : Base nl nk)
    (pk pk' : ℕ → Fin nl → ℝ) (sA sS : Solver) (lb dp : ℝ) (hlb : 0 < lb) (hnk : 0 < nk) (hdp : 1 ≤ dp)
    (hW : ∀ t i, 0 < d.W t i) (hall : AllPairs d)
    (hsA : RightSolver (2 * (nl * nk)) (fun _ => True) sA)
    (hsS : RightSolver (2 * (nl * nk)) (BoundS nl nk lb) sS) (hS : ∀ t l k, 0 < b.S t l k)
    (hq : ∀ i l, 0 ≤ q i l) (hq1 : ∀ i, ∑ l, q i l = 1) (hcell : ∀ t l k, 0 < cellW d q t l k)
    (hpk : nextPk1 true d q dp pk = .ok pk') (hm : mstep d q b true true sA sS = .ok b') :
    b' = ⟨stepA d q, stepS d lb q⟩ ∧ ∀ p < nk ^ 2, ∀ l, pk' p l = stepP d dp q p l := by
  obtain ⟨b2, hb2, hb3⟩ := C34_closed_form d q b lb sA sS hnk hsA hsS hlb.le hS hcell
  rw [hm] at hb2
  cases hb2
  have hA : ∀ t l k, b'.A t l k = stepA d q t l k := fun t l k => (hb3 t l k).1
  constructor
  · rcases b' with ⟨A, S⟩
    simp only [Base.mk.injEq]
    refine ⟨by funext t l k; exact hA t l k, ?_⟩
    funext t l k
    obtain ⟨-, h0, h1⟩ := hb3 t l k
    rw [hA] at h1
    unfold stepS
    rw [← h1, Real.sqrt_sq h0]
  · obtain ⟨p2, hp2, hp3⟩ := C32_movers d q dp hW hdp hq hq1 hnk hall
    simp only [nextPk1, if_true] at hpk
    rw [hp2] at hpk
    cases hpk
    intro p hp l
    obtain ⟨k1, k2, rfl⟩ := pair_of_lt hp
    rw [(hp3 k1 k2).1 l]
    unfold stepP
    simp only [KK_eq_iff]

theorem continuous_cellW (d : Data ni nk) (t : Fin 2) (l : Fin nl) (k : Fin nk) :
    Continuous fun q : Fin ni → Fin nl → ℝ => cellW d q t l k := by
  unfold cellW
  fun_prop

theorem continuousAt_stepA (d : Data ni nk) (q : Fin ni → Fin nl → ℝ) (t : Fin 2) (l : Fin nl) (k : Fin nk)
    (h : 0 < cellW d q t l k) : ContinuousAt (fun q : Fin ni → Fin nl → ℝ => stepA d q t l k) q := by
  unfold stepA
  exact ContinuousAt.div (Continuous.continuousAt (by fun_prop)) (continuous_cellW d t l k).continuousAt h.ne'

theorem continuousAt_stepS (d : Data ni nk) (lb : ℝ) (q : Fin ni → Fin nl → ℝ) (t : Fin 2) (l : Fin nl)
    (k : Fin nk) (h : 0 < cellW d q t l k) :
    ContinuousAt (fun q : Fin ni → Fin nl → ℝ => stepS d lb q t l k) q := by
  unfold stepS
  have hA := continuousAt_stepA d q t l k h
  have h1 : ContinuousAt (fun q : Fin ni → Fin nl → ℝ =>
      (∑ i with d.G t i = k, d.W t i * q i l * (d.Y t i - stepA d q t l k) ^ 2) / cellW d q t l k) q := by
    refine ContinuousAt.div ?_ (continuous_cellW d t l k).continuousAt h.ne'
    refine tendsto_finsetSum _ fun i _ => ?_
    exact ContinuousAt.mul (Continuous.continuousAt (by fun_prop)) ((continuousAt_const.sub hA).pow 2)
  exact Real.continuous_sqrt.continuousAt.comp (continuousAt_const.max h1)

theorem continuous_stepP (d : Data ni nk) (dp : ℝ) (p : ℕ) (l : Fin nl) :
    Continuous fun q : Fin ni → Fin nl → ℝ => stepP d dp q p l := by
  unfold stepP
  refine Continuous.div_const ?_ _
  fun_prop

/-- A continuous function of a bounded sequence that changes less and less changes less and less. -/
theorem settle_of_continuous {f : (Fin ni → Fin nl → ℝ) → ℝ} {q : ℕ → Fin ni → Fin nl → ℝ}
    {lo hi : Fin ni → Fin nl → ℝ} (hq : ∀ n, q n ∈ Set.Icc lo hi)
    (hf : ∀ x ∈ Set.Icc lo hi, ContinuousAt f x)
    (hd : ∀ i l, Tendsto (fun n => q (n + 1) i l - q n i l) atTop (𝓝 0)) :
    Tendsto (fun n => f (q (n + 1)) - f (q n)) atTop (𝓝 0) := by
  have hd' : Tendsto (fun n => q (n + 1) - q n) atTop (𝓝 0) :=
    tendsto_pi_nhds.mpr fun i => tendsto_pi_nhds.mpr fun l => hd i l
  refine tendsto_of_subseq_tendsto fun ns hns => ?_
  obtain ⟨x, hx, ms, hms, hlim⟩ := isCompact_Icc.tendsto_subseq fun n => hq (ns n)
  refine ⟨ms, ?_⟩
  have h1 : Tendsto (fun n => q (ns (ms n) + 1)) atTop (𝓝 x) := by
    have := hlim.add (hd'.comp (hns.comp hms.tendsto_atTop))
    simpa [Function.comp_def] using this
  have h2 := ((hf x hx).tendsto.comp h1).sub ((hf x hx).tendsto.comp hlim)
  simpa [Function.comp_def] using h2

/-- A lower bound for the posteriors of estimates that stay within the data. -/
theorem posterior_lower [NeZero nl] (d : Data ni nk) (b : Base nl nk) (pk : ℕ → Fin nl → ℝ) {lb ε v : ℝ}
    (hlb : 0 < lb) (hε : 0 < ε) (hW : ∀ t i, 0 < d.W t i) (hg : GoodState (fun _ => True) lb b pk)
    (hp : ∀ p < nk ^ 2, ∀ l, ε ≤ pk p l) (hv : ∀ t l k, b.S t l k ^ 2 ≤ v)
    (hr : ∀ t l i, (d.Y t i - b.A t l (d.G t i)) ^ 2 ≤ v) (i : Fin ni) (l : Fin nl) :
    Real.exp (Real.log ε + (d.W 0 i + d.W 1 i) * (Util.logpi - 1 / 2 * Real.log v - v / (2 * lb)) -
      (d.W 0 i + d.W 1 i) * Spec.topLogDensity lb) ≤ posterior (lpMovers d b [] pk) i l := by
  unfold posterior
  refine Real.exp_le_exp.mpr ?_
  have hk := KK_lt d i
  have e : lpMovers d b [] pk i = fun l => Real.log (pk (KK d i) l) +
      (d.W 0 i * lpWage d b [] 0 l i + d.W 1 i * lpWage d b [] 1 l i) := by
    funext l; unfold lpMovers; ring
  have hup : Util.logsumexp (lpMovers d b [] pk i) ≤ (d.W 0 i + d.W 1 i) * Spec.topLogDensity lb := by
    rw [e]
    refine lse_le _ _ _ (hg.pos _ hk) (hg.sum _ hk) fun l => ?_
    have hb : ∀ t, lpWage d b [] t l i ≤ Spec.topLogDensity lb := fun t =>
      lpWage_le d b [] t l i hlb (by simpa [sumNonS, sumByS] using (hg.sds t l (d.G t i)).2)
    have h0 := mul_le_mul_of_nonneg_left (hb 0) (hW 0 i).le
    have h1 := mul_le_mul_of_nonneg_left (hb 1) (hW 1 i).le
    linarith
  have hlow : ∀ t, Util.logpi - 1 / 2 * Real.log v - v / (2 * lb) ≤ lpWage d b [] t l i := by
    intro t
    rw [lpWage_nil]
    obtain ⟨h1, h2⟩ := hg.sds t l (d.G t i)
    have h3 : Real.log (b.S t l (d.G t i)) ≤ 1 / 2 * Real.log v := by
      have := Real.log_le_log (by positivity) (hv t l (d.G t i))
      rw [Real.log_pow] at this
      push_cast at this
      linarith
    have h4 : (d.Y t i - b.A t l (d.G t i)) ^ 2 / (2 * b.S t l (d.G t i) ^ 2) ≤ v / (2 * lb) := by
      refine div_le_div₀ ?_ (hr t l i) (by linarith) (by linarith)
      exact (sq_nonneg _).trans (hr t l i)
    linarith
  have hp' := Real.log_le_log hε (hp _ hk l)
  have h0 := mul_le_mul_of_nonneg_left (hlow 0) (hW 0 i).le
  have h1 := mul_le_mul_of_nonneg_left (hlow 1) (hW 1 i).le
  have e' := congrFun e l
  linarith

theorem topObserved_of_allPairs (d : Data ni nk) (hnk : 0 < nk) (hall : AllPairs d) : TopObserved d := fun t => by
  obtain ⟨i, h0, h1⟩ := hall ⟨nk - 1, by omega⟩ ⟨nk - 1, by omega⟩
  refine ⟨i, ?_⟩
  fin_cases t
  · simp [h0]
  · simp [h1]

/-- From the first iteration on the posteriors stay in a box away from zero. -/
theorem movers_box [NeZero nl] (d : Data ni nk) (dp thr : ℝ) (sA sS : Solver)
    (minType : (Fin 2 → Fin nl → Fin nk → ℝ) → ℕ) (lb c : ℝ) (hlb : 0 < lb) (hnk : 0 < nk)
    (hsA : RightSolver (2 * (nl * nk)) (fun _ => True) sA)
    (hsS : RightSolver (2 * (nl * nk)) (BoundS nl nk lb) sS)
    (hall : AllPairs d) (hW : ∀ t i, 0 < d.W t i) (hWc : ∀ i, d.W 0 i * d.W 1 i = c) (hd : 1 < dp)
    (pm : ℕ) (b : Base nl nk) (pk1 : ℕ → Fin nl → ℝ)
    (hS : ∀ t l k, 0 < b.S t l k ∧ lb ≤ b.S t l k ^ 2)
    (hpos : ∀ p < nk ^ 2, ∀ l, 0 < pk1 p l) (hsum : ∀ p < nk ^ 2, ∑ l, pk1 p l ≤ 1)
    (s : ℕ → MoverState nl nk)
    (hs : ∀ n, moversLoop d ⟨true, true, true, dp, thr⟩ sA sS minType n true none pm ⟨b, pk1, []⟩ = .ok (s n)) :
    ∃ e : Fin ni → Fin nl → ℝ, (∀ i l, 0 < e i l) ∧
      ∀ n, posterior (lpMovers d (s (n + 1)).base [] (s (n + 1)).pk1) ∈ Set.Icc e fun _ _ => 1 := by
  set B : ℝ := ∑ t : Fin 2, ∑ i, |d.Y t i| with hB
  have hY : ∀ t i, -B ≤ d.Y t i ∧ d.Y t i ≤ B := by
    intro t i
    refine abs_le.mp ?_
    exact (single_le_sum (f := fun i => |d.Y t i|) (fun i _ => abs_nonneg _) (mem_univ i)).trans
      (single_le_sum (f := fun t => ∑ i, |d.Y t i|) (fun t _ => sum_nonneg fun i _ => abs_nonneg _)
        (mem_univ t))
  have hεp : 0 < (dp - 1) / (1 + nl * (dp - 1)) := by
    have : (0 : ℝ) ≤ nl * (dp - 1) := mul_nonneg (Nat.cast_nonneg _) (by linarith)
    exact div_pos (by linarith) (by linarith)
  have htop := topObserved_of_allPairs d hnk hall
  refine ⟨_, fun i l => Real.exp_pos _, fun n => ⟨fun i l => posterior_lower (v := max lb ((B - -B) ^ 2)) d _ _
    hlb hεp hW ?_ ?_ ?_ ?_ i l, fun i l => posterior_le_one _ i l⟩⟩
  · exact (moversLoop_prior d ⟨true, true, true, dp, thr⟩ sA sS minType (fun _ => True) lb c hlb hnk hsA.sound
      hsS htop hW (fun _ => hWc) hd.le (n + 1) true none pm _ (s (n + 1)) ⟨trivial, hS, hpos, hsum⟩
      (hs (n + 1))).1
  all_goals
    obtain ⟨h1, h2, h3⟩ := C137_movers d dp thr sA sS minType (fun _ => True) lb hlb hnk hd.le
      (fun _ _ => -B) (fun _ _ => B) ⟨b.A, trivial⟩ (fun _ _ => trivial) hY hW hall hsA hsS (n + 1) pm
      n.succ_pos ⟨b, pk1, []⟩ (s (n + 1)) (fun t l k => (hS t l k).1) (hs (n + 1))
  · intro p hp l
    obtain ⟨k1, k2, rfl⟩ := pair_of_lt hp
    exact ((h3 k1 k2).2 l).1
  · exact fun t l k => (h2 t l k).2
  · intro t l i
    refine le_trans ?_ (le_max_right _ _)
    have h4 := h1 t l (d.G t i)
    have h5 := hY t i
    refine sq_le_sq.mpr ?_
    rw [abs_of_nonneg (by linarith : 0 ≤ B - -B)]
    exact abs_le.mpr ⟨by linarith, by linarith⟩

theorem cellW_pos_of (d : Data ni nk) (q : Fin ni → Fin nl → ℝ) (hW : ∀ t i, 0 < d.W t i)
    (hq : ∀ i l, 0 < q i l) (hall : AllPairs d) (t : Fin 2) (l : Fin nl) (k : Fin nk) :
    0 < cellW d q t l k := by
  obtain ⟨i, h0, h1⟩ := hall k k
  refine sum_pos (fun i _ => mul_pos (hW t i) (hq i l)) ⟨i, ?_⟩
  fin_cases t
  · simp [h0]
  · simp [h1]

/-- The estimates after one more iteration, as functions of the posteriors. -/
theorem movers_forms [NeZero nl] (d : Data ni nk) (dp thr : ℝ) (sA sS : Solver)
    (minType : (Fin 2 → Fin nl → Fin nk → ℝ) → ℕ) (lb c : ℝ) (hlb : 0 < lb) (hnk : 0 < nk)
    (hsA : RightSolver (2 * (nl * nk)) (fun _ => True) sA)
    (hsS : RightSolver (2 * (nl * nk)) (BoundS nl nk lb) sS)
    (hall : AllPairs d) (hW : ∀ t i, 0 < d.W t i) (hWc : ∀ i, d.W 0 i * d.W 1 i = c) (hd : 1 ≤ dp)
    (hthr : thr ≤ 0) (pm : ℕ) (b : Base nl nk) (pk1 : ℕ → Fin nl → ℝ)
    (hS : ∀ t l k, 0 < b.S t l k ∧ lb ≤ b.S t l k ^ 2)
    (hpos : ∀ p < nk ^ 2, ∀ l, 0 < pk1 p l) (hsum : ∀ p < nk ^ 2, ∑ l, pk1 p l ≤ 1)
    (s : ℕ → MoverState nl nk)
    (hs : ∀ n, moversLoop d ⟨true, true, true, dp, thr⟩ sA sS minType n true none pm ⟨b, pk1, []⟩ = .ok (s n))
    (n : ℕ) :
    (s (n + 1)).base = ⟨stepA d (posterior (lpMovers d (s n).base [] (s n).pk1)),
      stepS d lb (posterior (lpMovers d (s n).base [] (s n).pk1))⟩ ∧
    ∀ p < nk ^ 2, ∀ l, (s (n + 1)).pk1 p l =
      stepP d dp (posterior (lpMovers d (s n).base [] (s n).pk1)) p l := by
  have htop := topObserved_of_allPairs d hnk hall
  obtain ⟨hu, hm⟩ := moversLoop_next d ⟨true, true, true, dp, thr⟩ sA sS minType hthr n true none pm _ (s n)
    (s (n + 1)) (hs n) (hs (n + 1))
  have hg := (moversLoop_prior d ⟨true, true, true, dp, thr⟩ sA sS minType (fun _ => True) lb c hlb hnk
    hsA.sound hsS htop hW (fun _ => hWc) hd n true none pm _ (s n) ⟨trivial, hS, hpos, hsum⟩ (hs n)).1
  exact step_forms d _ _ _ _ _ sA sS lb dp hlb hnk hd hW hall hsA hsS (fun t l k => (hg.sds t l k).1)
    (fun i l => (posterior_pos _ i l).le) (posterior_sum _)
    (cellW_pos_of d _ hW (posterior_pos _) hall) hu hm

/-- C139 for the estimates: without early stopping, with free means, bounded variances, a prior above one,
movers between all pairs of firm types and weights with a constant product, the changes of every mean,
standard deviation and proportion from one iteration to the next tend to zero, from any starting values. -/
theorem C139_estimates [NeZero nl] (d : Data ni nk) (dp thr : ℝ) (sA sS : Solver)
    (minType : (Fin 2 → Fin nl → Fin nk → ℝ) → ℕ) (lb c : ℝ) (hlb : 0 < lb) (hnk : 0 < nk)
    (hsA : RightSolver (2 * (nl * nk)) (fun _ => True) sA)
    (hsS : RightSolver (2 * (nl * nk)) (BoundS nl nk lb) sS)
    (hall : AllPairs d) (hW : ∀ t i, 0 < d.W t i) (hWc : ∀ i, d.W 0 i * d.W 1 i = c) (hd : 1 < dp)
    (hthr : thr ≤ 0) (pm : ℕ) (b : Base nl nk) (pk1 : ℕ → Fin nl → ℝ)
    (hS : ∀ t l k, 0 < b.S t l k ∧ lb ≤ b.S t l k ^ 2)
    (hpos : ∀ p < nk ^ 2, ∀ l, 0 < pk1 p l) (hsum : ∀ p < nk ^ 2, ∑ l, pk1 p l ≤ 1)
    (s : ℕ → MoverState nl nk)
    (hs : ∀ n, moversLoop d ⟨true, true, true, dp, thr⟩ sA sS minType n true none pm ⟨b, pk1, []⟩ = .ok (s n)) :
    (∀ t l k, Tendsto (fun n => (s (n + 1)).base.A t l k - (s n).base.A t l k) atTop (𝓝 0)) ∧
    (∀ t l k, Tendsto (fun n => (s (n + 1)).base.S t l k - (s n).base.S t l k) atTop (𝓝 0)) ∧
    ∀ p < nk ^ 2, ∀ l, Tendsto (fun n => (s (n + 1)).pk1 p l - (s n).pk1 p l) atTop (𝓝 0) := by
  have hpost := (C139_posteriors d ⟨true, true, true, dp, thr⟩ sA sS minType (fun _ => True) lb c hlb hnk hsA hsS
    (topObserved_of_allPairs d hnk hall) hW (fun _ => hWc) hd.le hthr pm b pk1 trivial hS hpos hsum s hs).2
  simp only [bayes_eq] at hpost
  obtain ⟨e, he, hbox⟩ := movers_box d dp thr sA sS minType lb c hlb hnk hsA hsS hall hW hWc hd pm b pk1 hS hpos
    hsum s hs
  have hforms := movers_forms d dp thr sA sS minType lb c hlb hnk hsA hsS hall hW hWc hd.le hthr pm b pk1 hS
    hpos hsum s hs
  have key : ∀ f : (Fin ni → Fin nl → ℝ) → ℝ, (∀ x, (∀ i l, 0 < x i l) → ContinuousAt f x) →
      ∀ y : ℕ → ℝ, (∀ n, y (n + 1) = f (posterior (lpMovers d (s n).base [] (s n).pk1))) →
      Tendsto (fun n => y (n + 1) - y n) atTop (𝓝 0) := by
    intro f hf y hy
    have h := settle_of_continuous (f := f)
      (q := fun n => posterior (lpMovers d (s (n + 1)).base [] (s (n + 1)).pk1)) (lo := e)
      (hi := fun _ _ => 1) hbox (fun x hx => hf x fun i l => (he i l).trans_le (hx.1 i l))
      (fun i l => (hpost i l).comp (tendsto_add_atTop_nat 1))
    have h2 : Tendsto (fun n => y (n + 2 + 1) - y (n + 2)) atTop (𝓝 0) := by
      simpa only [hy] using h
    exact (tendsto_add_atTop_iff_nat (f := fun n => y (n + 1) - y n) 2).mp h2
  refine ⟨fun t l k => key (fun q => stepA d q t l k) (fun x hx => continuousAt_stepA d x t l k
      (cellW_pos_of d x hW hx hall t l k)) (fun n => (s n).base.A t l k) fun n => by rw [(hforms n).1],
    fun t l k => key (fun q => stepS d lb q t l k) (fun x hx => continuousAt_stepS d lb x t l k
      (cellW_pos_of d x hW hx hall t l k)) (fun n => (s n).base.S t l k) fun n => by rw [(hforms n).1],
    fun p hp l => key (fun q => stepP d dp q p l) (fun x _ => (continuous_stepP d dp p l).continuousAt)
      (fun n => (s n).pk1 p l) fun n => (hforms n).2 p hp l⟩

theorem tendsto_posterior [NeZero nl] (d : Data ni nk) (b : ℕ → Base nl nk) (pk : ℕ → ℕ → Fin nl → ℝ)
    (A S : Fin 2 → Fin nl → Fin nk → ℝ) (pk' : ℕ → Fin nl → ℝ) (hS : ∀ t l k, 0 < S t l k)
    (hp : ∀ p < nk ^ 2, ∀ l, 0 < pk' p l)
    (hA : ∀ t l k, Tendsto (fun n => (b n).A t l k) atTop (𝓝 (A t l k)))
    (hSl : ∀ t l k, Tendsto (fun n => (b n).S t l k) atTop (𝓝 (S t l k)))
    (hpl : ∀ p < nk ^ 2, ∀ l, Tendsto (fun n => pk n p l) atTop (𝓝 (pk' p l))) :
    Tendsto (fun n => posterior (lpMovers d (b n) [] (pk n))) atTop
      (𝓝 (posterior (lpMovers d ⟨A, S⟩ [] pk'))) := by
  have hw : ∀ t l i, Tendsto (fun n => lpWage d (b n) [] t l i) atTop (𝓝 (lpWage d ⟨A, S⟩ [] t l i)) := by
    intro t l i
    simp only [lpWage_nil]
    refine (tendsto_const_nhds.sub ((hSl t l _).log (hS t l _).ne')).sub ?_
    refine ((tendsto_const_nhds.sub (hA t l _)).pow 2).div (((hSl t l _).pow 2).const_mul 2) ?_
    have := hS t l (d.G t i)
    positivity
  have hl : ∀ i l, Tendsto (fun n => lpMovers d (b n) [] (pk n) i l) atTop
      (𝓝 (lpMovers d ⟨A, S⟩ [] pk' i l)) := by
    intro i l
    unfold lpMovers
    exact (((hpl _ (KK_lt d i) l).log (hp _ (KK_lt d i) l).ne').add ((hw 0 l i).const_mul _)).add
      ((hw 1 l i).const_mul _)
  refine tendsto_pi_nhds.mpr fun i => tendsto_pi_nhds.mpr fun l => ?_
  simp only [posterior_eq]
  refine Tendsto.div ((Real.continuous_exp.tendsto _).comp (hl i l)) ?_ (sum_exp_pos _).ne'
  exact tendsto_finsetSum _ fun l' _ => (Real.continuous_exp.tendsto _).comp (hl i l')

/-- C139, limit points: under the conditions of `C139_estimates`, whatever means, standard deviations and
proportions the estimates converge to along some subsequence of iterations, a further iteration started there
returns them unchanged.  The limits of the standard deviations and proportions are positive. -/
theorem C139_limits_unmoved [NeZero nl] (d : Data ni nk) (dp thr : ℝ) (sA sS : Solver)
    (minType : (Fin 2 → Fin nl → Fin nk → ℝ) → ℕ) (lb c : ℝ) (hlb : 0 < lb) (hnk : 0 < nk)
    (hsA : RightSolver (2 * (nl * nk)) (fun _ => True) sA)
    (hsS : RightSolver (2 * (nl * nk)) (BoundS nl nk lb) sS)
    (hall : AllPairs d) (hW : ∀ t i, 0 < d.W t i) (hWc : ∀ i, d.W 0 i * d.W 1 i = c) (hd : 1 < dp)
    (hthr : thr ≤ 0) (pm : ℕ) (b : Base nl nk) (pk1 : ℕ → Fin nl → ℝ)
    (hS : ∀ t l k, 0 < b.S t l k ∧ lb ≤ b.S t l k ^ 2)
    (hpos : ∀ p < nk ^ 2, ∀ l, 0 < pk1 p l) (hsum : ∀ p < nk ^ 2, ∑ l, pk1 p l ≤ 1)
    (s : ℕ → MoverState nl nk)
    (hs : ∀ n, moversLoop d ⟨true, true, true, dp, thr⟩ sA sS minType n true none pm ⟨b, pk1, []⟩ = .ok (s n))
    (φ : ℕ → ℕ) (hφ : Tendsto φ atTop atTop) (A S : Fin 2 → Fin nl → Fin nk → ℝ) (pk : ℕ → Fin nl → ℝ)
    (hA : ∀ t l k, Tendsto (fun n => (s (φ n)).base.A t l k) atTop (𝓝 (A t l k)))
    (hSl : ∀ t l k, Tendsto (fun n => (s (φ n)).base.S t l k) atTop (𝓝 (S t l k)))
    (hpl : ∀ p < nk ^ 2, ∀ l, Tendsto (fun n => (s (φ n)).pk1 p l) atTop (𝓝 (pk p l))) :
    ∃ s', moversLoop d ⟨true, true, true, dp, thr⟩ sA sS minType 1 true none pm ⟨⟨A, S⟩, pk, []⟩ = .ok s' ∧
      s'.base = ⟨A, S⟩ ∧ (∀ p < nk ^ 2, s'.pk1 p = pk p) ∧ (∀ t l k, 0 < S t l k) ∧
      ∀ p < nk ^ 2, ∀ l, 0 < pk p l := by
  have htop := topObserved_of_allPairs d hnk hall
  obtain ⟨hdA, hdS, hdP⟩ := C139_estimates d dp thr sA sS minType lb c hlb hnk hsA hsS hall hW hWc hd hthr pm b
    pk1 hS hpos hsum s hs
  have hforms := movers_forms d dp thr sA sS minType lb c hlb hnk hsA hsS hall hW hWc hd.le hthr pm b pk1 hS
    hpos hsum s hs
  have hgood : ∀ n, GoodState (fun _ => True) lb (s n).base (s n).pk1 := fun n =>
    (moversLoop_prior d ⟨true, true, true, dp, thr⟩ sA sS minType (fun _ => True) lb c hlb hnk hsA.sound
      hsS htop hW (fun _ => hWc) hd.le n true none pm _ (s n) ⟨trivial, hS, hpos, hsum⟩ (hs n)).1
  have hSp : ∀ t l k, 0 < S t l k := by
    intro t l k
    have h0 : 0 ≤ S t l k := ge_of_tendsto' (hSl t l k) fun n => ((hgood (φ n)).sds t l k).1.le
    have h1 : lb ≤ S t l k ^ 2 := ge_of_tendsto' ((hSl t l k).pow 2) fun n => ((hgood (φ n)).sds t l k).2
    rcases h0.lt_or_eq with h | h
    · exact h
    · rw [← h] at h1
      norm_num at h1
      linarith
  have hPp : ∀ p < nk ^ 2, ∀ l, 0 < pk p l := by
    intro p hp l
    have hεp : 0 < (dp - 1) / (1 + nl * (dp - 1)) := by
      have : (0 : ℝ) ≤ nl * (dp - 1) := mul_nonneg (Nat.cast_nonneg _) (by linarith)
      exact div_pos (by linarith) (by linarith)
    refine hεp.trans_le (ge_of_tendsto (hpl p hp l) ?_)
    filter_upwards [hφ.eventually_ge_atTop 1] with n hn
    obtain ⟨k1, k2, rfl⟩ := pair_of_lt hp
    set B : ℝ := ∑ t : Fin 2, ∑ i, |d.Y t i| with hB
    have hY : ∀ t i, -B ≤ d.Y t i ∧ d.Y t i ≤ B := by
      intro t i
      refine abs_le.mp ?_
      exact (single_le_sum (f := fun i => |d.Y t i|) (fun i _ => abs_nonneg _) (mem_univ i)).trans
        (single_le_sum (f := fun t => ∑ i, |d.Y t i|) (fun t _ => sum_nonneg fun i _ => abs_nonneg _)
          (mem_univ t))
    obtain ⟨-, -, h3⟩ := C137_movers d dp thr sA sS minType (fun _ => True) lb hlb hnk hd.le
      (fun _ _ => -B) (fun _ _ => B) ⟨b.A, trivial⟩ (fun _ _ => trivial) hY hW hall hsA hsS (φ n) pm
      hn ⟨b, pk1, []⟩ (s (φ n)) (fun t l k => (hS t l k).1) (hs (φ n))
    exact ((h3 k1 k2).2 l).1
  have hq := tendsto_posterior d (fun n => (s (φ n)).base) (fun n => (s (φ n)).pk1) A S pk hSp hPp hA hSl hpl
  set q := posterior (lpMovers d ⟨A, S⟩ [] pk) with hqdef
  have key : ∀ f : (Fin ni → Fin nl → ℝ) → ℝ, ContinuousAt f q → ∀ (y : ℕ → ℝ) (z : ℝ),
      (∀ n, y (n + 1) = f (posterior (lpMovers d (s n).base [] (s n).pk1))) →
      Tendsto (fun n => y (φ n)) atTop (𝓝 z) → Tendsto (fun n => y (n + 1) - y n) atTop (𝓝 0) → f q = z := by
    intro f hf y z hy hz hdy
    have h1 : Tendsto (fun n => y (φ n + 1)) atTop (𝓝 (f q)) := by
      simp only [hy]
      exact hf.tendsto.comp hq
    have h2 := hz.add (hdy.comp hφ)
    simp only [Function.comp_def, add_sub_cancel, add_zero] at h2
    exact tendsto_nhds_unique h1 h2
  have hcell := cellW_pos_of d q hW (posterior_pos _) hall
  have eA : stepA d q = A := by
    funext t l k
    exact key (fun q => stepA d q t l k) (continuousAt_stepA d q t l k (hcell t l k))
      (fun n => (s n).base.A t l k) _ (fun n => by rw [(hforms n).1]) (hA t l k) (hdA t l k)
  have eS : stepS d lb q = S := by
    funext t l k
    exact key (fun q => stepS d lb q t l k) (continuousAt_stepS d lb q t l k (hcell t l k))
      (fun n => (s n).base.S t l k) _ (fun n => by rw [(hforms n).1]) (hSl t l k) (hdS t l k)
  have eP : ∀ p < nk ^ 2, ∀ l, stepP d dp q p l = pk p l := fun p hp l =>
    key (fun q => stepP d dp q p l) (continuous_stepP d dp p l).continuousAt
      (fun n => (s n).pk1 p l) _ (fun n => (hforms n).2 p hp l) (hpl p hp l) (hdP p hp l)
  obtain ⟨s', hs'⟩ := C33_movers_returns d ⟨true, true, true, dp, thr⟩ sA sS minType hnk hall hW hd.le rfl 1 true
    none pm ⟨⟨A, S⟩, pk, []⟩
  obtain ⟨hu, hm⟩ := moversLoop_next d ⟨true, true, true, dp, thr⟩ sA sS minType hthr 0 true none pm
    ⟨⟨A, S⟩, pk, []⟩ _ s' rfl hs'
  obtain ⟨h1, h2⟩ := step_forms d q _ _ _ _ sA sS lb dp hlb hnk hd.le hW hall hsA hsS hSp
    (fun i l => (posterior_pos _ i l).le) (posterior_sum _) hcell hu hm
  refine ⟨s', hs', ?_, fun p hp => ?_, hSp, hPp⟩
  · rw [h1, eA, eS]
  · funext l
    rw [h2 p hp l, eP p hp l]

/-- C139: there are such limits: from any starting values, some subsequence of the estimates converges. -/
theorem C139_limits_exist [NeZero nl] (d : Data ni nk) (dp thr : ℝ) (sA sS : Solver)
    (minType : (Fin 2 → Fin nl → Fin nk → ℝ) → ℕ) (lb c : ℝ) (hlb : 0 < lb) (hnk : 0 < nk)
    (hsA : RightSolver (2 * (nl * nk)) (fun _ => True) sA)
    (hsS : RightSolver (2 * (nl * nk)) (BoundS nl nk lb) sS)
    (hall : AllPairs d) (hW : ∀ t i, 0 < d.W t i) (hWc : ∀ i, d.W 0 i * d.W 1 i = c) (hd : 1 < dp)
    (hthr : thr ≤ 0) (pm : ℕ) (b : Base nl nk) (pk1 : ℕ → Fin nl → ℝ)
    (hS : ∀ t l k, 0 < b.S t l k ∧ lb ≤ b.S t l k ^ 2)
    (hpos : ∀ p < nk ^ 2, ∀ l, 0 < pk1 p l) (hsum : ∀ p < nk ^ 2, ∑ l, pk1 p l ≤ 1)
    (s : ℕ → MoverState nl nk)
    (hs : ∀ n, moversLoop d ⟨true, true, true, dp, thr⟩ sA sS minType n true none pm ⟨b, pk1, []⟩ = .ok (s n)) :
    ∃ φ : ℕ → ℕ, StrictMono φ ∧ ∃ (A S : Fin 2 → Fin nl → Fin nk → ℝ) (pk : ℕ → Fin nl → ℝ),
      (∀ t l k, Tendsto (fun n => (s (φ n)).base.A t l k) atTop (𝓝 (A t l k))) ∧
      (∀ t l k, Tendsto (fun n => (s (φ n)).base.S t l k) atTop (𝓝 (S t l k))) ∧
      ∀ p < nk ^ 2, ∀ l, Tendsto (fun n => (s (φ n)).pk1 p l) atTop (𝓝 (pk p l)) := by
  obtain ⟨e, he, hbox⟩ := movers_box d dp thr sA sS minType lb c hlb hnk hsA hsS hall hW hWc hd pm b pk1 hS hpos
    hsum s hs
  have hforms := movers_forms d dp thr sA sS minType lb c hlb hnk hsA hsS hall hW hWc hd.le hthr pm b pk1 hS
    hpos hsum s hs
  obtain ⟨x, hx, ms, hms, hlim⟩ := isCompact_Icc.tendsto_subseq hbox
  have hcell := cellW_pos_of d x hW (fun i l => (he i l).trans_le (hx.1 i l)) hall
  refine ⟨fun n => ms n + 1 + 1, fun a b h => by have := hms h; dsimp only; omega, stepA d x, stepS d lb x,
    stepP d dp x, ?_, ?_, ?_⟩
  · intro t l k
    refine ((continuousAt_stepA d x t l k (hcell t l k)).tendsto.comp hlim).congr fun n => ?_
    rw [(hforms (ms n + 1)).1]
    rfl
  · intro t l k
    refine ((continuousAt_stepS d lb x t l k (hcell t l k)).tendsto.comp hlim).congr fun n => ?_
    rw [(hforms (ms n + 1)).1]
    rfl
  · intro p hp l
    simp only [(hforms _).2 p hp l]
    exact ((continuous_stepP d dp p l).tendsto x).comp hlim

/-- Non-vacuity: four movers between all pairs of two firm types, whatever the wages, the default prior, free
means: the loop returns for every number of iterations, so its estimates settle down. -/
theorem C139_case (Y : Fin 2 → Fin 4 → ℝ) :
    ∃ sA sS, ∃ s : ℕ → MoverState 2 2, (∀ n, moversLoop (exPairs Y) ⟨true, true, true, 1 + 1 / 10000000, 0⟩ sA sS
      (fun _ => 0) n true none 0 ⟨⟨fun _ l _ => l.val, fun _ _ _ => 1⟩, fun _ _ => 1 / 2, []⟩ = .ok (s n)) ∧
      ∀ t l k, Tendsto (fun n => (s (n + 1)).base.A t l k - (s n).base.A t l k) atTop (𝓝 0) := by
  obtain ⟨sA, hA⟩ := rightSolver_free (2 * (2 * 2))
  obtain ⟨sS, hS⟩ := rightSolver_box (2 * (2 * 2)) (1 / 10000000)
  have hret := fun n => C33_movers_returns (exPairs Y) ⟨true, true, true, 1 + 1 / 10000000, 0⟩ sA sS
    (fun _ => 0) (by norm_num) (exPairs_all Y) (fun _ _ => one_pos) (by norm_num) rfl n true none 0
    (⟨⟨fun _ l _ => l.val, fun _ _ _ => 1⟩, fun _ _ => 1 / 2, []⟩ : MoverState 2 2)
  choose s hs using hret
  refine ⟨sA, sS, s, hs, (C139_estimates (exPairs Y) _ 0 sA sS (fun _ => 0) (1 / 10000000) 1 (by norm_num)
    (by norm_num) hA hS (exPairs_all Y) (fun _ _ => one_pos) (fun i => by simp [exPairs]) (by norm_num) le_rfl 0 _ _
    (fun _ _ _ => by norm_num) (fun _ _ _ => by norm_num) (fun _ _ => by norm_num) s hs).1⟩

end Pytwoway.BLM
