import Verif.BLMDyn.Atomic

/-! # The loop of stayers of the dynamic model with categorical controls (C95)

blm_dynamic.py:3048-3636: the parts around the update of means and standard deviations, which is `mstepStC`. -/

open Finset ProbabilityTheory

namespace Pytwoway.Dynamic

open Pytwoway.Sim.Dyn Pytwoway.BLM

variable {ni nl nk : ℕ}

/-! ## Specification -/

/-- An iteration that computes the sum of the effects of controls without interaction from the current effects, instead
of using the one that was kept. -/
noncomputable def Spec.freshPass [NeZero nl] (d : DData ni nk) (o : StOpts) (sA sS : QP (Fin nl × JS nk))
    (stable : Fin ni → Fin nl → ℝ) (iter : ℕ) (x : Option ℝ × StStateC nl nk ni) :
    Pass (Option ℝ × StStateC nl nk ni) (Option ℝ × StStateC nl nk ni) :=
  passStC d o sA sS stable iter (x.1, { x.2 with asum := sumNonSt x.2.cols })

/-- Mean of a stayer's wage in period 2 (`t = 0`) or 3: the effect of the firm type plus those of all controls. -/
def Spec.stMean (b : DBase nl nk) (ks : List (StCol nl ni)) (d : DData ni nk) (l : Fin nl) (t : Fin 2) (i : Fin ni) : ℝ :=
  b.Aw (if t = 0 then .p2s else .p3s) l (d.G 0 i) + (ks.map fun k => k.eff l t i).sum

/-- Its variance: squared standard deviations of the firm type and of all controls. -/
def Spec.stVar (b : DBase nl nk) (ks : List (StCol nl ni)) (d : DData ni nk) (l : Fin nl) (t : Fin 2) (i : Fin ni) : ℝ :=
  b.Sw (if t = 0 then .p2s else .p3s) l (d.G 0 i) ^ 2 +
    (ks.map fun k => (if k.wi then k.Sw t l (k.c t i) else k.Sn t (k.c t i)) ^ 2).sum

/-! ## The kept sum is never stale -/

theorem passStC_congr [NeZero nl] (d : DData ni nk) (o : StOpts) (sA sS : QP (Fin nl × JS nk))
    (stable : Fin ni → Fin nl → ℝ) (iter : ℕ) (x y : Option ℝ × StStateC nl nk ni) (h1 : x.1 = y.1)
    (h2 : ({ x.2 with asum := if iter == 0 then sumNonSt x.2.cols else x.2.asum } : StStateC nl nk ni) =
      { y.2 with asum := if iter == 0 then sumNonSt y.2.cols else y.2.asum }) :
    passStC d o sA sS stable iter x = passStC d o sA sS stable iter y := by
  unfold passStC
  rw [h1, h2]

theorem stepStC_sum [NeZero nl] (d : DData ni nk) (o : StOpts) (sA sS : QP (Fin nl × JS nk)) (iter : ℕ)
    (q : Fin ni → Fin nl → ℝ) (s s' : StStateC nl nk ni) (hs : s.asum = sumNonSt s.cols)
    (h : stepStC d o sA sS iter q s = .ok s') : s'.asum = sumNonSt s'.cols := by
  unfold stepStC at h
  simp only [bind, Except.bind] at h
  split at h
  · cases h
  · split at h
    · simp only [Except.ok.injEq] at h; subst h; exact hs
    · split at h
      · split at h
        · cases h
        · rename_i x hx
          simp only [Except.ok.injEq] at h
          subst h
          rw [hs] at hx
          exact C95_stayers_running_sum d q s.base s.r o.updA o.updS o.δ sA sS s.cols x.2.1 x.1 x.2.2 hx
      · simp only [Except.ok.injEq] at h; subst h; exact hs

theorem passStC_sum [NeZero nl] (d : DData ni nk) (o : StOpts) (sA sS : QP (Fin nl × JS nk))
    (stable : Fin ni → Fin nl → ℝ) (iter : ℕ) (x x' : Option ℝ × StStateC nl nk ni) (n : ℕ)
    (hx : iter = 0 ∨ x.2.asum = sumNonSt x.2.cols) (h : passStC d o sA sS stable iter x = .go n (.ok x')) :
    x'.2.asum = sumNonSt x'.2.cols := by
  obtain ⟨s0, hs0, hsum⟩ : ∃ s0 : StStateC nl nk ni,
      s0 = { x.2 with asum := if iter == 0 then sumNonSt x.2.cols else x.2.asum } ∧ s0.asum = sumNonSt s0.cols := by
    refine ⟨_, rfl, ?_⟩
    rcases hx with rfl | hx
    · rfl
    · rw [hx]
      simp only [ite_self]
  unfold passStC at h
  rw [← hs0] at h
  by_cases hc : close (likOf (lpStC d stable s0) nk s0.pk0 (iter == 0) o.updPk o.dprior) x.1 o.thresholdMovers = true
  · simp only [hc, if_true] at h
    exact absurd h (by simp)
  · simp only [hc] at h
    simp only [Bool.false_eq_true, if_false, Pass.go.injEq, bind, Except.bind, pure, Except.pure] at h
    obtain ⟨-, h⟩ := h
    split at h
    · cases h
    · rename_i s'' hs''
      simp only [Except.ok.injEq] at h
      subst h
      exact stepStC_sum d o sA sS iter _
        { s0 with liks := s0.liks ++ [likOf (lpStC d stable s0) nk s0.pk0 (iter == 0) o.updPk o.dprior] } s'' hsum hs''

theorem runLoop_congr {σ α : Type} (p p' : ℕ → σ → Pass σ α) (out : σ → α) (I : ℕ → σ → Prop)
    (hp : ∀ iter x, I iter x → p' iter x = p iter x)
    (hI : ∀ iter x n x', I iter x → p iter x = .go n (.ok x') → I (iter + 1) x') (fuel iter : ℕ) (x : σ)
    (hx : I iter x) : runLoop p out fuel iter x = runLoop p' out fuel iter x := by
  induction fuel generalizing iter x with
  | zero => rfl
  | succ fuel ih =>
    unfold runLoop
    rw [hp iter x hx]
    cases h : p iter x with
    | done r => rfl
    | go n next =>
      cases next with
      | error y => rfl
      | ok x' =>
        simp only [bind, Except.bind]
        exact ih _ _ (hI iter x n x' hx h)

/-- C95, histories: for every number of iterations, every data set, setting and behaviour of the solvers, the loop of
stayers that keeps the sum of effects between iterations gives what a loop that computes it again in every iteration
gives: the same parameters, likelihoods and exceptions. -/
theorem C95_stayers_no_stale_sum [NeZero nl] (d : DData ni nk) (o : StOpts) (sA sS : QP (Fin nl × JS nk))
    (stable : Fin ni → Fin nl → ℝ) (fuel : ℕ) (s : StStateC nl nk ni) :
    runLoop (passStC d o sA sS stable) id fuel 0 (none, s) =
      runLoop (Spec.freshPass d o sA sS stable) id fuel 0 (none, s) := by
  refine runLoop_congr _ _ _ (fun iter x => iter = 0 ∨ x.2.asum = sumNonSt x.2.cols) (fun iter x hx => ?_)
    (fun iter x n x' hx h => Or.inr (passStC_sum d o sA sS stable iter x x' n hx h)) fuel 0 _ (Or.inl rfl)
  refine passStC_congr d o sA sS stable iter _ _ rfl ?_
  rcases hx with rfl | hx
  · rfl
  · simp only [hx, ite_self]

/-! ## Posteriors and persistence -/

theorem eff_split (ks : List (StCol nl ni)) (l : Fin nl) (t : Fin 2) (i : Fin ni) :
    sumNonSt ks t i + sumBySt ks l t i = (ks.map fun k => k.eff l t i).sum := by
  unfold sumNonSt sumBySt
  rw [← List.sum_map_add]
  congr 1
  refine List.map_congr_left fun k _ => ?_
  unfold StCol.nonA StCol.byA StCol.eff
  split <;> simp

theorem stState_mean (s : StStateC nl nk ni) (hs : s.asum = sumNonSt s.cols) (d : DData ni nk) (l : Fin nl) (t : Fin 2)
    (i : Fin ni) : s.mean d l t i = Spec.stMean s.base s.cols d l t i := by
  unfold StStateC.mean Spec.stMean
  rw [hs, add_assoc, eff_split]
  fin_cases t <;> rfl

theorem stState_var (s : StStateC nl nk ni) (d : DData ni nk) (l : Fin nl) (t : Fin 2) (i : Fin ni) :
    s.var d l t i = Spec.stVar s.base s.cols d l t i := by
  unfold StStateC.var Spec.stVar
  have : ∀ k : StCol nl ni, k.var l t i = (if k.wi then k.Sw t l (k.c t i) else k.Sn t (k.c t i)) ^ 2 := by
    intro k
    unfold StCol.var
    split <;> rfl
  simp only [this]
  fin_cases t <;> rfl

theorem stVar_pos (b : DBase nl nk) (hb : PosS b) (ks : List (StCol nl ni)) (d : DData ni nk) (l : Fin nl) (t : Fin 2)
    (i : Fin ni) : 0 < Spec.stVar b ks d l t i := by
  unfold Spec.stVar
  have h1 := hb.1 (if t = 0 then .p2s else .p3s) l (d.G 0 i)
  have h2 : 0 ≤ (ks.map fun k => (if k.wi then k.Sw t l (k.c t i) else k.Sn t (k.c t i)) ^ 2).sum := by
    refine List.sum_nonneg fun x hx => ?_
    obtain ⟨k, -, rfl⟩ := List.mem_map.mp hx
    positivity
  positivity

/-- C95: with categorical controls the posterior probability of a worker type is, by Bayes' rule, its share times the
densities of the wages of periods 2 and 3 at means and variances to which every control contributes, times the part of
periods 1 and 4; in every iteration, since the kept sum is the current one. -/
theorem C95_stayers_posterior [NeZero nl] (d : DData ni nk) (stable : Fin ni → Fin nl → ℝ) (s : StStateC nl nk ni)
    (hs : s.asum = sumNonSt s.cols) (hb : PosS s.base) (i : Fin ni) (hpk : ∀ l, 0 < s.pk0 (d.G 0 i).val l) :
    let f := fun l => s.pk0 (d.G 0 i).val l *
      gaussianPDFReal (Spec.stMean s.base s.cols d l 0 i) (Spec.stVar s.base s.cols d l 0 i).toNNReal (d.y i).y2 *
      gaussianPDFReal (Spec.stMean s.base s.cols d l 1 i + s.r.R32 * ((d.y i).y2 - Spec.stMean s.base s.cols d l 0 i))
        (Spec.stVar s.base s.cols d l 1 i + s.r.R32 ^ 2 * Spec.stVar s.base s.cols d l 0 i).toNNReal (d.y i).y3 *
      Real.exp (stable i l)
    ∀ l, posterior (lpStC d stable s) i l = f l / ∑ l', f l' := by
  intro f l
  have e : ∀ l, Real.exp (lpStC d stable s i l) = f l := by
    intro l
    have h0 := stVar_pos s.base hb s.cols d l 0 i
    have h1 := stVar_pos s.base hb s.cols d l 1 i
    unfold lpStC
    simp only [stState_mean s hs, stState_var]
    rw [Real.exp_add, Real.exp_add, Real.exp_add, Real.exp_log (hpk l), lnvar_exp _ _ _ h0,
      lnvar_exp _ _ _ (by positivity), pdf_shift]
  rw [posterior_eq]
  simp only [e]

/-- C95: in an iteration that updates the persistence of stayers' wages, nothing but `R32s` and `pk0` changes, and the
new `R32s` is the only minimiser of the posterior-weighted squared residuals of wages net of all controls, divided by
variances to which all controls contribute. -/
theorem C95_stayers_rho [NeZero nl] (d : DData ni nk) (o : StOpts) (sA sS : QP (Fin nl × JS nk)) (iter : ℕ)
    (q : Fin ni → Fin nl → ℝ) (hq : ∀ i l, 0 ≤ q i l) (s s' : StStateC nl nk ni) (hs : s.asum = sumNonSt s.cols)
    (hb : PosS s.base) (hrho : o.updRho = true) (hodd : iter % 2 = 1)
    (hne : ∃ i l, 0 < q i l ∧ (d.y i).y2 ≠ Spec.stMean s.base s.cols d l 0 i)
    (h : stepStC d o sA sS iter q s = .ok s') :
    s'.base = s.base ∧ s'.cols = s.cols ∧ s'.r.R12 = s.r.R12 ∧ s'.r.R43 = s.r.R43 ∧ s'.liks = s.liks ∧
      Spec.OnlyMin (Spec.wssr (fun i l => (d.y i).y2 - Spec.stMean s.base s.cols d l 0 i)
        (fun i l => (d.y i).y3 - Spec.stMean s.base s.cols d l 1 i)
        (fun i l => Spec.stVar s.base s.cols d l 1 i + s.r.R32 ^ 2 * Spec.stVar s.base s.cols d l 0 i) q) s'.r.R32 := by
  unfold stepStC at h
  simp only [bind, Except.bind, hrho, hodd, beq_self_eq_true, Bool.and_self, if_true] at h
  split at h
  · cases h
  · simp only [Except.ok.injEq] at h
    subst h
    refine ⟨rfl, rfl, rfl, rfl, rfl, ?_⟩
    have := (C55_minimises d.y (fun i l p => if p = .p2s then s.mean d l 0 i else s.mean d l 1 i)
      (fun i l p => if p = .p2s then s.var d l 0 i else s.var d l 1 i) s.r q hq ?_).2.2.2
    · simp only [stState_mean s hs, stState_var, if_true, show (Per.p3s = Per.p2s) = False by simp, if_false] at this ⊢
      exact this hne
    · intro i l p
      simp only [stState_var]
      split <;> exact stVar_pos s.base hb s.cols d l _ i

/-- Witness for the hypotheses of the three theorems: two worker types, a control that interacts and one that does not. -/
example : ∃ (d : DData 3 2) (s : StStateC 2 2 3), s.asum = sumNonSt s.cols ∧ s.cols.map StCol.wi = [true, false] ∧
    PosS s.base ∧ (∀ i l, 0 < s.pk0 (d.G 0 i).val l) ∧ ∃ i l, (d.y i).y2 ≠ Spec.stMean s.base s.cols d l 0 i := by
  let k (wi : Bool) : StCol 2 3 := ⟨2, wi, fun _ _ => 1, fun _ _ _ => 1, fun _ _ _ => 1, fun _ _ => 1, fun _ _ => 1,
    fun _ _ => .ok none, fun _ _ => .ok none⟩
  refine ⟨⟨fun _ => ⟨1, 2, 3, 4⟩, fun _ _ => 0⟩, ⟨⟨fun _ _ _ => 1, fun _ _ => 0, fun _ _ _ => 1, fun _ _ => 1⟩,
    [k true, k false], sumNonSt [k true, k false], ⟨0, 0, 0⟩, fun _ _ => 1 / 2, []⟩, rfl, rfl, ?_, ?_, 0, 0, ?_⟩
  · exact ⟨fun _ _ _ => one_pos, fun _ _ => zero_le_one⟩
  · intro i l; norm_num
  · simp [Spec.stMean, StCol.eff, k]
    norm_num

end Pytwoway.Dynamic
