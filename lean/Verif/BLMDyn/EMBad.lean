import Verif.BLMDyn.EMProps

/-! # M-steps of the dynamic model that lower the likelihood (C77), and the ignored threshold (C78) -/

namespace Pytwoway.Dynamic

open Finset ProbabilityTheory Pytwoway.Sim.Dyn Pytwoway.BLM

variable {ni nl nk : ℕ}

theorem post_one (lp : Fin ni → Fin 1 → ℝ) (i : Fin ni) (l : Fin 1) : posterior lp i l = 1 := by
  have := posterior_sum lp i
  rw [Fin.sum_univ_one] at this
  rw [Subsingleton.elim l 0]
  exact this

theorem meanLse_one (lp : Fin ni → Fin 1 → ℝ) : meanLse lp = (∑ i, lp i 0) / ni := by
  unfold meanLse
  congr 1
  refine sum_congr rfl fun i _ => ?_
  rw [lse_eq, Fin.sum_univ_one, Real.log_exp]

theorem updatePk_one (n : ℕ) (κ : Fin ni → ℕ) (q : Fin ni → Fin 1 → ℝ) (hq : ∀ i l, q i l = 1) (dp : ℝ)
    (hdp : 1 ≤ dp) (pk : ℕ → Fin 1 → ℝ) (h : updatePk n κ q dp = .ok pk) (p : ℕ) (hp : p < n) (l : Fin 1) :
    pk p l = 1 := by
  have h1 := (C75_proportions n κ q (fun i l => by rw [hq]; exact one_pos)
    (fun i => by rw [Fin.sum_univ_one, hq]) dp hdp pk h p hp).2.1
  rw [Fin.sum_univ_one] at h1
  rw [Subsingleton.elim l 0]
  exact h1

theorem nextPk_one (upd : Bool) (n : ℕ) (κ : Fin ni → ℕ) (q : Fin ni → Fin 1 → ℝ) (hq : ∀ i l, q i l = 1) (dp : ℝ)
    (hdp : 1 ≤ dp) (old pk : ℕ → Fin 1 → ℝ) (hold : ∀ p l, old p l = 1)
    (h : nextPk upd n κ q dp old = .ok pk) (p : ℕ) (hp : p < n) (l : Fin 1) : pk p l = 1 := by
  unfold nextPk at h
  split at h
  · exact updatePk_one n κ q hq dp hdp pk h p hp l
  · simp only [Except.ok.injEq] at h
    rw [← h, hold]

theorem likOf_one (lp : Fin ni → Fin 1 → ℝ) (n : ℕ) (pk : ℕ → Fin 1 → ℝ) (hpk : ∀ p < n, ∀ l, pk p l = 1)
    (first upd : Bool) (dp : ℝ) : likOf lp n pk first upd dp = (∑ i, lp i 0) / ni := by
  rw [likOf, meanLse_one]
  have : ∑ p ∈ range n, ∑ l, Real.log (pk p l) = 0 := by
    refine sum_eq_zero fun p hp => sum_eq_zero fun l _ => ?_
    rw [hpk p (mem_range.mp hp), Real.log_one]
  rw [this]
  simp

/-- `log v + m / v` has its only minimum at `v = m`. -/
theorem dev_le (m v : ℝ) (hm : 0 < m) (hv : 0 < v) : Real.log m + 1 ≤ Real.log v + m / v := by
  have := Real.log_le_sub_one_of_pos (div_pos hm hv)
  rw [Real.log_div hm.ne' hv.ne'] at this
  linarith

theorem dev_lt (m v : ℝ) (hm : 0 < m) (hv : 0 < v) (hne : v ≠ m) : Real.log m + 1 < Real.log v + m / v := by
  have h1 : m / v ≠ 1 := by
    rw [Ne, div_eq_one_iff_eq hv.ne']
    exact Ne.symm hne
  have := Real.log_lt_sub_one_of_pos (div_pos hm hv) h1
  rw [Real.log_div hm.ne' hv.ne'] at this
  linarith

theorem stepSt_liks [NeZero nl] (d : DData ni nk) (o : StOpts) (sA sS : QP (Fin nl × JS nk)) (iter : ℕ)
    (q : Fin ni → Fin nl → ℝ) (s s' : StState nl nk) (h : stepSt d o sA sS iter q s = .ok s') :
    s'.liks = s.liks := by
  unfold stepSt at h
  cases hu : nextPk o.updPk nk (fun i => (d.G 0 i).val) q o.dprior s.pk0 with
  | error m => rw [hu] at h; cases h
  | ok pk =>
    rw [hu] at h
    simp only [bind, Except.bind] at h
    split at h
    · simp only [Except.ok.injEq] at h; rw [← h]
    · split at h <;> (simp only [Except.ok.injEq] at h; rw [← h])

theorem stepMv_liks [NeZero nl] {endo state : Bool} (d : DData ni nk) (o : MvOpts)
    (sA sS : QP (Fin nl × JM endo state nk)) (iter : ℕ) (q : Fin ni → Fin nl → ℝ) (s s' : MvState nl nk)
    (h : stepMv d o sA sS iter q s = .ok s') : s'.liks = s.liks := by
  unfold stepMv at h
  cases hu : nextPk o.updPk (nk ^ 2) (flow d) q o.dprior s.pk1 with
  | error m => rw [hu] at h; cases h
  | ok pk =>
    rw [hu] at h
    simp only [bind, Except.bind] at h
    split at h
    · simp only [Except.ok.injEq] at h; rw [← h]
    · split at h <;> (simp only [Except.ok.injEq] at h; rw [← h])

/-- The first two recorded likelihoods of stayers. -/
theorem loopSt_two [NeZero nl] (d : DData ni nk) (o : StOpts) (sA sS : QP (Fin nl × JS nk)) (s s1 s' : StState nl nk)
    (hl : s.liks = [])
    (h1 : stepSt d o sA sS 0 (posterior (lpSt d s.base s.r s.pk0)) { s with
      liks := [likOf (lpSt d s.base s.r s.pk0) nk s.pk0 true o.updPk o.dprior] } = .ok s1)
    (h : loopSt d o sA sS 2 0 none s = .ok s') :
    s'.liks = [likOf (lpSt d s.base s.r s.pk0) nk s.pk0 true o.updPk o.dprior,
      likOf (lpSt d s1.base s1.r s1.pk0) nk s1.pk0 false o.updPk o.dprior] := by
  have hl1 := stepSt_liks d o sA sS _ _ _ _ h1
  unfold loopSt at h
  simp only [close, Bool.false_eq_true, if_false, hl, List.nil_append, beq_self_eq_true] at h
  rw [h1] at h
  simp only [bind, Except.bind] at h
  unfold loopSt at h
  dsimp only at h
  split at h
  · simp only [Except.ok.injEq] at h
    rw [← h]
    simp [hl1]
  · cases h2 : stepSt d o sA sS (0 + 1) (posterior (lpSt d s1.base s1.r s1.pk0)) { s1 with
        liks := s1.liks ++ [likOf (lpSt d s1.base s1.r s1.pk0) nk s1.pk0 (0 + 1 == 0) o.updPk o.dprior] } with
    | error m => rw [h2] at h; cases h
    | ok s2 =>
      rw [h2] at h
      simp only [bind, Except.bind, loopSt, Except.ok.injEq] at h
      rw [← h, stepSt_liks d o sA sS _ _ _ _ h2]
      simp [hl1]

theorem loopMv_two [NeZero nl] {endo state : Bool} (d : DData ni nk) (o : MvOpts)
    (sA sS : QP (Fin nl × JM endo state nk)) (minType : DBase nl nk → ℕ) (pm : ℕ) (s s1 s' : MvState nl nk)
    (hl : s.liks = [])
    (h1 : stepMv d o sA sS 0 (posterior (lpMv d s.base s.r s.pk1)) { s with
      liks := [likOf (lpMv d s.base s.r s.pk1) (nk ^ 2) s.pk1 true o.updPk o.dprior] } = .ok s1)
    (h : loopMv d o sA sS minType 2 0 none pm s = .ok s') :
    s'.liks = [likOf (lpMv d s.base s.r s.pk1) (nk ^ 2) s.pk1 true o.updPk o.dprior,
      likOf (lpMv d s1.base s1.r s1.pk1) (nk ^ 2) s1.pk1 false o.updPk o.dprior] := by
  have hl1 := stepMv_liks d o sA sS _ _ _ _ h1
  unfold loopMv at h
  simp only [close, Bool.false_and, Bool.false_eq_true, if_false, hl, List.nil_append, beq_self_eq_true] at h
  rw [h1] at h
  simp only [bind, Except.bind] at h
  unfold loopMv at h
  dsimp only at h
  split at h
  · simp only [Except.ok.injEq] at h
    rw [← h]
    simp [hl1]
  · cases h2 : stepMv d o sA sS (0 + 1) (posterior (lpMv d s1.base s1.r s1.pk1)) { s1 with
        liks := s1.liks ++ [likOf (lpMv d s1.base s1.r s1.pk1) (nk ^ 2) s1.pk1 (0 + 1 == 0) o.updPk o.dprior] } with
    | error m => rw [h2] at h; cases h
    | ok s2 =>
      rw [h2] at h
      simp only [bind, Except.bind, loopMv, Except.ok.injEq] at h
      rw [← h, stepMv_liks d o sA sS _ _ _ _ h2]
      simp [hl1]

/-! ## Stayers' standard deviations -/

/-- Four stayers of one firm type: second wage `±1`, innovation of the third `±2`. -/
def badSt : DData 4 1 where
  y := ![⟨1, 1, 3, 1⟩, ⟨1, 1, -1, 1⟩, ⟨-1, -1, 1, -1⟩, ⟨-1, -1, -3, -1⟩]
  G := fun _ _ => 0

/-- All means zero, all standard deviations one but `√3` for the third wage. -/
noncomputable def badB : DBase 1 1 where
  Aw := fun _ _ _ => 0
  Ab := fun _ _ => 0
  Sw := fun p _ _ => if p = .p3s ∨ p = .p3ma then √3 else 1
  Sb := fun _ _ => 0

def badR : Rhos := ⟨0, 0, 1⟩

theorem badB_pos : PosS badB := by
  refine ⟨fun p l g => ?_, fun _ _ => le_rfl⟩
  simp only [badB]
  split
  · exact Real.sqrt_pos.mpr (by norm_num)
  · exact one_pos

theorem sqrt4 : √(4 : ℝ) = 2 := by
  rw [show (4 : ℝ) = 2 ^ 2 by norm_num, Real.sqrt_sq (by norm_num)]

theorem bad_w (q : Fin 4 → Fin 1 → ℝ) (hq : ∀ i l, q i l = 1) (t : Fin 2) (i : Fin 4) :
    wSt badSt badB badR q 0 (t, i) = if t = 0 then 1 else 1 / 2 := by
  fin_cases t
  · simp [wSt, varSt, badB, hq]
  · have : (3 : ℝ) + 1 = 4 := by norm_num
    simp [wSt, varSt, badB, badR, hq, this, sqrt4]

noncomputable def badX (δ : ℝ) (a : Fin 1 × JS 1) : ℝ :=
  if a.2.1 = 0 then (8 - 4 * δ) / (8 + 8 * δ + δ ^ 2) else (40 + 8 * δ) / (8 + 8 * δ + δ ^ 2)

theorem bad_solve (q : Fin 4 → Fin 1 → ℝ) (hq : ∀ i l, q i l = 1) (δ lb : ℝ) (h0 : 0 ≤ δ) (h1 : δ ≤ 1 / 100)
    (hlb : lb ≤ 1 / 2) (sS : QP (Fin 1 × JS 1)) (hS : RightQP (fun x => ∀ a, lb ≤ x a) sS) :
    sS (XwX (wSt badSt badB badR q) (Xst badSt badR) δ)
      (fun a => - XwV (wSt badSt badB badR q) (Xst badSt badR) (eSt badSt badB badR) a) =
      .ok (some (badX δ)) := by
  have hD : 0 < 8 + 8 * δ + δ ^ 2 := by positivity
  have hD' : 8 + 8 * δ + δ ^ 2 ≤ 9 := by nlinarith
  refine hS.eq _ _ _ (XwX_symm _ _ _) (XwX_pd _ _ _ (wSt_pos _ _ badB_pos _ _ fun i l => by rw [hq]; exact one_pos) h0
    (fit_st_inj _ _ fun k => ⟨0, Subsingleton.elim _ _⟩)) ?_ ?_
  · rintro ⟨l, t, k⟩
    refine hlb.trans ?_
    fin_cases t
    · simp only [badX, Fin.zero_eta, if_true]
      rw [le_div_iff₀ hD]
      nlinarith
    · simp only [badX, Fin.mk_one, one_ne_zero, if_false]
      rw [le_div_iff₀ hD]
      nlinarith
  · rintro ⟨l, t, k⟩
    rw [Subsingleton.elim l 0, Subsingleton.elim k 0, XwX_mul, neg_neg, XwV]
    simp only [fit_st, Fintype.sum_prod_type, Fin.sum_univ_two, Fin.sum_univ_four, bad_w q hq]
    fin_cases t
    · simp [Xst, badX, eSt, badB, badR, badSt]
      field_simp
      ring
    · simp [Xst, badX, eSt, badB, badR, badSt]
      field_simp
      ring

theorem bad_solveA (q : Fin 4 → Fin 1 → ℝ) (hq : ∀ i l, q i l = 1) (δ : ℝ) (h0 : 0 ≤ δ)
    (sA : QP (Fin 1 × JS 1)) (hA : RightQP (fun _ => True) sA) :
    solveASt sA (XwX (wSt badSt badB badR q) (Xst badSt badR) δ)
      (XwV (wSt badSt badB badR q) (Xst badSt badR) fun _ => ySt badSt badR) badB = badB := by
  have hsol : sA (XwX (wSt badSt badB badR q) (Xst badSt badR) δ)
      (fun a => - XwV (wSt badSt badB badR q) (Xst badSt badR) (fun _ => ySt badSt badR) a) =
      .ok (some fun _ => 0) := by
    refine hA.eq _ _ _ (XwX_symm _ _ _) (XwX_pd _ _ _ (wSt_pos _ _ badB_pos _ _ fun i l => by rw [hq]; exact one_pos)
      h0 (fit_st_inj _ _ fun k => ⟨0, Subsingleton.elim _ _⟩)) trivial ?_
    rintro ⟨l, t, k⟩
    rw [Subsingleton.elim l 0, Subsingleton.elim k 0, XwX_mul, neg_neg, XwV]
    simp only [fit_st, Fintype.sum_prod_type, Fin.sum_univ_two, Fin.sum_univ_four, bad_w q hq]
    fin_cases t
    · simp [Xst, ySt, badR, badSt]; norm_num
    · simp [Xst, ySt, badR, badSt]; norm_num
  unfold solveASt
  rw [hsol]
  simp only [badB, DBase.mk.injEq, and_true]
  funext p l k
  cases p <;> simp [Function.update]

/-- The log density of the four stayers when all means are zero. -/
theorem bad_sum (b : DBase 1 1) (hA : ∀ p, b.Aw p 0 0 = 0) (h12 : b.Sw .p12 0 0 = 1) (h43 : b.Sw .p43 0 0 = 1)
    (pk : ℕ → Fin 1 → ℝ) (hpk : pk 0 0 = 1) :
    ∑ i, lpSt badSt b badR pk i 0 = 16 * Util.logpi - 4 - 4 * Real.log (b.Sw .p2s 0 0) - 2 / b.Sw .p2s 0 0 ^ 2
      - 2 * Real.log (b.Sw .p3s 0 0 ^ 2 + b.Sw .p2s 0 0 ^ 2) - 8 / (b.Sw .p3s 0 0 ^ 2 + b.Sw .p2s 0 0 ^ 2) := by
  simp [Fin.sum_univ_four, lpSt, lpStayersPlain, lnsd, lnvar, Util.lognormpdf, badSt, badR, hA, h12, h43, hpk]
  generalize b.Sw .p3s 0 0 ^ 2 + b.Sw .p2s 0 0 ^ 2 = v
  ring

/-- C77 is false for stayers with standard deviations updated: the second recorded likelihood is lower than
the first, whichever of the other updates are on, for every prior, threshold, ridge term up to 1/100 (default
`1e-10`) and lower bound up to 1/2 (default `1e-7`), with right solvers. -/
theorem C77_stayers_variances_lower (o : StOpts) (hS : o.updS = true) (hd : 1 ≤ o.dprior) (h0 : 0 ≤ o.δ)
    (h1 : o.δ ≤ 1 / 100) (lb : ℝ) (hlb : lb ≤ 1 / 2) (sA sS : QP (Fin 1 × JS 1))
    (hA : RightQP (fun _ => True) sA) (hSS : RightQP (fun x => ∀ a, lb ≤ x a) sS) :
    ∃ s', loopSt badSt o sA sS 2 0 none ⟨badB, badR, fun _ _ => 1, []⟩ = .ok s' ∧
      ∃ L0 L1, s'.liks = [L0, L1] ∧ L1 < L0 := by
  obtain ⟨s', hs'⟩ := C77_stayers_returns badSt o sA sS hd (fun _ k => ⟨0, Subsingleton.elim _ _⟩) 2 0 none
    ⟨badB, badR, fun _ _ => 1, []⟩
  refine ⟨s', hs', ?_⟩
  set q := posterior (lpSt badSt badB badR fun _ _ => 1) with hq
  have hq1 : ∀ i l, q i l = 1 := fun i l => post_one _ i l
  obtain ⟨pk, hpk⟩ := nextPk_ok o.updPk 1 (fun i => (badSt.G 0 i).val) q (posterior_sum _) o.dprior hd
    (fun _ _ => 1) (fun _ p hp => ⟨0, by simp [badSt]; omega⟩)
  have hpk1 := nextPk_one o.updPk 1 (fun i => (badSt.G 0 i).val) q hq1 o.dprior hd (fun _ _ => 1) pk
    (fun _ _ => rfl) hpk
  have hm : mstepSt badSt q badB badR o.updA true o.δ sA sS = { badB with
      Sw := Function.update (Function.update badB.Sw .p2s fun l k => √(badX o.δ (l, 0, k))) .p3s
        (fun l k => √(badX o.δ (l, 1, k))) } := by
    unfold mstepSt
    simp only [bad_solveA q hq1 o.δ h0 sA hA, ite_self, if_true, solveSSt]
    rw [bad_solve q hq1 o.δ lb h0 h1 hlb sS hSS]
  have hstep : ∀ L, stepSt badSt o sA sS 0 q ⟨badB, badR, fun _ _ => 1, L⟩ = .ok ⟨{ badB with
      Sw := Function.update (Function.update badB.Sw .p2s fun l k => √(badX o.δ (l, 0, k))) .p3s
        (fun l k => √(badX o.δ (l, 1, k))) }, badR, pk, L⟩ := by
    intro L
    unfold stepSt
    simp only [hpk, bind, Except.bind, hS, Bool.or_true, if_true, hm]
    simp
  have h2 := loopSt_two badSt o sA sS ⟨badB, badR, fun _ _ => 1, []⟩ ⟨{ badB with
      Sw := Function.update (Function.update badB.Sw .p2s fun l k => √(badX o.δ (l, 0, k))) .p3s
        (fun l k => √(badX o.δ (l, 1, k))) }, badR, pk,
      [likOf (lpSt badSt badB badR fun _ _ => 1) 1 (fun _ _ => 1) true o.updPk o.dprior]⟩ s' rfl (hstep _) hs'
  refine ⟨_, _, h2, ?_⟩
  rw [likOf_one _ _ _ (fun _ _ _ => rfl), likOf_one _ _ _ hpk1]
  have hD : 0 < 8 + 8 * o.δ + o.δ ^ 2 := by positivity
  set v2 := (8 - 4 * o.δ) / (8 + 8 * o.δ + o.δ ^ 2) with hv2
  set v3 := (40 + 8 * o.δ) / (8 + 8 * o.δ + o.δ ^ 2) with hv3
  have p2 : 0 < v2 := div_pos (by linarith) hD
  have p3 : 0 < v3 := div_pos (by linarith) hD
  have hne : v3 + v2 ≠ 4 := by
    rw [hv2, hv3, ← add_div, Ne, div_eq_iff hD.ne']
    intro h
    nlinarith
  have d2 := dev_le 1 v2 one_pos p2
  have d3 := dev_lt 4 (v3 + v2) (by norm_num) (by linarith) hne
  rw [Real.log_one] at d2
  apply div_lt_div_of_pos_right _ (by norm_num)
  rw [bad_sum badB (fun _ => rfl) (by simp [badB]) (by simp [badB]) _ rfl,
    bad_sum _ (fun _ => rfl) (by simp [badB, Function.update]) (by simp [badB, Function.update]) _ (hpk1 0 one_pos 0)]
  have a2 : badB.Sw .p2s 0 0 = 1 := by simp [badB]
  have a3 : badB.Sw .p3s 0 0 = √3 := by simp [badB]
  have b2 : (Function.update (Function.update badB.Sw .p2s fun l k => √(badX o.δ (l, 0, k))) .p3s
        (fun l k => √(badX o.δ (l, 1, k)))) .p2s 0 0 = √v2 := by simp [Function.update, badX, hv2]
  have b3 : (Function.update (Function.update badB.Sw .p2s fun l k => √(badX o.δ (l, 0, k))) .p3s
        (fun l k => √(badX o.δ (l, 1, k)))) .p3s 0 0 = √v3 := by simp [Function.update, badX, hv3]
  dsimp only
  rw [a2, a3, b2, b3, Real.sq_sqrt p2.le, Real.sq_sqrt p3.le, Real.log_sqrt p2.le,
    Real.sq_sqrt (by norm_num : (0 : ℝ) ≤ 3), Real.log_one, show (3 : ℝ) + 1 ^ 2 = 4 by norm_num]
  have e2 : 2 / v2 = 2 * (1 / v2) := by ring
  have e3 : 8 / (v3 + v2) = 2 * (4 / (v3 + v2)) := by ring
  rw [e2, e3]
  linarith

/-! ## Movers -/

theorem univ_ff : (univ : Finset {p : Per // inModel false false p = true}) =
    {⟨.p12, by decide⟩, ⟨.p43, by decide⟩, ⟨.p2ma, by decide⟩, ⟨.p3ma, by decide⟩} := by decide

theorem fit_mv (d : DData ni nk) (r : Rhos) (x : Fin nl × JM false false nk → ℝ) (l : Fin nl) (s : Fin 4 × Fin ni) :
    fit (Xmv d r) x l s = coef r s.1 .p12 * x (l, ⟨.p12, by decide⟩, d.G 0 s.2) +
      (coef r s.1 .p43 * x (l, ⟨.p43, by decide⟩, d.G 1 s.2) + (coef r s.1 .p2ma * x (l, ⟨.p2ma, by decide⟩, d.G 0 s.2) +
        coef r s.1 .p3ma * x (l, ⟨.p3ma, by decide⟩, d.G 1 s.2))) := by
  unfold fit
  rw [Fintype.sum_prod_type, univ_ff, sum_insert (by decide), sum_insert (by decide), sum_insert (by decide),
    sum_singleton]
  have h : ∀ (p : {p : Per // inModel false false p = true}),
      ∑ k, Xmv d r s (p, k) * x (l, p, k) = coef r s.1 p.1 * x (l, p, d.G (slot p.1) s.2) := by
    intro p
    rw [sum_eq_single (d.G (slot p.1) s.2)]
    · simp [Xmv]
    · intro k _ hk
      simp [Xmv, hk.symm]
    · simp
  simp only [h, slot]

theorem fit_mv_inj (d : DData ni nk) (r : Rhos) (h0 : ∀ k, ∃ i, d.G 0 i = k) (h1 : ∀ k, ∃ i, d.G 1 i = k)
    (x : Fin nl × JM false false nk → ℝ) (h : ∀ l s, fit (Xmv d r) x l s = 0) : x = 0 := by
  have a2 : ∀ l k, x (l, ⟨.p2ma, by decide⟩, k) = 0 := by
    intro l k
    obtain ⟨i, hi⟩ := h0 k
    have := h l (1, i)
    rw [fit_mv] at this
    simpa [coef, hi] using this
  have a3 : ∀ l k, x (l, ⟨.p3ma, by decide⟩, k) = 0 := by
    intro l k
    obtain ⟨i, hi⟩ := h1 k
    have := h l (2, i)
    rw [fit_mv] at this
    simpa [coef, hi, a2] using this
  have a1 : ∀ l k, x (l, ⟨.p12, by decide⟩, k) = 0 := by
    intro l k
    obtain ⟨i, hi⟩ := h0 k
    have := h l (0, i)
    rw [fit_mv] at this
    simpa [coef, hi, a2] using this
  have a4 : ∀ l k, x (l, ⟨.p43, by decide⟩, k) = 0 := by
    intro l k
    obtain ⟨i, hi⟩ := h1 k
    have := h l (3, i)
    rw [fit_mv] at this
    simpa [coef, hi, a3] using this
  funext ⟨l, ⟨p, hp⟩, k⟩
  cases p
  · exact a1 l k
  · exact a4 l k
  · exact a2 l k
  · exact a3 l k
  all_goals simp [inModel] at hp

theorem varMv_pos (d : DData ni nk) (b : DBase nl nk) (hb : PosS b) (r : Rhos) (l : Fin nl) (s : Fin 4 × Fin ni) :
    0 < varMv d b r l s := by
  obtain ⟨t, i⟩ := s
  have h1 := hb.1 .p12 l (d.G 0 i)
  have h2 := hb.1 .p2ma l (d.G 0 i)
  have h3 := hb.1 .p3ma l (d.G 1 i)
  have h4 := hb.1 .p43 l (d.G 1 i)
  fin_cases t <;> simp only [varMv] <;> positivity

theorem wMv_pos (d : DData ni nk) (b : DBase nl nk) (hb : PosS b) (r : Rhos) (q : Fin ni → Fin nl → ℝ)
    (hq : ∀ i l, 0 < q i l) (l : Fin nl) (s : Fin 4 × Fin ni) : 0 < wMv d b r q l s :=
  div_pos (hq _ _) (Real.sqrt_pos.mpr (varMv_pos d b hb r l s))

theorem bad_wMv (q : Fin 4 → Fin 1 → ℝ) (hq : ∀ i l, q i l = 1) (t : Fin 4) (i : Fin 4) :
    wMv badSt badB badR q 0 (t, i) = if t = 2 then 1 / 2 else 1 := by
  have e : (3 : ℝ) + 1 = 4 := by norm_num
  fin_cases t <;> simp [wMv, varMv, badB, badR, hq, e, sqrt4]

noncomputable def badXm (δ : ℝ) (a : Fin 1 × JM false false 1) : ℝ :=
  match a.2.1.1 with
  | .p2ma => (8 - 4 * δ) / (8 + 8 * δ + δ ^ 2)
  | .p3ma => (40 + 8 * δ) / (8 + 8 * δ + δ ^ 2)
  | _ => 4 / (4 + δ)

theorem bad_solveMv (q : Fin 4 → Fin 1 → ℝ) (hq : ∀ i l, q i l = 1) (δ lb : ℝ) (h0 : 0 ≤ δ) (h1 : δ ≤ 1 / 100)
    (hlb : lb ≤ 1 / 2) (sS : QP (Fin 1 × JM false false 1)) (hS : RightQP (fun x => ∀ a, lb ≤ x a) sS) :
    sS (XwX (wMv badSt badB badR q) (Xmv badSt badR) δ)
      (fun a => - XwV (wMv badSt badB badR q) (Xmv badSt badR) (eMv badSt badB badR) a) =
      .ok (some (badXm δ)) := by
  have hD : 0 < 8 + 8 * δ + δ ^ 2 := by positivity
  have hD' : 8 + 8 * δ + δ ^ 2 ≤ 9 := by nlinarith
  have hE : 0 < 4 + δ := by linarith
  have hall : ∀ t, ∀ k : Fin 1, ∃ i, badSt.G t i = k := fun t k => ⟨0, Subsingleton.elim _ _⟩
  refine hS.eq _ _ _ (XwX_symm _ _ _) (XwX_pd _ _ _ (wMv_pos _ _ badB_pos _ _ fun i l => by rw [hq]; exact one_pos) h0
    (fit_mv_inj _ _ (hall 0) (hall 1))) ?_ ?_
  · rintro ⟨l, ⟨p, hp⟩, k⟩
    refine hlb.trans ?_
    cases p
    · simp only [badXm]; rw [le_div_iff₀ hE]; nlinarith
    · simp only [badXm]; rw [le_div_iff₀ hE]; nlinarith
    · simp only [badXm]; rw [le_div_iff₀ hD]; nlinarith
    · simp only [badXm]; rw [le_div_iff₀ hD]; nlinarith
    all_goals simp [inModel] at hp
  · rintro ⟨l, ⟨p, hp⟩, k⟩
    rw [Subsingleton.elim l 0, Subsingleton.elim k 0, XwX_mul, neg_neg, XwV]
    simp only [fit_mv, Fintype.sum_prod_type, Fin.sum_univ_four, bad_wMv q hq]
    cases p
    · simp [Xmv, coef, badXm, eMv, badB, badR, badSt]
      field_simp
      ring
    · simp [Xmv, coef, badXm, eMv, badB, badR, badSt]
      field_simp
      ring
    · simp [Xmv, coef, badXm, eMv, badB, badR, badSt]
      field_simp
      ring
    · simp [Xmv, coef, badXm, eMv, badB, badR, badSt]
      field_simp
      ring
    all_goals simp [inModel] at hp

theorem bad_solveAMv (q : Fin 4 → Fin 1 → ℝ) (hq : ∀ i l, q i l = 1) (δ : ℝ) (h0 : 0 ≤ δ)
    (sA : QP (Fin 1 × JM false false 1)) (hA : RightQP (fun _ => True) sA) :
    solveAMv sA (XwX (wMv badSt badB badR q) (Xmv badSt badR) δ)
      (XwV (wMv badSt badB badR q) (Xmv badSt badR) fun _ => yMv badSt badR) badB = badB := by
  have hall : ∀ t, ∀ k : Fin 1, ∃ i, badSt.G t i = k := fun t k => ⟨0, Subsingleton.elim _ _⟩
  have hsol : sA (XwX (wMv badSt badB badR q) (Xmv badSt badR) δ)
      (fun a => - XwV (wMv badSt badB badR q) (Xmv badSt badR) (fun _ => yMv badSt badR) a) =
      .ok (some fun _ => 0) := by
    refine hA.eq _ _ _ (XwX_symm _ _ _) (XwX_pd _ _ _ (wMv_pos _ _ badB_pos _ _ fun i l => by rw [hq]; exact one_pos)
      h0 (fit_mv_inj _ _ (hall 0) (hall 1))) trivial ?_
    rintro ⟨l, ⟨p, hp⟩, k⟩
    rw [Subsingleton.elim l 0, Subsingleton.elim k 0, XwX_mul, neg_neg, XwV]
    simp only [fit_mv, Fintype.sum_prod_type, Fin.sum_univ_four, bad_wMv q hq]
    cases p
    · simp [Xmv, coef, yMv, badR, badSt]
    · simp [Xmv, coef, yMv, badR, badSt]
    · simp [Xmv, coef, yMv, badR, badSt]; norm_num
    · simp [Xmv, coef, yMv, badR, badSt]; norm_num
    all_goals simp [inModel] at hp
  unfold solveAMv
  rw [hsol]
  simp only [badB, DBase.mk.injEq, and_true]
  constructor
  · funext p l k
    simp [writeW]
  · funext p k
    simp [writeB]

theorem bad_sumMv (b : DBase 1 1) (hA : ∀ p, b.Aw p 0 0 = 0) (hB : ∀ p, b.Ab p 0 = 0) (hS : ∀ p, b.Sb p 0 = 0)
    (pk : ℕ → Fin 1 → ℝ) (hpk : pk 0 0 = 1) :
    ∑ i, lpMv badSt b badR pk i 0 = 16 * Util.logpi - 2 * (Real.log (b.Sw .p12 0 0 ^ 2) + 1 / b.Sw .p12 0 0 ^ 2)
      - 2 * (Real.log (b.Sw .p2ma 0 0 ^ 2) + 1 / b.Sw .p2ma 0 0 ^ 2)
      - 2 * (Real.log (b.Sw .p3ma 0 0 ^ 2 + b.Sw .p2ma 0 0 ^ 2) + 4 / (b.Sw .p3ma 0 0 ^ 2 + b.Sw .p2ma 0 0 ^ 2))
      - 2 * (Real.log (b.Sw .p43 0 0 ^ 2) + 1 / b.Sw .p43 0 0 ^ 2) := by
  simp only [Fin.sum_univ_four, lpMv, flow, lpMoversPlain, lnvar, Util.lognormpdf, badSt, badR, hA, hB, hS]
  simp [hpk, -Real.log_pow]
  generalize b.Sw .p3ma 0 0 ^ 2 + b.Sw .p2ma 0 0 ^ 2 = v
  ring

/-- C77 is false for movers with standard deviations updated, in the same sense; here without endogeneity and
state dependence. -/
theorem C77_movers_variances_lower (o : MvOpts) (hS : o.updS = true) (hd : 1 ≤ o.dprior) (h0 : 0 ≤ o.δ)
    (h1 : o.δ ≤ 1 / 100) (lb : ℝ) (hlb : lb ≤ 1 / 2) (sA sS : QP (Fin 1 × JM false false 1))
    (hA : RightQP (fun _ => True) sA) (hSS : RightQP (fun x => ∀ a, lb ≤ x a) sS) (minType : DBase 1 1 → ℕ)
    (pm : ℕ) :
    ∃ s', loopMv badSt o sA sS minType 2 0 none pm ⟨badB, badR, fun _ _ => 1, []⟩ = .ok s' ∧
      ∃ L0 L1, s'.liks = [L0, L1] ∧ L1 < L0 := by
  obtain ⟨s', hs'⟩ := C77_movers_returns badSt o sA sS minType hd
    (fun _ k k' => ⟨0, Subsingleton.elim _ _, Subsingleton.elim _ _⟩) 2 0 none pm
    ⟨badB, badR, fun _ _ => 1, []⟩
  refine ⟨s', hs', ?_⟩
  set q := posterior (lpMv badSt badB badR fun _ _ => 1) with hq
  have hq1 : ∀ i l, q i l = 1 := fun i l => post_one _ i l
  obtain ⟨pk, hpk⟩ := nextPk_ok o.updPk (1 ^ 2) (flow badSt) q (posterior_sum _) o.dprior hd
    (fun _ _ => 1) (fun _ p hp => ⟨0, by simp [badSt, flow]; omega⟩)
  have hpk1 := nextPk_one o.updPk (1 ^ 2) (flow badSt) q hq1 o.dprior hd (fun _ _ => 1) pk
    (fun _ _ => rfl) hpk
  have hm : mstepMv badSt q badB badR o.updA true o.δ sA sS = { badB with
      Sw := writeW (fun a => √(badXm o.δ a)) badB.Sw, Sb := writeB (fun a => √(badXm o.δ a)) badB.Sb } := by
    unfold mstepMv
    simp only [bad_solveAMv q hq1 o.δ h0 sA hA, ite_self, if_true, solveSMv]
    rw [bad_solveMv q hq1 o.δ lb h0 h1 hlb sS hSS]
  have hstep : ∀ L, stepMv badSt o sA sS 0 q ⟨badB, badR, fun _ _ => 1, L⟩ = .ok ⟨{ badB with
      Sw := writeW (fun a => √(badXm o.δ a)) badB.Sw, Sb := writeB (fun a => √(badXm o.δ a)) badB.Sb },
      badR, pk, L⟩ := by
    intro L
    unfold stepMv
    simp only [hpk, bind, Except.bind, hS, Bool.or_true, if_true, hm]
    simp
  have h2 := loopMv_two badSt o sA sS minType pm ⟨badB, badR, fun _ _ => 1, []⟩ ⟨{ badB with
      Sw := writeW (fun a => √(badXm o.δ a)) badB.Sw, Sb := writeB (fun a => √(badXm o.δ a)) badB.Sb }, badR, pk,
      [likOf (lpMv badSt badB badR fun _ _ => 1) (1 ^ 2) (fun _ _ => 1) true o.updPk o.dprior]⟩ s' rfl (hstep _) hs'
  refine ⟨_, _, h2, ?_⟩
  rw [likOf_one _ _ _ (fun _ _ _ => rfl), likOf_one _ _ _ hpk1]
  have hD : 0 < 8 + 8 * o.δ + o.δ ^ 2 := by positivity
  set v2 := (8 - 4 * o.δ) / (8 + 8 * o.δ + o.δ ^ 2) with hv2
  set v3 := (40 + 8 * o.δ) / (8 + 8 * o.δ + o.δ ^ 2) with hv3
  set v1 := 4 / (4 + o.δ) with hv1
  have p1 : 0 < v1 := by positivity
  have p2 : 0 < v2 := div_pos (by linarith) hD
  have p3 : 0 < v3 := div_pos (by linarith) hD
  have hne : v3 + v2 ≠ 4 := by
    rw [hv2, hv3, ← add_div, Ne, div_eq_iff hD.ne']
    intro h
    nlinarith
  have d1 := dev_le 1 v1 one_pos p1
  have d2 := dev_le 1 v2 one_pos p2
  have d3 := dev_lt 4 (v3 + v2) (by norm_num) (by linarith) hne
  rw [Real.log_one] at d1 d2
  apply div_lt_div_of_pos_right _ (by norm_num)
  rw [bad_sumMv badB (fun _ => rfl) (fun _ => rfl) (fun _ => rfl) _ rfl,
    bad_sumMv _ (fun _ => rfl) (fun _ => rfl) (by intro p; cases p <;> rfl) _ (hpk1 0 (by norm_num) 0)]
  have a1 : badB.Sw .p12 0 0 = 1 := by simp [badB]
  have a2 : badB.Sw .p2ma 0 0 = 1 := by simp [badB]
  have a3 : badB.Sw .p3ma 0 0 = √3 := by simp [badB]
  have a4 : badB.Sw .p43 0 0 = 1 := by simp [badB]
  have b1 : writeW (fun a => √(badXm o.δ a)) badB.Sw .p12 0 0 = √v1 := rfl
  have b2 : writeW (fun a => √(badXm o.δ a)) badB.Sw .p2ma 0 0 = √v2 := rfl
  have b3 : writeW (fun a => √(badXm o.δ a)) badB.Sw .p3ma 0 0 = √v3 := rfl
  have b4 : writeW (fun a => √(badXm o.δ a)) badB.Sw .p43 0 0 = √v1 := rfl
  dsimp only
  rw [a1, a2, a3, a4, b1, b2, b3, b4, Real.sq_sqrt p1.le, Real.sq_sqrt p2.le, Real.sq_sqrt p3.le,
    Real.sq_sqrt (by norm_num : (0 : ℝ) ≤ 3), one_pow, Real.log_one, show (3 : ℝ) + 1 = 4 by norm_num]
  linarith

/-! ### Means: rows are weighted by the inverse standard deviation -/

/-- Three movers between two firm types: from 0 to 0, from 1 to 0 and from 1 to 1. -/
def badMv : DData 3 2 where
  y := fun i => if i = 0 then ⟨0, 0, 11, 0⟩ else ⟨0, 0, 0, 0⟩
  G := fun t i => if i = 0 then 0 else if t = 1 ∧ i = 1 then 0 else 1

noncomputable def badMB : DBase 1 2 where
  Aw := fun p _ k => match p with
    | .p2ma => if k = 0 then -1 else 1 / 2
    | .p3ma => if k = 0 then 5 else 1 / 2
    | _ => 0
  Ab := fun _ _ => 0
  Sw := fun p _ _ => match p with
    | .p3ma => √3
    | _ => 1
  Sb := fun _ _ => 0

theorem badMB_pos : PosS badMB := by
  refine ⟨?_, ?_⟩
  · intro p l k
    cases p <;> simp [badMB]
  · intro p k
    simp [badMB]

/-- The means the update settles on. -/
def badXA (a : Fin 1 × JM false false 2) : ℝ :=
  match a.2.1.1 with
  | .p2ma => if a.2.2 = 0 then -2 else 1
  | .p3ma => if a.2.2 = 0 then 5 else 1
  | _ => 0

theorem badMv_wMv (q : Fin 3 → Fin 1 → ℝ) (hq : ∀ i l, q i l = 1) (t : Fin 4) (i : Fin 3) :
    wMv badMv badMB badR q 0 (t, i) = if t = 2 then 1 / 2 else 1 := by
  have e : (3 : ℝ) + 1 = 4 := by norm_num
  fin_cases t <;> simp [wMv, varMv, badMB, badR, hq, e, sqrt4]

theorem badMv_solve (q : Fin 3 → Fin 1 → ℝ) (hq : ∀ i l, q i l = 1)
    (sA : QP (Fin 1 × JM false false 2)) (hA : RightQP (fun _ => True) sA) :
    sA (XwX (wMv badMv badMB badR q) (Xmv badMv badR) 0)
      (fun a => - XwV (wMv badMv badMB badR q) (Xmv badMv badR) (fun _ => yMv badMv badR) a) =
      .ok (some badXA) := by
  have hall : ∀ t, ∀ k : Fin 2, ∃ i, badMv.G t i = k := by
    intro t k
    fin_cases t <;> fin_cases k
    · exact ⟨0, rfl⟩
    · exact ⟨2, rfl⟩
    · exact ⟨0, rfl⟩
    · exact ⟨2, rfl⟩
  refine hA.eq _ _ _ (XwX_symm _ _ _) (XwX_pd _ _ _ (wMv_pos _ _ badMB_pos _ _ fun i l => by rw [hq]; exact one_pos)
    le_rfl (fit_mv_inj _ _ (hall 0) (hall 1))) trivial ?_
  rintro ⟨l, ⟨p, hp⟩, k⟩
  rw [Subsingleton.elim l 0, XwX_mul, neg_neg, XwV]
  simp only [fit_mv, Fintype.sum_prod_type, Fin.sum_univ_four, Fin.sum_univ_three, badMv_wMv q hq]
  cases p
  · fin_cases k <;> simp [Xmv, coef, badXA, yMv, badR, badMv] <;> norm_num
  · fin_cases k <;> simp [Xmv, coef, badXA, yMv, badR, badMv] <;> norm_num
  · fin_cases k <;> simp [Xmv, coef, badXA, yMv, badR, badMv, slot] <;> norm_num
  · fin_cases k <;> simp [Xmv, coef, badXA, yMv, badR, badMv, slot] <;> norm_num
  all_goals simp [inModel] at hp

/-- C77 is false for movers when the means are updated: rows are weighted by the inverse of their standard deviation,
not of their variance, so the update is not a maximiser.  No prior, no ridge term, proportions and standard
deviations kept. -/
theorem C77_movers_means_lower (o : MvOpts) (hA : o.updA = true) (hS : o.updS = false) (hp : o.updPk = false)
    (hd : o.dprior = 1) (h0 : o.δ = 0) (sA sS : QP (Fin 1 × JM false false 2))
    (hsA : RightQP (fun _ => True) sA) (minType : DBase 1 2 → ℕ) (pm : ℕ) :
    ∃ s', loopMv badMv o sA sS minType 2 0 none pm ⟨badMB, badR, fun _ _ => 1, []⟩ = .ok s' ∧
      ∃ L0 L1, s'.liks = [L0, L1] ∧ L1 < L0 := by
  obtain ⟨s', hs'⟩ := C77_movers_returns badMv o sA sS minType hd.ge (by simp [hp]) 2 0 none pm
    ⟨badMB, badR, fun _ _ => 1, []⟩
  refine ⟨s', hs', ?_⟩
  set q := posterior (lpMv badMv badMB badR fun _ _ => 1) with hq
  have hq1 : ∀ i l, q i l = 1 := fun i l => post_one _ i l
  have hm : mstepMv badMv q badMB badR true false 0 sA sS = { badMB with
      Aw := writeW badXA badMB.Aw, Ab := writeB badXA badMB.Ab } := by
    unfold mstepMv
    simp only [if_true, Bool.false_eq_true, if_false, solveAMv]
    rw [badMv_solve q hq1 sA hsA]
  have hstep : ∀ L, stepMv badMv o sA sS 0 q ⟨badMB, badR, fun _ _ => 1, L⟩ = .ok ⟨{ badMB with
      Aw := writeW badXA badMB.Aw, Ab := writeB badXA badMB.Ab }, badR, fun _ _ => 1, L⟩ := by
    intro L
    unfold stepMv
    simp only [hp, hA, hS, h0, nextPk, Bool.false_eq_true, if_false, bind, Except.bind, Bool.or_false, if_true, hm]
    simp
  have h2 := loopMv_two badMv o sA sS minType pm ⟨badMB, badR, fun _ _ => 1, []⟩ ⟨{ badMB with
      Aw := writeW badXA badMB.Aw, Ab := writeB badXA badMB.Ab }, badR, fun _ _ => 1,
      [likOf (lpMv badMv badMB badR fun _ _ => 1) (2 ^ 2) (fun _ _ => 1) true o.updPk o.dprior]⟩ s' rfl (hstep _) hs'
  refine ⟨_, _, h2, ?_⟩
  rw [likOf_one _ _ _ (fun _ _ _ => rfl), likOf_one _ _ _ (fun _ _ _ => rfl)]
  apply div_lt_div_of_pos_right _ (by norm_num)
  have e3 : (√3 : ℝ) ^ 2 = 3 := Real.sq_sqrt (by norm_num)
  have a2 : ∀ k, writeW badXA badMB.Aw .p2ma 0 k = if k = 0 then -2 else 1 := fun k => rfl
  have a3 : ∀ k, writeW badXA badMB.Aw .p3ma 0 k = if k = 0 then 5 else 1 := fun k => rfl
  have a1 : ∀ k, writeW badXA badMB.Aw .p12 0 k = 0 := fun k => rfl
  have a4 : ∀ k, writeW badXA badMB.Aw .p43 0 k = 0 := fun k => rfl
  have ab : ∀ p k, writeB badXA badMB.Ab p k = 0 := by
    intro p k
    cases p <;> rfl
  simp only [Fin.sum_univ_three, lpMv, flow, lpMoversPlain, lnvar, Util.lognormpdf, a1, a2, a3, a4, ab]
  simp [badMv, badMB, badR, -Real.log_pow, e3]
  norm_num
  linarith

/-! ## When the loops stop (C78) -/

theorem loopSt_stop [NeZero nl] (d : DData ni nk) (o : StOpts) (sA sS : QP (Fin nl × JS nk)) :
    ∀ (fuel iter : ℕ) (prev : Option ℝ) (s s' : StState nl nk), loopSt d o sA sS fuel iter prev s = .ok s' →
      ∃ new : List ℝ, s'.liks = s.liks ++ new ∧ new.length ≤ fuel ∧
        (new.length < fuel → ∃ l0 a b, prev.toList ++ new = l0 ++ [a, b] ∧ |b - a| < o.thresholdMovers) ∧
        (∀ l0 a b l1, prev.toList ++ new = l0 ++ a :: b :: l1 → l1 ≠ [] → o.thresholdMovers ≤ |b - a|) := by
  intro fuel
  induction fuel with
  | zero =>
    intro iter prev s s' h
    simp only [loopSt, Except.ok.injEq] at h
    refine ⟨[], by simp [h], le_rfl, by simp, ?_⟩
    intro l0 a b l1 he _
    have := congrArg List.length he
    cases prev <;> simp at this <;> omega
  | succ fuel ih =>
    intro iter prev s s' h
    unfold loopSt at h
    dsimp only at h
    set lik := likOf (lpSt d s.base s.r s.pk0) nk s.pk0 (iter == 0) o.updPk o.dprior with hlik
    split at h
    · rename_i hstop
      simp only [Except.ok.injEq] at h
      refine ⟨[lik], by rw [← h], by simp, ?_, ?_⟩
      · intro _
        cases prev with
        | none => simp [close] at hstop
        | some p => exact ⟨[], p, lik, rfl, by simpa [close] using hstop⟩
      · intro l0 a b l1 he hl1
        have := congrArg List.length he
        have h1 : 0 < l1.length := List.length_pos_iff.mpr hl1
        cases prev <;> simp at this <;> omega
    · rename_i hstop
      cases hst : stepSt d o sA sS iter (posterior (lpSt d s.base s.r s.pk0)) { s with liks := s.liks ++ [lik] } with
      | error m => rw [hst] at h; cases h
      | ok s2 =>
        rw [hst] at h
        simp only [bind, Except.bind] at h
        obtain ⟨new, e1, e2, e3, e4⟩ := ih _ _ _ _ h
        have hl2 := stepSt_liks d o sA sS _ _ _ _ hst
        refine ⟨lik :: new, by rw [e1, hl2]; simp, by simpa using e2, ?_, ?_⟩
        · intro hlt
          obtain ⟨l0, a, b, he, hab⟩ := e3 (by simpa using hlt)
          refine ⟨prev.toList ++ l0, a, b, ?_, hab⟩
          rw [List.append_assoc, ← he]
          rfl
        · intro l0 a b l1 he hl1
          cases prev with
          | none => exact e4 l0 a b l1 (by simpa using he) hl1
          | some p =>
            cases l0 with
            | nil =>
              simp only [Option.toList_some, List.cons_append, List.nil_append, List.cons.injEq] at he
              obtain ⟨rfl, rfl, -⟩ := he
              simpa [close] using hstop
            | cons z l0 =>
              simp only [Option.toList_some, List.cons_append, List.nil_append, List.cons.injEq] at he
              exact e4 l0 a b l1 (by simpa using he.2) hl1

/-- C78 (partial), stayers: the loop ends after the first likelihood within `threshold_movers` of the previous one,
or after the given number of iterations.  Missing: the documented threshold is `threshold_stayers`, and it has no
effect (`C78_threshold_ignored`). -/
theorem C78_stayers_partial [NeZero nl] (d : DData ni nk) (o : StOpts) (sA sS : QP (Fin nl × JS nk)) (nIters : ℕ)
    (b : DBase nl nk) (r : Rhos) (pk0 : ℕ → Fin nl → ℝ) (s' : StState nl nk)
    (h : loopSt d o sA sS nIters 0 none ⟨b, r, pk0, []⟩ = .ok s') :
    s'.liks.length ≤ nIters ∧
    (s'.liks.length < nIters → ∃ l0 x y, s'.liks = l0 ++ [x, y] ∧ |y - x| < o.thresholdMovers) ∧
    (∀ l0 x y l1, s'.liks = l0 ++ x :: y :: l1 → l1 ≠ [] → o.thresholdMovers ≤ |y - x|) := by
  obtain ⟨new, e1, e2, e3, e4⟩ := loopSt_stop d o sA sS nIters 0 none _ _ h
  simp only [List.nil_append] at e1
  rw [e1]
  exact ⟨e2, e3, e4⟩

/-- The threshold for stayers has no effect, whatever the data, the parameters and the other settings. -/
theorem C78_threshold_ignored [NeZero nl] (d : DData ni nk) (o : StOpts) (thr : ℝ) (sA sS : QP (Fin nl × JS nk)) :
    ∀ (nIters iter : ℕ) (prev : Option ℝ) (s : StState nl nk),
      loopSt d { o with thresholdStayers := thr } sA sS nIters iter prev s = loopSt d o sA sS nIters iter prev s := by
  intro n
  induction n with
  | zero => intro iter prev s; rfl
  | succ n ih =>
    intro iter prev s
    unfold loopSt
    simp only [ih]
    rfl

/-- Settings that keep every parameter, with a zero threshold for movers. -/
def keepAll (dp thr δ : ℝ) : StOpts where
  updA := false
  updS := false
  updRho := false
  updPk := false
  dprior := dp
  thresholdMovers := 0
  thresholdStayers := thr
  δ := δ

/-- C78 is false for stayers: with a zero threshold for movers, the loop goes on although consecutive likelihoods
are equal, hence within any positive threshold for stayers. -/
theorem C78_stayers_wrong [NeZero nl] (d : DData ni nk) (b : DBase nl nk) (r : Rhos) (pk0 : ℕ → Fin nl → ℝ)
    (thr δ dp : ℝ) (hthr : 0 < thr) (sA sS : QP (Fin nl × JS nk)) (n : ℕ) :
    ∃ s' L, loopSt d (keepAll dp thr δ) sA sS n 0 none ⟨b, r, pk0, []⟩ = .ok s' ∧
      s'.liks = List.replicate n L ∧ |L - L| < thr := by
  have key : ∀ (n iter : ℕ) (prev : Option ℝ) (L : List ℝ), ∃ s', loopSt d (keepAll dp thr δ) sA sS n iter prev ⟨b, r, pk0, L⟩ = .ok s' ∧
      s'.liks = L ++ List.replicate n (meanLse (lpSt d b r pk0)) := by
    intro n
    induction n with
    | zero => intro iter prev L; exact ⟨_, rfl, by simp⟩
    | succ n ih =>
      intro iter prev L
      unfold loopSt
      have hc : close (meanLse (lpSt d b r pk0)) prev 0 = false := by
        unfold close
        cases prev with
        | none => rfl
        | some p => simp
      have hlik : likOf (lpSt d b r pk0) nk pk0 (iter == 0) false dp = meanLse (lpSt d b r pk0) := by
        simp [likOf]
      simp only [keepAll, hlik, hc, Bool.false_eq_true, if_false, stepSt, nextPk, bind, Except.bind, Bool.or_false,
        Bool.false_and]
      obtain ⟨s', h1, h2⟩ := ih (iter + 1) (some (meanLse (lpSt d b r pk0))) (L ++ [meanLse (lpSt d b r pk0)])
      exact ⟨s', h1, by rw [h2, List.replicate_succ]; simp⟩
  obtain ⟨s', h1, h2⟩ := key n 0 none []
  exact ⟨s', _, h1, by simpa using h2, by simpa using hthr⟩

theorem loopMv_stop [NeZero nl] {endo state : Bool} (d : DData ni nk) (o : MvOpts)
    (sA sS : QP (Fin nl × JM endo state nk)) (minType : DBase nl nk → ℕ) (hm : ∀ b b', minType b = minType b') :
    ∀ (fuel iter : ℕ) (prev : Option ℝ) (pm : ℕ) (s s' : MvState nl nk),
      (∀ b, prev.isSome → minType b = pm) → loopMv d o sA sS minType fuel iter prev pm s = .ok s' →
      ∃ new : List ℝ, s'.liks = s.liks ++ new ∧ new.length ≤ fuel ∧
        (new.length < fuel → ∃ l0 a b, prev.toList ++ new = l0 ++ [a, b] ∧ |b - a| < o.thresholdMovers) ∧
        (∀ l0 a b l1, prev.toList ++ new = l0 ++ a :: b :: l1 → l1 ≠ [] → o.thresholdMovers ≤ |b - a|) := by
  intro fuel
  induction fuel with
  | zero =>
    intro iter prev pm s s' _ h
    simp only [loopMv, Except.ok.injEq] at h
    refine ⟨[], by simp [h], le_rfl, by simp, ?_⟩
    intro l0 a b l1 he _
    have := congrArg List.length he
    cases prev <;> simp at this <;> omega
  | succ fuel ih =>
    intro iter prev pm s s' hpm h
    unfold loopMv at h
    dsimp only at h
    set lik := likOf (lpMv d s.base s.r s.pk1) (nk ^ 2) s.pk1 (iter == 0) o.updPk o.dprior with hlik
    split at h
    · rename_i hstop
      simp only [Except.ok.injEq] at h
      refine ⟨[lik], by rw [← h], by simp, ?_, ?_⟩
      · intro _
        cases prev with
        | none => simp [close] at hstop
        | some p =>
          simp only [close, Bool.and_eq_true, decide_eq_true_eq] at hstop
          exact ⟨[], p, lik, rfl, hstop.1⟩
      · intro l0 a b l1 he hl1
        have := congrArg List.length he
        have h1 : 0 < l1.length := List.length_pos_iff.mpr hl1
        cases prev <;> simp at this <;> omega
    · rename_i hstop
      cases hst : stepMv d o sA sS iter (posterior (lpMv d s.base s.r s.pk1)) { s with liks := s.liks ++ [lik] } with
      | error m => rw [hst] at h; cases h
      | ok s2 =>
        rw [hst] at h
        simp only [bind, Except.bind] at h
        obtain ⟨new, e1, e2, e3, e4⟩ := ih _ _ _ _ _ (fun b _ => hm b _) h
        have hl2 := stepMv_liks d o sA sS _ _ _ _ hst
        refine ⟨lik :: new, by rw [e1, hl2]; simp, by simpa using e2, ?_, ?_⟩
        · intro hlt
          obtain ⟨l0, a, b, he, hab⟩ := e3 (by simpa using hlt)
          refine ⟨prev.toList ++ l0, a, b, ?_, hab⟩
          rw [List.append_assoc, ← he]
          rfl
        · intro l0 a b l1 he hl1
          cases prev with
          | none => exact e4 l0 a b l1 (by simpa using he) hl1
          | some p =>
            cases l0 with
            | nil =>
              simp only [Option.toList_some, List.cons_append, List.nil_append, List.cons.injEq] at he
              obtain ⟨rfl, rfl, -⟩ := he
              simpa [close, hpm s.base rfl] using hstop
            | cons z l0 =>
              simp only [Option.toList_some, List.cons_append, List.nil_append, List.cons.injEq] at he
              exact e4 l0 a b l1 (by simpa using he.2) hl1

/-- C78, movers: with the smallest firm type forced, the loop ends after the first likelihood within
`threshold_movers` of the previous one, or after the given number of iterations. -/
theorem C78_movers_stop [NeZero nl] {endo state : Bool} (d : DData ni nk) (o : MvOpts)
    (sA sS : QP (Fin nl × JM endo state nk)) (m pm nIters : ℕ) (b : DBase nl nk) (r : Rhos) (pk1 : ℕ → Fin nl → ℝ)
    (s' : MvState nl nk) (h : loopMv d o sA sS (fun _ => m) nIters 0 none pm ⟨b, r, pk1, []⟩ = .ok s') :
    s'.liks.length ≤ nIters ∧
    (s'.liks.length < nIters → ∃ l0 x y, s'.liks = l0 ++ [x, y] ∧ |y - x| < o.thresholdMovers) ∧
    (∀ l0 x y l1, s'.liks = l0 ++ x :: y :: l1 → l1 ≠ [] → o.thresholdMovers ≤ |y - x|) := by
  obtain ⟨new, e1, e2, e3, e4⟩ := loopMv_stop d o sA sS (fun _ => m) (fun _ _ => rfl) nIters 0 none pm _ _
    (by simp) h
  simp only [List.nil_append] at e1
  rw [e1]
  exact ⟨e2, e3, e4⟩

end Pytwoway.Dynamic
