import Verif.BLMDyn.ControlsStay

/-! # Controls in the dynamic model: what the E-step, the persistence updates and the main effects of stayers use (C95)

`pytwoway/blm_dynamic.py`: 2028-2090, 2164-2242, 3164-3320. -/

namespace Pytwoway.Dynamic

open Finset ProbabilityTheory Pytwoway.Sim.Dyn Pytwoway.BLM

variable {ni nl nk : ℕ}

/-! ## Specification -/

/-- Effect of one control on a row in a period: by worker type if the control interacts with worker types and the
period is not one of the two (`'2mb'`, `'3mb'`) that never depend on them. -/
def Spec.colEffect (k : CatCol nl ni) (l : Fin nl) (i : Fin ni) (p : Per) : ℝ :=
  match k.wi, p with
  | false, p => k.An p (k.c (slot p) i)
  | true, .p2mb => k.An .p2mb (k.c 1 i)
  | true, .p3mb => k.An .p3mb (k.c 0 i)
  | true, p => k.Aw p l (k.c (slot p) i)

/-- Its standard deviation. -/
def Spec.colSd (k : CatCol nl ni) (l : Fin nl) (i : Fin ni) (p : Per) : ℝ :=
  match k.wi, p with
  | false, p => k.Sn p (k.c (slot p) i)
  | true, .p2mb => k.Sn .p2mb (k.c 1 i)
  | true, .p3mb => k.Sn .p3mb (k.c 0 i)
  | true, p => k.Sw p l (k.c (slot p) i)

/-- Total effects with any controls: main effect plus one effect of every control. -/
def Spec.totalEffect (d : DData ni nk) (b : DBase nl nk) (ks : List (CatCol nl ni)) (l : Fin nl) (i : Fin ni)
    (p : Per) : ℝ :=
  (if p.isB then b.Ab p (d.G (slot p) i) else b.Aw p l (d.G (slot p) i)) +
    (ks.map fun k => Spec.colEffect k l i p).sum

/-- Total variances. -/
def Spec.totalVar (d : DData ni nk) (b : DBase nl nk) (ks : List (CatCol nl ni)) (l : Fin nl) (i : Fin ni)
    (p : Per) : ℝ :=
  (if p.isB then b.Sb p (d.G (slot p) i) else b.Sw p l (d.G (slot p) i)) ^ 2 +
    (ks.map fun k => Spec.colSd k l i p ^ 2).sum

/-- Effects on a stayer's two wages: main effect plus one effect of every control. -/
def Spec.stayEffect (d : DData ni nk) (b : DBase nl nk) (ks : List (StCol nl ni)) (l : Fin nl) (i : Fin ni) :
    Fin 2 → ℝ
  | 0 => b.Aw .p2s l (d.G 0 i) + (ks.map fun k => if k.wi then k.Aw 0 l (k.c 0 i) else k.An 0 (k.c 0 i)).sum
  | 1 => b.Aw .p3s l (d.G 0 i) + (ks.map fun k => if k.wi then k.Aw 1 l (k.c 1 i) else k.An 1 (k.c 1 i)).sum

/-- Squared residuals of the stayers' second and third wages, each with the weight of the main regression: posterior
over the standard deviation that comes from the main parameters. -/
noncomputable def Spec.stayLoss (d : DData ni nk) (q : Fin ni → Fin nl → ℝ) (r : Rhos) (b : DBase nl nk)
    (e : Fin nl → Fin ni → Fin 2 → ℝ) : ℝ :=
  ∑ l, ∑ i, (q i l / √(b.Sw .p2s l (d.G 0 i) ^ 2) * ((d.y i).y2 - e l i 0) ^ 2 +
    q i l / √(b.Sw .p3s l (d.G 0 i) ^ 2 + (r.R32 * b.Sw .p2s l (d.G 0 i)) ^ 2) *
      ((d.y i).y3 - (e l i 1 + r.R32 * ((d.y i).y2 - e l i 0))) ^ 2)

/-- Main effects of stayers as the solver sees them. -/
def Spec.parS (b : DBase nl nk) (a : Fin nl × JS nk) : ℝ :=
  match a.2.1 with
  | 0 => b.Aw .p2s a.1 a.2.2
  | 1 => b.Aw .p3s a.1 a.2.2

/-! ## Lemmas -/

theorem colEffect_eq (k : CatCol nl ni) (l : Fin nl) (i : Fin ni) (p : Per) :
    Spec.colEffect k l i p = k.nonA p i + k.byA l p i := by
  unfold Spec.colEffect CatCol.nonA CatCol.byA
  cases k.wi <;> cases p <;> simp [Per.isB, slot]

theorem colSd_eq (k : CatCol nl ni) (l : Fin nl) (i : Fin ni) (p : Per) :
    Spec.colSd k l i p ^ 2 = k.nonS p i + k.byS l p i := by
  unfold Spec.colSd CatCol.nonS CatCol.byS
  cases k.wi <;> cases p <;> simp [Per.isB, slot]

theorem map_add_sum {α : Type} (xs : List α) (f g : α → ℝ) :
    (xs.map fun x => f x + g x).sum = (xs.map f).sum + (xs.map g).sum := by
  induction xs with
  | nil => simp
  | cons x xs ih => simp only [List.map_cons, List.sum_cons, ih]; ring

theorem totalEffect_eq (d : DData ni nk) (b : DBase nl nk) (ks : List (CatCol nl ni)) (l : Fin nl) (i : Fin ni) :
    Spec.totalEffect d b ks l i = fun p => b.a l (fun t => d.G t i) p + sumNonA ks p i + sumByA ks l p i := by
  funext p
  unfold Spec.totalEffect sumNonA sumByA DBase.a
  simp only [colEffect_eq, map_add_sum]
  ring

theorem totalVar_eq (d : DData ni nk) (b : DBase nl nk) (ks : List (CatCol nl ni)) (l : Fin nl) (i : Fin ni) :
    Spec.totalVar d b ks l i = fun p => b.s2 l (fun t => d.G t i) p + sumNonS ks p i + sumByS ks l p i := by
  funext p
  unfold Spec.totalVar sumNonS sumByS DBase.s2
  simp only [colSd_eq, map_add_sum, ite_pow]
  ring

theorem lpMoversCtrl_eq (b : DBase nl nk) (r : Rhos) (l : Fin nl) (G : Fin 2 → Fin nk) (s : Sums) (y : Wages) :
    lpMoversCtrl b r l G s y =
      lpM (fun p => b.a l G p + s.An p + s.Al p) (fun p => b.s2 l G p + s.Sn p + s.Sl p) r y := by
  simp only [lpMoversCtrl, lpM, DBase.a, DBase.s2, slot, Per.isB, Bool.false_eq_true, if_false, if_true]
  congr 1
  · congr 1
    · congr 1
      · congr 1 <;> ring
      · congr 1 <;> ring
    · congr 1 <;> ring
  · congr 1; ring

/-! ## The E-step -/

/-- C95: with any controls the joint probability of worker type and wages in the E-step is the type's probability times
the density of the four wages at the total effects and variances, in which every control counts exactly once.  The
running sum `asum` is what the loop keeps (`C95_loop_fresh`, `C95_running_sum`). -/
theorem C95_estep (d : DData ni nk) (s : CState nl nk ni) (hsum : s.asum = sumNonA s.cols) (i : Fin ni) (l : Fin nl)
    (hpk : 0 < s.pk1 (flow d i) l) (hpos : ∀ t, 0 < Spec.moverVar s.r (Spec.totalVar d s.base s.cols l i) t) :
    Real.exp (lpMvC d s i l) = s.pk1 (flow d i) l *
      ∏ t, gaussianPDFReal (Spec.moverMean s.r (Spec.totalEffect d s.base s.cols l i) (d.y i) t)
        (Spec.moverVar s.r (Spec.totalVar d s.base s.cols l i) t).toNNReal (Spec.wageOf (d.y i) t) := by
  have e : lpMvC d s i l = Real.log (s.pk1 (flow d i) l) +
      lpM (Spec.totalEffect d s.base s.cols l i) (Spec.totalVar d s.base s.cols l i) s.r (d.y i) := by
    rw [lpMvC, lpMoversCtrl_eq, totalEffect_eq, totalVar_eq, hsum]
  rw [e, Real.exp_add, Real.exp_log hpk, exp_lpM _ _ _ _ (hpos 0) (hpos 1) (hpos 2) (hpos 3), moverDensity_factors]

/-! ## Persistence -/

theorem stepMvC_pk [NeZero nl] (d : DData ni nk) (o : MvOpts) (sA sS : QP (Fin nl × JM true true nk)) (iter : ℕ)
    (q : Fin ni → Fin nl → ℝ) (s s' : CState nl nk ni) (h : stepMvC d o sA sS iter q s = .ok s') :
    ∃ pk1, nextPk o.updPk (nk ^ 2) (flow d) q o.dprior s.pk1 = .ok pk1 ∧
      (if (o.upd12 || o.upd43 || o.upd32) && iter % 2 == 1 then
        s' = { s with pk1 := pk1, r := rhosMvC d o s q }
       else if o.updA || o.updS then
        ∃ x, mstepMvC d q s.base s.r o.updA o.updS o.δ sA sS s.cols s.asum = .ok x ∧
          s' = { s with pk1 := pk1, base := x.1, cols := x.2.1, asum := x.2.2 }
       else s' = { s with pk1 := pk1 }) := by
  unfold stepMvC at h
  rcases hp : nextPk o.updPk (nk ^ 2) (flow d) q o.dprior s.pk1 with e | pk1
  · rw [hp] at h; cases h
  rw [hp] at h
  simp only [bind, Except.bind] at h
  refine ⟨pk1, rfl, ?_⟩
  by_cases h1 : ((o.upd12 || o.upd43 || o.upd32) && iter % 2 == 1) = true
  · rw [if_pos h1] at h ⊢
    cases h; rfl
  · rw [if_neg h1] at h ⊢
    by_cases h2 : (o.updA || o.updS) = true
    · rw [if_pos h2] at h ⊢
      rcases hm : mstepMvC d q s.base s.r o.updA o.updS o.δ sA sS s.cols s.asum with e | x
      · rw [hm] at h; cases h
      · rw [hm] at h
        cases h
        exact ⟨x, rfl, rfl⟩
    · rw [if_neg h2] at h ⊢
      cases h; rfl

/-- C95: a pass changes either the persistence parameters or the wage parameters, never both.  Even passes, and all
passes if no persistence parameter is to be updated, keep the persistence parameters; odd passes keep the wage
parameters of the firm types and of all controls.  A persistence parameter that is not to be updated is kept. -/
theorem C95_alternate [NeZero nl] (d : DData ni nk) (o : MvOpts) (sA sS : QP (Fin nl × JM true true nk)) (iter : ℕ)
    (q : Fin ni → Fin nl → ℝ) (s s' : CState nl nk ni) (h : stepMvC d o sA sS iter q s = .ok s') :
    (Even iter ∨ (o.upd12 = false ∧ o.upd43 = false ∧ o.upd32 = false) → s'.r = s.r) ∧
    (Odd iter → (o.upd12 = true ∨ o.upd43 = true ∨ o.upd32 = true) →
      s'.base = s.base ∧ s'.cols = s.cols ∧ s'.asum = s.asum) ∧
    (o.upd12 = false → s'.r.R12 = s.r.R12) ∧ (o.upd43 = false → s'.r.R43 = s.r.R43) ∧
    (o.upd32 = false → s'.r.R32 = s.r.R32) ∧ s'.liks = s.liks := by
  obtain ⟨pk1, -, hs⟩ := stepMvC_pk d o sA sS iter q s s' h
  by_cases h1 : ((o.upd12 || o.upd43 || o.upd32) && iter % 2 == 1) = true
  · rw [if_pos h1] at hs
    subst hs
    simp only [Bool.and_eq_true, Bool.or_eq_true, beq_iff_eq] at h1
    refine ⟨?_, fun _ _ => ⟨rfl, rfl, rfl⟩, ?_, ?_, ?_, rfl⟩
    · rintro (he | ⟨e1, e2, e3⟩)
      · have := Nat.even_iff.mp he; omega
      · simp [e1, e2, e3] at h1
    · intro e; simp [rhosMvC, e]
    · intro e; simp [rhosMvC, e]
    · intro e; simp [rhosMvC, e]
  · rw [if_neg h1] at hs
    have hodd : Odd iter → (o.upd12 = true ∨ o.upd43 = true ∨ o.upd32 = true) → False := by
      intro ho hf
      apply h1
      have := Nat.odd_iff.mp ho
      rcases hf with e | e | e <;> simp [e, this]
    have hr : s'.r = s.r ∧ s'.liks = s.liks := by
      split at hs
      · obtain ⟨x, -, rfl⟩ := hs; exact ⟨rfl, rfl⟩
      · rw [hs]; exact ⟨rfl, rfl⟩
    exact ⟨fun _ => hr.1, fun a b => (hodd a b).elim, fun _ => by rw [hr.1], fun _ => by rw [hr.1],
      fun _ => by rw [hr.1], hr.2⟩

/-- C95: in odd passes each persistence parameter that is updated becomes the only minimiser of the posterior-weighted
squared residuals of one wage on another, residuals and variances being taken with all controls, each counted once. -/
theorem C95_persistence [NeZero nl] (d : DData ni nk) (o : MvOpts) (sA sS : QP (Fin nl × JM true true nk)) (iter : ℕ)
    (hodd : Odd iter) (q : Fin ni → Fin nl → ℝ) (hq : ∀ i l, 0 ≤ q i l) (s s' : CState nl nk ni)
    (hsum : s.asum = sumNonA s.cols) (hpos : ∀ i l p, 0 < Spec.totalVar d s.base s.cols l i p)
    (h : stepMvC d o sA sS iter q s = .ok s') :
    let e : Fin ni → Fin nl → Per → ℝ := fun i l => Spec.totalEffect d s.base s.cols l i
    let v : Fin ni → Fin nl → Per → ℝ := fun i l => Spec.totalVar d s.base s.cols l i
    (o.upd12 = true → (∃ i l, 0 < q i l ∧ (d.y i).y2 ≠ e i l .p2ma) →
      Spec.OnlyMin (Spec.wssr (fun i l => (d.y i).y2 - e i l .p2ma) (fun i l => (d.y i).y1 - e i l .p12)
        (fun i l => v i l .p12 + s.r.R12 ^ 2 * v i l .p2ma) q) s'.r.R12) ∧
    (o.upd43 = true → (∃ i l, 0 < q i l ∧ (d.y i).y3 ≠ e i l .p3ma) →
      Spec.OnlyMin (Spec.wssr (fun i l => (d.y i).y3 - e i l .p3ma) (fun i l => (d.y i).y4 - e i l .p43)
        (fun i l => v i l .p43 + s.r.R43 ^ 2 * v i l .p3ma) q) s'.r.R43) ∧
    (o.upd32 = true → (∃ i l, 0 < q i l ∧ (d.y i).y2 ≠ e i l .p2ma + e i l .p2mb) →
      Spec.OnlyMin (Spec.wssr (fun i l => (d.y i).y2 - (e i l .p2ma + e i l .p2mb))
        (fun i l => (d.y i).y3 - (e i l .p3ma + e i l .p3mb))
        (fun i l => v i l .p3ma + v i l .p3mb + s.r.R32 ^ 2 * (v i l .p2ma + v i l .p2mb)) q) s'.r.R32) := by
  intro e v
  obtain ⟨pk1, -, hs⟩ := stepMvC_pk d o sA sS iter q s s' h
  have hmod := Nat.odd_iff.mp hodd
  have he : (fun i l => totC d s.base s.asum (sumByA s.cols) l i) = e := by
    funext i l p
    simp only [e, totalEffect_eq, totC, hsum]
  have hv : (fun i l p => s.base.s2 l (fun t => d.G t i) p + sumNonS s.cols p i + sumByS s.cols l p i) = v := by
    funext i l p
    simp only [v, totalVar_eq]
  obtain ⟨m1, m2, m3, -⟩ := C55_minimises d.y e v s.r q hq (fun i l p => hpos i l p)
  have hr : (o.upd12 = true ∨ o.upd43 = true ∨ o.upd32 = true) → s'.r = rhosMvC d o s q := by
    intro hf
    have : ((o.upd12 || o.upd43 || o.upd32) && iter % 2 == 1) = true := by
      rcases hf with f | f | f <;> simp [f, hmod]
    rw [if_pos this] at hs
    rw [hs]
  refine ⟨fun f hx => ?_, fun f hx => ?_, fun f hx => ?_⟩
  · rw [hr (Or.inl f)]
    have : (rhosMvC d o s q).R12 = update12 d.y e v s.r q := by
      simp only [rhosMvC, f, if_true]; rw [he, hv]
    rw [this]; exact m1 hx
  · rw [hr (Or.inr (Or.inl f))]
    have : (rhosMvC d o s q).R43 = update43 d.y e v s.r q := by
      simp only [rhosMvC, f, if_true]; rw [he, hv]
    rw [this]; exact m2 hx
  · rw [hr (Or.inr (Or.inr f))]
    have : (rhosMvC d o s q).R32 = update32m d.y e v s.r q := by
      simp only [rhosMvC, f, if_true]; rw [he, hv]
    rw [this]; exact m3 hx

/-! ## Stayers -/

theorem stEffect_eq (k : StCol nl ni) (l : Fin nl) (t : Fin 2) (i : Fin ni) :
    k.nonA t i + k.byA l t i = if k.wi then k.Aw t l (k.c t i) else k.An t (k.c t i) := by
  unfold StCol.nonA StCol.byA
  cases k.wi <;> simp

/-- C95, stayers: whenever the update of the means succeeds, the new main effects meet the constraints and minimise the
weighted squared residuals of the stayers' second and third wages net of the effects the controls had before, each
control counted once.  Missing: the controls' own effects are not fitted (`C95_stayers_overwritten`). -/
theorem C95_stayers_base_partial [NeZero nl] (d : DData ni nk) (q : Fin ni → Fin nl → ℝ)
    (hq : ∀ i l, 0 ≤ q i l) (b : DBase nl nk) (r : Rhos) (δ : ℝ) (hδ : 0 < δ) (sA sS : QP (Fin nl × JS nk))
    (ks : List (StCol nl ni)) (feas : (Fin nl × JS nk → ℝ) → Prop) (hs : RightQP feas sA) (hne : ∃ z, feas z)
    (b' : DBase nl nk) (ks' : List (StCol nl ni)) (asum' : Fin 2 → Fin ni → ℝ)
    (h : mstepStC d q b r true false δ sA sS ks (sumNonSt ks) = .ok (b', ks', asum')) :
    feas (Spec.parS b') ∧ b'.Sw = b.Sw ∧ b'.Sb = b.Sb ∧ b'.Ab = b.Ab ∧
    (∀ p, p ≠ .p2s → p ≠ .p3s → b'.Aw p = b.Aw p) ∧
    ∀ c : DBase nl nk, feas (Spec.parS c) →
      Spec.stayLoss d q r b (fun l i => Spec.stayEffect d b' ks l i) + δ * ∑ a, Spec.parS b' a ^ 2 ≤
        Spec.stayLoss d q r b (fun l i => Spec.stayEffect d c ks l i) + δ * ∑ a, Spec.parS c a ^ 2 := by
  let w := wSt d b r q
  let Y : Fin nl → Fin 2 × Fin ni → ℝ := fun l s =>
    netSt (d.y s.2) r (fun t => sumNonSt ks t s.2 + sumBySt ks l t s.2) s.1
  obtain ⟨x, hx⟩ := hs.complete (XwX w (Xst d r) δ) (fun a => - XwV w (Xst d r) Y a)
    (XwX_pdRidge _ _ _ (wSt_nonneg d b r q hq) hδ) hne
  obtain ⟨hf, hmin⟩ := hs.sound _ _ _ hx
  have hb : b' = { b with
      Aw := Function.update (Function.update b.Aw .p2s fun l k => x (l, 0, k)) .p3s fun l k => x (l, 1, k) } := by
    unfold mstepStC at h
    simp only [bind, Except.bind] at h
    rcases ho : ordersSt nl nk ks with e | u
    · rw [ho] at h; cases h
    rw [ho] at h
    simp only at h
    split at h
    · cases h
    · simp only [Except.ok.injEq, Prod.mk.injEq, if_true, Bool.false_eq_true, if_false] at h
      rw [← h.1]
      show solveASt sA (XwX w (Xst d r) δ) (XwV w (Xst d r) Y) b = _
      unfold solveASt; rw [hx]
  have hpar : Spec.parS b' = x := by
    rw [hb]
    funext ⟨l, t, g⟩
    fin_cases t
    · simp [Spec.parS, Function.update]
    · simp [Spec.parS]
  have hsumE : ∀ (l : Fin nl) (t : Fin 2) (i : Fin ni), sumNonSt ks t i + sumBySt ks l t i =
      (ks.map fun k => if k.wi then k.Aw t l (k.c t i) else k.An t (k.c t i)).sum := by
    intro l t i
    unfold sumNonSt sumBySt
    rw [← map_add_sum]
    simp only [stEffect_eq]
  have key : ∀ c : DBase nl nk, Spec.stayLoss d q r b (fun l i => Spec.stayEffect d c ks l i) =
      ∑ l, ∑ s, w l s * (Y l s - fit (Xst d r) (Spec.parS c) l s) ^ 2 := by
    intro c
    unfold Spec.stayLoss
    refine sum_congr rfl fun l _ => ?_
    rw [Fintype.sum_prod_type, Fin.sum_univ_two, ← sum_add_distrib]
    refine sum_congr rfl fun i _ => ?_
    congr 1
    · simp only [fit_st, Y, netSt, w, wSt, varSt, hsumE, Spec.stayEffect, Spec.parS, if_true]
      congr 1
      ring
    · simp only [fit_st, Y, netSt, w, wSt, varSt, hsumE, Spec.stayEffect, Spec.parS]
      rw [if_neg (by decide)]
      congr 1
      ring
  refine ⟨by rw [hpar]; exact hf, by rw [hb], by rw [hb], by rw [hb], ?_, fun c hc => ?_⟩
  · intro p h1 h2
    rw [hb]
    simp [h1, h2]
  · rw [key, key, hpar]
    have h1 := hmin _ hc
    have h2 := qpVal_ls w (Xst d r) δ Y x
    have h3 := qpVal_ls w (Xst d r) δ Y (Spec.parS c)
    linarith

/-! ## The hypotheses can be met -/

/-- A state with one control that interacts with worker types and one that does not: all standard deviations and
probabilities are one, so total variances are three. -/
noncomputable def demoState : CState 2 3 5 where
  base := ⟨fun _ l _ => l.1, fun _ _ => 1, fun _ _ _ => 1, fun _ _ => 1⟩
  cols := [⟨3, true, fun t i => ⟨(i.1 + t.1) % 3, Nat.mod_lt _ (by norm_num)⟩, fun _ l _ => l.1, fun _ _ _ => 1,
      fun _ c => c.1, fun _ _ => 1, fun _ _ => .ok none, fun _ _ => .ok none⟩,
    ⟨3, false, fun _ i => ⟨i.1 / 2, by omega⟩, fun _ _ _ => 0, fun _ _ _ => 1, fun _ c => c.1, fun _ _ => 1,
      fun _ _ => .ok none, fun _ _ => .ok none⟩]
  asum := sumNonA [⟨3, true, fun t i => ⟨(i.1 + t.1) % 3, Nat.mod_lt _ (by norm_num)⟩, fun _ l _ => l.1, fun _ _ _ => 1,
      fun _ c => c.1, fun _ _ => 1, fun _ _ => .ok none, fun _ _ => .ok none⟩,
    (⟨3, false, fun _ i => ⟨i.1 / 2, by omega⟩, fun _ _ _ => 0, fun _ _ _ => 1, fun _ c => c.1, fun _ _ => 1,
      fun _ _ => .ok none, fun _ _ => .ok none⟩ : CatCol 2 5)]
  r := ⟨1 / 2, 1 / 3, 1 / 4⟩
  pk1 := fun _ _ => 1
  liks := []

theorem demoState_var (d : DData 5 3) (l : Fin 2) (i : Fin 5) (p : Per) :
    Spec.totalVar d demoState.base demoState.cols l i p = 3 := by
  cases p <;> simp [Spec.totalVar, demoState, Spec.colSd, Per.isB] <;> norm_num

example (d : DData 5 3) : demoState.asum = sumNonA demoState.cols ∧
    (∀ i l, 0 < demoState.pk1 (flow d i) l) ∧
    (∀ i l t, 0 < Spec.moverVar demoState.r (Spec.totalVar d demoState.base demoState.cols l i) t) ∧
    (∀ i l p, 0 < Spec.totalVar d demoState.base demoState.cols l i p) := by
  refine ⟨rfl, fun _ _ => by simp [demoState], ?_, fun i l p => by rw [demoState_var]; norm_num⟩
  intro i l t
  fin_cases t <;> simp [Spec.moverVar, demoState_var] <;> positivity

/-- An odd pass with controls succeeds, and some residual is not zero. -/
example (sA sS : QP (Fin 2 × JM true true 3)) (o : MvOpts) (h12 : o.upd12 = true) (hpk : o.updPk = false) :
    let d : DData 5 3 := ⟨fun _ => ⟨0, 7, 7, 0⟩, fun _ i => ⟨i.1 / 2, by omega⟩⟩
    (∃ s', stepMvC d o sA sS 1 (fun _ _ => 1 / 2) demoState = .ok s') ∧
    (d.y 0).y2 ≠ Spec.totalEffect d demoState.base demoState.cols 0 0 .p2ma := by
  intro d
  constructor
  · refine ⟨{ demoState with r := rhosMvC d o demoState (fun _ _ => 1 / 2) }, ?_⟩
    rw [stepMvC]
    simp [nextPk, hpk, h12, bind, Except.bind]
  · simp [d, Spec.totalEffect, demoState, Spec.colEffect, Per.isB, slot]

end Pytwoway.Dynamic
