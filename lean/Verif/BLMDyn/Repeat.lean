import Verif.BLMDyn.Invariance

/-!
# Repeating every observation in the dynamic model (C131)

`d'` holds every row of `d` the same number of times, in any order.  The run is the same if `d_X_diag - 1`, the
number added to the diagonal of every regression, is multiplied by the number of copies; with the same
`d_X_diag` it is not.
-/

namespace Pytwoway.Dynamic

open Finset Pytwoway.Sim.Dyn Pytwoway.BLM

variable {ni ni' nl nk : ℕ}

/-! ## Specification -/

/-- Every row of `d` occurs exactly `c` times in `d'`: row `s` of `d'` is a copy of row `origin s` of `d`. -/
structure Spec.RepeatedRows (c : ℕ) (origin : Fin ni' → Fin ni) (d : DData ni nk) (d' : DData ni' nk) : Prop where
  pos : 0 < c
  times : ∀ i, #{s | origin s = i} = c
  wages : ∀ s, d'.y s = d.y (origin s)
  type : ∀ t s, d'.G t s = d.G t (origin s)

/-- A right solver with convex constraints (every constraint of the package is linear). -/
structure Spec.ConvexQP {ι : Type} [Fintype ι] (F : (ι → ℝ) → Prop) (s : QP ι) : Prop where
  right : RightQP F s
  convex : ∀ x y, F x → F y → F fun a => (x a + y a) / 2

namespace Spec.RepeatedRows

variable {c : ℕ} {ρ : Fin ni' → Fin ni} {d : DData ni nk} {d' : DData ni' nk}

theorem sum_origin (h : Spec.RepeatedRows c ρ d d') (f : Fin ni → ℝ) : ∑ s, f (ρ s) = c * ∑ i, f i := by
  rw [← sum_fiberwise univ ρ, mul_sum]
  refine sum_congr rfl fun i _ => ?_
  rw [sum_congr rfl fun s hs => by rw [(mem_filter.mp hs).2], sum_const, h.times, nsmul_eq_mul]

theorem card_eq (h : Spec.RepeatedRows c ρ d d') : (ni' : ℝ) = c * ni := by
  simpa using h.sum_origin fun _ => 1

theorem cast_pos (h : Spec.RepeatedRows c ρ d d') : (0 : ℝ) < c := Nat.cast_pos.mpr h.pos

/-! ## E-step and proportions -/

theorem flow_rep (h : Spec.RepeatedRows c ρ d d') (s : Fin ni') : flow d' s = flow d (ρ s) := by
  unfold flow; rw [h.type, h.type]

theorem lpMv_rep (h : Spec.RepeatedRows c ρ d d') (b : DBase nl nk) (r : Rhos) (pk : ℕ → Fin nl → ℝ) (s : Fin ni') :
    lpMv d' b r pk s = lpMv d b r pk (ρ s) := by
  funext l
  unfold lpMv
  rw [h.flow_rep, h.wages]
  simp only [h.type]

theorem lpSt_rep (h : Spec.RepeatedRows c ρ d d') (b : DBase nl nk) (r : Rhos) (pk : ℕ → Fin nl → ℝ) (s : Fin ni') :
    lpSt d' b r pk s = lpSt d b r pk (ρ s) := by
  funext l
  unfold lpSt
  rw [h.wages, h.type]

theorem posterior_rep [NeZero nl] {lp : Fin ni → Fin nl → ℝ} {lp' : Fin ni' → Fin nl → ℝ}
    (hl : ∀ s, lp' s = lp (ρ s)) (s : Fin ni') (l : Fin nl) : posterior lp' s l = posterior lp (ρ s) l := by
  unfold posterior; rw [hl]

theorem likOf_rep [NeZero nl] (h : Spec.RepeatedRows c ρ d d') {lp : Fin ni → Fin nl → ℝ} {lp' : Fin ni' → Fin nl → ℝ}
    (hl : ∀ s, lp' s = lp (ρ s)) (n : ℕ) (pk : ℕ → Fin nl → ℝ) (first upd : Bool) (dp : ℝ) :
    likOf lp' n pk first upd dp = likOf lp n pk first upd dp := by
  unfold likOf meanLse
  simp only [hl]
  rw [h.sum_origin fun i => Util.logsumexp (lp i), h.card_eq, mul_div_mul_left _ _ h.cast_pos.ne']

theorem nextPk_rep (h : Spec.RepeatedRows c ρ d d') {q : Fin ni → Fin nl → ℝ} {q' : Fin ni' → Fin nl → ℝ}
    (hq : ∀ s l, q' s l = q (ρ s) l) {κ : Fin ni → ℕ} {κ' : Fin ni' → ℕ} (hκ : ∀ s, κ' s = κ (ρ s)) (u : Bool) (n : ℕ)
    (dp : ℝ) (pk : ℕ → Fin nl → ℝ) : nextPk u n κ' q' dp pk = nextPk u n κ q dp pk := by
  have hc := h.cast_pos.ne'
  have e : ∀ p l, sumPk κ' q' dp p l = c * sumPk κ q dp p l := by
    intro p l
    unfold sumPk
    rw [← h.sum_origin]
    simp only [hq, hκ]
  unfold nextPk updatePk
  simp only [e, ← mul_sum, mul_eq_zero, hc, false_or]
  split
  · split
    · rfl
    · congr 1
      funext p l
      rw [one_div, one_div, mul_inv]
      field_simp
  · rfl

/-! ## Persistence -/

theorem rhoUpdate_rep (h : Spec.RepeatedRows c ρ d d') {X Y S q : Fin ni → Fin nl → ℝ} {X' Y' S' q' : Fin ni' → Fin nl → ℝ}
    (hX : ∀ s l, X' s l = X (ρ s) l) (hY : ∀ s l, Y' s l = Y (ρ s) l) (hS : ∀ s l, S' s l = S (ρ s) l)
    (hq : ∀ s l, q' s l = q (ρ s) l) : rhoUpdate X' Y' S' q' = rhoUpdate X Y S q := by
  have key : ∀ (Z : Fin ni → Fin nl → ℝ) (Z' : Fin ni' → Fin nl → ℝ), (∀ s l, Z' s l = Z (ρ s) l) →
      ∑ l, ∑ s, X' s l * (q' s l / S' s l) * Z' s l = c * ∑ l, ∑ i, X i l * (q i l / S i l) * Z i l := by
    intro Z Z' hZ
    rw [mul_sum]
    refine sum_congr rfl fun l _ => ?_
    rw [← h.sum_origin]
    simp only [hX, hZ, hS, hq]
  unfold rhoUpdate
  simp only
  rw [key X X' hX, key Y Y' hY, mul_div_mul_left _ _ h.cast_pos.ne']

theorem rhosMv_rep (h : Spec.RepeatedRows c ρ d d') (b : DBase nl nk) (o o' : MvOpts) (h12 : o'.upd12 = o.upd12)
    (h43 : o'.upd43 = o.upd43) (h32 : o'.upd32 = o.upd32) (r : Rhos) {q : Fin ni → Fin nl → ℝ} {q' : Fin ni' → Fin nl → ℝ}
    (hq : ∀ s l, q' s l = q (ρ s) l) : rhosMv d' o' b r q' = rhosMv d o b r q := by
  unfold rhosMv update12 update43 update32m
  simp only [h12, h43, h32]
  congr 1
  · split
    · refine h.rhoUpdate_rep ?_ ?_ ?_ hq <;> intro s l <;> simp only [h.wages, h.type]
    · rfl
  · split
    · refine h.rhoUpdate_rep ?_ ?_ ?_ hq <;> intro s l <;> simp only [h.wages, h.type]
    · rfl
  · split
    · refine h.rhoUpdate_rep ?_ ?_ ?_ hq <;> intro s l <;> simp only [h.wages, h.type]
    · rfl

theorem update32s_rep (h : Spec.RepeatedRows c ρ d d') (b : DBase nl nk) (r : Rhos) {q : Fin ni → Fin nl → ℝ}
    {q' : Fin ni' → Fin nl → ℝ} (hq : ∀ s l, q' s l = q (ρ s) l) :
    update32s d'.y (fun i l p => b.Aw p l (d'.G 0 i)) (fun i l p => b.Sw p l (d'.G 0 i) ^ 2) r q' =
      update32s d.y (fun i l p => b.Aw p l (d.G 0 i)) (fun i l p => b.Sw p l (d.G 0 i) ^ 2) r q := by
  unfold update32s
  refine h.rhoUpdate_rep ?_ ?_ ?_ hq <;> intro s l <;> simp only [h.wages, h.type]

/-! ## The regressions -/

theorem XwX_rep (h : Spec.RepeatedRows c ρ d d') {T J : Type} [Fintype T] [DecidableEq J] {w : Fin nl → T × Fin ni → ℝ}
    {w' : Fin nl → T × Fin ni' → ℝ} {X : T × Fin ni → J → ℝ} {X' : T × Fin ni' → J → ℝ}
    (hX : ∀ t s j, X' (t, s) j = X (t, ρ s) j) (hw : ∀ t s l, w' l (t, s) = w l (t, ρ s)) (δ : ℝ) (a b : Fin nl × J) :
    XwX w' X' (c * δ) a b = c * XwX w X δ a b := by
  unfold XwX
  have e : ∑ s, w' a.1 s * X' s a.2 * X' s b.2 = c * ∑ s, w a.1 s * X s a.2 * X s b.2 := by
    rw [Fintype.sum_prod_type, Fintype.sum_prod_type, mul_sum]
    refine sum_congr rfl fun t _ => ?_
    rw [← h.sum_origin]
    simp only [hX, hw]
  rw [e]
  split <;> split <;> ring

theorem XwV_rep (h : Spec.RepeatedRows c ρ d d') {T J : Type} [Fintype T] {w Y : Fin nl → T × Fin ni → ℝ}
    {w' Y' : Fin nl → T × Fin ni' → ℝ} {X : T × Fin ni → J → ℝ} {X' : T × Fin ni' → J → ℝ}
    (hX : ∀ t s j, X' (t, s) j = X (t, ρ s) j) (hw : ∀ t s l, w' l (t, s) = w l (t, ρ s))
    (hY : ∀ t s l, Y' l (t, s) = Y l (t, ρ s)) (a : Fin nl × J) : XwV w' X' Y' a = c * XwV w X Y a := by
  unfold XwV
  rw [Fintype.sum_prod_type, Fintype.sum_prod_type, mul_sum]
  refine sum_congr rfl fun t _ => ?_
  rw [← h.sum_origin]
  simp only [hX, hw, hY]

/-- A right solver finds the same solution, or none, if matrix and vector are multiplied by the same number. -/
theorem qp_times (h : Spec.RepeatedRows c ρ d d') {ι : Type} [Fintype ι] {F : (ι → ℝ) → Prop} {s : QP ι}
    (hs : Spec.ConvexQP F s) {P P' : ι → ι → ℝ} {v v' : ι → ℝ} (hP : ∀ a b, P' a b = c * P a b) (hv : ∀ a, v' a = c * v a)
    (hpd : ∀ x : ι → ℝ, x ≠ 0 → 0 < ∑ a, ∑ b, x a * P a b * x b) :
    (∃ x, s P (fun a => - v a) = .ok (some x) ∧ s P' (fun a => - v' a) = .ok (some x)) ∨
    ((∀ x, s P (fun a => - v a) ≠ .ok (some x)) ∧ ∀ x, s P' (fun a => - v' a) ≠ .ok (some x)) := by
  have hsame : Spec.SameQP (Equiv.refl ι) 1 F F s s :=
    ⟨hs.right, hs.right, hs.convex, fun x x' e => by
      have : x' = x := funext fun a => by simpa using e a
      rw [this]⟩
  rcases qp_ren h.cast_pos one_pos hsame (P := P) (P' := P') (q := fun a => - v a) (q' := fun a => - v' a) hP
    (fun a => by simp [hv]) hpd with ⟨x, x', e1, e2, -, e⟩ | hn
  · left
    have : x' = x := funext fun a => by simpa using e a
    rw [this] at e2
    exact ⟨x, e1, e2⟩
  · exact Or.inr hn

theorem Xmv_rep {endo state : Bool} (h : Spec.RepeatedRows c ρ d d') (r : Rhos) (t : Fin 4) (s : Fin ni') (j : JM endo state nk) :
    Xmv d' r (t, s) j = Xmv d r (t, ρ s) j := by
  unfold Xmv; simp only [h.type]

theorem wMv_rep (h : Spec.RepeatedRows c ρ d d') (b : DBase nl nk) (r : Rhos) {q : Fin ni → Fin nl → ℝ}
    {q' : Fin ni' → Fin nl → ℝ} (hq : ∀ s l, q' s l = q (ρ s) l) (t : Fin 4) (s : Fin ni') (l : Fin nl) :
    wMv d' b r q' l (t, s) = wMv d b r q l (t, ρ s) := by
  unfold wMv varMv; simp only [h.type, hq]

theorem yMv_rep (h : Spec.RepeatedRows c ρ d d') (r : Rhos) (t : Fin 4) (s : Fin ni') : yMv d' r (t, s) = yMv d r (t, ρ s) := by
  unfold yMv; simp only [h.wages]

theorem eMv_rep (h : Spec.RepeatedRows c ρ d d') (b : DBase nl nk) (r : Rhos) (t : Fin 4) (s : Fin ni') (l : Fin nl) :
    eMv d' b r l (t, s) = eMv d b r l (t, ρ s) := by
  unfold eMv; simp only [h.wages, h.type]

theorem Xst_rep (h : Spec.RepeatedRows c ρ d d') (r : Rhos) (t : Fin 2) (s : Fin ni') (j : JS nk) :
    Xst d' r (t, s) j = Xst d r (t, ρ s) j := by
  unfold Xst; simp only [h.type]

theorem wSt_rep (h : Spec.RepeatedRows c ρ d d') (b : DBase nl nk) (r : Rhos) {q : Fin ni → Fin nl → ℝ}
    {q' : Fin ni' → Fin nl → ℝ} (hq : ∀ s l, q' s l = q (ρ s) l) (t : Fin 2) (s : Fin ni') (l : Fin nl) :
    wSt d' b r q' l (t, s) = wSt d b r q l (t, ρ s) := by
  unfold wSt varSt; simp only [h.type, hq]

theorem ySt_rep (h : Spec.RepeatedRows c ρ d d') (r : Rhos) (t : Fin 2) (s : Fin ni') : ySt d' r (t, s) = ySt d r (t, ρ s) := by
  unfold ySt; simp only [h.wages]

theorem eSt_rep (h : Spec.RepeatedRows c ρ d d') (b : DBase nl nk) (r : Rhos) (t : Fin 2) (s : Fin ni') (l : Fin nl) :
    eSt d' b r l (t, s) = eSt d b r l (t, ρ s) := by
  unfold eSt; simp only [h.wages, h.type]

theorem mstepMv_rep [NeZero nl] {endo state : Bool} {FA FS : (Fin nl × JM endo state nk → ℝ) → Prop}
    {sA sS : QP (Fin nl × JM endo state nk)} (hsA : Spec.ConvexQP FA sA) (hsS : Spec.ConvexQP FS sS)
    (hlow : ∀ x, FS x → ∀ l p k, p.1.isB = false → 0 < x (l, p, k)) (h : Spec.RepeatedRows c ρ d d')
    {b : DBase nl nk} (hpos : PosS b) (r : Rhos) {q : Fin ni → Fin nl → ℝ} {q' : Fin ni' → Fin nl → ℝ}
    (hq0 : ∀ i l, 0 ≤ q i l) (hq : ∀ s l, q' s l = q (ρ s) l) (updA updS : Bool) {δ : ℝ} (hδ : 0 < δ) :
    mstepMv d' q' b r updA updS (c * δ) sA sS = mstepMv d q b r updA updS δ sA sS ∧
      PosS (mstepMv d q b r updA updS δ sA sS) := by
  have hX := h.Xmv_rep (endo := endo) (state := state) r
  have hw := h.wMv_rep b r hq
  have hP := h.XwX_rep hX hw δ
  have hpd := XwX_pdRidge (wMv d b r q) (Xmv (endo := endo) (state := state) d r) δ (wMv_nonneg d b r q hq0) hδ
  unfold mstepMv
  simp only
  have h1 : (if updA then solveAMv sA (XwX (wMv d' b r q') (Xmv d' r) (c * δ))
        (XwV (wMv d' b r q') (Xmv d' r) fun _ => yMv d' r) b else b) =
      (if updA then solveAMv sA (XwX (wMv d b r q) (Xmv d r) δ) (XwV (wMv d b r q) (Xmv d r) fun _ => yMv d r) b else b) := by
    cases updA
    · rfl
    · simp only [if_true]
      have hv := h.XwV_rep (Y := fun _ => yMv d r) (Y' := fun _ => yMv d' r) hX hw fun t s _ => h.yMv_rep r t s
      rcases h.qp_times hsA hP hv hpd with ⟨x, e1, e2⟩ | ⟨e1, e2⟩
      · unfold solveAMv; rw [e1, e2]
      · rw [Spec.Rewriting.solveAMv_none e1, Spec.Rewriting.solveAMv_none e2]
  have h2 : PosS (if updA then solveAMv sA (XwX (wMv d b r q) (Xmv d r) δ)
      (XwV (wMv d b r q) (Xmv d r) fun _ => yMv d r) b else b) := by
    cases updA
    · exact hpos
    · obtain ⟨e1, e2⟩ := Spec.Rewriting.solveAMv_S sA (XwX (wMv d b r q) (Xmv d r) δ) (XwV (wMv d b r q) (Xmv d r) fun _ => yMv d r) b
      unfold PosS
      simp only [if_true, e1, e2]
      exact hpos
  rw [h1]
  generalize (if updA then solveAMv sA (XwX (wMv d b r q) (Xmv d r) δ)
      (XwV (wMv d b r q) (Xmv d r) fun _ => yMv d r) b else b) = b1 at h2 ⊢
  cases updS
  · exact ⟨rfl, h2⟩
  · simp only [if_true]
    have hv := h.XwV_rep hX hw (h.eMv_rep b1 r)
    rcases h.qp_times hsS hP hv hpd with ⟨x, e1, e2⟩ | ⟨e1, e2⟩
    · have hx := (hsS.right.sound _ _ _ e1).1
      refine ⟨by unfold solveSMv; rw [e1, e2], ?_⟩
      unfold solveSMv
      rw [e1]
      refine ⟨fun p l k => ?_, fun p k => ?_⟩
      · simp only [writeW]
        split
        · split
          · exact h2.1 _ _ _
          · rename_i hB
            exact Real.sqrt_pos.mpr (hlow x hx _ _ _ (by simpa using hB))
        · exact h2.1 _ _ _
      · simp only [writeB]
        split
        · split
          · exact Real.sqrt_nonneg _
          · exact h2.2 _ _
        · exact h2.2 _ _
    · rw [Spec.Rewriting.solveSMv_none e1, Spec.Rewriting.solveSMv_none e2]
      exact ⟨rfl, h2⟩

theorem mstepSt_rep {FA FS : (Fin nl × JS nk → ℝ) → Prop} {sA sS : QP (Fin nl × JS nk)} (hsA : Spec.ConvexQP FA sA)
    (hsS : Spec.ConvexQP FS sS) (h : Spec.RepeatedRows c ρ d d') (b : DBase nl nk) (r : Rhos) {q : Fin ni → Fin nl → ℝ}
    {q' : Fin ni' → Fin nl → ℝ} (hq0 : ∀ i l, 0 ≤ q i l) (hq : ∀ s l, q' s l = q (ρ s) l) (updA updS : Bool) {δ : ℝ}
    (hδ : 0 < δ) : mstepSt d' q' b r updA updS (c * δ) sA sS = mstepSt d q b r updA updS δ sA sS := by
  have hX := h.Xst_rep r
  have hw := h.wSt_rep b r hq
  have hP := h.XwX_rep hX hw δ
  have hpd := XwX_pdRidge (wSt d b r q) (Xst d r) δ (wSt_nonneg d b r q hq0) hδ
  unfold mstepSt
  simp only
  have h1 : (if updA then solveASt sA (XwX (wSt d' b r q') (Xst d' r) (c * δ))
        (XwV (wSt d' b r q') (Xst d' r) fun _ => ySt d' r) b else b) =
      (if updA then solveASt sA (XwX (wSt d b r q) (Xst d r) δ) (XwV (wSt d b r q) (Xst d r) fun _ => ySt d r) b else b) := by
    cases updA
    · rfl
    · simp only [if_true]
      have hv := h.XwV_rep (Y := fun _ => ySt d r) (Y' := fun _ => ySt d' r) hX hw fun t s _ => h.ySt_rep r t s
      rcases h.qp_times hsA hP hv hpd with ⟨x, e1, e2⟩ | ⟨e1, e2⟩
      · unfold solveASt; rw [e1, e2]
      · rw [Spec.Rewriting.solveASt_none e1, Spec.Rewriting.solveASt_none e2]
  rw [h1]
  generalize (if updA then solveASt sA (XwX (wSt d b r q) (Xst d r) δ)
      (XwV (wSt d b r q) (Xst d r) fun _ => ySt d r) b else b) = b1
  cases updS
  · rfl
  · simp only [if_true]
    have hv := h.XwV_rep hX hw (h.eSt_rep b1 r)
    rcases h.qp_times hsS hP hv hpd with ⟨x, e1, e2⟩ | ⟨e1, e2⟩
    · unfold solveSSt; rw [e1, e2]
    · rw [Spec.Rewriting.solveSSt_none e1, Spec.Rewriting.solveSSt_none e2]

end Spec.RepeatedRows

/-! ## The loops -/

/-- C131 for movers: with every mover repeated `c` times, in any order, and `d_X_diag_movers - 1` multiplied by
`c`, the whole run is the same — means, standard deviations, persistence, proportions and the path of
likelihoods after any number of iterations, and the same error if it raises. -/
theorem C131_movers [NeZero nl] {endo state : Bool} (c : ℕ) (origin : Fin ni' → Fin ni) (d : DData ni nk) (d' : DData ni' nk)
    (h : Spec.RepeatedRows c origin d d') (o : MvOpts) (hδ : 0 < o.δ) (sA sS : QP (Fin nl × JM endo state nk))
    (FA FS : (Fin nl × JM endo state nk → ℝ) → Prop) (hsA : Spec.ConvexQP FA sA) (hsS : Spec.ConvexQP FS sS)
    (hlow : ∀ x, FS x → ∀ l p k, p.1.isB = false → 0 < x (l, p, k)) (minType : DBase nl nk → ℕ) (fuel : ℕ) :
    ∀ (iter : ℕ) (prev : Option ℝ) (pm : ℕ) (s : MvState nl nk), PosS s.base →
      loopMv d' { o with δ := c * o.δ } sA sS minType fuel iter prev pm s =
        loopMv d o sA sS minType fuel iter prev pm s := by
  induction fuel with
  | zero => intro iter prev pm s _; rfl
  | succ fuel ih =>
    intro iter prev pm s hpos
    have hlp := h.lpMv_rep s.base s.r s.pk1
    have hq := Spec.RepeatedRows.posterior_rep hlp
    unfold loopMv
    simp only [bind, Except.bind, h.likOf_rep hlp]
    split
    · rfl
    · unfold stepMv
      simp only [bind, Except.bind, h.nextPk_rep hq h.flow_rep]
      cases nextPk o.updPk (nk ^ 2) (flow d) (posterior (lpMv d s.base s.r s.pk1)) o.dprior s.pk1 with
      | error e => rfl
      | ok v =>
        simp only
        cases hc : (o.upd12 || o.upd43 || o.upd32) && iter % 2 == 1
        · cases hu : o.updA || o.updS
          · simp only [Bool.false_eq_true, if_false]
            exact ih _ _ _ _ hpos
          · simp only [Bool.false_eq_true, if_false, if_true]
            obtain ⟨h1, h2⟩ := h.mstepMv_rep hsA hsS hlow hpos s.r (fun i l => (posterior_pos _ i l).le) hq o.updA o.updS hδ
            rw [h1]
            exact ih _ _ _ _ h2
        · simp only [if_true]
          rw [h.rhosMv_rep s.base o { o with δ := c * o.δ } rfl rfl rfl s.r hq]
          exact ih _ _ _ _ hpos

/-- C131 for stayers. -/
theorem C131_stayers [NeZero nl] (c : ℕ) (origin : Fin ni' → Fin ni) (d : DData ni nk) (d' : DData ni' nk)
    (h : Spec.RepeatedRows c origin d d') (o : StOpts) (hδ : 0 < o.δ) (sA sS : QP (Fin nl × JS nk))
    (FA FS : (Fin nl × JS nk → ℝ) → Prop) (hsA : Spec.ConvexQP FA sA) (hsS : Spec.ConvexQP FS sS) (fuel : ℕ) :
    ∀ (iter : ℕ) (prev : Option ℝ) (s : StState nl nk),
      loopSt d' { o with δ := c * o.δ } sA sS fuel iter prev s = loopSt d o sA sS fuel iter prev s := by
  induction fuel with
  | zero => intro iter prev s; rfl
  | succ fuel ih =>
    intro iter prev s
    have hlp := h.lpSt_rep s.base s.r s.pk0
    have hq := Spec.RepeatedRows.posterior_rep hlp
    unfold loopSt
    simp only [bind, Except.bind, h.likOf_rep hlp]
    split
    · rfl
    · unfold stepSt
      simp only [bind, Except.bind,
        h.nextPk_rep hq (κ := fun i => (d.G 0 i).val) (κ' := fun i => (d'.G 0 i).val) fun s => by simp only [h.type]]
      cases nextPk o.updPk nk (fun i => (d.G 0 i).val) (posterior (lpSt d s.base s.r s.pk0)) o.dprior s.pk0 with
      | error e => rfl
      | ok v =>
        simp only
        cases hc : o.updRho && iter % 2 == 1
        · cases hu : o.updA || o.updS
          · simp only [Bool.false_eq_true, if_false]
            exact ih _ _ _
          · simp only [Bool.false_eq_true, if_false, if_true]
            rw [h.mstepSt_rep hsA hsS s.base s.r (fun i l => (posterior_pos _ i l).le) hq o.updA o.updS hδ]
            exact ih _ _ _
        · simp only [if_true]
          rw [h.update32s_rep s.base s.r hq]
          exact ih _ _ _

/-! ## The hypotheses can be met -/

/-- Every data set can be repeated any number of times. -/
theorem Spec.RepeatedRows.exists_data (c : ℕ) (hc : 0 < c) (d : DData ni nk) :
    ∃ (origin : Fin (c * ni) → Fin ni) (d' : DData (c * ni) nk), Spec.RepeatedRows c origin d d' := by
  refine ⟨fun s => (finProdFinEquiv.symm s).2, ⟨fun s => d.y (finProdFinEquiv.symm s).2,
    fun t s => d.G t (finProdFinEquiv.symm s).2⟩, hc, fun i => ?_, fun _ => rfl, fun _ _ => rfl⟩
  have : #{s : Fin (c * ni) | (finProdFinEquiv.symm s).2 = i} = #(univ : Finset (Fin c)) := by
    symm
    refine card_bij (fun a _ => finProdFinEquiv (a, i))
      (fun a _ => mem_filter.mpr ⟨mem_univ _, by rw [Equiv.symm_apply_apply]⟩) (fun a _ b _ e => by simpa using e) fun s hs => ?_
    refine ⟨(finProdFinEquiv.symm s).1, mem_univ _, ?_⟩
    rw [← (mem_filter.mp hs).2]
    exact finProdFinEquiv.apply_symm_apply s
  rw [this, card_univ, Fintype.card_fin]

/-- Non-vacuity of `C131_movers`: three rows, five copies of each, with the equality constraints of the package
and a lower bound on variances. -/
example (d : DData 3 2) (s : MvState 2 2) (hs : PosS s.base) (o : MvOpts) (hδ : 0 < o.δ) (fuel : ℕ) :
    ∃ (origin : Fin 15 → Fin 3) (d' : DData 15 2) (sA sS : QP (Fin 2 × JM true true 2)),
      Spec.RepeatedRows 5 origin d d' ∧ loopMv d' { o with δ := (5 : ℕ) * o.δ } sA sS (fun _ => 0) fuel 0 none 0 s =
        loopMv d o sA sS (fun _ => 0) fuel 0 none 0 s := by
  obtain ⟨origin, d', h⟩ := Spec.RepeatedRows.exists_data 5 (by norm_num) d
  obtain ⟨sA, sA', sS, sS', FA, FS, FS', e1, e2, -, h1, h2, h3⟩ :=
    C121_movers_solvers (⟨1, 1, 1, 1, one_pos⟩ : Spec.Rewriting 3 2 2) (endo := true) (state := true) (lb := 1) one_pos
  exact ⟨origin, d', sA, sS, h, C131_movers 5 origin d d' h o hδ sA sS FA FS ⟨h1.right, h1.convex⟩ ⟨h2.right, h2.convex⟩ h3
    (fun _ => 0) fuel 0 none 0 s hs⟩

/-! ## With the same ridge, repeating the data changes the estimates -/

/-- C131 fails for the settings as they are: whatever `d_X_diag_stayers > 1`, there are data which, with every
row written down twice and the same settings, give another estimate of the mean. -/
theorem C131_same_ridge (δ : ℝ) (hδ : 0 < δ) (sA sS : QP (Fin 1 × JS 1)) (FS : (Fin 1 × JS 1 → ℝ) → Prop)
    (hA : RightQP (fun _ => True) sA) (hS : Spec.ConvexQP FS sS) :
    ∃ (origin : Fin (2 * 1) → Fin 1) (d : DData 1 1) (d' : DData (2 * 1) 1) (s r r' : StState 1 1),
      Spec.RepeatedRows 2 origin d d' ∧ PosS s.base ∧ loopSt d (oneOpts δ) sA sS 1 0 none s = .ok r ∧
      loopSt d' (oneOpts δ) sA sS 1 0 none s = .ok r' ∧ r'.base.Aw .p2s 0 0 ≠ r.base.Aw .p2s 0 0 := by
  obtain ⟨origin, d', h⟩ := Spec.RepeatedRows.exists_data 2 (by norm_num) (oneStayer 1)
  have hδ2 : 0 < δ / 2 := by linarith
  obtain ⟨r, e, hr⟩ := oneStayer_run 1 0 1 δ one_pos hδ sA sS hA
  obtain ⟨r', e', hr'⟩ := oneStayer_run 1 0 1 (δ / 2) one_pos hδ2 sA sS hA
  refine ⟨origin, oneStayer 1, d', oneStart 0 1, r, r', h, ⟨fun _ _ _ => one_pos, fun _ _ => le_rfl⟩, e, ?_, ?_⟩
  · rw [← e', ← C131_stayers 2 origin _ d' h (oneOpts (δ / 2)) hδ2 sA sS (fun _ => True) FS
      ⟨hA, fun _ _ _ _ => trivial⟩ hS]
    have : (oneOpts δ) = { oneOpts (δ / 2) with δ := (2 : ℕ) * (oneOpts (δ / 2)).δ } := by
      unfold oneOpts
      simp only [StOpts.mk.injEq, true_and]
      push_cast
      ring
    rw [this]
  · rw [hr, hr']
    intro h
    have h1 : 1 + 1 * δ ≠ 0 := by positivity
    have h2 : 1 + 1 * (δ / 2) ≠ 0 := by positivity
    field_simp at h
    linarith

/-- Non-vacuity of `C131_same_ridge`. -/
example : ∃ (sA sS : QP (Fin 1 × JS 1)), RightQP (fun _ => True) sA ∧ Spec.ConvexQP (fun _ => True) sS := by
  obtain ⟨sA, hA⟩ := rightQP_free (Fin 1 × JS 1)
  exact ⟨sA, sA, hA, hA, fun _ _ _ _ => trivial⟩

end Pytwoway.Dynamic
