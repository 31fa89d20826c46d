import Verif.BLMDyn.ControlsProps

/-! # Controls of stayers in the dynamic model: C95

`pytwoway/blm_dynamic.py`: the M-step of `fit_stayers` with categorical controls (3164-3632). -/

namespace Pytwoway.Dynamic

open Finset ProbabilityTheory Pytwoway.Sim.Dyn Pytwoway.BLM

variable {ni nl nk : ℕ}

/-! ## Model -/

/-- The periods of stayers: 0 is `'2s'`, 1 is `'3s'`, blm_dynamic.py:3164-3636. -/
def perS : Fin 2 → Per
  | 0 => .p2s
  | 1 => .p3s

/-- A categorical control of stayers: number of categories, `worker_type_interaction`, categories by slot (`C1`, `C2`,
2933-2957), the parameters of the two periods (by worker type with interaction, else without) and the solvers of
`cons_a_dict[col]` and `cons_s_dict[col]`. -/
structure StCol (nl ni : ℕ) where
  n : ℕ
  wi : Bool
  c : Fin 2 → Fin ni → Fin n
  Aw : Fin 2 → Fin nl → Fin n → ℝ
  Sw : Fin 2 → Fin nl → Fin n → ℝ
  An : Fin 2 → Fin n → ℝ
  Sn : Fin 2 → Fin n → ℝ
  solA : QP (Fin nl × JS n)
  solS : QP (Fin nl × JS n)

/-- A control's effect on a row in one of the two periods: `C_dict[period]` is `C1` for `'2s'` and `C2` for `'3s'`
(2965). -/
def StCol.eff (k : StCol nl ni) (l : Fin nl) (t : Fin 2) (i : Fin ni) : ℝ :=
  if k.wi then k.Aw t l (k.c t i) else k.An t (k.c t i)

/-- Its term in `A_sum`. -/
def StCol.nonA (k : StCol nl ni) (t : Fin 2) (i : Fin ni) : ℝ := if k.wi then 0 else k.An t (k.c t i)

/-- Its term in `A_sum_l`. -/
def StCol.byA (k : StCol nl ni) (l : Fin nl) (t : Fin 2) (i : Fin ni) : ℝ := if k.wi then k.Aw t l (k.c t i) else 0

/-- `A_sum` of the two periods, blm_dynamic.py:3293-3301. -/
def sumNonSt (ks : List (StCol nl ni)) (t : Fin 2) (i : Fin ni) : ℝ := (ks.map fun k => k.nonA t i).sum

/-- `A_sum_l` of the two periods, blm_dynamic.py:3293-3301, 3393. -/
def sumBySt (ks : List (StCol nl ni)) (l : Fin nl) (t : Fin 2) (i : Fin ni) : ℝ := (ks.map fun k => k.byA l t i).sum

/-- The two wages net of effects, blm_dynamic.py:3293-3301, 3399-3411, 3559-3570. -/
def netSt (y : Wages) (r : Rhos) (e : Fin 2 → ℝ) : Fin 2 → ℝ
  | 0 => y.y2 - e 0
  | 1 => y.y3 - r.R32 * (y.y2 - e 0) - e 1

/-- The rows' wages with a control in place of the firm type: `X_cat[col]` (blm_dynamic.py:3217-3222) is `X` of these data; it takes
`CC1` for both periods. -/
def StCol.data (k : StCol nl ni) (d : DData ni nk) : DData ni k.n := ⟨d.y, k.c⟩

/-- `weights_l` of a control, blm_dynamic.py:3364-3376. -/
noncomputable def StCol.w (k : StCol nl ni) (r : Rhos) (q : Fin ni → Fin nl → ℝ) (l : Fin nl) (s : Fin 2 × Fin ni) : ℝ :=
  let v : Fin 2 → ℝ := fun t => (if k.wi then k.Sw t l (k.c t s.2) else k.Sn t (k.c t s.2)) ^ 2
  q s.2 l / √(match s.1 with
    | 0 => v 0
    | 1 => v 1 + r.R32 ^ 2 * v 0)

/-- `XwX_cat[col]`, blm_dynamic.py:3385, 3415-3416. -/
noncomputable def StCol.P (k : StCol nl ni) (d : DData ni nk) (r : Rhos) (q : Fin ni → Fin nl → ℝ) (δ : ℝ) :=
  XwX (k.w r q) (Xst (k.data d) r) δ

/-- Main effects of stayers. -/
def baseSt (d : DData ni nk) (b : DBase nl nk) (l : Fin nl) (t : Fin 2) (i : Fin ni) : ℝ := b.Aw (perS t) l (d.G 0 i)

/-- What `cons_a.res` is after the main regression: the array, or absent (`None`, or no attribute at all when the
solver raised, since the object is new, constraints.py:32-44). -/
noncomputable def baseRes (sA : QP (Fin nl × JS nk)) (P : Fin nl × JS nk → Fin nl × JS nk → ℝ)
    (v : Fin nl × JS nk → ℝ) : Option (Fin nl × JS nk → ℝ) :=
  match sA P (fun a => - v a) with
  | .ok x => x
  | .error _ => none

/-- The part of an array of one worker type after another, `res_2s[: col_n]` and `np.reshape(res_2s, (nl, col_n))`;
`col_n` is `nk` here, otherwise the order (3227-3231) has raised.  Beyond it the default is never used. -/
def resAt (x : Fin nl × JS nk → ℝ) (n : ℕ) (l : Fin nl) (t : Fin 2) (c : Fin n) : ℝ :=
  if h : c.1 < nk then x (l, t, ⟨c.1, h⟩) else 0

/-- One control's update of the means, blm_dynamic.py:3354-3442: the control's own quadratic program is solved, but what is stored
is cut from `cons_a.res` (3427), the solution of the main regression.  `np.split` of nothing raises. -/
noncomputable def colStepSt [NeZero nl] (d : DData ni nk) (q : Fin ni → Fin nl → ℝ) (b : DBase nl nk) (r : Rhos)
    (updA : Bool) (δ : ℝ) (res : Option (Fin nl × JS nk → ℝ)) (al : Fin nl → Fin 2 → Fin ni → ℝ)
    (asum : Fin 2 → Fin ni → ℝ) (k : StCol nl ni) : Py ((Fin 2 → Fin ni → ℝ) × StCol nl ni) :=
  let asum1 : Fin 2 → Fin ni → ℝ := fun t i => asum t i - k.nonA t i
  let Y : Fin nl → Fin 2 × Fin ni → ℝ := fun l s =>
    netSt (d.y s.2) r (fun t => baseSt d b l t s.2 + asum1 t s.2 + (al l t s.2 - k.byA l t s.2)) s.1
  let out (k' : StCol nl ni) : (Fin 2 → Fin ni → ℝ) × StCol nl ni := (fun t i => asum1 t i + k'.nonA t i, k')
  if updA then
    match k.solA (k.P d r q δ) (fun a => - XwV (k.w r q) (Xst (k.data d) r) Y a) with
    | .ok (some _) =>
      match res with
      | none => .error "AttributeError"
      | some x =>
        if k.wi then .ok (out { k with Aw := fun t l c => resAt x k.n l t c })
        else .ok (out { k with An := fun t c => resAt x k.n 0 t c })
    | .ok none => .ok (out k)
    | .error _ => .ok (out k)
  else .ok (out k)

/-- The loop over controls, blm_dynamic.py:3353-3442; `A_sum_l` is computed anew for every control (3393). -/
noncomputable def colLoopSt [NeZero nl] (d : DData ni nk) (q : Fin ni → Fin nl → ℝ) (b : DBase nl nk) (r : Rhos)
    (updA : Bool) (δ : ℝ) (res : Option (Fin nl × JS nk → ℝ)) :
    (Fin 2 → Fin ni → ℝ) → (pre ks : List (StCol nl ni)) → Py ((Fin 2 → Fin ni → ℝ) × List (StCol nl ni))
  | asum, pre, [] => .ok (asum, pre)
  | asum, pre, k :: ks => do
    let x ← colStepSt d q b r updA δ res (sumBySt (pre ++ k :: ks)) asum k
    colLoopSt d q b r updA δ res x.1 (pre ++ [x.2]) ks

/-- The orders of all columns, blm_dynamic.py:3227-3231. -/
def ordersSt (nl nk : ℕ) (ks : List (StCol nl ni)) : Py Unit :=
  ks.forM fun k => do
    let _ ← Order.order nl 2 nk k.n
    .ok ()

/-- The new standard deviations of a control, blm_dynamic.py:3613-3636. -/
noncomputable def solveSColSt [NeZero nl] (k : StCol nl ni) (P : Fin nl × JS k.n → Fin nl × JS k.n → ℝ)
    (v : Fin nl × JS k.n → ℝ) : StCol nl ni :=
  match k.solS P (fun a => - v a) with
  | .ok (some x) =>
    if k.wi then { k with Sw := fun t l c => √(x (l, t, c)) } else { k with Sn := fun t c => √(x (0, t, c)) }
  | .ok none => k
  | .error _ => k

/-- The M-step of stayers with controls, blm_dynamic.py:3164-3636. -/
noncomputable def mstepStC [NeZero nl] (d : DData ni nk) (q : Fin ni → Fin nl → ℝ) (b : DBase nl nk) (r : Rhos)
    (updA updS : Bool) (δ : ℝ) (sA sS : QP (Fin nl × JS nk)) (ks : List (StCol nl ni))
    (asum : Fin 2 → Fin ni → ℝ) : Py (DBase nl nk × List (StCol nl ni) × (Fin 2 → Fin ni → ℝ)) := do
  let _ ← ordersSt nl nk ks
  let w := wSt d b r q
  let P := XwX w (Xst d r) δ
  let v := XwV w (Xst d r) fun l s => netSt (d.y s.2) r (fun t => asum t s.2 + sumBySt ks l t s.2) s.1
  let b1 := if updA then solveASt sA P v b else b
  let x ← colLoopSt d q b1 r updA δ (baseRes sA P v) asum [] ks
  let E : Fin nl → Fin 2 × Fin ni → ℝ := fun l s =>
    netSt (d.y s.2) r (fun t => baseSt d b1 l t s.2 + x.1 t s.2 + sumBySt x.2 l t s.2) s.1 ^ 2
  let b2 := if updS then solveSSt sS P (XwV w (Xst d r) E) b1 else b1
  let ks2 := if updS then
      x.2.map fun k => solveSColSt k (k.P d r q δ) (XwV (k.w r q) (Xst (k.data d) r) E)
    else x.2
  .ok (b2, ks2, x.1)

/-! ## Lemmas -/

theorem ordersSt_ok (hnk : 0 < nk) (hnl : 0 < nl) (ks : List (StCol nl ni)) :
    (ordersSt nl nk ks = .ok () ∧ ∀ k ∈ ks, k.n = nk) ∨
      (ordersSt nl nk ks = .error "ValueError" ∧ ∃ k ∈ ks, k.n ≠ nk) := by
  unfold ordersSt
  induction ks with
  | nil => exact Or.inl ⟨rfl, by simp⟩
  | cons k ks ih =>
    by_cases h : k.n = nk
    · obtain ⟨o, ho, -⟩ := Order.C95_order nl 2 nk hnk (by norm_num)
      have e : List.forM (k :: ks) (fun k => do let _ ← Order.order nl 2 nk k.n; (.ok () : Py Unit)) =
          List.forM ks (fun k => do let _ ← Order.order nl 2 nk k.n; (.ok () : Py Unit)) := by
        show (do let _ ← (do let _ ← Order.order nl 2 nk k.n; (.ok () : Py Unit)); _) = _
        rw [h, ho]; rfl
      rw [e]
      rcases ih with ⟨h1, h2⟩ | ⟨h1, k', h2, h3⟩
      · refine Or.inl ⟨h1, ?_⟩
        intro k' hk'
        rcases List.mem_cons.mp hk' with rfl | hk'
        · exact h
        · exact h2 k' hk'
      · exact Or.inr ⟨h1, k', List.mem_cons_of_mem _ h2, h3⟩
    · refine Or.inr ⟨?_, k, by simp, h⟩
      have ho := Order.C95_order_raises nl 2 nk k.n hnl (by norm_num) h
      show (do let _ ← (do let _ ← Order.order nl 2 nk k.n; (.ok () : Py Unit)); _) = _
      rw [ho]; rfl

theorem StCol.w_nonneg (k : StCol nl ni) (r : Rhos) (q : Fin ni → Fin nl → ℝ) (hq : ∀ i l, 0 ≤ q i l) (l : Fin nl)
    (s : Fin 2 × Fin ni) : 0 ≤ k.w r q l s := div_nonneg (hq _ _) (Real.sqrt_nonneg _)

/-- What is kept of a control when its means are written. -/
def Spec.Overwritten (b : DBase nl nk) [NeZero nl] (k k' : StCol nl ni) : Prop :=
  k'.n = k.n ∧ k'.wi = k.wi ∧
    ∀ (t : Fin 2) (l : Fin nl) (c : Fin k'.n) (g : Fin nk), c.1 = g.1 →
      (if k'.wi then k'.Aw t l c else k'.An t c) = b.Aw (perS t) (if k'.wi then l else 0) g

theorem colLoopSt_over [NeZero nl] (d : DData ni nk) (q : Fin ni → Fin nl → ℝ) (hq : ∀ i l, 0 ≤ q i l)
    (b : DBase nl nk) (r : Rhos) (δ : ℝ) (hδ : 0 < δ) (x : Fin nl × JS nk → ℝ)
    (hb : ∀ l t g, b.Aw (perS t) l g = x (l, t, g)) (feasK : (k : StCol nl ni) → (Fin nl × JS k.n → ℝ) → Prop)
    (ks pre : List (StCol nl ni)) (hn : ∀ k ∈ ks, k.n = nk) (hsK : ∀ k ∈ ks, RightQP (feasK k) k.solA)
    (hneK : ∀ k ∈ ks, ∃ z, feasK k z) (asum : Fin 2 → Fin ni → ℝ) :
    ∃ a ks', colLoopSt d q b r true δ (some x) asum pre ks = .ok (a, pre ++ ks') ∧
      List.Forall₂ (Spec.Overwritten b) ks ks' := by
  induction ks generalizing pre asum with
  | nil => exact ⟨asum, [], by rw [colLoopSt, List.append_nil], List.Forall₂.nil⟩
  | cons k ks ih =>
    have hk := List.mem_cons_self (a := k) (l := ks)
    obtain ⟨a', k', h1, h2⟩ : ∃ a' k', colStepSt d q b r true δ (some x) (sumBySt (pre ++ k :: ks)) asum k =
        .ok (a', k') ∧ Spec.Overwritten b k k' := by
      obtain ⟨z, hz⟩ := (hsK k hk).complete (k.P d r q δ)
        (fun a => - XwV (k.w r q) (Xst (k.data d) r) (fun l s => netSt (d.y s.2) r (fun t => baseSt d b l t s.2 +
          (asum t s.2 - k.nonA t s.2) + (sumBySt (pre ++ k :: ks) l t s.2 - k.byA l t s.2)) s.1) a)
        (XwX_pdRidge _ _ _ (k.w_nonneg r q hq) hδ) (hneK k hk)
      unfold colStepSt
      simp only [if_true, hz]
      cases hw : k.wi
      · refine ⟨_, _, rfl, rfl, hw.symm, ?_⟩
        intro t l c g hcg
        simp only [Bool.false_eq_true, if_false, resAt, hb]
        rw [dif_pos (by rw [hcg]; exact g.2)]
        congr 2
        exact congrArg _ (Fin.ext hcg)
      · refine ⟨_, _, rfl, rfl, hw.symm, ?_⟩
        intro t l c g hcg
        simp only [if_true, resAt, hb]
        rw [dif_pos (by rw [hcg]; exact g.2)]
        congr 2
        exact congrArg _ (Fin.ext hcg)
    obtain ⟨a, ks', h3, h4⟩ := ih (pre ++ [k']) (fun k hk => hn k (List.mem_cons_of_mem _ hk))
      (fun k hk => hsK k (List.mem_cons_of_mem _ hk)) (fun k hk => hneK k (List.mem_cons_of_mem _ hk)) a'
    refine ⟨a, k' :: ks', ?_, List.Forall₂.cons h2 h4⟩
    rw [colLoopSt, h1]
    simpa [bind, Except.bind] using h3

theorem colLoopSt_sum [NeZero nl] (d : DData ni nk) (q : Fin ni → Fin nl → ℝ) (b : DBase nl nk) (r : Rhos)
    (updA : Bool) (δ : ℝ) (res : Option (Fin nl × JS nk → ℝ)) (ks pre : List (StCol nl ni))
    (x : (Fin 2 → Fin ni → ℝ) × List (StCol nl ni))
    (h : colLoopSt d q b r updA δ res (sumNonSt (pre ++ ks)) pre ks = .ok x) : x.1 = sumNonSt x.2 := by
  induction ks generalizing pre x with
  | nil => rw [colLoopSt] at h; cases h; simp
  | cons k ks ih =>
    rw [colLoopSt] at h
    rcases h1 : colStepSt d q b r updA δ res (sumBySt (pre ++ k :: ks)) (sumNonSt (pre ++ k :: ks)) k with e | y
    · rw [h1] at h; cases h
    · rw [h1] at h
      simp only [bind, Except.bind] at h
      have hy : y.1 = sumNonSt ((pre ++ [y.2]) ++ ks) := by
        have key : ∀ k' : StCol nl ni, (fun t i => sumNonSt (pre ++ k :: ks) t i - k.nonA t i + k'.nonA t i) =
            sumNonSt ((pre ++ [k']) ++ ks) := by
          intro k'
          funext t i
          simp [sumNonSt]
          ring
        unfold colStepSt at h1
        simp only at h1
        repeat' split at h1
        all_goals first
          | cases h1; exact key _
          | cases h1
      rw [hy] at h
      exact ih _ _ h

/-! ## Theorems -/

/-- C95 fails for stayers: a control with a number of categories other than the number of firm types always makes the
update raise. -/
theorem C95_stayers_raise [NeZero nl] (hnk : 0 < nk) (d : DData ni nk) (q : Fin ni → Fin nl → ℝ) (b : DBase nl nk)
    (r : Rhos) (updA updS : Bool) (δ : ℝ) (sA sS : QP (Fin nl × JS nk)) (ks : List (StCol nl ni))
    (asum : Fin 2 → Fin ni → ℝ) (k : StCol nl ni) (hk : k ∈ ks) (hn : k.n ≠ nk) :
    mstepStC d q b r updA updS δ sA sS ks asum = .error "ValueError" := by
  unfold mstepStC
  rcases ordersSt_ok (nl := nl) hnk (Nat.pos_of_ne_zero (NeZero.ne nl)) ks with ⟨-, h⟩ | ⟨h, -⟩
  · exact absurd (h k hk) hn
  · rw [h]; rfl

/-- C95 fails for stayers: whatever the data, the constraints on the controls and their current effects, after an
update of the means every control's effects are the effects of the firm types with the same numbers (of the first
worker type if the control does not interact), not the control's own least squares estimates. -/
theorem C95_stayers_overwritten [NeZero nl] (hnk : 0 < nk) (d : DData ni nk) (q : Fin ni → Fin nl → ℝ)
    (hq : ∀ i l, 0 ≤ q i l) (b : DBase nl nk) (r : Rhos) (δ : ℝ) (hδ : 0 < δ) (sA sS : QP (Fin nl × JS nk))
    (ks : List (StCol nl ni)) (hn : ∀ k ∈ ks, k.n = nk) (feas : (Fin nl × JS nk → ℝ) → Prop) (hs : RightQP feas sA)
    (hne : ∃ z, feas z) (feasK : (k : StCol nl ni) → (Fin nl × JS k.n → ℝ) → Prop)
    (hsK : ∀ k ∈ ks, RightQP (feasK k) k.solA) (hneK : ∀ k ∈ ks, ∃ z, feasK k z) (asum : Fin 2 → Fin ni → ℝ) :
    ∃ b' ks' asum', mstepStC d q b r true false δ sA sS ks asum = .ok (b', ks', asum') ∧
      List.Forall₂ (Spec.Overwritten b') ks ks' := by
  obtain ⟨x, hx⟩ := hs.complete (XwX (wSt d b r q) (Xst d r) δ)
    (fun a => - XwV (wSt d b r q) (Xst d r) (fun l s => netSt (d.y s.2) r (fun t => asum t s.2 + sumBySt ks l t s.2)
      s.1) a) (XwX_pdRidge _ _ _ (wSt_nonneg d b r q hq) hδ) hne
  unfold mstepStC
  rcases ordersSt_ok (nl := nl) hnk (Nat.pos_of_ne_zero (NeZero.ne nl)) ks with ⟨ho, -⟩ | ⟨-, k, hk, h⟩
  swap
  · exact absurd (hn k hk) h
  simp only [ho, bind, Except.bind, if_true, solveASt, baseRes, hx, Bool.false_eq_true, if_false]
  obtain ⟨a, ks', h1, h2⟩ := colLoopSt_over d q hq
    { b with Aw := Function.update (Function.update b.Aw .p2s fun l k => x (l, 0, k)) .p3s fun l k => x (l, 1, k) }
    r δ hδ x (by
      intro l t g
      fin_cases t
      · simp [perS, Function.update]
      · simp [perS]) feasK ks [] hn hsK hneK asum
  simp only [List.nil_append] at h1
  exact ⟨_, _, _, by rw [h1], h2⟩

/-- C95 fails for stayers: with one worker type, a control that repeats the firm type and no effects of it so far, the
firm types' effects are fitted to the wages and then added a second time. -/
theorem C95_stayers_twice (hnk : 0 < nk) (d : DData ni nk) (q : Fin ni → Fin 1 → ℝ) (hq : ∀ i l, 0 ≤ q i l)
    (b : DBase 1 nk) (r : Rhos) (δ : ℝ) (hδ : 0 < δ) (sA sS sK : QP (Fin 1 × JS nk))
    (feas feasK : (Fin 1 × JS nk → ℝ) → Prop) (hs : RightQP feas sA) (hsK : RightQP feasK sK) (hne : ∃ z, feas z)
    (hneK : ∃ z, feasK z) (Aw Sw : Fin 2 → Fin 1 → Fin nk → ℝ) (Sn : Fin 2 → Fin nk → ℝ) :
    let k : StCol 1 ni := ⟨nk, false, fun _ => d.G 0, Aw, Sw, fun _ _ => 0, Sn, sK, sS⟩
    ∃ b' k' asum', mstepStC d q b r true false δ sA sS [k] (sumNonSt [k]) = .ok (b', [k'], asum') ∧
      b' = mstepSt d q b r true false δ sA sS ∧
      ∀ t i, b'.Aw (perS t) 0 (d.G 0 i) + asum' t i = 2 * b'.Aw (perS t) 0 (d.G 0 i) := by
  intro k
  have h0 : sumNonSt [k] = fun _ _ => 0 := by funext t i; simp [sumNonSt, StCol.nonA, k]
  have hb0 : sumBySt [k] = fun _ _ _ => 0 := by funext l t i; simp [sumBySt, StCol.byA, k]
  obtain ⟨x, hx⟩ := hs.complete (XwX (wSt d b r q) (Xst d r) δ)
    (fun a => - XwV (wSt d b r q) (Xst d r) (fun l s => netSt (d.y s.2) r (fun t => 0 + 0) s.1) a)
    (XwX_pdRidge _ _ _ (wSt_nonneg d b r q hq) hδ) hne
  have hy : (fun (l : Fin 1) (s : Fin 2 × Fin ni) => netSt (d.y s.2) r (fun _ => 0 + 0) s.1) = fun _ => ySt d r := by
    funext l ⟨t, i⟩
    fin_cases t <;> simp [netSt, ySt]
  obtain ⟨z, hz⟩ := hsK.complete (k.P d r q δ)
        (fun a => - XwV (k.w r q) (Xst (k.data d) r) (fun l s => netSt (d.y s.2) r (fun t =>
          baseSt d { b with Aw := Function.update (Function.update b.Aw .p2s fun l k => x (l, 0, k)) .p3s (fun l k =>
                                    x (l, 1, k)) } l t s.2 + (0 - k.nonA t s.2) + (0 - k.byA l t s.2)) s.1) a)
        (XwX_pdRidge _ _ _ (k.w_nonneg r q hq) hδ) hneK
  have hz' : k.solA (k.P d r q δ)
        (fun a => - XwV (k.w r q) (Xst (k.data d) r) (fun l s => netSt (d.y s.2) r (fun t =>
          baseSt d { b with Aw := Function.update (Function.update b.Aw .p2s fun l k => x (l, 0, k)) .p3s (fun l k =>
                                    x (l, 1, k)) } l t s.2 + (0 - k.nonA t s.2) + (0 - k.byA l t s.2)) s.1) a) = .ok (some z) := hz
  unfold mstepStC
  rcases ordersSt_ok (nl := 1) hnk (by norm_num) [k] with ⟨ho, -⟩ | ⟨-, k', hk', h⟩
  swap
  · simp only [List.mem_singleton] at hk'; subst hk'; exact absurd rfl h
  have hkw : k.wi = false := rfl
  simp only [ho, bind, Except.bind, if_true, solveASt, baseRes, h0, hb0, hx, Bool.false_eq_true, if_false, colLoopSt,
    colStepSt, List.nil_append, hz', hkw]
  refine ⟨_, _, _, rfl, ?_, ?_⟩
  · rw [hy] at hx
    simp only [mstepSt, if_true, Bool.false_eq_true, if_false, solveASt, hx]
  · intro t i
    have : ∀ g : Fin nk, resAt x nk 0 t g = x (0, t, g) := fun g => by simp [resAt, g.2]
    have e : (Function.update (Function.update b.Aw .p2s fun l k => x (l, 0, k)) .p3s fun l k => x (l, 1, k))
        (perS t) 0 (d.G 0 i) = x (0, t, d.G 0 i) := by
      fin_cases t
      · simp [perS, Function.update]
      · simp [perS]
    simp only [e]
    simp only [StCol.nonA, k, Bool.false_eq_true, if_false, this]
    ring

/-- C95 fails for stayers: if the main regression has no solution, which is otherwise passed over, a control whose own
regression has one makes the update raise. -/
theorem C95_stayers_no_solution [NeZero nl] (hnk : 0 < nk) (d : DData ni nk) (q : Fin ni → Fin nl → ℝ)
    (hq : ∀ i l, 0 ≤ q i l) (b : DBase nl nk) (r : Rhos) (updS : Bool) (δ : ℝ) (hδ : 0 < δ)
    (sA sS : QP (Fin nl × JS nk)) (hnone : ∀ P v x, sA P v ≠ .ok (some x)) (k : StCol nl ni) (ks : List (StCol nl ni))
    (hn : ∀ k' ∈ k :: ks, k'.n = nk) (feasK : (Fin nl × JS k.n → ℝ) → Prop) (hsK : RightQP feasK k.solA)
    (hneK : ∃ z, feasK z) (asum : Fin 2 → Fin ni → ℝ) :
    mstepSt d q b r true false δ sA sS = b ∧
      mstepStC d q b r true updS δ sA sS (k :: ks) asum = .error "AttributeError" := by
  have hres : ∀ P v, baseRes sA P v = none := by
    intro P v
    unfold baseRes
    rcases h : sA P (fun a => - v a) with e | _ | x
    · rfl
    · rfl
    · exact absurd h (hnone _ _ _)
  have hA : ∀ P v, solveASt sA P v b = b := by
    intro P v
    unfold solveASt
    rcases h : sA P (fun a => - v a) with e | _ | x
    · rfl
    · rfl
    · exact absurd h (hnone _ _ _)
  refine ⟨by simp only [mstepSt, if_true, hA, Bool.false_eq_true, if_false], ?_⟩
  obtain ⟨z, hz⟩ := hsK.complete (k.P d r q δ)
        (fun a => - XwV (k.w r q) (Xst (k.data d) r) (fun l s => netSt (d.y s.2) r (fun t => baseSt d b l t s.2 +
          (asum t s.2 - k.nonA t s.2) + (sumBySt (k :: ks) l t s.2 - k.byA l t s.2)) s.1) a)
        (XwX_pdRidge _ _ _ (k.w_nonneg r q hq) hδ) hneK
  unfold mstepStC
  rcases ordersSt_ok (nl := nl) hnk (Nat.pos_of_ne_zero (NeZero.ne nl)) (k :: ks) with ⟨ho, -⟩ | ⟨-, k', hk', h⟩
  swap
  · exact absurd (hn k' hk') h
  simp only [ho, bind, Except.bind, if_true, hres, hA, colLoopSt, colStepSt, List.nil_append, hz]

/-- C95: for stayers too the running sum of the controls' effects is kept equal to their sum. -/
theorem C95_stayers_running_sum [NeZero nl] (d : DData ni nk) (q : Fin ni → Fin nl → ℝ) (b : DBase nl nk) (r : Rhos)
    (updA updS : Bool) (δ : ℝ) (sA sS : QP (Fin nl × JS nk)) (ks ks' : List (StCol nl ni)) (b' : DBase nl nk)
    (asum' : Fin 2 → Fin ni → ℝ)
    (h : mstepStC d q b r updA updS δ sA sS ks (sumNonSt ks) = .ok (b', ks', asum')) : asum' = sumNonSt ks' := by
  unfold mstepStC at h
  simp only [bind, Except.bind] at h
  rcases ho : ordersSt nl nk ks with e | u
  · rw [ho] at h; cases h
  rw [ho] at h
  simp only at h
  split at h
  · cases h
  · rename_i x hx
    have hsum := colLoopSt_sum d q _ r updA δ _ ks [] x hx
    simp only [Except.ok.injEq, Prod.mk.injEq] at h
    obtain ⟨-, h2, h3⟩ := h
    rw [← h3, hsum, ← h2]
    cases updS
    · rfl
    · funext t i
      simp only [if_true, sumNonSt, List.map_map]
      congr 1
      refine List.map_congr_left fun k _ => ?_
      simp only [Function.comp, solveSColSt]
      split
      · split <;> rfl
      · rfl
      · rfl

theorem qpVal_update {ι : Type} [Fintype ι] [DecidableEq ι] (P : ι → ι → ℝ) (v x : ι → ℝ) (a0 : ι) (δ z : ℝ)
    (hr : ∀ a, P a0 a = if a0 = a then δ else 0) (hc : ∀ a, P a a0 = if a = a0 then δ else 0) (hv : v a0 = 0) :
    qpVal P v (Function.update x a0 z) - qpVal P v x = δ / 2 * (z ^ 2 - x a0 ^ 2) := by
  have key : ∀ u : ι → ℝ, qpVal P v u = (δ * u a0 ^ 2 + ∑ a ∈ univ.erase a0, ∑ b ∈ univ.erase a0, u a * P a b * u b) / 2 +
      ∑ a ∈ univ.erase a0, v a * u a := by
    intro u
    unfold qpVal
    have e1 : ∑ b, u a0 * P a0 b * u b = δ * u a0 ^ 2 := by
      simp only [hr, mul_ite, mul_zero, ite_mul, zero_mul, Finset.sum_ite_eq, mem_univ, if_true]; ring
    have e2 : ∀ a ∈ univ.erase a0, ∑ b, u a * P a b * u b = ∑ b ∈ univ.erase a0, u a * P a b * u b := by
      intro a ha
      rw [← Finset.add_sum_erase univ _ (mem_univ a0), hc, if_neg (Finset.ne_of_mem_erase ha)]
      ring
    rw [← Finset.add_sum_erase univ (fun a => ∑ b, u a * P a b * u b) (mem_univ a0),
      ← Finset.add_sum_erase univ (fun a => v a * u a) (mem_univ a0), e1, Finset.sum_congr rfl e2, hv]
    ring
  have hu : ∀ a ∈ univ.erase a0, Function.update x a0 z a = x a := fun a ha =>
    Function.update_of_ne (Finset.ne_of_mem_erase ha) _ _
  have s1 : ∑ a ∈ univ.erase a0, ∑ b ∈ univ.erase a0, Function.update x a0 z a * P a b * Function.update x a0 z b =
      ∑ a ∈ univ.erase a0, ∑ b ∈ univ.erase a0, x a * P a b * x b :=
    Finset.sum_congr rfl fun a ha => Finset.sum_congr rfl fun b hb => by rw [hu a ha, hu b hb]
  have s2 : ∑ a ∈ univ.erase a0, v a * Function.update x a0 z a = ∑ a ∈ univ.erase a0, v a * x a :=
    Finset.sum_congr rfl fun a ha => by rw [hu a ha]
  rw [key, key, s1, s2, Function.update_self]
  ring

theorem solveSColSt_third [NeZero nl] (d : DData ni nk) (q : Fin ni → Fin nl → ℝ) (hq : ∀ i l, 0 ≤ q i l) (r : Rhos) (δ : ℝ)
    (hδ : 0 < δ) (k : StCol nl ni) (lb : ℝ) (hlb : 0 ≤ lb) (hs : RightQP (fun x => ∀ a, lb ≤ x a) k.solS) (c : Fin k.n)
    (hc : ∀ i, k.c 0 i ≠ c) (E : Fin nl → Fin 2 × Fin ni → ℝ) :
    let k' := solveSColSt k (k.P d r q δ) (XwV (k.w r q) (Xst (k.data d) r) E)
    k'.wi = k.wi ∧ ∃ h : k'.n = k.n, ∀ l,
      (if k'.wi then k'.Sw 1 l (Fin.cast h.symm c) else k'.Sn 1 (Fin.cast h.symm c)) = √lb := by
  intro k'
  have hX : ∀ s, Xst (k.data d) r s (1, c) = 0 := by
    intro s
    obtain ⟨t, i⟩ := s
    have : (k.data d).G 0 i ≠ c := hc i
    fin_cases t <;> simp [Xst, this]
  have hrow : ∀ l a, k.P d r q δ (l, 1, c) a = if (l, (1, c)) = a then δ else 0 := by
    intro l a; simp only [StCol.P, XwX, hX, mul_zero, zero_mul, Finset.sum_const_zero, ite_self, zero_add]
  have hcol : ∀ l a, k.P d r q δ a (l, 1, c) = if a = (l, (1, c)) then δ else 0 := by
    intro l a; simp only [StCol.P, XwX, hX, mul_zero, Finset.sum_const_zero, ite_self, zero_add]
  obtain ⟨x, hx⟩ := hs.complete (k.P d r q δ) (fun a => - XwV (k.w r q) (Xst (k.data d) r) E a)
    (XwX_pdRidge _ _ _ (k.w_nonneg r q hq) hδ) ⟨fun _ => lb, fun _ => le_rfl⟩
  obtain ⟨hf, hmin⟩ := hs.sound _ _ _ hx
  have hval : ∀ l, x (l, 1, c) = lb := by
    intro l
    have h1 := hmin (Function.update x (l, 1, c) lb) (by
      intro a
      by_cases ha : a = (l, 1, c)
      · rw [ha, Function.update_self]
      · rw [Function.update_of_ne ha]; exact hf a)
    have h2 := qpVal_update (k.P d r q δ) (fun a => - XwV (k.w r q) (Xst (k.data d) r) E a) x (l, 1, c) δ lb (hrow l)
      (hcol l) (by simp [XwV, hX])
    have h3 := hf (l, 1, c)
    have h4 : 0 ≤ δ / 2 * (lb ^ 2 - x (l, 1, c) ^ 2) := by linarith
    have h5 : 0 ≤ lb ^ 2 - x (l, 1, c) ^ 2 := by
      by_contra hneg
      have := mul_neg_of_pos_of_neg (half_pos hδ) (not_le.mp hneg)
      linarith
    exact le_antisymm (abs_le_of_sq_le_sq' (by linarith) hlb).2 h3
  by_cases hw : k.wi = true
  · have e : k' = { k with Sw := fun t l c => √(x (l, t, c)) } := by simp only [k', solveSColSt, hx, if_pos hw]
    clear_value k'
    subst e
    refine ⟨rfl, rfl, fun l => ?_⟩
    show (if k.wi = true then √(x (l, 1, c)) else k.Sn 1 c) = √lb
    rw [if_pos hw, hval]
  · have e : k' = { k with Sn := fun t c => √(x (0, t, c)) } := by simp only [k', solveSColSt, hx, if_neg hw]
    clear_value k'
    subst e
    refine ⟨rfl, rfl, fun l => ?_⟩
    show (if k.wi = true then k.Sw 1 l c else √(x (0, 1, c))) = √lb
    rw [if_neg hw, hval]

/-- C95 fails for stayers: categories of the third period are read from the second one (`CC1` for `'3s'`,
blm_dynamic.py:3227).  A category that workers have only in the third period gets the lowest standard deviation the
constraint allows, whatever the wages of these workers. -/
theorem C95_stayers_third_period [NeZero nl] (d : DData ni nk) (q : Fin ni → Fin nl → ℝ) (hq : ∀ i l, 0 ≤ q i l)
    (b : DBase nl nk) (r : Rhos) (δ : ℝ) (hδ : 0 < δ) (sA sS : QP (Fin nl × JS nk)) (k : StCol nl ni) (lb : ℝ)
    (hlb : 0 ≤ lb) (hs : RightQP (fun x => ∀ a, lb ≤ x a) k.solS) (c : Fin k.n) (hc : ∀ i, k.c 0 i ≠ c) (hn : k.n = nk)
    (hnk : 0 < nk) (asum : Fin 2 → Fin ni → ℝ) :
    ∃ b' k' asum', mstepStC d q b r false true δ sA sS [k] asum = .ok (b', [k'], asum') ∧ k'.wi = k.wi ∧
      ∃ h : k'.n = k.n, ∀ l, (if k'.wi then k'.Sw 1 l (Fin.cast h.symm c) else k'.Sn 1 (Fin.cast h.symm c)) = √lb := by
  unfold mstepStC
  rcases ordersSt_ok (nl := nl) hnk (Nat.pos_of_ne_zero (NeZero.ne nl)) [k] with ⟨ho, -⟩ | ⟨-, k', hk', h⟩
  swap
  · simp only [List.mem_singleton] at hk'; subst hk'; exact absurd hn h
  simp only [ho, bind, Except.bind, Bool.false_eq_true, if_false, if_true, colLoopSt, colStepSt, List.nil_append,
    List.map_cons, List.map_nil]
  exact ⟨_, _, _, rfl, solveSColSt_third d q hq r δ hδ k lb hlb hs c hc _⟩

/-- Non-vacuity of `C95_stayers_third_period`: three categories, of which the last occurs only in the third period. -/
example : ∃ k : StCol 2 5, ∃ c : Fin k.n, k.n = 3 ∧ RightQP (fun x => ∀ a, (1 / 100 : ℝ) ≤ x a) k.solS ∧
    (∀ i, k.c 0 i ≠ c) ∧ ∀ i, k.c 1 i = c := by
  obtain ⟨sA, hA⟩ := rightQP_bound (Fin 2 × JS 3) (1 / 100)
  exact ⟨⟨3, false, fun t _ => if t = 0 then 0 else 2, fun _ _ _ => 0, fun _ _ _ => 1, fun _ _ => 0, fun _ _ => 1, sA, sA⟩,
    2, rfl, hA, fun i => show (0 : Fin 3) ≠ 2 by decide, fun i => rfl⟩

/-- The hypotheses of C95's theorems on stayers can be met: right solvers, a solver without solutions, and a control
that interacts with worker types beside one that does not. -/
example : ∃ (sA s0 : QP (Fin 2 × JS 3)) (ks : List (StCol 2 5)) (feasK : (k : StCol 2 5) → (Fin 2 × JS k.n → ℝ) → Prop),
    RightQP (fun _ => True) sA ∧ (∀ P v x, s0 P v ≠ .ok (some x)) ∧ (ks.map StCol.wi = [true, false]) ∧
    (∀ k ∈ ks, k.n = 3) ∧ (∀ k ∈ ks, RightQP (feasK k) k.solA) ∧ (∀ k ∈ ks, ∃ z, feasK k z) := by
  obtain ⟨sA, hA⟩ := rightQP_free (Fin 2 × JS 3)
  refine ⟨sA, fun _ _ => .error "ValueError",
    [⟨3, true, fun t i => ⟨(i.1 + t.1) % 3, Nat.mod_lt _ (by norm_num)⟩, fun _ _ _ => 0, fun _ _ _ => 1, fun _ _ => 0,
      fun _ _ => 1, sA, sA⟩,
     ⟨3, false, fun _ i => ⟨i.1 / 2, by omega⟩, fun _ _ _ => 0, fun _ _ _ => 1, fun _ _ => 0,
      fun _ _ => 1, sA, sA⟩], fun _ _ => True, hA, by simp, rfl, by simp, ?_, by simp⟩
  intro k hk
  simp only [List.mem_cons, List.not_mem_nil, or_false] at hk
  rcases hk with rfl | rfl <;> exact hA

end Pytwoway.Dynamic
