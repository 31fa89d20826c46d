import Verif.BLMDyn.Invariance
import Verif.BLMDyn.ControlsTight

/-!
# Estimates of the dynamic model with categorical controls: order, numbering and units (C121)

As `Invariance.lean`, for the movers' loop with controls; the categories of every control may be numbered in another way
too.  The order of the controls is kept: their effects are updated one after the other.
-/

namespace Pytwoway.Dynamic

open Finset Pytwoway.Sim.Dyn Pytwoway.BLM

variable {ni nl nk : ℕ}

/-! ## Specification -/

/-- The effects of all periods are the same for all worker types: the constraint the package adds for a control without
interaction (blm_dynamic.py:1371-1373). -/
def Spec.FlatAll {n : ℕ} (x : Fin nl × JM true true n → ℝ) : Prop := ∀ l l' p c, x (l, p, c) = x (l', p, c)

namespace Spec.Rewriting

/-- The same rewriting, with a control's categories in place of the firm types. -/
def withFirm {n : ℕ} (g : Spec.Rewriting ni nl nk) (π : Equiv.Perm (Fin n)) : Spec.Rewriting ni nl n :=
  ⟨g.row, g.worker, π, g.scale, g.scale_pos⟩

variable (g : Spec.Rewriting ni nl nk)

/-- The same control written down in the new way, its categories numbered by `π`, with constraints that say the same. -/
inductive SameCol : CatCol nl ni → CatCol nl ni → Prop
  | mk (n : ℕ) (wi : Bool) (π : Equiv.Perm (Fin n)) (c c' : Fin 2 → Fin ni → Fin n)
      (Aw Aw' Sw Sw' : Per → Fin nl → Fin n → ℝ) (An An' Sn Sn' : Per → Fin n → ℝ)
      (solA solA' solS solS' : QP (Fin nl × JM true true n)) (FA FA' FS FS' : (Fin nl × JM true true n → ℝ) → Prop)
      (hc : ∀ t i, c' t (g.row i) = π (c t i))
      (hAw : ∀ p l a, Aw' p (g.worker l) (π a) = g.scale * Aw p l a)
      (hSw : ∀ p l a, Sw' p (g.worker l) (π a) = g.scale * Sw p l a)
      (hAn : ∀ p a, An' p (π a) = g.scale * An p a)
      (hSn : ∀ p a, Sn' p (π a) = g.scale * Sn p a)
      (hsA : Spec.SameQP (g.withFirm π).idx g.scale FA FA' solA solA')
      (hsS : Spec.SameQP (g.withFirm π).idx (g.scale ^ 2) FS FS' solS solS')
      (hfA : wi = false → ∀ x, FA x → Spec.FlatAll x)
      (hfS : wi = false → ∀ x, FS x → Spec.FlatAll x) :
      SameCol ⟨n, wi, c, Aw, Sw, An, Sn, solA, solS⟩ ⟨n, wi, c', Aw', Sw', An', Sn', solA', solS'⟩

/-- Sums of effects over the rows. -/
def SameSum {P : Type} (f f' : P → Fin ni → ℝ) : Prop := ∀ p i, f' p (g.row i) = g.scale * f p i

/-- States of the movers' estimation with controls that are the same up to the rewriting. -/
structure SameMvC (s s' : CState nl nk ni) : Prop where
  params : g.SameParams s.base s'.base
  cols : List.Forall₂ g.SameCol s.cols s'.cols
  asum : g.SameSum s.asum s'.asum
  rhos : s'.r = s.r
  props : g.SamePk1 s.pk1 s'.pk1
  liks : s'.liks = s.liks.map (· - g.likShift)

/-! ## Lemmas -/

variable {g} {d d' : DData ni nk} {b b' : DBase nl nk}

theorem SameCol.nonA {k k' : CatCol nl ni} (h : g.SameCol k k') (p : Per) (i : Fin ni) :
    k'.nonA p (g.row i) = g.scale * k.nonA p i := by
  cases h with
  | mk n wi π c c' Aw Aw' Sw Sw' An An' Sn Sn' solA solA' solS solS' FA FA' FS FS' hc hAw hSw hAn hSn =>
    unfold CatCol.nonA
    simp only [hc, hAn]
    split <;> simp

theorem SameCol.nonS {k k' : CatCol nl ni} (h : g.SameCol k k') (p : Per) (i : Fin ni) :
    k'.nonS p (g.row i) = g.scale ^ 2 * k.nonS p i := by
  cases h with
  | mk n wi π c c' Aw Aw' Sw Sw' An An' Sn Sn' solA solA' solS solS' FA FA' FS FS' hc hAw hSw hAn hSn =>
    unfold CatCol.nonS
    simp only [hc, hSn]
    split
    · ring
    · simp

theorem SameCol.byA {k k' : CatCol nl ni} (h : g.SameCol k k') (l : Fin nl) (p : Per) (i : Fin ni) :
    k'.byA (g.worker l) p (g.row i) = g.scale * k.byA l p i := by
  cases h with
  | mk n wi π c c' Aw Aw' Sw Sw' An An' Sn Sn' solA solA' solS solS' FA FA' FS FS' hc hAw hSw hAn hSn =>
    unfold CatCol.byA
    simp only [hc, hAw]
    split <;> simp

theorem SameCol.byS {k k' : CatCol nl ni} (h : g.SameCol k k') (l : Fin nl) (p : Per) (i : Fin ni) :
    k'.byS (g.worker l) p (g.row i) = g.scale ^ 2 * k.byS l p i := by
  cases h with
  | mk n wi π c c' Aw Aw' Sw Sw' An An' Sn Sn' solA solA' solS solS' FA FA' FS FS' hc hAw hSw hAn hSn =>
    unfold CatCol.byS
    simp only [hc, hSw]
    split
    · ring
    · simp

theorem SameCol.var {k k' : CatCol nl ni} (h : g.SameCol k k') (r : Rhos) (t : Fin 4) (i : Fin ni) :
    k'.var r (t, g.row i) = g.scale ^ 2 * k.var r (t, i) := by
  cases h with
  | mk n wi π c c' Aw Aw' Sw Sw' An An' Sn Sn' solA solA' solS solS' FA FA' FS FS' hc hAw hSw hAn hSn =>
    unfold CatCol.var
    fin_cases t <;> simp only [hc, hSn] <;> ring

theorem SameCol.w {k k' : CatCol nl ni} (h : g.SameCol k k') (r : Rhos) {q q' : Fin ni → Fin nl → ℝ}
    (hq : ∀ i l, q' (g.row i) (g.worker l) = q i l) (t : Fin 4) (i : Fin ni) (l : Fin nl) :
    k'.w r q' (g.worker l) (t, g.row i) = g.scale⁻¹ * k.w r q l (t, i) := by
  unfold CatCol.w
  rw [h.var, hq, div_sqrt_scale g.scale_pos]

theorem forall2_sum {α : Type} {R : α → α → Prop} {f f' : α → ℝ} {m : ℝ} (hf : ∀ k k', R k k' → f' k' = m * f k)
    {ks ks' : List α} (h : List.Forall₂ R ks ks') : (ks'.map f').sum = m * (ks.map f).sum := by
  induction h with
  | nil => simp
  | cons h _ ih => simp only [List.map_cons, List.sum_cons, ih, hf _ _ h]; ring

theorem orders_ren {ks ks' : List (CatCol nl ni)} (h : List.Forall₂ g.SameCol ks ks') :
    orders nl nk ks' = orders nl nk ks := by
  unfold orders
  induction h with
  | nil => rfl
  | cons h _ ih =>
    simp only [List.forM_eq_forM, List.forM_cons] at ih ⊢
    rw [ih]
    cases h
    rfl

theorem netC_ren {a a' : Per → ℝ} (m : ℝ) (r : Rhos) {y y' : Wages} (h1 : y'.y1 = m * y.y1) (h2 : y'.y2 = m * y.y2)
    (h3 : y'.y3 = m * y.y3) (h4 : y'.y4 = m * y.y4) (ha : ∀ p, a' p = m * a p) (t : Fin 4) :
    netC y' r a' t = m * netC y r a t := by
  fin_cases t <;> simp only [netC, h1, h2, h3, h4, ha] <;> ring

theorem totC_ren (hd : g.SameData d d') (hb : g.SameParams b b') {asum asum' : Per → Fin ni → ℝ} (hs : g.SameSum asum asum')
    {al al' : Fin nl → Per → Fin ni → ℝ} (hal : ∀ l p i, al' (g.worker l) p (g.row i) = g.scale * al l p i) (l : Fin nl)
    (i : Fin ni) (p : Per) : totC d' b' asum' al' (g.worker l) (g.row i) p = g.scale * totC d b asum al l i p := by
  unfold totC
  rw [a_ren hb l (fun t => hd.type t i), hs, hal]
  ring

theorem netTot_ren (hd : g.SameData d d') (hb : g.SameParams b b') (r : Rhos) {asum asum' : Per → Fin ni → ℝ}
    (hs : g.SameSum asum asum') {al al' : Fin nl → Per → Fin ni → ℝ}
    (hal : ∀ l p i, al' (g.worker l) p (g.row i) = g.scale * al l p i) (t : Fin 4) (i : Fin ni) (l : Fin nl) :
    netC (d'.y (g.row i)) r (totC d' b' asum' al' (g.worker l) (g.row i)) t =
      g.scale * netC (d.y i) r (totC d b asum al l i) t :=
  netC_ren g.scale r (hd.y1 i) (hd.y2 i) (hd.y3 i) (hd.y4 i) (totC_ren hd hb hs hal l i) t

/-! ## One control -/

theorem SameData.col {n : ℕ} (hd : g.SameData d d') {π : Equiv.Perm (Fin n)} {c c' : Fin 2 → Fin ni → Fin n}
    (hc : ∀ t i, c' t (g.row i) = π (c t i)) : (g.withFirm π).SameData ⟨d.y, c⟩ ⟨d'.y, c'⟩ :=
  ⟨hd.y1, hd.y2, hd.y3, hd.y4, hc⟩

theorem col_w_nonneg (k : CatCol nl ni) (r : Rhos) {q : Fin ni → Fin nl → ℝ} (hq : ∀ i l, 0 ≤ q i l) (l : Fin nl)
    (s : Fin 4 × Fin ni) : 0 ≤ k.w r q l s := div_nonneg (hq _ _) (Real.sqrt_nonneg _)

theorem solveACol_some [NeZero nl] {k : CatCol nl ni}
    {P : Fin nl × JM true true k.n → Fin nl × JM true true k.n → ℝ} {v x : Fin nl × JM true true k.n → ℝ}
    (h : k.solA P (fun a => - v a) = .ok (some x)) : solveACol k P v = writeN x k.An := by
  unfold solveACol
  rw [h]

theorem solveACol_none [NeZero nl] {k : CatCol nl ni}
    {P : Fin nl × JM true true k.n → Fin nl × JM true true k.n → ℝ} {v : Fin nl × JM true true k.n → ℝ}
    (h : ∀ x, k.solA P (fun a => - v a) ≠ .ok (some x)) : solveACol k P v = k.An := by
  unfold solveACol
  split
  · rename_i x hx; exact absurd hx (h x)
  · rfl
  · rfl

theorem solveSCol_some [NeZero nl] {k : CatCol nl ni}
    {P : Fin nl × JM true true k.n → Fin nl × JM true true k.n → ℝ} {v x : Fin nl × JM true true k.n → ℝ}
    (h : k.solS P (fun a => - v a) = .ok (some x)) : solveSCol k P v = writeN (fun a => √(x a)) k.Sn := by
  unfold solveSCol
  rw [h]

theorem solveSCol_none [NeZero nl] {k : CatCol nl ni}
    {P : Fin nl × JM true true k.n → Fin nl × JM true true k.n → ℝ} {v : Fin nl × JM true true k.n → ℝ}
    (h : ∀ x, k.solS P (fun a => - v a) ≠ .ok (some x)) : solveSCol k P v = k.Sn := by
  unfold solveSCol
  split
  · rename_i x hx; exact absurd hx (h x)
  · rfl
  · rfl

/-- Writing back a solution that does not depend on the worker type. -/
theorem writeN_ren [NeZero nl] {n : ℕ} (π : Equiv.Perm (Fin n)) {m : ℝ} {x x' : Fin nl × JM true true n → ℝ}
    (hx : ∀ l p a, x' (g.worker l, p, π a) = m * x (l, p, a)) (hf : ∀ l l' p a, x (l, p, a) = x (l', p, a))
    {old old' : Per → Fin n → ℝ} (ho : ∀ p a, old' p (π a) = m * old p a) (p : Per) (a : Fin n) :
    writeN x' old' p (π a) = m * writeN x old p a := by
  unfold writeN
  split
  · rename_i h
    have := hx (g.worker.symm 0) ⟨p, h⟩ a
    rw [g.worker.apply_symm_apply] at this
    rw [this, hf _ 0]
  · exact ho _ _

theorem colStep_ren [NeZero nl] (hd : g.SameData d d') (hb : g.SameParams b b') (r : Rhos) {q q' : Fin ni → Fin nl → ℝ}
    (hq0 : ∀ i l, 0 ≤ q i l) (hq : ∀ i l, q' (g.row i) (g.worker l) = q i l) (updA : Bool) {δ : ℝ} (hδ : 0 < δ)
    {al al' : Fin nl → Per → Fin ni → ℝ} (hal : ∀ l p i, al' (g.worker l) p (g.row i) = g.scale * al l p i)
    {asum asum' : Per → Fin ni → ℝ} (hs : g.SameSum asum asum') {k k' : CatCol nl ni} (hk : g.SameCol k k') :
    Spec.Both (fun x x' => g.SameSum x.1 x'.1 ∧ g.SameCol x.2 x'.2) (colStep d q b r updA δ al asum k)
      (colStep d' q' b' r updA (δ / g.scale) al' asum' k') := by
  have hk0 := hk
  cases hk with
  | mk n wi π c c' Aw Aw' Sw Sw' An An' Sn Sn' solA solA' solS solS' FA FA' FS FS' hc hAw hSw hAn hSn hsA hsS hfA hfS =>
  set k : CatCol nl ni := ⟨n, wi, c, Aw, Sw, An, Sn, solA, solS⟩ with hk
  set k' : CatCol nl ni := ⟨n, wi, c', Aw', Sw', An', Sn', solA', solS'⟩ with hk'
  unfold colStep
  cases wi
  swap
  · rfl
  simp only [hk, hk', Bool.false_eq_true, if_false]
  rw [← hk, ← hk']
  have hs1 : g.SameSum (fun p i => asum p i - An p (c (slot p) i)) (fun p i => asum' p i - An' p (c' (slot p) i)) := by
    intro p i
    show _ - _ = _
    rw [hs, hc, hAn]
    ring
  have hcd := hd.col (g := g) (π := π) hc
  have hX := fun t i p a => Xmv_ren (g := g.withFirm π) (endo := true) (state := true) hcd r t i p a
  have hw := hk0.w r hq
  have hP := XwX_ren (g := g.withFirm π) hX hw δ
  have hv := XwV_ren (g := g.withFirm π) (m := g.scale)
    (Y := fun l s => netC (d.y s.2) r (totC d b (fun p i => asum p i - An p (c (slot p) i)) al l s.2) s.1)
    (Y' := fun l s => netC (d'.y s.2) r (totC d' b' (fun p i => asum' p i - An' p (c' (slot p) i)) al' l s.2) s.1)
    hX hw (netTot_ren hd hb r hs1 hal)
  have hpd := XwX_pdRidge (k.w r q) (Xmv (endo := true) (state := true) (k.data d) r) δ (col_w_nonneg k r hq0) hδ
  have hA' : ∀ p a,
      (if updA then solveACol k' (k'.P d' r q' (δ / g.scale)) (XwV (k'.w r q') (Xmv (k'.data d') r)
        fun l s => netC (d'.y s.2) r (totC d' b' (fun p i => asum' p i - An' p (c' (slot p) i)) al' l s.2) s.1) else An') p (π a) =
      g.scale * (if updA then solveACol k (k.P d r q δ) (XwV (k.w r q) (Xmv (k.data d) r)
        fun l s => netC (d.y s.2) r (totC d b (fun p i => asum p i - An p (c (slot p) i)) al l s.2) s.1) else An) p a := by
    cases updA
    · exact hAn
    · simp only [if_true]
      rcases qp_ren (inv_pos.mpr g.scale_pos) g.scale_pos hsA
        (q := fun a => - XwV (k.w r q) (Xmv (k.data d) r)
          (fun l s => netC (d.y s.2) r (totC d b (fun p i => asum p i - An p (c (slot p) i)) al l s.2) s.1) a)
        (q' := fun a => - XwV (k'.w r q') (Xmv (k'.data d') r)
          (fun l s => netC (d'.y s.2) r (totC d' b' (fun p i => asum' p i - An' p (c' (slot p) i)) al' l s.2) s.1) a)
        hP (fun a => by
          have := hv a
          rw [mul_neg, neg_inj]
          exact this) hpd with ⟨x, x', e1, e2, hx, hxx⟩ | ⟨h1, h2⟩
      · have f1 := solveACol_some (k := k) e1
        have f2 := solveACol_some (k := k') e2
        unfold CatCol.P
        erw [f1, f2]
        exact writeN_ren (g := g) π (fun l p a => hxx (l, p, a)) (hfA rfl x hx) hAn
      · have f1 := solveACol_none (k := k) h1
        have f2 := solveACol_none (k := k') h2
        unfold CatCol.P
        erw [f1, f2]
        exact hAn
  refine ⟨?_, SameCol.mk n false π c c' Aw Aw' Sw Sw' _ _ Sn Sn' solA solA' solS solS' FA FA' FS FS' hc hAw hSw hA' hSn
    hsA hsS hfA hfS⟩
  intro p i
  have e1 := hs1 p i
  have e2 := hA' p (c (slot p) i)
  rw [← hc] at e2
  exact (congrArg₂ (· + ·) e1 e2).trans (mul_add _ _ _).symm

theorem colLoop_ren [NeZero nl] (hd : g.SameData d d') (hb : g.SameParams b b') (r : Rhos) {q q' : Fin ni → Fin nl → ℝ}
    (hq0 : ∀ i l, 0 ≤ q i l) (hq : ∀ i l, q' (g.row i) (g.worker l) = q i l) (updA : Bool) {δ : ℝ} (hδ : 0 < δ)
    {al al' : Fin nl → Per → Fin ni → ℝ} (hal : ∀ l p i, al' (g.worker l) p (g.row i) = g.scale * al l p i)
    {asum asum' : Per → Fin ni → ℝ} (hs : g.SameSum asum asum') {ks ks' : List (CatCol nl ni)}
    (hk : List.Forall₂ g.SameCol ks ks') :
    Spec.Both (fun x x' => g.SameSum x.1 x'.1 ∧ List.Forall₂ g.SameCol x.2 x'.2) (colLoop d q b r updA δ al asum ks)
      (colLoop d' q' b' r updA (δ / g.scale) al' asum' ks') := by
  induction hk generalizing asum asum' with
  | nil => exact ⟨hs, .nil⟩
  | @cons k k' ks ks' h _ ih =>
    simp only [colLoop, bind, Except.bind]
    have h1 := colStep_ren hd hb r hq0 hq updA hδ hal hs h
    revert h1
    cases colStep d q b r updA δ al asum k with
    | error e =>
      cases colStep d' q' b' r updA (δ / g.scale) al' asum' k' with
      | error e' => exact fun h => h
      | ok v' => exact fun h => h.elim
    | ok v =>
      cases colStep d' q' b' r updA (δ / g.scale) al' asum' k' with
      | error e' => exact fun h => h.elim
      | ok v' =>
        rintro ⟨h2, h3⟩
        have h4 := ih h2
        simp only
        revert h4
        cases colLoop d q b r updA δ al v.1 ks with
        | error e =>
          cases colLoop d' q' b' r updA (δ / g.scale) al' v'.1 ks' with
          | error e' => exact fun h => h
          | ok v' => exact fun h => h.elim
        | ok w =>
          cases colLoop d' q' b' r updA (δ / g.scale) al' v'.1 ks' with
          | error e' => exact fun h => h.elim
          | ok w' =>
            rintro ⟨h5, h6⟩
            exact ⟨h5, .cons h3 h6⟩

/-- The new standard deviations of a control. -/
theorem colSd_ren [NeZero nl] (hd : g.SameData d d') (r : Rhos) {q q' : Fin ni → Fin nl → ℝ}
    (hq0 : ∀ i l, 0 ≤ q i l) (hq : ∀ i l, q' (g.row i) (g.worker l) = q i l) {δ : ℝ} (hδ : 0 < δ)
    {E E' : Fin nl → Fin 4 × Fin ni → ℝ} (hE : ∀ t i l, E' (g.worker l) (t, g.row i) = g.scale ^ 2 * E l (t, i))
    {k k' : CatCol nl ni} (hwi : k.wi = false) (hk : g.SameCol k k') :
    g.SameCol { k with Sn := solveSCol k (k.P d r q δ) (XwV (k.w r q) (Xmv (k.data d) r) E) }
      { k' with Sn := solveSCol k' (k'.P d' r q' (δ / g.scale)) (XwV (k'.w r q') (Xmv (k'.data d') r) E') } := by
  have hk0 := hk
  cases hk with
  | mk n wi π c c' Aw Aw' Sw Sw' An An' Sn Sn' solA solA' solS solS' FA FA' FS FS' hc hAw hSw hAn hSn hsA hsS hfA hfS =>
  set k : CatCol nl ni := ⟨n, wi, c, Aw, Sw, An, Sn, solA, solS⟩ with hk
  set k' : CatCol nl ni := ⟨n, wi, c', Aw', Sw', An', Sn', solA', solS'⟩ with hk'
  have hwi : wi = false := hwi
  have hcd := hd.col (g := g) (π := π) hc
  have hX := fun t i p a => Xmv_ren (g := g.withFirm π) (endo := true) (state := true) hcd r t i p a
  have hw := hk0.w r hq
  have hP := XwX_ren (g := g.withFirm π) hX hw δ
  have hv := XwV_ren (g := g.withFirm π) (m := g.scale ^ 2) hX hw hE
  have hpd := XwX_pdRidge (k.w r q) (Xmv (endo := true) (state := true) (k.data d) r) δ (col_w_nonneg k r hq0) hδ
  refine SameCol.mk n wi π c c' Aw Aw' Sw Sw' An An' _ _ solA solA' solS solS' FA FA' FS FS' hc hAw hSw hAn ?_
    hsA hsS hfA hfS
  rcases qp_ren (inv_pos.mpr g.scale_pos) (pow_pos g.scale_pos 2) hsS
    (q := fun a => - XwV (k.w r q) (Xmv (k.data d) r) E a) (q' := fun a => - XwV (k'.w r q') (Xmv (k'.data d') r) E' a)
    hP (fun a => by
      have := hv a
      rw [mul_neg, neg_inj]
      exact this) hpd with ⟨x, x', e1, e2, hx, hxx⟩ | ⟨h1, h2⟩
  · have f1 := solveSCol_some (k := k) e1
    have f2 := solveSCol_some (k := k') e2
    unfold CatCol.P
    erw [f1, f2]
    refine writeN_ren (g := g) π (fun l p a => ?_) (fun l l' p a => ?_) hSn
    · rw [← sqrt_scale g.scale_pos, ← hxx (l, p, a)]; rfl
    · rw [hfS hwi x hx]
  · have f1 := solveSCol_none (k := k) h1
    have f2 := solveSCol_none (k := k') h2
    unfold CatCol.P
    erw [f1, f2]
    exact hSn

theorem colLoop_wi [NeZero nl] {q : Fin ni → Fin nl → ℝ} {r : Rhos} {updA : Bool} {δ : ℝ} {al : Fin nl → Per → Fin ni → ℝ}
    {ks : List (CatCol nl ni)} {asum : Per → Fin ni → ℝ} {x} (h : colLoop d q b r updA δ al asum ks = .ok x) :
    ∀ k ∈ x.2, k.wi = false := by
  induction ks generalizing asum x with
  | nil => cases h; simp
  | cons k ks ih =>
    simp only [colLoop, bind, Except.bind] at h
    split at h
    · cases h
    · rename_i v hv
      split at h
      · cases h
      · rename_i w hw
        cases h
        intro k0 hk0
        rcases List.mem_cons.mp hk0 with rfl | hk0
        · unfold colStep at hv
          split at hv
          · cases hv
          · rename_i hwi
            simp only [Except.ok.injEq] at hv
            rw [← hv]
            simpa using hwi
        · exact ih hw k0 hk0

/-! ## M-step -/

theorem sumByA_ren {ks ks' : List (CatCol nl ni)} (h : List.Forall₂ g.SameCol ks ks') (l : Fin nl) (p : Per) (i : Fin ni) :
    sumByA ks' (g.worker l) p (g.row i) = g.scale * sumByA ks l p i :=
  forall2_sum (fun _ _ h => h.byA l p i) h

theorem sumByS_ren {ks ks' : List (CatCol nl ni)} (h : List.Forall₂ g.SameCol ks ks') (l : Fin nl) (p : Per) (i : Fin ni) :
    sumByS ks' (g.worker l) p (g.row i) = g.scale ^ 2 * sumByS ks l p i :=
  forall2_sum (fun _ _ h => h.byS l p i) h

theorem sumNonS_ren {ks ks' : List (CatCol nl ni)} (h : List.Forall₂ g.SameCol ks ks') (p : Per) (i : Fin ni) :
    sumNonS ks' p (g.row i) = g.scale ^ 2 * sumNonS ks p i :=
  forall2_sum (fun _ _ h => h.nonS p i) h

theorem mstepMvC_ren [NeZero nl] {FA FA' FS FS' : (Fin nl × JM true true nk → ℝ) → Prop}
    {sA sA' sS sS' : QP (Fin nl × JM true true nk)} (hsA : Spec.SameQP g.idx g.scale FA FA' sA sA')
    (hsS : Spec.SameQP g.idx (g.scale ^ 2) FS FS' sS sS') (hfA : ∀ x, FA x → Spec.Flat x) (hfS : ∀ x, FS x → Spec.Flat x)
    (hlow : ∀ x, FS x → ∀ l p k, p.1.isB = false → 0 < x (l, p, k))
    (hd : g.SameData d d') (hb : g.SameParams b b') (hpos : PosS b) (r : Rhos) {q q' : Fin ni → Fin nl → ℝ}
    (hq0 : ∀ i l, 0 ≤ q i l) (hq : ∀ i l, q' (g.row i) (g.worker l) = q i l) (updA updS : Bool) {δ : ℝ} (hδ : 0 < δ)
    {asum asum' : Per → Fin ni → ℝ} (hs : g.SameSum asum asum') {ks ks' : List (CatCol nl ni)}
    (hk : List.Forall₂ g.SameCol ks ks') :
    Spec.Both (fun x x' => g.SameParams x.1 x'.1 ∧ PosS x.1 ∧ List.Forall₂ g.SameCol x.2.1 x'.2.1 ∧ g.SameSum x.2.2 x'.2.2)
      (mstepMvC d q b r updA updS δ sA sS ks asum) (mstepMvC d' q' b' r updA updS (δ / g.scale) sA' sS' ks' asum') := by
  have hX := Xmv_ren (endo := true) (state := true) hd r
  have hw := wMv_ren hd hb r hq
  have hP := XwX_ren hX hw δ
  have hpd := XwX_pdRidge (wMv d b r q) (Xmv (endo := true) (state := true) d r) δ (wMv_nonneg d b r q hq0) hδ
  have hal := sumByA_ren hk
  unfold mstepMvC
  simp only [bind, Except.bind, orders_ren hk]
  cases orders nl nk ks with
  | error e => exact rfl
  | ok _ =>
    simp only
    set Y : Fin nl → Fin 4 × Fin ni → ℝ := fun l s => netC (d.y s.2) r (fun p => asum p s.2 + sumByA ks l p s.2) s.1 with hY
    set Y' : Fin nl → Fin 4 × Fin ni → ℝ :=
      fun l s => netC (d'.y s.2) r (fun p => asum' p s.2 + sumByA ks' l p s.2) s.1 with hY'
    have hYY : ∀ t i l, Y' (g.worker l) (t, g.row i) = g.scale * Y l (t, i) := fun t i l =>
      netC_ren g.scale r (hd.y1 i) (hd.y2 i) (hd.y3 i) (hd.y4 i) (fun p => by rw [hs, hal]; ring) t
    obtain ⟨h1, h2⟩ : g.SameParams
        (if updA then solveAMv sA (XwX (wMv d b r q) (Xmv d r) δ) (XwV (wMv d b r q) (Xmv d r) Y) b else b)
        (if updA then solveAMv sA' (XwX (wMv d' b' r q') (Xmv d' r) (δ / g.scale))
          (XwV (wMv d' b' r q') (Xmv d' r) Y') b' else b') ∧
        PosS (if updA then solveAMv sA (XwX (wMv d b r q) (Xmv d r) δ) (XwV (wMv d b r q) (Xmv d r) Y) b else b) := by
      cases updA
      · exact ⟨hb, hpos⟩
      · refine ⟨solveAMv_ren hsA hfA hP (XwV_ren hX hw hYY) hpd hb, ?_⟩
        obtain ⟨e1, e2⟩ := solveAMv_S sA (XwX (wMv d b r q) (Xmv d r) δ) (XwV (wMv d b r q) (Xmv d r) Y) b
        unfold PosS
        simp only [if_true, e1, e2]
        exact hpos
    generalize (if updA then solveAMv sA (XwX (wMv d b r q) (Xmv d r) δ) (XwV (wMv d b r q) (Xmv d r) Y) b else b) = c
      at h1 h2 ⊢
    generalize (if updA then solveAMv sA' (XwX (wMv d' b' r q') (Xmv d' r) (δ / g.scale))
          (XwV (wMv d' b' r q') (Xmv d' r) Y') b' else b') = c' at h1 ⊢
    have h3 := colLoop_ren hd h1 r hq0 hq updA hδ hal hs hk
    revert h3
    cases hcl : colLoop d q c r updA δ (sumByA ks) asum ks with
    | error e =>
      cases colLoop d' q' c' r updA (δ / g.scale) (sumByA ks') asum' ks' with
      | error e' => exact fun h => h
      | ok v' => exact fun h => h.elim
    | ok v =>
      cases colLoop d' q' c' r updA (δ / g.scale) (sumByA ks') asum' ks' with
      | error e' => exact fun h => h.elim
      | ok v' =>
        rintro ⟨h4, h5⟩
        simp only
        set E : Fin nl → Fin 4 × Fin ni → ℝ := fun l s => netC (d.y s.2) r (totC d c v.1 (sumByA ks) l s.2) s.1 ^ 2 with hE
        set E' : Fin nl → Fin 4 × Fin ni → ℝ :=
          fun l s => netC (d'.y s.2) r (totC d' c' v'.1 (sumByA ks') l s.2) s.1 ^ 2 with hE'
        have hEE : ∀ t i l, E' (g.worker l) (t, g.row i) = g.scale ^ 2 * E l (t, i) := fun t i l => by
          have := netTot_ren hd h1 r h4 hal t i l
          simp only [hE, hE']
          rw [this]; ring
        cases updS
        · exact ⟨h1, h2, h5, h4⟩
        · obtain ⟨h6, h7⟩ := solveSMv_ren hsS hfS hlow hP (XwV_ren hX hw hEE) hpd h1 h2
          refine ⟨h6, h7, ?_, h4⟩
          have hwi := colLoop_wi hcl
          simp only [if_true]
          clear hcl h4 hE hE'
          generalize v.2 = ks2 at h5 hwi
          generalize v'.2 = ks2' at h5
          induction h5 with
          | nil => exact .nil
          | cons h _ ih =>
            exact .cons (colSd_ren hd r hq0 hq hδ hEE (hwi _ (by simp)) h) (ih fun k hk => hwi k (by simp [hk]))

/-! ## E-step and persistence -/

theorem sum_nonneg_of {α : Type} (ks : List α) (f : α → ℝ) (h : ∀ k, 0 ≤ f k) : 0 ≤ (ks.map f).sum :=
  List.sum_nonneg fun x hx => by obtain ⟨k, -, rfl⟩ := List.mem_map.mp hx; exact h k

theorem totS_pos (hp : PosS b) (ks : List (CatCol nl ni)) (l : Fin nl) (i : Fin ni) (p : Per) :
    0 ≤ b.s2 l (fun t => d.G t i) p + sumNonS ks p i + sumByS ks l p i ∧
      (p.isB = false → 0 < b.s2 l (fun t => d.G t i) p + sumNonS ks p i + sumByS ks l p i) := by
  have h1 : 0 ≤ sumNonS ks p i := sum_nonneg_of ks _ fun k => by unfold CatCol.nonS; split <;> positivity
  have h2 : 0 ≤ sumByS ks l p i := sum_nonneg_of ks _ fun k => by unfold CatCol.byS; split <;> positivity
  have h3 : 0 ≤ b.s2 l (fun t => d.G t i) p := by unfold DBase.s2; split <;> positivity
  refine ⟨by positivity, fun hB => ?_⟩
  have : 0 < b.s2 l (fun t => d.G t i) p := by
    unfold DBase.s2
    simp only [hB, Bool.false_eq_true, if_false]
    have := hp.1 p l (d.G (slot p) i)
    positivity
  positivity

theorem lpMvC_ren (hd : g.SameData d d') {s s' : CState nl nk ni} (hs : g.SameMvC s s') (hp : PosS s.base) (i : Fin ni)
    (l : Fin nl) : lpMvC d' s' (g.row i) (g.worker l) = lpMvC d s i l - g.likShift := by
  unfold lpMvC flow
  obtain ⟨c1, c2, c3, c4, -, -⟩ := cond_pos _ s.r (totS_pos (d := d) hp s.cols l i)
  rw [lpMoversCtrl_eq, lpMoversCtrl_eq, hd.type, hd.type, hs.props, hs.rhos]
  simp only
  rw [lpM_scale g.scale_pos (m := fun p => s.base.a l (fun t => d.G t i) p + s.asum p i + sumByA s.cols l p i)
    (v := fun p => s.base.s2 l (fun t => d.G t i) p + sumNonS s.cols p i + sumByS s.cols l p i)
    (fun p => by rw [a_ren hs.params l (fun t => hd.type t i), hs.asum, sumByA_ren hs.cols]; ring)
    (fun p => by rw [s2_ren hs.params l (fun t => hd.type t i), sumNonS_ren hs.cols, sumByS_ren hs.cols]; ring)
    s.r (hd.y1 i) (hd.y2 i) (hd.y3 i) (hd.y4 i) c1 c2 c3 c4, likShift]
  ring

theorem rhosMvC_ren (hd : g.SameData d d') {s s' : CState nl nk ni} (hs : g.SameMvC s s') (o o' : MvOpts)
    (h12 : o'.upd12 = o.upd12) (h43 : o'.upd43 = o.upd43) (h32 : o'.upd32 = o.upd32) {q q' : Fin ni → Fin nl → ℝ}
    (hq : ∀ i l, q' (g.row i) (g.worker l) = q i l) : rhosMvC d' o' s' q' = rhosMvC d o s q := by
  have ha : ∀ i l p, totC d' s'.base s'.asum (sumByA s'.cols) (g.worker l) (g.row i) p =
      g.scale * totC d s.base s.asum (sumByA s.cols) l i p :=
    fun i l p => totC_ren hd hs.params hs.asum (sumByA_ren hs.cols) l i p
  have hv : ∀ i l p, s'.base.s2 (g.worker l) (fun t => d'.G t (g.row i)) p + sumNonS s'.cols p (g.row i) +
      sumByS s'.cols (g.worker l) p (g.row i) =
      g.scale ^ 2 * (s.base.s2 l (fun t => d.G t i) p + sumNonS s.cols p i + sumByS s.cols l p i) := fun i l p => by
    rw [s2_ren hs.params l (fun t => hd.type t i), sumNonS_ren hs.cols, sumByS_ren hs.cols]; ring
  unfold rhosMvC
  simp only [h12, h43, h32, hs.rhos]
  generalize ha0 : (fun i l => totC d s.base s.asum (sumByA s.cols) l i) = a
  generalize ha0' : (fun i l => totC d' s'.base s'.asum (sumByA s'.cols) l i) = a'
  generalize hv0 : (fun i l p => s.base.s2 l (fun t => d.G t i) p + sumNonS s.cols p i + sumByS s.cols l p i) = v
  generalize hv0' : (fun i l p => s'.base.s2 l (fun t => d'.G t i) p + sumNonS s'.cols p i + sumByS s'.cols l p i) = v'
  have ha : ∀ i l p, a' (g.row i) (g.worker l) p = g.scale * a i l p := by subst ha0 ha0'; exact ha
  have hv : ∀ i l p, v' (g.row i) (g.worker l) p = g.scale ^ 2 * v i l p := by subst hv0 hv0'; exact hv
  unfold update12 update43 update32m xx12 yy12 ss12
  rw [rhoUpdate_ren (g := g) g.scale_pos (X := fun i l => (d.y i).y2 - a i l .p2ma) (Y := fun i l => (d.y i).y1 - a i l .p12)
      (S := fun i l => v i l .p12 + s.r.R12 ^ 2 * v i l .p2ma) _ _ _ hq,
    rhoUpdate_ren (g := g) g.scale_pos (X := fun i l => (d.y i).y3 - a i l .p3ma) (Y := fun i l => (d.y i).y4 - a i l .p43)
      (S := fun i l => v i l .p43 + s.r.R43 ^ 2 * v i l .p3ma) _ _ _ hq,
    rhoUpdate_ren (g := g) g.scale_pos (X := fun i l => (d.y i).y2 - (a i l .p2ma + a i l .p2mb))
      (Y := fun i l => (d.y i).y3 - (a i l .p3ma + a i l .p3mb))
      (S := fun i l => v i l .p3ma + v i l .p3mb + s.r.R32 ^ 2 * (v i l .p2ma + v i l .p2mb)) _ _ _ hq]
  all_goals
    intro i l
    simp only [ha, hv, hd.y1, hd.y2, hd.y3, hd.y4]
    ring

theorem cycleCheck_ren {φ : ℕ → ℕ} (hφ : Function.Injective φ) (c : CycOpts) (iter m : ℕ) (mins : List ℕ) :
    cycleCheck c iter (φ m) (mins.map φ) = (cycleCheck c iter m mins).map (List.map φ) := by
  have hall : ∀ xs : List ℕ, ((xs.map φ).zip (xs.map φ).tail).all (fun p => p.1 != p.2) =
      (xs.zip xs.tail).all fun p => p.1 != p.2 := by
    intro xs
    rw [← List.map_tail, List.zip_map, List.all_map]
    congr 1
    funext p
    simp [bne, hφ.eq_iff, Bool.beq_eq_decide_eq]
  have happ : mins.map φ ++ [φ m] = (mins ++ [m]).map φ := by simp
  unfold cycleCheck
  simp only [happ, List.length_map]
  split
  · split
    · split
      · rw [← List.map_tail, hall]
        split <;> rfl
      · rw [hall]
        split <;> rfl
    · rfl
  · rfl

end Spec.Rewriting

open Spec.Rewriting

/-- The movers' estimation with categorical controls: order of rows, numbering of firm types, worker types and categories,
and the unit of wages (with the ridge in that unit) do not matter, as long as the constraints say the same.  The
constraints on means may depend on the lowest firm type (`FA m`), as in the code. -/
theorem C121_movers_controls [NeZero nl] (g : Spec.Rewriting ni nl nk) (hni : 0 < ni) (d d' : DData ni nk)
    (o : MvOpts) (cyc : CycOpts) (sA sA' : ℕ → QP (Fin nl × JM true true nk)) (sS sS' : QP (Fin nl × JM true true nk))
    (FA FA' : ℕ → (Fin nl × JM true true nk → ℝ) → Prop) (FS FS' : (Fin nl × JM true true nk → ℝ) → Prop)
    (minType minType' : DBase nl nk → ℕ) (φ : ℕ → ℕ) (hφ : Function.Injective φ)
    (hmin : ∀ b b', g.SameParams b b' → minType' b' = φ (minType b)) (hd : g.SameData d d') (hδ : 0 < o.δ)
    (hsA : ∀ m, Spec.SameQP g.idx g.scale (FA m) (FA' (φ m)) (sA m) (sA' (φ m)))
    (hsS : Spec.SameQP g.idx (g.scale ^ 2) FS FS' sS sS')
    (hfA : ∀ m x, FA m x → Spec.Flat x)
    (hfS : ∀ x, FS x → Spec.Flat x)
    (hlow : ∀ x, FS x → ∀ l p k, p.1.isB = false → 0 < x (l, p, k)) (fuel : ℕ) :
    ∀ (iter : ℕ) (prev : Option ℝ) (pm : ℕ) (mins : List ℕ) (s s' : CState nl nk ni), PosS s.base → g.SameMvC s s' →
      Spec.Both g.SameMvC (loopMvC d o cyc sA sS minType fuel iter prev pm mins s)
        (loopMvC d' { o with δ := o.δ / g.scale } cyc sA' sS' minType' fuel iter (prev.map (· - g.likShift)) (φ pm)
          (mins.map φ) s') := by
  induction fuel with
  | zero => intro iter prev pm mins s s' _ hs; exact hs
  | succ fuel ih =>
    intro iter prev pm mins s s' hpos hs
    have hlp := lpMvC_ren hd hs hpos
    have hq := post_shift hlp
    have hp := hs.props
    have hpk : ∀ (c : Fin nk × Fin nk) l,
        s'.pk1 ((g.firm.prodCongr g.firm c).1.val + nk * (g.firm.prodCongr g.firm c).2.val) (g.worker l) =
          s.pk1 (c.1.val + nk * c.2.val) l := fun c l => hp c.1 c.2 l
    have hlik : likOf (lpMvC d' s') (nk ^ 2) s'.pk1 (iter == 0) o.updPk o.dprior =
        likOf (lpMvC d s) (nk ^ 2) s.pk1 (iter == 0) o.updPk o.dprior - g.likShift := by
      unfold likOf
      rw [meanLse_shift hni hlp, logPk_ren codes_pairs g.worker (g.firm.prodCongr g.firm) hpk]
      ring
    have hm := hmin _ _ hs.params
    have hmb : (φ (minType s.base) == φ pm) = (minType s.base == pm) := by rw [Bool.eq_iff_iff]; simp [hφ.eq_iff]
    unfold loopMvC
    simp only [bind, Except.bind, hlik, close_shift, hm, hmb, cycleCheck_ren hφ]
    set lik := likOf (lpMvC d s) (nk ^ 2) s.pk1 (iter == 0) o.updPk o.dprior with hlikdef
    have hll : s'.liks ++ [lik - g.likShift] = (s.liks ++ [lik]).map (· - g.likShift) := by rw [hs.liks]; simp
    have hs1 : g.SameMvC { s with liks := s.liks ++ [lik] } { s' with liks := s'.liks ++ [lik - g.likShift] } :=
      ⟨hs.params, hs.cols, hs.asum, hs.rhos, hs.props, hll⟩
    split
    · exact hs1
    · cases cycleCheck cyc iter (minType s.base) mins with
      | error e => exact rfl
      | ok mins =>
      simp only [Except.map]
      have hn := nextPk_ren (n := nk ^ 2) codes_pairs g.row g.worker (g.firm.prodCongr g.firm) (κ := flow d) (κ' := flow d')
        (fun i => ⟨(d.G 0 i, d.G 1 i), rfl, by unfold flow; rw [hd.type, hd.type]; rfl⟩) hq o.updPk o.dprior hpk
      unfold stepMvC
      simp only [bind, Except.bind]
      revert hn
      cases nextPk o.updPk (nk ^ 2) (flow d) (posterior (lpMvC d s)) o.dprior s.pk1 with
      | error e =>
        cases nextPk o.updPk (nk ^ 2) (flow d') (posterior (lpMvC d' s')) o.dprior s'.pk1 with
        | error e' => exact fun h => h
        | ok v' => exact fun h => h.elim
      | ok v =>
        cases nextPk o.updPk (nk ^ 2) (flow d') (posterior (lpMvC d' s')) o.dprior s'.pk1 with
        | error e' => exact fun h => h.elim
        | ok v' =>
          intro hn
          have hv : g.SamePk1 v v' := fun k1 k2 l => hn (k1, k2) l
          simp only
          cases hc : (o.upd12 || o.upd43 || o.upd32) && iter % 2 == 1
          · cases hu : o.updA || o.updS
            · simp only [Bool.false_eq_true, if_false]
              exact ih _ (some lik) _ _ _ _ hpos ⟨hs.params, hs.cols, hs.asum, hs.rhos, hv, hll⟩
            · simp only [Bool.false_eq_true, if_false, if_true]
              have hst := mstepMvC_ren (hsA (minType s.base)) hsS (hfA _) hfS hlow hd hs.params hpos s.r
                (fun i l => (posterior_pos (lpMvC d s) i l).le) hq o.updA o.updS hδ hs.asum hs.cols
              rw [hs.rhos]
              revert hst
              cases mstepMvC d (posterior (lpMvC d s)) s.base s.r o.updA o.updS o.δ (sA (minType s.base)) sS s.cols s.asum with
              | error e =>
                cases mstepMvC d' (posterior (lpMvC d' s')) s'.base s.r o.updA o.updS (o.δ / g.scale)
                  (sA' (φ (minType s.base))) sS' s'.cols s'.asum with
                | error e' => exact fun h => h
                | ok v' => exact fun h => h.elim
              | ok w =>
                cases mstepMvC d' (posterior (lpMvC d' s')) s'.base s.r o.updA o.updS (o.δ / g.scale)
                  (sA' (φ (minType s.base))) sS' s'.cols s'.asum with
                | error e' => exact fun h => h.elim
                | ok w' =>
                  rintro ⟨h1, h2, h3, h4⟩
                  exact ih _ (some lik) _ _ _ _ h2 ⟨h1, h3, h4, rfl, hv, hll⟩
          · simp only [if_true]
            exact ih _ (some lik) _ _ _ _ hpos ⟨hs.params, hs.cols, hs.asum,
              rhosMvC_ren hd hs1 o { o with δ := o.δ / g.scale } rfl rfl rfl hq, hv, hll⟩

/-! ## The package's constraints -/

/-- Mean over the primary period (`c1 = 1`, `c2 = 0` for `'first'`; `0`, `1` for `'second'`; one half each for `'all'`). -/
def Spec.prim (c1 c2 : ℝ) (x : Fin nl × JM true true nk → ℝ) (l : Fin nl) (k : Fin nk) : ℝ :=
  c1 * x (l, ⟨.p12, rfl⟩, k) + c2 * x (l, ⟨.p43, rfl⟩, k)

/-- What the package imposes on the means of firm types when there are categorical controls (`C91_base_means_partial`):
means of worker types increase by at least `md`, and for the lowest firm type `m` some means are zero; which ones depends
on the kinds of controls. -/
structure Spec.CtrlMeans [NeZero nl] (c1 c2 md : ℝ) (all allP low lowP : Prop) (m : Fin nk)
    (x : Fin nl × JM true true nk → ℝ) : Prop where
  flat : Spec.Flat x
  mono : ∀ l l' : Fin nl, l.val + 1 = l'.val → (∑ k, Spec.prim c1 c2 x l k) / nk + md ≤ (∑ k, Spec.prim c1 c2 x l' k) / nk
  all : all → ∀ l p, x (l, p, m) = 0
  allP : allP → ∀ l, Spec.prim c1 c2 x l m = 0
  low : low → ∀ p, x (0, p, m) = 0
  lowP : lowP → Spec.prim c1 c2 x 0 m = 0

/-- As long as worker types keep their numbers, right solvers for the package's constraints are as `C121_movers_controls`
asks, with the lowest firm type and the smallest difference between worker types written in the new way. -/
theorem C121_package_constraints [NeZero nl] (g : Spec.Rewriting ni nl nk) (hg : g.worker = Equiv.refl _) (c1 c2 md : ℝ)
    (all allP low lowP : Prop) (m : Fin nk) (s s' : QP (Fin nl × JM true true nk))
    (hs : RightQP (Spec.CtrlMeans c1 c2 md all allP low lowP m) s)
    (hs' : RightQP (Spec.CtrlMeans c1 c2 (g.scale * md) all allP low lowP (g.firm m)) s') :
    Spec.SameQP g.idx g.scale (Spec.CtrlMeans c1 c2 md all allP low lowP m)
      (Spec.CtrlMeans c1 c2 (g.scale * md) all allP low lowP (g.firm m)) s s' := by
  have hg0 := g.scale_pos
  refine ⟨hs, hs', ?_, ?_⟩
  · intro x y hx hy
    have hp : ∀ l k, Spec.prim c1 c2 (fun a => (x a + y a) / 2) l k = (Spec.prim c1 c2 x l k + Spec.prim c1 c2 y l k) / 2 := by
      intro l k; unfold Spec.prim; ring
    refine ⟨?_, ?_, ?_, ?_, ?_, ?_⟩
    · intro l l' p k h
      show (_ + _) / 2 = (_ + _) / 2
      rw [hx.flat l l' p k h, hy.flat l l' p k h]
    · intro l l' h
      have h1 := hx.mono l l' h
      have h2 := hy.mono l l' h
      have e : ∀ l, (∑ k, Spec.prim c1 c2 (fun a => (x a + y a) / 2) l k) / nk =
          ((∑ k, Spec.prim c1 c2 x l k) / nk + (∑ k, Spec.prim c1 c2 y l k) / nk) / 2 := by
        intro l
        simp only [hp]
        rw [← sum_div, sum_add_distrib]
        ring
      rw [e, e]
      linarith
    · intro h l p
      show (_ + _) / 2 = 0
      rw [hx.all h, hy.all h]; norm_num
    · intro h l
      rw [hp, hx.allP h, hy.allP h]; norm_num
    · intro h p
      show (_ + _) / 2 = 0
      rw [hx.low h, hy.low h]; norm_num
    · intro h
      rw [hp, hx.lowP h, hy.lowP h]; norm_num
  · intro x x' h
    have key : ∀ l p k, x' (l, p, g.firm k) = g.scale * x (l, p, k) := fun l p k => by
      have := h (l, p, k)
      unfold Spec.Rewriting.idx at this
      rw [hg] at this
      exact this
    have hp : ∀ l k, Spec.prim c1 c2 x' l (g.firm k) = g.scale * Spec.prim c1 c2 x l k := by
      intro l k; unfold Spec.prim; rw [key, key]; ring
    have hsum : ∀ l, (∑ k, Spec.prim c1 c2 x' l k) / nk = g.scale * ((∑ k, Spec.prim c1 c2 x l k) / nk) := by
      intro l
      rw [← Equiv.sum_comp g.firm, ← mul_div_assoc, mul_sum]
      simp only [hp]
    have hz : ∀ z : ℝ, g.scale * z = 0 ↔ z = 0 := fun z => by simp [hg0.ne']
    constructor
    · rintro ⟨f, mo, a, aP, lo, lP⟩
      refine ⟨?_, ?_, ?_, ?_, ?_, ?_⟩
      · intro l l' p k hB
        have := f l l' p (g.firm k) hB
        rw [key, key] at this
        exact mul_left_cancel₀ hg0.ne' this
      · intro l l' hl
        have := mo l l' hl
        rw [hsum, hsum, ← mul_add] at this
        exact le_of_mul_le_mul_left this hg0
      · intro H l p
        exact (hz _).mp (by rw [← key]; exact a H l p)
      · intro H l
        exact (hz _).mp (by rw [← hp]; exact aP H l)
      · intro H p
        exact (hz _).mp (by rw [← key]; exact lo H p)
      · intro H
        exact (hz _).mp (by rw [← hp]; exact lP H)
    · rintro ⟨f, mo, a, aP, lo, lP⟩
      refine ⟨?_, ?_, ?_, ?_, ?_, ?_⟩
      · intro l l' p k hB
        rw [← g.firm.apply_symm_apply k, key, key, f l l' p _ hB]
      · intro l l' hl
        rw [hsum, hsum, ← mul_add]
        exact mul_le_mul_of_nonneg_left (mo l l' hl) hg0.le
      · intro H l p
        rw [key]; exact (hz _).mpr (a H l p)
      · intro H l
        rw [hp]; exact (hz _).mpr (aP H l)
      · intro H p
        rw [key]; exact (hz _).mpr (lo H p)
      · intro H
        rw [hp]; exact (hz _).mpr (lP H)

/-- With controls the numbering of the starting worker types does matter: exchanging two worker types turns means that
satisfy the constraints into means that do not. -/
theorem C121_worker_order (md : ℝ) (hmd : 0 ≤ md) : ∃ (g : Spec.Rewriting 1 2 1) (x x' : Fin 2 × JM true true 1 → ℝ),
    g.scale = 1 ∧ (∀ a, x' (g.idx a) = g.scale * x a) ∧ Spec.CtrlMeans 1 0 md False False True False 0 x ∧
      ¬ Spec.CtrlMeans 1 0 (g.scale * md) False False True False (g.firm 0) x' := by
  refine ⟨⟨1, Equiv.swap 0 1, 1, 1, one_pos⟩, fun a => if a.1 = 1 ∧ a.2.1.1.isB = false then md + 1 else 0,
    fun a => if a.1 = 0 ∧ a.2.1.1.isB = false then md + 1 else 0, rfl, ?_, ?_, ?_⟩
  · rintro ⟨l, p, k⟩
    fin_cases l <;> simp [Spec.Rewriting.idx]
  · refine ⟨?_, ?_, False.elim, False.elim, ?_, False.elim⟩
    · intro l l' p k h
      simp [h]
    · intro l l' h
      have h0 : l = 0 := Fin.ext (by have := l'.2; simp; omega)
      have h1 : l' = 1 := Fin.ext (by have := l'.2; subst h0; simp at h ⊢; omega)
      subst h0 h1
      simp [Spec.prim, Per.isB]
    · intro _ p; simp
  · intro H
    have := H.mono 0 1 rfl
    simp [Spec.prim, Per.isB] at this
    linarith

/-- What the package imposes on a control without interaction: no dependence on worker type (means), and in addition a
lower bound (variances, `lb` in the square unit). -/
theorem C121_control_constraints {n : ℕ} (g : Spec.Rewriting ni nl nk) (π : Equiv.Perm (Fin n)) (lb : ℝ)
    (s s' t t' : QP (Fin nl × JM true true n)) (hs : RightQP Spec.FlatAll s) (hs' : RightQP Spec.FlatAll s')
    (ht : RightQP (fun x => Spec.FlatAll x ∧ ∀ a, lb ≤ x a) t)
    (ht' : RightQP (fun x => Spec.FlatAll x ∧ ∀ a, g.scale ^ 2 * lb ≤ x a) t') :
    Spec.SameQP (g.withFirm π).idx g.scale Spec.FlatAll Spec.FlatAll s s' ∧
      Spec.SameQP (g.withFirm π).idx (g.scale ^ 2) (fun x => Spec.FlatAll x ∧ ∀ a, lb ≤ x a)
        (fun x => Spec.FlatAll x ∧ ∀ a, g.scale ^ 2 * lb ≤ x a) t t' := by
  have hflat : ∀ m : ℝ, 0 < m → ∀ x x' : Fin nl × JM true true n → ℝ, (∀ a, x' ((g.withFirm π).idx a) = m * x a) →
      (Spec.FlatAll x' ↔ Spec.FlatAll x) := by
    intro m hm x x' h
    have key : ∀ l p k, x' (g.worker l, p, π k) = m * x (l, p, k) := fun l p k => h (l, p, k)
    constructor
    · intro H l l' p k
      have := H (g.worker l) (g.worker l') p (π k)
      rw [key, key] at this
      exact mul_left_cancel₀ hm.ne' this
    · intro H l l' p k
      rw [← g.worker.apply_symm_apply l, ← g.worker.apply_symm_apply l', ← π.apply_symm_apply k, key, key, H _ _ p _]
  have hmid : ∀ x y : Fin nl × JM true true n → ℝ, Spec.FlatAll x → Spec.FlatAll y →
      Spec.FlatAll fun a => (x a + y a) / 2 := by
    intro x y hx hy l l' p k
    show (_ + _) / 2 = (_ + _) / 2
    rw [hx l l' p k, hy l l' p k]
  have hs2 : 0 < g.scale ^ 2 := pow_pos g.scale_pos 2
  refine ⟨⟨hs, hs', hmid, hflat _ g.scale_pos⟩, ⟨ht, ht', ?_, ?_⟩⟩
  · rintro x y ⟨hx, hx2⟩ ⟨hy, hy2⟩
    refine ⟨hmid x y hx hy, fun a => ?_⟩
    have := hx2 a
    have := hy2 a
    show lb ≤ (_ + _) / 2
    linarith
  · intro x x' h
    refine and_congr (hflat _ hs2 x x' h) ⟨fun H a => ?_, fun H a => ?_⟩
    · have := H ((g.withFirm π).idx a)
      rw [h] at this
      exact le_of_mul_le_mul_left this hs2
    · rw [← (g.withFirm π).idx.apply_symm_apply a, h]
      exact mul_le_mul_of_nonneg_left (H _) hs2.le

/-! ## The hypotheses can be met -/

theorem isClosed_flatAll {n : ℕ} : IsClosed {x : Fin nl × JM true true n → ℝ | Spec.FlatAll x} := by
  simp only [Spec.FlatAll, Set.ofPred_forall]
  exact isClosed_iInter fun l => isClosed_iInter fun l' => isClosed_iInter fun p => isClosed_iInter fun k =>
    isClosed_eq (continuous_apply _) (continuous_apply _)

/-- Every control without interaction, with the package's constraints, can be rewritten. -/
theorem Spec.Rewriting.exists_col {n : ℕ} (g : Spec.Rewriting ni nl nk) (π : Equiv.Perm (Fin n)) (lb : ℝ)
    (c : Fin 2 → Fin ni → Fin n) (An Sn : Per → Fin n → ℝ) : ∃ (k k' : CatCol nl ni) (h : k.n = n), k.wi = false ∧
      (∀ t i, (k.c t i).val = (c t i).val) ∧ (∀ p a, k.An p a = An p (Fin.cast h a)) ∧ (∀ p a, k.Sn p a = Sn p (Fin.cast h a)) ∧
      g.SameCol k k' := by
  have hcl2 : ∀ c : ℝ, IsClosed {x : Fin nl × JM true true n → ℝ | ∀ a, c ≤ x a} := by
    intro c
    rw [Set.ofPred_forall]
    exact isClosed_iInter fun a => isClosed_le continuous_const (continuous_apply a)
  obtain ⟨s, hs⟩ := rightQP_exists _ (isClosed_flatAll (nl := nl) (n := n))
  obtain ⟨t, ht⟩ := rightQP_exists (fun x : Fin nl × JM true true n → ℝ => Spec.FlatAll x ∧ ∀ a, lb ≤ x a)
    (isClosed_flatAll.inter (hcl2 lb))
  obtain ⟨t', ht'⟩ := rightQP_exists (fun x : Fin nl × JM true true n → ℝ => Spec.FlatAll x ∧ ∀ a, g.scale ^ 2 * lb ≤ x a)
    (isClosed_flatAll.inter (hcl2 _))
  obtain ⟨h1, h2⟩ := C121_control_constraints g π lb s s t t' hs hs ht ht'
  refine ⟨⟨n, false, c, fun _ _ _ => 0, fun _ _ _ => 0, An, Sn, s, t⟩, ⟨n, false, fun t i => π (c t (g.row.symm i)),
    fun _ _ _ => 0, fun _ _ _ => 0, fun p a => g.scale * An p (π.symm a), fun p a => g.scale * Sn p (π.symm a), s, t'⟩,
    rfl, rfl, fun _ _ => rfl, fun _ _ => rfl, fun _ _ => rfl, ?_⟩
  exact .mk n false π _ _ _ _ _ _ _ _ _ _ _ _ _ _ _ _ _ _ (by simp) (by simp) (by simp) (by simp) (by simp) h1 h2
    (fun _ x hx => hx) (fun _ x hx => hx.1)

/-- The package's constraints on means have a right solver. -/
theorem exists_ctrlMeans [NeZero nl] (c1 c2 md : ℝ) (all allP low lowP : Prop) (m : Fin nk) :
    ∃ s : QP (Fin nl × JM true true nk), RightQP (Spec.CtrlMeans c1 c2 md all allP low lowP m) s := by
  refine rightQP_exists _ ?_
  have hc : ∀ l k, Continuous fun x : Fin nl × JM true true nk → ℝ => Spec.prim c1 c2 x l k := by
    intro l k
    unfold Spec.prim
    fun_prop
  have e : {x : Fin nl × JM true true nk → ℝ | Spec.CtrlMeans c1 c2 md all allP low lowP m x} =
      {x | Spec.Flat x} ∩ {x | ∀ l l' : Fin nl, l.val + 1 = l'.val →
        (∑ k, Spec.prim c1 c2 x l k) / nk + md ≤ (∑ k, Spec.prim c1 c2 x l' k) / nk} ∩
      {x | all → ∀ l p, x (l, p, m) = 0} ∩ {x | allP → ∀ l, Spec.prim c1 c2 x l m = 0} ∩
      {x | low → ∀ p, x (0, p, m) = 0} ∩ {x | lowP → Spec.prim c1 c2 x 0 m = 0} := by
    ext x
    exact ⟨fun ⟨a, b, c, d, e, f⟩ => ⟨⟨⟨⟨⟨a, b⟩, c⟩, d⟩, e⟩, f⟩, fun ⟨⟨⟨⟨⟨a, b⟩, c⟩, d⟩, e⟩, f⟩ => ⟨a, b, c, d, e, f⟩⟩
  rw [e]
  refine IsClosed.inter (IsClosed.inter (IsClosed.inter (IsClosed.inter (IsClosed.inter ?_ ?_) ?_) ?_) ?_) ?_
  · simp only [Spec.Flat, Set.ofPred_forall]
    exact isClosed_iInter fun l => isClosed_iInter fun l' => isClosed_iInter fun p => isClosed_iInter fun k =>
      isClosed_iInter fun _ => isClosed_eq (continuous_apply _) (continuous_apply _)
  · simp only [Set.ofPred_forall]
    refine isClosed_iInter fun l => isClosed_iInter fun l' => isClosed_iInter fun _ => isClosed_le ?_ ?_
    · exact ((continuous_finsetSum _ fun k _ => hc l k).div_const _).add continuous_const
    · exact (continuous_finsetSum _ fun k _ => hc l' k).div_const _
  · simp only [Set.ofPred_forall]
    exact isClosed_iInter fun _ => isClosed_iInter fun l => isClosed_iInter fun p =>
      isClosed_eq (continuous_apply _) continuous_const
  · simp only [Set.ofPred_forall]
    exact isClosed_iInter fun _ => isClosed_iInter fun l => isClosed_eq (hc _ _) continuous_const
  · simp only [Set.ofPred_forall]
    exact isClosed_iInter fun _ => isClosed_iInter fun p => isClosed_eq (continuous_apply _) continuous_const
  · simp only [Set.ofPred_forall]
    exact isClosed_iInter fun _ => isClosed_eq (hc _ _) continuous_const

/-- Non-vacuity of `C121_movers_controls`: three movers, two worker types, two firm types and a control with three
categories; rows, firm types and categories renumbered, wages in cents; the package's constraints, with the lowest pair
normalised in every period. -/
example (d : DData 3 2) (c : Fin 2 → Fin 3 → Fin 3) (b : DBase 2 2) (hb : PosS b) (r : Rhos) (pk : ℕ → Fin 2 → ℝ)
    (An Sn : Per → Fin 3 → ℝ) (o : MvOpts) (cyc : CycOpts) (hδ : 0 < o.δ) (fuel : ℕ) :
    ∃ (g : Spec.Rewriting 3 2 2) (d' : DData 3 2) (s s' : CState 2 2 3) (sA sA' : ℕ → QP (Fin 2 × JM true true 2))
      (sS sS' : QP (Fin 2 × JM true true 2)), s.base = b ∧ s.cols.length = 1 ∧
      g.scale = 100 ∧ g.firm 0 = 1 ∧ g.row 0 = 2 ∧ g.SameData d d' ∧ g.SameMvC s s' ∧
      (∀ m : Fin 2, RightQP (Spec.CtrlMeans 1 0 0 False False True False m) (sA m.val)) ∧
      (∀ m : Fin 2, RightQP (Spec.CtrlMeans 1 0 0 False False True False m) (sA' m.val)) ∧
      Spec.Both g.SameMvC (loopMvC d o cyc sA sS (fun _ => 0) fuel 0 none 0 [] s)
        (loopMvC d' { o with δ := o.δ / 100 } cyc sA' sS' (fun _ => 1) fuel 0 none 1 [] s') := by
  let g : Spec.Rewriting 3 2 2 := ⟨Equiv.swap 0 2, Equiv.refl _, Equiv.swap 0 1, 100, by norm_num⟩
  obtain ⟨d', hd⟩ := g.exists_data d
  obtain ⟨b', hb'⟩ := g.exists_params b
  obtain ⟨pk', hpk⟩ := g.exists_pk1 pk
  obtain ⟨k, k', h, -, -, -, -, hk⟩ := g.exists_col (Equiv.swap 0 1) 1 c An Sn
  obtain ⟨-, -, sS, sS', -, FS, FS', -, e2, -, -, h2, h3⟩ := C121_movers_solvers g (endo := true) (state := true)
    (lb := 1) one_pos
  have hex := fun m : Fin 2 => exists_ctrlMeans (nl := 2) 1 0 0 False False True False m
  choose sol hsol using hex
  let φ : Equiv.Perm ℕ := Equiv.swap 0 1
  let σ : ℕ → Fin 2 := fun m => if m = 0 then 0 else 1
  let σ' : ℕ → Fin 2 := fun m => g.firm (σ (φ.symm m))
  let s : CState 2 2 3 := ⟨b, [k], sumNonA [k], r, pk, []⟩
  let s' : CState 2 2 3 := ⟨b', [k'], sumNonA [k'], r, pk', []⟩
  have hss : g.SameMvC s s' := by
    refine ⟨hb', .cons hk .nil, fun p i => ?_, rfl, hpk, rfl⟩
    have := hk.nonA p i
    simpa [s, s', sumNonA] using this
  refine ⟨g, d', s, s', fun m => sol (σ m), fun m => sol (σ' m), sS, sS', rfl, rfl, rfl, rfl, rfl, hd, hss, ?_, ?_, ?_⟩
  · intro m; fin_cases m <;> exact hsol _
  · intro m; fin_cases m <;> exact hsol _
  exact C121_movers_controls g (by norm_num) d d' o cyc (fun m => sol (σ m)) (fun m => sol (σ' m)) sS sS'
    (fun m => Spec.CtrlMeans 1 0 0 False False True False (σ m)) (fun m => Spec.CtrlMeans 1 0 0 False False True False (σ' m))
    FS FS' (fun _ => 0) (fun _ => 1) φ φ.injective (fun _ _ _ => rfl) hd hδ
    (fun m => by
      have e : σ' (φ m) = g.firm (σ m) := by simp only [σ', φ.symm_apply_apply]
      simp only [e]
      have hm := hsol (g.firm (σ m))
      have := C121_package_constraints g rfl 1 0 0 False False True False (σ m) (sol (σ m)) (sol (g.firm (σ m))) (hsol _)
        (by rw [mul_zero]; exact hm)
      rw [mul_zero] at this
      exact this)
    h2 (fun m x hx => hx.flat) (fun x hx => by rw [e2] at hx; exact hx.1) h3 fuel 0 none 0 [] s s' hb hss

end Pytwoway.Dynamic
