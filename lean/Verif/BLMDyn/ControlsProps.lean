import Verif.BLMDyn.Controls
import Verif.BLMDyn.Solver

/-! # Controls in the dynamic model: theorems of C95 on movers -/

namespace Pytwoway.Dynamic

open Finset ProbabilityTheory Pytwoway.Sim.Dyn Pytwoway.BLM

variable {ni nl nk : ℕ}

/-! ## Specification -/

/-- The four wages in order. -/
def Spec.wageOf (y : Wages) : Fin 4 → ℝ
  | 0 => y.y1
  | 1 => y.y2
  | 2 => y.y3
  | 3 => y.y4

/-- Conditional means of a mover's four wages, given the total effects of the periods. -/
def Spec.moverMean (r : Rhos) (a : Per → ℝ) (y : Wages) : Fin 4 → ℝ
  | 0 => a .p12 + r.R12 * (y.y2 - a .p2ma)
  | 1 => a .p2ma + a .p2mb
  | 2 => a .p3ma + a .p3mb + r.R32 * (y.y2 - (a .p2ma + a .p2mb))
  | 3 => a .p43 + r.R43 * (y.y3 - a .p3ma)

/-- Conditional variances, given the variances of the periods. -/
def Spec.moverVar (r : Rhos) (s2 : Per → ℝ) : Fin 4 → ℝ
  | 0 => s2 .p12 + r.R12 ^ 2 * s2 .p2ma
  | 1 => s2 .p2ma + s2 .p2mb
  | 2 => s2 .p3ma + s2 .p3mb + r.R32 ^ 2 * (s2 .p2ma + s2 .p2mb)
  | 3 => s2 .p43 + r.R43 ^ 2 * s2 .p3ma

/-- Total effect of period `p` for row `i` and worker type `l`: main effect plus the effects of the controls. -/
def Spec.effect (d : DData ni nk) (b : DBase nl nk) (ks : List (CatCol nl ni)) (l : Fin nl) (i : Fin ni) (p : Per) :
    ℝ :=
  (if p.isB then b.Ab p (d.G (slot p) i) else b.Aw p l (d.G (slot p) i)) +
    (ks.map fun k => k.An p (k.c (slot p) i)).sum

/-- Squared residuals of all wages, weighted by posterior over a standard deviation; `v` are variances. -/
noncomputable def Spec.loss (d : DData ni nk) (q : Fin ni → Fin nl → ℝ) (r : Rhos)
    (v : Fin nl → Fin ni → Fin 4 → ℝ) (e : Fin nl → Fin ni → Per → ℝ) : ℝ :=
  ∑ l, ∑ s : Fin 4 × Fin ni, q s.2 l / √(v l s.2 s.1) *
    (Spec.wageOf (d.y s.2) s.1 - Spec.moverMean r (e l s.2) (d.y s.2) s.1) ^ 2

/-- A control's parameters, the same for all worker types, as the solver sees them. -/
def Spec.lift {n : ℕ} (A : Per → Fin n → ℝ) (a : Fin nl × JM true true n) : ℝ := A a.2.1.1 a.2.2

/-- Variances of the rows that come from the main parameters. -/
def Spec.baseVar (d : DData ni nk) (b : DBase nl nk) (r : Rhos) (l : Fin nl) (i : Fin ni) : Fin 4 → ℝ :=
  Spec.moverVar r fun p =>
    if p.isB then b.Sb p (d.G (slot p) i) ^ 2 else b.Sw p l (d.G (slot p) i) ^ 2

/-- Variances of the rows that come from one control. -/
def Spec.colVar (k : CatCol nl ni) (r : Rhos) (_l : Fin nl) (i : Fin ni) : Fin 4 → ℝ :=
  Spec.moverVar r fun p => k.Sn p (k.c (slot p) i) ^ 2

/-- The means `A'` of control `k` are best among those that meet the constraints, given the main effects `b` and the
effects of the controls before (`pre`) and after (`post`). -/
def Spec.ColBest (d : DData ni nk) (q : Fin ni → Fin nl → ℝ) (r : Rhos) (δ : ℝ) (b : DBase nl nk)
    (pre : List (CatCol nl ni)) (k : CatCol nl ni) (feas : (Fin nl × JM true true k.n → ℝ) → Prop)
    (A' : Per → Fin k.n → ℝ) (post : List (CatCol nl ni)) : Prop :=
  feas (Spec.lift A') ∧ ∀ z : Per → Fin k.n → ℝ, feas (Spec.lift z) →
    Spec.loss d q r (Spec.colVar k r) (Spec.effect d b (pre ++ { k with An := A' } :: post)) +
        δ * ∑ a : Fin nl × JM true true k.n, Spec.lift A' a ^ 2 ≤
      Spec.loss d q r (Spec.colVar k r) (Spec.effect d b (pre ++ { k with An := z } :: post)) +
        δ * ∑ a : Fin nl × JM true true k.n, Spec.lift z a ^ 2

/-- A control the M-step can handle: no interaction with worker types, as many categories as there are firm types. -/
def Spec.Usable (nk : ℕ) (k : CatCol nl ni) : Prop := k.wi = false ∧ k.n = nk

/-! ## Lemmas -/

/-- The specification's means and variances are those of the four factors of a mover's density. -/
theorem moverDensity_factors (a s2 : Per → ℝ) (r : Rhos) (y : Wages) :
    Spec.moverDensity a s2 r y =
      ∏ t, gaussianPDFReal (Spec.moverMean r a y t) (Spec.moverVar r s2 t).toNNReal (Spec.wageOf y t) := by
  rw [Fin.prod_univ_four]
  rfl

theorem netC_eq (y : Wages) (r : Rhos) (a : Per → ℝ) (t : Fin 4) :
    netC y r a t = Spec.wageOf y t - Spec.moverMean r a y t := by
  fin_cases t <;> simp [netC, Spec.wageOf, Spec.moverMean] <;> ring

theorem sum_coef (r : Rhos) (t : Fin 4) (e : Per → ℝ) :
    ∑ p : {p : Per // inModel true true p = true}, coef r t p.1 * e p.1 = ∑ p, coef r t p * e p := by
  rw [← sum_subset (subset_univ (univ.filter fun p => inModel true true p = true))]
  · rw [sum_subtype (univ.filter fun p => inModel true true p = true) (p := fun p => inModel true true p = true)
      (by simp)]
  · intro p _ hp
    simp only [mem_filter, mem_univ, true_and, Bool.not_eq_true] at hp
    cases p <;> simp only [inModel, Bool.true_eq_false] at hp
    · fin_cases t <;> simp [coef]
    · fin_cases t <;> simp [coef]

theorem netC_sub (y : Wages) (r : Rhos) (a e : Per → ℝ) (t : Fin 4) :
    netC y r a t - ∑ p : {p : Per // inModel true true p = true}, coef r t p.1 * e p.1 =
      netC y r (fun p => a p + e p) t := by
  rw [sum_coef, sum_per]
  fin_cases t <;> simp [netC, coef] <;> ring

theorem varMv_eq (d : DData ni nk) (b : DBase nl nk) (r : Rhos) (l : Fin nl) (s : Fin 4 × Fin ni) :
    varMv d b r l s = Spec.baseVar d b r l s.2 s.1 := by
  obtain ⟨t, i⟩ := s
  fin_cases t <;> simp [varMv, Spec.baseVar, Spec.moverVar, Per.isB, slot, mul_pow]

theorem colVar_eq (k : CatCol nl ni) (r : Rhos) (l : Fin nl) (s : Fin 4 × Fin ni) :
    k.var r s = Spec.colVar k r l s.2 s.1 := by
  obtain ⟨t, i⟩ := s
  fin_cases t <;> simp [CatCol.var, Spec.colVar, Spec.moverVar]

theorem nonA_usable (k : CatCol nl ni) (h : k.wi = false) (p : Per) (i : Fin ni) :
    k.nonA p i = k.An p (k.c (slot p) i) := by simp [CatCol.nonA, h]

theorem sumNonA_append (a b : List (CatCol nl ni)) (p : Per) (i : Fin ni) :
    sumNonA (a ++ b) p i = sumNonA a p i + sumNonA b p i := by simp [sumNonA]

theorem sumNonA_cons (k : CatCol nl ni) (b : List (CatCol nl ni)) (p : Per) (i : Fin ni) :
    sumNonA (k :: b) p i = k.nonA p i + sumNonA b p i := by simp [sumNonA]

theorem sumByA_zero (ks : List (CatCol nl ni)) (h : ∀ k ∈ ks, k.wi = false) (l : Fin nl) (p : Per) (i : Fin ni) :
    sumByA ks l p i = 0 := by
  unfold sumByA
  rw [List.sum_eq_zero]
  intro x hx
  obtain ⟨k, hk, rfl⟩ := List.mem_map.mp hx
  simp [CatCol.byA, h k hk]

theorem effect_eq (d : DData ni nk) (b : DBase nl nk) (ks : List (CatCol nl ni)) (h : ∀ k ∈ ks, k.wi = false)
    (l : Fin nl) (i : Fin ni) (p : Per) :
    Spec.effect d b ks l i p = b.a l (fun t => d.G t i) p + sumNonA ks p i := by
  unfold Spec.effect DBase.a sumNonA
  congr 2
  exact List.map_congr_left fun k hk => (nonA_usable k (h k hk) p i).symm

theorem lift_writeN [NeZero nl] {n : ℕ} (x : Fin nl × JM true true n → ℝ) (old : Per → Fin n → ℝ)
    (hx : ∀ l p c, x (l, p, c) = x (0, p, c)) : Spec.lift (writeN x old) = x := by
  funext ⟨l, ⟨p, hp⟩, c⟩
  simp [Spec.lift, writeN, hp, hx l]

theorem w_nonneg (k : CatCol nl ni) (r : Rhos) (q : Fin ni → Fin nl → ℝ) (hq : ∀ i l, 0 ≤ q i l)
    (l : Fin nl) (s : Fin 4 × Fin ni) : 0 ≤ k.w r q l s := div_nonneg (hq _ _) (Real.sqrt_nonneg _)

/-- One control. -/
theorem colStep_best [NeZero nl] (d : DData ni nk) (q : Fin ni → Fin nl → ℝ) (hq : ∀ i l, 0 ≤ q i l)
    (b : DBase nl nk) (r : Rhos) (δ : ℝ) (hδ : 0 < δ) (al : Fin nl → Per → Fin ni → ℝ) (hal : al = fun _ _ _ => 0)
    (pre post : List (CatCol nl ni)) (k : CatCol nl ni) (hwi : ∀ k' ∈ pre ++ k :: post, k'.wi = false)
    (feas : (Fin nl × JM true true k.n → ℝ) → Prop) (hs : RightQP feas k.solA)
    (hsame : ∀ x, feas x → ∀ l p c, x (l, p, c) = x (0, p, c)) (hne : ∃ x, feas x) :
    ∃ A', colStep d q b r true δ al (sumNonA (pre ++ k :: post)) k =
        .ok (sumNonA (pre ++ { k with An := A' } :: post), { k with An := A' }) ∧
      A' .p2s = k.An .p2s ∧ A' .p3s = k.An .p3s ∧ Spec.ColBest d q r δ b pre k feas A' post := by
  have hk : k.wi = false := hwi k (by simp)
  have hpre : ∀ k' ∈ pre, k'.wi = false := fun k' h => hwi k' (by simp [h])
  have hpost : ∀ k' ∈ post, k'.wi = false := fun k' h => hwi k' (by simp [h])
  let rest : Per → Fin ni → ℝ := fun p i => sumNonA pre p i + sumNonA post p i
  have hrest : (fun p i => sumNonA (pre ++ k :: post) p i - k.An p (k.c (slot p) i)) = rest := by
    funext p i
    simp only [rest, sumNonA_append, sumNonA_cons, nonA_usable k hk]
    ring
  let Y : Fin nl → Fin 4 × Fin ni → ℝ := fun l s => netC (d.y s.2) r (totC d b rest al l s.2) s.1
  obtain ⟨x, hx⟩ := hs.complete (k.P d r q δ) (fun a => - XwV (k.w r q) (Xmv (k.data d) r) Y a)
    (XwX_pdRidge _ _ _ (w_nonneg k r q hq) hδ) hne
  obtain ⟨hf, hmin⟩ := hs.sound _ _ _ hx
  have hl : Spec.lift (writeN x k.An) = x := lift_writeN x k.An (hsame x hf)
  refine ⟨writeN x k.An, ?_, ?_, ?_, ?_, ?_⟩
  · unfold colStep
    rw [if_neg (by simp [hk])]
    simp only [hrest, if_true]
    have hA : solveACol k (k.P d r q δ) (XwV (k.w r q) (Xmv (k.data d) r) Y) = writeN x k.An := by
      unfold solveACol; rw [hx]
    show Except.ok _ = Except.ok _
    rw [show (fun l s => netC (d.y s.2) r (totC d b rest al l s.2) s.1) = Y from rfl, hA]
    congr 2
    funext p i
    have hk' : ({ k with An := writeN x k.An } : CatCol nl ni).nonA p i = writeN x k.An p (k.c (slot p) i) :=
      nonA_usable { k with An := writeN x k.An } hk p i
    simp only [sumNonA_append, sumNonA_cons, nonA_usable k hk, hk']
    ring
  · funext c; simp [writeN, inModel]
  · funext c; simp [writeN, inModel]
  · rw [hl]; exact hf
  · intro z hz
    have key : ∀ z : Per → Fin k.n → ℝ,
        Spec.loss d q r (Spec.colVar k r) (Spec.effect d b (pre ++ { k with An := z } :: post)) =
          ∑ l, ∑ s, k.w r q l s * (Y l s - fit (Xmv (endo := true) (state := true) (k.data d) r) (Spec.lift z) l s) ^ 2 := by
      intro z
      unfold Spec.loss
      refine sum_congr rfl fun l _ => sum_congr rfl fun s _ => ?_
      rw [← colVar_eq k r l s]
      congr 1
      rw [← netC_eq, fit_mvG]
      have e := netC_sub (d.y s.2) r (totC d b rest al l s.2) (fun p => z p (k.c (slot p) s.2)) s.1
      simp only [Y, Spec.lift, CatCol.data] at e ⊢
      rw [e]
      congr 1
      refine congrArg (fun f => netC (d.y s.2) r f s.1) (funext fun p => ?_)
      rw [effect_eq d b _ (by
        intro k' hk'
        simp only [List.mem_append, List.mem_cons] at hk'
        rcases hk' with h | rfl | h
        · exact hpre k' h
        · exact hk
        · exact hpost k' h), sumNonA_append, sumNonA_cons,
        nonA_usable _ (show ({ k with An := z } : CatCol nl ni).wi = false from hk), totC, hal]
      simp only [rest]
      ring
    rw [key, key]
    have h := hmin (Spec.lift z) hz
    have h2 := qpVal_ls (k.w r q) (Xmv (endo := true) (state := true) (k.data d) r) δ Y x
    have h3 := qpVal_ls (k.w r q) (Xmv (endo := true) (state := true) (k.data d) r) δ Y (Spec.lift z)
    rw [hl]
    simp only [CatCol.P] at h
    linarith

/-- All controls, one after the other. -/
theorem colLoop_best [NeZero nl] (d : DData ni nk) (q : Fin ni → Fin nl → ℝ) (hq : ∀ i l, 0 ≤ q i l)
    (b : DBase nl nk) (r : Rhos) (δ : ℝ) (hδ : 0 < δ) (al : Fin nl → Per → Fin ni → ℝ) (hal : al = fun _ _ _ => 0)
    (feas : (k : CatCol nl ni) → (Fin nl × JM true true k.n → ℝ) → Prop)
    (ks pre : List (CatCol nl ni)) (hwi : ∀ k' ∈ pre ++ ks, k'.wi = false)
    (hs : ∀ k ∈ ks, RightQP (feas k) k.solA)
    (hsame : ∀ k ∈ ks, ∀ x, feas k x → ∀ l p c, x (l, p, c) = x (0, p, c)) (hne : ∀ k ∈ ks, ∃ x, feas k x) :
    ∃ ks', colLoop d q b r true δ al (sumNonA (pre ++ ks)) ks = .ok (sumNonA (pre ++ ks'), ks') ∧
      (∀ k' ∈ ks', k'.wi = false) ∧ ks'.length = ks.length ∧
      ∀ p1 k post, ks = p1 ++ k :: post → ∃ p1' A' post', ks' = p1' ++ { k with An := A' } :: post' ∧
        p1'.length = p1.length ∧ A' .p2s = k.An .p2s ∧ A' .p3s = k.An .p3s ∧
        Spec.ColBest d q r δ b (pre ++ p1') k (feas k) A' post := by
  induction ks generalizing pre with
  | nil => exact ⟨[], rfl, by simp, rfl, by intro p1 k post h; simp at h⟩
  | cons k ks ih =>
    obtain ⟨A', hst, h2s, h3s, hbest⟩ := colStep_best d q hq b r δ hδ al hal pre ks k hwi (feas k) (hs k (by simp))
      (hsame k (by simp)) (hne k (by simp))
    have hk : k.wi = false := hwi k (by simp)
    obtain ⟨ks', hl, hwi', hlen, hdec⟩ := ih (pre ++ [{ k with An := A' }]) (by
        intro k' hk'
        simp only [List.append_assoc, List.mem_append, List.mem_cons, List.not_mem_nil, or_false] at hk'
        rcases hk' with h | rfl | h
        · exact hwi k' (by simp [h])
        · exact hk
        · exact hwi k' (by simp [h]))
      (fun k h => hs k (List.mem_cons_of_mem _ h)) (fun k h => hsame k (List.mem_cons_of_mem _ h))
      (fun k h => hne k (List.mem_cons_of_mem _ h))
    refine ⟨{ k with An := A' } :: ks', ?_, ?_, ?_, ?_⟩
    · rw [colLoop, hst]
      simp only [List.append_assoc, List.singleton_append] at hl
      simp only [bind, Except.bind, hl]
    · intro k' hk'
      rcases List.mem_cons.mp hk' with rfl | h
      · exact hk
      · exact hwi' k' h
    · simp [hlen]
    · intro p1 k0 post he
      cases p1 with
      | nil =>
        simp only [List.nil_append, List.cons.injEq] at he
        obtain ⟨rfl, rfl⟩ := he
        exact ⟨[], A', ks', rfl, rfl, h2s, h3s, by rw [List.append_nil]; exact hbest⟩
      | cons k1 p1 =>
        simp only [List.cons_append, List.cons.injEq] at he
        obtain ⟨rfl, he⟩ := he
        obtain ⟨p1', A2, post', e1, e2, e3, e4, e5⟩ := hdec p1 k0 post he
        refine ⟨{ k with An := A' } :: p1', A2, post', by rw [e1]; rfl, by simp [e2], e3, e4, ?_⟩
        simpa only [List.append_assoc, List.singleton_append] using e5

/-! ## Which controls can be used -/

theorem orders_ok (hnk : 0 < nk) (hnl : 0 < nl) (ks : List (CatCol nl ni)) :
    (orders nl nk ks = .ok () ∧ ∀ k ∈ ks, k.n = nk) ∨
      (orders nl nk ks = .error "ValueError" ∧ ∃ k ∈ ks, k.n ≠ nk) := by
  unfold orders
  induction ks with
  | nil => exact Or.inl ⟨rfl, by simp⟩
  | cons k ks ih =>
    by_cases h : k.n = nk
    · obtain ⟨o, ho, -⟩ := Order.C95_order nl 6 nk hnk (by norm_num)
      have e : List.forM (k :: ks) (fun k => do let _ ← Order.order nl 6 nk k.n; (.ok () : Py Unit)) =
          List.forM ks (fun k => do let _ ← Order.order nl 6 nk k.n; (.ok () : Py Unit)) := by
        show (do let _ ← (do let _ ← Order.order nl 6 nk k.n; (.ok () : Py Unit)); _) = _
        rw [h, ho]; rfl
      rw [e]
      rcases ih with ⟨h1, h2⟩ | ⟨h1, k', h2, h3⟩
      · refine Or.inl ⟨h1, ?_⟩
        intro k' hk'
        rcases List.mem_cons.mp hk' with rfl | hk'
        · exact h
        · exact h2 k' hk'
      · exact Or.inr ⟨h1, k', List.mem_cons_of_mem _ h2, h3⟩
    · refine Or.inr ⟨?_, k, by simp, h⟩
      have ho := Order.C95_order_raises nl 6 nk k.n hnl (by norm_num) h
      show (do let _ ← (do let _ ← Order.order nl 6 nk k.n; (.ok () : Py Unit)); _) = _
      rw [ho]; rfl

theorem colLoop_wi [NeZero nl] (d : DData ni nk) (q : Fin ni → Fin nl → ℝ) (b : DBase nl nk) (r : Rhos) (updA : Bool)
    (δ : ℝ) (al : Fin nl → Per → Fin ni → ℝ) (ks : List (CatCol nl ni)) (asum : Per → Fin ni → ℝ) :
    ((∃ x, colLoop d q b r updA δ al asum ks = .ok x) ∧ ∀ k ∈ ks, k.wi = false) ∨
      (colLoop d q b r updA δ al asum ks = .error "IndexError" ∧ ∃ k ∈ ks, k.wi = true) := by
  induction ks generalizing asum with
  | nil => exact Or.inl ⟨⟨_, rfl⟩, by simp⟩
  | cons k ks ih =>
    by_cases hk : k.wi = true
    · refine Or.inr ⟨?_, k, by simp, hk⟩
      rw [colLoop, colStep, if_pos hk]; rfl
    · obtain ⟨x, hx⟩ : ∃ x, colStep d q b r updA δ al asum k = .ok x := ⟨_, by unfold colStep; rw [if_neg hk]⟩
      rcases ih x.1 with ⟨⟨y, h1⟩, h2⟩ | ⟨h1, k', h2, h3⟩
      · refine Or.inl ⟨⟨_, by rw [colLoop, hx]; simp only [bind, Except.bind, h1]; rfl⟩, ?_⟩
        intro k' hk'
        rcases List.mem_cons.mp hk' with rfl | hk'
        · simpa using hk
        · exact h2 k' hk'
      · exact Or.inr ⟨by rw [colLoop, hx]; simp only [bind, Except.bind, h1], k', List.mem_cons_of_mem _ h2, h3⟩

/-- C95 fails for movers: the update of the parameters raises exactly when some control interacts with worker types
or has a number of categories other than the number of firm types, whatever the data, the parameters and the
constraints. -/
theorem C95_movers_usable [NeZero nl] (hnk : 0 < nk) (d : DData ni nk) (q : Fin ni → Fin nl → ℝ) (b : DBase nl nk)
    (r : Rhos) (updA updS : Bool) (δ : ℝ) (sA sS : QP (Fin nl × JM true true nk)) (ks : List (CatCol nl ni))
    (asum : Per → Fin ni → ℝ) :
    (∃ x, mstepMvC d q b r updA updS δ sA sS ks asum = .ok x) ↔ ∀ k ∈ ks, Spec.Usable nk k := by
  unfold mstepMvC
  rcases orders_ok (nl := nl) hnk (Nat.pos_of_ne_zero (NeZero.ne nl)) ks with ⟨h1, h2⟩ | ⟨h1, k, hk, h2⟩
  · simp only [h1, bind, Except.bind]
    rcases colLoop_wi d q (if updA then solveAMv sA (XwX (wMv d b r q) (Xmv (endo := true) (state := true) d r) δ)
        (XwV (wMv d b r q) (Xmv d r) fun l s => netC (d.y s.2) r (fun p => asum p s.2 + sumByA ks l p s.2) s.1) b
        else b) r updA δ (sumByA ks) ks asum with ⟨⟨x, hx⟩, h3⟩ | ⟨hx, k, hk, h3⟩
    · simp only [hx]
      exact ⟨fun _ k hk => ⟨h3 k hk, h2 k hk⟩, fun _ => ⟨_, rfl⟩⟩
    · simp only [hx]
      constructor
      · rintro ⟨x, hx⟩; cases hx
      · intro h; have := (h k hk).1; rw [h3] at this; cases this
  · simp only [h1, bind, Except.bind]
    constructor
    · rintro ⟨x, hx⟩; cases hx
    · intro h; exact absurd (h k hk).2 h2

/-! ## The means -/

theorem base_best [NeZero nl] (d : DData ni nk) (q : Fin ni → Fin nl → ℝ) (hq : ∀ i l, 0 ≤ q i l) (b : DBase nl nk)
    (r : Rhos) (δ : ℝ) (hδ : 0 < δ) (sA : QP (Fin nl × JM true true nk)) (ks : List (CatCol nl ni))
    (hwi : ∀ k ∈ ks, k.wi = false)
    (feas : (Fin nl × JM true true nk → ℝ) → Prop) (hs : RightQP feas sA)
    (hfeas : ∀ x, feas x → ∀ p : {p : Per // inModel true true p = true}, p.1.isB = true →
      ∀ l k, x (l, p, k) = x (0, p, k)) (hne : ∃ x, feas x) :
    let w := wMv d b r q
    let b1 := solveAMv sA (XwX w (Xmv (endo := true) (state := true) d r) δ)
      (XwV w (Xmv d r) fun l s => netC (d.y s.2) r (fun p => sumNonA ks p s.2 + sumByA ks l p s.2) s.1) b
    feas (parM b1) ∧ b1.Sw = b.Sw ∧ b1.Sb = b.Sb ∧ ∀ c : DBase nl nk, feas (parM c) →
      Spec.loss d q r (Spec.baseVar d b r) (Spec.effect d b1 ks) +
          δ * ∑ a : Fin nl × JM true true nk, parM b1 a ^ 2 ≤
        Spec.loss d q r (Spec.baseVar d b r) (Spec.effect d c ks) +
          δ * ∑ a : Fin nl × JM true true nk, parM c a ^ 2 := by
  intro w
  let Y : Fin nl → Fin 4 × Fin ni → ℝ := fun l s =>
    netC (d.y s.2) r (fun p => sumNonA ks p s.2 + sumByA ks l p s.2) s.1
  obtain ⟨x, hx⟩ := hs.complete (XwX w (Xmv (endo := true) (state := true) d r) δ)
    (fun a => - XwV w (Xmv d r) Y a) (XwX_pdRidge _ _ _ (wMv_nonneg d b r q hq) hδ) hne
  obtain ⟨hf, hmin⟩ := hs.sound _ _ _ hx
  intro b1
  have hb1 : b1 = { b with Aw := writeW x b.Aw, Ab := writeB x b.Ab } := by
    show solveAMv sA _ (XwV w (Xmv d r) Y) b = _
    unfold solveAMv; rw [hx]
  have hpar : parM b1 = x := by rw [hb1]; exact parM_write b x (hfeas x hf)
  refine ⟨by rw [hpar]; exact hf, by rw [hb1], by rw [hb1], fun c hc => ?_⟩
  have key : ∀ c : DBase nl nk, Spec.loss d q r (Spec.baseVar d b r) (Spec.effect d c ks) =
      ∑ l, ∑ s, w l s * (Y l s - fit (Xmv (endo := true) (state := true) d r) (parM c) l s) ^ 2 := by
    intro c
    unfold Spec.loss
    refine sum_congr rfl fun l _ => sum_congr rfl fun s _ => ?_
    rw [← varMv_eq d b r l s]
    congr 1
    rw [← netC_eq, fit_mvG]
    have e := netC_sub (d.y s.2) r (fun p => sumNonA ks p s.2 + sumByA ks l p s.2)
      (fun p => c.a l (fun t => d.G t s.2) p) s.1
    have e2 : ∑ p : {p : Per // inModel true true p = true}, coef r s.1 p.1 * parM c (l, p, d.G (slot p.1) s.2) =
        ∑ p : {p : Per // inModel true true p = true}, coef r s.1 p.1 * c.a l (fun t => d.G t s.2) p.1 := rfl
    rw [e2]
    simp only [Y] at e ⊢
    rw [e]
    congr 1
    refine congrArg (fun f => netC (d.y s.2) r f s.1) (funext fun p => ?_)
    rw [effect_eq d c _ hwi, sumByA_zero ks hwi]
    ring
  rw [key, key]
  have h := hmin (parM c) hc
  have h2 := qpVal_ls w (Xmv (endo := true) (state := true) d r) δ Y x
  have h3 := qpVal_ls w (Xmv (endo := true) (state := true) d r) δ Y (parM c)
  rw [hpar]
  linarith

/-- C95, movers, for controls that can be used: the update of the means never fails.  The new main effects minimise
the weighted squared residuals net of the controls' old effects; then each control's new effects minimise them given
the new main effects, the new effects of the controls before it and the old effects of those after it, with weights
from that control's standard deviations only.  Standard deviations are kept, and the running sum of the controls'
effects is right again.  Missing: controls that interact with worker types or have another number of categories. -/
theorem C95_movers_means_partial [NeZero nl] (hnk : 0 < nk) (d : DData ni nk) (q : Fin ni → Fin nl → ℝ)
    (hq : ∀ i l, 0 ≤ q i l) (b : DBase nl nk) (r : Rhos) (δ : ℝ) (hδ : 0 < δ)
    (sA sS : QP (Fin nl × JM true true nk)) (ks : List (CatCol nl ni)) (hks : ∀ k ∈ ks, Spec.Usable nk k)
    (feas : (Fin nl × JM true true nk → ℝ) → Prop) (hs : RightQP feas sA)
    (hfeas : ∀ x, feas x → ∀ p : {p : Per // inModel true true p = true}, p.1.isB = true →
      ∀ l k, x (l, p, k) = x (0, p, k)) (hne : ∃ x, feas x)
    (feasK : (k : CatCol nl ni) → (Fin nl × JM true true k.n → ℝ) → Prop)
    (hsK : ∀ k ∈ ks, RightQP (feasK k) k.solA)
    (hsame : ∀ k ∈ ks, ∀ x, feasK k x → ∀ l p c, x (l, p, c) = x (0, p, c)) (hneK : ∀ k ∈ ks, ∃ x, feasK k x) :
    ∃ b' ks', mstepMvC d q b r true false δ sA sS ks (sumNonA ks) = .ok (b', ks', sumNonA ks') ∧
      feas (parM b') ∧ b'.Sw = b.Sw ∧ b'.Sb = b.Sb ∧
      (∀ c : DBase nl nk, feas (parM c) →
        Spec.loss d q r (Spec.baseVar d b r) (Spec.effect d b' ks) +
            δ * ∑ a : Fin nl × JM true true nk, parM b' a ^ 2 ≤
          Spec.loss d q r (Spec.baseVar d b r) (Spec.effect d c ks) +
            δ * ∑ a : Fin nl × JM true true nk, parM c a ^ 2) ∧
      ks'.length = ks.length ∧
      ∀ pre k post, ks = pre ++ k :: post → ∃ pre' A' post', ks' = pre' ++ { k with An := A' } :: post' ∧
        pre'.length = pre.length ∧ A' .p2s = k.An .p2s ∧ A' .p3s = k.An .p3s ∧
        Spec.ColBest d q r δ b' pre' k (feasK k) A' post := by
  have hwi : ∀ k ∈ ks, k.wi = false := fun k hk => (hks k hk).1
  obtain ⟨h1, h2, h3, h4⟩ := base_best d q hq b r δ hδ sA ks hwi feas hs hfeas hne
  set b1 := solveAMv sA (XwX (wMv d b r q) (Xmv (endo := true) (state := true) d r) δ)
      (XwV (wMv d b r q) (Xmv d r) fun l s => netC (d.y s.2) r (fun p => sumNonA ks p s.2 + sumByA ks l p s.2) s.1) b
    with hb1
  obtain ⟨ks', hl, -, hlen, hdec⟩ := colLoop_best d q hq b1 r δ hδ (sumByA ks)
    (by funext l p i; exact sumByA_zero ks hwi l p i) feasK ks [] (by simpa using hwi) hsK hsame hneK
  simp only [List.nil_append] at hl hdec
  refine ⟨b1, ks', ?_, h1, h2, h3, h4, hlen, hdec⟩
  rcases orders_ok (nl := nl) hnk (Nat.pos_of_ne_zero (NeZero.ne nl)) ks with ⟨ho, -⟩ | ⟨-, k, hk, h⟩
  · unfold mstepMvC
    simp only [ho, bind, Except.bind, if_true, ← hb1, hl, Bool.false_eq_true, if_false]
  · exact absurd (hks k hk).2 h

/-! ## The running sum -/

theorem colStep_sum [NeZero nl] (d : DData ni nk) (q : Fin ni → Fin nl → ℝ) (b : DBase nl nk) (r : Rhos) (updA : Bool)
    (δ : ℝ) (al : Fin nl → Per → Fin ni → ℝ) (pre post : List (CatCol nl ni)) (k : CatCol nl ni)
    {x : (Per → Fin ni → ℝ) × CatCol nl ni}
    (h : colStep d q b r updA δ al (sumNonA (pre ++ k :: post)) k = .ok x) :
    x.1 = sumNonA (pre ++ x.2 :: post) ∧ x.2.wi = false := by
  unfold colStep at h
  by_cases hk : k.wi = true
  · rw [if_pos hk] at h; cases h
  · rw [if_neg hk] at h
    have hk' : k.wi = false := by simpa using hk
    simp only [Except.ok.injEq] at h
    subst h
    refine ⟨?_, hk'⟩
    funext p i
    simp only [sumNonA_append, sumNonA_cons, CatCol.nonA, hk', Bool.not_false, Bool.true_or, if_true]
    ring

theorem colLoop_sum [NeZero nl] (d : DData ni nk) (q : Fin ni → Fin nl → ℝ) (b : DBase nl nk) (r : Rhos) (updA : Bool)
    (δ : ℝ) (al : Fin nl → Per → Fin ni → ℝ) (ks pre : List (CatCol nl ni))
    {x : (Per → Fin ni → ℝ) × List (CatCol nl ni)}
    (h : colLoop d q b r updA δ al (sumNonA (pre ++ ks)) ks = .ok x) :
    x.1 = sumNonA (pre ++ x.2) := by
  induction ks generalizing pre x with
  | nil => cases h; rfl
  | cons k ks ih =>
    rw [colLoop] at h
    rcases h1 : colStep d q b r updA δ al (sumNonA (pre ++ k :: ks)) k with e | y
    · rw [h1] at h; cases h
    · rw [h1] at h
      simp only [bind, Except.bind] at h
      obtain ⟨hy, -⟩ := colStep_sum d q b r updA δ al pre ks k h1
      rcases h2 : colLoop d q b r updA δ al y.1 ks with e | z
      · rw [h2] at h; cases h
      · rw [h2] at h
        cases h
        rw [hy, show pre ++ y.2 :: ks = (pre ++ [y.2]) ++ ks by simp] at h2
        have := ih (pre ++ [y.2]) h2
        simpa using this

/-- C95: whatever the solvers return, the update keeps the running sum of the controls' effects equal to their sum. -/
theorem C95_running_sum [NeZero nl] (d : DData ni nk) (q : Fin ni → Fin nl → ℝ) (b : DBase nl nk) (r : Rhos)
    (updA updS : Bool) (δ : ℝ) (sA sS : QP (Fin nl × JM true true nk)) (ks : List (CatCol nl ni))
    {b' : DBase nl nk} {ks' : List (CatCol nl ni)} {asum' : Per → Fin ni → ℝ}
    (h : mstepMvC d q b r updA updS δ sA sS ks (sumNonA ks) = .ok (b', ks', asum')) : asum' = sumNonA ks' := by
  unfold mstepMvC at h
  simp only [bind, Except.bind] at h
  rcases ho : orders nl nk ks with e | u
  · rw [ho] at h; cases h
  rw [ho] at h
  simp only at h
  rcases hc : colLoop d q (if updA then solveAMv sA (XwX (wMv d b r q) (Xmv (endo := true) (state := true) d r) δ)
        (XwV (wMv d b r q) (Xmv d r) fun l s => netC (d.y s.2) r (fun p => sumNonA ks p s.2 + sumByA ks l p s.2) s.1) b
        else b) r updA δ (sumByA ks) (sumNonA ks) ks with e | x
  · rw [hc] at h; cases h
  rw [hc] at h
  simp only [Except.ok.injEq, Prod.mk.injEq] at h
  obtain ⟨-, h2, h3⟩ := h
  have hx := colLoop_sum d q _ r updA δ (sumByA ks) ks [] hc
  rw [← h3, hx, ← h2]
  simp only [List.nil_append]
  cases updS
  · rfl
  · funext p i
    simp only [if_true, sumNonA, List.map_map]
    rfl

/-- The sum of the controls' effects computed anew. -/
noncomputable def Spec.refresh (s : CState nl nk ni) : CState nl nk ni := { s with asum := sumNonA s.cols }

/-- The loop with the sum of the controls' effects computed anew in every iteration. -/
noncomputable def Spec.loopFresh [NeZero nl] (d : DData ni nk) (o : MvOpts) (cyc : CycOpts)
    (sA : ℕ → QP (Fin nl × JM true true nk)) (sS : QP (Fin nl × JM true true nk)) (minType : DBase nl nk → ℕ) :
    (fuel iter : ℕ) → (prev : Option ℝ) → (prevMin : ℕ) → (mins : List ℕ) → CState nl nk ni → Py (CState nl nk ni)
  | 0, _, _, _, _, s => .ok s
  | fuel + 1, iter, prev, prevMin, mins, s => do
    let s := Spec.refresh s
    let q := posterior (lpMvC d s)
    let lik := likOf (lpMvC d s) (nk ^ 2) s.pk1 (iter == 0) o.updPk o.dprior
    let s' := { s with liks := s.liks ++ [lik] }
    if close lik prev o.thresholdMovers && minType s.base == prevMin then .ok s'
    else do
      let mins ← cycleCheck cyc iter (minType s.base) mins
      let s'' ← stepMvC d o (sA (minType s.base)) sS iter q s'
      Spec.loopFresh d o cyc sA sS minType fuel (iter + 1) (some lik) (minType s.base) mins s''

theorem stepMvC_sum [NeZero nl] (d : DData ni nk) (o : MvOpts) (sA sS : QP (Fin nl × JM true true nk)) (iter : ℕ)
    (q : Fin ni → Fin nl → ℝ) (s s' : CState nl nk ni) (h : s.asum = sumNonA s.cols)
    (h2 : stepMvC d o sA sS iter q s = .ok s') : s'.asum = sumNonA s'.cols := by
  unfold stepMvC at h2
  simp only [bind, Except.bind] at h2
  rcases h3 : nextPk o.updPk (nk ^ 2) (flow d) q o.dprior s.pk1 with e | pk1
  · rw [h3] at h2; cases h2
  rw [h3] at h2
  simp only at h2
  split at h2
  · cases h2; exact h
  · split at h2
    · rcases h4 : mstepMvC d q s.base s.r o.updA o.updS o.δ sA sS s.cols s.asum with e | ⟨b', ks', a'⟩
      · rw [h4] at h2; cases h2
      · rw [h4] at h2
        cases h2
        rw [h] at h4
        exact C95_running_sum d _ _ _ _ _ _ _ _ _ h4
    · cases h2; exact h

/-- C95: although `A_sum` is computed before the first iteration only, every iteration works with the sum of the
current effects of the controls: the loop is the one that computes it anew each time. -/
theorem C95_loop_fresh [NeZero nl] (d : DData ni nk) (o : MvOpts) (cyc : CycOpts)
    (sA : ℕ → QP (Fin nl × JM true true nk)) (sS : QP (Fin nl × JM true true nk)) (minType : DBase nl nk → ℕ)
    (fuel iter : ℕ) (prev : Option ℝ) (prevMin : ℕ)
    (mins : List ℕ) (s : CState nl nk ni) (h : s.asum = sumNonA s.cols) :
    loopMvC d o cyc sA sS minType fuel iter prev prevMin mins s =
      Spec.loopFresh d o cyc sA sS minType fuel iter prev prevMin mins s := by
  induction fuel generalizing iter prev prevMin mins s with
  | zero => rfl
  | succ fuel ih =>
    have hs : Spec.refresh s = s := by unfold Spec.refresh; rw [← h]
    unfold loopMvC Spec.loopFresh
    simp only [hs]
    refine ite_congr rfl (fun _ => rfl) fun _ => ?_
    refine congrArg (fun x => Except.bind _ x) (funext fun m => ?_)
    rcases h2 : stepMvC d o (sA (minType s.base)) sS iter (posterior (lpMvC d s))
      { s with liks := s.liks ++ [likOf (lpMvC d s) (nk ^ 2) s.pk1 (iter == 0) o.updPk o.dprior] } with e | s''
    · simp only [bind, Except.bind]
    · simp only [bind, Except.bind]
      refine ih _ _ _ _ _ (stepMvC_sum d o _ sS iter _ _ s'' ?_ h2)
      exact h

/-! ## The standard deviations -/

/-- C95 fails: every set of standard deviations is fitted to the whole squared residuals.  With one worker type and a
control that repeats the firm type, under the same constraints, the main standard deviations and the control's come
out equal, each explaining all of the residual variance, while the model's variance is their sum. -/
theorem C95_variance_counted_twice (d : DData ni nk) (hnk : 0 < nk) (q : Fin ni → Fin 1 → ℝ) (b : DBase 1 nk)
    (r : Rhos) (δ : ℝ) (sA sS solA : QP (Fin 1 × JM true true nk)) (Aw Sw : Per → Fin 1 → Fin nk → ℝ)
    (An Sn : Per → Fin nk → ℝ) (hS : ∀ p g, Sn p g = if p.isB then b.Sb p g else b.Sw p 0 g)
    (updA : Bool) :
    let k : CatCol 1 ni := ⟨nk, false, d.G, Aw, Sw, An, Sn, solA, sS⟩
    ∃ b' An' Sn' asum', mstepMvC d q b r updA true δ sA sS [k] (sumNonA [k]) =
        .ok (b', [{ k with An := An', Sn := Sn' }], asum') ∧
      ∀ p g, Sn' p g = if p.isB then b'.Sb p g else b'.Sw p 0 g := by
  intro k
  have hw : k.w r q = wMv d b r q := by
    funext l ⟨t, i⟩
    have hl : l = 0 := Subsingleton.elim _ _
    subst hl
    unfold CatCol.w wMv
    congr 2
    fin_cases t <;> simp [CatCol.var, varMv, k, hS, Per.isB, slot, mul_pow]
  have hdat : k.data d = d := rfl
  unfold mstepMvC
  rcases orders_ok (nl := 1) hnk (by norm_num) [k] with ⟨ho, -⟩ | ⟨-, k', hk', h⟩
  swap
  · simp only [List.mem_singleton] at hk'; subst hk'; exact absurd rfl h
  simp only [ho, bind, Except.bind]
  rcases colLoop_wi d q (if updA then solveAMv sA (XwX (wMv d b r q) (Xmv (endo := true) (state := true) d r) δ)
        (XwV (wMv d b r q) (Xmv d r) fun l s => netC (d.y s.2) r (fun p => sumNonA [k] p s.2 + sumByA [k] l p s.2) s.1) b
        else b) r updA δ (sumByA [k]) [k] (sumNonA [k]) with ⟨⟨x, hx⟩, -⟩ | ⟨-, k', hk', h⟩
  swap
  · simp only [List.mem_singleton] at hk'; subst hk'; cases h
  set b1 := (if updA then solveAMv sA (XwX (wMv d b r q) (Xmv (endo := true) (state := true) d r) δ)
        (XwV (wMv d b r q) (Xmv d r) fun l s => netC (d.y s.2) r (fun p => sumNonA [k] p s.2 + sumByA [k] l p s.2) s.1) b
        else b) with hb1
  have hbS : b1.Sw = b.Sw ∧ b1.Sb = b.Sb := by
    rw [hb1]
    cases updA
    · exact ⟨rfl, rfl⟩
    · simp only [if_true]; unfold solveAMv; split <;> exact ⟨rfl, rfl⟩
  simp only [hx]
  obtain ⟨An', hx2⟩ : ∃ An', x.2 = [{ k with An := An' }] := by
    rw [colLoop] at hx
    rcases h1 : colStep d q b1 r updA δ (sumByA [k]) (sumNonA [k]) k with e | y
    · rw [h1] at hx; cases hx
    · rw [h1] at hx
      simp only [bind, Except.bind, colLoop] at hx
      cases hx
      unfold colStep at h1
      rw [if_neg (by simp [k])] at h1
      cases h1
      exact ⟨_, rfl⟩
  rw [hx2]
  simp only [if_true, List.map_cons, List.map_nil]
  refine ⟨_, An', _, _, rfl, fun p g => ?_⟩
  have hw2 : ({ k with An := An' } : CatCol 1 ni).w r q = wMv d b r q := hw
  set E : Fin 1 → Fin 4 × Fin ni → ℝ := fun l s => netC (d.y s.2) r (totC d b1 x.1 (sumByA [k]) l s.2) s.1 ^ 2
  have hP : ({ k with An := An' } : CatCol 1 ni).P d r q δ =
      XwX (wMv d b r q) (Xmv (endo := true) (state := true) d r) δ := by
    unfold CatCol.P; rw [hw2]; rfl
  unfold solveSCol solveSMv
  rw [hP, hw2]
  rcases hsol : sS (XwX (wMv d b r q) (Xmv (endo := true) (state := true) d r) δ)
      (fun a => - XwV (wMv d b r q) (Xmv d r) E a) with e | _ | z
  · have h' : ({ k with An := An' } : CatCol 1 ni).solS (XwX (wMv d b r q) (Xmv (endo := true) (state := true) d r) δ)
      (fun a => - XwV (wMv d b r q) (Xmv (({ k with An := An' } : CatCol 1 ni).data d) r) E a) = _ := hsol
    rw [h']
    simp only [hbS.1, hbS.2, ← hS]
    rfl
  · have h' : ({ k with An := An' } : CatCol 1 ni).solS (XwX (wMv d b r q) (Xmv (endo := true) (state := true) d r) δ)
      (fun a => - XwV (wMv d b r q) (Xmv (({ k with An := An' } : CatCol 1 ni).data d) r) E a) = _ := hsol
    rw [h']
    simp only [hbS.1, hbS.2, ← hS]
    rfl
  · have h' : ({ k with An := An' } : CatCol 1 ni).solS (XwX (wMv d b r q) (Xmv (endo := true) (state := true) d r) δ)
      (fun a => - XwV (wMv d b r q) (Xmv (({ k with An := An' } : CatCol 1 ni).data d) r) E a) = _ := hsol
    rw [h']
    simp only [writeN, writeW, writeB, hbS.1, hbS.2]
    have := hS p g
    by_cases hm : inModel true true p = true
    · by_cases hB : p.isB = true <;> simp [hm, hB]
    · simp only [hm, Bool.false_eq_true, dif_neg, not_false_eq_true]
      exact hS p g

/-- The hypotheses of `C95_movers_means_partial` and of `C95_running_sum` can be met: two worker types, two firm
types, two controls with different categories, right solvers under constraints that make the control's effects equal
across worker types. -/
example : ∃ (_d : DData 4 2) (sA : QP (Fin 2 × JM true true 2)) (ks : List (CatCol 2 4))
    (feasK : (k : CatCol 2 4) → (Fin 2 × JM true true k.n → ℝ) → Prop),
    ks.length = 2 ∧ (∀ k ∈ ks, Spec.Usable 2 k) ∧
    RightQP (fun x => ∀ p : {p : Per // inModel true true p = true}, p.1.isB = true →
      ∀ l k, x (l, p, k) = x (0, p, k)) sA ∧
    (∀ k ∈ ks, RightQP (feasK k) k.solA) ∧
    (∀ k ∈ ks, ∀ x, feasK k x → ∀ l p c, x (l, p, c) = x (0, p, c)) ∧ (∀ k ∈ ks, ∃ x, feasK k x) ∧
    sumNonA ks .p12 1 ≠ 0 := by
  have hcl : IsClosed {x : Fin 2 × JM true true 2 → ℝ | ∀ p : {p : Per // inModel true true p = true},
      p.1.isB = true → ∀ l k, x (l, p, k) = x (0, p, k)} := by
    simp only [Set.ofPred_forall]
    exact isClosed_iInter fun p => isClosed_iInter fun _ => isClosed_iInter fun l => isClosed_iInter fun k =>
      isClosed_eq (continuous_apply _) (continuous_apply _)
  have hcl2 : IsClosed {x : Fin 2 × JM true true 2 → ℝ | ∀ l p c, x (l, p, c) = x (0, p, c)} := by
    simp only [Set.ofPred_forall]
    exact isClosed_iInter fun l => isClosed_iInter fun p => isClosed_iInter fun c =>
      isClosed_eq (continuous_apply _) (continuous_apply _)
  obtain ⟨sA, hA⟩ := rightQP_exists _ hcl
  obtain ⟨sK, hK⟩ := rightQP_exists _ hcl2
  let k1 : CatCol 2 4 := ⟨2, false, fun _ i => ⟨i.1 % 2, Nat.mod_lt _ (by norm_num)⟩, fun _ _ _ => 0, fun _ _ _ => 1,
    fun _ c => c.1, fun _ _ => 1, sK, sK⟩
  let k2 : CatCol 2 4 := ⟨2, false, fun t i => ⟨(i.1 + t.1) / 3 % 2, Nat.mod_lt _ (by norm_num)⟩, fun _ _ _ => 0,
    fun _ _ _ => 1, fun _ c => 2 * c.1, fun _ _ => 1, sK, sK⟩
  refine ⟨⟨fun i => ⟨i.1, 2, 3, 4⟩, fun t i => ⟨i.1 / (t.1 + 1) % 2, Nat.mod_lt _ (by norm_num)⟩⟩, sA, [k1, k2],
    fun k x => ∀ l p c, x (l, p, c) = x (0, p, c), rfl, ?_, hA, ?_, ?_, ?_, ?_⟩
  · simp [k1, k2, Spec.Usable]
  · intro k hk
    simp only [List.mem_cons, List.not_mem_nil, or_false] at hk
    rcases hk with rfl | rfl <;> exact hK
  · exact fun _ _ x hx => hx
  · exact fun _ _ => ⟨fun _ => 0, fun _ _ _ => rfl⟩
  · simp [sumNonA, CatCol.nonA, k1, k2, slot]

/-- The hypothesis of `C95_variance_counted_twice` can be met with standard deviations that differ by period. -/
example : ∃ (b : DBase 1 2) (Sn : Per → Fin 2 → ℝ), (∀ p g, Sn p g = if p.isB then b.Sb p g else b.Sw p 0 g) ∧
    Sn .p12 1 = 3 ∧ Sn .p2mb 1 = 4 :=
  ⟨⟨fun _ _ _ => 0, fun _ _ => 0, fun _ _ g => 2 + g.1, fun _ g => 3 + g.1⟩,
    fun p g => if p.isB then 3 + g.1 else 2 + g.1, fun _ _ => rfl, by simp [Per.isB]; norm_num,
    by simp [Per.isB]; norm_num⟩

end Pytwoway.Dynamic
