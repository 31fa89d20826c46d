import Verif.BLMDyn.EMBad
import Verif.BLMDyn.Solver

/-! # More about the EM algorithm of the dynamic model

What each update of `_fit_movers` and `fit_stayers` computes, that parameters not asked to be updated are kept,
and the effect of a Dirichlet prior on the recorded likelihoods. -/

namespace Pytwoway.Dynamic

open Finset ProbabilityTheory Pytwoway.Sim.Dyn Pytwoway.BLM

variable {ni nl nk : ℕ}

/-! ## The regressions are those of the likelihood -/

theorem pdf_sq (μ v y e : ℝ) (hv : 0 < v) (he : e = (y - μ) ^ 2) :
    gaussianPDFReal μ v.toNNReal y = (√(2 * Real.pi * v))⁻¹ * Real.exp (- e / (2 * v)) := by
  rw [gaussianPDFReal, Real.coe_toNNReal _ hv.le, he]

/-- C77: the residuals and variances of the regressions for movers are those of the four factors of a mover's
density. -/
theorem C77_movers_factors (d : DData ni nk) (b : DBase nl nk) (hb : PosS b) (r : Rhos) (l : Fin nl) (i : Fin ni) :
    Spec.moverDensity (b.a l fun t => d.G t i) (b.s2 l fun t => d.G t i) r (d.y i) =
      ∏ t, (√(2 * Real.pi * varMv d b r l (t, i)))⁻¹ * Real.exp (- eMv d b r l (t, i) / (2 * varMv d b r l (t, i))) := by
  obtain ⟨h1, h2, h3, h4, -, -⟩ := s2_cond b hb r l fun t => d.G t i
  rw [Fin.prod_univ_four, Spec.moverDensity, pdf_sq _ _ _ (eMv d b r l (0, i)) h1, pdf_sq _ _ _ (eMv d b r l (1, i)) h2,
    pdf_sq _ _ _ (eMv d b r l (2, i)) h3, pdf_sq _ _ _ (eMv d b r l (3, i)) h4]
  · congr 4 <;> simp [varMv, DBase.s2, slot, Per.isB, mul_pow]
  all_goals simp [eMv, DBase.a, slot, Per.isB] <;> ring

/-- C77: the same for the two wages of a stayer that are regressed; the other two factors do not depend on the
parameters that `fit_stayers` updates. -/
theorem C77_stayers_factors (d : DData ni nk) (b : DBase nl nk) (hb : PosS b) (r : Rhos) (l : Fin nl) (i : Fin ni) :
    Spec.stayerDensity (b.a l fun _ => d.G 0 i) (b.s2 l fun _ => d.G 0 i) r (d.y i) =
      gaussianPDFReal (b.Aw .p12 l (d.G 0 i) + r.R12 * ((d.y i).y2 - b.Aw .p2ma l (d.G 0 i)))
        (b.Sw .p12 l (d.G 0 i) ^ 2 + r.R12 ^ 2 * b.Sw .p2ma l (d.G 0 i) ^ 2).toNNReal (d.y i).y1 *
      (∏ t, (√(2 * Real.pi * varSt d b r l (t, i)))⁻¹ *
        Real.exp (- eSt d b r l (t, i) / (2 * varSt d b r l (t, i)))) *
      gaussianPDFReal (b.Aw .p43 l (d.G 0 i) + r.R43 * ((d.y i).y3 - b.Aw .p3ma l (d.G 0 i)))
        (b.Sw .p43 l (d.G 0 i) ^ 2 + r.R43 ^ 2 * b.Sw .p3ma l (d.G 0 i) ^ 2).toNNReal (d.y i).y4 := by
  obtain ⟨h1, -, -, h4, h5, h6⟩ := s2_cond b hb r l fun _ => d.G 0 i
  rw [Fin.prod_univ_two, Spec.stayerDensity, pdf_sq _ _ _ (eSt d b r l (0, i)) h5, pdf_sq _ _ _ (eSt d b r l (1, i)) h6]
  · simp only [varSt, DBase.s2, DBase.a, Per.isB, mul_pow, Bool.false_eq_true, if_false]
    ring
  all_goals simp [eSt, DBase.a, Per.isB] <;> ring

/-! ## What the mover updates minimise -/

/-- The main effects as they enter the regressions of movers, for the periods that belong to the model. -/
def parM {endo state : Bool} (b : DBase nl nk) (a : Fin nl × JM endo state nk) : ℝ :=
  if a.2.1.1.isB then b.Ab a.2.1.1 a.2.2 else b.Aw a.2.1.1 a.1 a.2.2

/-- The squared standard deviations in the same order. -/
def varM {endo state : Bool} (b : DBase nl nk) (a : Fin nl × JM endo state nk) : ℝ :=
  if a.2.1.1.isB then b.Sb a.2.1.1 a.2.2 ^ 2 else b.Sw a.2.1.1 a.1 a.2.2 ^ 2

/-- Effects that are switched off are zero. -/
def OffZero (endo state : Bool) (b : DBase nl nk) : Prop :=
  (endo = false → ∀ k, b.Ab .p2mb k = 0) ∧ (state = false → ∀ k, b.Ab .p3mb k = 0)

theorem fit_mvG {endo state : Bool} (d : DData ni nk) (r : Rhos) (x : Fin nl × JM endo state nk → ℝ) (l : Fin nl)
    (s : Fin 4 × Fin ni) : fit (Xmv d r) x l s =
      ∑ p : {p : Per // inModel endo state p = true}, coef r s.1 p.1 * x (l, p, d.G (slot p.1) s.2) := by
  unfold fit
  rw [Fintype.sum_prod_type]
  refine sum_congr rfl fun p _ => ?_
  simp [Xmv, ite_mul]

theorem sum_per (f : Per → ℝ) : ∑ p, f p = f .p12 + f .p43 + f .p2ma + f .p3ma + f .p2mb + f .p3mb + f .p2s + f .p3s := by
  have : (univ : Finset Per) = {.p12, .p43, .p2ma, .p3ma, .p2mb, .p3mb, .p2s, .p3s} := by decide
  rw [this]
  repeat rw [sum_insert (by decide)]
  rw [sum_singleton]
  ring

/-- A residual at given effects. -/
theorem eMv_eq {endo state : Bool} (d : DData ni nk) (b : DBase nl nk) (ho : OffZero endo state b) (r : Rhos)
    (l : Fin nl) (s : Fin 4 × Fin ni) :
    eMv d b r l s = (yMv d r s - fit (Xmv (endo := endo) (state := state) d r) (parM b) l s) ^ 2 := by
  rw [fit_mvG]
  have h : ∑ p : {p : Per // inModel endo state p = true}, coef r s.1 p.1 * parM b (l, p, d.G (slot p.1) s.2) =
      ∑ p, coef r s.1 p * b.a l (fun t => d.G t s.2) p := by
    rw [← sum_subset (subset_univ (univ.filter fun p => inModel endo state p = true))]
    · rw [sum_subtype (univ.filter fun p => inModel endo state p = true) (p := fun p => inModel endo state p = true)
        (by simp)]
      rfl
    · intro p _ hp
      simp only [mem_filter, mem_univ, true_and, Bool.not_eq_true] at hp
      obtain ⟨t, i⟩ := s
      cases p <;> simp only [inModel, Bool.true_eq_false] at hp
      · rw [DBase.a, if_pos (by rfl), ho.1 hp, mul_zero]
      · rw [DBase.a, if_pos (by rfl), ho.2 hp, mul_zero]
      · fin_cases t <;> simp [coef]
      · fin_cases t <;> simp [coef]
  rw [h, sum_per]
  obtain ⟨t, i⟩ := s
  fin_cases t <;> simp [eMv, yMv, coef, DBase.a, slot, Per.isB] <;> ring

/-- What a solution written back looks like. -/
theorem parM_write [NeZero nl] {endo state : Bool} (b : DBase nl nk) (x : Fin nl × JM endo state nk → ℝ)
    (hx : ∀ p : {p : Per // inModel endo state p = true}, p.1.isB = true → ∀ l k, x (l, p, k) = x (0, p, k)) :
    parM { b with Aw := writeW x b.Aw, Ab := writeB x b.Ab } = x := by
  funext ⟨l, ⟨p, hp⟩, k⟩
  unfold parM writeW writeB
  cases hB : p.isB
  · simp [hp, hB]
  · simp [hp, hB, hx ⟨p, hp⟩ hB l k]

theorem offZero_write [NeZero nl] {endo state : Bool} (b : DBase nl nk) (x : Fin nl × JM endo state nk → ℝ)
    (h : OffZero endo state b) : OffZero endo state { b with Aw := writeW x b.Aw, Ab := writeB x b.Ab } := by
  refine ⟨fun he k => ?_, fun he k => ?_⟩
  · subst he; simpa [writeB, inModel] using h.1 rfl k
  · subst he; simpa [writeB, inModel] using h.2 rfl k

theorem qpVal_ls {ρ J : Type} [Fintype ρ] [Fintype J] [DecidableEq J] (w : Fin nl → ρ → ℝ) (X : ρ → J → ℝ) (δ : ℝ)
    (Y : Fin nl → ρ → ℝ) (x : Fin nl × J → ℝ) :
    2 * qpVal (XwX w X δ) (fun a => - XwV w X Y a) x =
      ∑ l, ∑ s, w l s * (Y l s - fit X x l s) ^ 2 + δ * ∑ a, x a ^ 2 - ∑ l, ∑ s, w l s * Y l s ^ 2 := by
  rw [qpVal_rows, mul_add, ← mul_assoc, show (2 : ℝ) * (δ / 2) = δ by ring, mul_sum, add_sub_right_comm,
    ← sum_sub_distrib]
  congr 1
  refine sum_congr rfl fun l _ => ?_
  rw [mul_sum, ← sum_sub_distrib]
  refine sum_congr rfl fun s _ => ?_
  ring

theorem XwX_pdRidge {ρ J : Type} [Fintype ρ] [Fintype J] [DecidableEq J] (w : Fin nl → ρ → ℝ) (X : ρ → J → ℝ) (δ : ℝ)
    (hw : ∀ l s, 0 ≤ w l s) (hδ : 0 < δ) (x : Fin nl × J → ℝ) (hx : x ≠ 0) :
    0 < ∑ a, ∑ b, x a * XwX w X δ a b * x b := by
  rw [XwX_quad]
  refine add_pos_of_nonneg_of_pos (sum_nonneg fun l _ => sum_nonneg fun s _ => mul_nonneg (hw l s) (sq_nonneg _))
    (mul_pos hδ ?_)
  obtain ⟨a, ha⟩ := Function.ne_iff.mp hx
  exact sum_pos' (fun a _ => sq_nonneg _) ⟨a, mem_univ _, by have : x a ≠ 0 := ha; positivity⟩

theorem wMv_nonneg (d : DData ni nk) (b : DBase nl nk) (r : Rhos) (q : Fin ni → Fin nl → ℝ) (hq : ∀ i l, 0 ≤ q i l)
    (l : Fin nl) (s : Fin 4 × Fin ni) : 0 ≤ wMv d b r q l s := div_nonneg (hq _ _) (Real.sqrt_nonneg _)

theorem wSt_nonneg (d : DData ni nk) (b : DBase nl nk) (r : Rhos) (q : Fin ni → Fin nl → ℝ) (hq : ∀ i l, 0 ≤ q i l)
    (l : Fin nl) (s : Fin 2 × Fin ni) : 0 ≤ wSt d b r q l s := div_nonneg (hq _ _) (Real.sqrt_nonneg _)

/-- C77: the means of the movers' update minimise, among all effects that meet the constraints, the sum over
movers, worker types and the four wages of the squared residuals (`C77_movers_factors`), weighted by the posterior
over the *standard deviation* of the wage (the likelihood asks for the variance), plus the ridge term.  Standard
deviations and persistence are kept. -/
theorem C77_movers_means [NeZero nl] {endo state : Bool} (d : DData ni nk) (q : Fin ni → Fin nl → ℝ)
    (b : DBase nl nk) (ho : OffZero endo state b) (r : Rhos) (δ : ℝ) (sA sS : QP (Fin nl × JM endo state nk))
    (feas : (Fin nl × JM endo state nk → ℝ) → Prop) (hs : RightQP feas sA)
    (hfeas : ∀ x, feas x → ∀ p : {p : Per // inModel endo state p = true}, p.1.isB = true →
      ∀ l k, x (l, p, k) = x (0, p, k))
    (hq : ∀ i l, 0 ≤ q i l) (hδ : 0 < δ) (c : DBase nl nk) (hoc : OffZero endo state c)
    (hc : feas (parM c)) :
    let b1 := mstepMv d q b r true false δ sA sS
    feas (parM b1) ∧ b1.Sw = b.Sw ∧ b1.Sb = b.Sb ∧
    (∑ l, ∑ s, q s.2 l / √(varMv d b r l s) * eMv d b1 r l s +
        δ * ∑ a : Fin nl × JM endo state nk, parM b1 a ^ 2 ≤
      ∑ l, ∑ s, q s.2 l / √(varMv d b r l s) * eMv d c r l s +
        δ * ∑ a : Fin nl × JM endo state nk, parM c a ^ 2) := by
  obtain ⟨x, hx⟩ := hs.complete (XwX (wMv d b r q) (Xmv (endo := endo) (state := state) d r) δ)
    (fun a => - XwV (wMv d b r q) (Xmv d r) (fun _ => yMv d r) a)
    (XwX_pdRidge _ _ _ (wMv_nonneg d b r q hq) hδ) ⟨_, hc⟩
  have hb1 : mstepMv d q b r true false δ sA sS = { b with Aw := writeW x b.Aw, Ab := writeB x b.Ab } := by
    simp only [mstepMv, if_true, Bool.false_eq_true, if_false, solveAMv, hx]
  obtain ⟨hf, hmin⟩ := hs.sound _ _ _ hx
  intro b1
  have hpar : parM b1 = x := by
    show parM (mstepMv d q b r true false δ sA sS) = x
    rw [hb1]; exact parM_write b x (hfeas x hf)
  have hob1 : OffZero endo state b1 := by
    show OffZero endo state (mstepMv d q b r true false δ sA sS)
    rw [hb1]; exact offZero_write b x ho
  refine ⟨by rw [hpar]; exact hf, by show (mstepMv _ _ _ _ _ _ _ _ _).Sw = _; rw [hb1],
    by show (mstepMv _ _ _ _ _ _ _ _ _).Sb = _; rw [hb1], ?_⟩
  have h := hmin (parM c) hc
  have h2 := qpVal_ls (wMv d b r q) (Xmv (endo := endo) (state := state) d r) δ (fun _ => yMv d r) x
  have h3 := qpVal_ls (wMv d b r q) (Xmv (endo := endo) (state := state) d r) δ (fun _ => yMv d r) (parM c)
  rw [← hpar] at h h2
  simp only [eMv_eq d b1 hob1, eMv_eq d c hoc]
  simp only [wMv] at h h2 h3
  linarith

/-- C77: the squared standard deviations of the movers' update minimise, among those that meet the constraints,
the distance between the squared residuals at the *new* means and the right-hand side of the same regression (so
with coefficients `-rho` where the likelihood asks for `rho^2`). -/
theorem C77_movers_variances [NeZero nl] {endo state : Bool} (d : DData ni nk) (q : Fin ni → Fin nl → ℝ)
    (b : DBase nl nk) (r : Rhos) (updA : Bool) (δ : ℝ) (sA sS : QP (Fin nl × JM endo state nk))
    (feas : (Fin nl × JM endo state nk → ℝ) → Prop) (hs : RightQP feas sS)
    (hfeas : ∀ x, feas x → (∀ a, 0 ≤ x a) ∧ ∀ p : {p : Per // inModel endo state p = true}, p.1.isB = true →
      ∀ l k, x (l, p, k) = x (0, p, k))
    (hq : ∀ i l, 0 ≤ q i l) (hδ : 0 < δ) (z : Fin nl × JM endo state nk → ℝ) (hz : feas z) :
    let b1 := mstepMv d q b r updA false δ sA sS
    let b2 := mstepMv d q b r updA true δ sA sS
    feas (varM b2) ∧ b2.Aw = b1.Aw ∧ b2.Ab = b1.Ab ∧
    (∑ l, ∑ s, q s.2 l / √(varMv d b r l s) * (eMv d b1 r l s -
          ∑ p : {p : Per // inModel endo state p = true}, coef r s.1 p.1 * varM b2 (l, p, d.G (slot p.1) s.2)) ^ 2 +
        δ * ∑ a : Fin nl × JM endo state nk, varM b2 a ^ 2 ≤
      ∑ l, ∑ s, q s.2 l / √(varMv d b r l s) * (eMv d b1 r l s -
          ∑ p : {p : Per // inModel endo state p = true}, coef r s.1 p.1 * z (l, p, d.G (slot p.1) s.2)) ^ 2 +
        δ * ∑ a : Fin nl × JM endo state nk, z a ^ 2) := by
  intro b1 b2
  obtain ⟨x, hx⟩ := hs.complete (XwX (wMv d b r q) (Xmv (endo := endo) (state := state) d r) δ)
    (fun a => - XwV (wMv d b r q) (Xmv d r) (eMv d b1 r) a)
    (XwX_pdRidge _ _ _ (wMv_nonneg d b r q hq) hδ) ⟨_, hz⟩
  have hb2 : b2 = { b1 with Sw := writeW (fun a => √(x a)) b1.Sw, Sb := writeB (fun a => √(x a)) b1.Sb } := by
    have e1 : b1 = if updA then solveAMv sA (XwX (wMv d b r q) (Xmv (endo := endo) (state := state) d r) δ)
      (XwV (wMv d b r q) (Xmv d r) fun _ => yMv d r) b else b := by
      simp only [b1, mstepMv, Bool.false_eq_true, if_false]
    have e2 : b2 = solveSMv sS (XwX (wMv d b r q) (Xmv (endo := endo) (state := state) d r) δ)
        (XwV (wMv d b r q) (Xmv d r) (eMv d b1 r)) b1 := by
      rw [e1]
      simp only [b2, mstepMv, if_true]
    rw [e2, solveSMv, hx]
  obtain ⟨hf, hmin⟩ := hs.sound _ _ _ hx
  obtain ⟨hpos, hsame⟩ := hfeas x hf
  have hpar : varM b2 = x := by
    rw [hb2]
    funext ⟨l, ⟨p, hp⟩, k⟩
    unfold varM writeW writeB
    cases hB : p.isB
    · simp [hp, hB, Real.sq_sqrt (hpos _)]
    · simp [hp, hB, hsame ⟨p, hp⟩ hB l k, Real.sq_sqrt (hpos _)]
  refine ⟨by rw [hpar]; exact hf, by rw [hb2], by rw [hb2], ?_⟩
  have h := hmin z hz
  have h2 := qpVal_ls (wMv d b r q) (Xmv (endo := endo) (state := state) d r) δ (eMv d b1 r) x
  have h3 := qpVal_ls (wMv d b r q) (Xmv (endo := endo) (state := state) d r) δ (eMv d b1 r) z
  rw [← hpar] at h h2
  simp only [fit_mvG, wMv] at h h2 h3
  linarith

/-- The distance between squared residuals at means `A` and what the regression makes of variances `s2`, `s3`. -/
noncomputable def Spec.stayerVarFit (d : DData ni nk) (q : Fin ni → Fin nl → ℝ) (b : DBase nl nk) (r : Rhos) (δ : ℝ)
    (A : Per → Fin nl → Fin nk → ℝ) (s2 s3 : Fin nl → Fin nk → ℝ) : ℝ :=
  ∑ l, ∑ i, (q i l / √(varSt d b r l (0, i)) * (((d.y i).y2 - A .p2s l (d.G 0 i)) ^ 2 - s2 l (d.G 0 i)) ^ 2 +
    q i l / √(varSt d b r l (1, i)) * (((d.y i).y3 - r.R32 * ((d.y i).y2 - A .p2s l (d.G 0 i)) -
      A .p3s l (d.G 0 i)) ^ 2 - (s3 l (d.G 0 i) - r.R32 * s2 l (d.G 0 i))) ^ 2) +
  δ * ∑ l, ∑ k, (s2 l k ^ 2 + s3 l k ^ 2)

/-- C77: the squared standard deviations of the stayers' update minimise the distance between the squared residuals
at the new means and the right-hand side of the regression, among those that meet the constraints. -/
theorem C77_stayers_variances_new [NeZero nl] (d : DData ni nk) (q : Fin ni → Fin nl → ℝ)
    (b : DBase nl nk) (r : Rhos) (updA : Bool) (δ : ℝ) (sA sS : QP (Fin nl × JS nk))
    (feas : (Fin nl × JS nk → ℝ) → Prop) (hs : RightQP feas sS) (hfeas : ∀ x, feas x → ∀ a, 0 ≤ x a)
    (hq : ∀ i l, 0 ≤ q i l) (hδ : 0 < δ) (z2 z3 : Fin nl → Fin nk → ℝ)
    (hz : feas fun a => if a.2.1 = 0 then z2 a.1 a.2.2 else z3 a.1 a.2.2) :
    let b1 := mstepSt d q b r updA false δ sA sS
    let b2 := mstepSt d q b r updA true δ sA sS
    b2.Aw = b1.Aw ∧
    Spec.stayerVarFit d q b r δ b1.Aw (fun l k => b2.Sw .p2s l k ^ 2) (fun l k => b2.Sw .p3s l k ^ 2) ≤
      Spec.stayerVarFit d q b r δ b1.Aw z2 z3 := by
  intro b1 b2
  obtain ⟨x, hx⟩ := hs.complete (XwX (wSt d b r q) (Xst d r) δ) (fun a => - XwV (wSt d b r q) (Xst d r) (eSt d b1 r) a)
    (XwX_pdRidge _ _ _ (wSt_nonneg d b r q hq) hδ) ⟨_, hz⟩
  have hb2 : b2 = { b1 with
      Sw := Function.update (Function.update b1.Sw .p2s fun l k => √(x (l, 0, k))) .p3s fun l k => √(x (l, 1, k)) } := by
    have e1 : b1 = if updA then solveASt sA (XwX (wSt d b r q) (Xst d r) δ)
      (XwV (wSt d b r q) (Xst d r) fun _ => ySt d r) b else b := by
      simp only [b1, mstepSt, Bool.false_eq_true, if_false]
    have e2 : b2 = solveSSt sS (XwX (wSt d b r q) (Xst d r) δ)
        (XwV (wSt d b r q) (Xst d r) (eSt d b1 r)) b1 := by
      rw [e1]
      simp only [b2, mstepSt, if_true]
    rw [e2, solveSSt, hx]
  obtain ⟨hf, hmin⟩ := hs.sound _ _ _ hx
  have hpos := hfeas x hf
  refine ⟨by rw [hb2], ?_⟩
  have hobj : ∀ y2 y3 : Fin nl → Fin nk → ℝ, Spec.stayerVarFit d q b r δ b1.Aw y2 y3 =
      ∑ l, ∑ s, wSt d b r q l s * (eSt d b1 r l s - fit (Xst d r)
        (fun a => if a.2.1 = 0 then y2 a.1 a.2.2 else y3 a.1 a.2.2) l s) ^ 2 +
        δ * ∑ a : Fin nl × JS nk, (if a.2.1 = 0 then y2 a.1 a.2.2 else y3 a.1 a.2.2) ^ 2 := by
    intro y2 y3
    simp only [Spec.stayerVarFit, fit_st]
    congr 1
    · refine sum_congr rfl fun l _ => ?_
      rw [Fintype.sum_prod_type, Fin.sum_univ_two, ← sum_add_distrib]
      refine sum_congr rfl fun i _ => ?_
      simp [wSt, eSt]
    · congr 1
      rw [Fintype.sum_prod_type]
      refine sum_congr rfl fun l _ => ?_
      rw [Fintype.sum_prod_type, Fin.sum_univ_two, ← sum_add_distrib]
      simp
  have hxx : (fun a : Fin nl × JS nk => if a.2.1 = 0 then b2.Sw .p2s a.1 a.2.2 ^ 2 else b2.Sw .p3s a.1 a.2.2 ^ 2) = x := by
    funext ⟨l, t, k⟩
    rw [hb2]
    fin_cases t
    · simp [Function.update, Real.sq_sqrt (hpos _)]
    · simp [Function.update, Real.sq_sqrt (hpos _)]
  rw [hobj, hobj]
  have h := hmin _ hz
  have h2 := qpVal_ls (wSt d b r q) (Xst d r) δ (eSt d b1 r) x
  have h3 := qpVal_ls (wSt d b r q) (Xst d r) δ (eSt d b1 r) fun a => if a.2.1 = 0 then z2 a.1 a.2.2 else z3 a.1 a.2.2
  have e : ∀ a : Fin nl × JS nk, (if a.2.1 = 0 then b2.Sw .p2s a.1 a.2.2 ^ 2 else b2.Sw .p3s a.1 a.2.2 ^ 2) = x a :=
    fun a => congrFun hxx a
  simp only [e]
  linarith

/-! ## Parameters that are not to be updated are kept -/

/-- C77: `_fit_movers` changes no parameter that it was not asked to update. -/
theorem C77_movers_kept [NeZero nl] {endo state : Bool} (d : DData ni nk) (o : MvOpts)
    (sA sS : QP (Fin nl × JM endo state nk)) (minType : DBase nl nk → ℕ) :
    ∀ (n iter : ℕ) (prev : Option ℝ) (pm : ℕ) (s s' : MvState nl nk),
      loopMv d o sA sS minType n iter prev pm s = .ok s' →
      (o.updA = false → s'.base.Aw = s.base.Aw ∧ s'.base.Ab = s.base.Ab) ∧
      (o.updS = false → s'.base.Sw = s.base.Sw ∧ s'.base.Sb = s.base.Sb) ∧
      (o.upd12 = false → s'.r.R12 = s.r.R12) ∧ (o.upd43 = false → s'.r.R43 = s.r.R43) ∧
      (o.upd32 = false → s'.r.R32 = s.r.R32) ∧ (o.updPk = false → s'.pk1 = s.pk1) := by
  have hA : ∀ P v (b : DBase nl nk), (solveAMv sA P v b).Sw = b.Sw ∧ (solveAMv sA P v b).Sb = b.Sb := by
    intro P v b
    unfold solveAMv
    split <;> exact ⟨rfl, rfl⟩
  have hS : ∀ P v (b : DBase nl nk), (solveSMv sS P v b).Aw = b.Aw ∧ (solveSMv sS P v b).Ab = b.Ab := by
    intro P v b
    unfold solveSMv
    split <;> exact ⟨rfl, rfl⟩
  intro n
  induction n with
  | zero =>
    intro iter prev pm s s' h
    cases h
    simp
  | succ n ih =>
    intro iter prev pm s s' h
    unfold loopMv at h
    dsimp only at h
    split at h
    · cases h
      simp
    · simp only [bind, Except.bind] at h
      split at h
      · cases h
      · rename_i s2 hs2
        obtain ⟨i1, i2, i3, i4, i5, i6⟩ := ih _ _ _ _ _ h
        suffices hh : (o.updA = false → s2.base.Aw = s.base.Aw ∧ s2.base.Ab = s.base.Ab) ∧
            (o.updS = false → s2.base.Sw = s.base.Sw ∧ s2.base.Sb = s.base.Sb) ∧
            (o.upd12 = false → s2.r.R12 = s.r.R12) ∧ (o.upd43 = false → s2.r.R43 = s.r.R43) ∧
            (o.upd32 = false → s2.r.R32 = s.r.R32) ∧ (o.updPk = false → s2.pk1 = s.pk1) by
          obtain ⟨j1, j2, j3, j4, j5, j6⟩ := hh
          refine ⟨fun k => ?_, fun k => ?_, fun k => (i3 k).trans (j3 k), fun k => (i4 k).trans (j4 k),
            fun k => (i5 k).trans (j5 k), fun k => (i6 k).trans (j6 k)⟩
          · exact ⟨(i1 k).1.trans (j1 k).1, (i1 k).2.trans (j1 k).2⟩
          · exact ⟨(i2 k).1.trans (j2 k).1, (i2 k).2.trans (j2 k).2⟩
        unfold stepMv at hs2
        simp only [bind, Except.bind] at hs2
        split at hs2
        · cases hs2
        · rename_i pk hpk
          have hpk' : o.updPk = false → pk = s.pk1 := by
            intro k
            simp only [nextPk, k, Bool.false_eq_true, if_false, Except.ok.injEq] at hpk
            exact hpk.symm
          split at hs2
          · cases hs2
            refine ⟨fun _ => ⟨rfl, rfl⟩, fun _ => ⟨rfl, rfl⟩, fun k => ?_, fun k => ?_, fun k => ?_, hpk'⟩ <;>
              simp [rhosMv, k]
          · split at hs2
            · cases hs2
              refine ⟨fun k => ?_, fun k => ?_, fun _ => rfl, fun _ => rfl, fun _ => rfl, hpk'⟩
              · simp only [mstepMv, k, Bool.false_eq_true, if_false]
                split
                · exact hS _ _ _
                · exact ⟨rfl, rfl⟩
              · simp only [mstepMv, k, Bool.false_eq_true, if_false]
                split
                · exact hA _ _ _
                · exact ⟨rfl, rfl⟩
            · cases hs2
              exact ⟨fun _ => ⟨rfl, rfl⟩, fun _ => ⟨rfl, rfl⟩, fun _ => rfl, fun _ => rfl, fun _ => rfl, hpk'⟩

/-- C77: `fit_stayers` changes no parameter that it was not asked to update, and never a parameter that only
matters to movers. -/
theorem C77_stayers_kept [NeZero nl] (d : DData ni nk) (o : StOpts) (sA sS : QP (Fin nl × JS nk)) :
    ∀ (n iter : ℕ) (prev : Option ℝ) (s s' : StState nl nk), loopSt d o sA sS n iter prev s = .ok s' →
      (∀ p, (o.updA = false ∨ (p ≠ .p2s ∧ p ≠ .p3s)) → s'.base.Aw p = s.base.Aw p) ∧
      (∀ p, (o.updS = false ∨ (p ≠ .p2s ∧ p ≠ .p3s)) → s'.base.Sw p = s.base.Sw p) ∧
      s'.base.Ab = s.base.Ab ∧ s'.base.Sb = s.base.Sb ∧ s'.r.R12 = s.r.R12 ∧ s'.r.R43 = s.r.R43 ∧
      (o.updRho = false → s'.r.R32 = s.r.R32) ∧ (o.updPk = false → s'.pk0 = s.pk0) := by
  have hA : ∀ P v (b : DBase nl nk), (solveASt sA P v b).Sw = b.Sw ∧ (solveASt sA P v b).Sb = b.Sb ∧
      (solveASt sA P v b).Ab = b.Ab ∧ ∀ p, p ≠ .p2s → p ≠ .p3s → (solveASt sA P v b).Aw p = b.Aw p := by
    intro P v b
    unfold solveASt
    split
    · refine ⟨rfl, rfl, rfl, fun p h2 h3 => ?_⟩
      simp [Function.update, h2, h3]
    · exact ⟨rfl, rfl, rfl, fun _ _ _ => rfl⟩
    · exact ⟨rfl, rfl, rfl, fun _ _ _ => rfl⟩
  have hS : ∀ P v (b : DBase nl nk), (solveSSt sS P v b).Aw = b.Aw ∧ (solveSSt sS P v b).Sb = b.Sb ∧
      (solveSSt sS P v b).Ab = b.Ab ∧ ∀ p, p ≠ .p2s → p ≠ .p3s → (solveSSt sS P v b).Sw p = b.Sw p := by
    intro P v b
    unfold solveSSt
    split
    · refine ⟨rfl, rfl, rfl, fun p h2 h3 => ?_⟩
      simp [Function.update, h2, h3]
    · exact ⟨rfl, rfl, rfl, fun _ _ _ => rfl⟩
    · exact ⟨rfl, rfl, rfl, fun _ _ _ => rfl⟩
  intro n
  induction n with
  | zero =>
    intro iter prev s s' h
    cases h
    simp
  | succ n ih =>
    intro iter prev s s' h
    unfold loopSt at h
    dsimp only at h
    split at h
    · cases h
      simp
    · simp only [bind, Except.bind] at h
      split at h
      · cases h
      · rename_i s2 hs2
        obtain ⟨i1, i2, i3, i4, i5, i6, i7, i8⟩ := ih _ _ _ _ h
        suffices hh : (∀ p, (o.updA = false ∨ (p ≠ .p2s ∧ p ≠ .p3s)) → s2.base.Aw p = s.base.Aw p) ∧
            (∀ p, (o.updS = false ∨ (p ≠ .p2s ∧ p ≠ .p3s)) → s2.base.Sw p = s.base.Sw p) ∧
            s2.base.Ab = s.base.Ab ∧ s2.base.Sb = s.base.Sb ∧ s2.r.R12 = s.r.R12 ∧ s2.r.R43 = s.r.R43 ∧
            (o.updRho = false → s2.r.R32 = s.r.R32) ∧ (o.updPk = false → s2.pk0 = s.pk0) by
          obtain ⟨j1, j2, j3, j4, j5, j6, j7, j8⟩ := hh
          exact ⟨fun p k => (i1 p k).trans (j1 p k), fun p k => (i2 p k).trans (j2 p k), i3.trans j3, i4.trans j4,
            i5.trans j5, i6.trans j6, fun k => (i7 k).trans (j7 k), fun k => (i8 k).trans (j8 k)⟩
        unfold stepSt at hs2
        simp only [bind, Except.bind] at hs2
        split at hs2
        · cases hs2
        · rename_i pk hpk
          have hpk' : o.updPk = false → pk = s.pk0 := by
            intro k
            simp only [nextPk, k, Bool.false_eq_true, if_false, Except.ok.injEq] at hpk
            exact hpk.symm
          split at hs2
          · rename_i hc
            cases hs2
            refine ⟨fun _ _ => rfl, fun _ _ => rfl, rfl, rfl, rfl, rfl, fun k => ?_, hpk'⟩
            simp [k] at hc
          · split at hs2
            · cases hs2
              obtain hcA | hcA := Bool.eq_false_or_eq_true o.updA <;>
                obtain hcS | hcS := Bool.eq_false_or_eq_true o.updS <;>
                simp only [mstepSt, hcA, hcS, Bool.false_eq_true, if_false, if_true, true_and]
              · refine ⟨fun p k => ?_, fun p k => ?_, ?_, ?_, fun _ => trivial, hpk'⟩
                · obtain k | k := k
                  · cases k
                  · rw [(hS _ _ _).1, (hA _ _ _).2.2.2 p k.1 k.2]
                · obtain k | k := k
                  · cases k
                  · rw [(hS _ _ _).2.2.2 p k.1 k.2, (hA _ _ _).1]
                · rw [(hS _ _ _).2.2.1, (hA _ _ _).2.2.1]
                · rw [(hS _ _ _).2.1, (hA _ _ _).2.1]
              · refine ⟨fun p k => ?_, fun p k => ?_, ?_, ?_, fun _ => trivial, hpk'⟩
                · obtain k | k := k
                  · cases k
                  · rw [(hA _ _ _).2.2.2 p k.1 k.2]
                · rw [(hA _ _ _).1]
                · rw [(hA _ _ _).2.2.1]
                · rw [(hA _ _ _).2.1]
              · refine ⟨fun p k => ?_, fun p k => ?_, ?_, ?_, fun _ => trivial, hpk'⟩
                · rw [(hS _ _ _).1]
                · obtain k | k := k
                  · cases k
                  · rw [(hS _ _ _).2.2.2 p k.1 k.2]
                · rw [(hS _ _ _).2.2.1]
                · rw [(hS _ _ _).2.1]
              · exact ⟨fun _ _ => trivial, fun _ _ => trivial, fun _ => trivial, hpk'⟩
            · cases hs2
              exact ⟨fun _ _ => rfl, fun _ _ => rfl, rfl, rfl, rfl, rfl, fun _ => rfl, hpk'⟩

/-! ## Persistences and effects alternate -/

/-- C77: one more iteration for stayers.  With `n` iterations before it, `n` odd, and the persistence updated, it changes no
means or standard deviations; in any other case it changes no persistence. -/
theorem C77_stayers_alternate [NeZero nl] (d : DData ni nk) (o : StOpts) (sA sS : QP (Fin nl × JS nk)) (n : ℕ)
    (s s' : StState nl nk) (h : loopSt d o sA sS (n + 1) 0 none s = .ok s') :
    ∃ t, loopSt d o sA sS n 0 none s = .ok t ∧ (o.updRho = true ∧ n % 2 = 1 → s'.base = t.base) ∧
      (¬ (o.updRho = true ∧ n % 2 = 1) → s'.r = t.r) := by
  suffices key : ∀ n iter prev s s', loopSt d o sA sS (n + 1) iter prev s = .ok s' →
      ∃ t, loopSt d o sA sS n iter prev s = .ok t ∧ (o.updRho = true ∧ (iter + n) % 2 = 1 → s'.base = t.base) ∧
        (¬ (o.updRho = true ∧ (iter + n) % 2 = 1) → s'.r = t.r) by
    simpa using key n 0 none s s' h
  clear h s s' n
  intro n
  induction n with
  | zero =>
    intro iter prev s s' h
    refine ⟨s, rfl, ?_⟩
    unfold loopSt at h
    dsimp only at h
    split at h
    · cases h
      simp
    · simp only [bind, Except.bind] at h
      split at h
      · cases h
      · rename_i s2 hs2
        cases h
        unfold stepSt at hs2
        simp only [bind, Except.bind] at hs2
        split at hs2
        · cases hs2
        · split at hs2
          · rename_i hc
            cases hs2
            simp only [Bool.and_eq_true, beq_iff_eq] at hc
            exact ⟨fun _ => rfl, fun hn => absurd hc hn⟩
          · rename_i hc
            simp only [Bool.and_eq_true, beq_iff_eq] at hc
            split at hs2 <;> cases hs2 <;> exact ⟨fun hn => absurd hn hc, fun _ => rfl⟩
  | succ n ih =>
    intro iter prev s s' h
    unfold loopSt at h ⊢
    dsimp only at h ⊢
    split at h
    · rename_i hc
      rw [if_pos hc]
      cases h
      exact ⟨_, rfl, fun _ => rfl, fun _ => rfl⟩
    · rename_i hc
      rw [if_neg hc]
      simp only [bind, Except.bind] at h ⊢
      split at h
      · cases h
      · rename_i s2 hs2
        obtain ⟨t, h1, h2, h3⟩ := ih _ _ _ _ h
        refine ⟨t, h1, ?_, ?_⟩
        · rw [← Nat.add_right_comm] at h2
          exact h2
        · rw [← Nat.add_right_comm] at h3
          exact h3

/-- C77: the same for movers, where the three persistences have separate switches. -/
theorem C77_movers_alternate [NeZero nl] {endo state : Bool} (d : DData ni nk) (o : MvOpts)
    (sA sS : QP (Fin nl × JM endo state nk)) (minType : DBase nl nk → ℕ) (n m0 : ℕ)
    (s s' : MvState nl nk) (h : loopMv d o sA sS minType (n + 1) 0 none m0 s = .ok s') :
    ∃ t, loopMv d o sA sS minType n 0 none m0 s = .ok t ∧
      ((o.upd12 = true ∨ o.upd43 = true ∨ o.upd32 = true) ∧ n % 2 = 1 → s'.base = t.base) ∧
      (¬ ((o.upd12 = true ∨ o.upd43 = true ∨ o.upd32 = true) ∧ n % 2 = 1) → s'.r = t.r) := by
  suffices key : ∀ n iter prev m0 s s', loopMv d o sA sS minType (n + 1) iter prev m0 s = .ok s' →
      ∃ t, loopMv d o sA sS minType n iter prev m0 s = .ok t ∧
        ((o.upd12 = true ∨ o.upd43 = true ∨ o.upd32 = true) ∧ (iter + n) % 2 = 1 → s'.base = t.base) ∧
        (¬ ((o.upd12 = true ∨ o.upd43 = true ∨ o.upd32 = true) ∧ (iter + n) % 2 = 1) → s'.r = t.r) by
    simpa using key n 0 none m0 s s' h
  clear h s s' n m0
  intro n
  induction n with
  | zero =>
    intro iter prev m0 s s' h
    refine ⟨s, rfl, ?_⟩
    unfold loopMv at h
    dsimp only at h
    split at h
    · cases h
      simp
    · simp only [bind, Except.bind] at h
      split at h
      · cases h
      · rename_i s2 hs2
        cases h
        unfold stepMv at hs2
        simp only [bind, Except.bind] at hs2
        split at hs2
        · cases hs2
        · split at hs2
          · rename_i hc
            cases hs2
            simp only [Bool.and_eq_true, Bool.or_eq_true, beq_iff_eq, or_assoc] at hc
            exact ⟨fun _ => rfl, fun hn => absurd hc hn⟩
          · rename_i hc
            simp only [Bool.and_eq_true, Bool.or_eq_true, beq_iff_eq, or_assoc] at hc
            split at hs2 <;> cases hs2 <;> exact ⟨fun hn => absurd hn hc, fun _ => rfl⟩
  | succ n ih =>
    intro iter prev m0 s s' h
    unfold loopMv at h ⊢
    dsimp only at h ⊢
    split at h
    · rename_i hc
      rw [if_pos hc]
      cases h
      exact ⟨_, rfl, fun _ => rfl, fun _ => rfl⟩
    · rename_i hc
      rw [if_neg hc]
      simp only [bind, Except.bind] at h ⊢
      split at h
      · cases h
      · rename_i s2 hs2
        obtain ⟨t, h1, h2, h3⟩ := ih _ _ _ _ _ h
        refine ⟨t, h1, ?_, ?_⟩
        · rw [← Nat.add_right_comm] at h2
          exact h2
        · rw [← Nat.add_right_comm] at h3
          exact h3

/-! ## The prior -/

/-- C77 is false with a Dirichlet prior even if nothing but the proportions is updated: the first recorded value
lacks the prior's term and all later ones have it.  With worker types that cannot be told apart and equal
proportions nothing changes from one iteration to the next, but the recorded likelihood falls by
`(d_prior - 1)·nk·nl·log nl`. -/
theorem C77_prior_lower [NeZero nl] (hnl : 2 ≤ nl) (hnk : 1 ≤ nk) (d : DData ni nk) (hall : ∀ k, ∃ i, d.G 0 i = k)
    (o : StOpts) (hA : o.updA = false) (hS : o.updS = false) (hR : o.updRho = false) (hP : o.updPk = true)
    (hd : 1 < o.dprior) (sA sS : QP (Fin nl × JS nk)) (b : DBase nl nk)
    (hAw : ∀ p l l' k, b.Aw p l k = b.Aw p l' k) (hSw : ∀ p l l' k, b.Sw p l k = b.Sw p l' k) (r : Rhos) :
    ∃ s' L, loopSt d o sA sS 2 0 none ⟨b, r, fun _ _ => 1 / nl, []⟩ = .ok s' ∧
      s'.liks = [L, L - (o.dprior - 1) * (nk * nl * Real.log nl)] ∧
      L - (o.dprior - 1) * (nk * nl * Real.log nl) < L := by
  have hnl0 : (0 : ℝ) < nl := by exact_mod_cast (by omega : 0 < nl)
  set lp := lpSt d b r fun _ _ => 1 / (nl : ℝ) with hlp
  have hsame : ∀ i l l', lp i l = lp i l' := by
    intro i l l'
    simp only [hlp, lpSt, lpStayersPlain, hAw _ l l', hSw _ l l']
  have hq : ∀ i l, posterior lp i l = 1 / nl := by
    intro i l
    have h1 := posterior_sum lp i
    have h2 : ∀ l', posterior lp i l' = posterior lp i l := by
      intro l'
      rw [posterior_eq, posterior_eq, hsame i l' l]
    simp only [h2, sum_const, card_univ, Fintype.card_fin, nsmul_eq_mul] at h1
    field_simp
    linarith
  obtain ⟨pk, hpk⟩ := nextPk_ok o.updPk nk (fun i => (d.G 0 i).val) (posterior lp) (posterior_sum lp) o.dprior hd.le
    (fun _ _ => 1 / (nl : ℝ)) (by
      intro _ p hp
      obtain ⟨i, hi⟩ := hall ⟨p, hp⟩
      exact ⟨i, by rw [hi]⟩)
  have hpkv : ∀ p < nk, ∀ l, pk p l = 1 / nl := by
    intro p hp l
    have hpk' := hpk
    rw [nextPk, if_pos hP] at hpk'
    rw [(C75_proportions nk _ _ (posterior_pos lp) (posterior_sum lp) o.dprior hd.le pk hpk' p hp).2.2 l]
    simp only [hq, sum_const, nsmul_eq_mul]
    obtain ⟨i, hi⟩ := hall ⟨p, hp⟩
    have hc : (0 : ℝ) < #{i | (d.G 0 i).val = p} := by
      exact_mod_cast card_pos.mpr ⟨i, by simp [hi]⟩
    have hden : (0 : ℝ) < 1 + nl * (o.dprior - 1) := by
      have := mul_nonneg hnl0.le (by linarith : 0 ≤ o.dprior - 1)
      linarith
    field_simp
  have hlp2 : lpSt d b r pk = lp := by
    funext i l
    simp only [hlp, lpSt, hpkv _ (d.G 0 i).isLt]
  have hsum : ∑ p ∈ range nk, ∑ l, Real.log (pk p l) = - (nk * nl * Real.log nl) := by
    have : ∀ p ∈ range nk, ∑ l, Real.log (pk p l) = - (nl * Real.log nl) := by
      intro p hp
      simp only [hpkv p (mem_range.mp hp), sum_const, card_univ, Fintype.card_fin, nsmul_eq_mul]
      rw [one_div, Real.log_inv]; ring
    rw [sum_congr rfl this, sum_const, card_range, nsmul_eq_mul]; ring
  have hlik2 : likOf lp nk pk false o.updPk o.dprior =
      meanLse lp - (o.dprior - 1) * (nk * nl * Real.log nl) := by
    simp only [likOf, hP, Bool.not_false, Bool.and_self, if_true, hsum]; ring
  have hlik1 : likOf lp nk (fun _ _ => 1 / (nl : ℝ)) true o.updPk o.dprior = meanLse lp := by
    simp [likOf]
  have hstep : ∀ L, stepSt d o sA sS 0 (posterior lp) ⟨b, r, fun _ _ => 1 / (nl : ℝ), L⟩ = .ok ⟨b, r, pk, L⟩ := by
    intro L
    simp only [stepSt, hpk, bind, Except.bind, hA, hS, hR, Bool.false_and, Bool.or_false, Bool.false_eq_true, if_false]
  have hstep2 : ∀ L, ∃ pk', stepSt d o sA sS 1 (posterior lp) ⟨b, r, pk, L⟩ = .ok ⟨b, r, pk', L⟩ := by
    intro L
    obtain ⟨pk', hpk'⟩ := nextPk_ok o.updPk nk (fun i => (d.G 0 i).val) (posterior lp) (posterior_sum lp) o.dprior hd.le
      pk (by
        intro _ p hp
        obtain ⟨i, hi⟩ := hall ⟨p, hp⟩
        exact ⟨i, by rw [hi]⟩)
    refine ⟨pk', ?_⟩
    simp only [stepSt, hpk', bind, Except.bind, hA, hS, hR, Bool.false_and, Bool.or_false, Bool.false_eq_true, if_false]
  have hneg : meanLse lp - (o.dprior - 1) * (nk * nl * Real.log nl) < meanLse lp := by
    have h1 : 0 < Real.log nl := Real.log_pos (by exact_mod_cast (by omega : 1 < nl))
    have h2 : (0 : ℝ) < nk := by exact_mod_cast (by omega : 0 < nk)
    have := mul_pos (by linarith : 0 < o.dprior - 1) (mul_pos (mul_pos h2 hnl0) h1)
    linarith
  set L2 := meanLse lp - (o.dprior - 1) * (nk * nl * Real.log nl) with hL2
  obtain ⟨pk', hst2⟩ := hstep2 [meanLse lp, L2]
  have hgoal : loopSt d o sA sS 2 0 none ⟨b, r, fun _ _ => 1 / nl, []⟩ =
      if close L2 (some (meanLse lp)) o.thresholdMovers then .ok ⟨b, r, pk, [meanLse lp, L2]⟩
      else .ok ⟨b, r, pk', [meanLse lp, L2]⟩ := by
    rw [loopSt]
    simp only [← hlp, beq_self_eq_true, hlik1, List.nil_append, bind, Except.bind]
    rw [if_neg (by simp [close]), hstep]
    dsimp only
    rw [loopSt]
    simp only [hlp2, Nat.zero_add, List.singleton_append]
    rw [show ((1 : ℕ) == 0) = false from rfl, hlik2]
    split
    · rfl
    · rw [hst2]
      rfl
  rw [hgoal]
  split
  · exact ⟨_, _, rfl, rfl, hneg⟩
  · exact ⟨_, _, rfl, rfl, hneg⟩

/-- The hypotheses of `C77_movers_means` and `C77_movers_variances` can be met with both effects in the model:
solvers that are right for the constraints "the same for all worker types in `2mb` and `3mb`" (and at least `1/10`)
exist, and effects that are not all zero meet the constraints. -/
example : ∃ (sA sS : QP (Fin 2 × JM true true 2)) (c : DBase 2 2),
    RightQP (fun x => ∀ p : {p : Per // inModel true true p = true}, p.1.isB = true →
      ∀ l k, x (l, p, k) = x (0, p, k)) sA ∧
    RightQP (fun x => (∀ a, 1 / 10 ≤ x a) ∧ ∀ p : {p : Per // inModel true true p = true}, p.1.isB = true →
      ∀ l k, x (l, p, k) = x (0, p, k)) sS ∧
    OffZero true true c ∧ c.Aw .p12 0 0 = 1 ∧ (∀ p : {p : Per // inModel true true p = true}, p.1.isB = true →
      ∀ l k, (parM c : Fin 2 × JM true true 2 → ℝ) (l, p, k) = parM c (0, p, k)) := by
  have hcl : IsClosed {x : Fin 2 × JM true true 2 → ℝ | ∀ p : {p : Per // inModel true true p = true},
      p.1.isB = true → ∀ l k, x (l, p, k) = x (0, p, k)} := by
    simp only [Set.ofPred_forall]
    exact isClosed_iInter fun p => isClosed_iInter fun _ => isClosed_iInter fun l => isClosed_iInter fun k =>
      isClosed_eq (continuous_apply _) (continuous_apply _)
  have hcl2 : IsClosed {x : Fin 2 × JM true true 2 → ℝ | ∀ a, 1 / 10 ≤ x a} := by
    rw [Set.ofPred_forall]
    exact isClosed_iInter fun a => isClosed_le continuous_const (continuous_apply a)
  obtain ⟨sA, hA⟩ := rightQP_exists _ hcl
  obtain ⟨sS, hS⟩ := rightQP_exists (fun x : Fin 2 × JM true true 2 → ℝ => (∀ a, 1 / 10 ≤ x a) ∧
    ∀ p : {p : Per // inModel true true p = true}, p.1.isB = true → ∀ l k, x (l, p, k) = x (0, p, k))
    (hcl2.inter hcl)
  refine ⟨sA, sS, ⟨fun _ l k => 1 + l + k, fun _ k => 3 + k, fun _ _ _ => 1, fun _ _ => 1⟩, hA, hS, ⟨nofun, nofun⟩,
    by simp, ?_⟩
  intro p hp l k
  simp [parM, hp]

/-- The hypotheses of `C77_prior_lower` can be met. -/
example : ∃ (d : DData 2 2) (b : DBase 3 2) (o : StOpts), (∀ k, ∃ i, d.G 0 i = k) ∧ o.updPk = true ∧
    1 < o.dprior ∧ (∀ p l l' k, b.Aw p l k = b.Aw p l' k) ∧ b.Aw .p2s 0 1 = 1 := by
  refine ⟨⟨fun _ => ⟨1, 2, 3, 4⟩, fun _ i => i⟩, ⟨fun _ _ k => k, fun _ _ => 0, fun _ _ _ => 1, fun _ _ => 1⟩,
    ⟨false, false, false, true, 2, 0, 0, 0⟩, fun k => ⟨k, rfl⟩, rfl, by norm_num, fun _ _ _ _ => rfl, by simp⟩

end Pytwoway.Dynamic
