import Verif.FEControl.Traces
import Verif.FEControl.Probes

/-! # C118: the estimator with controls, given no controls, is the estimator without controls -/

namespace Pytwoway.FEControl

open Matrix Pytwoway.Util FE
open scoped BigOperators
open FE.Panel (WOpt Stayers LevAvg QHalf)

variable {n m nw : ℕ} {d : Panel n m nw} {solve : (Fin m → ℝ) → (Fin m → ℝ)} {solve' : List ℝ → List ℝ}

/-! ## Specification -/

/-- The same data handed to the estimator with controls, with no controls. -/
def Spec.noControls (d : Panel n m nw) : CData n m nw := ⟨d.j, d.i, d.y, d.weighted, d.w, [], []⟩

/-- Entries for all firms but the first, followed by entries for all workers. -/
def Spec.stack (p : Fin m → ℝ) (a : Fin nw → ℝ) : List ℝ := List.ofFn p ++ List.ofFn a

/-- How a request is written for each estimator: `VarCovariate('psi')` for `VarPsi()`, `VarCovariate('alpha')` for
`VarAlpha()`, `VarCovariate(['psi', 'alpha'])` for `VarPsiPlusAlpha()`; for covariances each side likewise. -/
inductive Spec.Request (d : Panel n m nw) : List String → QHalf n m nw → Prop
  | psi : Spec.Request d ["psi"] d.qPsi
  | alpha : Spec.Request d ["alpha"] d.qAlpha
  | both : Spec.Request d ["psi", "alpha"] d.qGamma

/-! ## Design and solver -/

open Spec

theorem nc_nCov (d : Panel n m nw) : (noControls d).nCov = m + nw := by
  simp [CData.nCov, CData.nDict, noControls]

theorem nc_names (d : Panel n m nw) : (noControls d).names.Nodup := by
  change (["psi", "alpha"] : List String).Nodup
  decide

theorem drop_indicators {k : ℕ} (v : Fin n → Fin (k + 1)) :
    (indicators v).drop 1 = List.ofFn fun c : Fin k => fun o => if v o = c.succ then (1 : ℝ) else 0 := by
  simp [indicators, List.ofFn_succ]

theorem nc_A (d : Panel n m nw) : (noControls d).A = (indicators d.j).drop 1 ++ indicators d.i := rfl

theorem stack_length (p : Fin m → ℝ) (a : Fin nw → ℝ) : (stack p a).length = m + nw := by simp [stack]

theorem stack_inj {p p' : Fin m → ℝ} {a a' : Fin nw → ℝ} (h : stack p a = stack p' a') : p = p' ∧ a = a' := by
  obtain ⟨h1, h2⟩ := List.append_inj h (by simp)
  exact ⟨List.ofFn_injective h1, List.ofFn_injective h2⟩

theorem exists_stack {l : List ℝ} (h : l.length = m + nw) : ∃ (p : Fin m → ℝ) (a : Fin nw → ℝ), l = stack p a := by
  refine ⟨fun k => l[k.1]'(by omega), fun i => l[m + i.1]'(by omega), ?_⟩
  apply List.ext_getElem
  · simp [stack, h]
  · intro i h1 h2
    by_cases hi : i < m
    · simp [stack, hi]
    · simp only [stack, List.getElem_append, List.length_ofFn, hi, dif_neg, not_false_eq_true, List.getElem_ofFn]
      congr 1
      omega

theorem nc_multA (p : Fin m → ℝ) (a : Fin nw → ℝ) (o : Fin n) :
    (noControls d).multA (stack p a) o = Panel.withZero p (d.j o) + a (d.i o) := by
  have e : (noControls d).multA (stack p a) o = dotL ((indicators d.j).drop 1 ++ indicators d.i) (stack p a) o := rfl
  rw [e, stack, dotL_append _ _ _ _ _ (by simp [indicators])]
  have h1 := dotL_indicators_drop d.j (List.ofFn p) o (by simp)
  have h2 := dotL_indicators d.i (List.ofFn a) o (by simp)
  congr 1
  · rw [← Option.some_inj, ← h1]
    generalize d.j o = z
    refine Fin.cases ?_ (fun q => ?_) z
    · simp [Panel.withZero]
    · simp [Panel.withZero]
  · rw [← Option.some_inj, ← h2]
    simp

theorem zip_factor (k : ℝ) (o : Fin n) (l : List (Fin n → ℝ)) (v : List ℝ) :
    (List.zipWith (fun col g => (k * col o) * g) l v).sum = k * (List.zipWith (fun col g => col o * g) l v).sum := by
  induction l generalizing v with
  | nil => simp
  | cons c t ih =>
    cases v with
    | nil => simp
    | cons x v => simp only [List.zipWith_cons_cons, List.sum_cons, ih]; ring

theorem nc_multAw (c : WOpt) (p : Fin m → ℝ) (a : Fin nw → ℝ) :
    (noControls d).multAw c (stack p a) = d.multA p a c := by
  funext o
  have h1 : (noControls d).multAw c (stack p a) o = (noControls d).wt c o * (noControls d).multA (stack p a) o :=
    zip_factor _ _ _ _
  rw [h1, nc_multA]
  have hj := d.J_mulVec p o
  have hw := d.W_mulVec a o
  have hD : ∀ o, (noControls d).Dp o = d.Dp o := fun o => rfl
  cases c with
  | no => simp only [CData.wt, Panel.multA, Pi.add_apply, hj, hw, one_mul]
  | yes =>
    simp only [CData.wt, Panel.multA, Pi.add_apply, Panel.DpJ_eq, Panel.DpWm_eq, ← mulVec_mulVec, mulVec_diagonal, hj, hw, hD]
    ring
  | sqrt =>
    simp only [CData.wt, Panel.multA, Pi.add_apply, Panel.sqrtDpJ_eq, Panel.sqrtDpW_eq, ← mulVec_mulVec, mulVec_diagonal,
      hj, hw, hD]
    ring

theorem nc_multATw (c : WOpt) (v : Fin n → ℝ) :
    (noControls d).multATw c v = stack (d.multAT v c).1 (d.multAT v c).2 := by
  have hD : ∀ o, (noControls d).Dp o = d.Dp o := fun o => rfl
  have e : (noControls d).multATw c v = (((indicators d.j).drop 1).map fun col => ∑ o, ((noControls d).wt c o * col o) * v o)
      ++ (indicators d.i).map fun col => ∑ o, ((noControls d).wt c o * col o) * v o := by
    unfold CData.multATw
    rw [nc_A, List.map_append]
  rw [e, drop_indicators, stack, indicators, List.map_ofFn, List.map_ofFn]
  congr 1
  · congr 1
    funext k
    cases c <;>
    simp only [Function.comp_apply, CData.wt, hD, Panel.multAT, mulVec, dotProduct, transpose_apply, Panel.sqrtDpJ, Panel.DpJ,
      Panel.J, Panel.Jfull, of_apply, one_mul]
  · congr 1
    funext k
    cases c <;>
    simp only [Function.comp_apply, CData.wt, hD, Panel.multAT, mulVec, dotProduct, transpose_apply, Panel.sqrtDpW, Panel.DpWm,
      Panel.W, of_apply, one_mul]

theorem nc_AtDpA (p : Fin m → ℝ) (a : Fin nw → ℝ) :
    (noControls d).AtDpA (stack p a) = stack ((nmat d.X d.Dp *ᵥ Sum.elim p a) ∘ Sum.inl)
      ((nmat d.X d.Dp *ᵥ Sum.elim p a) ∘ Sum.inr) := by
  have h1 : (noControls d).AtDpA (stack p a) = (noControls d).multATw .yes (d.X *ᵥ Sum.elim p a) := by
    unfold CData.AtDpA
    rw [multAT_eq_yes]
    congr 1
    funext o
    rw [nc_multA, d.X_mulVec]
  rw [h1, nc_multATw]
  have h2 : d.multAT (d.X *ᵥ Sum.elim p a) .yes = _ := Dp_JT (d := d) _
  rw [h2]
  have h3 : (d.Xᵀ *ᵥ fun o => d.Dp o * (d.X *ᵥ Sum.elim p a) o) = nmat d.X d.Dp *ᵥ Sum.elim p a := by
    rw [nmat, ← mulVec_mulVec, ← mulVec_mulVec]
    congr 1
    funext o
    rw [mulVec_diagonal]
  rw [h3]

variable (hv : d.Valid) (hc : d.Connected) (hs : d.GoodSolver solve) (hs' : (noControls d).GoodSolver solve')

include hv hc hs hs' in
theorem nc_solve (p : Fin m → ℝ) (a : Fin nw → ℝ) :
    solve' (stack p a) = stack (d.multAAinv solve (p, a)).1 (d.multAAinv solve (p, a)).2 := by
  have hu := d.nmat_unit hv hc
  have hred : d.Minv *ᵥ solve (p - d.DwinvWtDpJᵀ *ᵥ a) = p - d.DwinvWtDpJᵀ *ᵥ a :=
    hs _ ⟨_, d.reduced_consistent hv p a ((nmat d.X d.Dp)⁻¹ *ᵥ Sum.elim p a) (by
      rw [mulVec_mulVec, mul_nonsing_inv _ hu, one_mulVec])⟩
  have hspec := d.multAAinv_spec hv solve p a hred
  set q := d.multAAinv solve (p, a) with hq
  have hx : (noControls d).AtDpA (stack q.1 q.2) = stack p a := by
    rw [nc_AtDpA, hspec]; rfl
  obtain ⟨hl, he⟩ := hs' (stack p a) ⟨stack q.1 q.2, by rw [stack_length, nc_nCov], hx⟩
  obtain ⟨p', a', hpa⟩ := exists_stack (hl.trans (nc_nCov d))
  rw [hpa] at he ⊢
  rw [← hx, nc_AtDpA, nc_AtDpA] at he
  obtain ⟨e1, e2⟩ := stack_inj he
  have e3 : nmat d.X d.Dp *ᵥ Sum.elim p' a' = nmat d.X d.Dp *ᵥ Sum.elim q.1 q.2 := by
    funext k
    cases k with
    | inl k => exact congrFun e1 k
    | inr k => exact congrFun e2 k
  have e4 : Sum.elim p' a' = Sum.elim q.1 q.2 := by
    have := congrArg ((nmat d.X d.Dp)⁻¹ *ᵥ ·) e3
    simpa only [mulVec_mulVec, nonsing_inv_mul _ hu, one_mulVec] using this
  have e5 : p' = q.1 := funext fun k => congrFun e4 (Sum.inl k)
  have e6 : a' = q.2 := funext fun k => congrFun e4 (Sum.inr k)
  rw [e5, e6]

include hv hc hs hs' in
theorem nc_solveLS (Y : Fin n → ℝ) (c : WOpt) :
    (noControls d).solveLS solve' Y c = stack (d.solveLS solve Y c).1 (d.solveLS solve Y c).2 := by
  rw [CData.solveLS, nc_multATw, nc_solve hv hc hs hs']; rfl

include hv hc hs hs' in
theorem nc_gammaHat : (noControls d).gammaHat solve' = stack (d.ols solve).1 (d.ols solve).2 :=
  nc_solveLS hv hc hs hs' d.y .yes

theorem nc_qCol (gh : List ℝ) {l : List String} {q : QHalf n m nw} (h : Spec.Request d l q) (p : Fin m → ℝ)
    (a : Fin nw → ℝ) :
    (noControls d).qCol ((noControls d).unpack gh) l (stack p a) = some (q.mult p a) := by
  have i1 : dget ((noControls d).unpack gh).idx "psi" = some (0, m) := rfl
  have i2 : dget ((noControls d).unpack gh).idx "alpha" = some (m, m + nw) := rfl
  have l1 : ((indicators d.j).drop 1).length = m := by simp [indicators]
  have l2 : (indicators d.i).length = nw := by simp [indicators]
  have a1 : slice (noControls d).A 0 m = (indicators d.j).drop 1 := by
    rw [nc_A, slice, List.drop_zero, Nat.sub_zero, List.take_left' l1]
  have a2 : slice (noControls d).A m (m + nw) = indicators d.i := by
    rw [nc_A, slice, List.drop_left' l1, Nat.add_sub_cancel_left, List.take_of_length_le l2.le]
  have z1 : slice (stack p a) 0 m = List.ofFn p := by
    rw [stack, slice, List.drop_zero, Nat.sub_zero, List.take_left' (by simp)]
  have z2 : slice (stack p a) m (m + nw) = List.ofFn a := by
    rw [stack, slice, List.drop_left' (by simp), Nat.add_sub_cancel_left, List.take_of_length_le (by simp)]
  have d1 : ∀ o, dotL ((indicators d.j).drop 1) (List.ofFn p) o = (d.J *ᵥ p) o := fun o => by
    rw [d.J_mulVec, ← Option.some_inj, ← dotL_indicators_drop d.j (List.ofFn p) o (by simp)]
    generalize d.j o = z
    refine Fin.cases ?_ (fun q => ?_) z <;> simp [Panel.withZero]
  have d2 : ∀ o, dotL (indicators d.i) (List.ofFn a) o = (d.W *ᵥ a) o := fun o => by
    rw [d.W_mulVec, ← Option.some_inj, ← dotL_indicators d.i (List.ofFn a) o (by simp)]
    simp
  cases h with
  | psi =>
    simp only [CData.qCol, CData.subA, CData.subZ, List.mapM_cons, List.mapM_nil, i1, a1, z1, Option.bind_eq_bind,
      Option.bind_some, Option.pure_def, List.flatten_cons, List.flatten_nil, List.append_nil, Option.some.injEq]
    exact funext d1
  | alpha =>
    simp only [CData.qCol, CData.subA, CData.subZ, List.mapM_cons, List.mapM_nil, i2, a2, z2, Option.bind_eq_bind,
      Option.bind_some, Option.pure_def, List.flatten_cons, List.flatten_nil, List.append_nil, Option.some.injEq]
    exact funext d2
  | both =>
    simp only [CData.qCol, CData.subA, CData.subZ, List.mapM_cons, List.mapM_nil, i1, i2, a1, a2, z1, z2,
      Option.bind_eq_bind, Option.bind_some, Option.pure_def, List.flatten_cons, List.flatten_nil, List.append_nil,
      Option.some.injEq]
    funext o
    have e := dotL_append ((indicators d.j).drop 1) (indicators d.i) (List.ofFn p) (List.ofFn a) o (by rw [l1]; simp)
    refine Eq.trans e ?_
    rw [d1, d2]
    simp only [Panel.qGamma, QHalf.mult, fromCols_mulVec, Sum.elim_comp_inl, Sum.elim_comp_inr, Pi.add_apply]

theorem Spec.Request.wt {l : List String} {q : QHalf n m nw} (h : Spec.Request d l q) : q.wt = d.DpW := by
  cases h <;> rfl

include hv hc in
theorem nc_ok : (noControls d).Ok where
  names := nc_names d
  pos := hv.wpos
  ident := fun x x' hx hx' h => by
    obtain ⟨p, a, rfl⟩ := exists_stack (hx.trans (nc_nCov d))
    obtain ⟨p', a', rfl⟩ := exists_stack (hx'.trans (nc_nCov d))
    have hz : d.X *ᵥ (Sum.elim p a - Sum.elim p' a') = 0 := by
      funext o
      rw [mulVec_sub, Pi.sub_apply, d.X_mulVec, d.X_mulVec]
      have := h o
      rw [nc_multA, nc_multA] at this
      rw [this, sub_self]; rfl
    have e := sub_eq_zero.mp (d.X_injective hv hc _ hz)
    rw [show p = p' from funext fun k => congrFun e (Sum.inl k), show a = a' from funext fun k => congrFun e (Sum.inr k)]

include hv hc hs hs' in
theorem nc_E : (noControls d).E solve' = d.E solve := by
  funext o
  rw [CData.E, nc_gammaHat hv hc hs hs', nc_multA, Panel.E, Panel.multA, Pi.add_apply, d.J_mulVec, d.W_mulVec]
  rfl

include hv hc hs hs' in
theorem nc_sigma2fe : (noControls d).sigma2fe solve' = d.sigma2fe solve := by
  rw [CData.sigma2fe, Panel.sigma2fe, nc_E hv hc hs hs']; rfl

include hv hc hs hs' in
theorem nc_proj (Y : Fin n → ℝ) (c c' : WOpt) : (noControls d).proj solve' Y c c' = d.proj solve Y c c' := by
  rw [CData.proj, nc_solveLS hv hc hs hs', nc_multAw]; rfl

include hv hc hs hs' in
theorem nc_sigma2Apply (v : Fin n → ℝ) : (noControls d).sigma2Apply solve' v = d.sigma2Apply solve v := by
  rw [CData.sigma2Apply, nc_solveLS hv hc hs hs', nc_multAw]; rfl

/-! ## C118 -/

include hv hc hs hs' in
/-- C118, estimates: the attached columns `psi_hat` and `alpha_hat` are those of the estimator without controls. -/
theorem C118_effects (o : Fin n) : (noControls d).attached ((noControls d).gammaHat solve') o
    = some [d.psiCol solve o, d.alphaCol solve o] := by
  rw [nc_gammaHat hv hc hs hs']
  set p := (d.ols solve).1 with hp
  set a := (d.ols solve).2 with ha
  have z1 : slice (stack p a) 0 m = List.ofFn p := by
    rw [stack, slice, List.drop_zero, Nat.sub_zero, List.take_left' (by simp)]
  have z2 : slice (stack p a) m (m + nw) = List.ofFn a := by
    rw [stack, slice, List.drop_left' (by simp), Nat.add_sub_cancel_left, List.take_of_length_le (by simp)]
  have e1 : CData.attachVec ((noControls d).unpack (stack p a)) "psi" (d.j o) = some (d.psiCol solve o) := by
    have : CData.attachVec ((noControls d).unpack (stack p a)) "psi" (d.j o)
      = (0 :: slice (stack p a) 0 m)[(d.j o : ℕ)]? := rfl
    rw [this, z1, Panel.psiCol, ← hp]
    generalize d.j o = z
    refine Fin.cases ?_ (fun q => ?_) z <;> simp [Panel.withZero]
  have e2 : CData.attachVec ((noControls d).unpack (stack p a)) "alpha" (d.i o) = some (d.alphaCol solve o) := by
    have : CData.attachVec ((noControls d).unpack (stack p a)) "alpha" (d.i o)
      = (slice (stack p a) m (m + nw))[(d.i o : ℕ)]? := rfl
    rw [this, z2, Panel.alphaCol, ← ha]
    simp
  have e3 : (noControls d).attached (stack p a) o
    = (CData.attachVec ((noControls d).unpack (stack p a)) "psi" (d.j o)).bind fun x =>
      (CData.attachVec ((noControls d).unpack (stack p a)) "alpha" (d.i o)).bind fun y => some [x, y] := rfl
  rw [e3, e1, e2]; rfl

include hv hc hs hs' in
/-- C118, residuals and error variances: the same residuals, the same plug-in error variance and, for the same trace,
the same corrected one. -/
theorem C118_residuals : (noControls d).E solve' = d.E solve ∧ (noControls d).sigma2fe solve' = d.sigma2fe solve ∧
    ∀ tr, (noControls d).sigma2ho solve' tr = d.sigma2ho solve tr := by
  refine ⟨nc_E hv hc hs hs', nc_sigma2fe hv hc hs hs', fun tr => ?_⟩
  rw [CData.sigma2ho, Panel.sigma2ho, nc_E hv hc hs hs', nc_sigma2fe hv hc hs hs', nc_nCov]
  have e : (n : ℝ) - ((m + nw : ℕ) : ℝ) = (n : ℝ) - ((nw : ℝ) + ((m : ℝ) + 1) - 1) := by push_cast; ring
  rw [e]; rfl

include hv hc hs hs' in
/-- C118, plug-in components: every variance and covariance of firm effects, worker effects and their sum. -/
theorem C118_plug_in {l1 l2 : List String} {q1 q2 : QHalf n m nw} (h1 : Spec.Request d l1 q1)
    (h2 : Spec.Request d l2 q2) :
    (noControls d).varFe solve' l1 = some (d.varFe solve q1) ∧
    (noControls d).covFe solve' l1 l2 = some (d.covFe solve q1 q2) := by
  constructor
  · simp only [CData.varFe]
    rw [nc_gammaHat hv hc hs hs', nc_qCol _ h1]
    simp only [Option.bind_eq_bind, Option.bind_some, Option.pure_def, Option.some.injEq]
    rw [Panel.varFe, h1.wt]; rfl
  · simp only [CData.covFe]
    rw [nc_gammaHat hv hc hs hs', nc_qCol _ h1, nc_qCol _ h2]
    simp only [Option.bind_eq_bind, Option.bind_some, Option.pure_def, Option.some.injEq]
    rw [Panel.covFe, h1.wt, h2.wt]; rfl

include hv hc hs hs' in
/-- C118, trace for the error variance: the analytical traces agree, and so do the approximate ones, by either method,
for the same draws. -/
theorem C118_trace_sigma2 : (noControls d).exactTraceSigma2 = d.exactTraceSigma2 d.blocksFull ∧
    (∀ z, (noControls d).drawTraceSigma2 solve' z = d.drawTraceSigma2 solve z) ∧
    ∀ (R : ℕ) (Q Z : Matrix (Fin n) (Fin R) ℝ), (noControls d).hutchPP solve' Q Z = d.hutchPP solve Q Z := by
  have hS : (noControls d).sigma2Apply solve' = d.sigma2Apply solve := funext (nc_sigma2Apply hv hc hs hs')
  refine ⟨?_, fun z => ?_, fun R Q Z => ?_⟩
  · rw [← FEControl.gmat_trace, ← FE.gmat_trace hv hc]
    congr 1
    ext o b
    have h1 := congrFun (sigma2Apply_eq (nc_ok hv hc) hs' (Pi.single b 1)) o
    have h2 := congrFun (FE.sigma2Apply_eq hv hc hs (Pi.single b 1)) o
    rw [mulVec_single_one] at h1 h2
    exact h1.symm.trans ((congrFun (congrFun hS _) o).trans h2)
  · rw [CData.drawTraceSigma2, hS]; rfl
  · simp only [CData.hutchPP, Panel.hutchPP, hS]

include hv hc hs hs' in
/-- C118, correction terms: for the same draws (`Zpsi` followed by `Zalpha`) and the same error variances, every draw of
both trace terms agrees. -/
theorem C118_draws {l1 l2 : List String} {q1 q2 : QHalf n m nw} (h1 : Spec.Request d l1 q1)
    (h2 : Spec.Request d l2 q2) (zpsi : Fin m → ℝ) (zalpha : Fin nw → ℝ) (Sii : Fin n → ℝ) :
    (noControls d).drawTraceHo solve' l1 l2 (stack zpsi zalpha) = some (d.drawTraceHo solve q1 q2 (zpsi, zalpha)) ∧
    (noControls d).drawTraceHe solve' Sii l1 l2 (stack zpsi zalpha)
      = some (d.drawTraceHe solve Sii q1 q2 (zpsi, zalpha)) := by
  constructor
  · simp only [CData.drawTraceHo]
    rw [nc_solve hv hc hs hs', nc_qCol _ h1, nc_qCol _ h2]
    simp only [Option.bind_eq_bind, Option.bind_some, Option.pure_def, Option.some.injEq]
    rw [Panel.drawTraceHo, h1.wt, h2.wt]; rfl
  · simp only [CData.drawTraceHe]
    rw [nc_solve hv hc hs hs', nc_multAw, nc_multATw, nc_solve hv hc hs hs', nc_qCol _ h1, nc_qCol _ h2]
    simp only [Option.bind_eq_bind, Option.bind_some, Option.pure_def, Option.some.injEq]
    rw [Panel.drawTraceHe, h1.wt, h2.wt]; rfl

theorem nc_mapM_some {α β : Type*} (f : α → Option β) (g : α → β) (l : List α) (h : ∀ x, f x = some (g x)) :
    l.mapM f = some (l.map g) := by
  induction l with
  | nil => rfl
  | cons x t ih => simp [List.mapM_cons, h, ih]

include hv hc hs hs' in
/-- C118, corrected components: for the same draws (and the same trace or error variances) the corrected variances and
covariances agree. -/
theorem C118_corrected {l1 l2 : List String} {q1 q2 : QHalf n m nw} (h1 : Spec.Request d l1 q1)
    (h2 : Spec.Request d l2 q2) {R : ℕ} (zpsi : Fin R → Fin m → ℝ) (zalpha : Fin R → Fin nw → ℝ) (tr : ℝ)
    (Sii : Fin n → ℝ) :
    (noControls d).varHo solve' l1 tr (fun r => stack (zpsi r) (zalpha r))
      = some (d.varHo solve q1 tr (Panel.meanDraws fun r => d.drawTraceHo solve q1 q1 (zpsi r, zalpha r))) ∧
    (noControls d).covHo solve' l1 l2 tr (fun r => stack (zpsi r) (zalpha r))
      = some (d.covHo solve q1 q2 tr (Panel.meanDraws fun r => d.drawTraceHo solve q1 q2 (zpsi r, zalpha r))) ∧
    (noControls d).covHe solve' l1 l2 Sii (fun r => stack (zpsi r) (zalpha r))
      = some (d.covHe solve q1 q2 (Panel.meanDraws fun r => d.drawTraceHe solve Sii q1 q2 (zpsi r, zalpha r))) := by
  have key : ∀ (f : List ℝ → Option ℝ) (g : (Fin m → ℝ) × (Fin nw → ℝ) → ℝ), (∀ p a, f (stack p a) = some (g (p, a))) →
      (List.ofFn fun r => stack (zpsi r) (zalpha r)).mapM f = some (List.ofFn fun r => g (zpsi r, zalpha r)) := by
    intro f g h
    have e : (List.ofFn fun r => stack (zpsi r) (zalpha r))
        = (List.ofFn fun r => (zpsi r, zalpha r)).map fun x => stack x.1 x.2 := by rw [List.map_ofFn]; rfl
    rw [e, List.mapM_map, nc_mapM_some (f ∘ fun x : (Fin m → ℝ) × (Fin nw → ℝ) => stack x.1 x.2) g _ fun x => h x.1 x.2, List.map_ofFn]; rfl
  have fe := C118_plug_in hv hc hs hs' h1 h2
  have sg := (C118_residuals hv hc hs hs').2.2 tr
  have k1 := key _ _ fun p a => (C118_draws hv hc hs hs' h1 h1 p a 0).1
  have k2 := key _ _ fun p a => (C118_draws hv hc hs hs' h1 h2 p a 0).1
  have k3 := key _ _ fun p a => (C118_draws hv hc hs hs' h1 h2 p a Sii).2
  refine ⟨?_, ?_, ?_⟩
  · simp only [CData.varHo, fe.1, k1, sg, Option.bind_eq_bind, Option.bind_some, Option.pure_def, Panel.varHo,
      Panel.meanDraws, List.sum_ofFn]
  · simp only [CData.covHo, fe.2, k2, sg, Option.bind_eq_bind, Option.bind_some, Option.pure_def, Panel.covHo,
      Panel.meanDraws, List.sum_ofFn]
  · simp only [CData.covHe, fe.2, k3, Option.bind_eq_bind, Option.bind_some, Option.pure_def, Panel.covHe,
      Panel.meanDraws, List.sum_ofFn]

include hv hc hs hs' in
/-- C118, leverages: for the same probes the same approximate leverages and corrections, and the same refusals; for the
same leverages the same error variances, and the same refusals. -/
theorem C118_leverages (st : Stayers) :
    (∀ ndraw probes, (noControls d).approxLev solve' st ndraw probes = d.approxLev solve st ndraw probes) ∧
    ∀ Pii o, (noControls d).siiHe solve' st Pii o = d.siiHe solve st Pii o := by
  have hP : (noControls d).proj solve' = d.proj solve :=
    funext fun Y => funext fun c => funext fun c' => nc_proj hv hc hs hs' Y c c'
  have hL : (noControls d).leverageApprox solve' = d.leverageApprox solve := by
    funext b
    simp only [CData.leverageApprox, Panel.leverageApprox, hP]
  have hloo : (noControls d).looSii solve' = d.looSii solve := by
    funext Pii o
    rw [CData.looSii, Panel.looSii, nc_E hv hc hs hs']; rfl
  refine ⟨fun ndraw probes => ?_, fun Pii o => ?_⟩
  · rcases probes with _ | ⟨b, _ | ⟨b', t⟩⟩
    · simp only [CData.approxLev, Panel.approxLev, hL]; rfl
    · simp only [CData.approxLev, Panel.approxLev, hL]; rfl
    · simp only [CData.approxLev, Panel.approxLev, hL]; rfl
  · cases st
    · simp only [CData.siiHe, Panel.siiHe, hloo]; rfl
    · simp only [CData.siiHe, Panel.siiHe, hloo, nc_E hv hc hs hs']; rfl

/-- Non-vacuity: a weighted panel with three firms meets the hypotheses. -/
example : ∃ solve solve', ex.Valid ∧ ex.Connected ∧ ex.GoodSolver solve ∧ (noControls ex).GoodSolver solve' ∧
    Spec.Request ex ["psi", "alpha"] ex.qGamma := by
  obtain ⟨s, h⟩ := FE.exists_goodSolver ex
  obtain ⟨s', h'⟩ := exists_goodSolver (noControls ex)
  exact ⟨s, s', ex_valid, ex_connected, h, h', .both⟩

end Pytwoway.FEControl
