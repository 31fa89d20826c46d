import Verif.FEControl.NoControls
import Verif.FE.Invariance

/-! # Estimates are linear in outcomes, and controls can be taken out first (C127)

`_solve` of fe.py:1373-1389 and of fecontrol.py:1371-1383 apply a fixed linear map to the outcomes; here what this means for
the attached columns (fe.py:600-618, fecontrol.py:753-778). -/

namespace Pytwoway.FE

open Matrix
open scoped BigOperators

variable {n m nw : ℕ} {d : Panel n m nw} {solve : (Fin m → ℝ) → (Fin m → ℝ)}

theorem ols_withY_lin (hv : d.Valid) (hc : d.Connected) (hs : d.GoodSolver solve) (a b : ℝ) (u v : Fin n → ℝ) :
    ((d.withY (a • u + b • v)).ols solve).1 = a • ((d.withY u).ols solve).1 + b • ((d.withY v).ols solve).1 ∧
    ((d.withY (a • u + b • v)).ols solve).2 = a • ((d.withY u).ols solve).2 + b • ((d.withY v).ols solve).2 := by
  have h : ∀ y, Sum.elim ((d.withY y).ols solve).1 ((d.withY y).ols solve).2 = d.lmat *ᵥ y :=
    fun y => solveLS_lmat hv hc hs y
  have hl : d.lmat *ᵥ (a • u + b • v) = a • d.lmat *ᵥ u + b • d.lmat *ᵥ v := by
    rw [mulVec_add, mulVec_smul, mulVec_smul]
  rw [← h, ← h, ← h] at hl
  constructor
  · funext k; simpa using congrFun hl (.inl k)
  · funext k; simpa using congrFun hl (.inr k)

/-- **C127**, sums of outcomes: the attached columns for `a` times one outcome plus `b` times another are `a` times those of
the first plus `b` times those of the second. -/
theorem C127_linear (hv : d.Valid) (hc : d.Connected) (hs : d.GoodSolver solve) (a b : ℝ) (u v : Fin n → ℝ) (o : Fin n) :
    (d.withY fun o => a * u o + b * v o).psiCol solve o = a * (d.withY u).psiCol solve o + b * (d.withY v).psiCol solve o ∧
    (d.withY fun o => a * u o + b * v o).alphaCol solve o
      = a * (d.withY u).alphaCol solve o + b * (d.withY v).alphaCol solve o ∧
    (d.withY fun o => a * u o + b * v o).E solve o = a * (d.withY u).E solve o + b * (d.withY v).E solve o := by
  have e : (fun o => a * u o + b * v o) = a • u + b • v := by ext o; simp
  obtain ⟨h1, h2⟩ := ols_withY_lin hv hc hs a b u v
  have hE : ∀ (d : Panel n m nw) o, d.E solve o = d.y o - (d.psiCol solve o + d.alphaCol solve o) := by
    intro d o
    rw [Panel.E, Panel.multA, Pi.add_apply, d.J_mulVec, d.W_mulVec]; rfl
  have g1 : (d.withY fun o => a * u o + b * v o).psiCol solve o
      = a * (d.withY u).psiCol solve o + b * (d.withY v).psiCol solve o := by
    rw [e, Panel.psiCol, Panel.psiCol, Panel.psiCol, h1]
    change Panel.withZero _ (d.j o) = a * Panel.withZero _ (d.j o) + b * Panel.withZero _ (d.j o)
    generalize d.j o = z
    refine Fin.cases ?_ (fun k => ?_) z <;> simp [Panel.withZero]
  have g2 : (d.withY fun o => a * u o + b * v o).alphaCol solve o
      = a * (d.withY u).alphaCol solve o + b * (d.withY v).alphaCol solve o := by
    rw [e, Panel.alphaCol, Panel.alphaCol, Panel.alphaCol, h2]
    rfl
  refine ⟨g1, g2, ?_⟩
  rw [hE, hE, hE, g1, g2]
  change a * u o + b * v o - _ = a * (u o - _) + b * (v o - _)
  ring

/-- **C127**, effects added to outcomes: if worker effects and firm effects are added to the outcomes, the estimates move by
exactly these effects (those of firms relative to the first firm) and residuals stay as they were, and so do the error
variances of fe.py:635 and 785-791. -/
theorem C127_added (hv : d.Valid) (hc : d.Connected) (hs : d.GoodSolver solve) (psi : Fin (m + 1) → ℝ)
    (alpha : Fin nw → ℝ) (d' : Panel n m nw) (hd' : d' = d.withY fun o => d.y o + (alpha (d.i o) + psi (d.j o))) :
    (∀ o, d'.psiCol solve o = d.psiCol solve o + (psi (d.j o) - psi 0)) ∧
    (∀ o, d'.alphaCol solve o = d.alphaCol solve o + (alpha (d.i o) + psi 0)) ∧
    d'.E solve = d.E solve ∧ d'.sigma2fe solve = d.sigma2fe solve ∧
    ∀ tr, d'.sigma2ho solve tr = d.sigma2ho solve tr := by
  subst hd'
  have hl := fun o => C127_linear hv hc hs 1 1 d.y (fun o => alpha (d.i o) + psi (d.j o)) o
  simp only [one_mul] at hl
  obtain ⟨n1, n2⟩ := C16_noise_free (d := d.withY fun o => alpha (d.i o) + psi (d.j o)) (valid_withY hv _) hc
    (solve := solve) hs psi alpha fun o => rfl
  have h1 : ∀ o, (d.withY fun o => d.y o + (alpha (d.i o) + psi (d.j o))).psiCol solve o
      = d.psiCol solve o + (psi (d.j o) - psi 0) := fun o => by
    rw [(hl o).1]; congr 1; exact n1 (d.j o)
  have h2 : ∀ o, (d.withY fun o => d.y o + (alpha (d.i o) + psi (d.j o))).alphaCol solve o
      = d.alphaCol solve o + (alpha (d.i o) + psi 0) := fun o => by
    rw [(hl o).2.1]; congr 1; exact n2 (d.i o)
  have h3 : (d.withY fun o => d.y o + (alpha (d.i o) + psi (d.j o))).E solve = d.E solve := by
    have hE : ∀ (d : Panel n m nw) o, d.E solve o = d.y o - (d.psiCol solve o + d.alphaCol solve o) := by
      intro d o
      rw [Panel.E, Panel.multA, Pi.add_apply, d.J_mulVec, d.W_mulVec]; rfl
    funext o
    rw [hE, hE, h1, h2]
    change d.y o + (alpha (d.i o) + psi (d.j o)) - _ = _
    ring
  have h4 : (d.withY fun o => d.y o + (alpha (d.i o) + psi (d.j o))).sigma2fe solve = d.sigma2fe solve := by
    rw [Panel.sigma2fe, Panel.sigma2fe, h3]; rfl
  refine ⟨h1, h2, h3, h4, fun tr => ?_⟩
  rw [Panel.sigma2ho, Panel.sigma2ho, h3, h4]
  rfl

/-- The hypotheses of `C127_linear` and `C127_added` can be met. -/
example : ∃ solve, ex20.Valid ∧ ex20.Connected ∧ ex20.GoodSolver solve := by
  obtain ⟨s, hs⟩ := exists_goodSolver ex20
  exact ⟨s, ex20_valid, ex20_connected, hs⟩

end Pytwoway.FE

namespace Pytwoway.FEControl

open Matrix FE
open scoped BigOperators

variable {n m nw : ℕ} {d : CData n m nw} {solve : List ℝ → List ℝ}

/-- **C127**, controls: if `A @ x` is added to the outcomes, that is, effects of workers, firms and controls, the estimated
coefficients move by `x`; residuals stay as they were. -/
theorem C127_controls_added (hd : d.Ok) (hs : d.GoodSolver solve) (x : List ℝ) (hx : x.length = d.nCov) :
    (d.withY fun o => d.y o + d.multA x o).gammaHat solve = List.zipWith (· + ·) (d.gammaHat solve) x ∧
    (d.withY fun o => d.y o + d.multA x o).E solve = d.E solve := by
  obtain ⟨t, rfl⟩ : ∃ t : Fin d.nCov → ℝ, x = List.ofFn t :=
    ⟨fun c => x[c]'(by rw [hx]; exact c.2), by
      apply List.ext_getElem
      · simp [hx]
      · intro c h1 h2; simp⟩
  have h1 : (d.withY fun o => d.y o + d.multA (List.ofFn t) o).gammaHat solve
      = List.ofFn (lgen d.amat d.Dp *ᵥ d.y + t) := by
    refine (gammaHat_ofFn (d := d.withY fun o => d.y o + d.multA (List.ofFn t) o) hd.names hd.unit hs).trans ?_
    congr 1
    change lgen d.amat d.Dp *ᵥ (fun o => d.y o + d.multA (List.ofFn t) o) = _
    have : (fun o => d.y o + d.multA (List.ofFn t) o) = d.y + d.amat *ᵥ t := by
      funext o; rw [multA_ofFn hd.names]; rfl
    rw [this, mulVec_add, mulVec_mulVec, lgen_mul_X hd.unit, one_mulVec]
  have h2 := gammaHat_ofFn hd.names hd.unit hs
  refine ⟨?_, ?_⟩
  · rw [h1, h2]
    apply List.ext_getElem
    · simp
    · intro c k1 k2; simp
  · funext o
    rw [CData.E, CData.E, h1, h2]
    change d.y o + d.multA (List.ofFn t) o - d.multA (List.ofFn (lgen d.amat d.Dp *ᵥ d.y + t)) o = _
    rw [multA_ofFn hd.names, multA_ofFn hd.names, multA_ofFn hd.names, mulVec_add, Pi.add_apply]
    ring

/-- The outcome less what the controls contribute: `rest o` are the attached columns of the controls in row `o`. -/
def Spec.netPanel (d : CData n m nw) (rest : Fin n → List ℝ) : Panel n m nw :=
  ⟨d.j, d.i, fun o => d.y o - (rest o).sum, d.weighted, d.w⟩

/-- **C127**, taking out controls: the columns `psi_hat` and `alpha_hat` that the estimator with controls attaches are those
that the estimator without controls attaches when its outcome is the outcome less the attached columns of the controls; the
residuals are the same. -/
theorem C127_net (hd : d.Ok) (hs : d.GoodSolver solve) (psi alpha : Fin n → ℝ) (rest : Fin n → List ℝ)
    (hat : ∀ o, d.attached (d.gammaHat solve) o = some (psi o :: alpha o :: rest o))
    (hv : (Spec.netPanel d rest).Valid) (hc : (Spec.netPanel d rest).Connected) {solve' : (Fin m → ℝ) → (Fin m → ℝ)}
    (hs' : (Spec.netPanel d rest).GoodSolver solve') (o : Fin n) :
    (Spec.netPanel d rest).psiCol solve' o = psi o ∧ (Spec.netPanel d rest).alphaCol solve' o = alpha o ∧
    (Spec.netPanel d rest).E solve' o = d.E solve o := by
  have hl : (d.gammaHat solve).length = d.nCov := by rw [gammaHat_ofFn hd.names hd.unit hs]; simp
  set gh := d.gammaHat solve with hgh
  -- the coefficients: firms, workers, controls
  have hcov : d.nCov = m + nw + (d.nCov - (m + nw)) := by
    have := bound_of_split hd.names (d := d) (pre := [.firm]) (c := .worker) rfl
    simp [start, Cov.size] at this
    omega
  obtain ⟨p, a, hst⟩ := exists_stack (m := m) (nw := nw) (l := gh.take (m + nw)) (by rw [List.length_take, hl]; omega)
  set c := gh.drop (m + nw) with hcd
  have hg : gh = Spec.stack p a ++ c := by rw [← hst, hcd, List.take_append_drop]
  obtain ⟨ctl, hctl⟩ : ∃ ctl, d.A = ((indicators d.j).drop 1 ++ indicators d.i) ++ ctl := by
    refine ⟨((d.cats.map Cov.cat ++ d.cts.map Cov.cts).map (Cov.cols d)).flatten, ?_⟩
    rw [A_eq]; simp [CData.covs, Cov.cols]
  have hA : ∀ (p : Fin m → ℝ) (a : Fin nw → ℝ) o, d.multA (Spec.stack p a ++ c) o
      = Panel.withZero p (d.j o) + a (d.i o) + dotL ctl c o := by
    intro p a o
    have e : d.multA (Spec.stack p a ++ c) o = dotL d.A (Spec.stack p a ++ c) o := rfl
    rw [e, hctl, dotL_append _ _ _ _ _ (by simp [indicators, stack_length])]
    congr 1
    exact nc_multA (d := Spec.netPanel d rest) p a o
  -- what is attached
  have hatt : ∀ o, psi o = Panel.withZero p (d.j o) ∧ alpha o = a (d.i o) ∧ (rest o).sum = dotL ctl c o := by
    intro o
    have u := hat o
    have f1 : CData.attachVec (d.unpack gh) "psi" (d.j o) = some (Panel.withZero p (d.j o)) := by
      have := attach_of_split hd.names gh hl o (d := d) (pre := []) (c := .firm) rfl
      simp only [Cov.attach, start, List.map_nil, List.sum_nil, Cov.size, Nat.zero_add, Cov.cols] at this
      rw [this, hg]
      have z1 : slice (Spec.stack p a ++ c) 0 m = List.ofFn p := by
        rw [Spec.stack, slice, List.drop_zero, Nat.sub_zero, List.append_assoc, List.take_left' (by simp)]
      rw [z1, ← dotL_indicators_drop d.j (List.ofFn p) o (by simp)]
      generalize d.j o = z
      refine Fin.cases ?_ (fun q => ?_) z <;> simp [Panel.withZero]
    have f2 : CData.attachVec (d.unpack gh) "alpha" (d.i o) = some (a (d.i o)) := by
      have := attach_of_split hd.names gh hl o (d := d) (pre := [.firm]) (c := .worker) rfl
      simp only [Cov.attach, start, List.map_cons, List.map_nil, List.sum_cons, List.sum_nil, Cov.size, Nat.add_zero,
        Cov.cols] at this
      rw [this, hg]
      have z2 : slice (Spec.stack p a ++ c) m (m + nw) = List.ofFn a := by
        rw [Spec.stack, slice, List.append_assoc, List.drop_left' (by simp), Nat.add_sub_cancel_left,
          List.take_left' (by simp)]
      rw [z2, ← dotL_indicators d.i (List.ofFn a) o (by simp)]
      simp
    have e3 : d.attached gh o = (CData.attachVec (d.unpack gh) "psi" (d.j o)).bind fun x =>
        (CData.attachVec (d.unpack gh) "alpha" (d.i o)).bind fun y =>
          (d.cats.mapM fun c => CData.attachVec (d.unpack gh) c.name (c.val o)).bind fun cats =>
            (d.cts.mapM fun c => CData.attachNum (d.unpack gh) c.name (c.val o)).bind fun cts =>
              some (x :: y :: (cats ++ cts)) := rfl
    obtain ⟨l, k1, k2⟩ := C24_attached hd.names gh hl o
    rw [u] at k1
    obtain rfl := Option.some.inj k1
    rw [e3, f1, f2, Option.bind_some, Option.bind_some, Option.bind_eq_some_iff] at u
    obtain ⟨cats, -, u⟩ := u
    rw [Option.bind_eq_some_iff] at u
    obtain ⟨cts, -, u⟩ := u
    obtain ⟨e1, e2, e3⟩ : Panel.withZero p (d.j o) = psi o ∧ a (d.i o) = alpha o ∧ cats ++ cts = rest o := by
      simpa using u
    refine ⟨e1.symm, e2.symm, ?_⟩
    rw [List.sum_cons, List.sum_cons, ← e1, ← e2] at k2
    have := hA p a o
    rw [← hg] at this
    linarith
  -- the estimates of the panel
  have hopt : ∀ psi' alpha', (Spec.netPanel d rest).SSR (Panel.withZero p) a ≤ (Spec.netPanel d rest).SSR psi' alpha' := by
    intro psi' alpha'
    have k1 : (Spec.netPanel d rest).SSR (Panel.withZero p) a = ∑ o, d.Dp o * (d.y o - d.multA gh o) ^ 2 := by
      refine Finset.sum_congr rfl fun o _ => ?_
      change d.Dp o * (d.y o - (rest o).sum - (a (d.i o) + Panel.withZero p (d.j o))) ^ 2 = _
      rw [hg, hA, (hatt o).2.2]; congr 2; ring
    set x := Spec.stack (fun k : Fin m => psi' k.succ - psi' 0) (fun i => alpha' i + psi' 0) ++ c with hx
    have k2 : (Spec.netPanel d rest).SSR psi' alpha' = ∑ o, d.Dp o * (d.y o - d.multA x o) ^ 2 := by
      refine Finset.sum_congr rfl fun o _ => ?_
      change d.Dp o * (d.y o - (rest o).sum - (alpha' (d.i o) + psi' (d.j o))) ^ 2 = _
      have : Panel.withZero (fun k : Fin m => psi' k.succ - psi' 0) (d.j o) = psi' (d.j o) - psi' 0 := by
        generalize d.j o = z
        refine Fin.cases ?_ (fun k => ?_) z <;> simp [Panel.withZero]
      rw [hx, hA, this, (hatt o).2.2]; congr 2; ring
    have hxl : x.length = d.nCov := by
      rw [hx, List.length_append, stack_length, hcd, List.length_drop, hl]; omega
    obtain ⟨t, ht⟩ : ∃ t : Fin d.nCov → ℝ, x = List.ofFn t :=
      ⟨fun c => x[c]'(by rw [hxl]; exact c.2), by
        apply List.ext_getElem
        · simp [hxl]
        · intro c h1 h2; simp⟩
    have g0 := gammaHat_ofFn hd.names hd.unit hs
    have hn : nmat d.amat d.Dp *ᵥ (lgen d.amat d.Dp *ᵥ d.y) = d.amatᵀ *ᵥ fun o => d.Dp o * d.y o := by
      rw [lgen, mulVec_mulVec, ← Matrix.mul_assoc, ← Matrix.mul_assoc, mul_nonsing_inv _ hd.unit, Matrix.one_mul,
        ← mulVec_mulVec]
      congr 1; ext o; rw [mulVec_diagonal]
    have := normal_optimal d.amat d.Dp d.y (fun o => (hd.pos o).le) _ t hn
    rw [k1, k2, hgh, g0, ht, multA_ofFn hd.names, multA_ofFn hd.names]
    exact this
  obtain ⟨u1, u2⟩ := C16_unique hv hc hs' (Panel.withZero p) a rfl hopt
  have g1 : (Spec.netPanel d rest).psiCol solve' o = psi o := by
    rw [Panel.psiCol, ← u1, (hatt o).1]; rfl
  have g2 : (Spec.netPanel d rest).alphaCol solve' o = alpha o := by
    rw [Panel.alphaCol, ← u2, (hatt o).2.1]; rfl
  refine ⟨g1, g2, ?_⟩
  have hE : (Spec.netPanel d rest).E solve' o = (Spec.netPanel d rest).y o
      - ((Spec.netPanel d rest).psiCol solve' o + (Spec.netPanel d rest).alphaCol solve' o) := by
    rw [Panel.E, Panel.multA, Pi.add_apply, Panel.J_mulVec, Panel.W_mulVec]; rfl
  rw [hE, g1, g2, CData.E, ← hgh, hg, hA, (hatt o).1, (hatt o).2.1]
  change d.y o - (rest o).sum - _ = _
  rw [(hatt o).2.2]; ring

/-- The hypotheses of `C127_net` can be met: two movers between two firms, a categorical and a continuous control. -/
example : ∃ (solve : List ℝ → List ℝ) (psi alpha : Fin 8 → ℝ) (rest : Fin 8 → List ℝ) (solve' : (Fin 1 → ℝ) → (Fin 1 → ℝ)),
    exT.Ok ∧ exT.GoodSolver solve ∧
    (∀ o, exT.attached (exT.gammaHat solve) o = some (psi o :: alpha o :: rest o)) ∧
    (∀ o, (rest o).length = 2) ∧ (Spec.netPanel exT rest).Valid ∧ (Spec.netPanel exT rest).Connected ∧
    (Spec.netPanel exT rest).GoodSolver solve' := by
  obtain ⟨s, hs⟩ := exists_goodSolver exT
  have hl : (exT.gammaHat s).length = exT.nCov := by rw [gammaHat_ofFn exT_ok.names exT_ok.unit hs]; simp
  have h : ∀ o, ∃ p a r, exT.attached (exT.gammaHat s) o = some (p :: a :: r) ∧ r.length = 2 := by
    intro o
    obtain ⟨l, h1, -⟩ := C24_attached exT_ok.names _ hl o
    have u := h1
    simp only [CData.attached, bind, Option.bind_eq_some_iff, pure] at u
    obtain ⟨p, -, a, -, cats, hcats, cts, hcts, hl⟩ := u
    refine ⟨p, a, cats ++ cts, by rw [h1]; exact hl.symm ▸ rfl, ?_⟩
    have e1 : cats.length = 1 := by
      simp only [exT, List.mapM_cons, List.mapM_nil, bind, Option.bind_eq_some_iff, pure] at hcats
      obtain ⟨x, -, y, hy, hz⟩ := hcats
      obtain rfl := Option.some.inj hy
      obtain rfl := Option.some.inj hz
      rfl
    have e2 : cts.length = 1 := by
      simp only [exT, List.mapM_cons, List.mapM_nil, bind, Option.bind_eq_some_iff, pure] at hcts
      obtain ⟨x, -, y, hy, hz⟩ := hcts
      obtain rfl := Option.some.inj hy
      obtain rfl := Option.some.inj hz
      rfl
    rw [List.length_append, e1, e2]
  choose p a r h1 h2 using h
  obtain ⟨s', hs'⟩ := FE.exists_goodSolver (Spec.netPanel exT r)
  refine ⟨s, p, a, r, s', exT_ok, hs, h1, h2, ⟨?_, ?_⟩, ?_, hs'⟩
  · exact fun o => exT_ok.pos o
  · intro i; fin_cases i; exacts [⟨0, rfl⟩, ⟨4, rfl⟩]
  · have h01 : (Spec.netPanel exT r).Linked 0 1 := ⟨0, 2, rfl, rfl, rfl⟩
    have h10 : (Spec.netPanel exT r).Linked 1 0 := ⟨2, 0, rfl, rfl, rfl⟩
    intro a b; fin_cases a <;> fin_cases b
    exacts [.refl, .single h01, .single h10, .refl]

end Pytwoway.FEControl
