import Verif.BLM.TorchProps
import Verif.BLM.Controls
import Verif.BLM.ControlFalls

/-! # With and without PyTorch: movers with control variables (C112) -/

namespace Pytwoway.BLM.Torch

open Finset Nd

variable {ni nl nk : ℕ}

/-- `lp1`, `lp2` with controls, blm.py:1404-1405: `A_sum` is computed in the first iteration only and then carried over. -/
noncomputable def wageC (torch : Bool) (d : Data ni nk) (b : Base nl nk) (cs : List (Ctrl ni nl))
    (Asum : Fin 2 → Fin ni → ℝ) (t : Fin 2) (l : Fin nl) : Py Nd :=
  lognormpdf torch (arr (d.Y t)) (arr fun i => b.A t l (d.G t i) + Asum t i + sumByA cs l t i) none
    (some (arr fun i => b.S t l (d.G t i) ^ 2 + sumNonS cs t i + sumByS cs l t i))

/-- `lp` of movers with controls, blm.py:1401-1406. -/
noncomputable def lpMC (torch : Bool) (d : Data ni nk) (b : Base nl nk) (cs : List (Ctrl ni nl))
    (Asum : Fin 2 → Fin ni → ℝ) (pk1 : ℕ → Fin nl → ℝ) : Py Nd := do
  let cols ← (List.finRange nl).mapM fun l => do
    let lp1 ← wageC torch d b cs Asum 0 l
    let lp2 ← wageC torch d b cs Asum 1 l
    let a ← bin (· + ·) (arr fun i => Real.log (pk1 (KK d i) l)) (← bin (· * ·) (arr (d.W 0)) lp1)
    setCol ni (← bin (· + ·) a (← bin (· * ·) (arr (d.W 1)) lp2))
  .ok (.mat ni nl fun i l => cols.getD l 0 i)

/-- The M-step with controls, which reads `qi` as `qi[:, l]` only (blm.py:1512-1513, 1615-1616, 1699-1700). -/
noncomputable def mstepTC (d : Data ni nk) (q : Nd) (b : Base nl nk) (ks : List (Col ni nl)) (Yadj : Fin 2 → Fin ni → ℝ)
    (updA updS : Bool) (sA sS : Solver) : Py (Base nl nk × List (Col ni nl) × (Fin 2 → Fin ni → ℝ)) := do
  if updA || updS then
    let cols ← (List.finRange nl).mapM fun l : Fin nl => q.col l.val
    mstepC d (fun i l => match cols.getD l (.scal 0) with | .vec _ f => f i | _ => 0) b ks Yadj updA updS sA sS
  else .ok (b, ks, Yadj)

/-- The loop of `_fit_movers` with at least one control column, blm.py:1389-1899; as `loopC`. -/
noncomputable def loopMC (torch : Bool) (d : Data ni nk) (o : MoverOpts) (sA : ℕ → Solver) (sS : Solver)
    (minType : (Fin 2 → Fin nl → Fin nk → ℝ) → ℕ) :
    (fuel : ℕ) → (first : Bool) → (prev : Option ℝ) → (prevMin : ℕ) → StateC ni nl nk → Py (StateC ni nl nk)
  | 0, _, _, _, s => .ok s
  | fuel + 1, first, prev, prevMin, s => do
    let cs := s.cols.map (·.c)
    let Asum := if first then sumNonA cs else s.Asum
    let (ls, q) ← eStep torch (← lpMC torch d s.base cs Asum s.pk1)
    let lik := ls.mean +
      if !first && o.updPk then (o.dprior - 1) * ∑ p ∈ range (nk ^ 2), ∑ l, Real.log (s.pk1 p l) else 0
    let m := minType s.base.A
    let liks := s.liks ++ [lik]
    if stop lik prev o.threshold (m == prevMin) then .ok { s with Asum := Asum, liks := liks }
    else do
      let pk1 ← pkM o.updPk d q o.dprior s.pk1
      let anyNon := s.cols.any fun k => !k.c.wi
      let Yadj := s.Yadj.getD (if anyNon then fun t i => d.Y t i - Asum t i else d.Y)
      let r ← mstepTC d q s.base s.cols Yadj o.updA o.updS (sA m) sS
      let Asum' := if (o.updA || o.updS) && anyNon then fun t i => d.Y t i - r.2.2 t i else Asum
      loopMC torch d o sA sS minType fuel false (some lik) m
        ⟨r.1, r.2.1, pk1, Asum', if o.updA || o.updS then some r.2.2 else none, liks⟩

theorem wageC_vec (torch : Bool) (d : Data ni nk) (b : Base nl nk) (cs : List (Ctrl ni nl)) (Asum : Fin 2 → Fin ni → ℝ)
    (t : Fin 2) (l : Fin nl) : ∃ a, wageC torch d b cs Asum t l = .ok a ∧ IsVec a ni (lpWageC d b cs Asum t l) :=
  density_vec torch (.inl (arr_vec _)) (.inl (arr_vec _)) (arr_vec _)

theorem lpMC_mat (torch : Bool) (d : Data ni nk) (b : Base nl nk) (cs : List (Ctrl ni nl)) (Asum : Fin 2 → Fin ni → ℝ)
    (pk1 : ℕ → Fin nl → ℝ) : ∃ a, lpMC torch d b cs Asum pk1 = .ok a ∧ IsMat a ni nl (lpMoversC d b cs Asum pk1) := by
  obtain ⟨cols, hc, h⟩ := mapM_cols (F := lpMoversC d b cs Asum pk1) (f := fun l => do
    let lp1 ← wageC torch d b cs Asum 0 l
    let lp2 ← wageC torch d b cs Asum 1 l
    let a ← bin (· + ·) (arr fun i => Real.log (pk1 (KK d i) l)) (← bin (· * ·) (arr (d.W 0)) lp1)
    setCol ni (← bin (· + ·) a (← bin (· * ·) (arr (d.W 1)) lp2))) fun l => by
      obtain ⟨a1, e1, h1⟩ := wageC_vec torch d b cs Asum 0 l
      obtain ⟨a2, e2, h2⟩ := wageC_vec torch d b cs Asum 1 l
      obtain ⟨a3, e3, h3⟩ := bin_vec (· * ·) (.inl (arr_vec (d.W 0))) h1
      obtain ⟨a4, e4, h4⟩ := bin_vec (· + ·) (.inl (arr_vec fun i => Real.log (pk1 (KK d i) l))) h3
      obtain ⟨a5, e5, h5⟩ := bin_vec (· * ·) (.inl (arr_vec (d.W 1))) h2
      obtain ⟨a6, e6, h6⟩ := bin_vec (· + ·) (.inl h4) h5
      obtain ⟨g, e7, h7⟩ := setCol_loose (.inl h6)
      exact ⟨g, by simp only [bind, Except.bind, e1, e2, e3, e4, e5, e6, e7], h7⟩
  refine ⟨.mat ni nl fun i l => cols.getD l 0 i, ?_, _, rfl, h⟩
  rw [lpMC, hc]; rfl

theorem mstepTC_eq (d : Data ni nk) {q : Nd} {Q : Fin ni → Fin nl → ℝ} (h : IsMat q ni nl Q) (b : Base nl nk)
    (ks : List (Col ni nl)) (Y : Fin 2 → Fin ni → ℝ) (updA updS : Bool) (sA sS : Solver) :
    mstepTC d q b ks Y updA updS sA sS = mstepC d Q b ks Y updA updS sA sS := by
  obtain ⟨f, rfl, hf⟩ := h
  unfold mstepTC
  cases hu : updA || updS
  · unfold mstepC; rw [hu]; rfl
  · have := mapM_ok (f := fun l : Fin nl => Nd.col l (.mat ni nl f)) (g := fun l : Fin nl => .vec ni fun i => f i l)
      (fun l => by simp [Nd.col]) (List.finRange nl)
    simp only [if_true, bind, Except.bind, this]
    congr 1
    funext i l
    rw [← hf i l]
    simp [List.getD]

theorem loopMC_same (torch : Bool) [NeZero nl] (d : Data ni nk) (o : MoverOpts) (sA : ℕ → Solver) (sS : Solver)
    (minType : (Fin 2 → Fin nl → Fin nk → ℝ) → ℕ)
    (h : torch = false ∨ nl ≠ 1 ∨ (o.updA = false ∧ o.updS = false)) (fuel : ℕ) : ∀ first prev pm (s : StateC ni nl nk),
    loopMC torch d o sA sS minType fuel first prev pm s = loopC d o sA sS minType fuel first prev pm s := by
  induction fuel with
  | zero => intros; rfl
  | succ fuel ih =>
    intro first prev pm s
    set cs := s.cols.map (·.c) with hcs
    set Asum : Fin 2 → Fin ni → ℝ := if first then sumNonA cs else s.Asum with hAs
    obtain ⟨a, e1, ha⟩ := lpMC_mat torch d s.base cs Asum s.pk1
    obtain ⟨z, q, e2, hz, hq1, hq2⟩ := eStep_ok torch ha
    set Q := posterior (lpMoversC d s.base cs Asum s.pk1) with hQ
    have hq : Holds q Q := by
      by_cases ht : torch = true ∧ nl = 1
      · obtain ⟨f, hf, hf'⟩ := hq2 ht
        obtain ⟨-, rfl⟩ := ht
        exact .inr ⟨rfl, f, hf, fun i l => by rw [hf' i, Subsingleton.elim l 0]⟩
      · exact .inl (hq1 (by cases torch <;> simp_all))
    have hm : ∀ Y s1, mstepTC d q s.base s.cols Y o.updA o.updS s1 sS = mstepC d Q s.base s.cols Y o.updA o.updS s1 sS := by
      intro Y s1
      by_cases ht : torch = true ∧ nl = 1
      · have h3 : o.updA = false ∧ o.updS = false := by rcases h with h | h | h <;> simp_all
        simp [mstepTC, mstepC, h3.1, h3.2]; rfl
      · exact mstepTC_eq d (hq1 (by cases torch <;> simp_all)) _ _ _ _ _ _ _
    unfold loopMC loopC
    simp only [bind, Except.bind, ← hcs, ← hAs, e1, e2, pkM_eq o.updPk d hq, hm, mean_loose hz, ih, meanLse, ← hQ]

/-- Estimating on movers with any control columns gives the same parameters, likelihoods and errors with and without
PyTorch, from any starting values and for any solvers, when there are at least two worker types. -/
theorem C112_movers_controls_partial [NeZero nl] (hnl : nl ≠ 1) (d : Data ni nk) (o : MoverOpts) (sA : ℕ → Solver)
    (sS : Solver) (minType : (Fin 2 → Fin nl → Fin nk → ℝ) → ℕ) (fuel : ℕ) (first : Bool) (prev : Option ℝ) (pm : ℕ)
    (s : StateC ni nl nk) :
    loopMC true d o sA sS minType fuel first prev pm s = loopMC false d o sA sS minType fuel first prev pm s ∧
    loopMC true d o sA sS minType fuel first prev pm s = loopC d o sA sS minType fuel first prev pm s := by
  have h1 := loopMC_same true d o sA sS minType (.inr (.inl hnl)) fuel first prev pm s
  have h2 := loopMC_same false d o sA sS minType (.inl rfl) fuel first prev pm s
  exact ⟨h1.trans h2.symm, h1⟩

/-- With one worker type it does so if neither means nor standard deviations are updated. -/
theorem C112_one_type_controls_pk (d : Data ni nk) (o : MoverOpts) (hA : o.updA = false) (hS : o.updS = false)
    (sA : ℕ → Solver) (sS : Solver) (minType : (Fin 2 → Fin 1 → Fin nk → ℝ) → ℕ) (fuel : ℕ) (first : Bool)
    (prev : Option ℝ) (pm : ℕ) (s : StateC ni 1 nk) :
    loopMC true d o sA sS minType fuel first prev pm s = loopMC false d o sA sS minType fuel first prev pm s :=
  (loopMC_same true d o sA sS minType (.inr (.inr ⟨hA, hS⟩)) fuel first prev pm s).trans
    (loopMC_same false d o sA sS minType (.inl rfl) fuel first prev pm s).symm

/-- Otherwise, with one worker type and PyTorch installed, every run with controls and at least one iteration fails, on
all data and from all starting values. -/
theorem C112_one_type_controls_fails (d : Data ni nk) (o : MoverOpts) (hu : o.updA = true ∨ o.updS = true)
    (sA : ℕ → Solver) (sS : Solver) (minType : (Fin 2 → Fin 1 → Fin nk → ℝ) → ℕ) (fuel : ℕ) (first : Bool) (pm : ℕ)
    (s : StateC ni 1 nk) : ∃ e, loopMC true d o sA sS minType (fuel + 1) first none pm s = .error e ∧
      ((o.updPk = false ∨ (AllPairs d ∧ 0 < nk ∧ 1 ≤ o.dprior ∧ ∀ t i, 0 < d.W t i)) → e = "IndexError") := by
  set cs := s.cols.map (·.c) with hcs
  set Asum : Fin 2 → Fin ni → ℝ := if first then sumNonA cs else s.Asum with hAs
  obtain ⟨a, e1, ha⟩ := lpMC_mat true d s.base cs Asum s.pk1
  obtain ⟨z, q, e2, hz, -, hq2⟩ := eStep_ok true ha
  obtain ⟨f, rfl, hf⟩ := hq2 ⟨rfl, rfl⟩
  have hm : ∀ Y s1, mstepTC d (.vec ni f) s.base s.cols Y o.updA o.updS s1 sS = .error "IndexError" := by
    intro Y s1
    have : (o.updA || o.updS) = true := by simpa using hu
    simp only [mstepTC, this, if_true]; rfl
  have hpk := pkM_eq o.updPk d (q := .vec ni f) (Q := posterior (lpMoversC d s.base cs Asum s.pk1))
    (.inr ⟨rfl, f, rfl, fun i l => by rw [hf i, Subsingleton.elim l 0]⟩) o.dprior s.pk1
  unfold loopMC
  simp only [bind, Except.bind, ← hcs, ← hAs, e1, e2, stop, Bool.false_eq_true, if_false, hm, hpk]
  cases hn : nextPk1 o.updPk d (posterior (lpMoversC d s.base cs Asum s.pk1)) o.dprior s.pk1 with
  | ok v => exact ⟨_, rfl, fun _ => rfl⟩
  | error e =>
    refine ⟨e, rfl, fun h => ?_⟩
    exfalso
    rcases h with h | ⟨h1, h2, h3, h4⟩
    · simp [nextPk1, h] at hn
    · unfold nextPk1 at hn
      split at hn
      · obtain ⟨pk, hpk, -⟩ := C32_movers d (posterior (lpMoversC d s.base cs Asum s.pk1)) o.dprior h4 h3
          (fun i l => (posterior_pos _ i l).le) (posterior_sum _) h2 h1
        rw [hpk] at hn; cases hn
      · cases hn

/-- With controls, too, the full claim is false: there are data with one worker type and a control column on which an
iteration succeeds without PyTorch and fails with it. -/
theorem C112_movers_controls_false : ∃ (d : Data 2 1) (o : MoverOpts) (sA : ℕ → Solver) (sS : Solver) (s : StateC 2 1 1),
    s.cols ≠ [] ∧ (∃ r, loopMC false d o sA sS (fun _ => 0) 1 true none 0 s = .ok r) ∧
    loopMC true d o sA sS (fun _ => 0) 1 true none 0 s = .error "IndexError" := by
  obtain ⟨sA, hA⟩ := rightSolver_free (2 * (1 * 1))
  obtain ⟨sS, hS⟩ := rightSolver_box (2 * (1 * 1)) 0
  obtain ⟨r, hr, -⟩ := C88_likelihood_falls 0 le_rfl sA sS sA sS hA hA hS hS (fun _ => 0) 0
  refine ⟨faD, ⟨true, true, false, 1, 0⟩, fun _ => sA, sS, faS sA sS, by simp [faS], ⟨r, ?_⟩, ?_⟩
  · rw [loopMC_same false _ _ _ _ _ (.inl rfl)]
    exact hr
  · obtain ⟨e, he, h⟩ := C112_one_type_controls_fails faD ⟨true, true, false, 1, 0⟩ (.inl rfl) (fun _ => sA) sS
      (fun _ => 0) 0 true 0 (faS sA sS)
    rw [he, h (.inl rfl)]

/-- Non-vacuity of `C112_movers_controls_partial`: two worker types and a control column, for which the first iteration
is completed. -/
example (b : Base 2 1) (sA : ℕ → Solver) (sS : Solver) : ∃ r, loopMC true (⟨fun _ i => i, fun _ _ => 0, fun _ _ => 1⟩ : Data 2 1)
    ⟨false, false, false, 1, 0⟩ sA sS (fun _ => 0) 1 true none 0
    ⟨b, [⟨.catN (fun _ i => i.val) (fun _ c => c) (fun _ _ => 1), 2, sS, sS⟩], fun _ _ => 1 / 2, fun _ _ => 0, none, []⟩ =
      .ok r ∧ r.cols ≠ [] := by
  rw [(C112_movers_controls_partial (by norm_num) _ _ _ _ _ _ _ _ _ _).2]
  exact ⟨_, rfl, by simp⟩

end Pytwoway.BLM.Torch
