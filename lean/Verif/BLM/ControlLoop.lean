import Verif.BLM.ControlProps

/-! # The loop with control variables uses current parameters (C87) -/

namespace Pytwoway.BLM

open Finset

variable {ni nl nk : ℕ}

/-! ## Specification: the loop without caches -/

/-- Parameters and recorded likelihoods. -/
structure Spec.St (ni nl nk : ℕ) where
  base : Base nl nk
  cols : List (Col ni nl)
  pk1 : ℕ → Fin nl → ℝ
  liks : List ℝ

/-- EM with control variables in which everything is computed from the current parameters in every iteration: the
likelihood of the data at the current parameters, the posteriors, and an M-step on the wages less the current effects
of the columns without interaction. -/
noncomputable def Spec.loop [NeZero nl] (d : Data ni nk) (o : MoverOpts) (sA : ℕ → Solver) (sS : Solver)
    (minType : (Fin 2 → Fin nl → Fin nk → ℝ) → ℕ) :
    (fuel : ℕ) → (first : Bool) → (prev : Option ℝ) → (prevMin : ℕ) → Spec.St ni nl nk → Py (Spec.St ni nl nk)
  | 0, _, _, _, s => .ok s
  | fuel + 1, first, prev, prevMin, s => do
    let cs := s.cols.map (·.c)
    let q := posterior (lpMovers d s.base cs s.pk1)
    let lik := likMovers d s.base cs s.pk1 first o.updPk o.dprior
    let m := minType s.base.A
    let liks := s.liks ++ [lik]
    if stop lik prev o.threshold (m == prevMin) then .ok { s with liks := liks }
    else do
      let pk1 ← nextPk1 o.updPk d q o.dprior s.pk1
      let r ← mstepC d q s.base s.cols (fun t i => d.Y t i - sumNonA cs t i) o.updA o.updS (sA m) sS
      Spec.loop d o sA sS minType fuel false (some lik) m ⟨r.1, r.2.1, pk1, liks⟩

def StateC.proj (s : StateC ni nl nk) : Spec.St ni nl nk := ⟨s.base, s.cols, s.pk1, s.liks⟩

/-! ## What the M-step preserves, whatever the solvers do -/

theorem solveA_wi (k : Col ni nl) (X Y : ℕ → ℝ) : (k.solveA X Y).c.wi = k.c.wi := by
  unfold Col.solveA
  split <;> simp [setA_wi]

theorem solveS_wi (k : Col ni nl) (X Y : ℕ → ℝ) : (k.solveS X Y).c.wi = k.c.wi := by
  unfold Col.solveS
  split <;> try rfl
  cases hc : k.c <;> rfl

theorem colA_keeps (d : Data ni nk) (q : Fin ni → Fin nl → ℝ) (A : Fin 2 → Fin nl → Fin nk → ℝ) (updA : Bool)
    (done todo : List (Col ni nl)) (k : Col ni nl) (Yadj : Fin 2 → Fin ni → ℝ) {r : Col ni nl × (Fin 2 → Fin ni → ℝ)}
    (h : colA d q A updA done k todo Yadj = .ok r) (hadj : Adj d ((done ++ k :: todo).map (·.c)) Yadj) :
    r.1.c.wi = k.c.wi ∧ Adj d ((done ++ r.1 :: todo).map (·.c)) r.2 := by
  have key : ∀ k' : Col ni nl, k'.c.wi = k.c.wi → Adj d ((done ++ k' :: todo).map (·.c)) fun t i =>
      if k.c.wi then (if k.c.wi then Yadj t i else Yadj t i + k.c.nonA t i)
      else (if k.c.wi then Yadj t i else Yadj t i + k.c.nonA t i) - k'.c.nonA t i := by
    intro k' hw t i
    have h1 := hadj t i
    rw [List.map_append, List.map_cons, sumNonA_mid] at h1 ⊢
    obtain c | c := Bool.eq_false_or_eq_true k.c.wi
    · rw [nonA_of_wi (hw.trans c)]
      rw [nonA_of_wi c] at h1
      simp only [c, if_true, h1]
    · simp only [c, Bool.false_eq_true, if_false, h1]; ring
  unfold colA at h
  cases hX : colXwX d q k with
  | error e => simp [hX, bind, Except.bind] at h
  | ok X =>
    simp only [hX, bind, Except.bind, pure, Except.pure] at h
    cases updA with
    | false =>
      simp only [Bool.false_eq_true, if_false, Except.ok.injEq] at h
      subst h
      exact ⟨rfl, key k rfl⟩
    | true =>
      simp only [if_true] at h
      generalize assembleCol k _ = z at h
      cases z with
      | error e => simp at h
      | ok Y =>
        simp only [Except.ok.injEq] at h
        subst h
        exact ⟨solveA_wi _ _ _, key _ (solveA_wi _ _ _)⟩

theorem colsA_keeps (d : Data ni nk) (q : Fin ni → Fin nl → ℝ) (A : Fin 2 → Fin nl → Fin nk → ℝ) (updA : Bool)
    (todo : List (Col ni nl)) : ∀ (done : List (Col ni nl)) (Yadj : Fin 2 → Fin ni → ℝ)
    {r : List (Col ni nl) × (Fin 2 → Fin ni → ℝ)},
    colsA d q A updA done todo Yadj = .ok r → Adj d ((done ++ todo).map (·.c)) Yadj →
    r.1.map (fun k => k.c.wi) = (done ++ todo).map (fun k => k.c.wi) ∧ Adj d (r.1.map (·.c)) r.2 := by
  induction todo with
  | nil =>
    intro done Yadj r h ha
    simp only [colsA, Except.ok.injEq] at h
    subst h
    exact ⟨by simp, by simpa using ha⟩
  | cons k todo ih =>
    intro done Yadj r h ha
    rw [colsA] at h
    cases hc : colA d q A updA done k todo Yadj with
    | error e => simp [hc, bind, Except.bind] at h
    | ok z =>
      simp only [hc, bind, Except.bind] at h
      obtain ⟨h1, h2⟩ := colA_keeps d q A updA done todo k Yadj hc ha
      obtain ⟨h3, h4⟩ := ih _ _ h (by simpa using h2)
      exact ⟨by simpa [h1] using h3, h4⟩

theorem colS_keeps (d : Data ni nk) (q : Fin ni → Fin nl → ℝ) (eps : Fin 2 → Fin nl → Fin ni → ℝ) {k k' : Col ni nl}
    (h : colS d q eps k = .ok k') : k'.c.wi = k.c.wi ∧ ∀ t i, k'.c.nonA t i = k.c.nonA t i := by
  unfold colS at h
  cases hX : colXwX d q k with
  | error e => simp [hX, bind, Except.bind] at h
  | ok X =>
    simp only [hX, bind, Except.bind, pure, Except.pure] at h
    generalize assembleCol k _ = z at h
    cases z with
    | error e => simp at h
    | ok Y =>
      simp only [Except.ok.injEq] at h
      subst h
      exact ⟨solveS_wi _ _ _, solveS_nonA _ _ _⟩

theorem colsS_keeps (d : Data ni nk) (q : Fin ni → Fin nl → ℝ) (eps : Fin 2 → Fin nl → Fin ni → ℝ)
    (ks : List (Col ni nl)) : ∀ {ks' : List (Col ni nl)}, ks.mapM (colS d q eps) = .ok ks' →
    ks'.map (fun k => k.c.wi) = ks.map (fun k => k.c.wi) ∧
      ∀ t i, sumNonA (ks'.map (·.c)) t i = sumNonA (ks.map (·.c)) t i := by
  induction ks with
  | nil =>
    intro ks' h
    cases h
    exact ⟨rfl, fun _ _ => rfl⟩
  | cons k ks ih =>
    intro ks' h
    rw [List.mapM_cons] at h
    cases h1 : colS d q eps k with
    | error e => simp [h1, bind, Except.bind] at h
    | ok k' =>
      cases h2 : ks.mapM (colS d q eps) with
      | error e => simp [h1, h2, bind, Except.bind] at h
      | ok ks2 =>
        simp only [h1, h2, bind, Except.bind, pure, Except.pure, Except.ok.injEq] at h
        subst h
        obtain ⟨h3, h4⟩ := ih h2
        obtain ⟨h5, h6⟩ := colS_keeps d q eps h1
        refine ⟨by simp [h3, h5], fun t i => ?_⟩
        have := h4 t i
        simp only [sumNonA_eq, List.map_cons, List.sum_cons] at this ⊢
        rw [this, h6]

theorem mstepRest_keeps (d : Data ni nk) (q : Fin ni → Fin nl → ℝ) (b : Base nl nk) (ks : List (Col ni nl))
    (Yadj : Fin 2 → Fin ni → ℝ) (updA updS : Bool) (sS : Solver) (X : ℕ → ℝ) (A' : Fin 2 → Fin nl → Fin nk → ℝ)
    {r : Base nl nk × List (Col ni nl) × (Fin 2 → Fin ni → ℝ)}
    (h : mstepRest d q b ks Yadj updA updS sS X A' = .ok r) (ha : Adj d (ks.map (·.c)) Yadj) :
    r.2.1.map (fun k => k.c.wi) = ks.map (fun k => k.c.wi) ∧ Adj d (r.2.1.map (·.c)) r.2.2 := by
  unfold mstepRest at h
  cases h2 : colsA d q A' updA [] ks Yadj with
  | error e => simp [h2, bind, Except.bind] at h
  | ok z =>
    simp only [h2, bind, Except.bind, pure, Except.pure] at h
    obtain ⟨h3, h4⟩ := colsA_keeps d q A' updA ks [] Yadj h2 (by simpa using ha)
    cases updS with
    | false => simp at h
    | true =>
      simp only [if_true] at h
      generalize assemble d _ = zS at h
      cases zS with
      | error e => simp at h
      | ok Z =>
        simp only at h
        cases hm : z.1.mapM (colS d q fun t l i => (z.2 t i - sumByA (z.1.map (·.c)) l t i - A' t l (d.G t i)) ^ 2) with
        | error e => simp [hm] at h
        | ok ks' =>
          simp only [hm, Except.ok.injEq] at h
          subst h
          obtain ⟨h5, h6⟩ := colsS_keeps d q _ z.1 hm
          refine ⟨by simpa [h5] using h3, fun t i => ?_⟩
          rw [h4 t i, h6]

theorem mstepC_keeps (d : Data ni nk) (q : Fin ni → Fin nl → ℝ) (b : Base nl nk) (ks : List (Col ni nl))
    (Yadj : Fin 2 → Fin ni → ℝ) (updA updS : Bool) (sA sS : Solver)
    {r : Base nl nk × List (Col ni nl) × (Fin 2 → Fin ni → ℝ)}
    (h : mstepC d q b ks Yadj updA updS sA sS = .ok r) (ha : Adj d (ks.map (·.c)) Yadj) :
    r.2.1.map (fun k => k.c.wi) = ks.map (fun k => k.c.wi) ∧ Adj d (r.2.1.map (·.c)) r.2.2 := by
  unfold mstepC at h
  by_cases hu : (updA || updS) = true
  · simp only [hu, if_true, bind, Except.bind] at h
    cases h1 : assemble d fun t l i => wts d b.S q t l i with
    | error e => simp [h1] at h
    | ok X =>
      simp only [h1] at h
      by_cases hA : updA = true
      · rw [if_pos hA] at h
        split at h
        · cases h
        · exact mstepRest_keeps _ _ _ _ _ _ _ _ _ _ h ha
      · rw [if_neg hA] at h
        exact mstepRest_keeps _ _ _ _ _ _ _ _ _ _ h ha
  · simp only [hu, Bool.false_eq_true, if_false, pure, Except.pure, Except.ok.injEq] at h
    subst h
    exact ⟨rfl, ha⟩

/-! ## C87 -/

/-- What the caches hold: the effects of the columns without interaction, or nothing yet. -/
structure Fresh (d : Data ni nk) (first : Bool) (s : StateC ni nl nk) : Prop where
  cols : s.cols ≠ []
  sum : first = false → s.Asum = sumNonA (s.cols.map (·.c))
  adj : ∀ Y, s.Yadj = some Y → Adj d (s.cols.map (·.c)) Y

theorem lpMoversC_eq (d : Data ni nk) (b : Base nl nk) (cs : List (Ctrl ni nl)) (hcs : cs ≠ []) (pk1 : ℕ → Fin nl → ℝ) :
    lpMoversC d b cs (sumNonA cs) pk1 = lpMovers d b cs pk1 := by
  have hw : ∀ t l i, lpWageC d b cs (sumNonA cs) t l i = lpWage d b cs t l i := by
    intro t l i
    unfold lpWageC lpWage
    rw [if_neg (by simpa using hcs)]
  funext i l
  unfold lpMoversC lpMovers
  rw [hw, hw]

theorem sumNonA_zero {ks : List (Col ni nl)} (h : (ks.any fun k => !k.c.wi) = false) :
    sumNonA (ks.map (·.c)) = fun _ _ => 0 := by
  funext t i
  rw [sumNonA_eq, List.map_map]
  refine List.sum_eq_zero fun x hx => ?_
  obtain ⟨k, hk, rfl⟩ := List.mem_map.mp hx
  refine nonA_of_wi ?_ t i
  have := List.any_eq_false.mp h k hk
  simpa using this

theorem any_of_map {ks ks' : List (Col ni nl)} (h : ks'.map (fun k => k.c.wi) = ks.map (fun k => k.c.wi)) :
    (ks'.any fun k => !k.c.wi) = ks.any fun k => !k.c.wi := by
  have e : ∀ xs : List (Col ni nl), (xs.any fun k => !k.c.wi) = (xs.map (fun k => k.c.wi)).any (!·) := fun xs => by
    rw [List.any_map]; rfl
  rw [e, e, h]

/-- C87, histories: for every number of iterations, every data set, option and behaviour of the solvers, the loop that
keeps the sums of effects and the adjusted wages between iterations gives what the loop that computes them again
from the current parameters gives: the same parameters, the same recorded likelihoods, the same errors. -/
theorem C87_no_stale_values [NeZero nl] (d : Data ni nk) (o : MoverOpts) (sA : ℕ → Solver) (sS : Solver)
    (minType : (Fin 2 → Fin nl → Fin nk → ℝ) → ℕ) (fuel : ℕ) : ∀ (first : Bool) (prev : Option ℝ) (prevMin : ℕ)
    (s : StateC ni nl nk), Fresh d first s →
    (loopC d o sA sS minType fuel first prev prevMin s).map StateC.proj =
      Spec.loop d o sA sS minType fuel first prev prevMin s.proj := by
  induction fuel with
  | zero => intro first prev prevMin s _; rfl
  | succ fuel ih =>
    intro first prev prevMin s hf
    have hcs : s.cols.map (·.c) ≠ [] := by simpa using hf.cols
    have hA : (if first then sumNonA (s.cols.map (·.c)) else s.Asum) = sumNonA (s.cols.map (·.c)) := by
      cases first with
      | true => rfl
      | false => simpa using hf.sum rfl
    have hY : s.Yadj.getD (if (s.cols.any fun k => !k.c.wi) then
            fun t i => d.Y t i - sumNonA (s.cols.map (·.c)) t i else d.Y) =
        fun t i => d.Y t i - sumNonA (s.cols.map (·.c)) t i := by
      cases hy : s.Yadj with
      | some Y => funext t i; exact hf.adj Y hy t i
      | none =>
        simp only [Option.getD_none]
        obtain c | c := Bool.eq_false_or_eq_true (s.cols.any fun k => !k.c.wi)
        · simp only [c, if_true]
        · rw [sumNonA_zero c]
          simp only [c, Bool.false_eq_true, if_false, sub_zero]
    rw [loopC, Spec.loop]
    simp only [hA, lpMoversC_eq d s.base _ hcs, StateC.proj]
    rw [show meanLse (lpMovers d s.base (s.cols.map (·.c)) s.pk1) +
      (if (!first && o.updPk) = true then (o.dprior - 1) * ∑ p ∈ range (nk ^ 2), ∑ l, Real.log (s.pk1 p l) else 0) =
      likMovers d s.base (s.cols.map (·.c)) s.pk1 first o.updPk o.dprior from rfl]
    by_cases hstop : stop (likMovers d s.base (s.cols.map (·.c)) s.pk1 first o.updPk o.dprior) prev o.threshold
        (minType s.base.A == prevMin) = true
    · simp only [hstop, if_true]
      rfl
    · simp only [hstop, Bool.false_eq_true, if_false]
      cases hp : nextPk1 o.updPk d (posterior (lpMovers d s.base (s.cols.map (·.c)) s.pk1)) o.dprior s.pk1 with
      | error e => rfl
      | ok pk1 =>
        simp only [bind, Except.bind]
        rw [hY]
        cases hm : mstepC d (posterior (lpMovers d s.base (s.cols.map (·.c)) s.pk1)) s.base s.cols
            (fun t i => d.Y t i - sumNonA (s.cols.map (·.c)) t i) o.updA o.updS (sA (minType s.base.A)) sS with
        | error e => rfl
        | ok r =>
          simp only
          obtain ⟨h1, h2⟩ := mstepC_keeps d _ s.base s.cols _ o.updA o.updS _ _ hm fun t i => rfl
          refine ih false _ _ _ ⟨?_, fun _ => ?_, fun Y hYs => ?_⟩
          · intro h0
            simp only at h0
            rw [h0] at h1
            exact hf.cols (by simpa using h1.symm)
          · simp only
            obtain c | c := Bool.eq_false_or_eq_true (s.cols.any fun k => !k.c.wi)
            · obtain u | u := Bool.eq_false_or_eq_true (o.updA || o.updS)
              · simp only [c, u, Bool.and_self, if_true]
                funext t i
                rw [h2 t i]; ring
              · simp only [u, Bool.false_and, Bool.false_eq_true, if_false]
                unfold mstepC at hm
                simp only [u, Bool.false_eq_true, if_false, pure, Except.pure, Except.ok.injEq] at hm
                rw [← hm]
            · simp only [c, Bool.and_false, Bool.false_eq_true, if_false]
              rw [sumNonA_zero c, sumNonA_zero ((any_of_map h1).trans c)]
          · simp only at hYs
            split at hYs
            · cases hYs; exact h2
            · cases hYs

end Pytwoway.BLM
