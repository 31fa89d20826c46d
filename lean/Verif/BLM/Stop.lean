import Verif.BLM.EM

/-! # When the EM loops stop, and what they record (C68) -/

namespace Pytwoway.BLM

open Finset

variable {ni nl nk : ℕ}

/-! ## Stayers -/

theorem stayersLoop_stop [NeZero nl] (d : Data ni nk) (b : Base nl nk) (cs : List (Ctrl ni nl))
    (dp thr : ℝ) (fuel : ℕ) :
    ∀ (first : Bool) (prev : Option (Option ℝ)) (pk : Fin nk → Option (Fin nl → ℝ))
      (acc : List (Option ℝ)) (pk' : Fin nk → Option (Fin nl → ℝ)) (liks : List (Option ℝ)),
      stayersLoop d b cs dp thr fuel first prev.join pk acc = .ok (pk', liks) →
      ∃ new, liks = acc ++ new ∧ new.length ≤ fuel ∧
        (new.length < fuel → ∃ pre x y, prev.toList ++ new = pre ++ [some x, some y] ∧ |y - x| < thr) ∧
        ∀ pre x y z rest, prev.toList ++ new = pre ++ some x :: some y :: z :: rest → thr ≤ |y - x| := by
  induction fuel with
  | zero =>
    intro first prev pk acc pk' liks h
    simp only [stayersLoop, Except.ok.injEq, Prod.mk.injEq] at h
    refine ⟨[], by simp [h.2], le_refl _, by simp, ?_⟩
    intro pre x y z rest he
    have := congrArg List.length he
    cases prev <;> simp at this
    omega
  | succ fuel ih =>
    intro first prev pk acc pk' liks h
    unfold stayersLoop at h
    dsimp only at h
    split at h
    · rename_i hstop
      simp only [Except.ok.injEq, Prod.mk.injEq] at h
      refine ⟨[likStayers d b cs pk first dp], h.2.symm, by simp, fun _ => ?_, ?_⟩
      · unfold stopStayers at hstop
        split at hstop
        · rename_i y x hy hx
          cases prev with
          | none => simp at hx
          | some p =>
            simp only [Option.join_some] at hx
            exact ⟨[], x, y, by simp [hx, hy], by simpa using hstop⟩
        · simp at hstop
      · intro pre x y z rest he
        have := congrArg List.length he
        cases prev <;> simp at this
        all_goals omega
    · rename_i hstop
      cases hu : updatePk0 d (posterior (lpStayers d b cs pk)) dp with
      | error m => rw [hu] at h; cases h
      | ok pk2 =>
        rw [hu] at h
        simp only [bind, Except.bind] at h
        obtain ⟨new, e1, e2, e3, e4⟩ := ih false (some (likStayers d b cs pk first dp)) pk2 _ pk' liks h
        refine ⟨likStayers d b cs pk first dp :: new, by rw [e1]; simp, by simpa using e2, ?_, ?_⟩
        · intro hl
          obtain ⟨pre, x, y, he, hlt⟩ := e3 (by simpa using hl)
          cases prev with
          | none => exact ⟨pre, x, y, by simpa using he, hlt⟩
          | some p => exact ⟨p :: pre, x, y, by simpa using he, hlt⟩
        · intro pre x y z rest he
          cases prev with
          | none => exact e4 pre x y z rest (by simpa using he)
          | some p =>
            cases pre with
            | nil =>
              simp only [Option.toList_some, List.cons_append, List.nil_append, List.cons.injEq] at he
              obtain ⟨rfl, h2, -⟩ := he
              rw [h2] at hstop
              simpa [stopStayers] using hstop
            | cons q pre =>
              simp only [Option.toList_some, List.cons_append, List.nil_append, List.cons.injEq] at he
              exact e4 pre x y z rest (by simpa using he.2)

/-- C68, stayers: at most `n_iters` values are recorded; fewer are recorded only if the last two differ
by less than the threshold, and no earlier pair of consecutive values does. -/
theorem C68_stayers_stop [NeZero nl] (d : Data ni nk) (b : Base nl nk) (cs : List (Ctrl ni nl))
    (dp thr : ℝ) (nIters : ℕ) (pk0 : Fin nk → Fin nl → ℝ) (pk0' : Fin nk → Option (Fin nl → ℝ))
    (liks : List (Option ℝ)) (h : fitStayers d b cs dp thr nIters pk0 = .ok (pk0', liks)) :
    liks.length ≤ nIters ∧
    (liks.length < nIters → ∃ pre x y, liks = pre ++ [some x, some y] ∧ |y - x| < thr) ∧
    ∀ pre x y z rest, liks = pre ++ some x :: some y :: z :: rest → thr ≤ |y - x| := by
  obtain ⟨new, e1, e2, e3, e4⟩ := stayersLoop_stop d b cs dp thr nIters true none _ _ _ _ h
  simp only [List.nil_append, Option.toList_none] at e1 e3 e4
  rw [e1]
  exact ⟨e2, e3, e4⟩

/-- C68, stayers: the first recorded value is the average log likelihood at the starting values. -/
theorem C68_stayers_first [NeZero nl] (d : Data ni nk) (b : Base nl nk) (cs : List (Ctrl ni nl))
    (dp thr : ℝ) (nIters : ℕ) (pk0 : Fin nk → Fin nl → ℝ) (pk0' : Fin nk → Option (Fin nl → ℝ))
    (liks : List (Option ℝ)) (h : fitStayers d b cs dp thr (nIters + 1) pk0 = .ok (pk0', liks)) :
    liks.head? = some (some ((∑ i, Real.log (∑ l,
      Real.exp (d.W 0 i * lpWage d b cs 0 l i + Real.log (pk0 (d.G 0 i) l)))) / ni)) := by
  have hlik : likStayers d b cs (fun k => some (pk0 k)) true dp = some ((∑ i, Real.log (∑ l,
      Real.exp (d.W 0 i * lpWage d b cs 0 l i + Real.log (pk0 (d.G 0 i) l)))) / ni) := by
    simp only [likStayers, if_true, meanLse, Util.C04_exact, lpStayers, Option.getD_some]
  unfold fitStayers stayersLoop at h
  dsimp only at h
  rw [hlik] at h
  split at h
  · simp only [Except.ok.injEq, Prod.mk.injEq] at h
    rw [← h.2]; rfl
  · cases hu : updatePk0 d (posterior (lpStayers d b cs fun k => some (pk0 k))) dp with
    | error m => rw [hu] at h; cases h
    | ok pk2 =>
      rw [hu] at h
      simp only [bind, Except.bind, List.nil_append] at h
      obtain ⟨new, e1, -⟩ := stayersLoop_stop d b cs dp thr nIters false (some _) pk2 _ _ _ h
      rw [e1]; rfl

/-! ## Movers -/

theorem moversLoop_stop [NeZero nl] (d : Data ni nk) (o : MoverOpts) (sA sS : Solver)
    (minType : (Fin 2 → Fin nl → Fin nk → ℝ) → ℕ) (fuel : ℕ) :
    ∀ (first : Bool) (prev : Option ℝ) (pm : ℕ) (s s' : MoverState nl nk),
      moversLoop d o sA sS minType fuel first prev pm s = .ok s' →
      ∃ new, s'.liks = s.liks ++ new ∧ new.length ≤ fuel ∧
        (new.length < fuel → ∃ pre x y, prev.toList ++ new = pre ++ [x, y] ∧ |y - x| < o.threshold) ∧
        ((∀ A, minType A = pm) →
          ∀ pre x y z rest, prev.toList ++ new = pre ++ x :: y :: z :: rest → o.threshold ≤ |y - x|) := by
  induction fuel with
  | zero =>
    intro first prev pm s s' h
    simp only [moversLoop, Except.ok.injEq] at h
    refine ⟨[], by simp [h], le_refl _, by simp, fun _ pre x y z rest he => ?_⟩
    have := congrArg List.length he
    cases prev <;> simp at this
    omega
  | succ fuel ih =>
    intro first prev pm s s' h
    unfold moversLoop at h
    dsimp only at h
    split at h
    · rename_i hstop
      simp only [Except.ok.injEq] at h
      refine ⟨[likMovers d s.base [] s.pk1 first o.updPk o.dprior], by rw [← h], by simp, fun _ => ?_, ?_⟩
      · unfold stop at hstop
        cases prev with
        | none => simp at hstop
        | some p =>
          simp only [Bool.and_eq_true, decide_eq_true_eq] at hstop
          exact ⟨[], p, _, rfl, hstop.1⟩
      · intro _ pre x y z rest he
        have := congrArg List.length he
        cases prev <;> simp at this
        all_goals omega
    · rename_i hstop
      cases hu : nextPk1 o.updPk d (posterior (lpMovers d s.base [] s.pk1)) o.dprior s.pk1 with
      | error m => rw [hu] at h; cases h
      | ok pk2 =>
        cases hb : mstep d (posterior (lpMovers d s.base [] s.pk1)) s.base o.updA o.updS sA sS with
        | error m => rw [hu, hb] at h; cases h
        | ok b2 =>
          rw [hu, hb] at h
          simp only [bind, Except.bind] at h
          obtain ⟨new, e1, e2, e3, e4⟩ := ih false _ _ _ s' h
          refine ⟨likMovers d s.base [] s.pk1 first o.updPk o.dprior :: new, by rw [e1]; simp,
            by simpa using e2, ?_, ?_⟩
          · intro hl
            obtain ⟨pre, x, y, he, hlt⟩ := e3 (by simpa using hl)
            cases prev with
            | none => exact ⟨pre, x, y, by simpa using he, hlt⟩
            | some p => exact ⟨p :: pre, x, y, by simpa using he, hlt⟩
          · intro hm pre x y z rest he
            have e4' := e4 (fun A => by rw [hm, hm])
            cases prev with
            | none => exact e4' pre x y z rest (by simpa using he)
            | some p =>
              cases pre with
              | nil =>
                simp only [Option.toList_some, List.cons_append, List.nil_append, List.cons.injEq] at he
                obtain ⟨rfl, h2, -⟩ := he
                rw [h2] at hstop
                simpa [stop, hm] using hstop
              | cons q pre =>
                simp only [Option.toList_some, List.cons_append, List.nil_append, List.cons.injEq] at he
                exact e4' pre x y z rest (by simpa using he.2)

/-- C68, movers: at most `n_iters` values are recorded; fewer only if the last two differ by less than
the threshold; and, as long as the lowest firm type does not change, no earlier pair does. -/
theorem C68_movers_stop [NeZero nl] (d : Data ni nk) (o : MoverOpts) (sA sS : Solver)
    (minType : (Fin 2 → Fin nl → Fin nk → ℝ) → ℕ) (nIters pm : ℕ) (b : Base nl nk)
    (pk1 : ℕ → Fin nl → ℝ) (s' : MoverState nl nk)
    (h : moversLoop d o sA sS minType nIters true none pm ⟨b, pk1, []⟩ = .ok s') :
    s'.liks.length ≤ nIters ∧
    (s'.liks.length < nIters → ∃ pre x y, s'.liks = pre ++ [x, y] ∧ |y - x| < o.threshold) ∧
    ((∀ A, minType A = pm) →
      ∀ pre x y z rest, s'.liks = pre ++ x :: y :: z :: rest → o.threshold ≤ |y - x|) := by
  obtain ⟨new, e1, e2, e3, e4⟩ := moversLoop_stop d o sA sS minType nIters true none pm _ s' h
  simp only [List.nil_append, Option.toList_none] at e1 e3 e4
  rw [e1]
  exact ⟨e2, e3, e4⟩

/-- C68, movers: the first recorded value is the average log likelihood at the starting values, without
the prior term. -/
theorem C68_movers_first [NeZero nl] (d : Data ni nk) (o : MoverOpts) (sA sS : Solver)
    (minType : (Fin 2 → Fin nl → Fin nk → ℝ) → ℕ) (nIters pm : ℕ) (b : Base nl nk)
    (pk1 : ℕ → Fin nl → ℝ) (s' : MoverState nl nk)
    (h : moversLoop d o sA sS minType (nIters + 1) true none pm ⟨b, pk1, []⟩ = .ok s') :
    s'.liks.head? = some ((∑ i, Real.log (∑ l, Real.exp (lpMovers d b [] pk1 i l))) / ni) := by
  have hlik : likMovers d b [] pk1 true o.updPk o.dprior =
      (∑ i, Real.log (∑ l, Real.exp (lpMovers d b [] pk1 i l))) / ni := by
    simp [likMovers, meanLse, Util.C04_exact]
  unfold moversLoop at h
  dsimp only at h
  rw [hlik] at h
  split at h
  · rename_i hs; simp [stop] at hs
  · cases hu : nextPk1 o.updPk d (posterior (lpMovers d b [] pk1)) o.dprior pk1 with
    | error m => rw [hu] at h; cases h
    | ok pk2 =>
      cases hb : mstep d (posterior (lpMovers d b [] pk1)) b o.updA o.updS sA sS with
      | error m => rw [hu, hb] at h; cases h
      | ok b2 =>
        rw [hu, hb] at h
        simp only [bind, Except.bind] at h
        obtain ⟨new, e1, -⟩ := moversLoop_stop d o sA sS minType nIters false _ _ _ s' h
        rw [e1]; rfl

/-- C68, movers: from the second iteration on the prior term is added when `pk1` is updated: in a run of
two iterations the second value is the average log likelihood at the stored parameters before their
last update plus `(d_prior - 1)` times the sum of the logs of the proportions. -/
theorem C68_movers_second [NeZero nl] (d : Data ni nk) (o : MoverOpts) (sA sS : Solver)
    (minType : (Fin 2 → Fin nl → Fin nk → ℝ) → ℕ) (pm : ℕ) (b : Base nl nk)
    (pk1 : ℕ → Fin nl → ℝ) (s1 s2 : MoverState nl nk)
    (h1 : moversLoop d o sA sS minType 1 true none pm ⟨b, pk1, []⟩ = .ok s1)
    (h2 : moversLoop d o sA sS minType 2 true none pm ⟨b, pk1, []⟩ = .ok s2) :
    s2.liks = s1.liks ++ [(∑ i, Real.log (∑ l, Real.exp (lpMovers d s1.base [] s1.pk1 i l))) / ni +
      if o.updPk then (o.dprior - 1) * ∑ p ∈ range (nk ^ 2), ∑ l, Real.log (s1.pk1 p l) else 0] := by
  unfold moversLoop at h1 h2
  dsimp only at h1 h2
  rw [if_neg (by simp [stop])] at h1 h2
  cases hu : nextPk1 o.updPk d (posterior (lpMovers d b [] pk1)) o.dprior pk1 with
  | error m => rw [hu] at h1; cases h1
  | ok pk2 =>
    cases hb : mstep d (posterior (lpMovers d b [] pk1)) b o.updA o.updS sA sS with
    | error m => rw [hu, hb] at h1; cases h1
    | ok b2 =>
      rw [hu, hb] at h1 h2
      simp only [bind, Except.bind] at h1 h2
      simp only [moversLoop, Except.ok.injEq] at h1
      subst h1
      unfold moversLoop at h2
      dsimp only at h2
      have hl : ∀ s3 : MoverState nl nk, s3.liks = [likMovers d b [] pk1 true o.updPk o.dprior] ++
          [likMovers d b2 [] pk2 false o.updPk o.dprior] → s3.liks =
          [likMovers d b [] pk1 true o.updPk o.dprior] ++
          [(∑ i, Real.log (∑ l, Real.exp (lpMovers d b2 [] pk2 i l))) / ni +
      if o.updPk then (o.dprior - 1) * ∑ p ∈ range (nk ^ 2), ∑ l, Real.log (pk2 p l) else 0] := by
        intro s3 h
        rw [h]
        simp [likMovers, meanLse, Util.C04_exact]
      split at h2
      · simp only [Except.ok.injEq] at h2
        exact hl s2 (by rw [← h2]; rfl)
      · cases hu2 : nextPk1 o.updPk d (posterior (lpMovers d b2 [] pk2)) o.dprior pk2 with
        | error m => rw [hu2] at h2; cases h2
        | ok pk3 =>
          cases hb2 : mstep d (posterior (lpMovers d b2 [] pk2)) b2 o.updA o.updS sA sS with
          | error m => rw [hu2, hb2] at h2; cases h2
          | ok b3 =>
            rw [hu2, hb2] at h2
            simp only [bind, Except.bind, moversLoop, Except.ok.injEq] at h2
            exact hl s2 (by rw [← h2]; rfl)

/-- Non-vacuity: both loops return on `exData` (which observes every firm type) and on data with one firm
type, for any number of iterations. -/
example (n : ℕ) (b : Base 2 2) (thr : ℝ) :
    ∃ r, fitStayers exData b [] 1 thr n (fun _ _ => 1 / 2) = .ok r := by
  refine C33_stayers_returns _ _ _ _ _ (by norm_num) (fun k => ?_) _ _
  fin_cases k
  · exact ⟨0, by simp [exData]⟩
  · exact ⟨1, by simp [exData]⟩

example (n : ℕ) (b : Base 2 1) (thr : ℝ) (sA sS : Solver) :
    ∃ r, moversLoop (⟨fun _ i => i, fun _ _ => 0, fun _ _ => 1⟩ : Data 2 1) ⟨true, true, true, 2, thr⟩ sA sS
      (fun _ => 0) n true none 0 ⟨b, fun _ _ => 1 / 2, []⟩ = .ok r :=
  C33_movers_returns _ _ _ _ _ (by norm_num)
    (fun k1 k2 => ⟨0, Subsingleton.elim _ _, Subsingleton.elim _ _⟩) (fun _ _ => one_pos)
    (by norm_num) rfl n _ _ _ _

end Pytwoway.BLM
