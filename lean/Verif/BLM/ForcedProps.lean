import Verif.BLM.Forced
import Mathlib.Data.List.GetD

/-! # Cycles of the lowest firm type, and forcing it (C96): properties -/

open Finset

namespace Pytwoway.BLM

variable {ni nl nk : ℕ} {σ ρ : Type}

/-! ## Specification -/

/-- Among the lowest firm types `h` of the iterations 0, 1, ... there are `nObs` consecutive ones, none before
`start`, of which each differs from the one before. -/
def Spec.Stuck (start nObs : ℕ) (h : List ℕ) : Prop :=
  ∃ i, start ≤ i ∧ i + nObs ≤ h.length ∧ ∀ j, i ≤ j → j + 1 < i + nObs → h[j]? ≠ h[j + 1]?

/-- The lowest firm types of the iterations that the loop without the check starts and does not end in. -/
def Spec.lowest (pass : ℕ → σ → Pass σ ρ) : (fuel iter : ℕ) → σ → List ℕ
  | 0, _, _ => []
  | fuel + 1, iter, s =>
    match pass iter s with
    | .done _ => []
    | .go m (.error _) => [m]
    | .go m (.ok s') => m :: Spec.lowest pass fuel (iter + 1) s'

/-! ## The check -/

/-- What the list kept by the check contains after the history `h`. -/
def window (start nObs : ℕ) (h : List ℕ) : List ℕ :=
  (h.drop start).drop ((h.drop start).length - nObs)

theorem changing_iff (l : List ℕ) : ((l.zip l.tail).all fun p => p.1 != p.2) = true ↔
    ∀ j, j + 1 < l.length → l[j]? ≠ l[j + 1]? := by
  induction l with
  | nil => simp
  | cons a l ih =>
    cases l with
    | nil => simp
    | cons b l =>
      simp only [List.tail_cons, List.zip_cons_cons, List.all_cons, Bool.and_eq_true] at ih ⊢
      rw [ih]
      constructor
      · rintro ⟨h1, h2⟩ j hj
        cases j with
        | zero => simpa using h1
        | succ j => simpa using h2 j (by simpa using hj)
      · intro h
        refine ⟨by simpa using h 0 (by simp), fun j hj => ?_⟩
        simpa using h (j + 1) (by simpa using hj)

theorem window_get (start nObs : ℕ) (h : List ℕ) (j : ℕ) :
    (window start nObs h)[j]? = h[start + ((h.length - start) - nObs) + j]? := by
  unfold window
  rw [List.getElem?_drop, List.getElem?_drop, List.length_drop]
  congr 1
  omega

theorem window_length (start nObs : ℕ) (h : List ℕ) :
    (window start nObs h).length = min nObs (h.length - start) := by
  unfold window
  rw [List.length_drop, List.length_drop]
  omega

theorem cycCheck_snd (start nObs m : ℕ) (hn : 1 ≤ nObs) (h : List ℕ) :
    (cycCheck start nObs h.length m (window start nObs h)).2 = window start nObs (h ++ [m]) := by
  unfold cycCheck
  by_cases hs : start ≤ h.length
  · rw [if_pos hs]
    have e : (h ++ [m]).drop start = h.drop start ++ [m] := by
      rw [List.drop_append_of_le_length hs]
    have hl : (window start nObs h ++ [m]).length = min nObs (h.length - start) + 1 := by
      rw [List.length_append, window_length]; rfl
    simp only [hl]
    by_cases h1 : nObs ≤ min nObs (h.length - start) + 1
    · rw [if_pos h1]
      by_cases h2 : nObs < min nObs (h.length - start) + 1
      · rw [if_pos h2]
        simp only
        have h3 : nObs ≤ h.length - start := by omega
        unfold window
        rw [e, List.length_append, List.length_drop, List.length_singleton]
        have e2 : h.length - start + 1 - nObs = (h.length - start - nObs) + 1 := by omega
        rw [e2, ← List.drop_drop, List.drop_append_of_le_length (by rw [List.length_drop]; omega), List.drop_one]
      · rw [if_neg h2]
        simp only
        have h3 : h.length - start + 1 = nObs := by omega
        unfold window
        rw [e, List.length_append, List.length_drop, List.length_singleton,
          show h.length - start - nObs = 0 by omega, show h.length - start + 1 - nObs = 0 by omega]
        rfl
    · rw [if_neg h1]
      simp only
      unfold window
      rw [e, List.length_append, List.length_drop, List.length_singleton,
        show h.length - start - nObs = 0 by omega, show h.length - start + 1 - nObs = 0 by omega]
      rfl
  · rw [if_neg hs]
    unfold window
    have e1 : h.drop start = [] := List.drop_eq_nil_of_le (by omega)
    have e2 : (h ++ [m]).drop start = [] := List.drop_eq_nil_of_le (by simp; omega)
    rw [e1, e2]

theorem cycCheck_fst (start nObs m : ℕ) (hn : 1 ≤ nObs) (h : List ℕ) :
    (cycCheck start nObs h.length m (window start nObs h)).1 = true ↔
      start + nObs ≤ h.length + 1 ∧
        ∀ j, h.length + 1 ≤ j + nObs → j < h.length → (h ++ [m])[j]? ≠ (h ++ [m])[j + 1]? := by
  have hw := cycCheck_snd start nObs m hn h
  have hl : (window start nObs h ++ [m]).length = min nObs (h.length - start) + 1 := by
    rw [List.length_append, window_length]; rfl
  by_cases hs : start ≤ h.length
  · by_cases h1 : nObs ≤ min nObs (h.length - start) + 1
    · have e : (cycCheck start nObs h.length m (window start nObs h)).1 =
          ((window start nObs (h ++ [m])).zip (window start nObs (h ++ [m])).tail).all fun p => p.1 != p.2 := by
        rw [← hw]
        unfold cycCheck
        rw [if_pos hs]
        simp only [hl]
        rw [if_pos h1]
      rw [e, changing_iff]
      simp only [window_get, window_length, List.length_append, List.length_singleton]
      have h3 : start + nObs ≤ h.length + 1 := by omega
      constructor
      · intro H
        refine ⟨h3, fun j hj1 hj2 => ?_⟩
        have := H (j - (h.length + 1 - nObs)) (by omega)
        rw [show start + (h.length + 1 - start - nObs) + (j - (h.length + 1 - nObs)) = j by omega,
          show start + (h.length + 1 - start - nObs) + (j - (h.length + 1 - nObs) + 1) = j + 1 by omega] at this
        exact this
      · rintro ⟨-, H⟩ j hj
        have := H (start + (h.length + 1 - start - nObs) + j) (by omega) (by omega)
        exact this
    · have e : (cycCheck start nObs h.length m (window start nObs h)).1 = false := by
        unfold cycCheck
        rw [if_pos hs]
        simp only [hl]
        rw [if_neg h1]
      rw [e]
      constructor
      · intro h; cases h
      · rintro ⟨h3, -⟩; omega
  · have e : (cycCheck start nObs h.length m (window start nObs h)).1 = false := by
      unfold cycCheck
      rw [if_neg hs]
    rw [e]
    constructor
    · intro h; cases h
    · rintro ⟨h3, -⟩; omega

theorem stuck_prefix {start nObs : ℕ} {h t : List ℕ} (H : Spec.Stuck start nObs h) :
    Spec.Stuck start nObs (h ++ t) := by
  obtain ⟨i, h1, h2, h3⟩ := H
  refine ⟨i, h1, by rw [List.length_append]; omega, fun j hj hj' => ?_⟩
  rw [List.getElem?_append_left (by omega), List.getElem?_append_left (by omega)]
  exact h3 j hj hj'

theorem stuck_snoc {start nObs m : ℕ} {h : List ℕ} (hno : ¬ Spec.Stuck start nObs h) :
    Spec.Stuck start nObs (h ++ [m]) ↔ (start + nObs ≤ h.length + 1 ∧
        ∀ j, h.length + 1 ≤ j + nObs → j < h.length → (h ++ [m])[j]? ≠ (h ++ [m])[j + 1]?) := by
  constructor
  · rintro ⟨i, h1, h2, h3⟩
    rw [List.length_append, List.length_singleton] at h2
    by_cases hi : i + nObs ≤ h.length
    · exfalso
      refine hno ⟨i, h1, hi, fun j hj hj' => ?_⟩
      have := h3 j hj hj'
      rwa [List.getElem?_append_left (by omega), List.getElem?_append_left (by omega)] at this
    · exact ⟨by omega, fun j hj hj' => h3 j (by omega) (by omega)⟩
  · rintro ⟨h1, h2⟩
    exact ⟨h.length + 1 - nObs, by omega, by rw [List.length_append, List.length_singleton]; omega,
      fun j hj hj' => h2 j (by omega) (by omega)⟩

theorem not_stuck_nil {start nObs : ℕ} (hn : 1 ≤ nObs) : ¬ Spec.Stuck start nObs [] := by
  rintro ⟨i, -, h2, -⟩
  simp at h2
  omega

theorem runCheck_eq (pass : ℕ → σ → Pass σ ρ) (out : σ → ρ) (start nObs : ℕ) (hn : 1 ≤ nObs) (fuel : ℕ) :
    ∀ (h : List ℕ) (s : σ), ¬ Spec.Stuck start nObs h →
      (Spec.Stuck start nObs (h ++ Spec.lowest pass fuel h.length s) →
        runCheck pass out start nObs fuel h.length (window start nObs h) s = .ok .stuck) ∧
      (¬ Spec.Stuck start nObs (h ++ Spec.lowest pass fuel h.length s) →
        runCheck pass out start nObs fuel h.length (window start nObs h) s =
          (runLoop pass out fuel h.length s).map .finished) := by
  induction fuel with
  | zero =>
    intro h s hno
    simp only [Spec.lowest, List.append_nil]
    exact ⟨fun H => absurd H hno, fun _ => rfl⟩
  | succ fuel ih =>
    intro h s hno
    simp only [Spec.lowest, runCheck, runLoop]
    cases hp : pass h.length s with
    | done r =>
      simp only [List.append_nil]
      exact ⟨fun H => absurd H hno, fun _ => rfl⟩
    | go m next =>
      simp only
      by_cases hc : (cycCheck start nObs h.length m (window start nObs h)).1 = true
      · rw [if_pos hc]
        have hst := (stuck_snoc hno).mpr ((cycCheck_fst start nObs m hn h).mp hc)
        have : ∀ t, Spec.Stuck start nObs (h ++ m :: t) := fun t => by
          have := stuck_prefix (t := t) hst
          rwa [List.append_assoc, List.singleton_append] at this
        cases next with
        | error e => exact ⟨fun _ => rfl, fun H => absurd (this []) H⟩
        | ok s' => exact ⟨fun _ => rfl, fun H => absurd (this _) H⟩
      · rw [if_neg hc]
        have hst : ¬ Spec.Stuck start nObs (h ++ [m]) := fun H =>
          hc ((cycCheck_fst start nObs m hn h).mpr ((stuck_snoc hno).mp H))
        cases next with
        | error e => exact ⟨fun H => absurd H hst, fun _ => rfl⟩
        | ok s' =>
          have := ih (h ++ [m]) s' hst
          rw [cycCheck_snd start nObs m hn h]
          simp only [List.length_append, List.length_singleton, List.append_assoc, List.singleton_append] at this
          exact this

/-- C96: the check restarts the estimation exactly when, from iteration `start_cycle_check_threshold` on, some
`cycle_check_n_obs` consecutive iterations each have a lowest firm type other than the one before; otherwise the
loop gives what it gives without the check, including its exceptions. -/
theorem C96_cycle (pass : ℕ → σ → Pass σ ρ) (out : σ → ρ) (start nObs fuel : ℕ) (hn : 2 ≤ nObs) (s : σ) :
    (Spec.Stuck start nObs (Spec.lowest pass fuel 0 s) →
      runCheck pass out start nObs fuel 0 [] s = .ok .stuck) ∧
    (¬ Spec.Stuck start nObs (Spec.lowest pass fuel 0 s) →
      runCheck pass out start nObs fuel 0 [] s = (runLoop pass out fuel 0 s).map .finished) := by
  have := runCheck_eq pass out start nObs (by omega) fuel [] s (not_stuck_nil (by omega))
  simpa [window] using this

theorem loopC_eq_runLoop [NeZero nl] (d : Data ni nk) (o : MoverOpts) (sA : ℕ → Solver) (sS : Solver)
    (minType : (Fin 2 → Fin nl → Fin nk → ℝ) → ℕ) (fuel : ℕ) : ∀ (iter : ℕ) (prev : Option ℝ) (prevMin : ℕ)
    (s : StateC ni nl nk), loopC d o sA sS minType fuel (iter == 0) prev prevMin s =
      runLoop (passC d o sA sS minType) (·.2.2) fuel iter (prev, prevMin, s) := by
  induction fuel with
  | zero => intros; rfl
  | succ fuel ih =>
    intro iter prev prevMin s
    have ih' := fun p m s => ih (iter + 1) p m s
    simp only [show (iter + 1 == 0) = false from rfl] at ih'
    unfold loopC runLoop passC
    simp only
    generalize stop _ prev o.threshold _ = b
    cases b with
    | true => rfl
    | false =>
      simp only [Bool.false_eq_true, if_false, bind, Except.bind, pure, Except.pure]
      generalize nextPk1 _ _ _ _ _ = x
      cases x with
      | error e => rfl
      | ok pk =>
        simp only
        generalize mstepC _ _ _ _ _ _ _ _ _ = y
        cases y with
        | error e => rfl
        | ok r =>
          simp only
          exact ih' _ _ _

/-- C96: the same for the loop of the static model with controls: stuck, or the result of the loop of `C87`. -/
theorem C96_cycle_static [NeZero nl] (d : Data ni nk) (o : MoverOpts) (sA : ℕ → Solver) (sS : Solver)
    (minType : (Fin 2 → Fin nl → Fin nk → ℝ) → ℕ) (start nObs fuel : ℕ) (hn : 2 ≤ nObs) (s : StateC ni nl nk) :
    let low := Spec.lowest (passC d o sA sS minType) fuel 0 (none, minType s.base.A, s)
    (Spec.Stuck start nObs low → loopCyc d o sA sS minType start nObs fuel s = .ok .stuck) ∧
    (¬ Spec.Stuck start nObs low → loopCyc d o sA sS minType start nObs fuel s =
      (loopC d o sA sS minType fuel true none (minType s.base.A) s).map .finished) := by
  have h := C96_cycle (passC d o sA sS minType) (·.2.2) start nObs fuel hn (none, minType s.base.A, s)
  have e := loopC_eq_runLoop d o sA sS minType fuel 0 none (minType s.base.A) s
  rw [show ((0 : ℕ) == 0) = true from rfl] at e
  rw [e]
  exact h

theorem lowest_length (pass : ℕ → σ → Pass σ ρ) (fuel : ℕ) : ∀ (iter : ℕ) (s : σ),
    (Spec.lowest pass fuel iter s).length ≤ fuel := by
  induction fuel with
  | zero => intros; simp [Spec.lowest]
  | succ fuel ih =>
    intro iter s
    simp only [Spec.lowest]
    split
    · simp
    · simp
    · simpa using ih _ _

theorem lowest_const (pass : ℕ → σ → Pass σ ρ) (c : ℕ) (hc : ∀ i s m n, pass i s = .go m n → m = c) (fuel : ℕ) :
    ∀ (iter : ℕ) (s : σ), ∀ m ∈ Spec.lowest pass fuel iter s, m = c := by
  induction fuel with
  | zero => intro iter s m hm; simp [Spec.lowest] at hm
  | succ fuel ih =>
    intro iter s m hm
    simp only [Spec.lowest] at hm
    split at hm
    · simp at hm
    · rename_i m' e h
      rw [List.mem_singleton] at hm
      rw [hm]; exact hc _ _ _ _ h
    · rename_i m' s' h
      rcases List.mem_cons.mp hm with hm | hm
      · rw [hm]; exact hc _ _ _ _ h
      · exact ih _ _ _ hm

/-- C96: no restart when fewer than `start_cycle_check_threshold + cycle_check_n_obs` iterations are allowed, nor
when the lowest firm type never changes (as with one firm type, or a forced one). -/
theorem C96_no_cycle (pass : ℕ → σ → Pass σ ρ) (out : σ → ρ) (start nObs fuel : ℕ) (hn : 2 ≤ nObs) (s : σ)
    (h : fuel < start + nObs ∨ ∃ c, ∀ i s m n, pass i s = .go m n → m = c) :
    runCheck pass out start nObs fuel 0 [] s = (runLoop pass out fuel 0 s).map .finished := by
  refine (C96_cycle pass out start nObs fuel hn s).2 ?_
  rintro ⟨i, h1, h2, h3⟩
  rcases h with h | ⟨c, hc⟩
  · have := lowest_length pass fuel 0 s
    omega
  · have hl := lowest_const pass c hc fuel 0 s
    have := h3 i le_rfl (by omega)
    rw [List.getElem?_eq_getElem (by omega), List.getElem?_eq_getElem (by omega),
      hl _ (List.getElem_mem _), hl _ (List.getElem_mem (by omega))] at this
    exact this rfl

/-- Witness: the lowest firm types 0, 0, 1, 0, 1, 1 with the check from iteration 1 on over 3 iterations. -/
example : Spec.Stuck 1 3 [0, 0, 1, 0, 1, 1] :=
  ⟨1, le_rfl, by simp, fun j h1 h2 => by
    have : j = 1 ∨ j = 2 := by omega
    rcases this with rfl | rfl <;> simp⟩

/-- Witness: the types 0, 1, 1, 0, 0, 1, 1 are never stuck over 3 iterations. -/
example : ¬ Spec.Stuck 0 3 [0, 1, 1, 0, 0, 1, 1] := by
  rintro ⟨i, -, h2, h3⟩
  simp only [List.length_cons, List.length_nil] at h2
  have a := h3 i le_rfl (by omega)
  have b := h3 (i + 1) (by omega) (by omega)
  have : i = 0 ∨ i = 1 ∨ i = 2 ∨ i = 3 ∨ i = 4 := by omega
  rcases this with rfl | rfl | rfl | rfl | rfl <;> simp at a b

/-! ## Forcing -/

theorem bestOf_none {M : Type} (fit : ℕ → Py M) (lik : M → ℝ) (ks : List ℕ) : ∀ best : Option M,
    (∀ k ∈ ks, ∃ m, fit k = .ok m) → ∃ r, bestOf fit lik ks best = .ok r ∧ (ks ≠ [] → r ≠ none) ∧
      (best ≠ none → r ≠ none) := by
  induction ks with
  | nil => intro best _; exact ⟨best, rfl, by simp, id⟩
  | cons k ks ih =>
    intro best h
    obtain ⟨m, hm⟩ := h k (by simp)
    obtain ⟨r, hr, -, h2⟩ := ih (some (better lik best m)) fun j hj => h j (by simp [hj])
    refine ⟨r, ?_, fun _ => h2 (by simp), fun _ => h2 (by simp)⟩
    simp only [bestOf, bind, Except.bind, hm]
    exact hr

theorem bestOf_error {M : Type} (fit : ℕ → Py M) (lik : M → ℝ) (ks : List ℕ) (k : ℕ) (ks' : List ℕ) (e : String)
    (hk : fit k = .error e) : ∀ best : Option M,
    (∀ j ∈ ks, ∃ m, fit j = .ok m) → bestOf fit lik (ks ++ k :: ks') best = .error e := by
  induction ks with
  | nil => intro best _; simp only [List.nil_append, bestOf, bind, Except.bind, hk]
  | cons j ks ih =>
    intro best h
    obtain ⟨m, hm⟩ := h j (by simp)
    simp only [List.cons_append, bestOf, bind, Except.bind, hm]
    exact ih _ fun j hj => h j (by simp [hj])

theorem bestOf_spec {M : Type} (fit : ℕ → Py M) (lik : M → ℝ) (n : ℕ) : ∀ (i : ℕ) (best : Option M),
    (∀ b, best = some b → ∃ k < i, fit k = .ok b ∧ ∀ j < i, ∃ mj, fit j = .ok mj ∧ lik mj ≤ lik b ∧
      (j < k → lik mj < lik b)) → (best = none → i = 0) →
    ∀ r, bestOf fit lik (List.range' i n) best = .ok (some r) →
      ∃ k < i + n, fit k = .ok r ∧ ∀ j < i + n, ∃ mj, fit j = .ok mj ∧ lik mj ≤ lik r ∧
        (j < k → lik mj < lik r) := by
  induction n with
  | zero =>
    intro i best hb _ r hr
    simp only [List.range'_zero, bestOf, Except.ok.injEq] at hr
    exact hb r hr
  | succ n ih =>
    intro i best hb hn r hr
    rw [List.range'_succ] at hr
    simp only [bestOf, bind, Except.bind] at hr
    cases hm : fit i with
    | error e => simp only [hm] at hr; cases hr
    | ok m =>
      simp only [hm] at hr
      have := ih (i + 1) (some (better lik best m)) ?_ (by simp) r hr
      · obtain ⟨k, hk, h1, h2⟩ := this
        exact ⟨k, by omega, h1, fun j hj => h2 j (by omega)⟩
      · intro b hbe
        rw [Option.some.injEq] at hbe
        subst hbe
        cases best with
        | none =>
          have hi := hn rfl
          subst hi
          refine ⟨0, by omega, hm, fun j hj => ?_⟩
          have : j = 0 := by omega
          subst this
          exact ⟨m, hm, le_rfl, fun h => absurd h (by omega)⟩
        | some b =>
          obtain ⟨k, hk, h1, h2⟩ := hb b rfl
          unfold better
          simp only
          by_cases hlt : lik b < lik m
          · rw [if_pos hlt]
            refine ⟨i, by omega, hm, fun j hj => ?_⟩
            by_cases hji : j = i
            · subst hji; exact ⟨m, hm, le_rfl, fun h => absurd h (by omega)⟩
            · obtain ⟨mj, a, b', -⟩ := h2 j (by omega)
              exact ⟨mj, a, (lt_of_le_of_lt b' hlt).le, fun _ => lt_of_le_of_lt b' hlt⟩
          · rw [if_neg hlt]
            refine ⟨k, by omega, h1, fun j hj => ?_⟩
            by_cases hji : j = i
            · subst hji; exact ⟨m, hm, not_lt.mp hlt, fun h => absurd h (by omega)⟩
            · exact h2 j (by omega)

/-- C96: forcing the lowest firm type keeps a fit with the highest likelihood among those of all firm types (the
first one when several have it). -/
theorem C96_forced_best {M : Type} (fit : ℕ → Py M) (lik : M → ℝ) (nk : ℕ) (r : M)
    (h : forced fit lik nk = .ok r) :
    ∃ k < nk, fit k = .ok r ∧ ∀ j < nk, ∃ mj, fit j = .ok mj ∧ lik mj ≤ lik r ∧ (j < k → lik mj < lik r) := by
  unfold forced at h
  rw [List.range_eq_range'] at h
  simp only [bind, Except.bind, pure, Except.pure] at h
  cases hb : bestOf fit lik (List.range' 0 nk) none with
  | error e => simp only [hb] at h; cases h
  | ok o =>
    cases o with
    | none => simp only [hb] at h; cases h
    | some m =>
      simp only [hb, Except.ok.injEq] at h
      subst h
      simpa using bestOf_spec fit lik nk 0 none (by simp) (fun _ => rfl) m hb

/-- C96: it succeeds as soon as all the fits do, and otherwise raises what the first failing fit raises. -/
theorem C96_forced_ok {M : Type} (fit : ℕ → Py M) (lik : M → ℝ) (nk : ℕ) (hk : 1 ≤ nk) :
    ((∀ k < nk, ∃ m, fit k = .ok m) → ∃ r, forced fit lik nk = .ok r) ∧
    ∀ k < nk, ∀ e, fit k = .error e → (∀ j < k, ∃ m, fit j = .ok m) → forced fit lik nk = .error e := by
  constructor
  · intro h
    obtain ⟨r, hr, h1, -⟩ := bestOf_none fit lik (List.range nk) none fun k hk => h k (List.mem_range.mp hk)
    have := h1 (by simp; omega)
    obtain ⟨m, rfl⟩ := Option.ne_none_iff_exists'.mp this
    exact ⟨m, by unfold forced; simp only [bind, Except.bind, hr]; rfl⟩
  · intro k hk e he hj
    have hr : List.range nk = List.range k ++ k :: List.range' (k + 1) (nk - k - 1) := by
      rw [List.range_eq_range', List.range_eq_range', ← List.range'_succ, show nk - k - 1 + 1 = nk - k by omega]
      have := List.range'_append (s := 0) (m := k) (n := nk - k) (step := 1)
      simp only [Nat.zero_add, Nat.one_mul] at this
      rw [this]; congr 1; omega
    unfold forced
    rw [hr]
    simp only [bind, Except.bind, bestOf_error fit lik (List.range k) k _ e he none
      fun j hj' => hj j (List.mem_range.mp hj')]

/-! ## `fit_movers` -/

/-- C96: `fit_movers` with `force_min_firm_type`: all firm types are tried from the same (sorted) initial values, and
what is stored comes from the one with the highest final likelihood. -/
theorem C96_fit_movers_forced (e : Env ni nl nk) (nnm : Bool) (p : AllParams ni nl nk) (f : Fitted ni nl nk)
    (h : (fitMoversAll e true false nnm p).1 = .ok f) :
    let p0 := e.sort { p with pk0 := fun _ _ => 1 / (nl : ℝ) }
    ∃ k < nk, ∃ r, e.em (some k) p0 = .ok (.finished (r, f.liks)) ∧
      f.p.base = (e.tidy { r with pk0 := p0.pk0 }).base ∧ f.p.cs = (e.tidy { r with pk0 := p0.pk0 }).cs ∧
      f.p.pk1 = (e.tidy { r with pk0 := p0.pk0 }).pk1 ∧ (nnm = true → f.p.NNm = e.counts) ∧
      ∀ j < nk, ∃ rj lj, e.em (some j) p0 = .ok (.finished (rj, lj)) ∧ lj.getLastD 0 ≤ f.liks.getLastD 0 ∧
        (j < k → lj.getLastD 0 < f.liks.getLastD 0) := by
  intro p0
  have fitK_ok : ∀ k g, fitK e k { p with pk0 := fun _ _ => 1 / (nl : ℝ) } = .ok g →
      ∃ r, e.em (some k) p0 = .ok (.finished (r, g.liks)) ∧ g.p = e.tidy { r with pk0 := p0.pk0 } := by
    intro k g hg
    unfold fitK at hg
    simp only [bind, Except.bind, pure, Except.pure] at hg
    rw [show e.sort { p with pk0 := fun _ _ => 1 / (nl : ℝ) } = p0 from rfl] at hg
    cases hem : e.em (some k) p0 with
    | error x => simp only [hem] at hg; cases hg
    | ok o =>
      cases o with
      | stuck => simp only [hem] at hg; cases hg
      | finished rl =>
        obtain ⟨r, l⟩ := rl
        simp only [hem, Except.ok.injEq] at hg
        subst hg
        exact ⟨r, rfl, rfl⟩
  unfold fitMoversAll fitForced at h
  simp only [if_true, Bool.false_eq_true, if_false, bind, Except.bind, pure, Except.pure] at h
  cases hf : forced (fun k => fitK e k { p with pk0 := fun _ _ => 1 / (nl : ℝ) }) Fitted.lik nk with
  | error x => simp only [hf] at h; cases h
  | ok b =>
    simp only [hf, Except.ok.injEq] at h
    subst h
    obtain ⟨k, hk, h1, h2⟩ := C96_forced_best _ _ _ _ hf
    obtain ⟨r, hr, hb⟩ := fitK_ok k b h1
    refine ⟨k, hk, r, hr, by rw [← hb], by rw [← hb], by rw [← hb], fun hn => by simp [hn], fun j hj => ?_⟩
    obtain ⟨mj, a, c, g⟩ := h2 j hj
    obtain ⟨rj, hrj, -⟩ := fitK_ok j mj a
    exact ⟨rj, mj.liks, hrj, c, g⟩

/-- Two results that agree in all that `fit_movers` stores except `pk0`. -/
def Spec.SameFit (x y : Py (Fitted ni nl nk)) : Prop :=
  match x, y with
  | .error a, .error b => a = b
  | .ok f, .ok g => f.liks = g.liks ∧ f.p.base = g.p.base ∧ f.p.cs = g.p.cs ∧ f.p.pk1 = g.p.pk1 ∧
      f.p.NNm = g.p.NNm ∧ f.p.NNs = g.p.NNs
  | _, _ => False

theorem fitForced_pk0 (e : Env ni nl nk) (rq nnm : Bool) (p : AllParams ni nl nk) (z : Fin nk → Fin nl → ℝ) :
    Spec.SameFit (fitForced e rq nnm { p with pk0 := z }) (fitForced e rq nnm p) := by
  unfold fitForced
  cases rq with
  | true => simp [Spec.SameFit]
  | false =>
    simp only [Bool.false_eq_true, if_false, bind, Except.bind, pure, Except.pure]
    cases forced (fun k => fitK e k { p with pk0 := fun _ _ => 1 / (nl : ℝ) }) Fitted.lik nk with
    | error x => simp [Spec.SameFit]
    | ok b => simp [Spec.SameFit]

/-- C96 (missing: the setting is also left off when the restarted estimation raises; false, `C96_setting_left`): an
estimation that gets stuck stores what `force_min_firm_type` would have given from the start, from the
initial guesses and not from the values of the cycle, and leaves the setting off. -/
theorem C96_restart_partial (e : Env ni nl nk) (rq nnm : Bool) (p : AllParams ni nl nk)
    (h : e.em none (e.sort p) = .ok .stuck) :
    Spec.SameFit (fitMoversAll e false rq nnm p).1 (fitMoversAll e true rq nnm p).1 ∧
    ((∃ f, (fitMoversAll e false rq nnm p).1 = .ok f) → (fitMoversAll e false rq nnm p).2 = false) := by
  have hs := fitForced_pk0 e rq nnm p (e.sort p).pk0
  unfold fitMoversAll
  simp only [Bool.false_eq_true, if_false, if_true, h]
  cases hf : fitForced e rq nnm { p with pk0 := (e.sort p).pk0 } with
  | error x =>
    rw [hf] at hs
    exact ⟨hs, fun ⟨f, hf⟩ => by cases hf⟩
  | ok r =>
    rw [hf] at hs
    exact ⟨hs, fun _ => rfl⟩

/-- C96: when the restarted estimation raises, `force_min_firm_type` stays switched on in the model, so the next call
of `fit_movers` forces the lowest firm type although the user never asked for it. -/
theorem C96_setting_left (e : Env ni nl nk) (rq nnm : Bool) (p : AllParams ni nl nk)
    (h : e.em none (e.sort p) = .ok .stuck) (k : ℕ) (hk : k < nk) (x : String)
    (hx : rq = false) (herr : e.em (some k) (e.sort { p with pk0 := fun _ _ => 1 / (nl : ℝ) }) = .error x) :
    (∃ y, (fitMoversAll e false rq nnm p).1 = .error y) ∧ (fitMoversAll e false rq nnm p).2 = true := by
  subst hx
  have hf : ∃ y, fitForced e false nnm { p with pk0 := (e.sort p).pk0 } = .error y := by
    cases hb : forced (fun k => fitK e k { p with pk0 := fun _ _ => 1 / (nl : ℝ) }) Fitted.lik nk with
    | error y =>
      refine ⟨y, ?_⟩
      unfold fitForced
      simp only [Bool.false_eq_true, if_false, bind, Except.bind, hb]
    | ok b =>
      obtain ⟨_, _, _, h2⟩ := C96_forced_best _ _ _ _ hb
      obtain ⟨m, hm, -⟩ := h2 k hk
      unfold fitK at hm
      simp only [bind, Except.bind, herr] at hm
      cases hm
  obtain ⟨y, hy⟩ := hf
  unfold fitMoversAll
  simp only [Bool.false_eq_true, if_false, h, hy]
  exact ⟨⟨y, rfl⟩, trivial⟩

/-- C96: posterior probabilities cannot be asked for with forcing. -/
theorem C96_return_qi (e : Env ni nl nk) (nnm : Bool) (p : AllParams ni nl nk) :
    (fitMoversAll e true true nnm p).1 = .error "ValueError" := rfl

/-- C96: without forcing and without a cycle, `pk0` is put into the order of worker and firm types of the other
parameters; with forcing it is left in the old order although the other parameters are sorted. -/
theorem C96_pk0_left (e : Env ni nl nk) (rq nnm : Bool) (p : AllParams ni nl nk) (f : Fitted ni nl nk)
    (h : (fitMoversAll e true rq nnm p).1 = .ok f) : f.p.pk0 = p.pk0 := by
  unfold fitMoversAll fitForced at h
  simp only [if_true, bind, Except.bind, pure, Except.pure] at h
  cases rq with
  | true => simp at h
  | false =>
    simp only [Bool.false_eq_true, if_false] at h
    cases hf : forced (fun k => fitK e k { p with pk0 := fun _ _ => 1 / (nl : ℝ) }) Fitted.lik nk with
    | error x => simp only [hf] at h; cases h
    | ok b =>
      simp only [hf, Except.ok.injEq] at h
      subst h
      rfl

theorem order_two (a : Argsort) (ha : a.Right) (v : Fin 2 → ℝ) :
    (v 1 < v 0 → a.order v 0 = 1 ∧ a.order v 1 = 0) ∧ (v 0 < v 1 → a.order v 0 = 0 ∧ a.order v 1 = 1) := by
  have hm : v (a.order v 0) ≤ v (a.order v 1) := ha 2 v (by decide : (0 : Fin 2) ≤ 1)
  have hinj : a.order v 0 ≠ a.order v 1 := fun h => by
    have := (a.order v).injective h
    exact absurd this (by decide)
  have two : ∀ x : Fin 2, x = 0 ∨ x = 1 := by decide
  constructor
  · intro h
    rcases two (a.order v 0) with h0 | h0 <;> rcases two (a.order v 1) with h1 | h1
    · exact absurd (h0.trans h1.symm) hinj
    · rw [h0, h1] at hm; exact absurd hm (not_le.mpr h)
    · exact ⟨h0, h1⟩
    · exact absurd (h0.trans h1.symm) hinj
  · intro h
    rcases two (a.order v 0) with h0 | h0 <;> rcases two (a.order v 1) with h1 | h1
    · exact absurd (h0.trans h1.symm) hinj
    · exact ⟨h0, h1⟩
    · rw [h0, h1] at hm; exact absurd hm (not_le.mpr h)
    · exact absurd (h0.trans h1.symm) hinj

/-- Two worker types and one firm type; the first worker type has the higher mean, and all stayers are of it. -/
noncomputable def swapped : AllParams 1 2 1 :=
  ⟨⟨fun _ l _ => if l = 0 then 1 else 0, fun _ _ _ => 1⟩, [], fun _ _ => 1, fun _ l => if l = 0 then 1 else 0,
    fun _ _ => 0, fun _ => 0⟩

/-- An environment in which nothing is updated. -/
noncomputable def still (a : Argsort) : Env 1 2 1 :=
  ⟨fun _ p => .ok (.finished (p, [0])), id, a, .first, false, false, fun _ _ => 0⟩

/-- C96: so after a forced fit `pk0` can give the worker type with the high mean the share of the one with the low
mean; without forcing it does not. -/
theorem C96_pk0_mismatch (a : Argsort) (ha : a.Right) :
    swapped.base.A 0 0 0 = 1 ∧ swapped.pk0 0 0 = 1 ∧ swapped.pk0 0 1 = 0 ∧
    (∃ f, (fitMoversAll (still a) true false false swapped).1 = .ok f ∧ f.p.base.A 0 1 0 = 1 ∧ f.p.pk0 0 1 = 0) ∧
    (∃ g, (fitMoversAll (still a) false false false swapped).1 = .ok g ∧ g.p.base.A 0 1 0 = 1 ∧ g.p.pk0 0 1 = 1) := by
  have v1 : ∀ z, workerMean (primaryMean .first ({ swapped with pk0 := z } : AllParams 1 2 1).base.A) =
      fun l => if l = 0 then 1 else 0 := fun z => by
    funext l
    simp [workerMean, primaryMean, swapped]
  have o1 := (order_two a ha (fun l => if l = 0 then 1 else 0)).1 (by simp)
  have s1 : ∀ z : Fin 1 → Fin 2 → ℝ, (still a).sort ({ swapped with pk0 := z } : AllParams 1 2 1) =
      { swapped with
        base := ⟨fun _ l _ => if l = 0 then 0 else 1, fun _ _ _ => 1⟩
        pk0 := fun k l => if l = 0 then z k 1 else z k 0 } := fun z => by
    unfold Env.sort sortParams
    simp only [still, Bool.false_eq_true, if_false]
    rw [v1]
    unfold sortWorkers orderOf
    simp only [Bool.false_eq_true, if_false]
    simp only [swapped, AllParams.mk.injEq, List.map_nil, and_true, true_and, Base.mk.injEq]
    refine ⟨?_, ?_⟩
    · funext t l k
      fin_cases l
      · simp [o1]
      · simp [o1]
    · funext k l
      fin_cases l
      · simp [o1]
      · simp [o1]
  have v2 : ∀ z : Fin 1 → Fin 2 → ℝ, workerMean (primaryMean .first ({ swapped with
        base := ⟨fun _ l _ => if l = 0 then 0 else 1, fun _ _ _ => 1⟩
        pk0 := z } : AllParams 1 2 1).base.A) = fun l => if l = 0 then 0 else 1 := fun z => by
    funext l
    simp [workerMean, primaryMean]
  have o2 := (order_two a ha (fun l => if l = 0 then 0 else 1)).2 (by simp)
  have s2 : ∀ z : Fin 1 → Fin 2 → ℝ, (still a).sort ({ swapped with
        base := ⟨fun _ l _ => if l = 0 then 0 else 1, fun _ _ _ => 1⟩
        pk0 := z } : AllParams 1 2 1) = { swapped with
        base := ⟨fun _ l _ => if l = 0 then 0 else 1, fun _ _ _ => 1⟩
        pk0 := z } := fun z => by
    unfold Env.sort sortParams
    simp only [still, Bool.false_eq_true, if_false]
    rw [v2 z]
    unfold sortWorkers orderOf
    simp only [Bool.false_eq_true, if_false]
    simp only [swapped, AllParams.mk.injEq, List.map_nil, and_true, true_and, Base.mk.injEq]
    refine ⟨?_, ?_⟩
    · funext t l k
      fin_cases l
      · simp [o2]
      · simp [o2]
    · funext k l
      fin_cases l
      · simp [o2]
      · simp [o2]
  refine ⟨by simp [swapped], by simp [swapped], by simp [swapped], ?_, ?_⟩
  · obtain ⟨r, hr⟩ := (C96_forced_ok (fun k => fitK (still a) k { swapped with pk0 := fun _ _ => 1 / ((2 : ℕ) : ℝ) })
      Fitted.lik 1 le_rfl).1 fun k _ => ⟨_, rfl⟩
    have hf : (fitMoversAll (still a) true false false swapped).1 = .ok ⟨{ r.p with
        pk0 := swapped.pk0, NNm := swapped.NNm, NNs := swapped.NNs }, r.liks⟩ := by
      unfold fitMoversAll fitForced
      simp only [if_true, Bool.false_eq_true, if_false, bind, Except.bind, pure, Except.pure, hr]
    refine ⟨_, hf, ?_, by simp [swapped]⟩
    obtain ⟨k, hk, r', h1, h2, -⟩ := C96_fit_movers_forced (still a) false swapped _ hf
    have hr' : r' = (still a).sort { swapped with pk0 := fun _ _ => 1 / ((2 : ℕ) : ℝ) } := by
      simp only [still, Except.ok.injEq, Outcome.finished.injEq, Prod.mk.injEq] at h1
      exact h1.1.symm
    rw [h2, hr', s1]
    unfold Env.tidy
    rw [show (still a).norm = id from rfl]
    simp only [id]
    have := s2 fun _ _ => 1 / ((2 : ℕ) : ℝ)
    simp only [ite_self] at this ⊢
    rw [this]
    simp
  · refine ⟨_, rfl, ?_, ?_⟩
    all_goals
      have e1 := s1 swapped.pk0
      change (still a).sort swapped = _ at e1
      simp only [e1]
      unfold Env.tidy
      rw [show (still a).norm = id from rfl]
      simp only [id]
      have := s2 fun k l => if l = 0 then swapped.pk0 k 1 else swapped.pk0 k 0
      simp only [this]
      simp [swapped]

/-- Witness for `C96_restart_partial` and `C96_setting_left`: an estimation that is stuck and whose second forced fit
fails. -/
example (a : Argsort) : ∃ (e : Env 1 2 2) (p : AllParams 1 2 2), e.em none (e.sort p) = .ok .stuck ∧
    e.em (some 1) (e.sort { p with pk0 := fun _ _ => 1 / ((2 : ℕ) : ℝ) }) = .error "LinAlgError" ∧
    (fitMoversAll e false false true p).2 = true := by
  refine ⟨⟨fun k p => match k with
      | none => .ok .stuck
      | some 1 => .error "LinAlgError"
      | some _ => .ok (.finished (p, [0])), id, a, .first, true, false, fun _ _ => 0⟩,
    ⟨⟨fun _ _ _ => 0, fun _ _ _ => 1⟩, [], fun _ _ => 1, fun _ _ => 1, fun _ _ => 0, fun _ => 0⟩, rfl, rfl, ?_⟩
  exact (C96_setting_left _ false true _ rfl 1 (by norm_num) "LinAlgError" rfl rfl).2

/-! ## The forced type is the lowest -/

theorem mstepC_feasible (d : Data ni nk) (q : Fin ni → Fin nl → ℝ) (b : Base nl nk) (ks : List (Col ni nl))
    (Yadj : Fin 2 → Fin ni → ℝ) (updS : Bool) (sA sS : Solver) (F : (Fin 2 → Fin nl → Fin nk → ℝ) → Prop)
    (hs : ∀ P q, ∃ x, sA P q = .ok (some x) ∧ F (unflatten nl nk x))
    (r : Base nl nk × List (Col ni nl) × (Fin 2 → Fin ni → ℝ))
    (h : mstepC d q b ks Yadj true updS sA sS = .ok r) : F r.1.A := by
  unfold mstepC at h
  simp only [Bool.true_or, if_true, bind, Except.bind] at h
  cases h1 : assemble d fun t l i => wts d b.S q t l i with
  | error e => simp only [h1] at h; cases h
  | ok X =>
    simp only [h1] at h
    cases h2 : assemble d fun t l i => wts d b.S q t l i * (Yadj t i - sumByA (ks.map (·.c)) l t i) with
    | error e => simp only [h2] at h; cases h
    | ok Y =>
      simp only [h2] at h
      have hF : F (solveA sA X Y b.A) := by
        obtain ⟨x, hx, hFx⟩ := hs X fun p => - Y p
        unfold solveA
        rw [hx]
        exact hFx
      unfold mstepRest at h
      simp only [bind, Except.bind, pure, Except.pure] at h
      cases h3 : colsA d q (solveA sA X Y b.A) true [] ks Yadj with
      | error e => simp only [h3] at h; cases h
      | ok c =>
        simp only [h3] at h
        cases updS with
        | false => simp at h
        | true =>
          simp only [if_true] at h
          split at h
          · cases h
          · split at h
            · cases h
            · simp only [Except.ok.injEq] at h
              rw [← h]
              exact hF

theorem runLoop_inv (pass : ℕ → σ → Pass σ ρ) (out : σ → ρ) (I : σ → Prop) (J : ρ → Prop)
    (hd : ∀ i s r, I s → pass i s = .done r → J r) (hg : ∀ i s m s', pass i s = .go m (.ok s') → I s')
    (ho : ∀ s, I s → J (out s)) (fuel : ℕ) : ∀ (iter : ℕ) (s : σ) (r : ρ), I s →
      runLoop pass out fuel iter s = .ok r → J r := by
  induction fuel with
  | zero => intro iter s r hi h; cases h; exact ho s hi
  | succ fuel ih =>
    intro iter s r hi h
    simp only [runLoop] at h
    cases hp : pass iter s with
    | done r' => rw [hp] at h; cases h; exact hd _ _ _ hi hp
    | go m n =>
      rw [hp] at h
      cases n with
      | error e => cases h
      | ok s' => exact ih _ _ _ (hg _ _ _ _ hp) h

/-- C96: a fit with the type `k` forced ends with means in which the constraints generated for `k` hold; when they
say that `k` is lowest in the primary period by at least `md` (`C09`, `C58`), it is. -/
theorem C96_forced_lowest [NeZero nl] (d : Data ni nk) (o : MoverOpts) (sA : ℕ → Solver) (sS : Solver) (pp : Primary)
    (md : ℝ) (k : Fin nk) (fuel : ℕ) (s s' : StateC ni nl nk) (hA : o.updA = true)
    (hs : ∀ P q, ∃ x, sA k P q = .ok (some x) ∧ ∀ g ≠ k,
      firmMean (primaryMean pp (unflatten nl nk x)) k + md ≤ firmMean (primaryMean pp (unflatten nl nk x)) g)
    (h : loopC d o sA sS (fun _ => k) (fuel + 1) true none k s = .ok s') :
    ∀ g ≠ k, firmMean (primaryMean pp s'.base.A) k + md ≤ firmMean (primaryMean pp s'.base.A) g := by
  have e := loopC_eq_runLoop d o sA sS (fun _ => k.val) (fuel + 1) 0 none k.val s
  rw [show ((0 : ℕ) == 0) = true from rfl] at e
  rw [e] at h
  set F : (Fin 2 → Fin nl → Fin nk → ℝ) → Prop := fun A =>
    ∀ g ≠ k, firmMean (primaryMean pp A) k + md ≤ firmMean (primaryMean pp A) g with hF
  have hgo : ∀ i x m x', passC d o sA sS (fun _ => k.val) i x = .go m (.ok x') → F x'.2.2.base.A := by
    intro i x m x' hx
    unfold passC at hx
    simp only at hx
    generalize stop _ x.1 o.threshold _ = b at hx
    cases b with
    | true => cases hx
    | false =>
      simp only [Bool.false_eq_true, if_false, bind, Except.bind, pure, Except.pure, Pass.go.injEq] at hx
      obtain ⟨-, hx⟩ := hx
      split at hx
      · cases hx
      · split at hx
        · cases hx
        · rename_i r hr
          simp only [Except.ok.injEq] at hx
          rw [← hx]
          rw [hA] at hr
          exact mstepC_feasible d _ _ _ _ _ _ _ F hs _ hr
  have hstart : passC d o sA sS (fun _ => k.val) 0 (none, k.val, s) ≠ .done s' := by
    unfold passC
    simp [stop]
  simp only [runLoop] at h
  cases hp : passC d o sA sS (fun _ => k.val) 0 (none, k.val, s) with
  | done r =>
    rw [hp] at h
    cases h
    exact absurd hp hstart
  | go m n =>
    rw [hp] at h
    cases n with
    | error e => cases h
    | ok x =>
      refine runLoop_inv (passC d o sA sS (fun _ => k.val)) (·.2.2) (fun x => F x.2.2.base.A) (fun s => F s.base.A)
        ?_ hgo (fun _ h => h) fuel 1 x s' (hgo _ _ _ _ hp) h
      intro i x r hi hx
      unfold passC at hx
      simp only at hx
      generalize stop _ x.1 o.threshold _ = b at hx
      cases b with
      | true => cases hx; exact hi
      | false => cases hx

/-- Witness: one worker type and two firm types; a solver that always answers with the first firm type lower by 1. -/
example (P q : ℕ → ℝ) : ∃ x, (fun _ _ => .ok (some fun p => if p % 2 = 0 then 0 else 1) : Solver) P q = .ok (some x) ∧
    ∀ g ≠ (0 : Fin 2), firmMean (primaryMean .all (unflatten 1 2 x)) 0 + 1 ≤
      firmMean (primaryMean .all (unflatten 1 2 x)) g := by
  refine ⟨_, rfl, fun g hg => ?_⟩
  have : g = 1 := by omega
  subst this
  simp [firmMean, primaryMean, unflatten]

end Pytwoway.BLM

namespace Pytwoway.Dynamic

open Pytwoway.BLM

variable {ni nl nk : ℕ}

/-- C96: `force_min_firm_type` cannot be used with the dynamic model: it always raises `TypeError` (or `ValueError`
with `return_qi`), whatever the data. -/
theorem C96_dynamic_forced {M : Type} (returnQi : Bool) (fit : ℕ → Py M) (lik : M → ℝ) (nk : ℕ) (hk : 1 ≤ nk) :
    fitForcedDyn returnQi fit lik nk = .error (if returnQi then "ValueError" else "TypeError") := by
  unfold fitForcedDyn
  cases returnQi with
  | true => rfl
  | false =>
    simp only [Bool.false_eq_true, if_false]
    exact (C96_forced_ok (fun k => do construct 1; fit k) lik nk hk).2 0 hk _ rfl (fun j hj => absurd hj (by omega))

theorem cycleCheck_eq (c : CycOpts) (hf : c.force = false) (iter m : ℕ) (mins : List ℕ) :
    cycleCheck c iter m mins = if (cycCheck c.start c.nObs iter m mins).1 then .error "TypeError"
      else .ok (cycCheck c.start c.nObs iter m mins).2 := by
  unfold cycleCheck cycCheck
  simp only [hf, and_true]
  by_cases h1 : c.start ≤ iter
  · rw [if_pos h1, if_pos h1]
    by_cases h2 : c.nObs ≤ (mins ++ [m]).length
    · rw [if_pos h2, if_pos h2]
    · rw [if_neg h2, if_neg h2]
      rfl
  · rw [if_neg h1, if_neg h1]
    rfl

theorem loopMvC_eq [NeZero nl] (d : DData ni nk) (o : MvOpts) (cyc : CycOpts) (hf : cyc.force = false)
    (sA : ℕ → QP (Fin nl × JM true true nk)) (sS : QP (Fin nl × JM true true nk)) (minType : DBase nl nk → ℕ) (fuel : ℕ) :
    ∀ (iter : ℕ) (prev : Option ℝ) (prevMin : ℕ) (mins : List ℕ) (s : CState nl nk ni),
    loopMvC d o cyc sA sS minType fuel iter prev prevMin mins s =
      (runCheck (passMvC d o sA sS minType) (·.2.2) cyc.start cyc.nObs fuel iter mins (prev, prevMin, s)).bind
        fun r => match r with
          | .finished s' => .ok s'
          | .stuck => .error "TypeError" := by
  induction fuel with
  | zero => intros; rfl
  | succ fuel ih =>
    intro iter prev prevMin mins s
    unfold loopMvC runCheck passMvC
    simp only
    generalize (close _ prev o.thresholdMovers && _) = b
    cases b with
    | true => rfl
    | false =>
      simp only [Bool.false_eq_true, if_false, bind, Except.bind, pure, Except.pure, cycleCheck_eq cyc hf]
      by_cases hc : (cycCheck cyc.start cyc.nObs iter (minType s.base) mins).1 = true
      · simp only [if_pos hc]
      · simp only [if_neg hc]
        generalize stepMvC d o (sA _) sS _ _ _ = x
        cases x with
        | error e => rfl
        | ok s'' =>
          simp only
          exact ih _ _ _ _ _

/-- C96: the dynamic model raises `TypeError` exactly where the static model restarts: when the lowest firm type
changes in each of `cycle_check_n_obs` consecutive iterations from `start_cycle_check_threshold` on; otherwise the
loop gives what it gives without the check. -/
theorem C96_dynamic_cycle [NeZero nl] (d : DData ni nk) (o : MvOpts) (cyc : CycOpts) (hf : cyc.force = false)
    (hn : 2 ≤ cyc.nObs) (sA : ℕ → QP (Fin nl × JM true true nk)) (sS : QP (Fin nl × JM true true nk))
    (minType : DBase nl nk → ℕ) (fuel : ℕ)
    (prev : Option ℝ) (prevMin : ℕ) (s : CState nl nk ni) :
    let low := Spec.lowest (passMvC d o sA sS minType) fuel 0 (prev, prevMin, s)
    (Spec.Stuck cyc.start cyc.nObs low →
      loopMvC d o cyc sA sS minType fuel 0 prev prevMin [] s = .error "TypeError") ∧
    (¬ Spec.Stuck cyc.start cyc.nObs low → loopMvC d o cyc sA sS minType fuel 0 prev prevMin [] s =
      runLoop (passMvC d o sA sS minType) (·.2.2) fuel 0 (prev, prevMin, s)) := by
  intro low
  have h := C96_cycle (passMvC d o sA sS minType) (·.2.2) cyc.start cyc.nObs fuel hn (prev, prevMin, s)
  constructor
  · intro hst
    rw [loopMvC_eq d o cyc hf sA sS minType, h.1 hst]
    rfl
  · intro hst
    rw [loopMvC_eq d o cyc hf sA sS minType, h.2 hst]
    generalize runLoop _ _ _ _ _ = r
    cases r with
    | error e => rfl
    | ok r => rfl

end Pytwoway.Dynamic
