import Verif.BLM.Estim

/-! # The estimators with several starting values: theorems of C98 -/

namespace Pytwoway.Estim

variable {M σ α : Type}

/-! ## Lemmas on runs -/

theorem seqRuns_isolated (f : ℕ → σ → Py α × σ) (h : Spec.Isolated f) (is : List ℕ) (s : σ) :
    seqRuns f is s = (is.mapM (m := Except String) fun i => (f i s).1, s) := by
  induction is with
  | nil => rfl
  | cons i is ih =>
    rw [seqRuns, List.mapM_cons]
    have hi := h i s
    rcases hf : f i s with ⟨e | a, s'⟩
    · rw [hf] at hi; simp only at hi; subst hi; rfl
    · rw [hf] at hi; simp only at hi; subst hi
      simp only [ih]
      generalize List.mapM (m := Except String) (fun i => (f i s').1) is = x
      cases x <;> rfl

theorem poolSteps_isolated (f : ℕ → σ → Py α × σ) (h : Spec.Isolated f) (sched : List (ℕ × ℕ)) (s : σ)
    (done : ℕ → Option (Py α)) (i : ℕ) :
    poolSteps f sched (fun _ => s) done i = if i ∈ sched.map Prod.snd then some (f i s).1 else done i := by
  induction sched generalizing done with
  | nil => simp [poolSteps]
  | cons x rest ih =>
    obtain ⟨w, j⟩ := x
    rw [poolSteps]
    have : Function.update (fun _ : ℕ => s) w (f j s).2 = fun _ => s := by
      rw [h j s]; exact Function.update_eq_self w (fun _ : ℕ => s)
    rw [this, ih]
    by_cases hi : i ∈ rest.map Prod.snd
    · simp only [List.map_cons, List.mem_cons, hi, or_true, if_true]
    · simp only [List.map_cons, List.mem_cons, hi, or_false, if_false]
      by_cases hij : i = j
      · subst hij; simp
      · simp [hij]

theorem gather_eq (done : ℕ → Option (Py α)) (g : ℕ → Py α) (is : List ℕ) (h : ∀ i ∈ is, done i = some (g i)) :
    gather done is = is.mapM (m := Except String) g := by
  induction is with
  | nil => rfl
  | cons i is ih =>
    rw [gather, List.mapM_cons, h i (by simp), ih fun j hj => h j (List.mem_cons_of_mem _ hj)]
    generalize List.mapM (m := Except String) g is = y
    rcases g i with e | a
    · rfl
    · cases y <;> rfl

theorem imap_isolated (f : ℕ → σ → Py α × σ) (h : Spec.Isolated f) (n : ℕ) (sched : List (ℕ × ℕ))
    (hc : Spec.Complete n sched) (s : σ) :
    imap f n sched s = (List.range n).mapM (m := Except String) fun i => (f i s).1 := by
  refine gather_eq _ _ _ fun i hi => ?_
  rw [poolSteps_isolated f h, if_pos (hc.mem_iff.mpr hi)]

theorem firstError_isolated (f : ℕ → σ → Py α × σ) (h : Spec.Isolated f) (sched : List (ℕ × ℕ)) (s : σ) :
    (firstError f sched (fun _ => s) = none ∧ ∀ i ∈ sched.map Prod.snd, ∃ a, (f i s).1 = .ok a) ∨
      ∃ e i, firstError f sched (fun _ => s) = some e ∧ i ∈ sched.map Prod.snd ∧ (f i s).1 = .error e := by
  induction sched with
  | nil => exact Or.inl ⟨rfl, by simp⟩
  | cons x rest ih =>
    obtain ⟨w, j⟩ := x
    rw [firstError]
    have hu : Function.update (fun _ : ℕ => s) w (f j s).2 = fun _ => s := by
      rw [h j s]; exact Function.update_eq_self w (fun _ : ℕ => s)
    rcases hj : (f j s).1 with e | a
    · exact Or.inr ⟨e, j, rfl, by simp, hj⟩
    · simp only [hu]
      rcases ih with ⟨h1, h2⟩ | ⟨e, i, h1, h2, h3⟩
      · refine Or.inl ⟨h1, fun i hi => ?_⟩
        simp only [List.map_cons, List.mem_cons] at hi
        rcases hi with rfl | hi
        · exact ⟨a, hj⟩
        · exact h2 i hi
      · exact Or.inr ⟨e, i, h1, by simp only [List.map_cons, List.mem_cons, h2, or_true], h3⟩

theorem mapM_ok (g : ℕ → Py α) (is : List ℕ) (as : List α) (h : is.mapM (m := Except String) g = .ok as) :
    as.length = is.length ∧ ∀ i ∈ is, ∃ a, g i = .ok a := by
  induction is generalizing as with
  | nil => cases h; simp
  | cons i is ih =>
    rw [List.mapM_cons] at h
    rcases hg : g i with e | a
    · rw [hg] at h; cases h
    · rw [hg] at h
      rcases hr : is.mapM (m := Except String) g with e | bs
      · rw [hr] at h; cases h
      · rw [hr] at h; cases h
        obtain ⟨h1, h2⟩ := ih bs hr
        refine ⟨by simp [h1], fun j hj => ?_⟩
        rcases List.mem_cons.mp hj with rfl | hj
        · exact ⟨a, hg⟩
        · exact h2 j hj

theorem mapM_append_ok (g : ℕ → Py α) (is js : List ℕ) (as : List α)
    (h : (is ++ js).mapM (m := Except String) g = .ok as) :
    ∃ as₁ as₂, as = as₁ ++ as₂ ∧ is.mapM (m := Except String) g = .ok as₁ := by
  induction is generalizing as with
  | nil => exact ⟨[], as, rfl, rfl⟩
  | cons i is ih =>
    rw [List.cons_append, List.mapM_cons] at h
    rw [List.mapM_cons]
    rcases hg : g i with e | a
    · rw [hg] at h; cases h
    · rw [hg] at h
      rcases hr : (is ++ js).mapM (m := Except String) g with e | bs
      · rw [hr] at h; cases h
      · rw [hr] at h; cases h
        obtain ⟨a1, a2, e1, e2⟩ := ih bs hr
        exact ⟨a :: a1, a2, by simp [e1], by rw [e2]; rfl⟩

/-! ## Lemmas on sorting and recording -/

theorem sortDesc_perm (key : α → ℝ) (l : List α) : (sortDesc key l).Perm l := List.mergeSort_perm _ _

theorem sortDesc_pairwise (key : α → ℝ) (l : List α) : (sortDesc key l).Pairwise fun a b => key b ≤ key a := by
  have := List.pairwise_mergeSort (le := fun a b : α => decide (key b ≤ key a))
    (fun a b c h1 h2 => by simp only [decide_eq_true_eq] at *; exact le_trans h2 h1)
    (fun a b => by simp only [Bool.or_eq_true, decide_eq_true_eq]; exact le_total _ _) l
  simpa [sortDesc] using this

theorem sortDesc_eq (key : α → ℝ) (l l' : List α) (hp : l.Perm l') (hs : l'.Pairwise fun a b => key b < key a) :
    sortDesc key l = l' := by
  refine List.Perm.eq_of_pairwise (le := fun a b => key b ≤ key a) (fun a b ha hb h1 h2 => ?_)
    (sortDesc_pairwise key l) (hs.imp fun h => h.le) ((sortDesc_perm key l).trans hp)
  have ha' : a ∈ l' := hp.mem_iff.mp ((sortDesc_perm key l).mem_iff.mp ha)
  have e := le_antisymm h1 h2
  have hinj : ∀ (l' : List α), l'.Pairwise (fun a b => key b < key a) → ∀ a ∈ l', ∀ b ∈ l', key a = key b → a = b := by
    intro l' hs
    induction l' with
    | nil => intro a ha; cases ha
    | cons x xs ih =>
      rw [List.pairwise_cons] at hs
      intro a ha b hb hab
      rcases List.mem_cons.mp ha with ha1 | ha1 <;> rcases List.mem_cons.mp hb with hb1 | hb1
      · rw [ha1, hb1]
      · rw [ha1] at hab; exact absurd hab (hs.1 b hb1).ne'
      · rw [hb1] at hab; exact absurd hab (hs.1 a ha1).ne
      · exact ih hs.2 a ha1 b hb1 hab
  exact hinj l' hs a ha' b hb e.symm

/-- An array of length `n` whose first entries are `xs`. -/
def pad (n : ℕ) (xs : List ℝ) : List ℝ := xs ++ List.replicate (n - xs.length) 0

theorem pad_length (n : ℕ) (xs : List ℝ) (h : xs.length ≤ n) : (pad n xs).length = n := by
  simp [pad]; omega

theorem setAt_pad (n : ℕ) (xs : List ℝ) (x : ℝ) (h : xs.length < n) :
    setAt (pad n xs) xs.length x = .ok (pad n (xs ++ [x])) := by
  rw [setAt, pad_length n xs h.le, if_pos h]
  congr 1
  rw [pad, List.set_append_right _ _ le_rfl, Nat.sub_self]
  obtain ⟨k, hk⟩ : ∃ k, n - xs.length = k + 1 := ⟨n - xs.length - 1, by omega⟩
  rw [hk, List.replicate_succ, List.set_cons_zero, pad]
  simp only [List.length_append, List.length_cons, List.length_nil, zero_add, List.append_assoc, List.cons_append,
    List.nil_append]
  congr 3
  omega

/-- What is recorded after the runs `xs`. -/
def recOf (nBest nLow : ℕ) (xs : List (Run M)) : Rec :=
  ⟨pad nBest ((xs.take nBest).map Run.lik), pad nBest ((xs.take nBest).map fun m => m.conn.getD 0),
    pad nLow ((xs.drop nBest).map Run.lik), pad nLow ((xs.drop nBest).map fun m => m.conn.getD 0), xs.map Run.liks⟩

theorem recStep_eq (nBest nLow : ℕ) (xs : List (Run M)) (m : Run M) (h : xs.length < nBest + nLow) :
    recStep nBest xs.length m (recOf nBest nLow xs) = .ok (recOf nBest nLow (xs ++ [m])) := by
  unfold recStep
  by_cases hlt : xs.length < nBest
  · rw [if_pos hlt]
    have e : xs.take nBest = xs := List.take_of_length_le hlt.le
    have e' : (xs ++ [m]).take nBest = xs ++ [m] := List.take_of_length_le (by simp; omega)
    have ed : xs.drop nBest = [] := List.drop_of_length_le hlt.le
    have ed' : (xs ++ [m]).drop nBest = [] := List.drop_of_length_le (by simp; omega)
    have a1 := setAt_pad nBest (xs.map Run.lik) m.lik (by simpa using hlt)
    have a2 := setAt_pad nBest (xs.map fun m => m.conn.getD 0) (m.conn.getD 0) (by simpa using hlt)
    simp only [List.length_map] at a1 a2
    simp only [recOf, e, e', ed, ed', a1, a2, bind, Except.bind, List.map_append, List.map_cons, List.map_nil]
  · rw [if_neg hlt]
    have hge : nBest ≤ xs.length := not_lt.mp hlt
    have e' : (xs ++ [m]).take nBest = xs.take nBest := List.take_append_of_le_length hge
    have ed' : (xs ++ [m]).drop nBest = xs.drop nBest ++ [m] := List.drop_append_of_le_length hge
    have a1 := setAt_pad nLow ((xs.drop nBest).map Run.lik) m.lik (by simp; omega)
    have a2 := setAt_pad nLow ((xs.drop nBest).map fun m => m.conn.getD 0) (m.conn.getD 0) (by simp; omega)
    simp only [List.length_map, List.length_drop] at a1 a2
    simp only [recOf, e', ed', a1, a2, bind, Except.bind, List.map_append, List.map_cons, List.map_nil]

theorem recLoop_eq (nBest nLow : ℕ) (ms xs : List (Run M)) (h : xs.length + ms.length ≤ nBest + nLow) :
    recLoop nBest xs.length ms (recOf nBest nLow xs) = .ok (recOf nBest nLow (xs ++ ms)) := by
  induction ms generalizing xs with
  | nil => simp [recLoop]
  | cons m ms ih =>
    simp only [List.length_cons] at h
    rw [recLoop, recStep_eq nBest nLow xs m (by omega)]
    simp only [bind, Except.bind]
    have := ih (xs ++ [m]) (by simp; omega)
    simp only [List.length_append, List.length_cons, List.length_nil, zero_add, List.append_assoc, List.cons_append,
      List.nil_append] at this
    exact this

theorem recOf_nil (nBest nLow : ℕ) : recOf nBest nLow ([] : List (Run M)) =
    ⟨zeros nBest, zeros nBest, zeros nLow, zeros nLow, []⟩ := by simp [recOf, pad, zeros]

/-- The models by likelihood. -/
noncomputable def ranked (ms : List (Run M)) : List (Run M) := sortDesc Run.lik (ms.filter fun m => m.conn.isSome)

theorem ranked_perm (ms : List (Run M)) : (ranked ms).Perm (ms.filter fun m => m.conn.isSome) := sortDesc_perm _ _

theorem finish_eq (stay : M → Py Unit × M) (nInit nBest : ℕ) (ms : List (Run M)) (hlen : ms.length = nInit)
    (hle : nBest ≤ nInit) (s : Est M) :
    finish stay nInit nBest ms s =
      let r := recOf nBest (nInit - nBest) (ranked ms)
      let s1 : Est M := ⟨s.model, some r.high, some r.connHigh, some r.low, some r.connLow, some r.all⟩
      match sortDesc (fun m => m.conn.getD 0) ((ranked ms).take nBest) with
      | [] => (.error "IndexError", s1)
      | m :: _ => ((stay m.model).1, { s1 with model := some { m with model := (stay m.model).2 } }) := by
  have hr : (ranked ms).length ≤ nInit := by
    rw [(ranked_perm ms).length_eq, ← hlen]; exact List.length_filter_le _ _
  have := recLoop_eq nBest (nInit - nBest) (ranked ms) [] (by simp; omega)
  rw [recOf_nil] at this
  simp only [List.length_nil, List.nil_append] at this
  unfold finish
  simp only [if_neg (not_lt.mpr hle)]
  rw [show sortDesc Run.lik (ms.filter fun m => m.conn.isSome) = ranked ms from rfl, this]
  rfl

theorem ranked_conn (ms : List (Run M)) (m : Run M) (h : m ∈ ranked ms) : m ∈ ms ∧ ∃ c, m.conn = some c := by
  have := (ranked_perm ms).mem_iff.mp h
  rw [List.mem_filter] at this
  exact ⟨this.1, Option.isSome_iff_exists.mp this.2⟩

theorem points_ranked (ms : List (Run M)) :
    ((ranked ms).map fun m => (m.lik, m.conn.getD 0)).Perm (Spec.points ms) := by
  refine ((ranked_perm ms).map _).trans ?_
  apply List.Perm.of_eq
  induction ms with
  | nil => rfl
  | cons m ms ih =>
    rcases hc : m.conn with _ | c
    · simp only [List.filter_cons, hc, Option.isSome_none, Bool.false_eq_true, if_false, ih, Spec.points,
        List.filterMap_cons, Option.map_none]
    · simp only [List.filter_cons, hc, Option.isSome_some, if_true, List.map_cons, ih, Spec.points,
        List.filterMap_cons, Option.map_some, Option.getD_some]

theorem kept_of_head (nBest : ℕ) (ms : List (Run M)) (m : Run M) (tl : List (Run M))
    (he : sortDesc (fun m => m.conn.getD 0) ((ranked ms).take nBest) = m :: tl) : Spec.Kept nBest ms m := by
  refine ⟨(ranked ms).take nBest, (ranked ms).drop nBest, ?_, ?_, ?_, ?_⟩
  · rw [List.take_append_drop]; exact ranked_perm _
  · rw [List.length_take, (ranked_perm ms).length_eq]
  · have := sortDesc_pairwise Run.lik (ms.filter fun m => m.conn.isSome)
    change (ranked ms).Pairwise _ at this
    rw [← List.take_append_drop nBest (ranked ms), List.pairwise_append] at this
    exact this.2.2
  · have hm : m ∈ (ranked ms).take nBest := by
      rw [← (sortDesc_perm (fun m => m.conn.getD 0) _).mem_iff, he]; simp
    obtain ⟨-, c, hc⟩ := ranked_conn ms m (List.mem_of_mem_take hm)
    refine ⟨hm, c, hc, fun t ht c' hc' => ?_⟩
    have hp := sortDesc_pairwise (fun m : Run M => m.conn.getD 0) ((ranked ms).take nBest)
    rw [← (sortDesc_perm (fun m => m.conn.getD 0) _).mem_iff, he] at ht
    rw [he, List.pairwise_cons] at hp
    rcases List.mem_cons.mp ht with rfl | ht
    · rw [hc] at hc'; cases hc'; exact le_rfl
    · simpa [hc, hc'] using hp.1 t ht

/-! ## Schedules -/

/-- C98: with runs that change nothing they share, the static estimator does exactly the same (result, exception,
everything stored, seeds used up) with one process and with any number of processes, whichever process takes which
run and in whatever order the runs end. -/
theorem C98_schedule (run : List ℕ → σ → Py (Run M) × σ) (hrun : ∀ k s, (run k s).2 = s) (stay : M → Py Unit × M)
    (nInit nBest : ℕ) (seed : SeedSeq) (sched : List (ℕ × ℕ)) (hc : Spec.Complete nInit sched) (sh : σ) (s : Est M) :
    fitStatic run stay nInit nBest seed (some sched) sh s = fitStatic run stay nInit nBest seed none sh s := by
  have hi : Spec.Isolated fun i => run ((seed.spawn nInit).1.getD i []) := fun i s => hrun _ s
  simp only [fitStatic, imap_isolated _ hi _ _ hc, seqRuns_isolated _ hi]

/-- C98: the dynamic estimator stores the same and uses up the same seeds for every schedule, and if no run raises it
returns or raises the same.  If some run raises, it raises for every schedule an exception of some run. -/
theorem C98_schedule_dynamic {B R : Type} (rho : Py R) (blm : Option B)
    (run : R → Start B → List ℕ → σ → Py (Run M) × σ) (hrun : ∀ r b k s, (run r b k s).2 = s)
    (stay : M → Py Unit × M) (nInit nBest : ℕ) (seed : SeedSeq) (sched : List (ℕ × ℕ))
    (hc : Spec.Complete nInit sched) (sh : σ) (s : Est M) :
    let par := fitDynamic rho blm run stay nInit nBest seed (some sched) sh s
    let one := fitDynamic rho blm run stay nInit nBest seed none sh s
    par = one ∨ (par.1.2 = one.1.2 ∧ par.2 = one.2 ∧ ∃ e e', par.1.1 = .error e ∧ one.1.1 = .error e' ∧
      ∃ r i j, i < nInit ∧ j < nInit ∧ (run r (startOf blm i) (seed.key ++ [seed.spawned + i]) sh).1 = .error e ∧
        (run r (startOf blm j) (seed.key ++ [seed.spawned + j]) sh).1 = .error e') := by
  intro par one
  rcases rho with e | r
  · left; rfl
  have hi : Spec.Isolated fun i => run r (startOf blm i) ((seed.spawn nInit).1.getD i []) := fun i s => hrun _ _ _ s
  have hseed : ∀ i, i < nInit → (seed.spawn nInit).1.getD i [] = seed.key ++ [seed.spawned + i] := by
    intro i hi
    simp [SeedSeq.spawn, hi]
  simp only [par, one, fitDynamic, starmap, seqRuns_isolated _ hi]
  rcases firstError_isolated _ hi sched sh with ⟨h1, -⟩ | ⟨e, i, h1, h2, h3⟩
  · left
    rw [h1]
    simp only [imap_isolated _ hi _ _ hc]
  · right
    rw [h1]
    rcases hm : (List.range nInit).mapM (m := Except String) fun i =>
        (run r (startOf blm i) ((seed.spawn nInit).1.getD i []) sh).1 with e' | as
    · have : ∀ (is : List ℕ) (g : ℕ → Py (Run M)), is.mapM (m := Except String) g = .error e' →
          ∃ j ∈ is, g j = .error e' := by
        intro is g
        induction is with
        | nil => intro h; cases h
        | cons j is ih =>
          intro h
          rw [List.mapM_cons] at h
          rcases hg : g j with x | a
          · rw [hg] at h
            cases h
            exact ⟨j, by simp, hg⟩
          · rw [hg] at h
            rcases hr : is.mapM (m := Except String) g with x | bs
            · rw [hr] at h
              cases h
              obtain ⟨k, hk, hk'⟩ := ih hr
              exact ⟨k, List.mem_cons_of_mem _ hk, hk'⟩
            · rw [hr] at h; cases h
      obtain ⟨j, hj, hj'⟩ := this _ _ hm
      have hin := List.mem_range.mp (hc.mem_iff.mp h2)
      have hjn := List.mem_range.mp hj
      rw [hseed j hjn] at hj'
      simp only [hseed i hin] at h3
      refine ⟨?_, ?_, e, e', rfl, rfl, r, i, j, hin, hjn, h3, hj'⟩
      · trivial
      · trivial
    · obtain ⟨-, hall⟩ := mapM_ok _ _ _ hm
      obtain ⟨a, ha⟩ := hall i (hc.mem_iff.mp h2)
      rw [h3] at ha; cases ha

/-- C98 fails in this detail: which exception the dynamic estimator raises can depend on the schedule. -/
theorem C98_which_exception : ∃ (run : Unit → Start Unit → List ℕ → Unit → Py (Run Unit) × Unit)
    (stay : Unit → Py Unit × Unit) (sched : List (ℕ × ℕ)) (s : Est Unit), Spec.Complete 2 sched ∧
    (fitDynamic (.ok ()) none run stay 2 1 ⟨[7], 0⟩ (some sched) () s).1.1 = .error "B" ∧
    (fitDynamic (.ok ()) none run stay 2 1 ⟨[7], 0⟩ none () s).1.1 = .error "A" := by
  refine ⟨fun _ _ k _ => (.error (if k = [7, 0] then "A" else "B"), ()), fun _ => (.ok (), ()), [(1, 1), (0, 0)],
    ⟨none, none, none, none, none, none⟩, List.Perm.swap _ _ _, ?_, ?_⟩
  · rfl
  · rfl

/-! ## Seeds -/

/-- C98: no two runs share a seed, neither in one call nor in two calls with the same generator. -/
theorem C98_seeds (s : SeedSeq) (n m : ℕ) :
    ((s.spawn n).1 ++ ((s.spawn n).2.spawn m).1).Nodup ∧ (s.spawn n).1.length = n := by
  refine ⟨?_, by simp [SeedSeq.spawn]⟩
  have e : (s.spawn n).1 ++ ((s.spawn n).2.spawn m).1 =
      (List.range (n + m)).map fun i => s.key ++ [s.spawned + i] := by
    rw [List.range_add, List.map_append, List.map_map]
    simp only [SeedSeq.spawn, Function.comp_def, Nat.add_assoc]
  rw [e]
  refine List.Nodup.map ?_ List.nodup_range
  intro i j h
  have := List.append_cancel_left h
  simp only [List.cons.injEq, and_true] at this
  omega

/-- C98: the starting values of the first runs do not depend on how many runs there are. -/
theorem C98_seeds_prefix (s : SeedSeq) (n m : ℕ) (h : n ≤ m) : (s.spawn n).1 <+: (s.spawn m).1 := by
  obtain ⟨k, rfl⟩ := Nat.exists_eq_add_of_le h
  refine ⟨(List.range k).map fun i => s.key ++ [s.spawned + (n + i)], ?_⟩
  simp only [SeedSeq.spawn, List.range_add, List.map_append, List.map_map, Function.comp_def]

/-- C98: of the dynamic estimator's runs every second one, beginning with the first, starts from the static model and
only the first takes all parameters from it; without a static model none does. -/
theorem C98_starts {B : Type} (b : B) (n : ℕ) :
    ((List.range n).countP fun i => (startOf (some b) i).static.isSome) = (n + 1) / 2 ∧
    (∀ i, (startOf (some b) i).static = if Even i then some b else none) ∧
    (∀ i, (startOf (some b) i).initAll = true ↔ i = 0) ∧
    ∀ i, (startOf (none : Option B) i).static = none := by
  have h2 : ∀ i, (startOf (some b) i).static = if Even i then some b else none := by
    intro i
    unfold startOf
    by_cases he : i % 2 = 0
    · simp [he, Nat.even_iff]
    · simp [he, Nat.even_iff]
  refine ⟨?_, h2, ?_, ?_⟩
  · induction n with
    | zero => rfl
    | succ n ih =>
      rw [List.range_succ, List.countP_append, ih, List.countP_cons, List.countP_nil, h2]
      by_cases he : Even n
      · have := Nat.even_iff.mp he
        simp [he]; omega
      · have := Nat.not_even_iff.mp he
        simp [he]; omega
  · intro i
    unfold startOf
    by_cases he : i % 2 = 0
    · simp [he]
    · simp only [beq_iff_eq, he, if_false]
      constructor
      · intro h; cases h
      · rintro rfl; simp at he
  · intro i
    unfold startOf
    split <;> rfl

/-! ## What is stored -/

/-- C98: when `fit` gets through, the model stored is one of the runs, the best connected among the `n_best` most
likely ones, as `fit_stayers` has left it. -/
theorem C98_kept (stay : M → Py Unit × M) (nInit nBest : ℕ) (ms : List (Run M)) (hlen : ms.length = nInit) (s : Est M)
    (h : (finish stay nInit nBest ms s).1 = .ok ()) :
    ∃ m ∈ ms, Spec.Kept nBest ms m ∧ (stay m.model).1 = .ok () ∧
      (finish stay nInit nBest ms s).2.model = some { m with model := (stay m.model).2 } := by
  by_cases hle : nBest ≤ nInit
  · rw [finish_eq stay nInit nBest ms hlen hle] at h ⊢
    rcases he : sortDesc (fun m : Run M => m.conn.getD 0) ((ranked ms).take nBest) with _ | ⟨m, tl⟩
    · rw [he] at h; cases h
    · rw [he] at h
      have hk := kept_of_head nBest ms m tl he
      have hm : m ∈ (ranked ms).take nBest := by
        rw [← (sortDesc_perm (fun m => m.conn.getD 0) _).mem_iff, he]; simp
      exact ⟨m, (ranked_conn ms m (List.mem_of_mem_take hm)).1, hk, h, rfl⟩
  · rw [finish, if_pos (not_le.mp hle)] at h
    cases h

/-- C98: how `fit` can fail after the runs.  More best runs than runs: nothing is stored.  No best run asked for or no
run with a connectedness: the old model stays, beside the new runs' likelihoods.  Otherwise the model is replaced, even
if `fit_stayers` then raises. -/
theorem C98_fails (stay : M → Py Unit × M) (nInit nBest : ℕ) (ms : List (Run M)) (hlen : ms.length = nInit)
    (s : Est M) :
    let out := finish stay nInit nBest ms s
    (nInit < nBest → out = (.error "ValueError", s)) ∧
    (nBest ≤ nInit → (nBest = 0 ∨ ∀ m ∈ ms, m.conn = none) →
      out.1 = .error "IndexError" ∧ out.2.model = s.model ∧ out.2.high = some (List.replicate nBest 0) ∧
        out.2.low.map List.length = some (nInit - nBest)) ∧
    (nBest ≤ nInit → 0 < nBest → (∃ m ∈ ms, m.conn ≠ none) →
      ∃ m, Spec.Kept nBest ms m ∧ out.1 = (stay m.model).1 ∧
        out.2.model = some { m with model := (stay m.model).2 }) := by
  intro out
  have hrl : (ranked ms).length ≤ nInit := by
    rw [(ranked_perm ms).length_eq, ← hlen]; exact List.length_filter_le _ _
  refine ⟨fun h => ?_, fun hle hz => ?_, fun hle hpos hex => ?_⟩
  · simp only [out, finish, if_pos h]
  · simp only [out, finish_eq stay nInit nBest ms hlen hle]
    have ht : (ranked ms).take nBest = [] := by
      rcases hz with rfl | hz
      · simp
      · have : ms.filter (fun m => m.conn.isSome) = [] := by
          rw [List.filter_eq_nil_iff]
          intro m hm; simp [hz m hm]
        rw [List.length_eq_zero_iff.mp ((ranked_perm ms).length_eq.trans (by rw [this]; rfl))]
        simp
    have he : sortDesc (fun m : Run M => m.conn.getD 0) ((ranked ms).take nBest) = [] := by
      rw [ht]; simp [sortDesc]
    rw [he]
    refine ⟨rfl, rfl, ?_, ?_⟩
    · simp [recOf, ht, pad]
    · simp only [recOf, Option.map_some]
      rw [pad_length]
      simp; omega
  · simp only [out, finish_eq stay nInit nBest ms hlen hle]
    rcases he : sortDesc (fun m : Run M => m.conn.getD 0) ((ranked ms).take nBest) with _ | ⟨m, tl⟩
    · exfalso
      have hl := (sortDesc_perm (fun m : Run M => m.conn.getD 0) ((ranked ms).take nBest)).length_eq
      rw [he, List.length_take, (ranked_perm ms).length_eq] at hl
      obtain ⟨m, hm, hc⟩ := hex
      have : m ∈ ms.filter fun m => m.conn.isSome := by
        rw [List.mem_filter]; exact ⟨hm, Option.isSome_iff_ne_none.mpr hc⟩
      have := List.length_pos_of_mem this
      simp only [List.length_nil] at hl
      omega
    · exact ⟨m, kept_of_head nBest ms m tl he, rfl, rfl⟩

/-- C98: the stored likelihoods and connectednesses are those of the runs, most likely first and cut after `n_best`;
places left over, because runs have no connectedness, hold zeros. -/
theorem C98_recorded_partial (stay : M → Py Unit × M) (nInit nBest : ℕ) (ms : List (Run M)) (hlen : ms.length = nInit)
    (hle : nBest ≤ nInit) (s : Est M) :
    ∃ ps : List (ℝ × ℝ), ps.Perm (Spec.points ms) ∧ ps.Pairwise (fun a b => b.1 ≤ a.1) ∧
      let out := (finish stay nInit nBest ms s).2
      let z (n : ℕ) : List ℝ := List.replicate n 0
      out.high = some ((ps.take nBest).map Prod.fst ++ z (nBest - ps.length)) ∧
      out.connHigh = some ((ps.take nBest).map Prod.snd ++ z (nBest - ps.length)) ∧
      out.low = some ((ps.drop nBest).map Prod.fst ++ z (nInit - max nBest ps.length)) ∧
      out.connLow = some ((ps.drop nBest).map Prod.snd ++ z (nInit - max nBest ps.length)) := by
  have hrl : (ranked ms).length ≤ nInit := by
    rw [(ranked_perm ms).length_eq, ← hlen]; exact List.length_filter_le _ _
  refine ⟨(ranked ms).map fun m => (m.lik, m.conn.getD 0), points_ranked ms, ?_, ?_⟩
  · rw [List.pairwise_map]
    exact sortDesc_pairwise Run.lik _
  · have key : let r := recOf nBest (nInit - nBest) (ranked ms)
        let ps := (ranked ms).map fun m => (m.lik, m.conn.getD 0)
        let z (n : ℕ) : List ℝ := List.replicate n 0
        r.high = (ps.take nBest).map Prod.fst ++ z (nBest - ps.length) ∧
        r.connHigh = (ps.take nBest).map Prod.snd ++ z (nBest - ps.length) ∧
        r.low = (ps.drop nBest).map Prod.fst ++ z (nInit - max nBest ps.length) ∧
        r.connLow = (ps.drop nBest).map Prod.snd ++ z (nInit - max nBest ps.length) := by
      have n1 : nBest - min nBest (ranked ms).length = nBest - (ranked ms).length := by omega
      have n2 : nInit - nBest - ((ranked ms).length - nBest) = nInit - max nBest (ranked ms).length := by omega
      simp only [recOf, pad, List.length_map, List.length_take, List.length_drop, ← List.map_take, ← List.map_drop,
        List.map_map, Function.comp_def, n1, n2, and_self]
    obtain ⟨k1, k2, k3, k4⟩ := key
    rw [finish_eq stay nInit nBest ms hlen hle]
    simp only
    rw [← k1, ← k2, ← k3, ← k4]
    split <;> exact ⟨rfl, rfl, rfl, rfl⟩

/-- C98 fails for the stored likelihoods: as soon as one run has no connectedness, a likelihood of zero with a
connectedness of zero is stored, whether or not any run had them. -/
theorem C98_zeros_stored (stay : M → Py Unit × M) (nInit nBest : ℕ) (ms : List (Run M)) (hlen : ms.length = nInit)
    (hle : nBest ≤ nInit) (s : Est M) (m : Run M) (hm : m ∈ ms) (hc : m.conn = none) :
    ∃ h ch l cl, (finish stay nInit nBest ms s).2.high = some h ∧ (finish stay nInit nBest ms s).2.connHigh = some ch ∧
      (finish stay nInit nBest ms s).2.low = some l ∧ (finish stay nInit nBest ms s).2.connLow = some cl ∧
      ((0, 0) ∈ h.zip ch ∨ (0, 0) ∈ l.zip cl) := by
  obtain ⟨ps, hp, -, h1, h2, h3, h4⟩ := C98_recorded_partial stay nInit nBest ms hlen hle s
  have hlt : ps.length < nInit := by
    rw [hp.length_eq, ← (points_ranked ms).length_eq, List.length_map, (ranked_perm ms).length_eq, ← hlen]
    refine lt_of_le_of_ne (List.length_filter_le _ _) fun h => ?_
    have := List.length_filter_eq_length_iff.mp h m hm
    simp [hc] at this
  refine ⟨_, _, _, _, h1, h2, h3, h4, ?_⟩
  by_cases hb : ps.length < nBest
  · left
    rw [List.zip_append (by simp), List.mem_append]
    right
    rw [List.zip_replicate]
    simp; omega
  · right
    rw [List.zip_append (by simp), List.mem_append]
    right
    rw [List.zip_replicate]
    simp; omega

/-! ## More starting values -/

/-- C98: with `n_best=1` the likelihood kept never falls when the number of starting values is raised and the same
seed is used. -/
theorem C98_more_starts_partial (run : List ℕ → σ → Py (Run M) × σ) (hrun : ∀ k s, (run k s).2 = s)
    (stay : M → Py Unit × M) (n n' : ℕ) (hn : n ≤ n') (seed : SeedSeq) (sh : σ) (s : Est M) (m m' : Run M)
    (h : (fitStatic run stay n 1 seed none sh s).1.1 = .ok ())
    (h' : (fitStatic run stay n' 1 seed none sh s).1.1 = .ok ())
    (hm : (fitStatic run stay n 1 seed none sh s).1.2.model = some m)
    (hm' : (fitStatic run stay n' 1 seed none sh s).1.2.model = some m') : m.lik ≤ m'.lik := by
  let g : ℕ → Py (Run M) := fun i => (run (seed.key ++ [seed.spawned + i]) sh).1
  have hi : ∀ k, Spec.Isolated fun i => run ((seed.spawn k).1.getD i []) := fun k i s => hrun _ s
  have hg : ∀ k, (List.range k).mapM (m := Except String) (fun i => (run ((seed.spawn k).1.getD i []) sh).1) =
      (List.range k).mapM (m := Except String) g := by
    intro k
    have : ∀ is : List ℕ, (∀ i ∈ is, i < k) →
        is.mapM (m := Except String) (fun i => (run ((seed.spawn k).1.getD i []) sh).1) =
          is.mapM (m := Except String) g := by
      intro is
      induction is with
      | nil => intro _; rfl
      | cons i is ih =>
        intro hk
        rw [List.mapM_cons, List.mapM_cons, ih fun j hj => hk j (List.mem_cons_of_mem _ hj)]
        have : (seed.spawn k).1.getD i [] = seed.key ++ [seed.spawned + i] := by
          simp [SeedSeq.spawn, hk i (by simp)]
        rw [this]
    exact this _ fun i hi => List.mem_range.mp hi
  simp only [fitStatic, seqRuns_isolated _ (hi _), hg, fitWith] at h h' hm hm'
  rcases hr' : (List.range n').mapM (m := Except String) g with e | as'
  · rw [hr'] at h'; cases h'
  obtain ⟨d, rfl⟩ := Nat.exists_eq_add_of_le hn
  obtain ⟨as, as2, hsplit, hr⟩ := mapM_append_ok g (List.range n) ((List.range d).map (n + ·)) as'
    (by rw [← List.range_add]; exact hr')
  rw [hr] at h hm
  rw [hr'] at h' hm'
  have hl : as.length = n := by simpa using (mapM_ok _ _ _ hr).1
  have hl' : as'.length = n + d := by simpa using (mapM_ok _ _ _ hr').1
  obtain ⟨r, hrm, hk, -, hs⟩ := C98_kept stay n 1 as hl s h
  obtain ⟨r', hrm', hk', -, hs'⟩ := C98_kept stay (n + d) 1 as' hl' s h'
  simp only at hm hm'
  rw [hm] at hs
  rw [hm'] at hs'
  cases hs; cases hs'
  show r.lik ≤ r'.lik
  obtain ⟨top, rest, hp, hlen, hcmp, hin, -⟩ := hk'
  obtain ⟨-, -, hpr, -, -, hinr, c, hc, -⟩ := hk
  have hr1 : r ∈ as'.filter fun m => m.conn.isSome := by
    rw [List.mem_filter]
    refine ⟨by rw [hsplit]; exact List.mem_append_left _ hrm, by simp [hc]⟩
  rw [← hp.mem_iff, List.mem_append] at hr1
  rcases hr1 with ht | hrest
  · have h1 : top.length ≤ 1 := by rw [hlen]; exact min_le_left _ _
    match top, h1, ht, hin with
    | [x], _, ht, hin =>
      simp only [List.mem_singleton] at ht hin
      rw [ht, hin]
  · exact hcmp r' hin r hrest

/-- C98 fails for `n_best > 1`: a third starting value that is less likely than the model kept so far, and makes the
kept model's likelihood fall. -/
theorem C98_more_starts_worse : ∃ (run : List ℕ → Unit → Py (Run Unit) × Unit) (stay : Unit → Py Unit × Unit)
    (s : Est Unit), ∃ m m' : Run Unit,
      (fitStatic run stay 2 2 ⟨[], 0⟩ none () s).1.1 = .ok () ∧
      (fitStatic run stay 3 2 ⟨[], 0⟩ none () s).1.1 = .ok () ∧
      (fitStatic run stay 2 2 ⟨[], 0⟩ none () s).1.2.model = some m ∧
      (fitStatic run stay 3 2 ⟨[], 0⟩ none () s).1.2.model = some m' ∧ m'.lik < m.lik := by
  let a : Run Unit := ⟨(), 5, [5], some 1⟩
  let b : Run Unit := ⟨(), 1, [1], some 0⟩
  let c : Run Unit := ⟨(), 4, [4], some 9⟩
  refine ⟨fun k _ => (.ok (if k = [0] then a else if k = [1] then b else c), ()), fun _ => (.ok (), ()),
    ⟨none, none, none, none, none, none⟩, a, c, ?_⟩
  have r2 : ranked [a, b] = [a, b] :=
    sortDesc_eq _ _ _ (by simp [a, b]) (by simp [a, b]; try norm_num)
  have r3 : ranked [a, b, c] = [a, c, b] := by
    refine sortDesc_eq _ _ _ ?_ (by simp [a, b, c]; try norm_num)
    have : [a, b, c].filter (fun m => m.conn.isSome) = [a, b, c] := by simp [a, b, c]
    rw [this]
    exact List.Perm.cons _ (List.Perm.swap _ _ _)
  have t2 : sortDesc (fun m : Run Unit => m.conn.getD 0) ((ranked [a, b]).take 2) = [a, b] := by
    rw [r2]
    exact sortDesc_eq _ _ _ (by simp) (by simp [a, b])
  have t3 : sortDesc (fun m : Run Unit => m.conn.getD 0) ((ranked [a, b, c]).take 2) = [c, a] := by
    rw [r3]
    exact sortDesc_eq _ _ _ (List.Perm.swap _ _ _) (by simp [a, c])
  have f2 := finish_eq (fun _ : Unit => ((.ok () : Py Unit), ())) 2 2 [a, b] rfl le_rfl ⟨none, none, none, none, none, none⟩
  have f3 := finish_eq (fun _ : Unit => ((.ok () : Py Unit), ())) 3 2 [a, b, c] rfl (by norm_num)
    ⟨none, none, none, none, none, none⟩
  rw [t2] at f2
  rw [t3] at f3
  have e2 : ∀ s, (fitStatic (fun k (_ : Unit) => ((.ok (if k = [0] then a else if k = [1] then b else c) : Py (Run Unit)), ()))
      (fun _ => (.ok (), ())) 2 2 ⟨[], 0⟩ none () s).1 = finish (fun _ : Unit => ((.ok () : Py Unit), ())) 2 2 [a, b] s :=
    fun _ => rfl
  have e3 : ∀ s, (fitStatic (fun k (_ : Unit) => ((.ok (if k = [0] then a else if k = [1] then b else c) : Py (Run Unit)), ()))
      (fun _ => (.ok (), ())) 3 2 ⟨[], 0⟩ none () s).1 = finish (fun _ : Unit => ((.ok () : Py Unit), ())) 3 2 [a, b, c] s :=
    fun _ => rfl
  rw [e2, e3, f2, f3]
  exact ⟨rfl, rfl, rfl, rfl, by show (4 : ℝ) < 5; norm_num⟩

/-! ## The plot -/

theorem zip_eraseIdx (xs ys : List ℝ) (i : ℕ) (h : xs.length = ys.length) :
    (xs.eraseIdx i).zip (ys.eraseIdx i) = (xs.zip ys).eraseIdx i := by
  induction xs generalizing ys i with
  | nil => simp
  | cons x xs ih =>
    cases ys with
    | nil => simp at h
    | cons y ys =>
      cases i with
      | zero => simp
      | succ i => simp only [List.eraseIdx_cons_succ, List.zip_cons_cons]; rw [ih ys i (by simpa using h)]

theorem indexOf_found (p : ℝ × ℝ) (xs : List (ℝ × ℝ)) (h : p ∈ xs) :
    ∃ i, indexOf (p.1, some p.2) xs = .ok i ∧ i < xs.length ∧ (p :: xs.eraseIdx i).Perm xs := by
  classical
  have hlt : xs.findIdx (fun y => decide ((p.1, some p.2) = (y.1, some y.2))) < xs.length :=
    List.findIdx_lt_length_of_exists ⟨p, h, by simp⟩
  refine ⟨_, by rw [indexOf]; exact if_pos hlt, hlt, ?_⟩
  have hg := List.findIdx_getElem (w := hlt)
  generalize xs.findIdx (fun y => decide ((p.1, some p.2) = (y.1, some y.2))) = i at hlt hg ⊢
  simp only [decide_eq_true_eq, Prod.mk.injEq, Option.some.injEq] at hg
  have e : p = xs[i] := Prod.ext hg.1 hg.2
  rw [e]
  exact List.getElem_cons_eraseIdx_perm hlt

/-- C98: after a call of `fit` that got through, the plot of likelihoods draws every run with a connectedness exactly
once, and one point at the origin for each run without. -/
theorem C98_plot_partial (stay : M → Py Unit × M) (nInit nBest : ℕ) (ms : List (Run M)) (hlen : ms.length = nInit)
    (s : Est M) (h : (finish stay nInit nBest ms s).1 = .ok ()) :
    ∃ d, plotLiks false (finish stay nInit nBest ms s).2 = .ok (some d) ∧
      (d.best :: d.high ++ d.low).Perm
        (Spec.points ms ++ List.replicate (nInit - (Spec.points ms).length) (0, 0)) ∧
      d.high.length = nBest - 1 ∧ d.low.length = nInit - nBest ∧
      ∃ m ∈ ms, Spec.Kept nBest ms m ∧ d.best.1 = m.lik ∧ m.conn = some d.best.2 := by
  have hle : nBest ≤ nInit := by
    by_contra hlt
    rw [finish, if_pos (not_le.mp hlt)] at h
    cases h
  obtain ⟨m, hm, hk, -, hmod⟩ := C98_kept stay nInit nBest ms hlen s h
  have hfin := finish_eq stay nInit nBest ms hlen hle s
  have hrl : (ranked ms).length ≤ nInit := by
    rw [(ranked_perm ms).length_eq, ← hlen]; exact List.length_filter_le _ _
  rcases he : sortDesc (fun m : Run M => m.conn.getD 0) ((ranked ms).take nBest) with _ | ⟨m1, tl⟩
  · rw [hfin, he] at h; cases h
  rw [he] at hfin
  have hm1 : m1 ∈ (ranked ms).take nBest := by
    rw [← (sortDesc_perm (fun m => m.conn.getD 0) _).mem_iff, he]; simp
  obtain ⟨hm1in, c, hc⟩ := ranked_conn ms m1 (List.mem_of_mem_take hm1)
  have hk1 := kept_of_head nBest ms m1 tl he
  set r := recOf nBest (nInit - nBest) (ranked ms) with hr
  set pt : Run M → ℝ × ℝ := fun m => (m.lik, m.conn.getD 0) with hpt
  have hz : ∀ (n : ℕ) (xs : List (Run M)), (pad n (xs.map Run.lik)).zip (pad n (xs.map fun m => m.conn.getD 0)) =
      xs.map pt ++ List.replicate (n - xs.length) (0, 0) := by
    intro n xs
    rw [pad, pad, List.zip_append (by simp)]
    simp only [List.length_map, List.zip_replicate, min_self]
    congr 1
    rw [hpt]
    induction xs with
    | nil => rfl
    | cons x xs ih => simp [ih]
  have hzh : r.high.zip r.connHigh = ((ranked ms).take nBest).map pt ++
      List.replicate (nBest - ((ranked ms).take nBest).length) (0, 0) := hz _ _
  have hzl : r.low.zip r.connLow = ((ranked ms).drop nBest).map pt ++
      List.replicate (nInit - nBest - ((ranked ms).drop nBest).length) (0, 0) := hz _ _
  have hin : (m1.lik, c) ∈ r.high.zip r.connHigh := by
    rw [hzh, List.mem_append]
    left
    refine List.mem_map.mpr ⟨m1, hm1, by simp [hpt, hc]⟩
  obtain ⟨i, hi, hilt, hperm⟩ := indexOf_found (m1.lik, c) _ hin
  have hleneq : r.high.length = r.connHigh.length := by
    show (pad _ _).length = (pad _ _).length
    rw [pad_length, pad_length] <;> simp
  refine ⟨⟨r.low.zip r.connLow, (r.high.eraseIdx i).zip (r.connHigh.eraseIdx i), (m1.lik, c)⟩, ?_, ?_, ?_, ?_, m1, hm1in,
    hk1, rfl, hc⟩
  · rw [hfin]
    simp only [plotLiks, hc, hi, bind, Except.bind, scatter, Bool.false_and, Bool.false_eq_true, if_false,
      Option.getD_some]
  · simp only [zip_eraseIdx _ _ _ hleneq]
    refine (List.Perm.append_right _ hperm).trans ?_
    rw [hzh, hzl]
    have hp := points_ranked ms
    have hpl := hp.length_eq
    rw [List.length_map] at hpl
    have h1 : ∀ (a b c d : List (ℝ × ℝ)), ((a ++ b) ++ (c ++ d)).Perm ((a ++ c) ++ (b ++ d)) := by
      intro a b c d
      simp only [List.append_assoc]
      refine List.Perm.append_left _ ?_
      rw [← List.append_assoc, ← List.append_assoc]
      exact List.Perm.append_right _ List.perm_append_comm
    refine (h1 _ _ _ _).trans ?_
    rw [← List.map_append, List.take_append_drop]
    refine List.Perm.append hp ?_
    rw [← List.replicate_add, ← hpl]
    apply List.Perm.of_eq
    congr 1
    simp only [List.length_take, List.length_drop]
    omega
  · simp only [zip_eraseIdx _ _ _ hleneq]
    rw [List.length_eraseIdx, if_pos hilt, hzh]
    simp
  · simp only [hzl]
    simp; omega

/-- C98 fails for `jitter=True`: after a call of `fit` that got through, the plot raises whenever only one best run was
asked for or all runs were. -/
theorem C98_plot_jitter (stay : M → Py Unit × M) (nInit nBest : ℕ) (ms : List (Run M)) (hlen : ms.length = nInit)
    (s : Est M) (h : (finish stay nInit nBest ms s).1 = .ok ()) :
    (nBest = 1 ∨ nBest = nInit → plotLiks true (finish stay nInit nBest ms s).2 = .error "ValueError") ∧
    (nBest ≠ 1 → nBest ≠ nInit →
      plotLiks true (finish stay nInit nBest ms s).2 = plotLiks false (finish stay nInit nBest ms s).2) := by
  obtain ⟨d, hd, -, h1, h2, -⟩ := C98_plot_partial stay nInit nBest ms hlen s h
  have hle : nBest ≤ nInit := by
    by_contra hlt
    rw [finish, if_pos (not_le.mp hlt)] at h
    cases h
  have hpos : 0 < nBest := by
    by_contra h0
    obtain ⟨-, hf, -⟩ := C98_fails stay nInit nBest ms hlen s
    have := (hf hle (Or.inl (by omega))).1
    rw [h] at this; cases this
  set e := (finish stay nInit nBest ms s).2
  unfold plotLiks at hd ⊢
  rcases e with ⟨_ | m, _ | hh, _ | ch, _ | l, _ | cl, al⟩ <;> try (simp at hd)
  simp only at hd ⊢
  rcases hi : indexOf (m.lik, m.conn) (hh.zip ch) with er | i
  · rw [hi] at hd; cases hd
  · rw [hi] at hd
    simp only [bind, Except.bind, scatter, Bool.false_and, Bool.false_eq_true, if_false, Except.ok.injEq,
      Option.some.injEq] at hd
    subst hd
    simp only at h1 h2
    have el : (l.zip cl).isEmpty = decide (nInit - nBest = 0) := by
      rw [← h2]; cases l.zip cl <;> simp
    have eh : ((hh.eraseIdx i).zip (ch.eraseIdx i)).isEmpty = decide (nBest - 1 = 0) := by
      rw [← h1]; cases (hh.eraseIdx i).zip (ch.eraseIdx i) <;> simp
    simp only [bind, Except.bind, scatter, Bool.true_and, Bool.false_and, el, eh]
    constructor
    · intro hor
      by_cases hn : nInit - nBest = 0
      · simp [hn]
      · have : nBest - 1 = 0 := by omega
        simp [hn, this]
    · intro n1 n2
      have a1 : ¬ nInit - nBest = 0 := by omega
      have a2 : ¬ nBest - 1 = 0 := by omega
      simp [a1, a2]

/-- C98 fails after a call of `fit` in which no run had a connectedness: the model of the call before is left beside
the likelihoods of the failed call, and the plot raises. -/
theorem C98_plot_stale (stay : M → Py Unit × M) (nInit nBest : ℕ) (ms : List (Run M)) (hlen : ms.length = nInit)
    (hle : nBest ≤ nInit) (hnone : ∀ m ∈ ms, m.conn = none) (s : Est M) (m : Run M) (hm : s.model = some m)
    (hlik : m.lik ≠ 0) (jitter : Bool) :
    (finish stay nInit nBest ms s).2.model = some m ∧
      plotLiks jitter (finish stay nInit nBest ms s).2 = .error "ValueError" := by
  classical
  obtain ⟨-, h2, -⟩ := C98_fails stay nInit nBest ms hlen s
  obtain ⟨-, hmod, hh, -⟩ := h2 hle (Or.inr hnone)
  obtain ⟨ps, -, -, e1, e2, e3, e4⟩ := C98_recorded_partial stay nInit nBest ms hlen hle s
  refine ⟨hmod.trans hm, ?_⟩
  set e := (finish stay nInit nBest ms s).2
  unfold plotLiks
  rw [hmod, hm, hh, e2, e3, e4]
  have hnot : ∀ ys : List ℝ, indexOf (m.lik, m.conn) ((List.replicate nBest 0).zip ys) = .error "ValueError" := by
    intro ys
    rw [indexOf]
    refine if_neg (not_lt.mpr (le_of_eq ?_))
    rw [eq_comm, List.findIdx_eq_length]
    intro y hy
    have : y.1 = 0 := by
      have := (List.of_mem_zip hy).1
      exact List.eq_of_mem_replicate this
    simp only [decide_eq_false_iff_not, Prod.mk.injEq, not_and]
    intro hl
    rw [this] at hl
    exact absurd hl hlik
  simp only [hnot, bind, Except.bind]

theorem spawn_fresh (seed : SeedSeq) (n m i : ℕ) (hi : i < m) :
    ((seed.spawn n).2.spawn m).1.getD i [] = seed.key ++ [seed.spawned + (n + i)] := by
  simp [SeedSeq.spawn, List.getD_eq_getElem?_getD, hi, Nat.add_assoc]

theorem seqRuns_congr {α : Type} (f g : ℕ → σ → Py α × σ) (is : List ℕ) (h : ∀ i ∈ is, f i = g i) (sh : σ) :
    seqRuns f is sh = seqRuns g is sh := by
  induction is generalizing sh with
  | nil => rfl
  | cons i is ih =>
    simp only [seqRuns, h i List.mem_cons_self, ih fun j hj => h j (List.mem_cons_of_mem _ hj)]

/-- C98: a second fit with the same generator, however the first one ended, runs with seeds that the first one did not
use: it does not matter what runs with those would do.  (One process; C98_schedule covers pools.) -/
theorem C98_fresh (run run2 run3 : List ℕ → σ → Py (Run M) × σ) (stay : M → Py Unit × M) (n m b b' : ℕ) (seed : SeedSeq)
    (sched : Option (List (ℕ × ℕ))) (sh : σ) (s s' : Est M)
    (h : ∀ k, (∀ i < n, k ≠ seed.key ++ [seed.spawned + i]) → run2 k = run3 k) :
    fitStatic run2 stay m b' (fitStatic run stay n b seed sched sh s).2 none sh s' =
      fitStatic run3 stay m b' (fitStatic run stay n b seed sched sh s).2 none sh s' := by
  simp only [fitStatic]
  rw [seqRuns_congr _ (fun i => run3 (((seed.spawn n).2.spawn m).1.getD i [])) (List.range m)]
  intro i hi
  rw [spawn_fresh seed n m i (List.mem_range.mp hi)]
  refine h _ fun j hj he => ?_
  have := List.append_cancel_left he
  simp only [List.cons.injEq, and_true] at this
  omega

/-- C98: the dynamic estimator too. -/
theorem C98_fresh_dynamic {B R : Type} (r : R) (rho : Py R) (blm : Option B)
    (run run2 run3 : R → Start B → List ℕ → σ → Py (Run M) × σ) (stay : M → Py Unit × M) (n m b b' : ℕ) (seed : SeedSeq)
    (sched : Option (List (ℕ × ℕ))) (sh : σ) (s s' : Est M)
    (h : ∀ k, (∀ i < n, k ≠ seed.key ++ [seed.spawned + i]) → ∀ r b, run2 r b k = run3 r b k) :
    fitDynamic rho blm run2 stay m b' (fitDynamic (.ok r) blm run stay n b seed sched sh s).2 none sh s' =
      fitDynamic rho blm run3 stay m b' (fitDynamic (.ok r) blm run stay n b seed sched sh s).2 none sh s' := by
  rcases rho with e | r'
  · rfl
  simp only [fitDynamic]
  rw [seqRuns_congr _ (fun i => run3 r' (startOf blm i) (((seed.spawn n).2.spawn m).1.getD i [])) (List.range m)]
  intro i hi
  rw [spawn_fresh seed n m i (List.mem_range.mp hi)]
  refine h _ (fun j hj he => ?_) _ _
  have := List.append_cancel_left he
  simp only [List.cons.injEq, and_true] at this
  omega

/-- C98_schedule needs runs that leave what they share as it was: with a run that counts its predecessors in the shared
state, one process stores other likelihoods than two processes. -/
theorem C98_isolation_needed : ∃ (run : List ℕ → ℕ → Py (Run Unit) × ℕ) (stay : Unit → Py Unit × Unit)
    (sched : List (ℕ × ℕ)) (s : Est Unit), Spec.Complete 2 sched ∧
    (∃ e, (fitStatic run stay 2 1 ⟨[], 0⟩ none 0 s).1.1 = .error e) ∧
    ∀ e, (fitStatic run stay 2 1 ⟨[], 0⟩ (some sched) 0 s).1.1 ≠ .error e := by
  refine ⟨fun _ c => (if c = 0 then .ok ⟨(), 1, [1], some 1⟩ else .error "x", c + 1), fun _ => (.ok (), ()),
    [(0, 0), (1, 1)], ⟨none, none, none, none, none, none⟩, List.Perm.refl _, ⟨"x", rfl⟩, fun e => ?_⟩
  obtain ⟨-, -, h⟩ := C98_fails (fun u : Unit => ((.ok () : Py Unit), u)) 2 1
    [⟨(), 1, [1], some 1⟩, ⟨(), 1, [1], some 1⟩] rfl ⟨none, none, none, none, none, none⟩
  obtain ⟨m, -, h1, -⟩ := h (by norm_num) (by norm_num) ⟨_, List.mem_cons_self, by simp⟩
  intro h2
  have : (fitStatic (fun _ c => (if c = 0 then .ok ⟨(), 1, [1], some 1⟩ else .error "x", c + 1)) (fun _ => (.ok (), ())) 2 1
    ⟨[], 0⟩ (some [(0, 0), (1, 1)]) 0 ⟨none, none, none, none, none, none⟩).1.1 = .ok () := h1
  rw [this] at h2
  cases h2

/-! ## The hypotheses can be met -/

/-- Three runs, one without connectedness; the fit gets through and keeps the first; stayers cannot be fitted in the
second case. -/
example : ∃ (ms : List (Run ℕ)) (s : Est ℕ), ms.length = 3 ∧ (∃ m ∈ ms, m.conn = none) ∧
    (finish (fun m => (.ok (), m + 10)) 3 2 ms s).1 = .ok () ∧
    (finish (fun m => (.error "ValueError", m)) 3 2 ms s).1 = .error "ValueError" := by
  let ms : List (Run ℕ) := [⟨0, 5, [], some 1⟩, ⟨1, 7, [], none⟩, ⟨2, 4, [], some 2⟩]
  let s : Est ℕ := ⟨none, none, none, none, none, none⟩
  have hex : ∃ m ∈ ms, m.conn ≠ none := ⟨_, List.mem_cons_self, by simp⟩
  refine ⟨ms, s, rfl, ⟨_, List.mem_cons_of_mem _ List.mem_cons_self, rfl⟩, ?_, ?_⟩
  · obtain ⟨-, -, h⟩ := C98_fails (fun m : ℕ => ((.ok () : Py Unit), m + 10)) 3 2 ms rfl s
    obtain ⟨m, -, h1, -⟩ := h (by norm_num) (by norm_num) hex
    exact h1
  · obtain ⟨-, -, h⟩ := C98_fails (fun m : ℕ => ((.error "ValueError" : Py Unit), m)) 3 2 ms rfl s
    obtain ⟨m, -, h1, -⟩ := h (by norm_num) (by norm_num) hex
    exact h1

/-- A schedule of four runs on two processes that end in another order. -/
example : Spec.Complete 4 [(0, 1), (1, 0), (1, 3), (0, 2)] := by
  unfold Spec.Complete
  decide

/-- Two numbers of starting values for which `fit` gets through with `n_best=1`. -/
example : ∃ (run : List ℕ → Unit → Py (Run Unit) × Unit) (s : Est Unit), (∀ k s, (run k s).2 = s) ∧
    (fitStatic run (fun u => (.ok (), u)) 2 1 ⟨[3], 0⟩ none () s).1.1 = .ok () ∧
    (fitStatic run (fun u => (.ok (), u)) 5 1 ⟨[3], 0⟩ none () s).1.1 = .ok () := by
  let run : List ℕ → Unit → Py (Run Unit) × Unit := fun k _ => (.ok ⟨(), (k.getLastD 0 : ℕ), [], some 1⟩, ())
  let s : Est Unit := ⟨none, none, none, none, none, none⟩
  refine ⟨run, s, fun _ _ => rfl, ?_, ?_⟩
  · obtain ⟨-, -, h⟩ := C98_fails (fun u : Unit => ((.ok () : Py Unit), u)) 2 1
      [⟨(), ((0 : ℕ) : ℝ), [], some 1⟩, ⟨(), ((1 : ℕ) : ℝ), [], some 1⟩] rfl s
    obtain ⟨m, -, h1, -⟩ := h (by norm_num) (by norm_num) ⟨_, List.mem_cons_self, by simp⟩
    exact h1
  · obtain ⟨-, -, h⟩ := C98_fails (fun u : Unit => ((.ok () : Py Unit), u)) 5 1
      [⟨(), ((0 : ℕ) : ℝ), [], some 1⟩, ⟨(), ((1 : ℕ) : ℝ), [], some 1⟩, ⟨(), ((2 : ℕ) : ℝ), [], some 1⟩,
        ⟨(), ((3 : ℕ) : ℝ), [], some 1⟩, ⟨(), ((4 : ℕ) : ℝ), [], some 1⟩] rfl s
    obtain ⟨m, -, h1, -⟩ := h (by norm_num) (by norm_num) ⟨_, List.mem_cons_self, by simp⟩
    exact h1

end Pytwoway.Estim
