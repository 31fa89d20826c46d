/-
C101: name clashes, saving, the counts and leverages from files.
-/
import Verif.FE.ResultsMore
import Mathlib.Algebra.Order.BigOperators.Group.List

namespace Pytwoway.FEResults

/-! ### A control called `eps` -/

lemma sort_one (q : Key × Stat) : sortItems [q] = [q] := by
  unfold sortItems
  exact List.mergeSort_singleton q

/-- **C101, with a control called `eps` the claim fails:** asking for its variance stores it where the residual variance
was, in `res` and in the summary, and the residual variance is in neither. -/
theorem C101_eps_clash (s : Stat) (sigma sigmaHo y : ℝ) :
    ∃ res' summ', collectRes ⟨[(["eps".toList], s)], [], sigma, sigmaHo, false, false⟩ [("var(y)".toList, .num y)] [] =
        .ok (res', summ') ∧
      get res' "var(eps)_fe".toList = .ok (.num s.fe) ∧ get summ' "var(eps)_fe".toList = .ok (.num s.fe) ∧
      (sigma ≠ s.fe → sigma ≠ y → ∀ p ∈ res' ++ summ', p.2 ≠ .num sigma) := by
  have hb : build varName [(["eps".toList], s)] = .ok [("var(eps)".toList, s)] := by
    unfold build
    have : varName ["eps".toList] = .ok "var(eps)".toList := by decide
    simp only [List.foldlM_cons, List.foldlM_nil, bind, Except.bind, this, pure, Except.pure, set]
  have hc : build covName ([] : List ((List Key × List Key) × Stat)) = .ok [] := rfl
  have hg : get [("var(y)".toList, Val.num y)] "var(y)".toList = .ok (.num y) := by rw [get, if_pos rfl]
  have hs : sortItems ([] : Dict Stat) = [] := by unfold sortItems; exact List.mergeSort_nil
  have hkey : "var(eps)".toList ++ "_fe".toList = "var(eps)_fe".toList := by decide
  have hne : ¬ "var(y)".toList = "var(eps)_fe".toList := by decide
  have hne' : ¬ "var(eps)_fe".toList = "var(y)".toList := by decide
  refine ⟨[("var(y)".toList, .num y), ("var(eps)_fe".toList, .num s.fe)],
    [("var(y)".toList, .num y), ("var(eps)_fe".toList, .num s.fe)], ?_, ?_, ?_, ?_⟩
  · unfold collectRes
    simp only [bind, Except.bind, hb, hc, refresh_ok hg, sort_one, hs]
    have h1 : plugIn [] (plugIn [("var(eps)".toList, s)] (put [("var(y)".toList, Val.num y)] "var(eps)_fe".toList
        sigma)) = [("var(y)".toList, .num y), ("var(eps)_fe".toList, .num s.fe)] := by
      simp only [plugIn, List.foldl_cons, List.foldl_nil, put, hkey]
      rw [set, if_neg hne, set, set, if_neg hne, set, if_pos rfl]
    rw [h1]
    simp only [hoPart, hePart, Bool.false_eq_true, if_false]
    have h2 : allKeys ⟨[(["eps".toList], s)], [], sigma, sigmaHo, false, false⟩ [("var(eps)".toList, s)] [] =
        ["var(y)".toList, "var(eps)_fe".toList, "var(eps)_fe".toList] := by
      unfold allKeys sumKeys
      simp only [List.map_cons, List.map_nil, List.flatMap_cons, List.flatMap_nil, Bool.false_eq_true, if_false, hkey]
      rfl
    rw [h2]
    have g1 : get [("var(y)".toList, Val.num y), ("var(eps)_fe".toList, .num s.fe)] "var(y)".toList =
      .ok (.num y) := by rw [get, if_pos rfl]
    have g2 : get [("var(y)".toList, Val.num y), ("var(eps)_fe".toList, .num s.fe)] "var(eps)_fe".toList =
      .ok (.num s.fe) := by rw [get, if_neg hne, get, if_pos rfl]
    simp only [copyKeys, List.foldlM_cons, List.foldlM_nil, bind, Except.bind, g1, g2, pure, Except.pure]
    congr 2
  · rw [get, if_neg hne, get, if_pos rfl]
  · rw [get, if_neg hne, get, if_pos rfl]
  · intro h1 h2 p hp
    simp only [List.mem_append, List.mem_cons, List.not_mem_nil, or_false, or_self] at hp
    rcases hp with rfl | rfl
    · intro h; exact h2 (Val.num.inj h).symm
    · intro h; exact h1 (Val.num.inj h).symm

/-! ### When collecting fails -/

/-- **C101.** Without the variance of the outcome in `res` collecting raises KeyError. -/
theorem C101_missing (x : Est) (res summ : Dict Val) (hnv : ∀ r ∈ x.vars, r.1 ≠ [])
    (hnc : ∀ r ∈ x.covs, r.1.1 ≠ [] ∧ r.1.2 ≠ []) (h : ∀ p ∈ res, p.1 ≠ "var(y)".toList) :
    collectRes x res summ = .error "KeyError" := by
  obtain ⟨qv, b1⟩ := build_succeeds varName x.vars (fun r hr => varName_ok (hnv r hr)) []
  obtain ⟨qc, b2⟩ := build_succeeds covName x.covs (fun r hr => covName_ok (hnc r hr)) []
  replace b1 : build varName x.vars = .ok qv := b1
  replace b2 : build covName x.covs = .ok qc := b2
  have hg : ∀ d : Dict Val, (∀ p ∈ d, p.1 ≠ "var(y)".toList) → get d "var(y)".toList = .error "KeyError" := by
    intro d hd
    induction d with
    | nil => rfl
    | cons p d ih =>
      rw [get, if_neg (hd p (List.mem_cons_self ..))]
      exact ih fun q hq => hd q (List.mem_cons_of_mem _ hq)
  unfold collectRes
  simp only [bind, Except.bind, b1, b2, refresh, hg res h]

/-- **C101.** A request without a column name raises IndexError, a repeated column name ValueError. -/
theorem C101_bad_requests :
    varName [] = .error "IndexError" ∧ (∀ r, covName ([], r) = .error "IndexError") ∧
    (∀ c cs, covName (c :: cs, []) = .error "IndexError") ∧
    ∀ cols, (∃ e, sumInit cols = .error e) ↔ ∃ a b c : List Key, ∃ k, cols = a ++ k :: b ++ k :: c := by
  refine ⟨rfl, fun r => rfl, fun c cs => rfl, fun cols => ?_⟩
  unfold sumInit
  constructor
  · rintro ⟨e, h⟩
    by_cases hnd : cols.Nodup
    · rw [if_pos hnd] at h; cases h
    · obtain ⟨k, hk⟩ := by simpa [List.nodup_iff_sublist] using hnd
      induction cols with
      | nil => simp at hk
      | cons d ds ih =>
        by_cases hd : d = k
        · subst hd
          have : d ∈ ds := by simpa using hk
          obtain ⟨b, c, rfl⟩ := List.append_of_mem this
          exact ⟨[], b, c, d, by simp⟩
        · have hs : [k, k].Sublist ds := by
            rcases List.sublist_cons_iff.mp hk with h | ⟨r, hr, h⟩
            · exact h
            · simp only [List.cons.injEq] at hr; exact absurd hr.1.symm hd
          have hn' : ¬ ds.Nodup := fun h => by
            rw [List.nodup_iff_sublist] at h
            exact h k hs
          obtain ⟨a, b, c, k', rfl⟩ := ih (by rw [if_neg hn'] ; rw [if_neg hnd] at h; exact h) hn' hs
          exact ⟨d :: a, b, c, k', by simp⟩
  · rintro ⟨a, b, c, k, rfl⟩
    rw [if_neg]
    · exact ⟨_, rfl⟩
    · intro h
      rw [List.nodup_append] at h
      exact h.2.2 k (by simp) k (by simp) rfl

/-! ### Saving -/

lemma get_map (f : Val → Val) (d : Dict Val) (k : Key) :
    get (d.map fun p => (p.1, f p.2)) k = (match get d k with | .ok v => .ok (f v) | .error e => .error e) := by
  induction d with
  | nil => rfl
  | cons p d ih =>
    rw [List.map_cons]
    by_cases h : p.1 = k
    · rw [get, if_pos h, get, if_pos h]
    · rw [get, if_neg h, get, if_neg h, ih]

/-- **C101.** With an output file, what is written is every entry of `res` in order, as text; without one `res` is as it
was.  Saving also turns the entries of `res` itself into text: from then on no entry is a number and arithmetic on any of
them raises TypeError. -/
theorem C101_saved (repr : ℝ → String) (res : Dict Val) :
    saveRes repr false res = (res, none) ∧
    (∃ entries, (saveRes repr true res).2 = some entries ∧ entries.map Prod.fst = res.map Prod.fst ∧
      ∀ i (h : i < res.length) (h' : i < entries.length) x, (res[i]'h).2 = .num x → (entries[i]'h').2 = repr x) ∧
    (∀ k x, get res k = .ok (.num x) → get (saveRes repr true res).1 k = .ok (.text (repr x)) ∧
      getNum (saveRes repr true res).1 k = .error "TypeError") ∧
    ∀ k x, getNum (saveRes repr true res).1 k ≠ .ok x := by
  refine ⟨rfl, ⟨_, rfl, by simp, ?_⟩, ?_, ?_⟩
  · intro i h h' x hx
    simp [hx, str]
  · intro k x hx
    have : get (saveRes repr true res).1 k = .ok (.text (repr x)) := by
      show get (res.map fun p => (p.1, Val.text (str repr p.2))) k = _
      rw [get_map (fun v => Val.text (str repr v)), hx]; rfl
    exact ⟨this, by unfold getNum; rw [this]⟩
  · intro k x h
    unfold getNum at h
    have hm : get (saveRes repr true res).1 k = (match get res k with
        | .ok v => .ok (Val.text (str repr v)) | .error e => .error e) :=
      get_map (fun v => Val.text (str repr v)) res k
    rw [hm] at h
    rcases hg : get res k with e | v
    · rw [hg] at h; cases h
    · rw [hg] at h; cases h

/-- **C101.** So a caller of `fit` that reads a number from `res`, as `TwoWayMonteCarlo` and `TwoWayAttrition` do, gets
one exactly when no output file was given. -/
theorem C101_saved_numbers (repr : ℝ → String) (res : Dict Val) (k : Key) (x : ℝ)
    (h : get res k = .ok (.num x)) (outputfile : Bool) :
    getNum (saveRes repr outputfile res).1 k = .ok x ↔ outputfile = false := by
  cases outputfile with
  | false =>
    refine ⟨fun _ => rfl, fun _ => ?_⟩
    show getNum res k = _
    unfold getNum; rw [h]
  | true =>
    refine ⟨fun hh => ?_, fun hh => by cases hh⟩
    rw [((C101_saved repr res).2.2.1 k x h).2] at hh; cases hh

/-! ### Counts -/

lemma counts_go (cats : List (Key × ℕ × ℕ)) (hnd : (cats.map Prod.fst).Nodup) (d d' : Dict Val)
    (h : cats.foldlM (fun d c =>
      let d := put d ("n_".toList ++ c.1) ((((c.2.1 : ℝ) - 1) + 1))
      if c.2.2 > 1 then (.error "NotImplementedError" : Py (Dict Val)) else .ok d) d = .ok d') :
    (∀ c ∈ cats, get d' ("n_".toList ++ c.1) = .ok (.num c.2.1)) ∧
    (∀ k, (∀ c ∈ cats, "n_".toList ++ c.1 ≠ k) → get d' k = get d k) ∧ ∀ c ∈ cats, c.2.2 ≤ 1 := by
  induction cats generalizing d with
  | nil =>
    obtain rfl := Except.ok.inj h
    exact ⟨by simp, by simp, by simp⟩
  | cons c cs ih =>
    rw [List.map_cons, List.nodup_cons] at hnd
    rw [List.foldlM_cons] at h
    simp only [bind, Except.bind] at h
    by_cases hc : c.2.2 > 1
    · rw [if_pos hc] at h; cases h
    · rw [if_neg hc] at h
      obtain ⟨h1, h2, h3⟩ := ih hnd.2 _ h
      refine ⟨?_, ?_, ?_⟩
      · intro c' hc'
        rcases List.mem_cons.mp hc' with rfl | hc'
        · rw [h2]
          · rw [put, get_set_same]; simp
          · intro c'' hc'' he
            exact hnd.1 (List.mem_map.mpr ⟨c'', hc'', List.append_cancel_left he⟩)
        · exact h1 c' hc'
      · intro k hk
        rw [h2 k fun c' hc' => hk c' (List.mem_cons_of_mem _ hc')]
        exact get_set_ne _ _ (hk c (List.mem_cons_self ..))
      · intro c' hc'
        rcases List.mem_cons.mp hc' with rfl | hc'
        · omega
        · exact h3 c' hc'

/-- The dictionary after the first four counts. -/
lemma counts_head (firms workers movers : ℕ) (cats : List (Key × ℕ × ℕ)) (res : Dict Val) :
    counts firms workers movers cats res = cats.foldlM (fun d c =>
      let d := put d ("n_".toList ++ c.1) ((((c.2.1 : ℝ) - 1) + 1))
      if c.2.2 > 1 then (.error "NotImplementedError" : Py (Dict Val)) else .ok d)
      (put (put (put (put res "n_firms".toList firms) "n_workers".toList workers) "n_movers".toList movers)
        "n_stayers".toList (workers - movers)) := by
  have h1 : getNum (put (put (put res "n_firms".toList firms) "n_workers".toList workers) "n_movers".toList movers)
      "n_workers".toList = .ok (workers : ℝ) := by
    unfold getNum put
    rw [get_set_ne _ _ (by decide), get_set_same]
  have h2 : getNum (put (put (put res "n_firms".toList firms) "n_workers".toList workers) "n_movers".toList movers)
      "n_movers".toList = .ok (movers : ℝ) := by
    unfold getNum put
    rw [get_set_same]
  unfold counts
  simp only [bind, Except.bind, h1, h2]

/-- **C101.** The counts of firms, workers, movers and stayers and of the categories of each categorical control are
stored, as long as no control is called `firms`, `workers`, `movers` or `stayers`. -/
theorem C101_counts_partial (firms workers movers : ℕ) (cats : List (Key × ℕ × ℕ)) (res res' : Dict Val)
    (hnd : (cats.map Prod.fst).Nodup)
    (hres : ∀ c ∈ cats, c.1 ∉ ["firms".toList, "workers".toList, "movers".toList, "stayers".toList])
    (h : counts firms workers movers cats res = .ok res') :
    get res' "n_firms".toList = .ok (.num firms) ∧ get res' "n_workers".toList = .ok (.num workers) ∧
    get res' "n_movers".toList = .ok (.num movers) ∧ get res' "n_stayers".toList = .ok (.num (workers - movers)) ∧
    (∀ c ∈ cats, get res' ("n_".toList ++ c.1) = .ok (.num c.2.1)) ∧ ∀ c ∈ cats, c.2.2 ≤ 1 := by
  rw [counts_head] at h
  obtain ⟨h1, h2, h3⟩ := counts_go cats hnd _ _ h
  have key : ∀ k ∈ ["firms".toList, "workers".toList, "movers".toList, "stayers".toList],
      ∀ c ∈ cats, "n_".toList ++ c.1 ≠ "n_".toList ++ k := by
    intro k hk c hc he
    exact hres c hc (List.append_cancel_left he ▸ hk)
  refine ⟨?_, ?_, ?_, ?_, h1, h3⟩
  · rw [h2 "n_firms".toList fun c hc he => key "firms".toList (by simp) c hc (he.trans (by decide))]
    unfold put
    rw [get_set_ne _ _ (by decide), get_set_ne _ _ (by decide), get_set_ne _ _ (by decide)]
    exact get_set_same _ _ _
  · rw [h2 "n_workers".toList fun c hc he => key "workers".toList (by simp) c hc (he.trans (by decide))]
    unfold put
    rw [get_set_ne _ _ (by decide), get_set_ne _ _ (by decide)]
    exact get_set_same _ _ _
  · rw [h2 "n_movers".toList fun c hc he => key "movers".toList (by simp) c hc (he.trans (by decide))]
    unfold put
    rw [get_set_ne _ _ (by decide)]
    exact get_set_same _ _ _
  · rw [h2 "n_stayers".toList fun c hc he => key "stayers".toList (by simp) c hc (he.trans (by decide))]
    exact get_set_same _ _ _

/-- A run meeting the hypotheses. -/
example : ∃ res', counts 3 5 2 [("age".toList, 4, 1)] [] = .ok res' := ⟨_, by
  rw [counts_head]
  simp only [List.foldlM_cons, List.foldlM_nil, bind, Except.bind]
  rw [if_neg (by omega)]
  rfl⟩

/-- **C101, with a control called `firms` the claim fails:** the number of firms reported is the number of its
categories. -/
theorem C101_counts_clash (firms workers movers n : ℕ) (res : Dict Val) :
    ∃ res', counts firms workers movers [("firms".toList, n, 1)] res = .ok res' ∧
      get res' "n_firms".toList = .ok (.num n) := by
  refine ⟨_, by
    rw [counts_head]
    simp only [List.foldlM_cons, List.foldlM_nil, bind, Except.bind]
    rw [if_neg (by omega)]
    rfl, ?_⟩
  rw [put, show "n_".toList ++ "firms".toList = "n_firms".toList from by decide, get_set_same]
  simp

/-! ### Leverages from files -/

lemma foldl_min_spec (l : List ℝ) (a : ℝ) :
    l.foldl min a ≤ a ∧ (∀ y ∈ l, l.foldl min a ≤ y) ∧ l.foldl min a ∈ a :: l := by
  induction l generalizing a with
  | nil => exact ⟨le_refl _, by simp, by simp⟩
  | cons y l ih =>
    obtain ⟨h1, h2, h3⟩ := ih (min a y)
    rw [List.foldl_cons]
    refine ⟨h1.trans (min_le_left _ _), ?_, ?_⟩
    · intro z hz
      rcases List.mem_cons.mp hz with rfl | hz
      · exact h1.trans (min_le_right _ _)
      · exact h2 z hz
    · rcases List.mem_cons.mp h3 with h | h
      · rw [h]
        rcases min_choice a y with h | h <;> rw [h] <;> simp
      · simp [h]

lemma foldl_max_spec (l : List ℝ) (a : ℝ) :
    a ≤ l.foldl max a ∧ (∀ y ∈ l, y ≤ l.foldl max a) ∧ l.foldl max a ∈ a :: l := by
  induction l generalizing a with
  | nil => exact ⟨le_refl _, by simp, by simp⟩
  | cons y l ih =>
    obtain ⟨h1, h2, h3⟩ := ih (max a y)
    rw [List.foldl_cons]
    refine ⟨(le_max_left _ _).trans h1, ?_, ?_⟩
    · intro z hz
      rcases List.mem_cons.mp hz with rfl | hz
      · exact (le_max_right _ _).trans h1
      · exact h2 z hz
    · rcases List.mem_cons.mp h3 with h | h
      · rw [h]
        rcases max_choice a y with h | h <;> rw [h] <;> simp
      · simp [h]

lemma foldl_average {n : ℕ} (c : ℝ) (l : List (Fin n → ℝ)) (acc : Fin n → ℝ) (i : Fin n) :
    l.foldl (fun acc pp i => acc i + pp i / c) acc i = acc i + (l.map fun f => f i).sum / c := by
  induction l generalizing acc with
  | nil => simp
  | cons f l ih => rw [List.foldl_cons, ih]; simp only [List.map_cons, List.sum_cons]; ring

/-- The rows whose leverages are checked. -/
def Spec.Checked {n : ℕ} (mover : Fin n → Bool) (onlyMovers : Bool) (i : Fin n) : Prop :=
  onlyMovers = true → mover i = true

/-- **C101.** Loading leverages succeeds exactly when there is a file, some row is checked, and on every checked row the
average over the files is below one.  The leverages are then the averages over the files, and the stored range is the
smallest and largest of them on the checked rows. -/
theorem C101_levfile {n : ℕ} (files : List (Fin n → ℝ)) (mover : Fin n → Bool) (onlyMovers : Bool) :
    ((∃ r, precomputed files mover onlyMovers = .ok r) ↔ files ≠ [] ∧ (∃ i, Spec.Checked mover onlyMovers i) ∧
      ∀ i, Spec.Checked mover onlyMovers i → (files.map fun f => f i).sum / files.length < 1) ∧
    (files = [] → precomputed files mover onlyMovers = .error "AssertionError") ∧
    ∀ pii lo hi, precomputed files mover onlyMovers = .ok (pii, lo, hi) →
      (∀ i, pii i = (files.map fun f => f i).sum / files.length) ∧
      (∀ i, Spec.Checked mover onlyMovers i → lo ≤ pii i ∧ pii i ≤ hi) ∧
      (∃ i, Spec.Checked mover onlyMovers i ∧ pii i = lo) ∧ ∃ i, Spec.Checked mover onlyMovers i ∧ pii i = hi := by
  have hrows : ∀ i, i ∈ (if onlyMovers then (List.finRange n).filter (fun i => mover i) else List.finRange n) ↔
      Spec.Checked mover onlyMovers i := by
    intro i
    unfold Spec.Checked
    cases onlyMovers <;> simp
  set rows := (if onlyMovers then (List.finRange n).filter (fun i => mover i) else List.finRange n) with hr
  set pii : Fin n → ℝ := files.foldl (fun acc pp i => acc i + pp i / files.length) (fun _ => 0) with hpi
  have hpii : ∀ i, pii i = (files.map fun f => f i).sum / files.length := by
    intro i
    rw [hpi, foldl_average]; simp
  have hdef : files ≠ [] → precomputed files mover onlyMovers = (match rows.map pii with
    | [] => .error "ValueError"
    | a :: l => if l.foldl max a ≥ 1 then .error "ValueError" else .ok (pii, l.foldl min a, l.foldl max a)) := by
    intro hf
    unfold precomputed
    rw [if_pos (List.length_pos_iff.mpr hf)]
    rfl
  have hempty : files = [] → precomputed files mover onlyMovers = .error "AssertionError" := by
    rintro rfl; rfl
  refine ⟨?_, hempty, ?_⟩
  · constructor
    · rintro ⟨r, h⟩
      have hf : files ≠ [] := fun hf => by rw [hempty hf] at h; cases h
      rw [hdef hf] at h
      rcases hm : rows.map pii with _ | ⟨a, l⟩
      · rw [hm] at h; cases h
      · rw [hm] at h
        simp only at h
        by_cases hh : l.foldl max a ≥ 1
        · rw [if_pos hh] at h; cases h
        · have hall : ∀ y ∈ rows.map pii, y ≤ l.foldl max a := by
            rw [hm]
            intro y hy
            rcases List.mem_cons.mp hy with rfl | hy
            · exact (foldl_max_spec l y).1
            · exact (foldl_max_spec l a).2.1 y hy
          refine ⟨hf, ?_, ?_⟩
          · have : a ∈ rows.map pii := by rw [hm]; simp
            obtain ⟨i, hi, _⟩ := List.mem_map.mp this
            exact ⟨i, (hrows i).mp hi⟩
          · intro i hi
            rw [← hpii]
            exact lt_of_le_of_lt (hall _ (List.mem_map.mpr ⟨i, (hrows i).mpr hi, rfl⟩)) (not_le.mp hh)
    · rintro ⟨hf, ⟨i, hi⟩, hall⟩
      rw [hdef hf]
      rcases hm : rows.map pii with _ | ⟨a, l⟩
      · have : pii i ∈ rows.map pii := List.mem_map.mpr ⟨i, (hrows i).mpr hi, rfl⟩
        rw [hm] at this; simp at this
      · simp only
        rw [if_neg]
        · exact ⟨_, rfl⟩
        · rw [ge_iff_le, not_le]
          have := (foldl_max_spec l a).2.2
          rw [← hm] at this
          obtain ⟨j, hj, hj'⟩ := List.mem_map.mp this
          rw [← hj', hpii]
          exact hall j ((hrows j).mp hj)
  · intro p lo hi h
    have hf : files ≠ [] := fun hf => by rw [hempty hf] at h; cases h
    rw [hdef hf] at h
    rcases hm : rows.map pii with _ | ⟨a, l⟩
    · rw [hm] at h; cases h
    · rw [hm] at h
      simp only at h
      by_cases hh : l.foldl max a ≥ 1
      · rw [if_pos hh] at h; cases h
      · rw [if_neg hh] at h
        have h' := Except.ok.inj h
        simp only [Prod.mk.injEq] at h'
        obtain ⟨rfl, rfl, rfl⟩ := h'
        refine ⟨hpii, ?_, ?_, ?_⟩
        · intro i hi
          have hmem : pii i ∈ a :: l := by rw [← hm]; exact List.mem_map.mpr ⟨i, (hrows i).mpr hi, rfl⟩
          rcases List.mem_cons.mp hmem with h | h
          · rw [h]; exact ⟨(foldl_min_spec l a).1, (foldl_max_spec l a).1⟩
          · exact ⟨(foldl_min_spec l a).2.1 _ h, (foldl_max_spec l a).2.1 _ h⟩
        · have := (foldl_min_spec l a).2.2
          rw [← hm] at this
          obtain ⟨j, hj, hj'⟩ := List.mem_map.mp this
          exact ⟨j, (hrows j).mp hj, hj'⟩
        · have := (foldl_max_spec l a).2.2
          rw [← hm] at this
          obtain ⟨j, hj, hj'⟩ := List.mem_map.mp this
          exact ⟨j, (hrows j).mp hj, hj'⟩

/-- Two files and three observations, where only the movers are checked: the leverage of the stayer is two. -/
example : ∃ r, precomputed (n := 3) [fun i => if i = 2 then 3 else 1 / 2, fun i => if i = 2 then 1 else 1 / 4]
    (fun i => decide (i ≠ 2)) true = .ok r := by
  rw [(C101_levfile _ _ _).1]
  refine ⟨by simp, ⟨0, by unfold Spec.Checked; decide⟩, ?_⟩
  intro i hi
  have : i ≠ 2 := by simpa using hi rfl
  simp only [List.map_cons, List.map_nil, if_neg this, List.sum_cons, List.sum_nil, List.length_cons, List.length_nil]
  norm_num

end Pytwoway.FEResults
