import Verif.Sorkin.AttritionProps
import Verif.Attrition.Subsets

/-! # C102: what SorkinAttrition stores and plots -/

namespace Pytwoway.SorkinAttrition

open Finset Attrition

/-- Several cores give the same results in the same order. -/
theorem runAll_ncore {α β : Type} (n : ℕ) (f : α → Py β) (w : List α) (r : List β) :
    runAll n f w = .ok r ↔ w.mapM f = .ok r := by
  classical
  unfold runAll
  split
  · constructor
    · intro h
      cases hs : (Util.scramble w).mapM f with
      | error e => rw [hs] at h; cases h
      | ok v =>
        rw [hs] at h
        have hr : Util.unscramble v = r := by
          simpa [Functor.map, Except.map] using h
        have hall : ∀ x ∈ w, ∃ y, f x = .ok y := by
          intro x hx
          have hx' : x ∈ Util.scramble w := (Util.C01_scramble_perm w).mem_iff.mpr hx
          obtain ⟨k, hk⟩ := List.getElem?_of_mem hx'
          obtain ⟨hl, hg⟩ := mapM_get f _ _ hs
          have hkv : k < v.length := by
            rw [← hl]
            exact (List.getElem?_eq_some_iff.mp hk).1
          obtain ⟨a, ha, hfa⟩ := hg k v[k] (by simp [hkv])
          rw [hk] at ha
          cases ha
          exact ⟨_, hfa⟩
        cases hw : w with
        | nil =>
          subst hw
          have h0 : ∀ γ : Type, Util.scramble ([] : List γ) = [] := fun γ =>
            List.perm_nil.mp (Util.C01_scramble_perm ([] : List γ))
          have h1 : Util.unscramble ([] : List β) = [] := by
            have := Util.C01_unscramble_scramble ([] : List β)
            rwa [h0] at this
          rw [h0] at hs
          have hv : v = [] := (Except.ok.inj hs).symm
          rw [← hr, hv, h1]
          rfl
        | cons a0 w0 =>
        obtain ⟨y0, -⟩ := hall a0 (by simp [hw])
        rw [← hw]
        let g : α → β := fun x => if h : ∃ y, f x = .ok y then h.choose else y0
        have hg : ∀ x ∈ w, f x = .ok (g x) := by
          intro x hx
          have h := hall x hx
          simp only [g, h, dif_pos]
          exact h.choose_spec
        have key : ∀ u : List α, (∀ x ∈ u, x ∈ w) → u.mapM f = .ok (u.map g) := by
          intro u hu
          rw [mapM_ok_iff]
          induction u with
          | nil => exact List.Forall₂.nil
          | cons a u ih => exact List.Forall₂.cons (hg a (hu a (by simp))) (ih fun x hx => hu x (by simp [hx]))
        rw [key w fun x hx => hx]
        rw [key _ fun x hx => (Util.C01_scramble_perm w).mem_iff.mp hx] at hs
        cases hs
        rw [← hr, Util.C01_scrambled_work_in_order]
    · intro h
      have hf := (mapM_ok_iff f w r).mp h
      have hs : (Util.scramble w).mapM f = .ok (Util.scramble r) := by
        rw [mapM_ok_iff]
        have hz : ∃ z : List (α × β), z.map Prod.fst = w ∧ z.map Prod.snd = r ∧ ∀ x ∈ z, f x.1 = .ok x.2 := by
          clear h
          induction hf with
          | nil => exact ⟨[], rfl, rfl, by simp⟩
          | @cons a b l1 l2 h _ ih =>
            obtain ⟨z, h1, h2, h3⟩ := ih
            refine ⟨(a, b) :: z, by simp [h1], by simp [h2], ?_⟩
            intro x hx
            rw [List.mem_cons] at hx
            rcases hx with rfl | hx
            · exact h
            · exact h3 x hx
        obtain ⟨z, h1, h2, h3⟩ := hz
        rw [← h1, ← h2, Util.scramble_map, Util.scramble_map]
        have h4 : ∀ x ∈ Util.scramble z, f x.1 = .ok x.2 := fun x hx =>
          h3 x ((Util.C01_scramble_perm z).mem_iff.mp hx)
        generalize Util.scramble z = z' at h4
        induction z' with
        | nil => exact List.Forall₂.nil
        | cons a z' ih => exact List.Forall₂.cons (h4 a (by simp)) (ih fun x hx => h4 x (by simp [hx]))
      rw [hs]
      show Except.ok (Util.unscramble (Util.scramble r)) = _
      rw [Util.C01_unscramble_scramble]
  · exact Iff.rfl

/-- What drawing the subsets leaves of the cleaning parameters. -/
theorem gen_params (how : How) (e : Env) (bdf : Frame) (p : CleanParams) (h1 : p.isSorted = true) (h2 : p.copy = false) :
    (∀ l, (gen how e bdf p).1 = .ok l → (gen how e bdf p).2 = p) ∧
    ((gen how e bdf p).2 = p ∨ (gen how e bdf p).2 = { p with dropSingle := false }) := by
  obtain ⟨a, b, c, d, r⟩ := p
  dsimp only at h1 h2
  subst h1 h2
  cases how with
  | decr f => exact ⟨fun _ _ => rfl, Or.inl rfl⟩
  | incr i =>
    unfold gen genIncreasing
    dsimp only
    split
    · exact ⟨fun _ h => (by cases h), Or.inl rfl⟩
    · split
      · exact ⟨fun _ h => (by cases h), Or.inr rfl⟩
      · exact ⟨fun _ _ => rfl, Or.inl rfl⟩

/-- One subset per fraction. -/
theorem gen_length (how : How) (e : Env) (he : e.Draws) (bdf : Frame) (p : CleanParams) (hf : how.fracs ≠ []) (l : List Subset)
    (h : (gen how e bdf p).1 = .ok l) : l.length = how.fracs.length := by
  cases how with
  | incr a => exact (C47_one_per_fraction a e he bdf p (genIncreasing a e bdf p).2 l hf (by rw [← show _ = _ from h]; rfl)).1
  | decr f =>
    have : genDecreasing f e bdf = l := Except.ok.inj h
    rw [← this]
    have key : ∀ (fs : List ℝ) (t : ℕ) (prev : ℝ) (left dropped : Finset ℕ),
        (decrLoop e t prev fs left dropped).length = fs.length := by
      intro fs
      induction fs with
      | nil => intros; rfl
      | cons a fs ih => intro t prev left dropped; simp only [decrLoop, List.length_cons, ih]
    simp only [genDecreasing, List.length_map, key]
    rfl

theorem single_ok {W : World} {how : How} {ncore r : ℕ} {bdf : Frame} {p p' : CleanParams} {res : List (Option ℝ)}
    (h1 : p.isSorted = true) (h2 : p.copy = false) (h : single W how ncore r bdf p = (.ok res, p')) :
    p' = p ∧ ∃ subs, (gen how ⟨W.pick r, W.clean⟩ bdf p).1 = .ok subs ∧ subs.mapM (interior W p bdf) = .ok res := by
  obtain ⟨g1, -⟩ := gen_params how ⟨W.pick r, W.clean⟩ bdf p h1 h2
  unfold single at h
  rcases hg : gen how ⟨W.pick r, W.clean⟩ bdf p with ⟨x | subs, q⟩
  · rw [hg] at h; cases h
  · rw [hg] at h
    obtain ⟨h3, h4⟩ := Prod.mk.inj h
    have hq : q = p := by
      have := g1 subs (by rw [hg])
      rwa [hg] at this
    subst h4
    rw [hq] at h3 ⊢
    exact ⟨rfl, subs, rfl, (runAll_ncore _ _ _ _).mp h3⟩

theorem runs_ok {W : World} {how : How} {ncore : ℕ} {bdf : Frame} (hf : 2 ≤ how.fracs.length)
    (hd : ∀ r, Env.Draws ⟨W.pick r, W.clean⟩) :
    ∀ (k r : ℕ) (p p' : CleanParams) (rows : List (List (Option ℝ))), p.isSorted = true → p.copy = false →
    runs W how ncore bdf k r p = (.ok rows, p') →
    p' = p ∧ rows.length = k ∧ ∀ i < k, ∃ row subs, rows[i]? = some row ∧
      (gen how ⟨W.pick (r + i), W.clean⟩ bdf p).1 = .ok subs ∧ subs.length = how.fracs.length ∧
      subs.mapM (interior W p bdf) = .ok row := by
  intro k
  induction k with
  | zero =>
    intro r p p' rows h1 h2 h
    obtain ⟨h3, h4⟩ := Prod.mk.inj h
    cases h3
    exact ⟨h4.symm, rfl, fun i hi => absurd hi (by omega)⟩
  | succ k ih =>
    intro r p p' rows h1 h2 h
    rw [runs] at h
    rcases hs : single W how ncore r bdf p with ⟨x | res, q⟩
    · rw [hs] at h; cases h
    · rw [hs] at h
      obtain ⟨hq, subs, hg, hm⟩ := single_ok h1 h2 hs
      have hfn : how.fracs ≠ [] := by
        intro h0; rw [h0] at hf; simp at hf
      have hl := gen_length how _ (hd r) bdf p hfn subs hg
      have hl2 := (mapM_get _ _ _ hm).1
      subst hq
      have ha : assignRow how.fracs.length res = .ok res := by
        match res, hl2 with
        | [], hl2 => simp only [List.length_nil] at hl2; omega
        | [x], hl2 => simp only [List.length_singleton] at hl2; omega
        | a :: b :: l, hl2 =>
          rw [assignRow, if_pos (by omega)]
          simp
      dsimp only at h
      rw [ha] at h
      rcases hr : runs W how ncore bdf k (r + 1) q with ⟨x | rest, q'⟩
      · rw [hr] at h; cases h
      · rw [hr] at h
        obtain ⟨h3, h4⟩ := Prod.mk.inj h
        have h3 := Except.ok.inj h3
        subst h3
        obtain ⟨i1, i2, i3⟩ := ih _ _ _ _ h1 h2 hr
        refine ⟨by rw [← h4]; exact i1, by simp [i2], ?_⟩
        intro i hi
        cases i with
        | zero => exact ⟨res, subs, rfl, hg, hl, hm⟩
        | succ i =>
          obtain ⟨row, subs', a1, a2, a3, a4⟩ := i3 i (by omega)
          exact ⟨row, subs', a1, by rw [show r + (i + 1) = r + 1 + i by omega]; exact a2, a3, a4⟩

/-- The rows of workers that are seen at two different firms. -/
def Spec.moversOnly (f : Frame) : Frame := f.filter fun r => decide (∃ r' ∈ f, r'.i = r.i ∧ r'.j ≠ r.j)

theorem moverRows_eq (f : Frame) : moverRows f = Spec.moversOnly f := by
  unfold moverRows Spec.moversOnly
  refine List.filter_congr fun r hr => ?_
  refine decide_eq_decide.mpr ?_
  rw [mem_movers]
  constructor
  · rintro ⟨a, ha, b, hb, h1, h2, h3⟩
    by_cases h : a.j = r.j
    · exact ⟨b, hb, h2, fun e => h3 (by rw [h, e])⟩
    · exact ⟨a, ha, h1, h⟩
  · rintro ⟨a, ha, h1, h2⟩
    exact ⟨a, ha, r, hr, h1, rfl, h2⟩

theorem interior_ok {W : World} {p : CleanParams} {bdf : Frame} {s : Subset} {e : Option ℝ}
    (h : interior W p bdf s = .ok e) :
    ∃ f psi j V, W.clean p (sample bdf s) = .ok f ∧ W.effects f = .ok psi ∧ W.clean params2 (moverRows f) = .ok j ∧
      W.values j = .ok V ∧ V.length = psi.length + 1 ∧
      e = corr V.length (Spec.entry V) (Spec.entry (psi ++ [0])) := by
  unfold interior at h
  simp only [bind, Except.bind] at h
  rcases h1 : W.clean p (sample bdf s) with x | f
  · rw [h1] at h; cases h
  rw [h1] at h
  dsimp only at h
  rcases h2 : W.effects f with x | psi
  · rw [h2] at h; cases h
  rw [h2] at h
  dsimp only at h
  rcases h3 : W.clean params2 (moverRows f) with x | j
  · rw [h3] at h; cases h
  rw [h3] at h
  dsimp only at h
  rcases h4 : W.values j with x | V
  · rw [h4] at h; cases h
  rw [h4] at h
  dsimp only at h
  unfold corrcoef at h
  split at h
  · rename_i hl
    refine ⟨f, psi, j, V, rfl, h2, h3, h4, by simpa using hl, ?_⟩
    exact (Except.ok.inj h).symm
  · cases h

/-- C102: after a successful call there is one row per simulation and one column per fraction.  The entry belongs to
the sample that the drawn subset of that simulation and fraction leaves: it is the correlation between the values of
the firms of that sample, from the rows of its movers, and their estimated effects followed by a zero (`nan` if one of the two does not vary).
Missing from the full claim: the effects should be preceded by the zero, see `C102_two_firms`. -/
theorem C102_stored_partial (W : World) (o o' : Obj) (N ncore : ℕ) (bdf : Frame) (hs : o.params.isSorted = true)
    (hc : o.params.copy = false) (hf : 2 ≤ o.how.fracs.length)
    (hd : ∀ r t S n, n ≤ #S → W.pick r t S n ⊆ S ∧ #(W.pick r t S n) = n)
    (h : attrition W o N ncore bdf = (.ok (), o')) :
    ∃ rows, o'.res = some rows ∧ rows.length = N ∧ o'.params = o.params ∧ o'.how = o.how ∧
      o'.moversPerFirm = some ((#(movers bdf) : ℝ) / #(firms bdf)) ∧
      ∀ r < N, ∃ row subs, rows[r]? = some row ∧ row.length = o.how.fracs.length ∧
        (gen o.how ⟨W.pick r, W.clean⟩ (W.minMoves o.minMoves o.params bdf) o.params).1 = .ok subs ∧
        subs.length = o.how.fracs.length ∧
        ∀ (c : ℕ) s e, subs[c]? = some s → row[c]? = some e → ∃ f psi j V,
          W.clean o.params (sample (W.minMoves o.minMoves o.params bdf) s) = .ok f ∧ W.effects f = .ok psi ∧
          W.clean params2 (Spec.moversOnly f) = .ok j ∧ W.values j = .ok V ∧ V.length = psi.length + 1 ∧
          (∀ x, e = some x ↔ Spec.IsCorrelation V.length (Spec.entry V) (Spec.entry (psi ++ [0])) x) ∧
          ∀ x, e = some x → -1 ≤ x ∧ x ≤ 1 := by
  unfold attrition at h
  split at h
  · cases h
  dsimp only at h
  split at h
  · cases h
  rcases hr : runs W o.how ncore (W.minMoves o.minMoves o.params bdf) N 0 o.params with ⟨x | rows, q⟩
  · rw [hr] at h; cases h
  rw [hr] at h
  obtain ⟨-, h4⟩ := Prod.mk.inj h
  obtain ⟨i1, i2, i3⟩ := runs_ok hf (fun r t S n => hd r t S n) _ _ _ _ _ hs hc hr
  subst h4
  refine ⟨rows, rfl, i2, i1, rfl, rfl, ?_⟩
  intro r hrN
  obtain ⟨row, subs, a1, a2, a3, a4⟩ := i3 r hrN
  rw [Nat.zero_add] at a2
  obtain ⟨l1, l2⟩ := mapM_get _ _ _ a4
  refine ⟨row, subs, a1, by omega, a2, a3, ?_⟩
  intro c s e hsc hec
  obtain ⟨a, ha, hfa⟩ := l2 c e hec
  rw [hsc] at ha
  cases ha
  obtain ⟨f, psi, j, V, b1, b2, b3, b4, b5, rfl⟩ := interior_ok hfa
  exact ⟨f, psi, j, V, b1, b2, by rw [← moverRows_eq]; exact b3, b4, b5, (C102_correlation _ _ _).1, (C102_correlation _ _ _).2.1⟩

theorem single_ncore (W : World) (how : How) (n m r : ℕ) (bdf : Frame) (p : CleanParams) :
    (∀ res p', single W how n r bdf p = (.ok res, p') → single W how m r bdf p = (.ok res, p')) := by
  intro res p' h
  unfold single at h ⊢
  rcases hg : gen how ⟨W.pick r, W.clean⟩ bdf p with ⟨x | subs, q⟩
  · rw [hg] at h; cases h
  · rw [hg] at h
    obtain ⟨h3, h4⟩ := Prod.mk.inj h
    dsimp only
    rw [(runAll_ncore m _ _ _).mpr ((runAll_ncore n _ _ _).mp h3), h4]

theorem runs_ncore (W : World) (how : How) (n m : ℕ) (bdf : Frame) :
    ∀ (k r : ℕ) (p : CleanParams) rows p', runs W how n bdf k r p = (.ok rows, p') →
      runs W how m bdf k r p = (.ok rows, p') := by
  intro k
  induction k with
  | zero => intro r p rows p' h; exact h
  | succ k ih =>
    intro r p rows p' h
    rw [runs] at h ⊢
    rcases hs : single W how n r bdf p with ⟨x | res, q⟩
    · rw [hs] at h; cases h
    · rw [hs] at h
      rw [single_ncore W how n m r bdf p res q hs]
      dsimp only at h ⊢
      rcases ha : assignRow how.fracs.length res with x | row
      · rw [ha] at h; cases h
      · rw [ha] at h
        dsimp only at h ⊢
        rcases hr : runs W how n bdf k (r + 1) q with ⟨x | rest, q'⟩
        · rw [hr] at h; cases h
        · rw [hr] at h
          rw [ih _ _ _ _ hr]
          exact h

/-- C102: the number of cores has no influence: a call succeeds with the same object for any two numbers. -/
theorem C102_cores (W : World) (o o' : Obj) (N n m : ℕ) (bdf : Frame) :
    attrition W o N n bdf = (.ok (), o') ↔ attrition W o N m bdf = (.ok (), o') := by
  have key : ∀ n m, attrition W o N n bdf = (.ok (), o') → attrition W o N m bdf = (.ok (), o') := by
    intro n m h
    unfold attrition at h ⊢
    split at h
    · cases h
    rename_i h0
    rw [if_neg h0]
    dsimp only at h ⊢
    split at h
    · cases h
    rename_i h1
    rw [if_neg h1]
    rcases hr : runs W o.how n (W.minMoves o.minMoves o.params bdf) N 0 o.params with ⟨x | rows, q⟩
    · rw [hr] at h; cases h
    rw [hr] at h
    rw [runs_ncore W o.how n m _ _ _ _ _ _ hr]
    exact h
  exact ⟨key n m, key m n⟩

/-- C102: a call that raises leaves the stored results as they were; no firm with enough moves raises
`ValueError`. -/
theorem C102_failed (W : World) (o : Obj) (N ncore : ℕ) (bdf : Frame) :
    (∀ x o', attrition W o N ncore bdf = (.error x, o') → o'.res = o.res ∧ o'.how = o.how) ∧
    (firms bdf ≠ ∅ → W.minMoves o.minMoves o.params bdf = [] → (attrition W o N ncore bdf).1 = .error .value) := by
  constructor
  · intro x o' h
    unfold attrition at h
    split at h
    · obtain ⟨-, rfl⟩ := Prod.mk.inj h; exact ⟨rfl, rfl⟩
    dsimp only at h
    split at h
    · obtain ⟨-, rfl⟩ := Prod.mk.inj h; exact ⟨rfl, rfl⟩
    rcases hr : runs W o.how ncore (W.minMoves o.minMoves o.params bdf) N 0 o.params with ⟨x | rows, q⟩
    · rw [hr] at h
      obtain ⟨-, rfl⟩ := Prod.mk.inj h
      exact ⟨rfl, rfl⟩
    · rw [hr] at h; cases h
  · intro h1 h2
    unfold attrition
    rw [if_neg h1]
    dsimp only
    rw [if_pos h2]

/-- The reported number for two firms with values `a`, `b` and effects 0 and `c`. -/
theorem two_firms_vec (a b c : ℝ) : corrcoef [a, b] ([c] ++ [0]) =
    .ok (corr 2 (fun i => [a, b].getD i 0) (fun i => [c, 0].getD i 0)) := by
  simp [corrcoef]

/-- C102 fails in full: with two firms the number reported is minus the correlation between the values and the
effects of the firms (effect zero for the first firm, `c` for the second). -/
theorem C102_two_firms (a b c : ℝ) (x : ℝ) :
    corrcoef [a, b] ([c] ++ [0]) = .ok (some x) ↔
    Spec.IsCorrelation 2 (Spec.entry [a, b]) (Spec.entry [0, c]) (-x) := by
  rw [two_firms_vec, Except.ok.injEq, (C102_correlation _ _ _).1]
  have e1 : ∀ z : ℕ → ℝ, (∃ i < 2, ∃ j < 2, z i ≠ z j) ↔ z 0 ≠ z 1 := by
    intro z
    constructor
    · rintro ⟨i, hi, j, hj, h⟩ h0
      have : i = 0 ∨ i = 1 := by omega
      have : j = 0 ∨ j = 1 := by omega
      rcases ‹i = 0 ∨ i = 1› with rfl | rfl <;> rcases ‹j = 0 ∨ j = 1› with rfl | rfl <;> simp_all
    · intro h
      exact ⟨0, by omega, 1, by omega, h⟩
  unfold Spec.IsCorrelation
  rw [e1, e1, e1, e1]
  simp only [Spec.entry, Spec.moment, sum_range_succ, sum_range_zero, List.getD_cons_zero, List.getD_cons_succ]
  refine and_congr Iff.rfl (and_congr ne_comm ?_)
  have h2 : ((2 : ℕ) : ℝ) = 2 := by norm_num
  rw [h2]
  have e2 : (2 * (0 + c * c + 0 * 0) - (0 + c + 0) * (0 + c + 0) : ℝ) =
      2 * (0 + 0 * 0 + c * c) - (0 + 0 + c) * (0 + 0 + c) := by ring
  rw [e2]
  constructor
  · intro h
    linear_combination -h
  · intro h
    linear_combination -h

/-! ## The plot -/

/-- C102: one point per fraction: the fraction in percent, and the average over the simulations of the correlations of
that fraction (`nan` if one of them is or if there are none); before the results exist, plotting raises. -/
theorem C102_plot (o : Obj) (digits : ℕ) :
    (o.res = none → plot o digits = .error .axis) ∧
    ∀ rows, o.res = some rows → ∃ pts, plot o digits = .ok pts ∧ pts.length = o.how.fracs.length ∧
      ∀ (c : ℕ) f, o.how.fracs[c]? = some f → ∃ pt, pts[c]? = some pt ∧
        pt.1 = (npRound (100 * f * 10 ^ digits) : ℝ) / 10 ^ digits ∧
        (rows = [] → pt.2 = none) ∧
        (∀ (r : ℕ) row, rows[r]? = some row → row[c]? = some none → pt.2 = none) ∧
        ∀ xs : List ℝ, xs ≠ [] → List.Forall₂ (fun row x => row[c]? = some (some x)) rows xs →
          pt.2 = some (xs.sum / xs.length) := by
  constructor
  · intro h
    unfold plot
    rw [h]
  · intro rows h
    refine ⟨_, by unfold plot; rw [h], by simp [axisOf], ?_⟩
    intro c f hf
    refine ⟨((npRound (100 * f * 10 ^ digits) : ℝ) / 10 ^ digits, colMean rows c), ?_, rfl, ?_, ?_, ?_⟩
    · simp [axisOf, hf, List.getElem?_zipIdx]
    · intro h0
      simp [colMean, h0]
    · intro r row h1 h2
      unfold colMean
      dsimp only
      split
      · rfl
      · have hm : (rows.mapM fun (row : List (Option ℝ)) => row.getD c none) = none := by
          clear h
          induction rows generalizing r with
          | nil => simp at h1
          | cons a rows ih =>
            rw [List.mapM_cons]
            cases r with
            | zero =>
              simp only [List.getElem?_cons_zero, Option.some.injEq] at h1
              subst h1
              have : a.getD c none = none := by rw [List.getD_eq_getElem?_getD, h2]; rfl
              rw [this]
              rfl
            | succ r =>
              rw [List.getElem?_cons_succ] at h1
              have hne : rows ≠ [] := by rintro rfl; simp at h1
              rw [ih r h1 hne]
              cases a.getD c none <;> rfl
        rw [hm]
        rfl
    · intro xs hne hall
      have hr : rows ≠ [] := by rintro rfl; cases hall; exact hne rfl
      have hm : (rows.mapM fun (row : List (Option ℝ)) => row.getD c none) = some xs := by
        clear h hne hr
        induction hall with
        | nil => rfl
        | @cons a x rows xs h1 _ ih =>
          rw [List.mapM_cons, ih, List.getD_eq_getElem?_getD, h1]
          rfl
      unfold colMean
      dsimp only
      rw [if_neg hr, hm]
      rfl

/-! ## Concrete runs -/

/-- `n` elements of a set, if there are as many. -/
noncomputable def someOf (S : Finset ℕ) (n : ℕ) : Finset ℕ :=
  if h : n ≤ #S then (exists_subset_card_eq h).choose else ∅

/-- A world in which cleaning changes nothing and the two estimators return fixed vectors for two firms. -/
noncomputable def demoWorld : World :=
  ⟨fun _ _ => someOf, fun _ f => .ok f, fun _ _ f => f, fun _ => .ok [1], fun _ => .ok [0, 2]⟩

/-- Two workers moving between two firms. -/
def demoFrame : Frame := [⟨0, 0, 1⟩, ⟨0, 1, 1⟩, ⟨1, 1, 1⟩, ⟨1, 0, 1⟩]

noncomputable def demoObj : Obj := ⟨15, .decr [1, 1 / 2], ⟨true, false, true, some "strongly_connected", 0⟩, none, none⟩

/-- The hypotheses of `C102_stored_partial` are met by a run, which reports -1 although the firm with the larger
effect has the larger value. -/
theorem C102_run : (∀ r t S n, n ≤ #S → demoWorld.pick r t S n ⊆ S ∧ #(demoWorld.pick r t S n) = n) ∧
    ∃ o', attrition demoWorld demoObj 2 3 demoFrame = (.ok (), o') ∧
      o'.res = some [[some (-1), some (-1)], [some (-1), some (-1)]] := by
  constructor
  · intro r t S n h
    show someOf S n ⊆ S ∧ #(someOf S n) = n
    unfold someOf
    rw [dif_pos h]
    exact (exists_subset_card_eq h).choose_spec
  · have hv : ∀ p bdf s, interior demoWorld p bdf s = .ok (some (-1)) := by
      intro p bdf s
      show corrcoef [0, 2] ([1] ++ [0]) = _
      rw [C102_two_firms]
      refine ⟨⟨0, by omega, 1, by omega, by simp [Spec.entry]⟩, ⟨0, by omega, 1, by omega, by simp [Spec.entry]⟩, ?_⟩
      simp only [Spec.entry, Spec.moment, sum_range_succ, sum_range_zero, List.getD_cons_zero, List.getD_cons_succ]
      norm_num
      rw [show (4 : ℝ) = 2 * 2 by norm_num, Real.sqrt_mul_self (by norm_num)]
    have hm : ∀ p bdf (l : List Subset), l.mapM (interior demoWorld p bdf) = .ok (l.map fun _ => some (-1)) := by
      intro p bdf l
      induction l with
      | nil => rfl
      | cons a l ih => rw [List.mapM_cons, hv, ih]; rfl
    have hone : ∀ r, single demoWorld demoObj.how 3 r demoFrame demoObj.params =
        (.ok [some (-1), some (-1)], demoObj.params) := by
      intro r
      unfold single
      show (runAll 3 (interior demoWorld demoObj.params demoFrame)
        (genDecreasing [1, 1 / 2] ⟨demoWorld.pick r, demoWorld.clean⟩ demoFrame), demoObj.params) = _
      rw [(runAll_ncore _ _ _ _).mpr (hm _ _ _)]
      rfl
    have hr : runs demoWorld demoObj.how 3 demoFrame 2 0 demoObj.params =
        (.ok [[some (-1), some (-1)], [some (-1), some (-1)]], demoObj.params) := by
      have ha : assignRow demoObj.how.fracs.length [some (-1 : ℝ), some (-1)] = .ok [some (-1), some (-1)] := rfl
      rw [runs, hone]
      dsimp only
      rw [ha]
      dsimp only
      rw [runs, hone]
      dsimp only
      rw [ha]
      rfl
    refine ⟨⟨15, demoObj.how, demoObj.params, some (#(movers demoFrame) / #(firms demoFrame)),
      some [[some (-1), some (-1)], [some (-1), some (-1)]]⟩, ?_, ?_⟩
    · unfold attrition
      have h0 : firms demoFrame ≠ ∅ := by decide
      rw [if_neg h0]
      dsimp only
      have h1 : demoWorld.minMoves demoObj.minMoves demoObj.params demoFrame = demoFrame := rfl
      have h2 : demoFrame ≠ [] := by simp [demoFrame]
      rw [h1, if_neg h2, hr]
      rfl
    · rfl

/-- C102: a failed draw of the first subset of increasing fractions raises and leaves the object with cleaning
parameters that no longer drop single stayers, whatever the user asked for. -/
theorem C102_dropping_lost (W : World) (o : Obj) (N ncore : ℕ) (bdf : Frame) (a : Incr) (hn : N ≠ 0)
    (hh : o.how = .incr a) (hf : firms bdf ≠ ∅) (hb : W.minMoves o.minMoves o.params bdf ≠ [])
    (hmin : a.minFirms ≤ #(firms (W.minMoves o.minMoves o.params bdf))) (x : Exc)
    (hx : (gen o.how ⟨W.pick 0, W.clean⟩ (W.minMoves o.minMoves o.params bdf) o.params).1 = .error x) :
    ∃ o', attrition W o N ncore bdf = (.error x, o') ∧ o'.params.dropSingle = false := by
  obtain ⟨N, rfl⟩ := Nat.exists_eq_succ_of_ne_zero hn
  unfold attrition
  rw [if_neg hf]
  dsimp only
  rw [if_neg hb]
  have hg : (gen o.how ⟨W.pick 0, W.clean⟩ (W.minMoves o.minMoves o.params bdf) o.params).2.dropSingle = false := by
    rw [hh] at hx ⊢
    unfold gen genIncreasing at hx ⊢
    dsimp only at hx ⊢
    rw [if_neg (by omega)] at hx ⊢
    split at hx
    · rfl
    · cases hx
  rw [runs]
  unfold single
  rcases hgen : gen o.how ⟨W.pick 0, W.clean⟩ (W.minMoves o.minMoves o.params bdf) o.params with ⟨y | l, q⟩
  · rw [hgen] at hx hg
    have : y = x := by simpa using hx
    subst this
    exact ⟨_, rfl, hg⟩
  · rw [hgen] at hx; cases hx

/-- Cleaning that leaves nothing raises `ValueError`: the only draw fails although single stayers were to be
dropped. -/
theorem C102_dropping_lost_demo : ∃ o', attrition { demoWorld with clean := fun _ _ => .error .value }
    { demoObj with how := .incr ⟨[0, 1], 1, 2⟩ } 1 1 demoFrame = (.error .value, o') ∧
    demoObj.params.dropSingle = true ∧ o'.params.dropSingle = false := by
  have hc2 : #(firms demoFrame) = 2 := by decide
  obtain ⟨o', h1, h2⟩ := C102_dropping_lost { demoWorld with clean := fun _ _ => .error .value }
    { demoObj with how := .incr ⟨[0, 1], 1, 2⟩ } 1 1 demoFrame ⟨[0, 1], 1, 2⟩ (by omega) rfl (by decide)
    (by simp [demoWorld, demoFrame]) (by show 2 ≤ #(firms demoFrame); omega) .value (by
      show (genIncreasing ⟨[0, 1], 1, 2⟩ ⟨_, _⟩ demoFrame demoObj.params).1 = _
      have hr : npRound ((1 - 0) * ((#(movers demoFrame) : ℕ) : ℝ)) = ((#(movers demoFrame) : ℕ) : ℤ) := by
        rw [sub_zero, one_mul]
        exact_mod_cast npRound_int ((#(movers demoFrame) : ℕ) : ℤ)
      unfold genIncreasing
      rw [if_neg (by rw [hc2]; exact lt_irrefl 2)]
      simp only [List.map_cons, List.headD_cons, firstDraw, choice]
      rw [hr, if_neg (by omega)]
      rfl)
  exact ⟨o', h1, rfl, h2⟩

end Pytwoway.SorkinAttrition
