import Verif.BLM.PlotsProps

/-! # C99: classes that do not occur, guards, and the plots of the bootstrap -/

namespace Pytwoway.Plots

open Finset Pytwoway.BLM Pytwoway.Dynamic

variable {nl nk : ℕ}

/-! ## Classes without movers, missing counts -/

theorem levels_lt {n : ℕ} (g : Fin n → Fin nk) (k : Fin nk) (h : ∀ i, g i ≠ k) : (levels g).length < nk := by
  have h1 : (levels g).length ≤ (List.finRange nk).length := List.length_filter_le _ _
  rw [List.length_finRange] at h1
  refine lt_of_le_of_ne h1 fun he => ?_
  have h2 : levels g = List.finRange nk := by
    unfold levels at he ⊢
    exact (List.filter_sublist (l := List.finRange nk)).eq_of_length (by simpa using he)
  have h3 : k ∈ levels g := by rw [h2]; exact List.mem_finRange k
  simp only [levels, List.mem_filter, decide_eq_true_eq] at h3
  obtain ⟨-, i, hi⟩ := h3
  exact h i hi

theorem order_ne_id (a : Argsort) (ha : a.Right) (pp : BLM.Primary) (m : Fitted nl nk)
    (h : ¬ Monotone fun k => ∑ l, Spec.primary pp m l k) : (m.sorted a pp).order ≠ id := by
  obtain ⟨w, f, -, -, -, ho, -, hf⟩ := sorted_spec a ha pp m
  intro he
  rw [ho] at he
  apply h
  simpa [he] using hf

theorem order_id (a : Argsort) (ha : a.Right) (pp : BLM.Primary) (m : Fitted nl nk)
    (h : StrictMono fun k => ∑ l, Spec.primary pp m l k) : (m.sorted a pp).order = id := by
  obtain ⟨w, f, -, -, -, ho, -, hf⟩ := sorted_spec a ha pp m
  rw [ho, perm_of_strictMono _ h f hf]
  rfl

/-- C99 fails when a class has no mover in one of the periods.  If the classes are out of order, movers (and all
workers) are not drawn at all: `IndexError`. -/
theorem C99_class_without_movers {n ns : ℕ} (a : Argsort) (ha : a.Right) (pp : BLM.Primary) (m : Fitted nl nk)
    (g : Fin 2 → Fin n → Fin nk) (s : Fin ns → Fin nk) (t : Fin 2) (k : Fin nk) (hk : ∀ i, g t i ≠ k)
    (h : ¬ Monotone fun k => ∑ l, Spec.primary pp m l k) (per : Period) (sub : Subset)
    (hsub : sub = .movers ∨ sub = .all) :
    typeBars a pp (jobOf m g s) per sub = .error "IndexError" := by
  have h1 := order_ne_id a ha pp m h
  have h2 : (countMovers g).rows < nk ∨ (countMovers g).cols < nk := by
    fin_cases t
    · exact Or.inl (levels_lt _ k hk)
    · exact Or.inr (levels_lt _ k hk)
  have h3 : sortTab (m.sorted a pp).order (countMovers g) = .error "IndexError" := by
    unfold sortTab
    rw [if_neg h1, if_pos h2]
  rcases hsub with rfl | rfl
  · simp only [typeBars, Job.shares, Job.movers, jobOf, h3, bind, Except.bind]
  · simp only [typeBars, Job.shares, Job.everyone, jobOf, h3, bind, Except.bind]

theorem filter_finRange (k0 : Fin nk) : (List.finRange nk).filter (fun k => decide (k = k0)) = [k0] := by
  have h1 := (List.nodup_finRange nk).filter fun k => decide (k = k0)
  have h2 : ∀ k ∈ (List.finRange nk).filter (fun k => decide (k = k0)), k = k0 := by
    intro k hk
    simpa using (List.mem_filter.mp hk).2
  have h3 : k0 ∈ (List.finRange nk).filter (fun k => decide (k = k0)) := by simp
  generalize (List.finRange nk).filter (fun k => decide (k = k0)) = L at h1 h2 h3
  match L, h1, h2, h3 with
  | [x], _, h2, _ => rw [h2 x (by simp)]
  | x :: y :: L, h1, h2, _ =>
    have := h2 x (by simp)
    have := h2 y (by simp)
    simp_all

/-- C99 fails: if the classes are in order and all movers start from one and the same class, a bar of first-period
movers is drawn for every class, also for those where no mover is. -/
theorem C99_bars_for_nobody {n ns : ℕ} (a : Argsort) (ha : a.Right) (pp : BLM.Primary) (m : Fitted nl nk)
    (hm : Spec.Prob m) (h : StrictMono fun k => ∑ l, Spec.primary pp m l k) (g : Fin 2 → Fin n → Fin nk)
    (s : Fin ns → Fin nk) (k0 : Fin nk) (h0 : ∀ i, g 0 i = k0) (h1 : ∀ k, ∃ i, g 1 i = k) :
    ∃ b, typeBars a pp (jobOf m g s) .first .movers = .ok b ∧ ∀ k, ∑ l, b.height k l = 1 := by
  obtain ⟨w, f, -, hp1, -, ho, -, hf⟩ := sorted_spec a ha pp m
  obtain ⟨i0, -⟩ := h1 k0
  have hl : levels (g 0) = [k0] := by
    unfold levels
    have : (fun k => decide (∃ i, g 0 i = k)) = fun k => decide (k = k0) := by
      funext k
      congr 1
      simp only [h0, eq_iff_iff]
      exact ⟨fun ⟨_, h⟩ => h.symm, fun h => ⟨i0, h.symm⟩⟩
    rw [this]
    exact filter_finRange k0
  have e1 : sortTab (m.sorted a pp).order (countMovers g) = .ok (countMovers g) := by
    unfold sortTab
    rw [if_pos (order_id a ha pp m h)]
  have er : (countMovers g).rows = 1 := by simp [countMovers, hl]
  have ec : (countMovers g).cols = nk := by simp [countMovers, levels_full _ h1]
  have e2 : moverShares (nk := nk) (m.sorted a pp).pk1 (countMovers g) = .ok (_, _) :=
    if_pos ⟨Or.inl er, Or.inr ec⟩
  have hv : ∀ y : Fin nk, (countMovers g).val 0 y.val = (#{i | g 1 i = y} : ℕ) := by
    intro y
    simp only [countMovers, hl, levels_full _ h1, level_iff, h0]
    simp
  have hN : (countMovers g).N1 0 = ∑ y : Fin nk, (countMovers g).val 0 y.val := by
    unfold Tab.N1
    rw [ec, ← Fin.sum_univ_eq_sum_range]
  have hpos : 0 < (countMovers g).N1 0 := by
    rw [hN]
    have : (univ : Finset (Fin nk)).Nonempty := ⟨k0, mem_univ _⟩
    exact sum_pos (fun y _ => by rw [hv]; exact card_pos' _ _ (h1 y)) this
  refine ⟨_, by simp only [typeBars, Job.shares, Job.movers, jobOf, e1, e2, bind, Except.bind, pick]; rfl, fun k => ?_⟩
  simp only [stack, er, ec, bc_full]
  simp only [bc, if_true]
  rw [← sum_div, sum_comm, div_eq_one_iff_eq hpos.ne', hN]
  refine sum_congr rfl fun j _ => ?_
  rw [← mul_sum]
  have : ∑ l, (m.sorted a pp).pk1 (k.val * nk + j.val) l = 1 := by
    rw [Nat.add_comm, Nat.mul_comm]
    simp only [hp1]
    rw [Equiv.sum_comp w fun l => Spec.mover m (f j) (f k) l]
    exact (hm.mover _ _).2
  rw [this, mul_one]

/-- C99: before the fits have been run a static model refuses exactly the subsets whose counts are missing. -/
theorem C99_not_yet_fitted (a : Argsort) (pp : BLM.Primary) (p : AllParams 0 nl nk) (t : Option Tab) (v : Option Vec)
    (per : Period) :
    (t = none → typeBars a pp ⟨.static p, t, v⟩ per .movers = .error "ValueError") ∧
    (v = none → typeBars a pp ⟨.static p, t, v⟩ per .stayers = .error "ValueError") ∧
    (t = none ∨ v = none → typeBars a pp ⟨.static p, t, v⟩ per .all = .error "ValueError") ∧
    (∀ v', v = some v' → v'.len = nk → per ≠ .other → ∃ b, typeBars a pp ⟨.static p, t, v⟩ per .stayers = .ok b) := by
  refine ⟨?_, ?_, ?_, ?_⟩
  · rintro rfl; rfl
  · rintro rfl; rfl
  · rintro (rfl | rfl)
    · rfl
    · cases t <;> rfl
  · rintro v' rfl hl hper
    have : ∃ v'', sortVec ((Fitted.static p).sorted a pp).order v' = .ok v'' := by
      unfold sortVec
      split
      · exact ⟨_, rfl⟩
      · rw [if_neg (by omega)]; exact ⟨_, rfl⟩
    obtain ⟨v'', hv⟩ := this
    simp only [typeBars, Job.shares, Job.stayers, Job.stayersGuard, Option.isSome_some, if_true, hv, bind, Except.bind]
    rw [pick_ok per hper]
    exact ⟨_, rfl⟩

/-- C99 fails: a dynamic model with fitted stayers refuses to draw them as long as the movers have not been counted. -/
theorem C99_dynamic_stayers_refused (a : Argsort) (pp : BLM.Primary) (x : DAll nl nk) (v : Vec) (per : Period) :
    typeBars a pp ⟨.dyn x, none, some v⟩ per .stayers = .error "ValueError" := rfl

/-! ## Bootstrap: type proportions -/

/-- The counts have a row, a column and an entry for every class. -/
structure Spec.FullCounts (j : Job nl nk) : Prop where
  movers : ∃ t, j.NNm = some t ∧ t.rows = nk ∧ t.cols = nk
  stayers : ∃ v, j.NNs = some v ∧ v.len = nk

theorem boot_eq (a : Argsort) (pp : BLM.Primary) (j : Job nl nk) (hj : Spec.FullCounts j) (per : Period)
    (sub : Subset) (b : Bars nl nk) (h : typeBars a pp j per sub = .ok b) :
    j.bootShares a pp per sub = .ok b.height := by
  obtain ⟨⟨t, ht, hr, hc⟩, v, hv, hl⟩ := hj
  obtain ⟨t', ht'⟩ : ∃ t', sortTab (j.model.sorted a pp).order t = .ok t' := by
    unfold sortTab
    split
    · exact ⟨_, rfl⟩
    · rw [if_neg (by omega)]; exact ⟨_, rfl⟩
  obtain ⟨v', hv'⟩ : ∃ v', sortVec (j.model.sorted a pp).order v = .ok v' := by
    unfold sortVec
    split
    · exact ⟨_, rfl⟩
    · rw [if_neg (by omega)]; exact ⟨_, rfl⟩
  have e : j.shares a pp sub = subsetShares (j.model.sorted a pp) t' v' sub := by
    cases sub with
    | movers => simp only [Job.shares, Job.movers, ht, ht', bind, Except.bind, subsetShares]
    | stayers =>
      have : j.stayersGuard = true := by
        unfold Job.stayersGuard
        cases j.model <;> simp [ht, hv]
      simp only [Job.shares, Job.stayers, this, if_true, hv, hv', bind, Except.bind, subsetShares]
    | all => simp only [Job.shares, Job.everyone, ht, hv, ht', hv', bind, Except.bind, subsetShares]
    | other => rfl
  simp only [typeBars, e, bind, Except.bind] at h
  simp only [Job.bootShares, ht, hv, ht', hv', bind, Except.bind]
  generalize subsetShares (j.model.sorted a pp) t' v' sub = r at h ⊢
  rcases r with e | p
  · cases h
  · simp only at h ⊢
    generalize pick per p.1 p.2 = q at h ⊢
    rcases q with e | q
    · cases h
    · cases h
      rfl

theorem sumShares_eq (a : Argsort) (pp : BLM.Primary) (per : Period) (sub : Subset) (B : Job nl nk → Bars nl nk) :
    ∀ (js : List (Job nl nk)) (acc : Fin nk → Fin nl → ℝ), (∀ j ∈ js, j.bootShares a pp per sub = .ok (B j).height) →
      sumShares a pp per sub acc js = .ok fun k l => acc k l + (js.map fun j => (B j).height k l).sum
  | [], acc, _ => by simp [sumShares]
  | j :: js, acc, h => by
    simp only [sumShares, h j (by simp), bind, Except.bind]
    rw [sumShares_eq a pp per sub B js _ fun j hj => h j (by simp [hj])]
    simp [add_assoc]

/-- C99: the bars of a bootstrap are the averages of the bars of its models; in particular they stand on each other
and reach one if those of every model do. -/
theorem C99_bootstrap_bars (a : Argsort) (pp : BLM.Primary) (js : List (Job nl nk)) (hne : js ≠ [])
    (hj : ∀ j ∈ js, Spec.FullCounts j) (per : Period) (sub : Subset) (B : Job nl nk → Bars nl nk)
    (hB : ∀ j ∈ js, typeBars a pp j per sub = .ok (B j)) :
    ∃ b, bootBars a pp js per sub = .ok b ∧
      (∀ k l, b.height k l = (js.map fun j => (B j).height k l).sum / js.length) ∧
      ((∀ j ∈ js, Spec.Stacked (B j)) → Spec.Stacked b) := by
  have h := sumShares_eq a pp per sub B js (fun _ _ => 0) fun j h => boot_eq a pp j (hj j h) per sub _ (hB j h)
  have hb : bootBars a pp js per sub = .ok (stack fun k l => (js.map fun j => (B j).height k l).sum / js.length) := by
    simp only [bootBars, h, bind, Except.bind, zero_add]
  refine ⟨_, hb, fun k l => rfl, fun hS => ?_⟩
  have hpos : (0 : ℝ) < js.length := by exact_mod_cast List.length_pos_iff.mpr hne
  have tops : ∀ j ∈ js, ∀ k (l : Fin nl), l.val + 1 = nl → cums (B j).height k l.val = 1 := by
    intro j h k l hl
    obtain ⟨q, hq⟩ : ∃ q, B j = stack q := by
      have := hB j h
      simp only [typeBars, bind, Except.bind] at this
      generalize j.shares a pp sub = r at this
      rcases r with e | p
      · cases this
      · simp only at this
        generalize pick per p.1 p.2 = q at this
        rcases q with e | q
        · cases this
        · exact ⟨q, (Except.ok.inj this).symm⟩
    have hs := (hS j h).top k l hl
    rw [hq] at hs ⊢
    rw [← hs]
    exact (stack_top q k l).symm
  refine stack_of_top _ (fun k l => div_nonneg (List.sum_nonneg fun x hx => ?_) hpos.le) fun k l hl => ?_
  · obtain ⟨j, hj, rfl⟩ := List.mem_map.mp hx
    exact (hS j hj).nonneg k l
  · have e : cums (fun k l => (js.map fun j => (B j).height k l).sum / (js.length : ℝ)) k l.val =
        (js.map fun j => cums (B j).height k l.val).sum / js.length := by
      unfold cums
      rw [← sum_div]
      congr 1
      clear h hb hne hj hB hS tops hpos
      induction js with
      | nil => simp
      | cons j js ih => simp only [List.map_cons, List.sum_cons, sum_add_distrib, ih]
    rw [e, List.map_congr_left (g := fun _ => (1 : ℝ)) fun j hj => tops j hj k l hl]
    simp [hpos.ne']

/-- C99 fails: the bootstrap refuses even to draw stayers if in one model some class has no mover and the classes are
out of order, although that model draws its stayers. -/
theorem C99_bootstrap_stayers_refused {n ns : ℕ} (a : Argsort) (ha : a.Right) (pp : BLM.Primary) (m : Fitted nl nk)
    (g : Fin 2 → Fin n → Fin nk) (s : Fin ns → Fin nk) (hs : ∀ k, ∃ i, s i = k) (t : Fin 2) (k : Fin nk)
    (hk : ∀ i, g t i ≠ k) (h : ¬ Monotone fun k => ∑ l, Spec.primary pp m l k) (per : Period) (hper : per ≠ .other)
    (js : List (Job nl nk)) :
    (∃ b, typeBars a pp (jobOf m g s) per .stayers = .ok b) ∧
    bootBars a pp (jobOf m g s :: js) per .stayers = .error "IndexError" := by
  have h1 := order_ne_id a ha pp m h
  have h2 : (countMovers g).rows < nk ∨ (countMovers g).cols < nk := by
    fin_cases t
    · exact Or.inl (levels_lt _ k hk)
    · exact Or.inr (levels_lt _ k hk)
  have h3 : sortTab (m.sorted a pp).order (countMovers g) = .error "IndexError" := by
    unfold sortTab
    rw [if_neg h1, if_pos h2]
  constructor
  · have hl := (countStayers_full s hs).1
    obtain ⟨v', hv⟩ : ∃ v', sortVec (m.sorted a pp).order (countStayers s) = .ok v' := by
      unfold sortVec
      rw [if_neg h1, if_neg (by omega)]
      exact ⟨_, rfl⟩
    have hG : (jobOf m g s).stayersGuard = true := by cases m <;> rfl
    simp only [typeBars, Job.shares, Job.stayers, hG, if_true]
    simp only [jobOf, hv, bind, Except.bind]
    rw [pick_ok per hper]
    exact ⟨_, rfl⟩
  · simp only [bootBars, sumShares, Job.bootShares, jobOf, h3, bind, Except.bind]

/-! ## Bootstrap: error bars -/

/-- `y` is the `q`-th percentile of `n + 1` values: at most a fraction `q` of `n` of them lie below it and at most the rest
above. -/
structure Spec.Percentile {n : ℕ} (q : ℝ) (v : Fin (n + 1) → ℝ) (y : ℝ) : Prop where
  below : q / 100 * n < (#{i | v i ≤ y} : ℕ)
  above : n - q / 100 * n ≤ (#{i | y ≤ v i} : ℕ)

theorem card_sorted {n : ℕ} (v : Fin (n + 1) → ℝ) (P : ℝ → Prop) [DecidablePred P] :
    #{i | P (v i)} = #{x | P ((v ∘ Tuple.sort v) x)} := by
  refine (card_bij (fun x _ => Tuple.sort v x) ?_ ?_ ?_).symm
  · intro x hx
    simpa using hx
  · intro x _ y _ h
    exact (Tuple.sort v).injective h
  · intro i hi
    exact ⟨(Tuple.sort v).symm i, by simpa using hi, by simp⟩

theorem percentile_spec {n : ℕ} (q : ℝ) (h0 : 0 ≤ q) (h1 : q ≤ 100) (v : Fin (n + 1) → ℝ) :
    Spec.Percentile q v (percentile q v) := by
  have hn : (0 : ℝ) ≤ n := Nat.cast_nonneg n
  set pos := q / 100 * n with hpos
  have p0 : 0 ≤ pos := by positivity
  have pn : pos ≤ n := by
    rw [hpos]
    have : q / 100 ≤ 1 := by linarith
    nlinarith
  set s := v ∘ Tuple.sort v with hs
  have mono : Monotone s := Tuple.monotone_sort v
  have fl : (⌊pos⌋₊ : ℝ) ≤ pos := Nat.floor_le p0
  have fl2 : pos < ⌊pos⌋₊ + 1 := Nat.lt_floor_add_one pos
  have fn : ⌊pos⌋₊ ≤ n := by exact_mod_cast fl.trans pn
  have hstep : atPos s ⌊pos⌋₊ ≤ atPos s (⌊pos⌋₊ + 1) := mono (by simp [Fin.le_def])
  have e : percentile q v = atPos s ⌊pos⌋₊ + (pos - ⌊pos⌋₊) * (atPos s (⌊pos⌋₊ + 1) - atPos s ⌊pos⌋₊) := rfl
  have lo : atPos s ⌊pos⌋₊ ≤ percentile q v := by
    rw [e]
    have := mul_nonneg (sub_nonneg.mpr fl) (sub_nonneg.mpr hstep)
    linarith
  have hi : percentile q v ≤ atPos s (⌊pos⌋₊ + 1) := by
    rw [e]
    have : (pos - ⌊pos⌋₊) * (atPos s (⌊pos⌋₊ + 1) - atPos s ⌊pos⌋₊) ≤
        1 * (atPos s (⌊pos⌋₊ + 1) - atPos s ⌊pos⌋₊) :=
      mul_le_mul_of_nonneg_right (by linarith) (sub_nonneg.mpr hstep)
    linarith
  constructor
  · rw [card_sorted v fun x => x ≤ percentile q v]
    have : #(univ.filter fun x : Fin (n + 1) => x.val ≤ ⌊pos⌋₊) ≤ #{x | s x ≤ percentile q v} := by
      refine card_le_card fun x hx => ?_
      simp only [mem_filter, mem_univ, true_and] at hx ⊢
      exact le_trans (mono (by simp [Fin.le_def]; omega)) lo
    have c : #(univ.filter fun x : Fin (n + 1) => x.val ≤ ⌊pos⌋₊) = ⌊pos⌋₊ + 1 := by
      have : (univ.filter fun x : Fin (n + 1) => x.val ≤ ⌊pos⌋₊) = Finset.Iic ⟨⌊pos⌋₊, by omega⟩ := by
        ext x; simp [Fin.le_def]
      rw [this, Fin.card_Iic]
    rw [c] at this
    have : ((⌊pos⌋₊ : ℝ) + 1) ≤ (#{x | s x ≤ percentile q v} : ℕ) := by exact_mod_cast this
    linarith
  · rw [card_sorted v fun x => percentile q v ≤ x]
    have : #(univ.filter fun x : Fin (n + 1) => ⌊pos⌋₊ + 1 ≤ x.val) ≤ #{x | percentile q v ≤ s x} := by
      refine card_le_card fun x hx => ?_
      simp only [mem_filter, mem_univ, true_and] at hx ⊢
      exact le_trans hi (mono (by simp [Fin.le_def]; omega))
    have c : #(univ.filter fun x : Fin (n + 1) => ⌊pos⌋₊ + 1 ≤ x.val) = n - ⌊pos⌋₊ := by
      have h : (univ.filter fun x : Fin (n + 1) => ⌊pos⌋₊ + 1 ≤ x.val) = Finset.Ioi ⟨⌊pos⌋₊, by omega⟩ := by
        ext x; simp [Fin.lt_def]
      rw [h, Fin.card_Ioi]
      simp
    rw [c] at this
    have : ((n : ℝ) - ⌊pos⌋₊) ≤ (#{x | percentile q v ≤ s x} : ℕ) := by
      rw [← Nat.cast_sub fn]
      exact_mod_cast this
    linarith

theorem sum_sorted {n : ℕ} (v : Fin (n + 1) → ℝ) : ∑ i, v i = ∑ x, (v ∘ Tuple.sort v) x :=
  (Equiv.sum_comp (Tuple.sort v) v).symm

/-- With at most forty values the mean lies between the two percentiles. -/
theorem mean_between {n : ℕ} (hn : n + 1 ≤ 40) (v : Fin (n + 1) → ℝ) :
    percentile 2.5 v ≤ (∑ i, v i) / ((n : ℝ) + 1) ∧ (∑ i, v i) / ((n : ℝ) + 1) ≤ percentile 97.5 v := by
  rw [sum_sorted]
  simp only [percentile]
  set s := v ∘ Tuple.sort v with hs
  have mono : Monotone s := Tuple.monotone_sort v
  clear_value s
  rcases n with _ | n
  · simp [atPos]
  have hn' : ((n : ℝ) + 1 + 1) ≤ 40 := by exact_mod_cast hn
  have n0 : (0 : ℝ) ≤ n := Nat.cast_nonneg n
  have f1 : ⌊(2.5 : ℝ) / 100 * ((n + 1 : ℕ) : ℝ)⌋₊ = 0 := by
    rw [Nat.floor_eq_zero]
    push_cast
    linarith
  have f2 : ⌊(97.5 : ℝ) / 100 * ((n + 1 : ℕ) : ℝ)⌋₊ = n := by
    rw [Nat.floor_eq_iff (by positivity)]
    push_cast
    constructor <;> linarith
  rw [f1, f2]
  have a0 : atPos s 0 = s 0 := rfl
  have a1 : atPos s (0 + 1) = s 1 := by
    unfold atPos; congr 1
  have a2 : atPos s n = s ⟨n, by omega⟩ := by
    unfold atPos; congr 1; ext; simp
  have a3 : atPos s (n + 1) = s (Fin.last (n + 1)) := by
    unfold atPos; congr 1; ext; simp
  rw [a0, a1, a2, a3]
  constructor
  · rw [Fin.sum_univ_succ, le_div_iff₀ (by positivity)]
    have h1 : ((n : ℝ) + 1) * s 1 ≤ ∑ i : Fin (n + 1), s i.succ := by
      have : ∑ _i : Fin (n + 1), s 1 ≤ ∑ i : Fin (n + 1), s i.succ :=
        sum_le_sum fun i _ => mono (by simp [Fin.le_def])
      simpa using this
    have h2 : s 0 ≤ s 1 := mono (by simp)
    push_cast
    nlinarith [mul_nonneg (mul_nonneg (sub_nonneg.mpr hn') (by linarith : (0 : ℝ) ≤ n + 1)) (sub_nonneg.mpr h2)]
  · rw [Fin.sum_univ_castSucc, div_le_iff₀ (by positivity)]
    have h1 : ∑ i : Fin (n + 1), s i.castSucc ≤ ((n : ℝ) + 1) * s ⟨n, by omega⟩ := by
      have : ∑ i : Fin (n + 1), s i.castSucc ≤ ∑ _i : Fin (n + 1), s ⟨n, by omega⟩ :=
        sum_le_sum fun i _ => mono (by simp [Fin.le_def]; omega)
      simpa using this
    have h2 : s ⟨n, by omega⟩ ≤ s (Fin.last (n + 1)) := mono (by simp [Fin.le_def])
    push_cast
    nlinarith [mul_nonneg (mul_nonneg (sub_nonneg.mpr hn') (by linarith : (0 : ℝ) ≤ n + 1)) (sub_nonneg.mpr h2)]

/-- C99 (partial: at most forty models).  The bootstrap's plot of log earnings draws, for every pair of types, the
average of the models' lines and the 2.5 and 97.5 percentiles around it. -/
theorem C99_error_bars_partial {n : ℕ} (hn : n + 1 ≤ 40) (a : Argsort) (pp : BLM.Primary)
    (ms : Fin (n + 1) → Fitted nl nk) (per : Period) (L : Fin (n + 1) → Fin nl → Fin nk → ℝ)
    (hL : ∀ i, logLines a pp (ms i) per = .ok (L i)) :
    ∃ e, bootLog a pp ms per = .ok e ∧ ∀ l k, e.mean l k = (∑ i, L i l k) / ((n : ℝ) + 1) ∧
      Spec.Percentile 2.5 (fun i => L i l k) (e.lower l k) ∧ Spec.Percentile 97.5 (fun i => L i l k) (e.upper l k) ∧
      e.lower l k ≤ e.mean l k ∧ e.mean l k ≤ e.upper l k := by
  have h : bootLines a pp ms per = .ok L := by
    cases per with
    | other => exact absurd (hL 0) (by simp [logLines, pick])
    | first | second | all =>
      simp only [logLines, pick, Except.ok.injEq] at hL
      simp only [bootLines]
      congr 1
      funext i
      exact hL i
  have hm := fun l k => mean_between hn fun i => L i l k
  have hd : drawErrs L = .ok ⟨_, _, _⟩ := if_neg (by
    push Not
    exact fun l k => ⟨sub_nonneg.mpr (hm l k).1, sub_nonneg.mpr (hm l k).2⟩)
  refine ⟨_, by simp only [bootLog, h, bind, Except.bind]; exact hd, fun l k => ⟨rfl, ?_, ?_, (hm l k).1, (hm l k).2⟩⟩
  · exact percentile_spec _ (by norm_num) (by norm_num) _
  · exact percentile_spec _ (by norm_num) (by norm_num) _

/-- C99 fails: for every larger number of models there are some for which the plot raises, because one outlier moves
the mean above the 97.5 percentile and an error bar would be negative. -/
theorem C99_error_bars_raise {n : ℕ} (hn : 41 ≤ n + 1) (hl : 0 < nl) (hk : 0 < nk) (a : Argsort) (ha : a.Right)
    (pp : BLM.Primary) (per : Period) (hper : per ≠ .other) :
    ∃ ms : Fin (n + 1) → Fitted nl nk, bootLog a pp ms per = .error "ValueError" := by
  let v : Fin (n + 1) → ℝ := fun i => if i = 0 then 1 else 0
  let ms : Fin (n + 1) → Fitted nl nk := fun i => .static
    ⟨⟨fun _ _ _ => v i, fun _ _ _ => 1⟩, [], fun _ _ => 0, fun _ _ => 0, fun _ _ => 0, fun _ => 0⟩
  refine ⟨ms, ?_⟩
  have hA : ∀ i t l k, ((ms i).sorted a pp).A t l k = v i := by
    intro i t l k
    obtain ⟨w, f, h, -⟩ := sorted_spec a ha pp (ms i)
    rw [h]
    rfl
  have hL : bootLines a pp ms per = .ok fun i _ _ => v i := by
    cases per with
    | other => exact absurd rfl hper
    | first | second => simp only [bootLines]; congr 1
    | all =>
      simp only [bootLines, hA]
      congr 1
      funext i l k
      ring
  have n40 : (40 : ℝ) ≤ n := by
    have : 40 ≤ n := by omega
    exact_mod_cast this
  have hu : percentile 97.5 v ≤ 0 := by
    simp only [percentile]
    set s := v ∘ Tuple.sort v with hs
    have mono : Monotone s := Tuple.monotone_sort v
    have h01 : ∀ x, s x = 0 ∨ s x = 1 := by
      intro x
      simp only [hs, Function.comp, v]
      split
      · exact Or.inr rfl
      · exact Or.inl rfl
    have hz : ∀ x : Fin (n + 1), x.val ≤ n - 1 → s x = 0 := by
      intro x hx
      rcases h01 x with h | h
      · exact h
      · exfalso
        have h2 : s (Fin.last n) = 1 := by
          rcases h01 (Fin.last n) with h2 | h2
          · have := mono (Fin.le_last x)
            rw [h, h2] at this
            norm_num at this
          · exact h2
        have e1 : Tuple.sort v x = 0 := by
          by_contra hne
          simp [hs, v, hne] at h
        have e2 : Tuple.sort v (Fin.last n) = 0 := by
          by_contra hne
          simp [hs, v, hne] at h2
        have := (Tuple.sort v).injective (e1.trans e2.symm)
        rw [this] at hx
        simp at hx
        omega
    set pos := (97.5 : ℝ) / 100 * n with hpos
    have p0 : 0 ≤ pos := by positivity
    have pn : pos ≤ n - 1 := by rw [hpos]; linarith
    have fl : (⌊pos⌋₊ : ℝ) ≤ pos := Nat.floor_le p0
    have fn : ⌊pos⌋₊ ≤ n - 1 := by
      have h : ((⌊pos⌋₊ + 1 : ℕ) : ℝ) ≤ n := by push_cast; linarith
      have : ⌊pos⌋₊ + 1 ≤ n := by exact_mod_cast h
      omega
    have z1 : atPos s ⌊pos⌋₊ = 0 := hz _ (by simp; omega)
    rcases Nat.lt_or_ge (⌊pos⌋₊) (n - 1) with h | h
    · have z2 : atPos s (⌊pos⌋₊ + 1) = 0 := hz _ (by simp; omega)
      rw [z1, z2]
      simp
    · have he : ⌊pos⌋₊ = n - 1 := le_antisymm fn h
      have : pos = ⌊pos⌋₊ := by
        refine le_antisymm ?_ fl
        rw [he, Nat.cast_sub (by omega)]
        simpa using pn
      rw [z1, ← this]
      simp
  have hm : (∑ i, v i) / ((n : ℝ) + 1) > 0 := by
    have : ∑ i, v i = 1 := by simp [v]
    rw [this]
    positivity
  simp only [bootLog, hL, bind, Except.bind]
  unfold drawErrs
  exact if_pos ⟨⟨0, hl⟩, ⟨0, hk⟩, Or.inr (by linarith)⟩

/-- Non-vacuity of the theorems about classes without movers and of `C99_bootstrap_bars`. -/
example : ∃ m : Fitted 2 2, ∀ pp, ¬ Monotone fun k => ∑ l, Spec.primary pp m l k := by
  refine ⟨.static ⟨⟨fun _ _ k => - k.val, fun _ _ _ => 1⟩, [], fun _ _ => 1, fun _ _ => 1, fun _ _ => 0, fun _ => 0⟩,
    fun pp h => ?_⟩
  have := h (show (0 : Fin 2) ≤ 1 by simp)
  cases pp <;> simp [Spec.primary, Spec.effect] at this <;> norm_num at this

example : Spec.FullCounts (jobOf demoModel demoG (id : Fin 2 → Fin 2)) ∧ ∀ (a : Argsort), a.Right → ∀ pp,
    ∃ b, typeBars a pp (jobOf demoModel demoG (id : Fin 2 → Fin 2)) .first .all = .ok b := by
  obtain ⟨h1, h2, -⟩ := countMovers_full demoG demo_everywhere.movers
  refine ⟨⟨⟨_, rfl, h1, h2⟩, _, rfl, (countStayers_full _ demo_everywhere.stayers).1⟩, fun a ha pp => ?_⟩
  obtain ⟨w, f, h, -⟩ := drawn a ha pp demoModel demoG id demo_everywhere .first (by simp) .all (by simp)
  exact ⟨_, h⟩

end Pytwoway.Plots
