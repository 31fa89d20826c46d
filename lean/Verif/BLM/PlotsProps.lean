import Mathlib.Algebra.Order.Archimedean.Real.Basic
import Verif.BLM.Plots

/-! # C99: what the plots of estimated models show -/

namespace Pytwoway.Plots

open Finset Pytwoway.BLM Pytwoway.Dynamic

variable {nl nk : ℕ}

/-! ## Sorting -/

/-- The sorted parameters are the model's under one renaming of worker types and one of firm classes. -/
theorem sorted_spec (a : Argsort) (ha : a.Right) (pp : BLM.Primary) (m : Fitted nl nk) :
    ∃ (w : Equiv.Perm (Fin nl)) (f : Equiv.Perm (Fin nk)),
      (∀ t l k, (m.sorted a pp).A t l k = Spec.effect m t (w l) (f k)) ∧
      (∀ (k1 k2 : Fin nk) l, (m.sorted a pp).pk1 (k1.val + nk * k2.val) l = Spec.mover m (f k1) (f k2) (w l)) ∧
      (∀ k l, (m.sorted a pp).pk0 k l = Spec.stay m (f k) (w l)) ∧ (m.sorted a pp).order = f ∧
      (Monotone fun l => ∑ k, Spec.primary pp m (w l) k) ∧ Monotone fun k => ∑ l, Spec.primary pp m l (f k) := by
  have mono : ∀ (M : Fin nl → Fin nk → ℝ), (Monotone fun l => ∑ k, M (orderPerm a false (workerMean M) l) k) ∧
      Monotone fun k => ∑ l, M l (orderPerm a false (firmMean M) k) := by
    intro M
    constructor
    · intro x y h
      have h1 := order_mono a ha (workerMean M) h
      simp only [workerMean] at h1
      rcases Nat.eq_zero_or_pos nk with h0 | h0
      · subst h0; simp
      · exact (div_le_div_iff_of_pos_right (by exact_mod_cast h0)).mp h1
    · intro x y h
      have h1 := order_mono a ha (firmMean M) h
      simp only [firmMean] at h1
      rcases Nat.eq_zero_or_pos nl with h0 | h0
      · subst h0; simp
      · exact (div_le_div_iff_of_pos_right (by exact_mod_cast h0)).mp h1
  cases m with
  | static p =>
    have hM : Spec.primary pp (.static p) = primaryMean pp p.base.A := by
      funext l k; cases pp <;> rfl
    refine ⟨orderPerm a false (workerMean (primaryMean pp p.base.A)),
      orderPerm a false (firmMean (primaryMean pp p.base.A)), ?_, ?_, ?_, ?_, ?_⟩
    · intro t l k
      simp only [Fitted.sorted, sortParams, orderOf_eq, if_true, sortFirms, sortWorkers, Spec.effect]
    · intro k1 k2 l
      simp only [Fitted.sorted, sortParams, orderOf_eq, if_true, pk1_two_passes, Spec.mover]
      rfl
    · intro k l
      simp only [Fitted.sorted, sortParams, orderOf_eq, if_true, sortFirms, sortWorkers, Spec.stay]
    · simp only [Fitted.sorted, orderOf_eq]
    · rw [hM]; exact mono _
  | dyn x =>
    have hM : Spec.primary pp (.dyn x) = dPrimaryMean pp x.base := by
      funext l k; cases pp <;> simp [Spec.primary, dPrimaryMean, Spec.effect]
    refine ⟨orderPerm a false (workerMean (dPrimaryMean pp x.base)),
      orderPerm a false (firmMean (dPrimaryMean pp x.base)), ?_, ?_, ?_, ?_, ?_⟩
    · intro t l k
      simp only [Fitted.sorted, dSort, orderOf_eq, if_true, dSortFirms, dSortWorkers, Spec.effect]
      split <;> rfl
    · intro k1 k2 l
      have h := (dSortFirms_relabelled (orderPerm a false (firmMean (dPrimaryMean pp x.base)))
        (dSortWorkers (orderPerm a false (workerMean (dPrimaryMean pp x.base))) x)).pk1 k1 k2 l
      simp only [Fitted.sorted, dSort, orderOf_eq, if_true, Spec.mover]
      rw [h]
      rfl
    · intro k l
      simp only [Fitted.sorted, dSort, orderOf_eq, if_true, dSortFirms, dSortWorkers, Spec.stay]
    · simp only [Fitted.sorted, orderOf_eq]
    · rw [hM]; exact mono _

theorem pick_ok {m n : ℕ} (per : Period) (hper : per ≠ .other) (X Y : Fin m → Fin n → ℝ) :
    pick per X Y = .ok fun i j => Spec.inPeriod per fun t => if t = 0 then X i j else Y i j := by
  cases per <;> simp_all [pick, Spec.inPeriod]

/-- C99: the plot of log earnings has one line per worker type and one point per firm class; they are the model's
effects of the chosen period, with types and classes renamed so that both are ordered by their mean effects in the
primary period. -/
theorem C99_log_earnings (a : Argsort) (ha : a.Right) (pp : BLM.Primary) (m : Fitted nl nk) (per : Period)
    (hper : per ≠ .other) :
    ∃ (w : Equiv.Perm (Fin nl)) (f : Equiv.Perm (Fin nk)) (L : Fin nl → Fin nk → ℝ), logLines a pp m per = .ok L ∧
      (∀ l k, L l k = Spec.inPeriod per fun t => Spec.effect m t (w l) (f k)) ∧
      (Monotone fun l => ∑ k, Spec.primary pp m (w l) k) ∧ Monotone fun k => ∑ l, Spec.primary pp m l (f k) := by
  obtain ⟨w, f, hA, -, -, -, hw, hf⟩ := sorted_spec a ha pp m
  refine ⟨w, f, _, pick_ok per hper _ _, fun l k => ?_, hw, hf⟩
  congr 1
  funext t
  fin_cases t <;> simp [hA]

/-- C99: any other period is refused, by all four plots of log earnings and type proportions that get as far. -/
theorem C99_other_period (a : Argsort) (pp : BLM.Primary) (m : Fitted nl nk) (j : Job nl nk) (sub : Subset) :
    logLines a pp m .other = .error "ValueError" ∧ ∃ e, typeBars a pp j .other sub = .error e := by
  refine ⟨rfl, ?_⟩
  simp only [typeBars, bind, Except.bind]
  rcases j.shares a pp sub with e | p
  · exact ⟨e, rfl⟩
  · exact ⟨_, rfl⟩

/-! ## Counting -/

theorem levels_full {n : ℕ} (g : Fin n → Fin nk) (h : ∀ k, ∃ i, g i = k) : levels g = List.finRange nk := by
  unfold levels
  exact List.filter_eq_self.mpr fun k _ => by simpa using h k

theorem level_iff (x k : Fin nk) : (List.finRange nk)[x.val]? = some k ↔ k = x := by
  rw [List.getElem?_eq_getElem (by simp)]
  simp [eq_comm]

theorem countMovers_full {n : ℕ} (g : Fin 2 → Fin n → Fin nk) (h : ∀ t k, ∃ i, g t i = k) :
    (countMovers g).rows = nk ∧ (countMovers g).cols = nk ∧
    ∀ x y : Fin nk, (countMovers g).val x.val y.val = (#{i | g 0 i = x ∧ g 1 i = y} : ℕ) := by
  simp only [countMovers, levels_full _ (h 0), levels_full _ (h 1), List.length_finRange, level_iff, true_and,
    implies_true]

theorem countStayers_full {n : ℕ} (s : Fin n → Fin nk) (h : ∀ k, ∃ i, s i = k) :
    (countStayers s).len = nk ∧ ∀ x : Fin nk, (countStayers s).val x.val = (#{i | s i = x} : ℕ) := by
  simp only [countStayers, levels_full _ h, List.length_finRange, level_iff, true_and, implies_true]

theorem sortTab_full (f : Equiv.Perm (Fin nk)) (t : Tab) (hr : t.rows = nk) (hc : t.cols = nk) :
    ∃ t', sortTab f t = .ok t' ∧ t'.rows = nk ∧ t'.cols = nk ∧
      ∀ x y : Fin nk, t'.val x.val y.val = t.val (f x).val (f y).val := by
  unfold sortTab
  split
  · rename_i h
    exact ⟨t, rfl, hr, hc, fun x y => by rw [h]; rfl⟩
  · rw [if_neg (by omega)]
    exact ⟨_, rfl, rfl, rfl, fun x y => by simp [at']⟩

theorem sortVec_full (f : Equiv.Perm (Fin nk)) (v : Vec) (hr : v.len = nk) :
    ∃ v', sortVec f v = .ok v' ∧ v'.len = nk ∧ ∀ x : Fin nk, v'.val x.val = v.val (f x).val := by
  unfold sortVec
  split
  · rename_i h
    exact ⟨v, rfl, hr, fun x => by rw [h]; rfl⟩
  · rw [if_neg (by omega)]
    exact ⟨_, rfl, rfl, fun x => by simp [at']⟩

theorem bc_full (k : Fin nk) : bc nk k.val = k.val := by
  unfold bc
  split
  · omega
  · rfl

/-- Sums over pairs of classes, weighted by the number of movers, are sums over movers. -/
theorem sum_movers {n : ℕ} (g : Fin 2 → Fin n → Fin nk) (X : Fin nk → Fin nk → ℝ) (k : Fin nk) :
    ∑ j, ((#{i | g 0 i = k ∧ g 1 i = j} : ℕ) : ℝ) * X k j = ∑ i with g 0 i = k, X (g 0 i) (g 1 i) := by
  rw [← sum_fiberwise_of_maps_to (s := univ.filter fun i => g 0 i = k) (t := univ) (g := g 1) fun _ _ => mem_univ _]
  refine sum_congr rfl fun j _ => ?_
  rw [filter_filter, sum_congr rfl (g := fun _ => X k j), sum_const, nsmul_eq_mul]
  intro i hi
  obtain ⟨h1, h2⟩ := (mem_filter.mp hi).2
  rw [h1, h2]

theorem sum_movers' {n : ℕ} (g : Fin 2 → Fin n → Fin nk) (X : Fin nk → Fin nk → ℝ) (k : Fin nk) :
    ∑ j, ((#{i | g 0 i = j ∧ g 1 i = k} : ℕ) : ℝ) * X j k = ∑ i with g 1 i = k, X (g 0 i) (g 1 i) := by
  rw [← sum_fiberwise_of_maps_to (s := univ.filter fun i => g 1 i = k) (t := univ) (g := g 0) fun _ _ => mem_univ _]
  refine sum_congr rfl fun j _ => ?_
  rw [filter_filter, sum_congr rfl (g := fun _ => X j k), sum_const, nsmul_eq_mul]
  · congr 3
    ext i
    simp [and_comm]
  intro i hi
  obtain ⟨h1, h2⟩ := (mem_filter.mp hi).2
  rw [h1, h2]

theorem N1_full {n : ℕ} (g : Fin 2 → Fin n → Fin nk) (t : Tab) (hc : t.cols = nk) (f : Equiv.Perm (Fin nk))
    (hv : ∀ x y : Fin nk, t.val x.val y.val = (#{i | g 0 i = f x ∧ g 1 i = f y} : ℕ)) (k : Fin nk) :
    t.N1 k.val = (#{i | g 0 i = f k} : ℕ) := by
  unfold Tab.N1
  rw [hc, ← Fin.sum_univ_eq_sum_range (fun y => t.val k.val y) nk, sum_congr rfl fun y _ => hv k y,
    Equiv.sum_comp f fun j => ((#{i | g 0 i = f k ∧ g 1 i = j} : ℕ) : ℝ)]
  have := sum_movers g (fun _ _ => 1) (f k)
  simpa using this

theorem N2_full {n : ℕ} (g : Fin 2 → Fin n → Fin nk) (t : Tab) (hr : t.rows = nk) (f : Equiv.Perm (Fin nk))
    (hv : ∀ x y : Fin nk, t.val x.val y.val = (#{i | g 0 i = f x ∧ g 1 i = f y} : ℕ)) (k : Fin nk) :
    t.N2 k.val = (#{i | g 1 i = f k} : ℕ) := by
  unfold Tab.N2
  rw [hr, ← Fin.sum_univ_eq_sum_range (fun y => t.val y k.val) nk, sum_congr rfl fun y _ => hv y k,
    Equiv.sum_comp f fun j => ((#{i | g 0 i = j ∧ g 1 i = f k} : ℕ) : ℝ)]
  have := sum_movers' g (fun _ _ => 1) (f k)
  simpa using this

/-- The opposite flow's probabilities. -/
def flip (mv : Fin nk → Fin nk → Fin nl → ℝ) (k1 k2 : Fin nk) : Fin nl → ℝ := mv k2 k1

theorem moverShares_full {n ns : ℕ} (g : Fin 2 → Fin n → Fin nk) (s : Fin ns → Fin nk) (t : Tab) (hr : t.rows = nk)
    (hc : t.cols = nk) (f : Equiv.Perm (Fin nk)) (w : Equiv.Perm (Fin nl))
    (hv : ∀ x y : Fin nk, t.val x.val y.val = (#{i | g 0 i = f x ∧ g 1 i = f y} : ℕ)) (pk1 : ℕ → Fin nl → ℝ)
    (mv : Fin nk → Fin nk → Fin nl → ℝ) (st : Fin nk → Fin nl → ℝ)
    (hp : ∀ (k1 k2 : Fin nk) l, pk1 (k1.val + nk * k2.val) l = mv (f k1) (f k2) (w l)) :
    moverShares pk1 t = .ok (fun k l => Spec.share (flip mv) st g s .movers 0 (f k) (w l),
      fun k l => Spec.share (flip mv) st g s .movers 1 (f k) (w l)) := by
  have hp' : ∀ (k1 k2 : Fin nk) l, pk1 (k1.val * nk + k2.val) l = flip mv (f k1) (f k2) (w l) := by
    intro k1 k2 l
    rw [Nat.add_comm, Nat.mul_comm, hp]
    rfl
  unfold moverShares
  rw [if_pos ⟨Or.inr hr, Or.inr hc⟩]
  congr 2
  · funext k l
    rw [hr, hc]
    simp only [bc_full, hv, hp', N1_full g t hc f hv, Spec.share]
    rw [Equiv.sum_comp f fun j => ((#{i | g 0 i = f k ∧ g 1 i = j} : ℕ) : ℝ) * flip mv (f k) j (w l),
      sum_movers g (fun k1 k2 => flip mv k1 k2 (w l)) (f k)]
  · funext k l
    rw [hr, hc]
    simp only [bc_full, hv, hp', N2_full g t hr f hv, Spec.share]
    rw [Equiv.sum_comp f fun j => ((#{i | g 0 i = j ∧ g 1 i = f k} : ℕ) : ℝ) * flip mv j (f k) (w l),
      sum_movers' g (fun k1 k2 => flip mv k1 k2 (w l)) (f k)]

theorem card_pos' {n : ℕ} (g : Fin n → Fin nk) (k : Fin nk) (h : ∃ i, g i = k) :
    (0 : ℝ) < (#{i | g i = k} : ℕ) := by
  obtain ⟨i, hi⟩ := h
  exact_mod_cast card_pos.mpr ⟨i, by simp [hi]⟩

theorem stay_sum {ns : ℕ} (s : Fin ns → Fin nk) (st : Fin nk → Fin nl → ℝ) (k : Fin nk) (l : Fin nl) :
    ∑ i with s i = k, st (s i) l = (#{i | s i = k} : ℕ) * st k l := by
  rw [sum_congr rfl (g := fun _ => st k l), sum_const, nsmul_eq_mul]
  intro i hi
  rw [(mem_filter.mp hi).2]

theorem withStayers_full {n ns : ℕ} (g : Fin 2 → Fin n → Fin nk) (s : Fin ns → Fin nk) (hg : Spec.Everywhere g s)
    (t : Tab) (hr : t.rows = nk) (hc : t.cols = nk) (f : Equiv.Perm (Fin nk)) (w : Equiv.Perm (Fin nl))
    (hv : ∀ x y : Fin nk, t.val x.val y.val = (#{i | g 0 i = f x ∧ g 1 i = f y} : ℕ)) (v : Vec) (hl : v.len = nk)
    (hs : ∀ x : Fin nk, v.val x.val = (#{i | s i = f x} : ℕ)) (pk0 : Fin nk → Fin nl → ℝ)
    (mv : Fin nk → Fin nk → Fin nl → ℝ) (st : Fin nk → Fin nl → ℝ) (hp : ∀ k l, pk0 k l = st (f k) (w l)) :
    withStayers pk0 t v (fun k l => Spec.share mv st g s .movers 0 (f k) (w l),
      fun k l => Spec.share mv st g s .movers 1 (f k) (w l)) =
    .ok (fun k l => Spec.share mv st g s .all 0 (f k) (w l), fun k l => Spec.share mv st g s .all 1 (f k) (w l)) := by
  unfold withStayers
  rw [if_pos (show Fits v.len nk from Or.inr hl)]
  congr 2
  · funext k l
    rw [hr, hl]
    simp only [bc_full, hs, hp, N1_full g t hc f hv, Spec.share, stay_sum]
    rw [mul_div_cancel₀ _ (card_pos' _ _ (hg.movers 0 _)).ne']
  · funext k l
    rw [hc, hl]
    simp only [bc_full, hs, hp, N2_full g t hr f hv, Spec.share, stay_sum]
    rw [mul_div_cancel₀ _ (card_pos' _ _ (hg.movers 1 _)).ne']

/-- A model with the counts of its data. -/
def jobOf {n ns : ℕ} (m : Fitted nl nk) (g : Fin 2 → Fin n → Fin nk) (s : Fin ns → Fin nk) : Job nl nk :=
  ⟨m, some (countMovers g), some (countStayers s)⟩

theorem share_stayers {n ns : ℕ} (g : Fin 2 → Fin n → Fin nk) (s : Fin ns → Fin nk)
    (hs : ∀ k, ∃ i, s i = k) (mv : Fin nk → Fin nk → Fin nl → ℝ) (st : Fin nk → Fin nl → ℝ) (t : Fin 2) (k : Fin nk)
    (l : Fin nl) : Spec.share mv st g s .stayers t k l = st k l := by
  simp only [Spec.share, stay_sum]
  rw [mul_div_cancel_left₀ _ (card_pos' _ _ (hs k)).ne']

/-- The shares that are computed. -/
theorem shares_full {n ns : ℕ} (a : Argsort) (pp : BLM.Primary) (m : Fitted nl nk) (g : Fin 2 → Fin n → Fin nk)
    (s : Fin ns → Fin nk) (hg : Spec.Everywhere g s) (w : Equiv.Perm (Fin nl)) (f : Equiv.Perm (Fin nk))
    (h1 : ∀ (k1 k2 : Fin nk) l, (m.sorted a pp).pk1 (k1.val + nk * k2.val) l = Spec.mover m (f k1) (f k2) (w l))
    (h0 : ∀ k l, (m.sorted a pp).pk0 k l = Spec.stay m (f k) (w l)) (ho : (m.sorted a pp).order = f)
    (sub : Subset) (hsub : sub ≠ .other) :
    ∃ t v, sortTab (m.sorted a pp).order (countMovers g) = .ok t ∧
      sortVec (m.sorted a pp).order (countStayers s) = .ok v ∧
      subsetShares (m.sorted a pp) t v sub =
        .ok (fun k l => Spec.share (flip (Spec.mover m)) (Spec.stay m) g s sub 0 (f k) (w l),
          fun k l => Spec.share (flip (Spec.mover m)) (Spec.stay m) g s sub 1 (f k) (w l)) ∧
      (jobOf m g s).shares a pp sub = subsetShares (m.sorted a pp) t v sub := by
  obtain ⟨cr, cc, cv⟩ := countMovers_full g hg.movers
  obtain ⟨sl, sv⟩ := countStayers_full s hg.stayers
  obtain ⟨t, ht, tr, tc, tv⟩ := sortTab_full f (countMovers g) cr cc
  obtain ⟨v, hv, vl, vv⟩ := sortVec_full f (countStayers s) sl
  have tv' : ∀ x y : Fin nk, t.val x.val y.val = (#{i | g 0 i = f x ∧ g 1 i = f y} : ℕ) := fun x y => by
    rw [tv, cv]
  have vv' : ∀ x : Fin nk, v.val x.val = (#{i | s i = f x} : ℕ) := fun x => by rw [vv, sv]
  have hm := moverShares_full g s t tr tc f w tv' (m.sorted a pp).pk1 (Spec.mover m) (Spec.stay m) h1
  have hw := withStayers_full g s hg t tr tc f w tv' v vl vv' (m.sorted a pp).pk0 (flip (Spec.mover m)) (Spec.stay m) h0
  refine ⟨t, v, by rw [ho]; exact ht, by rw [ho]; exact hv, ?_, ?_⟩
  · cases sub with
    | movers => exact hm
    | stayers =>
      simp only [subsetShares]
      congr 2 <;> · funext k l; rw [share_stayers g s hg.stayers, h0]
    | all =>
      simp only [subsetShares, bind, Except.bind, hm]
      exact hw
    | other => exact absurd rfl hsub
  · cases sub with
    | movers => simp only [Job.shares, Job.movers, jobOf, ho, ht, bind, Except.bind, subsetShares]
    | stayers =>
      have : (jobOf m g s).stayersGuard = true := by cases m <;> rfl
      simp only [Job.shares, Job.stayers, this, if_true]
      simp only [jobOf, ho, hv, bind, Except.bind, subsetShares]
    | all => simp only [Job.shares, Job.everyone, jobOf, ho, ht, hv, bind, Except.bind, subsetShares]
    | other => exact absurd rfl hsub

/-- What is drawn, for every subset and period. -/
theorem drawn {n ns : ℕ} (a : Argsort) (ha : a.Right) (pp : BLM.Primary) (m : Fitted nl nk)
    (g : Fin 2 → Fin n → Fin nk) (s : Fin ns → Fin nk) (hg : Spec.Everywhere g s) (per : Period) (hper : per ≠ .other)
    (sub : Subset) (hsub : sub ≠ .other) :
    ∃ (w : Equiv.Perm (Fin nl)) (f : Equiv.Perm (Fin nk)),
      typeBars a pp (jobOf m g s) per sub = .ok (stack fun k l => Spec.inPeriod per fun t =>
        Spec.share (flip (Spec.mover m)) (Spec.stay m) g s sub t (f k) (w l)) ∧
      (jobOf m g s).bootShares a pp per sub = .ok (fun k l => Spec.inPeriod per fun t =>
        Spec.share (flip (Spec.mover m)) (Spec.stay m) g s sub t (f k) (w l)) ∧
      (Monotone fun l => ∑ k, Spec.primary pp m (w l) k) ∧ Monotone fun k => ∑ l, Spec.primary pp m l (f k) := by
  obtain ⟨w, f, -, h1, h0, ho, hw, hf⟩ := sorted_spec a ha pp m
  obtain ⟨t, v, e1, e2, e3, e4⟩ := shares_full a pp m g s hg w f h1 h0 ho sub hsub
  have e5 : pick per (fun k l => Spec.share (flip (Spec.mover m)) (Spec.stay m) g s sub 0 (f k) (w l))
      (fun k l => Spec.share (flip (Spec.mover m)) (Spec.stay m) g s sub 1 (f k) (w l)) =
      .ok (fun k l => Spec.inPeriod per fun t =>
        Spec.share (flip (Spec.mover m)) (Spec.stay m) g s sub t (f k) (w l)) := by
    rw [pick_ok per hper]
    congr 1
  refine ⟨w, f, ?_, ?_, hw, hf⟩
  · simp only [typeBars, e4, e3, bind, Except.bind, e5]
  · simp only [Job.bootShares, jobOf, e1, e2, e3, bind, Except.bind, e5]

/-! ## Type proportions -/

theorem share_prob {n ns : ℕ} (mv : Fin nk → Fin nk → Fin nl → ℝ) (st : Fin nk → Fin nl → ℝ)
    (hm : ∀ k1 k2, (∀ l, 0 ≤ mv k1 k2 l) ∧ ∑ l, mv k1 k2 l = 1) (hs : ∀ k, (∀ l, 0 ≤ st k l) ∧ ∑ l, st k l = 1)
    (g : Fin 2 → Fin n → Fin nk) (s : Fin ns → Fin nk) (hg : Spec.Everywhere g s) (sub : Subset) (t : Fin 2)
    (k : Fin nk) :
    (∀ l, 0 ≤ Spec.share mv st g s sub t k l) ∧ ∑ l, Spec.share mv st g s sub t k l = 1 := by
  have c1 := card_pos' _ k (hg.movers t k)
  have c2 := card_pos' _ k (hg.stayers k)
  have e1 : ∑ l, ∑ i with g t i = k, mv (g 0 i) (g 1 i) l = (#{i | g t i = k} : ℕ) := by
    rw [sum_comm]
    simp [(hm _ _).2]
  have e2 : ∑ l, ∑ i with s i = k, st (s i) l = (#{i | s i = k} : ℕ) := by
    rw [sum_comm]
    simp [(hs _).2]
  have p1 : ∀ l, 0 ≤ ∑ i with g t i = k, mv (g 0 i) (g 1 i) l := fun l => sum_nonneg fun i _ => (hm _ _).1 l
  have p2 : ∀ l, 0 ≤ ∑ i with s i = k, st (s i) l := fun l => sum_nonneg fun i _ => (hs _).1 l
  cases sub with
  | movers => exact ⟨fun l => div_nonneg (p1 l) c1.le, by simp only [Spec.share]; rw [← sum_div, e1, div_self c1.ne']⟩
  | stayers => exact ⟨fun l => div_nonneg (p2 l) c2.le, by simp only [Spec.share]; rw [← sum_div, e2, div_self c2.ne']⟩
  | all | other =>
    exact ⟨fun l => div_nonneg (add_nonneg (p1 l) (p2 l)) (add_pos c1 c2).le, by
      simp only [Spec.share]
      rw [← sum_div, sum_add_distrib, e1, e2, div_self (add_pos c1 c2).ne']⟩

theorem stack_top (h : Fin nk → Fin nl → ℝ) (k : Fin nk) (l : Fin nl) :
    (stack h).bottom k l + h k l = cums h k l.val := by
  have e : cums h k l.val = ∑ l' : Fin nl with l'.val < l.val, h k l' + h k l := by
    unfold cums
    have : (univ.filter fun l' : Fin nl => l'.val ≤ l.val) = insert l (univ.filter fun l' : Fin nl => l'.val < l.val) := by
      ext l'
      simp only [mem_filter, mem_univ, true_and, mem_insert, Fin.ext_iff]
      omega
    rw [this, sum_insert (by simp)]
    ring
  rw [e]
  congr 1
  simp only [stack]
  split
  · rename_i h2
    rw [h2]
    simp
  · unfold cums
    congr 1
    ext l'
    simp only [mem_filter, mem_univ, true_and]
    omega

theorem stack_of_top (h : Fin nk → Fin nl → ℝ) (h0 : ∀ k l, 0 ≤ h k l)
    (h1 : ∀ k (l : Fin nl), l.val + 1 = nl → cums h k l.val = 1) : Spec.Stacked (stack h) := by
  refine ⟨h0, fun k l hl => by simp [stack, hl], fun k l l' hl => ?_, fun k l hl => ?_⟩
  · rw [show (stack h).bottom k l + (stack h).height k l = cums h k l.val from stack_top h k l]
    simp [stack, hl]
  · rw [show (stack h).bottom k l + (stack h).height k l = cums h k l.val from stack_top h k l]
    exact h1 k l hl

theorem stack_stacked (h : Fin nk → Fin nl → ℝ) (h0 : ∀ k l, 0 ≤ h k l) (h1 : ∀ k, ∑ l, h k l = 1) :
    Spec.Stacked (stack h) := by
  refine stack_of_top h h0 fun k l hl => ?_
  rw [← h1 k]
  unfold cums
  congr 1
  ext l'
  simp only [mem_filter, mem_univ, true_and, iff_true]
  omega

theorem inPeriod_prob (per : Period) (F : Fin nl → Fin 2 → ℝ) (h0 : ∀ l t, 0 ≤ F l t) (h1 : ∀ t, ∑ l, F l t = 1) :
    (∀ l, 0 ≤ Spec.inPeriod per (F l)) ∧ ∑ l, Spec.inPeriod per (F l) = 1 := by
  have avg : (∀ l, 0 ≤ (F l 0 + F l 1) / 2) ∧ ∑ l, (F l 0 + F l 1) / 2 = 1 :=
    ⟨fun l => by have := h0 l 0; have := h0 l 1; linarith, by
      rw [← sum_div, sum_add_distrib, h1, h1]; norm_num⟩
  cases per with
  | first => exact ⟨fun l => h0 l 0, h1 0⟩
  | second => exact ⟨fun l => h0 l 1, h1 1⟩
  | all | other => exact avg

/-- C99: whatever the subset and the period, the bars of every firm class are nonnegative, stand on each other and
reach one, if every class has movers in both periods and stayers. -/
theorem C99_bars {n ns : ℕ} (a : Argsort) (ha : a.Right) (pp : BLM.Primary) (m : Fitted nl nk) (hm : Spec.Prob m)
    (g : Fin 2 → Fin n → Fin nk) (s : Fin ns → Fin nk) (hg : Spec.Everywhere g s) (per : Period) (hper : per ≠ .other)
    (sub : Subset) (hsub : sub ≠ .other) :
    ∃ b, typeBars a pp (jobOf m g s) per sub = .ok b ∧ Spec.Stacked b := by
  obtain ⟨w, f, h, -⟩ := drawn a ha pp m g s hg per hper sub hsub
  have hp := fun t k => share_prob (flip (Spec.mover m)) (Spec.stay m) (fun k1 k2 => hm.mover k2 k1) hm.stay g s hg sub t k
  have hq := fun k => inPeriod_prob per
    (fun l t => Spec.share (flip (Spec.mover m)) (Spec.stay m) g s sub t (f k) (w l)) (fun l t => (hp t _).1 _)
    (fun t => by
      rw [Equiv.sum_comp w fun l => Spec.share (flip (Spec.mover m)) (Spec.stay m) g s sub t (f k) l]
      exact (hp t _).2)
  exact ⟨_, h, stack_stacked _ (fun k l => (hq k).1 l) fun k => (hq k).2⟩

/-- The shares drawn are the right ones for `mv`. -/
def Spec.Shows {n ns : ℕ} (pp : BLM.Primary) (m : Fitted nl nk) (mv : Fin nk → Fin nk → Fin nl → ℝ)
    (g : Fin 2 → Fin n → Fin nk) (s : Fin ns → Fin nk) (sub : Subset) (F : (Fin 2 → ℝ) → ℝ) (b : Bars nl nk) : Prop :=
  ∃ (w : Equiv.Perm (Fin nl)) (f : Equiv.Perm (Fin nk)),
    (∀ k l, b.height k l = F fun t => Spec.share mv (Spec.stay m) g s sub t (f k) (w l)) ∧
    (Monotone fun l => ∑ k, Spec.primary pp m (w l) k) ∧ Monotone fun k => ∑ l, Spec.primary pp m l (f k)

/-- C99: for stayers the bars are the types' shares among the stayers of each class, classes and types ordered by
their mean effects. -/
theorem C99_stayers {n ns : ℕ} (a : Argsort) (ha : a.Right) (pp : BLM.Primary) (m : Fitted nl nk)
    (g : Fin 2 → Fin n → Fin nk) (s : Fin ns → Fin nk) (hg : Spec.Everywhere g s) (per : Period)
    (hper : per ≠ .other) :
    ∃ b, typeBars a pp (jobOf m g s) per .stayers = .ok b ∧
      Spec.Shows pp m (Spec.mover m) g s .stayers (Spec.inPeriod per) b := by
  obtain ⟨w, f, h, -, hw, hf⟩ := drawn a ha pp m g s hg per hper .stayers (by simp)
  exact ⟨_, h, w, f, fun k l => rfl, hw, hf⟩

/-- C99 (partial: only if a move and the opposite move have the same type probabilities).  For movers and for all
workers the bars are the types' shares among the workers at each class in the chosen period. -/
theorem C99_types_partial {n ns : ℕ} (a : Argsort) (ha : a.Right) (pp : BLM.Primary) (m : Fitted nl nk)
    (hsym : ∀ k1 k2 l, Spec.mover m k1 k2 l = Spec.mover m k2 k1 l) (g : Fin 2 → Fin n → Fin nk) (s : Fin ns → Fin nk)
    (hg : Spec.Everywhere g s) (per : Period) (hper : per ≠ .other) (sub : Subset) (hsub : sub ≠ .other) :
    ∃ b, typeBars a pp (jobOf m g s) per sub = .ok b ∧
      Spec.Shows pp m (Spec.mover m) g s sub (Spec.inPeriod per) b := by
  obtain ⟨w, f, h, -, hw, hf⟩ := drawn a ha pp m g s hg per hper sub hsub
  have e : flip (Spec.mover m) = Spec.mover m := by
    funext k1 k2 l
    exact hsym k2 k1 l
  rw [e] at h
  exact ⟨_, h, w, f, fun k l => rfl, hw, hf⟩

theorem share_flip {n ns : ℕ} (mv : Fin nk → Fin nk → Fin nl → ℝ) (st : Fin nk → Fin nl → ℝ)
    (g : Fin 2 → Fin n → Fin nk) (s : Fin ns → Fin nk)
    (hsym : ∀ k1 k2, #{i | g 0 i = k1 ∧ g 1 i = k2} = #{i | g 0 i = k2 ∧ g 1 i = k1}) (sub : Subset) (t : Fin 2)
    (k : Fin nk) (l : Fin nl) :
    Spec.share (flip mv) st g s sub t k l = Spec.share mv st g s sub (1 - t) k l := by
  have e0 : ∀ X : Fin nk → Fin nk → ℝ,
      ∑ i with g 0 i = k, X (g 1 i) (g 0 i) = ∑ i with g 1 i = k, X (g 0 i) (g 1 i) := by
    intro X
    rw [← sum_movers g (fun x y => X y x) k, ← sum_movers' g X k]
    exact sum_congr rfl fun j _ => by rw [hsym k j]
  have e1 : ∀ X : Fin nk → Fin nk → ℝ,
      ∑ i with g 1 i = k, X (g 1 i) (g 0 i) = ∑ i with g 0 i = k, X (g 0 i) (g 1 i) := by
    intro X
    rw [← sum_movers' g (fun x y => X y x) k, ← sum_movers g X k]
    exact sum_congr rfl fun j _ => by rw [hsym k j]
  have c : ((#{i | g 0 i = k} : ℕ) : ℝ) = (#{i | g 1 i = k} : ℕ) := by
    simpa using e0 fun _ _ => 1
  have m0 : ∑ i with g 0 i = k, flip mv (g 0 i) (g 1 i) l = ∑ i with g 1 i = k, mv (g 0 i) (g 1 i) l :=
    e0 fun x y => mv x y l
  have m1 : ∑ i with g 1 i = k, flip mv (g 0 i) (g 1 i) l = ∑ i with g 0 i = k, mv (g 0 i) (g 1 i) l :=
    e1 fun x y => mv x y l
  fin_cases t
  · cases sub <;> simp [Spec.share, m0, c]
  · cases sub <;> simp [Spec.share, m1, c]

/-- C99 fails in general: if as many workers move from one class to another as back, the bars of the first period are
the shares of the second, and those of the second are the shares of the first; only their average is right. -/
theorem C99_periods_swapped {n ns : ℕ} (a : Argsort) (ha : a.Right) (pp : BLM.Primary) (m : Fitted nl nk)
    (g : Fin 2 → Fin n → Fin nk) (s : Fin ns → Fin nk) (hg : Spec.Everywhere g s)
    (hsym : ∀ k1 k2, #{i | g 0 i = k1 ∧ g 1 i = k2} = #{i | g 0 i = k2 ∧ g 1 i = k1}) (sub : Subset)
    (hsub : sub ≠ .other) :
    (∃ b, typeBars a pp (jobOf m g s) .first sub = .ok b ∧ Spec.Shows pp m (Spec.mover m) g s sub (fun F => F 1) b) ∧
    (∃ b, typeBars a pp (jobOf m g s) .second sub = .ok b ∧ Spec.Shows pp m (Spec.mover m) g s sub (fun F => F 0) b) ∧
    ∃ b, typeBars a pp (jobOf m g s) .all sub = .ok b ∧
      Spec.Shows pp m (Spec.mover m) g s sub (fun F => (F 0 + F 1) / 2) b := by
  refine ⟨?_, ?_, ?_⟩
  · obtain ⟨w, f, h, -, hw, hf⟩ := drawn a ha pp m g s hg .first (by simp) sub hsub
    refine ⟨_, h, w, f, fun k l => ?_, hw, hf⟩
    simp only [stack, Spec.inPeriod, share_flip _ _ g s hsym]
    rfl
  · obtain ⟨w, f, h, -, hw, hf⟩ := drawn a ha pp m g s hg .second (by simp) sub hsub
    refine ⟨_, h, w, f, fun k l => ?_, hw, hf⟩
    simp only [stack, Spec.inPeriod, share_flip _ _ g s hsym]
    rfl
  · obtain ⟨w, f, h, -, hw, hf⟩ := drawn a ha pp m g s hg .all (by simp) sub hsub
    refine ⟨_, h, w, f, fun k l => ?_, hw, hf⟩
    simp only [stack, Spec.inPeriod, share_flip _ _ g s hsym]
    rw [add_comm]
    rfl

/-- Effects in order; movers from class 0 are all of type 1, movers from class 1 all of type 0. -/
noncomputable def demoModel : Fitted 2 2 := .static
  ⟨⟨fun _ l k => l.val + k.val, fun _ _ _ => 1⟩, [], fun x l => if (x % 2 = 0) = (l = 1) then 1 else 0,
    fun _ _ => 1 / 2, fun _ _ => 0, fun _ => 0⟩

/-- The same in a dynamic model. -/
noncomputable def demoDyn : Fitted 2 2 := .dyn
  ⟨⟨fun _ l k => l.val + k.val, fun _ k => k, fun _ _ _ => 1, fun _ _ => 1⟩, [],
    fun x l => if (x % 2 = 0) = (l = 1) then 1 else 0, fun _ _ => 1 / 2, fun _ _ => 0, fun _ => 0⟩

/-- Three workers move from class 0 to class 1 and one moves back. -/
def demoG : Fin 2 → Fin 4 → Fin 2 := fun t i => if i = 3 then 1 - t else t

theorem demo_everywhere : Spec.Everywhere demoG (id : Fin 2 → Fin 2) := by
  refine ⟨fun t k => ?_, fun k => ⟨k, rfl⟩⟩
  fin_cases t <;> fin_cases k
  · exact ⟨0, by decide⟩
  · exact ⟨3, by decide⟩
  · exact ⟨3, by decide⟩
  · exact ⟨0, by decide⟩

theorem demo_ordered (m : Fitted 2 2) (hm : ∀ t l k, Spec.effect m t l k = l.val + k.val) (pp : BLM.Primary)
    (w f : Equiv.Perm (Fin 2)) (hw : Monotone fun l => ∑ k, Spec.primary pp m (w l) k)
    (hf : Monotone fun k => ∑ l, Spec.primary pp m l (f k)) : w = Equiv.refl _ ∧ f = Equiv.refl _ := by
  have hp : ∀ l k, Spec.primary pp m l k = l.val + k.val := by
    intro l k
    cases pp <;> simp [Spec.primary, hm]
  simp only [hp] at hw hf
  constructor
  · refine perm_of_strictMono (fun l : Fin 2 => ∑ k : Fin 2, ((l.val : ℝ) + k.val)) ?_ w hw
    intro x y h
    have : (x.val : ℝ) < y.val := by exact_mod_cast h
    simp only [Fin.sum_univ_two]
    linarith
  · refine perm_of_strictMono (fun k : Fin 2 => ∑ l : Fin 2, ((l.val : ℝ) + k.val)) ?_ f hf
    intro x y h
    have : (x.val : ℝ) < y.val := by exact_mod_cast h
    simp only [Fin.sum_univ_two]
    linarith

/-- C99 fails: in both kinds of model everyone who leaves class 0 is of type 1, and the plot of movers in the first
period shows only type 0 there. -/
theorem C99_types_wrong (m : Fitted 2 2) (hm : m = demoModel ∨ m = demoDyn) (a : Argsort) (ha : a.Right)
    (pp : BLM.Primary) :
    Spec.share (Spec.mover m) (Spec.stay m) demoG id .movers 0 0 1 = 1 ∧
    ∃ b, typeBars a pp (jobOf m demoG (id : Fin 2 → Fin 2)) .first .movers = .ok b ∧ b.height 0 1 = 0 ∧
      b.height 0 0 = 1 := by
  have hmv : ∀ k1 k2 l, Spec.mover m k1 k2 l = if (k1 = 0) = (l = 1) then 1 else 0 := by
    intro k1 k2 l
    rcases hm with rfl | rfl <;> fin_cases k1 <;> fin_cases k2 <;> fin_cases l <;>
      simp [Spec.mover, demoModel, demoDyn]
  have he : ∀ t l k, Spec.effect m t l k = l.val + k.val := by
    intro t l k
    rcases hm with rfl | rfl <;> simp [Spec.effect, demoModel, demoDyn]
  have hs : (univ.filter fun i => demoG 0 i = 0) = ({0, 1, 2} : Finset (Fin 4)) := by decide
  refine ⟨?_, ?_⟩
  · simp only [Spec.share, hs, hmv]
    simp [demoG]
    norm_num
  · obtain ⟨w, f, h, -, hw, hf⟩ := drawn a ha pp m demoG id demo_everywhere .first (by simp) .movers (by simp)
    obtain ⟨rfl, rfl⟩ := demo_ordered m he pp w f hw hf
    refine ⟨_, h, ?_, ?_⟩
    · change Spec.share (flip (Spec.mover m)) (Spec.stay m) demoG id .movers 0 0 1 = 0
      simp only [Spec.share, flip, hmv, hs]
      simp [demoG]
    · change Spec.share (flip (Spec.mover m)) (Spec.stay m) demoG id .movers 0 0 0 = 1
      simp only [Spec.share, flip, hmv, hs]
      simp [demoG]
      norm_num

/-- Non-vacuity of `C99_bars`, `C99_types_partial` and `C99_periods_swapped`. -/
example : Spec.Prob demoModel ∧ Spec.Prob demoDyn := by
  have h : ∀ m, (m = demoModel ∨ m = demoDyn) → Spec.Prob m := by
    intro m hm
    refine ⟨fun k1 k2 => ⟨fun l => ?_, ?_⟩, fun k => ⟨fun l => ?_, ?_⟩⟩
    · rcases hm with rfl | rfl <;> simp only [Spec.mover, demoModel, demoDyn] <;> split <;> norm_num
    · rcases hm with rfl | rfl <;> fin_cases k1 <;> fin_cases k2 <;>
        simp [Spec.mover, demoModel, demoDyn]
    · rcases hm with rfl | rfl <;> simp [Spec.stay, demoModel, demoDyn]
    · rcases hm with rfl | rfl <;> simp [Spec.stay, demoModel, demoDyn]
  exact ⟨h _ (Or.inl rfl), h _ (Or.inr rfl)⟩

example : ∃ g : Fin 2 → Fin 2 → Fin 2, Spec.Everywhere g (id : Fin 2 → Fin 2) ∧
    ∀ k1 k2, #{i | g 0 i = k1 ∧ g 1 i = k2} = #{i | g 0 i = k2 ∧ g 1 i = k1} :=
  ⟨fun t i => t + i, ⟨by decide, fun k => ⟨k, rfl⟩⟩, by decide⟩

example : ∃ m : Fitted 2 2, Spec.Prob m ∧ ∀ k1 k2 l, Spec.mover m k1 k2 l = Spec.mover m k2 k1 l := by
  refine ⟨.static ⟨⟨fun _ l k => l.val + k.val, fun _ _ _ => 1⟩, [],
    fun x l => if (x = 0 ∨ x = 3) = (l = 1) then 1 else 0, fun _ _ => 1 / 2, fun _ _ => 0, fun _ => 0⟩,
    ⟨fun k1 k2 => ⟨fun l => ?_, ?_⟩, fun k => ⟨fun l => ?_, ?_⟩⟩, ?_⟩
  · simp only [Spec.mover]; split <;> norm_num
  · fin_cases k1 <;> fin_cases k2 <;> simp [Spec.mover]
  · simp [Spec.stay]
  · simp [Spec.stay]
  · intro k1 k2 l
    fin_cases k1 <;> fin_cases k2 <;> simp [Spec.mover]

end Pytwoway.Plots
