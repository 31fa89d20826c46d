import Verif.FEControl.Lemmas

/-! # Coefficient layout of the estimator with controls: C24 -/

namespace Pytwoway.FEControl

open scoped BigOperators

variable {n m nw : ℕ}

/-- The names of all covariates. -/
def CData.names (d : CData n m nw) : List String :=
  "psi" :: "alpha" :: (d.cats.map Cat.name ++ d.cts.map Cts.name)

variable {d : CData n m nw}

theorem covs_names (d : CData n m nw) : d.covs.map Cov.name = d.names := by
  simp [CData.covs, CData.names, Cov.name, Function.comp_def]

/-! ## Lookup lemmas -/

theorem nCov_eq (h : d.names.Nodup) : d.nCov = (d.covs.map (Cov.size m nw)).sum := by
  rw [CData.nCov, nDict_eq d (by rwa [covs_names]), sizes, List.map_map]; rfl

theorem A_length (h : d.names.Nodup) : d.A.length = d.nCov := by
  rw [nCov_eq h, A_eq, List.length_flatten, List.map_map]
  congr 1
  exact List.map_congr_left fun c _ => Cov.cols_length d c

theorem mem_of_split {α : Type*} {l : List α} {x : α} (h : x ∈ l) : ∃ pre post, l = pre ++ x :: post :=
  List.append_of_mem h

theorem fresh_of_split (h : d.names.Nodup) {pre post : List (Cov n)} {c : Cov n}
    (hs : d.covs = pre ++ c :: post) : c.name ∉ pre.map Cov.name := by
  rw [← covs_names, hs, List.map_append, List.map_cons] at h
  intro hm
  exact (List.nodup_append.1 h).2.2 _ hm _ (by simp) rfl

/-- Position of the first coefficient of the covariate after `pre`. -/
def start (m nw : ℕ) (pre : List (Cov n)) : ℕ := (pre.map (Cov.size m nw)).sum

theorem idx_of_split (h : d.names.Nodup) (gh : List ℝ) {pre post : List (Cov n)} {c : Cov n}
    (hs : d.covs = pre ++ c :: post) :
    dget (d.unpack gh).idx c.name = some (start m nw pre, start m nw pre + c.size m nw) := by
  rw [(unpack_eq d gh (by rwa [covs_names])).2.1, sizes, hs, List.map_append, List.map_cons,
    dget_ranges _ _ _ _ _ (by simpa [Function.comp_def] using fresh_of_split h hs)]
  simp [start, Function.comp_def]

theorem gamma_of_split (h : d.names.Nodup) (gh : List ℝ) {pre post : List (Cov n)} {c : Cov n}
    (hs : d.covs = pre ++ c :: post) :
    dget (d.unpack gh).gamma c.name
      = some (c.entry (slice gh (start m nw pre) (start m nw pre + c.size m nw))) := by
  rw [(unpack_eq d gh (by rwa [covs_names])).1, hs, dget_entries _ _ _ _ (fresh_of_split h hs)]
  rfl

theorem cols_of_split {pre post : List (Cov n)} {c : Cov n} (hs : d.covs = pre ++ c :: post) :
    slice d.A (start m nw pre) (start m nw pre + c.size m nw) = c.cols d := by
  have := slice_flatten (Cov.cols d) pre post c
  rw [← hs, ← A_eq] at this
  simpa only [Cov.cols_length, start] using this

theorem bound_of_split (h : d.names.Nodup) {pre post : List (Cov n)} {c : Cov n}
    (hs : d.covs = pre ++ c :: post) : start m nw pre + c.size m nw ≤ d.nCov := by
  rw [nCov_eq h, hs]; simp [start]

/-- The attached column of a covariate is its columns times its coefficients. -/
theorem attach_of_split (h : d.names.Nodup) (gh : List ℝ) (hl : gh.length = d.nCov) (o : Fin n)
    {pre post : List (Cov n)} {c : Cov n} (hs : d.covs = pre ++ c :: post) :
    c.attach d (d.unpack gh) o
      = some (dotL (c.cols d) (slice gh (start m nw pre) (start m nw pre + c.size m nw)) o) := by
  have hg := gamma_of_split h gh hs
  have hlen := slice_length gh (start m nw pre) (c.size m nw) (by rw [hl]; exact bound_of_split h hs)
  generalize slice gh (start m nw pre) (start m nw pre + c.size m nw) = l at *
  cases c with
  | firm =>
    simp only [Cov.attach, CData.attachVec, Cov.name, Cov.entry, Cov.cols, Cov.size] at hg hlen ⊢
    rw [hg]; exact dotL_indicators_drop d.j l o hlen
  | worker =>
    simp only [Cov.attach, CData.attachVec, Cov.name, Cov.entry, Cov.cols, Cov.size] at hg hlen ⊢
    rw [hg]; exact dotL_indicators d.i l o hlen
  | cat c =>
    simp only [Cov.attach, CData.attachVec, Cov.name, Cov.entry, Cov.cols, Cov.size] at hg hlen ⊢
    rw [hg]; exact dotL_indicators_drop c.val l o hlen
  | cts c =>
    simp only [Cov.attach, CData.attachNum, Cov.name, Cov.entry, Cov.cols, Cov.size] at hg hlen ⊢
    rw [hg]
    obtain ⟨x, rfl⟩ := List.length_eq_one_iff.1 hlen
    simp [dotL, mul_comm]

theorem slice_split {α : Type*} (l : List α) (a k t : ℕ) :
    slice l a (a + (k + t)) = slice l a (a + k) ++ slice l (a + k) (a + k + t) := by
  simp only [slice, Nat.add_sub_cancel_left]
  rw [List.take_add, List.drop_drop]

theorem attach_all (h : d.names.Nodup) (gh : List ℝ) (hl : gh.length = d.nCov) (o : Fin n)
    (pre l : List (Cov n)) (hs : d.covs = pre ++ l) :
    ∃ vals, l.mapM (fun c => c.attach d (d.unpack gh) o) = some vals ∧
      vals.sum = dotL ((l.map (Cov.cols d)).flatten)
        (slice gh (start m nw pre) (start m nw pre + start m nw l)) o := by
  induction l generalizing pre with
  | nil => exact ⟨[], by simp, by simp [dotL]⟩
  | cons c t ih =>
    obtain ⟨vals, h1, h2⟩ := ih (pre ++ [c]) (by rw [hs]; simp)
    have hst : start m nw (pre ++ [c]) = start m nw pre + c.size m nw := by simp [start]
    have hb := bound_of_split h hs
    refine ⟨_, by rw [List.mapM_cons, attach_of_split h gh hl o hs, h1]; rfl, ?_⟩
    rw [List.sum_cons, h2, hst]
    have : start m nw (c :: t) = c.size m nw + start m nw t := by simp [start]
    rw [this, slice_split, List.map_cons, List.flatten_cons, dotL_append]
    rw [slice_length _ _ _ (by omega), Cov.cols_length]

/-! ## C24 -/

section C24

theorem dget_iff_mem {β : Type*} {l : List (String × β)} (h : (l.map (·.1)).Nodup) (k : String) (v : β) :
    dget l k = some v ↔ (k, v) ∈ l := by
  induction l with
  | nil => simp [dget]
  | cons a t ih =>
    obtain ⟨a1, a2⟩ := a
    simp only [List.map_cons, List.nodup_cons] at h
    have ih := ih h.2
    by_cases hk : k = a1
    · subst hk
      rw [dget_cons_self]
      simp only [Option.some.injEq, List.mem_cons, Prod.mk.injEq, true_and]
      refine ⟨fun e => Or.inl e.symm, fun e => ?_⟩
      rcases e with e | e
      · exact e.symm
      · exact absurd (List.mem_map_of_mem (f := (·.1)) e) h.1
    · have hb : (k == a1) = false := by simpa using hk
      simp only [dget, List.lookup_cons, hb, List.mem_cons, Prod.mk.injEq, hk, false_and, false_or] at ih ⊢
      exact ih

theorem ranges_mem_bounds (s : ℕ) (l : List (String × ℕ)) (k : String) (a b : ℕ) (h : (k, (a, b)) ∈ ranges s l) :
    s ≤ a ∧ a ≤ b ∧ b ≤ s + (l.map (·.2)).sum := by
  induction l generalizing s with
  | nil => simp [ranges] at h
  | cons x t ih =>
    obtain ⟨nm, c⟩ := x
    simp only [ranges, List.mem_cons, Prod.mk.injEq] at h
    simp only [List.map_cons, List.sum_cons]
    rcases h with ⟨rfl, rfl, rfl⟩ | h
    · omega
    · have := ih _ h; omega

theorem ranges_cover (s : ℕ) (l : List (String × ℕ)) (p : ℕ) (h1 : s ≤ p)
    (h2 : p < s + (l.map (·.2)).sum) :
    ∃ k a b, (k, (a, b)) ∈ ranges s l ∧ a ≤ p ∧ p < b := by
  induction l generalizing s with
  | nil => simp at h2; omega
  | cons x t ih =>
    obtain ⟨nm, c⟩ := x
    simp only [List.map_cons, List.sum_cons] at h2
    by_cases hp : p < s + c
    · exact ⟨nm, s, s + c, by simp [ranges], h1, hp⟩
    · obtain ⟨k, a, b, hm, h3⟩ := ih (s + c) (by omega) (by omega)
      exact ⟨k, a, b, by simp [ranges, hm], h3⟩

theorem ranges_disjoint (s : ℕ) (l : List (String × ℕ)) (p : ℕ) (k k' : String) (a b a' b' : ℕ)
    (hm : (k, (a, b)) ∈ ranges s l) (hm' : (k', (a', b')) ∈ ranges s l) (h : a ≤ p ∧ p < b)
    (h' : a' ≤ p ∧ p < b') : k = k' := by
  induction l generalizing s with
  | nil => simp [ranges] at hm
  | cons x t ih =>
    obtain ⟨nm, c⟩ := x
    simp only [ranges, List.mem_cons, Prod.mk.injEq] at hm hm'
    rcases hm with ⟨rfl, rfl, rfl⟩ | hm <;> rcases hm' with ⟨rfl, rfl, rfl⟩ | hm'
    · rfl
    · have := ranges_mem_bounds _ _ _ _ _ hm'; omega
    · have := ranges_mem_bounds _ _ _ _ _ hm; omega
    · exact ih _ hm hm'

/-- C24, layout: there are as many coefficients as columns; every covariate has a range of positions in
the coefficient vector; every position is in the range of exactly one covariate. -/
theorem C24_layout (h : d.names.Nodup) (gh : List ℝ) :
    d.A.length = d.nCov ∧
    (∀ nm ∈ d.names, ∃ a b, dget (d.unpack gh).idx nm = some (a, b) ∧ a ≤ b ∧ b ≤ d.nCov) ∧
    (∀ p < d.nCov, ∃! nm, nm ∈ d.names ∧
      ∃ a b, dget (d.unpack gh).idx nm = some (a, b) ∧ a ≤ p ∧ p < b) := by
  have hidx := (unpack_eq d gh (by rwa [covs_names])).2.1
  have hnames : (ranges 0 (sizes d)).map (·.1) = d.names := by
    rw [ranges_names, sizes, List.map_map, ← covs_names]; rfl
  have hnd : ((ranges 0 (sizes d)).map (·.1)).Nodup := by rwa [hnames]
  have htot : ((sizes d).map (·.2)).sum = d.nCov := by
    rw [nCov_eq h, sizes, List.map_map]; rfl
  refine ⟨A_length h, fun nm hnm => ?_, fun p hp => ?_⟩
  · rw [← hnames, List.mem_map] at hnm
    obtain ⟨⟨k, a, b⟩, hm, rfl⟩ := hnm
    have := ranges_mem_bounds _ _ _ _ _ hm
    exact ⟨a, b, by rw [hidx, dget_iff_mem hnd]; exact hm, by omega, by omega⟩
  · obtain ⟨k, a, b, hm, h3⟩ := ranges_cover 0 (sizes d) p (by omega) (by omega)
    refine ⟨k, ⟨?_, a, b, by rw [hidx, dget_iff_mem hnd]; exact hm, h3⟩, ?_⟩
    · rw [← hnames]; exact List.mem_map_of_mem (f := (·.1)) hm
    · rintro k' ⟨-, a', b', hk', h4⟩
      rw [hidx, dget_iff_mem hnd] at hk'
      exact ranges_disjoint 0 (sizes d) p k' k a' b' a b hk' hm h4 h3

/-- C24, columns: the design columns in the range of a covariate are the ones of that covariate: one
indicator per firm but the first, per worker, per category but the first, and the value of a continuous
control. -/
theorem C24_columns (h : d.names.Nodup) (gh : List ℝ) :
    (∃ a b, dget (d.unpack gh).idx "psi" = some (a, b) ∧ slice d.A a b
      = List.ofFn fun k : Fin m => fun o => if d.j o = k.succ then 1 else 0) ∧
    (∃ a b, dget (d.unpack gh).idx "alpha" = some (a, b) ∧ slice d.A a b
      = List.ofFn fun k : Fin nw => fun o => if d.i o = k then 1 else 0) ∧
    (∀ c ∈ d.cats, ∃ a b, dget (d.unpack gh).idx c.name = some (a, b) ∧ slice d.A a b
      = List.ofFn fun k : Fin c.k => fun o => if c.val o = k.succ then 1 else 0) ∧
    (∀ c ∈ d.cts, ∃ a b, dget (d.unpack gh).idx c.name = some (a, b) ∧ slice d.A a b = [c.val]) := by
  have key : ∀ c ∈ d.covs, ∃ a b, dget (d.unpack gh).idx c.name = some (a, b) ∧ slice d.A a b = c.cols d := by
    intro c hc
    obtain ⟨pre, post, hs⟩ := mem_of_split hc
    exact ⟨_, _, idx_of_split h gh hs, cols_of_split hs⟩
  have hdrop : ∀ {k : ℕ} (v : Fin n → Fin (k + 1)), (indicators v).drop 1
      = List.ofFn fun q : Fin k => fun o => if v o = q.succ then (1 : ℝ) else 0 := by
    intro k v; simp [indicators, List.ofFn_succ]
  refine ⟨?_, ?_, fun c hc => ?_, fun c hc => ?_⟩
  · rw [← hdrop]; exact key .firm (by simp [CData.covs])
  · exact key .worker (by simp [CData.covs])
  · rw [← hdrop]; exact key (.cat c) (by simp [CData.covs, hc])
  · exact key (.cts c) (by simp [CData.covs, hc])

/-- C24, unpacking: firms and categorical controls get one coefficient per category, 0 for the first and
the covariate's range of the coefficient vector for the others; workers get their range; a continuous
control the single coefficient of its range. -/
theorem C24_unpack (h : d.names.Nodup) (gh : List ℝ) (hl : gh.length = d.nCov) :
    (∃ a b l, dget (d.unpack gh).idx "psi" = some (a, b) ∧
      dget (d.unpack gh).gamma "psi" = some (.vec (0 :: l)) ∧ l = slice gh a b ∧ l.length = m) ∧
    (∃ a b l, dget (d.unpack gh).idx "alpha" = some (a, b) ∧
      dget (d.unpack gh).gamma "alpha" = some (.vec l) ∧ l = slice gh a b ∧ l.length = nw) ∧
    (∀ c ∈ d.cats, ∃ a b l, dget (d.unpack gh).idx c.name = some (a, b) ∧
      dget (d.unpack gh).gamma c.name = some (.vec (0 :: l)) ∧ l = slice gh a b ∧ l.length = c.k) ∧
    (∀ c ∈ d.cts, ∃ a x, dget (d.unpack gh).idx c.name = some (a, a + 1) ∧
      dget (d.unpack gh).gamma c.name = some (.num x) ∧ gh[a]? = some x) := by
  have key : ∀ c ∈ d.covs, ∃ a l, dget (d.unpack gh).idx c.name = some (a, a + c.size m nw) ∧
      dget (d.unpack gh).gamma c.name = some (c.entry l) ∧ l = slice gh a (a + c.size m nw) ∧
      l.length = c.size m nw := by
    intro c hc
    obtain ⟨pre, post, hs⟩ := mem_of_split hc
    exact ⟨_, _, idx_of_split h gh hs, gamma_of_split h gh hs, rfl,
      slice_length _ _ _ (by rw [hl]; exact bound_of_split h hs)⟩
  refine ⟨?_, ?_, fun c hc => ?_, fun c hc => ?_⟩
  · obtain ⟨a, l, h1⟩ := key .firm (by simp [CData.covs]); exact ⟨a, _, l, h1⟩
  · obtain ⟨a, l, h1⟩ := key .worker (by simp [CData.covs]); exact ⟨a, _, l, h1⟩
  · obtain ⟨a, l, h1⟩ := key (.cat c) (by simp [CData.covs, hc]); exact ⟨a, _, l, h1⟩
  · obtain ⟨a, l, h1, h2, h3, h4⟩ := key (.cts c) (by simp [CData.covs, hc])
    obtain ⟨x, rfl⟩ := List.length_eq_one_iff.1 h4
    refine ⟨a, x, h1, h2, ?_⟩
    have := congrArg (·[0]?) h3
    simp [slice, Cov.size] at this
    exact this.symm

/-- C24, attached columns: with any coefficient vector of the right length all columns can be attached, and
in every row they add up to the fitted value `A @ gamma`. -/
theorem C24_attached (h : d.names.Nodup) (gh : List ℝ) (hl : gh.length = d.nCov) (o : Fin n) :
    ∃ l, d.attached gh o = some l ∧ l.sum = d.multA gh o := by
  obtain ⟨vals, h1, h2⟩ := attach_all h gh hl o [] d.covs rfl
  refine ⟨vals, ?_, ?_⟩
  · rw [← h1]
    simp only [CData.covs, List.mapM_cons, List.mapM_append, CData.attached, Cov.attach, List.mapM_map,
      Function.comp_def]
    simp [Option.bind_assoc]
  · rw [h2, ← A_eq]
    have : slice gh (start m nw ([] : List (Cov n))) (start m nw ([] : List (Cov n)) + start m nw d.covs) = gh := by
      simp only [start, List.map_nil, List.sum_nil, Nat.zero_add]
      rw [← nCov_eq h, ← hl]; simp [slice]
    rw [this]; rfl

end C24

end Pytwoway.FEControl
