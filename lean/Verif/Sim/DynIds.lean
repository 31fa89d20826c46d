import Verif.Sim.Ids

/-! # Simulated dynamic BLM networks: worker and firm ids (C43, C44)

`pytwoway/simdblm.py`, the columns `g1 … g4`, `j1 … j4` and `i` of `SimDBLM.simulate`.  Firm types are
drawn by loops identical to those of `simblm.py` (simdblm.py:878-891, 1011-1021: `moverTypes`,
`stayerTypes`). -/

namespace Pytwoway.Sim

/-! ## Model -/

/-- A row of the simulated dynamic data: firm type and firm in the four periods, worker id.
Used for simdblm.py:970 and simdblm.py:1099, 1122-1124. -/
structure DRow where
  g1 : ℕ
  g2 : ℕ
  g3 : ℕ
  g4 : ℕ
  j1 : ℕ
  j2 : ℕ
  j3 : ℕ
  j4 : ℕ
  i : ℕ

/-- A row of the movers, simdblm.py:970 (`'g1': G1, 'g2': G1, 'g3': G2, 'g4': G2`), 1148-1149 (`j2`
copies `j1`, `j3` copies `j4`) and 1158. -/
def moverRow (i : ℕ) (t j : ℕ × ℕ) : DRow := ⟨t.1, t.1, t.2, t.2, j.1, j.1, j.2, j.2, i⟩

/-- A row of the stayers, simdblm.py:1099, 1122-1124 and 1159. -/
def stayerRow (nm i : ℕ) (q : ℕ × ℕ) : DRow := ⟨q.1, q.1, q.1, q.1, q.2, q.2, q.2, q.2, nm + i⟩

/-- `SimDBLM.simulate`, simdblm.py:1101-1183, ids and firm types only; `none` if the redraws of `j4`
(1140-1145) have not ended within `fuel` rounds. -/
def simulateDyn (p : Params) (u : Draws) (fuel : ℕ) : Option (Py (List DRow × List DRow)) :=
  let g1 := (moverTypes p).map Prod.fst
  let g4 := (moverTypes p).map Prod.snd
  if (List.range p.nk).any fun g => (jPer p u g).length = 1 then some (.error "ValueError")
  else if (g1 ++ g4).any fun g => (jPer p u g).length = 0 then some (.error "KeyError")
  else
    let j1 := drawCol p u g1 u.first
    match redraw p u g4 j1 fuel 0 (drawCol p u g4 (u.second 0)) with
    | none => none
    | some j4 =>
      some (.ok ((List.zipWith (fun (t : ℕ × ℕ) (j : ℕ × ℕ) => (t, j)) (moverTypes p) (j1.zip j4)).mapIdx
          fun i x => moverRow i x.1 x.2,
        (stayerFirms p u).mapIdx fun i q => stayerRow (moverTypes p).length i q))

/-! ## Specification -/

/-- Firm `j` belongs to cluster `g`: some stayer of cluster `g` works there in the first period. -/
def Spec.InClusterDyn (ss : List DRow) (j g : ℕ) : Prop := ∃ s ∈ ss, s.j1 = j ∧ s.g1 = g

/-! ## Lemmas -/

/-- The four-period row of a two-period mover. -/
def MRow.wide (m : MRow) : DRow := ⟨m.g1, m.g1, m.g2, m.g2, m.j1, m.j1, m.j2, m.j2, m.i⟩
/-- The four-period row of a two-period stayer. -/
def SRow.wide (s : SRow) : DRow := ⟨s.g, s.g, s.g, s.g, s.j1, s.j1, s.j1, s.j2, s.i⟩

theorem simulateDyn_ok (p : Params) (u : Draws) (fuel : ℕ) (ms ss : List DRow)
    (h : simulateDyn p u fuel = some (.ok (ms, ss))) :
    ∃ ms' ss', simulate p u fuel = some (.ok (ms', ss')) ∧ ms = ms'.map MRow.wide ∧
      ss = ss'.map SRow.wide := by
  unfold simulateDyn at h
  unfold simulate
  simp only at h ⊢
  by_cases h1 : ((List.range p.nk).any fun g => (jPer p u g).length = 1) = true
  · rw [if_pos h1] at h; cases h
  rw [if_neg h1] at h ⊢
  by_cases h2 : (((moverTypes p).map Prod.fst ++ (moverTypes p).map Prod.snd).any
      fun g => (jPer p u g).length = 0) = true
  · rw [if_pos h2] at h; cases h
  rw [if_neg h2] at h ⊢
  rcases h3 : redraw p u ((moverTypes p).map Prod.snd)
      (drawCol p u ((moverTypes p).map Prod.fst) u.first) fuel 0
      (drawCol p u ((moverTypes p).map Prod.snd) (u.second 0)) with _ | j2
  · rw [h3] at h; cases h
  · rw [h3] at h
    cases h
    refine ⟨_, _, rfl, ?_, ?_⟩
    · exact List.ext_getElem (by simp) fun r _ _ => by simp [moverRow, MRow.wide]
    · exact List.ext_getElem (by simp) fun r _ _ => by simp [stayerRow, SRow.wide]

theorem inClusterDyn_iff (ss' : List SRow) (j g : ℕ) :
    Spec.InClusterDyn (ss'.map SRow.wide) j g ↔ Spec.InCluster ss' j g := by
  constructor
  · rintro ⟨s, hs, h1, h2⟩
    obtain ⟨s', hs', rfl⟩ := List.mem_map.mp hs
    exact ⟨s', hs', h1, h2⟩
  · rintro ⟨s, hs, h1, h2⟩
    exact ⟨s.wide, List.mem_map.mpr ⟨s, hs, rfl⟩, h1, h2⟩

/-! ## Properties -/

section props

variable (p : Params) (u : Draws) (fuel : ℕ) (ms ss : List DRow)
  (h : simulateDyn p u fuel = some (.ok (ms, ss)))
include h

/-- C43 for the dynamic model: worker ids are `0, 1, ...`, movers first. -/
theorem C43_dyn_worker_ids : ms.map DRow.i ++ ss.map DRow.i = List.range (ms.length + ss.length) := by
  obtain ⟨ms', ss', h', rfl, rfl⟩ := simulateDyn_ok p u fuel ms ss h
  have := C43_worker_ids p u fuel ms' ss' h'
  simpa [List.map_map, Function.comp_def, MRow.wide, SRow.wide] using this

/-- C43 for the dynamic model: movers change firm exactly once, between the second and the third
period, and their firm type changes at most then; stayers never change firm or firm type. -/
theorem C43_dyn_one_move :
    (∀ m ∈ ms, m.j1 = m.j2 ∧ m.j2 ≠ m.j3 ∧ m.j3 = m.j4 ∧ m.g1 = m.g2 ∧ m.g3 = m.g4) ∧
    ∀ s ∈ ss, s.j1 = s.j2 ∧ s.j2 = s.j3 ∧ s.j3 = s.j4 ∧ s.g1 = s.g2 ∧ s.g2 = s.g3 ∧ s.g3 = s.g4 := by
  obtain ⟨ms', ss', h', rfl, rfl⟩ := simulateDyn_ok p u fuel ms ss h
  obtain ⟨h1, h2⟩ := C43_movers_move p u fuel ms' ss' h'
  constructor
  · intro m hm
    obtain ⟨m', hm', rfl⟩ := List.mem_map.mp hm
    exact ⟨rfl, h1 m' hm', rfl, rfl, rfl⟩
  · intro s hs
    obtain ⟨s', hs', rfl⟩ := List.mem_map.mp hs
    exact ⟨rfl, rfl, h2 s' hs', rfl, rfl, rfl⟩

/-- C43 for the dynamic model: a firm belongs to one cluster only, firm ids are `0, 1, ...` without
gaps, every cluster with stayers has at least two firms, and movers only work at firms that have
stayers. -/
theorem C43_dyn_firms :
    (∀ j g g', Spec.InClusterDyn ss j g → Spec.InClusterDyn ss j g' → g = g') ∧
    (∃ F, ∀ j, (∃ s ∈ ss, s.j1 = j) ↔ j < F) ∧
    (∀ j g, Spec.InClusterDyn ss j g → ∃ j', j' ≠ j ∧ Spec.InClusterDyn ss j' g) ∧
    ∀ m ∈ ms, (∃ g, Spec.InClusterDyn ss m.j1 g) ∧ ∃ g, Spec.InClusterDyn ss m.j4 g := by
  obtain ⟨ms', ss', h', rfl, rfl⟩ := simulateDyn_ok p u fuel ms ss h
  obtain ⟨h1, ⟨F, h2⟩, h3, h4⟩ := C43_firms p u fuel ms' ss' h'
  simp only [inClusterDyn_iff]
  refine ⟨h1, ⟨F, fun j => ?_⟩, h3, fun m hm => ?_⟩
  · rw [← h2 j]
    constructor
    · rintro ⟨s, hs, e⟩
      obtain ⟨s', hs', rfl⟩ := List.mem_map.mp hs
      exact ⟨s', hs', e⟩
    · rintro ⟨s, hs, e⟩
      exact ⟨s.wide, List.mem_map.mpr ⟨s, hs, rfl⟩, e⟩
  · obtain ⟨m', hm', rfl⟩ := List.mem_map.mp hm
    exact h4 m' hm'

/-- C43 for the dynamic model: the requested numbers of movers and stayers. -/
theorem C43_dyn_counts :
    (∀ a b, a < p.nk → b < p.nk →
      (ms.filter fun m => m.g1 = a ∧ m.g4 = b).length = p.mmult * p.NNm a b) ∧
    (∀ a, a < p.nk → (ss.filter fun s => s.g1 = a).length = p.smult * p.NNs a) ∧
    (∀ m ∈ ms, m.g1 < p.nk ∧ m.g4 < p.nk) ∧ ∀ s ∈ ss, s.g1 < p.nk := by
  obtain ⟨ms', ss', h', rfl, rfl⟩ := simulateDyn_ok p u fuel ms ss h
  obtain ⟨h1, h2, h3, h4⟩ := C43_counts p u fuel ms' ss' h'
  refine ⟨fun a b ha hb => ?_, fun a ha => ?_, fun m hm => ?_, fun s hs => ?_⟩
  · rw [← h1 a b ha hb, List.filter_map, List.length_map]; rfl
  · rw [← h2 a ha, List.filter_map, List.length_map]; rfl
  · obtain ⟨m', hm', rfl⟩ := List.mem_map.mp hm
    exact h3 m' hm'
  · obtain ⟨s', hs', rfl⟩ := List.mem_map.mp hs
    exact h4 s' hs'

/-- C44 for the dynamic model: a mover's first two firms are in the cluster of these periods, and the
last two are exactly if the mover's last cluster is also the entry at the mover's position in the
sorted column of last clusters. -/
theorem C44_dyn_iff (r : ℕ) (m : DRow) (hm : ms[r]? = some m) :
    Spec.InClusterDyn ss m.j1 m.g1 ∧ Spec.InClusterDyn ss m.j2 m.g2 ∧
    (Spec.InClusterDyn ss m.j3 m.g3 ↔ (ms.map DRow.g4).mergeSort[r]? = some m.g4) ∧
    (Spec.InClusterDyn ss m.j4 m.g4 ↔ (ms.map DRow.g4).mergeSort[r]? = some m.g4) := by
  obtain ⟨ms', ss', h', rfl, rfl⟩ := simulateDyn_ok p u fuel ms ss h
  rw [List.getElem?_map] at hm
  obtain ⟨m', hm', rfl⟩ := Option.map_eq_some_iff.mp hm
  have e : (ms'.map MRow.wide).map DRow.g4 = ms'.map MRow.g2 := by
    rw [List.map_map]; rfl
  simp only [inClusterDyn_iff, e]
  have h1 := C44_first p u fuel ms' ss' h' m' (List.mem_of_getElem? hm')
  have h2 := C44_second_iff p u fuel ms' ss' h' r m' hm'
  exact ⟨h1, h1, h2, h2⟩

/-- C44 for the dynamic model (partial): all four firms are in the right clusters when the movers'
last clusters are in increasing order. -/
theorem C44_dyn_sorted_partial (hs : (ms.map DRow.g4).Pairwise (· ≤ ·)) :
    ∀ m ∈ ms, Spec.InClusterDyn ss m.j1 m.g1 ∧ Spec.InClusterDyn ss m.j2 m.g2 ∧
      Spec.InClusterDyn ss m.j3 m.g3 ∧ Spec.InClusterDyn ss m.j4 m.g4 := by
  intro m hm
  obtain ⟨r, hr⟩ := List.mem_iff_getElem?.mp hm
  obtain ⟨h1, h2, h3, h4⟩ := C44_dyn_iff p u fuel ms ss h r m hr
  have e : (ms.map DRow.g4).mergeSort[r]? = some m.g4 := by
    rw [List.mergeSort_of_pairwise (hs.imp fun h => by simpa using h), List.getElem?_map, hr]; rfl
  exact ⟨h1, h2, h3.mpr e, h4.mpr e⟩

/-- C44 for the dynamic model (wrong): if there are movers from a lower to a higher firm type and
back, every call that returns has a mover whose last firm is not in the mover's last cluster. -/
theorem C44_dyn_wrong (a b : ℕ) (hab : a < b)
    (h1 : ∃ m ∈ ms, m.g1 = a ∧ m.g4 = b) (h2 : ∃ m ∈ ms, m.g1 = b ∧ m.g4 = a) :
    ∃ m ∈ ms, ¬ Spec.InClusterDyn ss m.j4 m.g4 := by
  obtain ⟨ms', ss', h', rfl, rfl⟩ := simulateDyn_ok p u fuel ms ss h
  obtain ⟨m1, hm1, e1⟩ := h1
  obtain ⟨m2, hm2, e2⟩ := h2
  obtain ⟨m1', hm1', rfl⟩ := List.mem_map.mp hm1
  obtain ⟨m2', hm2', rfl⟩ := List.mem_map.mp hm2
  obtain ⟨m, hm, hn⟩ := C44_second_wrong p u fuel ms' ss' h' a b hab ⟨m1', hm1', e1⟩ ⟨m2', hm2', e2⟩
  exact ⟨m.wide, List.mem_map.mpr ⟨m, hm, rfl⟩, by rwa [inClusterDyn_iff]⟩

end props

/-- Non-vacuity: this call returns, with movers both ways between two firm types. -/
example : ∃ ms ss, simulateDyn exParams exDraws 3 = some (.ok (ms, ss)) ∧ ms.length = 4 ∧ ss.length = 8 ∧
    (∃ m ∈ ms, m.g1 = 0 ∧ m.g4 = 1) ∧ ∃ m ∈ ms, m.g1 = 1 ∧ m.g4 = 0 := by
  refine ⟨_, _, rfl, ?_⟩
  decide

end Pytwoway.Sim
