import Mathlib.Data.List.Basic
import Mathlib.Data.List.Dedup
import Mathlib.Data.List.GetD
import Mathlib.Data.Finset.Card
import Mathlib.Data.Finset.Range
import Mathlib.Data.List.Sort
import Mathlib.Data.Real.Basic
import Mathlib.Tactic.Linarith

/-! # Simulated BLM networks: worker and firm ids (C43, C44)

`pytwoway/simblm.py`, `SimBLM._simulate_movers`, `_simulate_stayers` and `simulate`. -/

namespace Pytwoway.Sim

/-- A Python computation: a value or the name of the exception. -/
abbrev Py := Except String

/-! ## Model -/

/-- The parameters that matter for ids, simblm.py:241-251.  `bound len` is
`max(2, round(len / firm_size))` (line 709); the rounding is left to the parameter `rnd`. -/
structure Params where
  nk : ℕ
  NNm : ℕ → ℕ → ℕ
  NNs : ℕ → ℕ
  mmult : ℕ
  smult : ℕ
  rnd : ℕ → ℕ

/-- The size passed to the generator of ids: at least 2, simblm.py:709. -/
def Params.bound (p : Params) (len : ℕ) : ℕ := max 2 (p.rnd len)

/-- The firm types of the movers, in row order, simblm.py:479-507. -/
def moverTypes (p : Params) : List (ℕ × ℕ) :=
  (List.range p.nk).flatMap fun k1 => (List.range p.nk).flatMap fun k2 =>
    List.replicate (p.mmult * p.NNm k1 k2) (k1, k2)

/-- The firm types of the stayers, in row order, simblm.py:602-626. -/
def stayerTypes (p : Params) : List ℕ :=
  (List.range p.nk).flatMap fun k => List.replicate (p.smult * p.NNs k) k

/-- The random numbers of one call.  An arbitrary natural number stands for each draw: `rng.integers(n)`
is its remainder modulo `n`, `rng.choice(l)` the entry of `l` at its remainder modulo the length.
Used for simblm.py:709 and simblm.py:709-713. -/
structure Draws where
  firm : ℕ → ℕ
  first : ℕ → ℕ
  second : ℕ → ℕ → ℕ

/-- `rng.choice(l)`.  Used for simblm.py:724, 726, 733. -/
def choose (l : List ℕ) (u : ℕ) : ℕ := l.getD (u % l.length) 0

/-- The values of a column in the order of `np.hstack(groupby(col).apply(...))`: grouped by value, values
increasing.  Used for simblm.py:709 and simblm.py:724, 726, 733. -/
def groupCol (nk : ℕ) (col : List ℕ) : List ℕ :=
  (List.range nk).flatMap fun g => List.replicate (col.count g) g

/-- Cluster and drawn number of each stayer, simblm.py:709.  The rows of the stayers are grouped by
cluster already, and the call concatenates by cluster. -/
def rawStayers (p : Params) (u : Draws) : List (ℕ × ℕ) :=
  (groupCol p.nk (stayerTypes p)).mapIdx fun r g =>
    (g, u.firm r % p.bound ((stayerTypes p).count g))

/-- `groupby(['g1', 'j1']).ngroup()`, simblm.py:712: the rank of a pair among the distinct pairs in
lexicographic order. -/
def ngroup (ps : List (ℕ × ℕ)) (q : ℕ × ℕ) : ℕ :=
  (ps.dedup.filter fun a => a.1 < q.1 ∨ (a.1 = q.1 ∧ a.2 < q.2)).length

/-- A stayer's row: cluster, firms and worker id.  Used for simblm.py:688-760. -/
structure SRow where
  g : ℕ
  j1 : ℕ
  j2 : ℕ
  i : ℕ

/-- A mover's row.  Used for simblm.py:688-760. -/
structure MRow where
  g1 : ℕ
  g2 : ℕ
  j1 : ℕ
  j2 : ℕ
  i : ℕ

/-- Firm of each stayer, simblm.py:709-713. -/
def stayerFirms (p : Params) (u : Draws) : List (ℕ × ℕ) :=
  (rawStayers p u).map fun q => (q.1, ngroup (rawStayers p u) q)

/-- `j_per_g_dict[g]`, simblm.py:716: the distinct firms of a cluster.  (Their order differs from that of
`unique`; as draws are arbitrary this changes nothing.)  `[]` stands for a missing key. -/
def jPer (p : Params) (u : Draws) (g : ℕ) : List ℕ :=
  (((stayerFirms p u).filter fun q => q.1 = g).map Prod.snd).dedup

/-- `np.hstack(groupby(col).apply(lambda df: rng.choice(j_per_g_dict[...], size=len(df))))`,
simblm.py:724, 726, 733. -/
def drawCol (p : Params) (u : Draws) (col : List ℕ) (v : ℕ → ℕ) : List ℕ :=
  (groupCol p.nk col).mapIdx fun r g => choose (jPer p u g) (v r)

/-- The redraws, simblm.py:728-734: as long as some row has equal firms, those rows take the entry of a
new draw at their own position.  `fuel` bounds the number of rounds. -/
def redraw (p : Params) (u : Draws) (g2 j1 : List ℕ) : ℕ → ℕ → List ℕ → Option (List ℕ)
  | 0, _, _ => none
  | fuel + 1, round, j2 =>
    if (List.zipWith (fun a b => decide (a = b)) j1 j2).any id then
      redraw p u g2 j1 fuel (round + 1)
        (List.zipWith (fun (ab : ℕ × ℕ) c => if ab.1 = ab.2 then c else ab.2) (j1.zip j2)
          (drawCol p u g2 (u.second (round + 1))))
    else some j2

/-- `SimBLM.simulate`, simblm.py:688-760, as far as ids and firm types are concerned; `none` if the
redraws have not ended within `fuel` rounds.  A mover's cluster without stayers is a missing key. -/
def simulate (p : Params) (u : Draws) (fuel : ℕ) : Option (Py (List MRow × List SRow)) :=
  let g1 := (moverTypes p).map Prod.fst
  let g2 := (moverTypes p).map Prod.snd
  if (List.range p.nk).any fun g => (jPer p u g).length = 1 then some (.error "ValueError")
  else if (g1 ++ g2).any fun g => (jPer p u g).length = 0 then some (.error "KeyError")
  else
    let j1 := drawCol p u g1 u.first
    match redraw p u g2 j1 fuel 0 (drawCol p u g2 (u.second 0)) with
    | none => none
    | some j2 =>
      some (.ok ((List.zipWith (fun (t : ℕ × ℕ) (j : ℕ × ℕ) => (t, j)) (moverTypes p) (j1.zip j2)).mapIdx
          fun i x => ⟨x.1.1, x.1.2, x.2.1, x.2.2, i⟩,
        (stayerFirms p u).mapIdx fun i q => ⟨q.1, q.2, q.2, (moverTypes p).length + i⟩))

/-! ## Specification -/

/-- Firm `j` belongs to cluster `g`: some stayer of cluster `g` works there. -/
def Spec.InCluster (ss : List SRow) (j g : ℕ) : Prop := ∃ s ∈ ss, s.j1 = j ∧ s.g = g

/-! ## Lemmas -/

theorem count_groupCol (nk : ℕ) (col : List ℕ) (a : ℕ) :
    (groupCol nk col).count a = if a < nk then col.count a else 0 := by
  unfold groupCol
  induction nk with
  | zero => simp
  | succ n ih =>
    rw [List.range_succ, List.flatMap_append, List.count_append, ih]
    simp only [List.flatMap_cons, List.flatMap_nil, List.append_nil, List.count_replicate]
    by_cases h : n = a
    · subst h; simp
    · have : (n == a) = false := by simpa using h
      rw [this]
      simp only [Bool.false_eq_true, if_false, add_zero]
      by_cases h2 : a < n
      · rw [if_pos h2, if_pos (by omega)]
      · rw [if_neg h2, if_neg (by omega)]

theorem pairwise_groupCol (nk : ℕ) (c : ℕ → ℕ) :
    ((List.range nk).flatMap fun g => List.replicate (c g) g).Pairwise (· ≤ ·) := by
  induction nk with
  | zero => simp
  | succ n ih =>
    rw [List.range_succ, List.flatMap_append, List.pairwise_append]
    refine ⟨ih, ?_, ?_⟩
    · simp [List.pairwise_replicate]
    · intro a ha b hb
      simp only [List.mem_flatMap, List.mem_range, List.mem_replicate] at ha
      simp only [List.flatMap_cons, List.flatMap_nil, List.append_nil, List.mem_replicate] at hb
      obtain ⟨g, hg, _, rfl⟩ := ha
      omega

theorem groupCol_perm (nk : ℕ) (col : List ℕ) (h : ∀ a ∈ col, a < nk) : (groupCol nk col).Perm col := by
  rw [List.perm_iff_count]
  intro a
  rw [count_groupCol]
  split
  · rfl
  · rename_i ha
    exact (List.count_eq_zero.mpr fun hm => ha (h a hm)).symm

theorem groupCol_sorted (nk : ℕ) (col : List ℕ) (h : ∀ a ∈ col, a < nk) (hs : col.Pairwise (· ≤ ·)) :
    groupCol nk col = col :=
  (groupCol_perm nk col h).eq_of_pairwise (fun a b _ _ h1 h2 => le_antisymm h1 h2)
    (pairwise_groupCol nk fun g => col.count g) hs

theorem groupCol_eq_sort (nk : ℕ) (col : List ℕ) (h : ∀ a ∈ col, a < nk) :
    groupCol nk col = col.mergeSort := by
  refine ((groupCol_perm nk col h).trans (List.mergeSort_perm col _).symm).eq_of_pairwise
    (fun a b _ _ h1 h2 => le_antisymm h1 h2) (pairwise_groupCol nk fun g => col.count g) ?_
  have := List.pairwise_mergeSort (le := fun a b : ℕ => decide (a ≤ b))
    (fun a b c h1 h2 => by simp at *; omega) (fun a b => by simp; omega) col
  exact this.imp fun h => by simpa using h

theorem stayerTypes_lt (p : Params) : ∀ a ∈ stayerTypes p, a < p.nk := by
  intro a ha
  simp only [stayerTypes, List.mem_flatMap, List.mem_range, List.mem_replicate] at ha
  obtain ⟨g, hg, _, rfl⟩ := ha
  exact hg

theorem stayerTypes_group (p : Params) : groupCol p.nk (stayerTypes p) = stayerTypes p :=
  groupCol_sorted _ _ (stayerTypes_lt p) (pairwise_groupCol _ _)

theorem moverTypes_lt (p : Params) : ∀ t ∈ moverTypes p, t.1 < p.nk ∧ t.2 < p.nk := by
  intro t ht
  simp only [moverTypes, List.mem_flatMap, List.mem_range, List.mem_replicate] at ht
  obtain ⟨k1, h1, k2, h2, _, rfl⟩ := ht
  exact ⟨h1, h2⟩

theorem moverTypes_g1_sorted (p : Params) : ((moverTypes p).map Prod.fst).Pairwise (· ≤ ·) := by
  have key : ∀ n, (((List.range n).flatMap fun k1 => (List.range p.nk).flatMap fun k2 =>
      List.replicate (p.mmult * p.NNm k1 k2) (k1, k2)).map Prod.fst).Pairwise (· ≤ ·) := by
    intro n
    induction n with
    | zero => simp
    | succ n ih =>
      rw [List.range_succ, List.flatMap_append, List.map_append, List.pairwise_append]
      refine ⟨ih, ?_, ?_⟩
      · rw [List.pairwise_iff_forall_sublist]
        intro a b hab
        have ha := hab.subset (List.mem_cons_self)
        have hb := hab.subset (List.mem_cons_of_mem _ List.mem_cons_self)
        revert ha hb
        simp only [List.flatMap_cons, List.flatMap_nil, List.append_nil, List.mem_map,
          List.mem_flatMap, List.mem_replicate]
        rintro ⟨x, ⟨k, _, _, rfl⟩, rfl⟩ ⟨y, ⟨k', _, _, rfl⟩, rfl⟩
        exact le_rfl
      · simp only [List.flatMap_cons, List.flatMap_nil, List.append_nil, List.mem_map,
          List.mem_flatMap, List.mem_replicate, List.mem_range]
        rintro a ⟨x, ⟨k1, h1, k, _, _, rfl⟩, rfl⟩ b ⟨y, ⟨k', _, _, rfl⟩, rfl⟩
        exact h1.le
  exact key p.nk

theorem length_drawCol (p : Params) (u : Draws) (col : List ℕ) (v : ℕ → ℕ) (h : ∀ a ∈ col, a < p.nk) :
    (drawCol p u col v).length = col.length := by
  rw [drawCol, List.length_mapIdx, (groupCol_perm _ _ h).length_eq]

theorem choose_mem (l : List ℕ) (u : ℕ) (h : l ≠ []) : choose l u ∈ l := by
  have hl : u % l.length < l.length := Nat.mod_lt _ (List.length_pos_of_ne_nil h)
  unfold choose
  rw [List.getD_eq_getElem _ _ hl]
  exact List.getElem_mem hl

theorem drawCol_get (p : Params) (u : Draws) (col : List ℕ) (v : ℕ → ℕ) (r j : ℕ)
    (h : (drawCol p u col v)[r]? = some j) :
    ∃ g, (groupCol p.nk col)[r]? = some g ∧ j = choose (jPer p u g) (v r) := by
  rw [drawCol, List.getElem?_mapIdx] at h
  obtain ⟨g, hg, e⟩ := Option.map_eq_some_iff.mp h
  exact ⟨g, hg, e.symm⟩

theorem mem_jPer (p : Params) (u : Draws) (g j : ℕ) : j ∈ jPer p u g ↔ (g, j) ∈ stayerFirms p u := by
  rw [jPer, List.mem_dedup, List.mem_map]
  constructor
  · rintro ⟨q, hq, rfl⟩
    obtain ⟨h1, h2⟩ := List.mem_filter.mp hq
    have : q.1 = g := by simpa using h2
    rw [← this]
    exact h1
  · intro h
    exact ⟨(g, j), List.mem_filter.mpr ⟨h, by simp⟩, rfl⟩

/-! ### Ranks of pairs -/

/-- Lexicographic order. -/
def lex (a q : ℕ × ℕ) : Prop := a.1 < q.1 ∨ (a.1 = q.1 ∧ a.2 < q.2)

theorem ngroup_lt (ps : List (ℕ × ℕ)) (a q : ℕ × ℕ) (ha : a ∈ ps) (h : lex a q) : ngroup ps a < ngroup ps q := by
  unfold ngroup
  rw [← List.countP_eq_length_filter, ← List.countP_eq_length_filter]
  have hle : ∀ x ∈ ps.dedup, decide (x.1 < a.1 ∨ (x.1 = a.1 ∧ x.2 < a.2)) = true →
      decide (x.1 < q.1 ∨ (x.1 = q.1 ∧ x.2 < q.2)) = true := by
    intro x _ hx
    simp only [decide_eq_true_eq] at hx ⊢
    unfold lex at h
    omega
  have ha' : a ∈ ps.dedup := List.mem_dedup.mpr ha
  obtain ⟨l1, l2, e⟩ := List.append_of_mem ha'
  rw [e] at hle ⊢
  have m1 := List.countP_mono_left (l := l1) fun x hx => hle x (by simp [hx])
  have m2 := List.countP_mono_left (l := l2) fun x hx => hle x (by simp [hx])
  rw [List.countP_append, List.countP_append, List.countP_cons, List.countP_cons]
  rw [if_neg (by simp), if_pos (by simpa [lex] using h)]
  omega

theorem lex_total (a q : ℕ × ℕ) (h : a ≠ q) : lex a q ∨ lex q a := by
  unfold lex
  by_contra hc
  apply h
  ext <;> omega

theorem ngroup_inj (ps : List (ℕ × ℕ)) (a q : ℕ × ℕ) (ha : a ∈ ps) (hq : q ∈ ps)
    (h : ngroup ps a = ngroup ps q) : a = q := by
  by_contra hne
  rcases lex_total a q hne with h1 | h1
  · exact absurd h (ngroup_lt ps a q ha h1).ne
  · exact absurd h.symm (ngroup_lt ps q a hq h1).ne

theorem ngroup_bound (ps : List (ℕ × ℕ)) (q : ℕ × ℕ) (hq : q ∈ ps) : ngroup ps q < ps.dedup.length := by
  have hq' : q ∈ ps.dedup := List.mem_dedup.mpr hq
  unfold ngroup
  obtain ⟨l1, l2, e⟩ := List.append_of_mem hq'
  rw [e, List.filter_append, List.filter_cons]
  rw [if_neg (by simp)]
  have m1 := List.length_filter_le (fun a : ℕ × ℕ => decide (a.1 < q.1 ∨ (a.1 = q.1 ∧ a.2 < q.2))) l1
  have m2 := List.length_filter_le (fun a : ℕ × ℕ => decide (a.1 < q.1 ∨ (a.1 = q.1 ∧ a.2 < q.2))) l2
  rw [List.length_append, List.length_append, List.length_cons]
  omega

/-- The ranks are `0, ..., m - 1`. -/
theorem ngroup_surj (ps : List (ℕ × ℕ)) (k : ℕ) (hk : k < ps.dedup.length) : ∃ q ∈ ps, ngroup ps q = k := by
  classical
  have hinj : Set.InjOn (ngroup ps) (ps.dedup.toFinset : Set (ℕ × ℕ)) := by
    intro a ha q hq h
    simp only [List.coe_toFinset, Set.mem_ofPred_eq, List.mem_dedup] at ha hq
    exact ngroup_inj ps a q ha hq h
  have hmaps : ∀ a ∈ ps.dedup.toFinset, ngroup ps a ∈ Finset.range ps.dedup.length := by
    intro a ha
    rw [List.mem_toFinset, List.mem_dedup] at ha
    exact Finset.mem_range.mpr (ngroup_bound ps a ha)
  have hcard : (Finset.range ps.dedup.length).card ≤ ps.dedup.toFinset.card := by
    rw [Finset.card_range, List.toFinset_card_of_nodup (List.nodup_dedup ps)]
  obtain ⟨a, ha, e⟩ := Finset.surj_on_of_inj_on_of_card_le (fun a _ => ngroup ps a) hmaps
    (fun a b ha hb h => hinj (by simpa using ha) (by simpa using hb) h) hcard k (Finset.mem_range.mpr hk)
  rw [List.mem_toFinset, List.mem_dedup] at ha
  exact ⟨a, ha, e.symm⟩

theorem stayerFirms_fst (p : Params) (u : Draws) : (stayerFirms p u).map Prod.fst = stayerTypes p := by
  rw [stayerFirms, List.map_map, rawStayers, stayerTypes_group]
  exact List.ext_getElem (by simp) (by simp)

theorem cluster_unique (p : Params) (u : Draws) (g g' j : ℕ) (h : (g, j) ∈ stayerFirms p u)
    (h' : (g', j) ∈ stayerFirms p u) : g = g' := by
  rw [stayerFirms, List.mem_map] at h h'
  obtain ⟨a, ha, e⟩ := h
  obtain ⟨b, hb, e'⟩ := h'
  simp only [Prod.mk.injEq] at e e'
  have := ngroup_inj _ a b ha hb (e.2.trans e'.2.symm)
  rw [← e.1, ← e'.1, this]

/-! ### Redraws -/

theorem redraw_ne (p : Params) (u : Draws) (g2 j1 : List ℕ) : ∀ (fuel round : ℕ) (j2 r : List ℕ),
    redraw p u g2 j1 fuel round j2 = some r →
    ∀ (k a b : ℕ), j1[k]? = some a → r[k]? = some b → a ≠ b := by
  intro fuel
  induction fuel with
  | zero => intro round j2 r h; simp [redraw] at h
  | succ f ih =>
    intro round j2 r h
    rw [redraw] at h
    split at h
    · exact ih _ _ _ h
    · rename_i hany
      cases h
      intro k a b ha hb heq
      apply hany
      rw [List.any_eq_true]
      refine ⟨true, ?_, rfl⟩
      rw [List.mem_iff_getElem?]
      refine ⟨k, ?_⟩
      rw [List.getElem?_zipWith, ha, hb]
      simp [heq]

theorem redraw_mem (p : Params) (u : Draws) (g2 j1 : List ℕ) (hlen : j1.length = g2.length)
    (h2 : ∀ a ∈ g2, a < p.nk) (P : ℕ → ℕ → Prop)
    (hP : ∀ (v : ℕ → ℕ) (k b : ℕ), (drawCol p u g2 v)[k]? = some b → P k b) :
    ∀ (fuel round : ℕ) (j2 r : List ℕ), j2.length = g2.length → (∀ (k b : ℕ), j2[k]? = some b → P k b) →
    redraw p u g2 j1 fuel round j2 = some r → r.length = g2.length ∧ ∀ (k b : ℕ), r[k]? = some b → P k b := by
  intro fuel
  induction fuel with
  | zero => intro round j2 r _ _ h; simp [redraw] at h
  | succ f ih =>
    intro round j2 r hl hj h
    rw [redraw] at h
    split at h
    · refine ih _ _ _ ?_ ?_ h
      · rw [List.length_zipWith, List.length_zip, length_drawCol p u g2 _ h2, hlen, hl]
        simp
      · intro k b hb
        rw [List.getElem?_zipWith] at hb
        match e1 : (j1.zip j2)[k]?, e2 : (drawCol p u g2 (u.second (round + 1)))[k]? with
        | none, _ => rw [e1] at hb; simp at hb
        | some _, none => rw [e1, e2] at hb; simp at hb
        | some ab, some c =>
          rw [e1, e2] at hb
          simp only [Option.some.injEq] at hb
          split at hb
          · rw [← hb]; exact hP _ _ _ e2
          · rw [← hb]
            obtain ⟨_, h2'⟩ := List.getElem?_zip_eq_some.mp e1
            exact hj k _ h2'
    · cases h
      exact ⟨hl, hj⟩

/-- What a returned simulation looks like. -/
theorem simulate_ok (p : Params) (u : Draws) (fuel : ℕ) (ms : List MRow) (ss : List SRow)
    (h : simulate p u fuel = some (.ok (ms, ss))) :
    ∃ j1 j2 : List ℕ,
      j1 = drawCol p u ((moverTypes p).map Prod.fst) u.first ∧
      redraw p u ((moverTypes p).map Prod.snd) j1 fuel 0
        (drawCol p u ((moverTypes p).map Prod.snd) (u.second 0)) = some j2 ∧
      ms = (List.zipWith (fun (t : ℕ × ℕ) (j : ℕ × ℕ) => (t, j)) (moverTypes p) (j1.zip j2)).mapIdx
          (fun i x => ⟨x.1.1, x.1.2, x.2.1, x.2.2, i⟩) ∧
      ss = (stayerFirms p u).mapIdx (fun i q => ⟨q.1, q.2, q.2, (moverTypes p).length + i⟩) ∧
      (∀ g < p.nk, (jPer p u g).length ≠ 1) ∧
      (∀ t ∈ moverTypes p, jPer p u t.1 ≠ [] ∧ jPer p u t.2 ≠ []) := by
  unfold simulate at h
  dsimp only at h
  split at h
  · simp at h
  rename_i h1
  split at h
  · simp at h
  rename_i h2
  split at h
  · simp at h
  rename_i j2 hj2
  simp only [Option.some.injEq, Except.ok.injEq, Prod.mk.injEq] at h
  refine ⟨_, j2, rfl, hj2, h.1.symm, h.2.symm, ?_, ?_⟩
  · intro g hg e
    apply h1
    rw [List.any_eq_true]
    exact ⟨g, List.mem_range.mpr hg, by simpa using e⟩
  · intro t ht
    constructor <;> intro e <;> apply h2 <;> rw [List.any_eq_true]
    · exact ⟨t.1, List.mem_append_left _ (List.mem_map_of_mem ht), by simp [e]⟩
    · exact ⟨t.2, List.mem_append_right _ (List.mem_map_of_mem ht), by simp [e]⟩

/-- The rows of the movers one by one. -/
theorem mover_row (p : Params) (u : Draws) (fuel : ℕ) (ms : List MRow) (ss : List SRow)
    (h : simulate p u fuel = some (.ok (ms, ss))) (r : ℕ) (m : MRow) (hm : ms[r]? = some m) :
    ∃ g, (moverTypes p)[r]? = some (m.g1, m.g2) ∧ m.i = r ∧ m.j1 ≠ m.j2 ∧
      m.j1 ∈ jPer p u m.g1 ∧ ((moverTypes p).map Prod.snd).mergeSort[r]? = some g ∧ m.j2 ∈ jPer p u g := by
  obtain ⟨j1, j2, e1, e2, e3, _, _, hne⟩ := simulate_ok p u fuel ms ss h
  have lt1 : ∀ a ∈ (moverTypes p).map Prod.fst, a < p.nk := by
    intro a ha
    obtain ⟨t, ht, rfl⟩ := List.mem_map.mp ha
    exact (moverTypes_lt p t ht).1
  have lt2 : ∀ a ∈ (moverTypes p).map Prod.snd, a < p.nk := by
    intro a ha
    obtain ⟨t, ht, rfl⟩ := List.mem_map.mp ha
    exact (moverTypes_lt p t ht).2
  have l1 : j1.length = ((moverTypes p).map Prod.snd).length := by
    rw [e1, length_drawCol p u _ _ lt1]; simp
  rw [e3, List.getElem?_mapIdx] at hm
  obtain ⟨x, hx, ex⟩ := Option.map_eq_some_iff.mp hm
  rw [List.getElem?_zipWith] at hx
  match hh1 : (moverTypes p)[r]?, hh2 : (j1.zip j2)[r]? with
  | none, _ => rw [hh1] at hx; simp at hx
  | some _, none => rw [hh1, hh2] at hx; simp at hx
  | some t, some jj =>
    rw [hh1, hh2] at hx
    simp only [Option.some.injEq] at hx
    subst hx
    subst ex
    obtain ⟨z1, z2⟩ := List.getElem?_zip_eq_some.mp hh2
    have hj1 : jj.1 ∈ jPer p u t.1 := by
      rw [e1] at z1
      obtain ⟨g, hg, ej⟩ := drawCol_get p u _ _ r _ z1
      rw [groupCol_sorted _ _ lt1 (moverTypes_g1_sorted p), List.getElem?_map, hh1] at hg
      simp only [Option.map_some, Option.some.injEq] at hg
      rw [ej, ← hg]
      exact choose_mem _ _ (hne t (List.mem_of_getElem? hh1)).1
    have hP : ∀ (v : ℕ → ℕ) (k b : ℕ), (drawCol p u ((moverTypes p).map Prod.snd) v)[k]? = some b →
        ∃ g, ((moverTypes p).map Prod.snd).mergeSort[k]? = some g ∧ b ∈ jPer p u g := by
      intro v k b hb
      obtain ⟨g, hg, ej⟩ := drawCol_get p u _ _ k _ hb
      rw [groupCol_eq_sort _ _ lt2] at hg
      refine ⟨g, hg, ?_⟩
      rw [ej]
      have hmem : g ∈ (moverTypes p).map Prod.snd :=
        (List.mergeSort_perm _ _).mem_iff.mp (List.mem_of_getElem? hg)
      obtain ⟨t', ht', rfl⟩ := List.mem_map.mp hmem
      exact choose_mem _ _ (hne t' ht').2
    obtain ⟨_, hall⟩ := redraw_mem p u _ j1 l1 lt2 _ hP fuel 0 _ j2
      (length_drawCol p u _ _ lt2) (fun k b hb => hP _ k b hb) e2
    obtain ⟨g, hg, hg'⟩ := hall r jj.2 z2
    exact ⟨g, rfl, rfl, redraw_ne p u _ j1 fuel 0 _ j2 e2 r _ _ z1 z2, hj1, hg, hg'⟩

theorem length_movers (p : Params) (u : Draws) (fuel : ℕ) (ms : List MRow) (ss : List SRow)
    (h : simulate p u fuel = some (.ok (ms, ss))) : ms.length = (moverTypes p).length := by
  obtain ⟨j1, j2, e1, e2, e3, _, _, _⟩ := simulate_ok p u fuel ms ss h
  have lt1 : ∀ a ∈ (moverTypes p).map Prod.fst, a < p.nk := by
    intro a ha
    obtain ⟨t, ht, rfl⟩ := List.mem_map.mp ha
    exact (moverTypes_lt p t ht).1
  have lt2 : ∀ a ∈ (moverTypes p).map Prod.snd, a < p.nk := by
    intro a ha
    obtain ⟨t, ht, rfl⟩ := List.mem_map.mp ha
    exact (moverTypes_lt p t ht).2
  have l1 : j1.length = ((moverTypes p).map Prod.snd).length := by
    rw [e1, length_drawCol p u _ _ lt1]; simp
  obtain ⟨l2, _⟩ := redraw_mem p u _ j1 l1 lt2 (fun _ _ => True) (fun _ _ _ _ => trivial) fuel 0 _ j2
      (length_drawCol p u _ _ lt2) (fun _ _ _ => trivial) e2
  rw [e3, List.length_mapIdx, List.length_zipWith, List.length_zip, l1, l2]
  simp

theorem movers_types (p : Params) (u : Draws) (fuel : ℕ) (ms : List MRow) (ss : List SRow)
    (h : simulate p u fuel = some (.ok (ms, ss))) : ms.map (fun m => (m.g1, m.g2)) = moverTypes p := by
  have hl := length_movers p u fuel ms ss h
  refine List.ext_getElem? fun r => ?_
  rw [List.getElem?_map]
  match hm : ms[r]? with
  | none =>
    rw [List.getElem?_eq_none_iff] at hm
    rw [List.getElem?_eq_none (by omega)]
    rfl
  | some m =>
    obtain ⟨_, h1, _⟩ := mover_row p u fuel ms ss h r m hm
    rw [h1]
    rfl

theorem stayers_mem (p : Params) (u : Draws) (fuel : ℕ) (ms : List MRow) (ss : List SRow)
    (h : simulate p u fuel = some (.ok (ms, ss))) (j g : ℕ) :
    Spec.InCluster ss j g ↔ (g, j) ∈ stayerFirms p u := by
  obtain ⟨_, _, _, _, _, e4, _, _⟩ := simulate_ok p u fuel ms ss h
  subst e4
  constructor
  · rintro ⟨s, hs, rfl, rfl⟩
    rw [List.mem_mapIdx] at hs
    obtain ⟨i, hi, e⟩ := hs
    rw [← e]
    exact List.getElem_mem hi
  · intro hm
    obtain ⟨i, hi, e⟩ := List.mem_iff_getElem.mp hm
    refine ⟨_, List.mem_mapIdx.mpr ⟨i, hi, rfl⟩, ?_⟩
    rw [e]
    exact ⟨rfl, rfl⟩

theorem count_moverTypes (p : Params) (a b : ℕ) (ha : a < p.nk) (hb : b < p.nk) :
    (moverTypes p).count (a, b) = p.mmult * p.NNm a b := by
  have inner : ∀ k1 n, ((List.range n).flatMap fun k2 =>
      List.replicate (p.mmult * p.NNm k1 k2) (k1, k2)).count (a, b) =
      if k1 = a ∧ b < n then p.mmult * p.NNm a b else 0 := by
    intro k1 n
    induction n with
    | zero => simp
    | succ n ih =>
      rw [List.range_succ, List.flatMap_append, List.count_append, ih]
      simp only [List.flatMap_cons, List.flatMap_nil, List.append_nil, List.count_replicate]
      by_cases h1 : k1 = a
      · by_cases h2 : n = b
        · subst h1 h2; simp
        · have : ((k1, n) == (a, b)) = false := by simp [h2]
          rw [this]
          simp only [h1, true_and, Bool.false_eq_true, if_false, add_zero]
          by_cases h3 : b < n
          · rw [if_pos h3, if_pos (by omega)]
          · rw [if_neg h3, if_neg (by omega)]
      · have : ((k1, n) == (a, b)) = false := by simp [h1]
        rw [this]
        simp [h1]
  have outer : ∀ n, ((List.range n).flatMap fun k1 => (List.range p.nk).flatMap fun k2 =>
      List.replicate (p.mmult * p.NNm k1 k2) (k1, k2)).count (a, b) =
      if a < n then p.mmult * p.NNm a b else 0 := by
    intro n
    induction n with
    | zero => simp
    | succ n ih =>
      rw [List.range_succ, List.flatMap_append, List.count_append, ih]
      simp only [List.flatMap_cons, List.flatMap_nil, List.append_nil, inner]
      by_cases h : n = a
      · subst h; simp [hb]
      · simp only [h, false_and, if_false, add_zero]
        by_cases h2 : a < n
        · rw [if_pos h2, if_pos (by omega)]
        · rw [if_neg h2, if_neg (by omega)]
  have := outer p.nk
  rw [if_pos ha] at this
  exact this

theorem count_stayerTypes (p : Params) (a : ℕ) (ha : a < p.nk) :
    (stayerTypes p).count a = p.smult * p.NNs a := by
  have outer : ∀ n, ((List.range n).flatMap fun k => List.replicate (p.smult * p.NNs k) k).count a =
      if a < n then p.smult * p.NNs a else 0 := by
    intro n
    induction n with
    | zero => simp
    | succ n ih =>
      rw [List.range_succ, List.flatMap_append, List.count_append, ih]
      simp only [List.flatMap_cons, List.flatMap_nil, List.append_nil, List.count_replicate]
      by_cases h : n = a
      · subst h; simp
      · have : (n == a) = false := by simpa using h
        rw [this]
        simp only [Bool.false_eq_true, if_false, add_zero]
        by_cases h2 : a < n
        · rw [if_pos h2, if_pos (by omega)]
        · rw [if_neg h2, if_neg (by omega)]
  have := outer p.nk
  rw [if_pos ha] at this
  exact this

/-! ## C43 -/

/-- C43: whatever the draws, if `simulate` returns then the movers' worker ids are `0, 1, ...` and the
stayers' ids continue them. -/
theorem C43_worker_ids (p : Params) (u : Draws) (fuel : ℕ) (ms : List MRow) (ss : List SRow)
    (h : simulate p u fuel = some (.ok (ms, ss))) :
    ms.map MRow.i ++ ss.map SRow.i = List.range (ms.length + ss.length) := by
  have hl := length_movers p u fuel ms ss h
  have h1 : ms.map MRow.i = List.range ms.length := by
    refine List.ext_getElem? fun r => ?_
    rw [List.getElem?_map]
    match hm : ms[r]? with
    | none =>
      rw [List.getElem?_eq_none_iff] at hm
      rw [List.getElem?_eq_none (by simpa using hm)]
      rfl
    | some m =>
      obtain ⟨_, _, h2, _⟩ := mover_row p u fuel ms ss h r m hm
      have : r < ms.length := (List.getElem?_eq_some_iff.mp hm).1
      rw [List.getElem?_range this, Option.map_some, h2]
  obtain ⟨_, _, _, _, _, e4, _, _⟩ := simulate_ok p u fuel ms ss h
  rw [List.range_add, ← h1]
  congr 1
  subst e4
  refine List.ext_getElem (by simp) fun r h1 h2 => ?_
  simp [hl]

/-- C43: every mover's two firms differ, every stayer's are the same. -/
theorem C43_movers_move (p : Params) (u : Draws) (fuel : ℕ) (ms : List MRow) (ss : List SRow)
    (h : simulate p u fuel = some (.ok (ms, ss))) :
    (∀ m ∈ ms, m.j1 ≠ m.j2) ∧ ∀ s ∈ ss, s.j1 = s.j2 := by
  constructor
  · intro m hm
    obtain ⟨r, hr⟩ := List.mem_iff_getElem?.mp hm
    obtain ⟨_, _, _, h3, _⟩ := mover_row p u fuel ms ss h r m hr
    exact h3
  · intro s hs
    obtain ⟨_, _, _, _, _, e4, _, _⟩ := simulate_ok p u fuel ms ss h
    subst e4
    obtain ⟨i, hi, e⟩ := List.mem_mapIdx.mp hs
    rw [← e]

/-- C43: a firm belongs to one cluster only, firm ids are `0, 1, ...` without gaps, every cluster with
stayers has at least two firms, and movers only work at firms that have stayers. -/
theorem C43_firms (p : Params) (u : Draws) (fuel : ℕ) (ms : List MRow) (ss : List SRow)
    (h : simulate p u fuel = some (.ok (ms, ss))) :
    (∀ j g g', Spec.InCluster ss j g → Spec.InCluster ss j g' → g = g') ∧
    (∃ F, ∀ j, (∃ s ∈ ss, s.j1 = j) ↔ j < F) ∧
    (∀ j g, Spec.InCluster ss j g → ∃ j', j' ≠ j ∧ Spec.InCluster ss j' g) ∧
    ∀ m ∈ ms, (∃ g, Spec.InCluster ss m.j1 g) ∧ ∃ g, Spec.InCluster ss m.j2 g := by
  have hmem := stayers_mem p u fuel ms ss h
  refine ⟨fun j g g' h1 h2 => cluster_unique p u g g' j ((hmem j g).mp h1) ((hmem j g').mp h2),
    ⟨(rawStayers p u).dedup.length, fun j => ?_⟩, ?_, ?_⟩
  · have e : (∃ s ∈ ss, s.j1 = j) ↔ ∃ g, (g, j) ∈ stayerFirms p u := by
      constructor
      · rintro ⟨s, hs, rfl⟩; exact ⟨s.g, (hmem s.j1 s.g).mp ⟨s, hs, rfl, rfl⟩⟩
      · rintro ⟨g, hg⟩
        obtain ⟨s, hs, e, _⟩ := (hmem j g).mpr hg
        exact ⟨s, hs, e⟩
    rw [e]
    constructor
    · rintro ⟨g, hg⟩
      rw [stayerFirms, List.mem_map] at hg
      obtain ⟨q, hq, eq⟩ := hg
      rw [← (Prod.mk.inj eq).2]
      exact ngroup_bound _ q hq
    · intro hj
      obtain ⟨q, hq, eq⟩ := ngroup_surj _ j hj
      exact ⟨q.1, List.mem_map.mpr ⟨q, hq, by rw [eq]⟩⟩
  · intro j g hjg
    have hj := (hmem j g).mp hjg
    obtain ⟨_, _, _, _, _, _, h1, _⟩ := simulate_ok p u fuel ms ss h
    have hg : g < p.nk := by
      apply stayerTypes_lt p
      rw [← stayerFirms_fst p u]
      exact List.mem_map.mpr ⟨_, hj, rfl⟩
    have hm : j ∈ jPer p u g := (mem_jPer p u g j).mpr hj
    have hnd : (jPer p u g).Nodup := List.nodup_dedup _
    have hlen := h1 g hg
    match hL : jPer p u g, hm, hnd, hlen with
    | [a], _, _, hlen => simp at hlen
    | a :: b :: L, hm, hnd, _ =>
      have hab : a ≠ b := by
        intro e; subst e
        simp at hnd
      have ha : a ∈ jPer p u g := by rw [hL]; simp
      have hb : b ∈ jPer p u g := by rw [hL]; simp
      by_cases e : a = j
      · exact ⟨b, fun h => hab (e.trans h.symm), (hmem b g).mpr ((mem_jPer p u g b).mp hb)⟩
      · exact ⟨a, e, (hmem a g).mpr ((mem_jPer p u g a).mp ha)⟩
  · intro m hm
    obtain ⟨r, hr⟩ := List.mem_iff_getElem?.mp hm
    obtain ⟨g, _, _, _, h4, _, h6⟩ := mover_row p u fuel ms ss h r m hr
    exact ⟨⟨m.g1, (hmem _ _).mpr ((mem_jPer p u _ _).mp h4)⟩, ⟨g, (hmem _ _).mpr ((mem_jPer p u _ _).mp h6)⟩⟩

/-- C43: there are exactly the requested numbers of movers between each pair of firm types and of
stayers at each firm type, and no rows with other firm types. -/
theorem C43_counts (p : Params) (u : Draws) (fuel : ℕ) (ms : List MRow) (ss : List SRow)
    (h : simulate p u fuel = some (.ok (ms, ss))) :
    (∀ a b, a < p.nk → b < p.nk →
      (ms.filter fun m => m.g1 = a ∧ m.g2 = b).length = p.mmult * p.NNm a b) ∧
    (∀ a, a < p.nk → (ss.filter fun s => s.g = a).length = p.smult * p.NNs a) ∧
    (∀ m ∈ ms, m.g1 < p.nk ∧ m.g2 < p.nk) ∧ ∀ s ∈ ss, s.g < p.nk := by
  have ht := movers_types p u fuel ms ss h
  obtain ⟨_, _, _, _, _, e4, _, _⟩ := simulate_ok p u fuel ms ss h
  have hs : ss.map SRow.g = stayerTypes p := by
    rw [← stayerFirms_fst p u, e4]
    exact List.ext_getElem (by simp) (by simp)
  refine ⟨?_, ?_, ?_, ?_⟩
  · intro a b ha hb
    rw [← count_moverTypes p a b ha hb, ← ht, List.count, List.countP_map,
      List.countP_eq_length_filter]
    congr 2
    funext m
    simp only [Function.comp_apply]
    by_cases h : m.g1 = a ∧ m.g2 = b
    · simp [h]
    · have : ((m.g1, m.g2) == (a, b)) = false := by
        rw [beq_eq_false_iff_ne]
        intro e
        exact h (Prod.mk.inj e)
      rw [this]
      simpa using h
  · intro a ha
    rw [← count_stayerTypes p a ha, ← hs, List.count, List.countP_map, List.countP_eq_length_filter]
    congr 2
  · intro m hm
    have : (m.g1, m.g2) ∈ moverTypes p := by
      rw [← ht]; exact List.mem_map.mpr ⟨m, hm, rfl⟩
    exact moverTypes_lt p _ this
  · intro s hs'
    apply stayerTypes_lt p
    rw [← hs]
    exact List.mem_map.mpr ⟨s, hs', rfl⟩

/-! ## C44 -/

/-- C44: a mover's first firm belongs to the mover's first cluster. -/
theorem C44_first (p : Params) (u : Draws) (fuel : ℕ) (ms : List MRow) (ss : List SRow)
    (h : simulate p u fuel = some (.ok (ms, ss))) :
    ∀ m ∈ ms, Spec.InCluster ss m.j1 m.g1 := by
  intro m hm
  obtain ⟨r, hr⟩ := List.mem_iff_getElem?.mp hm
  obtain ⟨_, _, _, _, h4, _⟩ := mover_row p u fuel ms ss h r m hr
  exact (stayers_mem p u fuel ms ss h _ _).mpr ((mem_jPer p u _ _).mp h4)

/-- C44: the second firm of the `r`-th mover belongs to its second cluster exactly if that cluster is
also the `r`-th smallest entry of the column of second clusters, whatever the draws. -/
theorem C44_second_iff (p : Params) (u : Draws) (fuel : ℕ) (ms : List MRow) (ss : List SRow)
    (h : simulate p u fuel = some (.ok (ms, ss))) (r : ℕ) (m : MRow) (hm : ms[r]? = some m) :
    Spec.InCluster ss m.j2 m.g2 ↔ (ms.map MRow.g2).mergeSort[r]? = some m.g2 := by
  obtain ⟨g, _, _, _, _, h5, h6⟩ := mover_row p u fuel ms ss h r m hm
  have ht : ms.map MRow.g2 = (moverTypes p).map Prod.snd := by
    rw [← movers_types p u fuel ms ss h, List.map_map]
    rfl
  rw [ht, h5, stayers_mem p u fuel ms ss h]
  constructor
  · intro h'
    rw [cluster_unique p u _ _ _ ((mem_jPer p u _ _).mp h6) h']
  · intro h'
    cases h'
    exact (mem_jPer p u _ _).mp h6

/-- C44 (partial): both firms are in the right clusters when the movers' second clusters happen to be in
increasing order, for instance with one cluster or when all moves are within clusters.  Missing: all other
flow matrices, for which the claim is false (`C44_second_wrong`). -/
theorem C44_sorted_partial (p : Params) (u : Draws) (fuel : ℕ) (ms : List MRow) (ss : List SRow)
    (h : simulate p u fuel = some (.ok (ms, ss))) (hs : (ms.map MRow.g2).Pairwise (· ≤ ·)) :
    ∀ m ∈ ms, Spec.InCluster ss m.j1 m.g1 ∧ Spec.InCluster ss m.j2 m.g2 := by
  intro m hm
  refine ⟨C44_first p u fuel ms ss h m hm, ?_⟩
  obtain ⟨r, hr⟩ := List.mem_iff_getElem?.mp hm
  rw [C44_second_iff p u fuel ms ss h r m hr]
  have : (ms.map MRow.g2).mergeSort = ms.map MRow.g2 := by
    apply List.mergeSort_of_pairwise
    exact hs.imp fun h => by simpa using h
  rw [this, List.getElem?_map, hr]
  rfl

/-- C44 (wrong): with at least two firm types and a mover between every pair of them, every call that
returns has a mover whose second firm is not in the mover's second cluster, whatever the draws. -/
theorem C44_second_wrong (p : Params) (u : Draws) (fuel : ℕ) (ms : List MRow) (ss : List SRow)
    (h : simulate p u fuel = some (.ok (ms, ss))) (a b : ℕ) (hab : a < b)
    (h1 : ∃ m ∈ ms, m.g1 = a ∧ m.g2 = b) (h2 : ∃ m ∈ ms, m.g1 = b ∧ m.g2 = a) :
    ∃ m ∈ ms, ¬ Spec.InCluster ss m.j2 m.g2 := by
  by_contra hc
  push Not at hc
  have hsort : (ms.map MRow.g2).mergeSort = ms.map MRow.g2 := by
    refine List.ext_getElem? fun r => ?_
    match hm : ms[r]? with
    | none =>
      rw [List.getElem?_map, hm]
      have : ms.length ≤ r := List.getElem?_eq_none_iff.mp hm
      rw [List.getElem?_eq_none (by simpa using this)]
      rfl
    | some m =>
      have := (C44_second_iff p u fuel ms ss h r m hm).mp (hc m (List.mem_of_getElem? hm))
      rw [this, List.getElem?_map, hm]
      rfl
  have hpw : (ms.map MRow.g2).Pairwise (· ≤ ·) := by
    rw [← hsort]
    have := List.pairwise_mergeSort (le := fun a b : ℕ => decide (a ≤ b))
      (fun a b c h1 h2 => by simp at *; omega) (fun a b => by simp; omega) (ms.map MRow.g2)
    exact this.imp fun h => by simpa using h
  have hpw1 : (ms.map MRow.g1).Pairwise (· ≤ ·) := by
    have : ms.map MRow.g1 = (moverTypes p).map Prod.fst := by
      rw [← movers_types p u fuel ms ss h, List.map_map]; rfl
    rw [this]
    exact moverTypes_g1_sorted p
  obtain ⟨m1, hm1, e1, e2⟩ := h1
  obtain ⟨m2, hm2, e3, e4⟩ := h2
  obtain ⟨r1, hr1, q1⟩ := List.mem_iff_getElem.mp hm1
  obtain ⟨r2, hr2, q2⟩ := List.mem_iff_getElem.mp hm2
  rw [List.pairwise_iff_getElem] at hpw hpw1
  rcases lt_trichotomy r1 r2 with hlt | heq | hgt
  · have := hpw r1 r2 (by simpa using hr1) (by simpa using hr2) hlt
    simp only [List.getElem_map, q1, q2, e2, e4] at this
    omega
  · subst heq
    rw [q1] at q2
    subst q2
    omega
  · have := hpw1 r2 r1 (by simpa using hr2) (by simpa using hr1) hgt
    simp only [List.getElem_map, q1, q2, e1, e3] at this
    omega

/-- Two clusters of ten stayers each and one mover between every pair of clusters. -/
def exParams : Params := ⟨2, fun _ _ => 1, fun _ => 2, 1, 2, fun _ => 0⟩

/-- Draws that alternate between a cluster's two firms, shifted by one for second firms. -/
def exDraws : Draws := ⟨fun r => r, fun r => r, fun _ r => r + 1⟩

/-- Non-vacuity of C43 and C44, `C44_second_wrong` included: this call returns. -/
example : ∃ ms ss, simulate exParams exDraws 3 = some (.ok (ms, ss)) ∧ ms.length = 4 ∧ ss.length = 8 ∧
    (∃ m ∈ ms, m.g1 = 0 ∧ m.g2 = 1) ∧ ∃ m ∈ ms, m.g1 = 1 ∧ m.g2 = 0 := by
  refine ⟨_, _, rfl, ?_⟩
  decide

end Pytwoway.Sim
