/-
C101: the values `_collect_res` stores.
-/
import Verif.FE.ResultsProps

namespace Pytwoway.FEResults

variable {α : Type}

lemma build_ok (name : α → Py Key) (reqs : List (α × Stat)) (d₀ d : Dict Stat)
    (h : reqs.foldlM (fun d r => do
      let n ← name r.1
      return set d n r.2) d₀ = .ok d) : ∀ r ∈ reqs, ∃ n, name r.1 = .ok n := by
  induction reqs generalizing d₀ with
  | nil => simp
  | cons r rs ih =>
    rw [List.foldlM_cons] at h
    simp only [bind, Except.bind] at h
    rcases hn : name r.1 with e | n
    · rw [hn] at h; cases h
    · rw [hn] at h
      intro r' hr'
      rcases List.mem_cons.mp hr' with rfl | hr'
      · exact ⟨n, hn⟩
      · exact ih _ h r' hr'

lemma varNames_nodup {reqs : List (List Key × Stat)} (hnd : (reqs.map Prod.fst).Nodup)
    (hp : ∀ r ∈ reqs, ∀ c ∈ r.1, Spec.Plain c) (hok : ∀ r ∈ reqs, ∃ n, varName r.1 = .ok n) :
    (reqs.map fun r => Spec.varText r.1).Nodup := by
  have : (reqs.map Prod.fst).Pairwise fun a b => Spec.varText a ≠ Spec.varText b := by
    refine List.Pairwise.imp_of_mem ?_ hnd
    intro a b ha hb hab he
    obtain ⟨r, hr, rfl⟩ := List.mem_map.mp ha
    obtain ⟨r', hr', rfl⟩ := List.mem_map.mp hb
    obtain ⟨n, hn⟩ := hok r hr
    obtain ⟨n', hn'⟩ := hok r' hr'
    exact hab (varText_inj (hp r hr) (hp r' hr') (varName_eq hn).2 (varName_eq hn').2 he)
  rw [List.pairwise_map] at this
  exact List.pairwise_map.mpr this

lemma covNames_nodup {reqs : List ((List Key × List Key) × Stat)} (hnd : (reqs.map Prod.fst).Nodup)
    (hp : ∀ r ∈ reqs, ∀ c ∈ r.1.1 ++ r.1.2, Spec.Plain c) (hok : ∀ r ∈ reqs, ∃ n, covName r.1 = .ok n) :
    (reqs.map fun r => Spec.covText r.1).Nodup := by
  have : (reqs.map Prod.fst).Pairwise fun a b => Spec.covText a ≠ Spec.covText b := by
    refine List.Pairwise.imp_of_mem ?_ hnd
    intro a b ha hb hab he
    obtain ⟨r, hr, rfl⟩ := List.mem_map.mp ha
    obtain ⟨r', hr', rfl⟩ := List.mem_map.mp hb
    obtain ⟨n, hn⟩ := hok r hr
    obtain ⟨n', hn'⟩ := hok r' hr'
    exact hab (covText_inj (hp r hr) (hp r' hr') (covName_eq hn).2 (covName_eq hn').2 he)
  rw [List.pairwise_map] at this
  exact List.pairwise_map.mpr this

/-- The keys `_collect_res` assigns to, in order. -/
def kinds (x : Est) (vs cs : Dict Stat) : List Kind :=
  [.eps .fe] ++ vs.map (Kind.est .fe) ++ cs.map (Kind.est .fe) ++
  (if x.ho then [.eps .ho] ++ vs.flatMap (trKinds .ho) ++ cs.flatMap (trKinds .ho) ++ vs.map (Kind.est .ho) ++
    cs.map (Kind.est .ho) else []) ++
  (if x.he then vs.flatMap (trKinds .he) ++ cs.flatMap (trKinds .he) ++ vs.map (Kind.est .he) ++
    cs.map (Kind.est .he) else [])

lemma mem_trKinds {m : Meth} {l : Dict Stat} {κ : Kind} (h : κ ∈ l.flatMap (trKinds m)) :
    ∃ q ∈ l, κ = .tr m q ∨ κ = .sd m q := by
  obtain ⟨q, hq, h⟩ := List.mem_flatMap.mp h
  exact ⟨q, hq, by simpa [trKinds] using h⟩

lemma tr_within {m : Meth} {l items : Dict Stat} (hl : ∀ q ∈ l, q ∈ items) {κ : Kind}
    (h : κ ∈ l.flatMap (trKinds m)) : κ.within items := by
  obtain ⟨q, hq, rfl | rfl⟩ := mem_trKinds h
  · exact hl q hq
  · exact hl q hq

lemma est_within {m : Meth} {l items : Dict Stat} (hl : ∀ q ∈ l, q ∈ items) {κ : Kind}
    (h : κ ∈ l.map (Kind.est m)) : κ.within items := by
  obtain ⟨q, hq, rfl⟩ := List.mem_map.mp h
  exact hl q hq

lemma kinds_within (x : Est) (vs cs : Dict Stat) : ∀ κ ∈ kinds x vs cs, κ.within (vs ++ cs) := by
  intro κ h
  have hv : ∀ q ∈ vs, q ∈ vs ++ cs := fun q => List.mem_append_left _
  have hc : ∀ q ∈ cs, q ∈ vs ++ cs := fun q => List.mem_append_right _
  unfold kinds at h
  simp only [List.mem_append] at h
  rcases h with ((((h | h) | h) | h) | h)
  · rw [List.mem_singleton] at h; subst h; trivial
  · exact est_within hv h
  · exact est_within hc h
  · by_cases ho : x.ho
    · rw [if_pos ho] at h
      simp only [List.mem_append] at h
      rcases h with ((((h | h) | h) | h) | h)
      · rw [List.mem_singleton] at h; subst h; trivial
      · exact tr_within hv h
      · exact tr_within hc h
      · exact est_within hv h
      · exact est_within hc h
    · rw [if_neg ho] at h; simp at h
  · by_cases he : x.he
    · rw [if_pos he] at h
      simp only [List.mem_append] at h
      rcases h with (((h | h) | h) | h)
      · exact tr_within hv h
      · exact tr_within hc h
      · exact est_within hv h
      · exact est_within hc h
    · rw [if_neg he] at h; simp at h

section
variable (x : Est) {vs cs : Dict Stat} (hn : ∀ q ∈ vs ++ cs, IsName q.1 ∧ q.1 ≠ "var(eps)".toList)
  (hnd : ((vs ++ cs).map Prod.fst).Nodup)
include hn hnd

lemma hoRes_run (d : Dict Val) : hoRes x.sigmaHo vs cs d =
    .ok (run x ([.eps .ho] ++ vs.flatMap (trKinds .ho) ++ cs.flatMap (trKinds .ho) ++ vs.map (Kind.est .ho) ++
      cs.map (Kind.est .ho)) d) := by
  have hv : ∀ q ∈ vs, q ∈ vs ++ cs := fun q => List.mem_append_left _
  have hc : ∀ q ∈ cs, q ∈ vs ++ cs := fun q => List.mem_append_right _
  have hw : ∀ κ ∈ [Kind.eps .ho] ++ vs.flatMap (trKinds .ho) ++ cs.flatMap (trKinds .ho), κ.within (vs ++ cs) := by
    intro κ hκ
    simp only [List.mem_append] at hκ
    rcases hκ with ((hκ | hκ) | hκ)
    · rw [List.mem_singleton] at hκ; subst hκ; trivial
    · exact tr_within hv hκ
    · exact tr_within hc hκ
  unfold hoRes
  simp only [bind, Except.bind]
  rw [show put d "var(eps)_ho".toList x.sigmaHo = run x [.eps .ho] d from rfl, traces_ho x, traces_ho x,
    ← run_append, ← run_append, ← List.append_assoc]
  have h2 := corrected_run x .ho x.sigmaHo (vs ++ cs) vs (fun q hq => (hn q hq).1) hv (fun q _ => rfl)
    (run x ([Kind.eps .ho] ++ vs.flatMap (trKinds .ho) ++ cs.flatMap (trKinds .ho)) d) (by
      intro q hq
      exact get_run_mem x hn hnd _ d hw _ (List.mem_append_left _ (List.mem_append_right _
        (List.mem_flatMap.mpr ⟨q, hq, by simp [trKinds]⟩))))
  rw [← run_append] at h2
  rw [show "_ho".toList = suf .ho from rfl, h2]
  simp only
  rw [corrected_run x .ho x.sigmaHo (vs ++ cs) cs (fun q hq => (hn q hq).1) hc (fun q _ => rfl) _ (by
    intro q hq
    refine get_run_mem x hn hnd _ d ?_ _ (List.mem_append_left _ (List.mem_append_right _
      (List.mem_flatMap.mpr ⟨q, hq, by simp [trKinds]⟩)))
    intro κ hκ
    rcases List.mem_append.mp hκ with hκ | hκ
    · exact hw κ hκ
    · exact est_within hv hκ), ← run_append]

lemma heRes_run (d : Dict Val) (h1 : ∃ v, get d "var(eps)_he".toList = .ok v) (h2 : ∃ v, get d "min_lev".toList = .ok v)
    (h3 : ∃ v, get d "max_lev".toList = .ok v) : heRes vs cs d =
    .ok (run x (vs.flatMap (trKinds .he) ++ cs.flatMap (trKinds .he) ++ vs.map (Kind.est .he) ++
      cs.map (Kind.est .he)) d) := by
  have hv : ∀ q ∈ vs, q ∈ vs ++ cs := fun q => List.mem_append_left _
  have hc : ∀ q ∈ cs, q ∈ vs ++ cs := fun q => List.mem_append_right _
  have hw : ∀ κ ∈ vs.flatMap (trKinds .he) ++ cs.flatMap (trKinds .he), κ.within (vs ++ cs) := by
    intro κ hκ
    rcases List.mem_append.mp hκ with hκ | hκ
    · exact tr_within hv hκ
    · exact tr_within hc hκ
  obtain ⟨v1, h1⟩ := h1
  obtain ⟨v2, h2⟩ := h2
  obtain ⟨v3, h3⟩ := h3
  unfold heRes
  simp only [bind, Except.bind, refresh_ok h1, refresh_ok h2, refresh_ok h3]
  rw [traces_he x, traces_he x, ← run_append]
  have h2 := corrected_run x .he 1 (vs ++ cs) vs (fun q hq => (hn q hq).1) hv (fun q _ => rfl)
    (run x (vs.flatMap (trKinds .he) ++ cs.flatMap (trKinds .he)) d) (by
      intro q hq
      exact get_run_mem x hn hnd _ d hw _ (List.mem_append_left _
        (List.mem_flatMap.mpr ⟨q, hq, by simp [trKinds]⟩)))
  rw [← run_append] at h2
  rw [show "_he".toList = suf .he from rfl, h2]
  simp only
  rw [corrected_run x .he 1 (vs ++ cs) cs (fun q hq => (hn q hq).1) hc (fun q _ => rfl) _ (by
    intro q hq
    refine get_run_mem x hn hnd _ d ?_ _ (List.mem_append_left _ (List.mem_append_right _
      (List.mem_flatMap.mpr ⟨q, hq, by simp [trKinds]⟩)))
    intro κ hκ
    rcases List.mem_append.mp hκ with hκ | hκ
    · exact hw κ hκ
    · exact est_within hv hκ), ← run_append]

omit hn hnd in
lemma heRes_get (d d' : Dict Val) (h : heRes vs cs d = .ok d') :
    (∃ v, get d "var(eps)_he".toList = .ok v) ∧ (∃ v, get d "min_lev".toList = .ok v) ∧
      ∃ v, get d "max_lev".toList = .ok v := by
  unfold heRes at h
  simp only [bind, Except.bind] at h
  rcases r1 : refresh "var(eps)_he".toList d with e | dd
  · rw [r1] at h; cases h
  rw [r1] at h
  obtain rfl := refresh_id r1
  simp only at h
  rcases r2 : refresh "min_lev".toList dd with e | d2
  · rw [r2] at h; cases h
  rw [r2] at h
  obtain rfl := refresh_id r2
  simp only at h
  rcases r3 : refresh "max_lev".toList d2 with e | d3
  · rw [r3] at h; cases h
  exact ⟨refresh_get r1, refresh_get r2, refresh_get r3⟩

end

/-- The names of the sorted dictionaries of requests. -/
lemma setup (x : Est) (hv : (x.vars.map Prod.fst).Nodup)
    (hc : (x.covs.map Prod.fst).Nodup) (hpv : ∀ r ∈ x.vars, ∀ c ∈ r.1, Spec.Plain c)
    (hpc : ∀ r ∈ x.covs, ∀ c ∈ r.1.1 ++ r.1.2, Spec.Plain c) (heps : ∀ r ∈ x.vars, r.1 ≠ ["eps".toList])
    {qv qc : Dict Stat} (b1 : build varName x.vars = .ok qv) (b2 : build covName x.covs = .ok qc) :
    (sortItems qv).Perm (x.vars.map fun r => (Spec.varText r.1, r.2)) ∧
      (sortItems qc).Perm (x.covs.map fun r => (Spec.covText r.1, r.2)) ∧
      ((sortItems qv).map Prod.fst).Pairwise (· ≤ ·) ∧ ((sortItems qc).map Prod.fst).Pairwise (· ≤ ·) ∧
      (∀ q ∈ sortItems qv ++ sortItems qc, IsName q.1 ∧ q.1 ≠ "var(eps)".toList) ∧
      ((sortItems qv ++ sortItems qc).map Prod.fst).Nodup ∧
      (∀ r ∈ x.vars, varName r.1 = .ok (Spec.varText r.1)) ∧ ∀ r ∈ x.covs, covName r.1 = .ok (Spec.covText r.1) := by
  have okv := build_ok _ _ _ _ b1
  have okc := build_ok _ _ _ _ b2
  have nv := varNames_nodup hv hpv okv
  have nc := covNames_nodup hc hpc okc
  obtain ⟨ev, nmv⟩ := build_distinct varName Spec.varText (fun a n hh => (varName_eq hh).1) _ nv qv b1
  obtain ⟨ec, nmc⟩ := build_distinct covName Spec.covText (fun a n hh => (covName_eq hh).1) _ nc qc b2
  have pv : (sortItems qv).Perm qv := List.mergeSort_perm ..
  have pc : (sortItems qc).Perm qc := List.mergeSort_perm ..
  have sorted : ∀ d : Dict Stat, ((sortItems d).map Prod.fst).Pairwise (· ≤ ·) := by
    intro d
    rw [List.pairwise_map]
    have := List.pairwise_mergeSort (le := fun p q : Key × Stat => decide (p.1 ≤ q.1))
      (fun a b c hab hbc => by simp only [decide_eq_true_eq] at *; exact le_trans hab hbc)
      (fun a b => by simp only [Bool.or_eq_true, decide_eq_true_eq]; exact le_total _ _) d
    exact this.imp (by simp)
  have hmemv : ∀ q ∈ sortItems qv, ∃ r ∈ x.vars, q = (Spec.varText r.1, r.2) := by
    intro q hq
    have := pv.mem_iff.mp hq
    rw [ev] at this
    obtain ⟨r, hr, rfl⟩ := List.mem_map.mp this
    exact ⟨r, hr, rfl⟩
  have hmemc : ∀ q ∈ sortItems qc, ∃ r ∈ x.covs, q = (Spec.covText r.1, r.2) := by
    intro q hq
    have := pc.mem_iff.mp hq
    rw [ec] at this
    obtain ⟨r, hr, rfl⟩ := List.mem_map.mp this
    exact ⟨r, hr, rfl⟩
  have hvar : ∀ cols : List Key, ∃ s, Spec.varText cols = 'v' :: s := fun cols => ⟨_, by
    unfold Spec.varText
    rw [show "var(".toList = ['v', 'a', 'r', '('] from by decide]; rfl⟩
  have hcov : ∀ cols : List Key × List Key, ∃ s, Spec.covText cols = 'c' :: s := fun cols => ⟨_, by
    unfold Spec.covText
    rw [show "cov(".toList = ['c', 'o', 'v', '('] from by decide]; rfl⟩
  have hn : ∀ q ∈ sortItems qv ++ sortItems qc, IsName q.1 ∧ q.1 ≠ "var(eps)".toList := by
    intro q hq
    rcases List.mem_append.mp hq with hq | hq
    · obtain ⟨r, hr, rfl⟩ := hmemv q hq
      refine ⟨(hvar r.1).imp fun s hs => .inl hs, fun he => heps r hr ?_⟩
      obtain ⟨n, hn⟩ := okv r hr
      refine varText_inj (hpv r hr) ?_ (varName_eq hn).2 (by simp)
        (he.trans (by decide : "var(eps)".toList = Spec.varText ["eps".toList]))
      intro c hcm
      rw [List.mem_singleton] at hcm
      subst hcm
      exact ⟨by decide, by decide⟩
    · obtain ⟨r, hr, rfl⟩ := hmemc q hq
      obtain ⟨s, hs⟩ := hcov r.1
      refine ⟨⟨s, .inr hs⟩, fun he => ?_⟩
      simp only at he
      rw [hs, show "var(eps)".toList = 'v' :: "ar(eps)".toList from by decide] at he
      simp at he
  have hnd : ((sortItems qv ++ sortItems qc).map Prod.fst).Nodup := by
    rw [List.map_append, List.nodup_append]
    refine ⟨?_, ?_, ?_⟩
    · rw [(pv.map Prod.fst).nodup_iff, ev, List.map_map]; exact nv
    · rw [(pc.map Prod.fst).nodup_iff, ec, List.map_map]; exact nc
    · intro a ha b hb hab
      obtain ⟨q, hq, rfl⟩ := List.mem_map.mp ha
      obtain ⟨q', hq', rfl⟩ := List.mem_map.mp hb
      obtain ⟨r, hr, rfl⟩ := hmemv q hq
      obtain ⟨r', hr', rfl⟩ := hmemc q' hq'
      obtain ⟨s, hs⟩ := hvar r.1
      obtain ⟨s', hs'⟩ := hcov r'.1
      simp only [hs, hs'] at hab
      simp at hab
  exact ⟨ev ▸ pv, ec ▸ pc, sorted _, sorted _, hn, hnd, nmv, nmc⟩

/-- What a successful `_collect_res` did. -/
lemma collect_run (x : Est) (res summ res' summ' : Dict Val) (hv : (x.vars.map Prod.fst).Nodup)
    (hc : (x.covs.map Prod.fst).Nodup) (hpv : ∀ r ∈ x.vars, ∀ c ∈ r.1, Spec.Plain c)
    (hpc : ∀ r ∈ x.covs, ∀ c ∈ r.1.1 ++ r.1.2, Spec.Plain c) (heps : ∀ r ∈ x.vars, r.1 ≠ ["eps".toList])
    (h : collectRes x res summ = .ok (res', summ')) :
    ∃ vs cs : Dict Stat, vs.Perm (x.vars.map fun r => (Spec.varText r.1, r.2)) ∧
      cs.Perm (x.covs.map fun r => (Spec.covText r.1, r.2)) ∧
      (vs.map Prod.fst).Pairwise (· ≤ ·) ∧ (cs.map Prod.fst).Pairwise (· ≤ ·) ∧
      (∀ q ∈ vs ++ cs, IsName q.1 ∧ q.1 ≠ "var(eps)".toList) ∧ ((vs ++ cs).map Prod.fst).Nodup ∧
      (∀ r ∈ x.vars, varName r.1 = .ok (Spec.varText r.1)) ∧ (∀ r ∈ x.covs, covName r.1 = .ok (Spec.covText r.1)) ∧
      res' = run x (kinds x vs cs) res ∧ copyKeys (allKeys x vs cs) res' summ = .ok summ' := by
  unfold collectRes at h
  simp only [bind, Except.bind] at h
  rcases b1 : build varName x.vars with e | qv
  · rw [b1] at h; cases h
  rw [b1] at h
  simp only at h
  rcases b2 : build covName x.covs with e | qc
  · rw [b2] at h; cases h
  rw [b2] at h
  simp only at h
  obtain ⟨pv, pc, sv, sc, hn, hnd, nmv, nmc⟩ := setup x hv hc hpv hpc heps b1 b2
  refine ⟨sortItems qv, sortItems qc, pv, pc, sv, sc, hn, hnd, nmv, nmc, ?_⟩
  rcases r1 : refresh "var(y)".toList res with e | d0
  · rw [r1] at h; cases h
  rw [r1] at h
  obtain rfl := refresh_id r1
  simp only at h
  rw [show put d0 "var(eps)_fe".toList x.sigmaFe = run x [.eps .fe] d0 from rfl, plugIn_run x, plugIn_run x,
    ← run_append, ← run_append, ← List.append_assoc] at h
  rcases r2 : hoPart x (sortItems qv) (sortItems qc) (run x ([Kind.eps .fe] ++
    (sortItems qv).map (Kind.est .fe) ++ (sortItems qc).map (Kind.est .fe)) d0) with e | d1
  · rw [r2] at h; cases h
  rw [r2] at h
  simp only at h
  unfold hoPart at r2
  have e1 : d1 = run x ([Kind.eps .fe] ++ (sortItems qv).map (Kind.est .fe) ++ (sortItems qc).map (Kind.est .fe) ++
      (if x.ho then [.eps .ho] ++ (sortItems qv).flatMap (trKinds .ho) ++ (sortItems qc).flatMap (trKinds .ho) ++
        (sortItems qv).map (Kind.est .ho) ++ (sortItems qc).map (Kind.est .ho) else [])) d0 := by
    by_cases ho : x.ho = true
    · rw [if_pos ho] at r2
      rw [if_pos ho, run_append]
      exact (Except.ok.inj ((hoRes_run x hn hnd _).symm.trans r2)).symm
    · rw [if_neg ho] at r2
      rw [if_neg ho, List.append_nil]
      exact (Except.ok.inj r2).symm
  rcases r3 : hePart x (sortItems qv) (sortItems qc) d1 with e | d2
  · rw [r3] at h; cases h
  rw [r3] at h
  simp only at h
  unfold hePart at r3
  have e2 : d2 = run x (kinds x (sortItems qv) (sortItems qc)) d0 := by
    by_cases he : x.he = true
    · rw [if_pos he] at r3
      unfold kinds
      rw [if_pos he, run_append, ← e1]
      obtain ⟨g1, g2, g3⟩ := heRes_get _ _ r3
      exact (Except.ok.inj ((heRes_run x hn hnd _ g1 g2 g3).symm.trans r3)).symm
    · rw [if_neg he] at r3
      unfold kinds
      rw [if_neg he, List.append_nil, ← e1]
      exact (Except.ok.inj r3).symm
  rcases r4 : copyKeys (allKeys x (sortItems qv) (sortItems qc)) d2 summ with e | s
  · rw [r4] at h; cases h
  rw [r4] at h
  simp only [pure, Except.pure] at h
  have hpair := Except.ok.inj h
  rw [Prod.mk.injEq] at hpair
  refine ⟨hpair.1 ▸ e2, ?_⟩
  rw [← hpair.1, ← hpair.2]
  exact r4

lemma build_succeeds (name : α → Py Key) (reqs : List (α × Stat)) (h : ∀ r ∈ reqs, ∃ n, name r.1 = .ok n)
    (d₀ : Dict Stat) : ∃ d, reqs.foldlM (fun d r => do
      let n ← name r.1
      return set d n r.2) d₀ = .ok d := by
  induction reqs generalizing d₀ with
  | nil => exact ⟨d₀, rfl⟩
  | cons r rs ih =>
    obtain ⟨n, hn⟩ := h r (List.mem_cons_self ..)
    rw [List.foldlM_cons]
    simp only [bind, Except.bind, hn, pure, Except.pure]
    exact ih (fun r hr => h r (List.mem_cons_of_mem _ hr)) _

lemma suf_of_str (κ : Kind) : (∃ m a, κ.str = a ++ suf m) ∨ ∃ a, κ.str = a ++ "_sd".toList := by
  cases κ with
  | eps m => exact .inl ⟨m, _, rfl⟩
  | est m q => exact .inl ⟨m, _, rfl⟩
  | tr m q => exact .inl ⟨m, _, rfl⟩
  | sd m q => exact .inr ⟨_, rfl⟩

/-- Keys that do not look like results are not touched. -/
lemma get_run_plain (x : Est) (l : List Kind) (d : Dict Val) (k : Key)
    (hk : ∀ s ∈ ["_fe".toList, "_ho".toList, "_he".toList, "_sd".toList], ¬ s <:+ k) :
    get (run x l d) k = get d k := by
  refine get_run_other x l d k fun a _ he => ?_
  rcases suf_of_str a with ⟨m, t, h⟩ | ⟨t, h⟩
  · refine hk (suf m) ?_ ⟨t, by rw [← h, he]⟩
    cases m <;> simp [suf]
  · exact hk "_sd".toList (by simp) ⟨t, by rw [← h, he]⟩

lemma eps_he_notMem (x : Est) (vs cs : Dict Stat) : Kind.eps .he ∉ kinds x vs cs := by
  unfold kinds
  intro h
  have hm : ∀ m (l : Dict Stat), Kind.eps .he ∉ l.map (Kind.est m) := fun m l h => by
    obtain ⟨q, _, hq⟩ := List.mem_map.mp h
    cases hq
  have ht : ∀ m (l : Dict Stat), Kind.eps .he ∉ l.flatMap (trKinds m) := fun m l h => by
    obtain ⟨q, _, hq | hq⟩ := mem_trKinds h <;> cases hq
  simp only [List.mem_append] at h
  rcases h with ((((h | h) | h) | h) | h)
  · rw [List.mem_singleton] at h; cases h
  · exact hm _ _ h
  · exact hm _ _ h
  · by_cases ho : x.ho
    · rw [if_pos ho] at h
      simp only [List.mem_append] at h
      rcases h with ((((h | h) | h) | h) | h)
      · rw [List.mem_singleton] at h; cases h
      · exact ht _ _ h
      · exact ht _ _ h
      · exact hm _ _ h
      · exact hm _ _ h
    · rw [if_neg ho] at h; simp at h
  · by_cases he : x.he
    · rw [if_pos he] at h
      simp only [List.mem_append] at h
      rcases h with (((h | h) | h) | h)
      · exact ht _ _ h
      · exact ht _ _ h
      · exact hm _ _ h
      · exact hm _ _ h
    · rw [if_neg he] at h; simp at h

lemma get_eps_he (x : Est) {vs cs : Dict Stat} (hn : ∀ q ∈ vs ++ cs, IsName q.1 ∧ q.1 ≠ "var(eps)".toList)
    (hnd : ((vs ++ cs).map Prod.fst).Nodup) (l : List Kind) (hl : ∀ κ ∈ l, κ ∈ kinds x vs cs) (d : Dict Val) :
    get (run x l d) "var(eps)_he".toList = get d "var(eps)_he".toList := by
  refine get_run_other x l d _ fun a ha he => ?_
  have := str_inj hn hnd (kinds_within x vs cs a (hl a ha)) (b := .eps .he) trivial
    (he.trans (by decide : "var(eps)_he".toList = Kind.str (.eps .he)))
  subst this
  exact eps_he_notMem x vs cs (hl _ ha)

lemma mem_kinds_fe (x : Est) (vs cs : Dict Stat) {q : Key × Stat} (hq : q ∈ vs ++ cs) :
    Kind.est .fe q ∈ kinds x vs cs := by
  unfold kinds
  rcases List.mem_append.mp hq with hq | hq <;> simp [hq]

lemma mem_kinds_ho (x : Est) (vs cs : Dict Stat) (ho : x.ho = true) {q : Key × Stat} (hq : q ∈ vs ++ cs) :
    Kind.est .ho q ∈ kinds x vs cs ∧ Kind.tr .ho q ∈ kinds x vs cs ∧ Kind.sd .ho q ∈ kinds x vs cs := by
  have h1 : q ∈ vs → Kind.tr .ho q ∈ vs.flatMap (trKinds .ho) ∧ Kind.sd .ho q ∈ vs.flatMap (trKinds .ho) := fun h =>
    ⟨List.mem_flatMap.mpr ⟨q, h, by simp [trKinds]⟩, List.mem_flatMap.mpr ⟨q, h, by simp [trKinds]⟩⟩
  have h2 : q ∈ cs → Kind.tr .ho q ∈ cs.flatMap (trKinds .ho) ∧ Kind.sd .ho q ∈ cs.flatMap (trKinds .ho) := fun h =>
    ⟨List.mem_flatMap.mpr ⟨q, h, by simp [trKinds]⟩, List.mem_flatMap.mpr ⟨q, h, by simp [trKinds]⟩⟩
  have h3 : q ∈ vs → Kind.est .ho q ∈ vs.map (Kind.est .ho) := fun h => List.mem_map_of_mem h
  have h4 : q ∈ cs → Kind.est .ho q ∈ cs.map (Kind.est .ho) := fun h => List.mem_map_of_mem h
  unfold kinds
  rw [if_pos ho]
  simp only [List.mem_append]
  rcases List.mem_append.mp hq with hq | hq
  · exact ⟨.inl (.inr (.inl (.inr (h3 hq)))), .inl (.inr (.inl (.inl (.inl (.inr (h1 hq).1))))),
      .inl (.inr (.inl (.inl (.inl (.inr (h1 hq).2)))))⟩
  · exact ⟨.inl (.inr (.inr (h4 hq))), .inl (.inr (.inl (.inl (.inr (h2 hq).1)))),
      .inl (.inr (.inl (.inl (.inr (h2 hq).2))))⟩

lemma mem_kinds_he (x : Est) (vs cs : Dict Stat) (he : x.he = true) {q : Key × Stat} (hq : q ∈ vs ++ cs) :
    Kind.est .he q ∈ kinds x vs cs ∧ Kind.tr .he q ∈ kinds x vs cs ∧ Kind.sd .he q ∈ kinds x vs cs := by
  have h1 : q ∈ vs → Kind.tr .he q ∈ vs.flatMap (trKinds .he) ∧ Kind.sd .he q ∈ vs.flatMap (trKinds .he) := fun h =>
    ⟨List.mem_flatMap.mpr ⟨q, h, by simp [trKinds]⟩, List.mem_flatMap.mpr ⟨q, h, by simp [trKinds]⟩⟩
  have h2 : q ∈ cs → Kind.tr .he q ∈ cs.flatMap (trKinds .he) ∧ Kind.sd .he q ∈ cs.flatMap (trKinds .he) := fun h =>
    ⟨List.mem_flatMap.mpr ⟨q, h, by simp [trKinds]⟩, List.mem_flatMap.mpr ⟨q, h, by simp [trKinds]⟩⟩
  have h3 : q ∈ vs → Kind.est .he q ∈ vs.map (Kind.est .he) := fun h => List.mem_map_of_mem h
  have h4 : q ∈ cs → Kind.est .he q ∈ cs.map (Kind.est .he) := fun h => List.mem_map_of_mem h
  unfold kinds
  rw [if_pos he]
  simp only [List.mem_append]
  rcases List.mem_append.mp hq with hq | hq
  · exact ⟨.inr (.inl (.inr (h3 hq))), .inr (.inl (.inl (.inl (h1 hq).1))), .inr (.inl (.inl (.inl (h1 hq).2)))⟩
  · exact ⟨.inr (.inr (h4 hq)), .inr (.inl (.inl (.inr (h2 hq).1))), .inr (.inl (.inl (.inr (h2 hq).2)))⟩

lemma mem_kinds_eps (x : Est) (vs cs : Dict Stat) :
    Kind.eps .fe ∈ kinds x vs cs ∧ (x.ho = true → Kind.eps .ho ∈ kinds x vs cs) := by
  constructor
  · unfold kinds; simp
  · intro ho; unfold kinds; rw [if_pos ho]; simp

lemma avg_eq (l : List ℝ) : mean l = Spec.avg l := rfl

lemma std_spec (l : List ℝ) : 0 ≤ std l ∧ Spec.IsVar l (std l ^ 2) := by
  refine ⟨Real.sqrt_nonneg _, ?_⟩
  unfold std Spec.IsVar
  rw [Real.sq_sqrt]
  · unfold mean
    rw [List.length_map]; rfl
  · unfold mean
    refine div_nonneg (List.sum_nonneg ?_) (Nat.cast_nonneg _)
    intro y hy
    obtain ⟨z, _, rfl⟩ := List.mem_map.mp hy
    exact sq_nonneg _

/-- An item of the dictionary is reported. -/
lemma reports (x : Est) {vs cs : Dict Stat} (hn : ∀ q ∈ vs ++ cs, IsName q.1 ∧ q.1 ≠ "var(eps)".toList)
    (hnd : ((vs ++ cs).map Prod.fst).Nodup) (d : Dict Val) {q : Key × Stat} (hq : q ∈ vs ++ cs) :
    Spec.Reports x q.1 q.2 (run x (kinds x vs cs) d) := by
  have get := get_run_mem x hn hnd (kinds x vs cs) d (kinds_within x vs cs)
  refine ⟨get (.est .fe q) (mem_kinds_fe x vs cs hq), fun ho => ?_, fun he => ?_⟩
  · obtain ⟨h1, h2, h3⟩ := mem_kinds_ho x vs cs ho hq
    refine ⟨get _ h1, get _ h2, std q.2.ho, (std_spec _).1, (std_spec _).2, ?_⟩
    have := get _ h3
    have hs : Kind.str (.sd .ho q) = "tr_".toList ++ q.1 ++ "_ho_sd".toList := by
      rw [show "_ho_sd".toList = suf .ho ++ "_sd".toList from by decide, ← List.append_assoc]; rfl
    rw [hs] at this
    exact this
  · obtain ⟨h1, h2, h3⟩ := mem_kinds_he x vs cs he hq
    refine ⟨?_, get _ h2, std q.2.he, (std_spec _).1, (std_spec _).2, ?_⟩
    · have := get _ h1
      rw [show Kind.val x (.est .he q) = q.2.fe - Spec.avg q.2.he from by
        show q.2.fe - 1 * mean q.2.he = _
        rw [one_mul]; rfl] at this
      exact this
    · have := get _ h3
      have hs : Kind.str (.sd .he q) = "tr_".toList ++ q.1 ++ "_he_sd".toList := by
        rw [show "_he_sd".toList = suf .he ++ "_sd".toList from by decide, ← List.append_assoc]; rfl
      rw [hs] at this
      exact this

/-- **C101.** After a successful `fit` every requested variance and covariance is in `res` under its documented name:
the plug-in estimate, and for each correction that was asked for the mean and standard deviation of the trace draws and
the plug-in estimate minus the correction (`σ² · trace` for homoskedastic, the trace for heteroskedastic).  The residual
variances are there too and no other key is touched.

Partial: columns whose names have spaces or commas, repeated requests, and a control called `eps` are excluded; see
`C101_names_clash` and `C101_eps_clash`. -/
theorem C101_values_partial (x : Est) (res summ res' summ' : Dict Val) (hv : (x.vars.map Prod.fst).Nodup)
    (hc : (x.covs.map Prod.fst).Nodup) (hpv : ∀ r ∈ x.vars, ∀ c ∈ r.1, Spec.Plain c)
    (hpc : ∀ r ∈ x.covs, ∀ c ∈ r.1.1 ++ r.1.2, Spec.Plain c) (heps : ∀ r ∈ x.vars, r.1 ≠ ["eps".toList])
    (h : collectRes x res summ = .ok (res', summ')) :
    (∀ r ∈ x.vars, Spec.Reports x (Spec.varText r.1) r.2 res') ∧
    (∀ r ∈ x.covs, Spec.Reports x (Spec.covText r.1) r.2 res') ∧
    get res' "var(eps)_fe".toList = .ok (.num x.sigmaFe) ∧
    (x.ho = true → get res' "var(eps)_ho".toList = .ok (.num x.sigmaHo)) ∧
    get res' "var(eps)_he".toList = get res "var(eps)_he".toList ∧
    ∀ k, (∀ s ∈ ["_fe".toList, "_ho".toList, "_he".toList, "_sd".toList], ¬ s <:+ k) → get res' k = get res k := by
  obtain ⟨vs, cs, pv, pc, _, _, hn, hnd, _, _, rfl, _⟩ := collect_run x res summ res' summ' hv hc hpv hpc heps h
  have get := get_run_mem x hn hnd (kinds x vs cs) res (kinds_within x vs cs)
  refine ⟨?_, ?_, ?_, ?_, ?_, ?_⟩
  · intro r hr
    exact reports x hn hnd res (q := (Spec.varText r.1, r.2))
      (List.mem_append_left _ (pv.mem_iff.mpr (List.mem_map.mpr ⟨r, hr, rfl⟩)))
  · intro r hr
    exact reports x hn hnd res (q := (Spec.covText r.1, r.2))
      (List.mem_append_right _ (pc.mem_iff.mpr (List.mem_map.mpr ⟨r, hr, rfl⟩)))
  · exact get (.eps .fe) (mem_kinds_eps x vs cs).1
  · intro ho
    exact get (.eps .ho) ((mem_kinds_eps x vs cs).2 ho)
  · exact get_eps_he x hn hnd _ (fun _ h => h) res
  · intro k hk
    exact get_run_plain x _ res k hk

end Pytwoway.FEResults
