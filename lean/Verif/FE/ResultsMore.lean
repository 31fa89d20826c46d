/-
C101: the summary, when collecting the results fails, name clashes, saving, the counts and leverages from files.
-/
import Verif.FE.ResultsValues
import Mathlib.Data.List.Basic
import Mathlib.Tactic.FieldSimp

namespace Pytwoway.FEResults

/-! ### The summary -/

/-- The entries of the summary for an item. -/
def sKinds (x : Est) (q : Key × Stat) : List Kind :=
  [.est .fe q] ++ (if x.ho then [.est .ho q] else []) ++ (if x.he then [.est .he q] else [])

/-- The entries of the summary after `var(y)`. -/
def summaryKinds (x : Est) (vs cs : Dict Stat) : List Kind :=
  [.eps .fe] ++ (if x.ho then [.eps .ho] else []) ++ (if x.he then [.eps .he] else []) ++ vs.flatMap (sKinds x) ++
    cs.flatMap (sKinds x)

lemma sKinds_str (x : Est) (q : Key × Stat) : (sKinds x q).map Kind.str = sumKeys x q.1 := by
  unfold sKinds sumKeys
  by_cases ho : x.ho <;> by_cases he : x.he
  · rw [if_pos ho, if_pos he, if_pos ho, if_pos he]; rfl
  · rw [if_pos ho, if_neg he, if_pos ho, if_neg he]; rfl
  · rw [if_neg ho, if_pos he, if_neg ho, if_pos he]; rfl
  · rw [if_neg ho, if_neg he, if_neg ho, if_neg he]; rfl

lemma allKeys_eq (x : Est) (vs cs : Dict Stat) :
    allKeys x vs cs = "var(y)".toList :: (summaryKinds x vs cs).map Kind.str := by
  have h : ∀ l : Dict Stat, (l.map Prod.fst).flatMap (sumKeys x) = (l.flatMap (sKinds x)).map Kind.str := by
    intro l
    rw [List.map_flatMap, List.flatMap_map]
    simp only [sKinds_str]
  have e1 : Kind.str (.eps .fe) = "var(eps)_fe".toList := by decide
  have e2 : Kind.str (.eps .ho) = "var(eps)_ho".toList := by decide
  have e3 : Kind.str (.eps .he) = "var(eps)_he".toList := by decide
  unfold allKeys summaryKinds
  rw [h, h]
  by_cases ho : x.ho <;> by_cases he : x.he <;> simp only [ho, he, List.map_append, List.map_cons, List.map_nil, e1, e2, e3, if_true,
    Bool.false_eq_true, if_false] <;> simp only [List.cons_append, List.nil_append, List.append_nil]

lemma mem_sKinds {x : Est} {q : Key × Stat} {κ : Kind} (h : κ ∈ sKinds x q) : ∃ m, κ = .est m q := by
  unfold sKinds at h
  simp only [List.mem_append] at h
  rcases h with (h | h) | h
  · exact ⟨.fe, by simpa using h⟩
  · by_cases ho : x.ho
    · rw [if_pos ho] at h; exact ⟨.ho, by simpa using h⟩
    · rw [if_neg ho] at h; simp at h
  · by_cases he : x.he
    · rw [if_pos he] at h; exact ⟨.he, by simpa using h⟩
    · rw [if_neg he] at h; simp at h

lemma summaryKinds_within (x : Est) (vs cs : Dict Stat) : ∀ κ ∈ summaryKinds x vs cs, κ.within (vs ++ cs) := by
  intro κ h
  unfold summaryKinds at h
  simp only [List.mem_append] at h
  rcases h with (((h | h) | h) | h) | h
  · rw [List.mem_singleton] at h; subst h; trivial
  · by_cases ho : x.ho
    · rw [if_pos ho, List.mem_singleton] at h; subst h; trivial
    · rw [if_neg ho] at h; simp at h
  · by_cases he : x.he
    · rw [if_pos he, List.mem_singleton] at h; subst h; trivial
    · rw [if_neg he] at h; simp at h
  · obtain ⟨q, hq, h⟩ := List.mem_flatMap.mp h
    obtain ⟨m, rfl⟩ := mem_sKinds h
    exact List.mem_append_left _ hq
  · obtain ⟨q, hq, h⟩ := List.mem_flatMap.mp h
    obtain ⟨m, rfl⟩ := mem_sKinds h
    exact List.mem_append_right _ hq

lemma sKinds_nodup (x : Est) (q : Key × Stat) : (sKinds x q).Nodup := by
  unfold sKinds
  by_cases ho : x.ho <;> by_cases he : x.he <;> simp [ho, he]

lemma items_nodup {l : Dict Stat} (h : (l.map Prod.fst).Nodup) (x : Est) : (l.flatMap (sKinds x)).Nodup := by
  rw [List.nodup_flatMap]
  refine ⟨fun q _ => sKinds_nodup x q, ?_⟩
  have h' : l.Nodup := List.Nodup.of_map _ h
  refine h'.imp ?_
  intro a b hab κ ha hb
  obtain ⟨m, rfl⟩ := mem_sKinds ha
  obtain ⟨m', h⟩ := mem_sKinds hb
  rw [Kind.est.injEq] at h
  exact hab h.2

lemma summaryKinds_nodup (x : Est) {vs cs : Dict Stat} (hnd : ((vs ++ cs).map Prod.fst).Nodup) :
    (summaryKinds x vs cs).Nodup := by
  have h1 := items_nodup hnd x
  rw [List.flatMap_append] at h1
  have h2 : summaryKinds x vs cs = ([.eps .fe] ++ (if x.ho then [.eps .ho] else []) ++
      (if x.he then [.eps .he] else [])) ++ (vs.flatMap (sKinds x) ++ cs.flatMap (sKinds x)) := by
    unfold summaryKinds; simp only [List.append_assoc]
  rw [h2, List.nodup_append]
  refine ⟨?_, h1, ?_⟩
  · by_cases ho : x.ho <;> by_cases he : x.he <;> simp [ho, he]
  · intro a ha b hb hab
    subst hab
    have hb' : ∃ q m, a = .est m q := by
      rw [← List.flatMap_append] at hb
      obtain ⟨q, _, h⟩ := List.mem_flatMap.mp hb
      obtain ⟨m, h⟩ := mem_sKinds h
      exact ⟨q, m, h⟩
    obtain ⟨q, m, rfl⟩ := hb'
    by_cases ho : x.ho <;> by_cases he : x.he <;> simp [ho, he] at ha

lemma str_ne_vary (κ : Kind) : κ.str ≠ "var(y)".toList := by
  intro h
  rcases suf_of_str κ with ⟨m, a, e⟩ | ⟨a, e⟩
  · rw [h, show "var(y)".toList = "var".toList ++ "(y)".toList from by decide] at e
    have := (List.append_inj' e (by rw [suf_len]; decide)).2
    cases m <;> exact absurd this (by decide)
  · rw [h, show "var(y)".toList = "var".toList ++ "(y)".toList from by decide] at e
    have := (List.append_inj' e (by decide)).2
    exact absurd this (by decide)

lemma allKeys_nodup (x : Est) {vs cs : Dict Stat} (hn : ∀ q ∈ vs ++ cs, IsName q.1 ∧ q.1 ≠ "var(eps)".toList)
    (hnd : ((vs ++ cs).map Prod.fst).Nodup) : (allKeys x vs cs).Nodup := by
  rw [allKeys_eq, List.nodup_cons]
  refine ⟨?_, ?_⟩
  · intro h
    obtain ⟨κ, _, h⟩ := List.mem_map.mp h
    exact str_ne_vary κ h
  · refine List.Nodup.map_on ?_ (summaryKinds_nodup x hnd)
    intro a ha b hb h
    exact str_inj hn hnd (summaryKinds_within x vs cs a ha) (summaryKinds_within x vs cs b hb) h

lemma allKeys_spec (x : Est) (vs cs : Dict Stat) :
    allKeys x vs cs = ["var(y)".toList, "var(eps)_fe".toList] ++ (if x.ho then ["var(eps)_ho".toList] else []) ++
      (if x.he then ["var(eps)_he".toList] else []) ++ (vs.map Prod.fst).flatMap (Spec.entries x) ++
      (cs.map Prod.fst).flatMap (Spec.entries x) := by
  have : sumKeys x = Spec.entries x := by
    funext n
    unfold sumKeys Spec.entries
    simp only [List.cons_append, List.nil_append]
  unfold allKeys
  rw [this]

/-- **C101.** The summary of a first `fit` has exactly these entries in this order: the variance of the outcome, the
residual variances, then every requested variance and then every covariance in alphabetical order, each with the
estimators that were computed.  Every entry equals the entry of `res` with the same key. -/
theorem C101_summary_partial (x : Est) (res res' summ' : Dict Val) (hv : (x.vars.map Prod.fst).Nodup)
    (hc : (x.covs.map Prod.fst).Nodup) (hpv : ∀ r ∈ x.vars, ∀ c ∈ r.1, Spec.Plain c)
    (hpc : ∀ r ∈ x.covs, ∀ c ∈ r.1.1 ++ r.1.2, Spec.Plain c) (heps : ∀ r ∈ x.vars, r.1 ≠ ["eps".toList])
    (h : collectRes x res [] = .ok (res', summ')) :
    (∃ vn cn : List Key, vn.Perm (x.vars.map fun r => Spec.varText r.1) ∧ vn.Pairwise (· ≤ ·) ∧
      cn.Perm (x.covs.map fun r => Spec.covText r.1) ∧ cn.Pairwise (· ≤ ·) ∧
      summ'.map Prod.fst = ["var(y)".toList, "var(eps)_fe".toList] ++ (if x.ho then ["var(eps)_ho".toList] else []) ++
        (if x.he then ["var(eps)_he".toList] else []) ++ vn.flatMap (Spec.entries x) ++
        cn.flatMap (Spec.entries x)) ∧
    ∀ k ∈ summ'.map Prod.fst, get summ' k = get res' k := by
  obtain ⟨vs, cs, pv, pc, sv, sc, hn, hnd, _, _, _, hcopy⟩ := collect_run x res [] res' summ' hv hc hpv hpc heps h
  obtain ⟨h1, _, h3⟩ := copyKeys_spec _ _ _ _ hcopy
  have hk := h3 (by simpa using allKeys_nodup x hn hnd)
  simp only [List.map_nil, List.nil_append] at hk
  refine ⟨⟨vs.map Prod.fst, cs.map Prod.fst, ?_, sv, ?_, sc, ?_⟩, ?_⟩
  · have := pv.map Prod.fst
    rwa [List.map_map] at this
  · have := pc.map Prod.fst
    rwa [List.map_map] at this
  · rw [hk, allKeys_spec]
  · intro k hkm
    rw [hk] at hkm
    exact (h1 k hkm).1

/-! ### When it succeeds -/

lemma varName_ok {cols : List Key} (h : cols ≠ []) : ∃ n, varName cols = .ok n := by
  cases cols with
  | nil => exact absurd rfl h
  | cons c cs => exact ⟨_, rfl⟩

lemma covName_ok {cols : List Key × List Key} (h : cols.1 ≠ [] ∧ cols.2 ≠ []) : ∃ n, covName cols = .ok n := by
  obtain ⟨l, r⟩ := cols
  cases l with
  | nil => exact absurd rfl h.1
  | cons c cs =>
    cases r with
    | nil => exact absurd rfl h.2
    | cons d ds => exact ⟨_, rfl⟩

/-- **C101.** Collecting never fails on what the earlier steps of `fit` leave: the variance of the outcome, and with the
heteroskedastic correction its residual variance and the range of the leverages. -/
theorem C101_succeeds_partial (x : Est) (res summ : Dict Val) (hv : (x.vars.map Prod.fst).Nodup)
    (hc : (x.covs.map Prod.fst).Nodup) (hpv : ∀ r ∈ x.vars, ∀ c ∈ r.1, Spec.Plain c)
    (hpc : ∀ r ∈ x.covs, ∀ c ∈ r.1.1 ++ r.1.2, Spec.Plain c) (heps : ∀ r ∈ x.vars, r.1 ≠ ["eps".toList])
    (hnv : ∀ r ∈ x.vars, r.1 ≠ []) (hnc : ∀ r ∈ x.covs, r.1.1 ≠ [] ∧ r.1.2 ≠ [])
    (hy : ∃ v, get res "var(y)".toList = .ok v)
    (hhe : x.he = true → (∃ v, get res "var(eps)_he".toList = .ok v) ∧ (∃ v, get res "min_lev".toList = .ok v) ∧
      ∃ v, get res "max_lev".toList = .ok v) :
    ∃ res' summ', collectRes x res summ = .ok (res', summ') := by
  obtain ⟨qv, b1⟩ := build_succeeds varName x.vars (fun r hr => varName_ok (hnv r hr)) []
  obtain ⟨qc, b2⟩ := build_succeeds covName x.covs (fun r hr => covName_ok (hnc r hr)) []
  replace b1 : build varName x.vars = .ok qv := b1
  replace b2 : build covName x.covs = .ok qc := b2
  obtain ⟨pv, pc, sv, sc, hn, hnd, nmv, nmc⟩ := setup x hv hc hpv hpc heps b1 b2
  obtain ⟨v, hy⟩ := hy
  set vs := sortItems qv with hvs
  set cs := sortItems qc with hcs
  have plain : ∀ k ∈ ["min_lev".toList, "max_lev".toList, "var(y)".toList],
      ∀ s ∈ ["_fe".toList, "_ho".toList, "_he".toList, "_sd".toList], ¬ s <:+ k := by decide
  let l₁ := [Kind.eps .fe] ++ vs.map (Kind.est .fe) ++ cs.map (Kind.est .fe)
  let l₂ := if x.ho then [Kind.eps .ho] ++ vs.flatMap (trKinds .ho) ++ cs.flatMap (trKinds .ho) ++
    vs.map (Kind.est .ho) ++ cs.map (Kind.est .ho) else []
  let l₃ := if x.he then vs.flatMap (trKinds .he) ++ cs.flatMap (trKinds .he) ++ vs.map (Kind.est .he) ++
    cs.map (Kind.est .he) else []
  have hk : kinds x vs cs = l₁ ++ l₂ ++ l₃ := rfl
  have ho : hoPart x vs cs (run x l₁ res) = .ok (run x (l₁ ++ l₂) res) := by
    unfold hoPart
    by_cases ho : x.ho = true
    · rw [if_pos ho, run_append x l₁ l₂]
      simp only [l₂, if_pos ho]
      exact hoRes_run x hn hnd _
    · rw [if_neg ho]
      simp only [l₂, if_neg ho, List.append_nil]
  have he : hePart x vs cs (run x (l₁ ++ l₂) res) = .ok (run x (kinds x vs cs) res) := by
    unfold hePart
    by_cases he : x.he = true
    · obtain ⟨g1, g2, g3⟩ := hhe he
      rw [if_pos he, hk, run_append x (l₁ ++ l₂) l₃]
      have : l₃ = vs.flatMap (trKinds .he) ++ cs.flatMap (trKinds .he) ++ vs.map (Kind.est .he) ++
        cs.map (Kind.est .he) := if_pos he
      rw [this]
      refine heRes_run x hn hnd _ ?_ ?_ ?_
      · rw [get_eps_he x hn hnd (l₁ ++ l₂) (fun κ h => by rw [hk]; exact List.mem_append_left _ h)]
        exact g1
      · rw [get_run_plain x _ _ _ (plain _ (by simp))]; exact g2
      · rw [get_run_plain x _ _ _ (plain _ (by simp))]; exact g3
    · have : l₃ = [] := if_neg he
      rw [if_neg he, hk, this, List.append_nil]
  have hall : ∀ k ∈ allKeys x vs cs, ∃ v, get (run x (kinds x vs cs) res) k = .ok v := by
    have hget := get_run_mem x hn hnd (kinds x vs cs) res (kinds_within x vs cs)
    intro k hkm
    rw [allKeys_eq] at hkm
    rcases List.mem_cons.mp hkm with rfl | hkm
    · exact ⟨v, by rw [get_run_plain x _ _ _ (plain _ (by simp))]; exact hy⟩
    · obtain ⟨κ, hκ, rfl⟩ := List.mem_map.mp hkm
      unfold summaryKinds at hκ
      simp only [List.mem_append] at hκ
      have item : ∀ q ∈ vs ++ cs, κ ∈ sKinds x q → ∃ v, get (run x (kinds x vs cs) res) κ.str = .ok v := by
        intro q hq h
        unfold sKinds at h
        simp only [List.mem_append] at h
        rcases h with (h | h) | h
        · rw [List.mem_singleton] at h; subst h
          exact ⟨_, hget _ (mem_kinds_fe x vs cs hq)⟩
        · by_cases ho : x.ho
          · rw [if_pos ho, List.mem_singleton] at h; subst h
            exact ⟨_, hget _ (mem_kinds_ho x vs cs ho hq).1⟩
          · rw [if_neg ho] at h; simp at h
        · by_cases he : x.he
          · rw [if_pos he, List.mem_singleton] at h; subst h
            exact ⟨_, hget _ (mem_kinds_he x vs cs he hq).1⟩
          · rw [if_neg he] at h; simp at h
      rcases hκ with (((h | h) | h) | h) | h
      · rw [List.mem_singleton] at h; subst h
        exact ⟨_, hget _ (mem_kinds_eps x vs cs).1⟩
      · by_cases ho : x.ho
        · rw [if_pos ho, List.mem_singleton] at h; subst h
          exact ⟨_, hget _ ((mem_kinds_eps x vs cs).2 ho)⟩
        · rw [if_neg ho] at h; simp at h
      · by_cases he : x.he
        · rw [if_pos he, List.mem_singleton] at h; subst h
          obtain ⟨w, hw⟩ := (hhe he).1
          refine ⟨w, ?_⟩
          rw [show Kind.str (.eps .he) = "var(eps)_he".toList from by decide, get_eps_he x hn hnd _ (fun _ h => h)]
          exact hw
        · rw [if_neg he] at h; simp at h
      · obtain ⟨q, hq, h⟩ := List.mem_flatMap.mp h
        exact item q (List.mem_append_left _ hq) h
      · obtain ⟨q, hq, h⟩ := List.mem_flatMap.mp h
        exact item q (List.mem_append_right _ hq) h
  obtain ⟨s, hs⟩ := copyKeys_ok _ _ summ hall
  refine ⟨run x (kinds x vs cs) res, s, ?_⟩
  unfold collectRes
  simp only [bind, Except.bind, b1, b2, refresh_ok hy]
  rw [← hvs, ← hcs, show put res "var(eps)_fe".toList x.sigmaFe = run x [.eps .fe] res from rfl, plugIn_run x,
    plugIn_run x, ← run_append, ← run_append, ← List.append_assoc]
  rw [show [Kind.eps Meth.fe] ++ List.map (Kind.est Meth.fe) vs ++ List.map (Kind.est Meth.fe) cs = l₁ from rfl, ho]
  simp only
  rw [he]
  simp only
  rw [hs]
  rfl

/-- A run meeting the hypotheses of the three theorems: two variances and a covariance, both corrections. -/
noncomputable def demo : Est where
  vars := [(["psi".toList, "alpha".toList], ⟨3, [1, 2], [1, 3]⟩), (["psi".toList], ⟨1, [1 / 2], [1 / 4]⟩)]
  covs := [((["psi_t".toList], ["psi_{t+1}".toList]), ⟨1 / 3, [0], [1]⟩)]
  sigmaFe := 2
  sigmaHo := 3
  ho := true
  he := true

/-- What `fit` leaves before collecting. -/
noncomputable def demoRes : Dict Val :=
  [("var(y)".toList, .num 7), ("min_lev".toList, .num 0), ("max_lev".toList, .num (1 / 2)),
    ("var(eps)_he".toList, .num 4)]

lemma demo_plain : ∀ r ∈ demo.vars, ∀ c ∈ r.1, Spec.Plain c := by
  intro r hr c hc
  simp only [demo, List.mem_cons, List.not_mem_nil, or_false] at hr
  rcases hr with rfl | rfl
  · simp only [List.mem_cons, List.not_mem_nil, or_false] at hc
    rcases hc with rfl | rfl <;> (unfold Spec.Plain; decide)
  · simp only [List.mem_cons, List.not_mem_nil, or_false] at hc
    subst hc; unfold Spec.Plain; decide

lemma demo_plain' : ∀ r ∈ demo.covs, ∀ c ∈ r.1.1 ++ r.1.2, Spec.Plain c := by
  intro r hr c hc
  simp only [demo, List.mem_cons, List.not_mem_nil, or_false] at hr
  subst hr
  simp only [List.mem_append, List.mem_cons, List.not_mem_nil, or_false] at hc
  rcases hc with rfl | rfl <;> (unfold Spec.Plain; decide)

lemma demo_vars : (demo.vars.map Prod.fst).Nodup ∧ (demo.covs.map Prod.fst).Nodup ∧
    (∀ r ∈ demo.vars, r.1 ≠ ["eps".toList]) := by
  refine ⟨by simp only [demo, List.map_cons, List.map_nil]; decide,
    by simp only [demo, List.map_cons, List.map_nil]; decide, ?_⟩
  intro r hr
  simp only [demo, List.mem_cons, List.not_mem_nil, or_false] at hr
  rcases hr with rfl | rfl
  · show ["psi".toList, "alpha".toList] ≠ _; decide
  · show ["psi".toList] ≠ _; decide

/-- The hypotheses are met and the run succeeds. -/
theorem C101_demo_partial : ∃ res' summ', collectRes demo demoRes [] = .ok (res', summ') ∧
    get res' "var(psi + alpha)_ho".toList = .ok (.num (3 - 3 * (3 / 2))) ∧
    get res' "cov(psi_t, psi_{t+1})_he".toList = .ok (.num (1 / 3 - 1)) ∧
    get res' "var(y)".toList = .ok (.num 7) := by
  obtain ⟨h1, h2, h3⟩ := demo_vars
  obtain ⟨res', summ', h⟩ := C101_succeeds_partial demo demoRes [] h1 h2 demo_plain demo_plain' h3
    (by
      intro r hr
      simp only [demo, List.mem_cons, List.not_mem_nil, or_false] at hr
      rcases hr with rfl | rfl <;> simp)
    (by
      intro r hr
      simp only [demo, List.mem_cons, List.not_mem_nil, or_false] at hr
      subst hr; simp)
    ⟨.num 7, by unfold demoRes; rw [get, if_pos rfl]⟩
    (fun _ => ⟨⟨.num 4, by
        unfold demoRes
        rw [get, if_neg (by decide), get, if_neg (by decide), get, if_neg (by decide), get, if_pos rfl]⟩,
      ⟨.num 0, by unfold demoRes; rw [get, if_neg (by decide), get, if_pos rfl]⟩,
      ⟨.num (1 / 2), by
        unfold demoRes
        rw [get, if_neg (by decide), get, if_neg (by decide), get, if_pos rfl]⟩⟩)
  obtain ⟨g1, g2, _, _, _, g6⟩ := C101_values_partial demo demoRes [] res' summ' h1 h2 demo_plain demo_plain' h3 h
  refine ⟨res', summ', h, ?_, ?_, ?_⟩
  · have := ((g1 _ (List.mem_cons_self ..)).2.1 rfl).1
    rw [show Spec.varText ["psi".toList, "alpha".toList] ++ "_ho".toList = "var(psi + alpha)_ho".toList from by decide]
      at this
    rw [this]
    simp only [Spec.avg, demo, List.sum_cons, List.sum_nil, List.length_cons, List.length_nil]
    norm_num
  · have := ((g2 _ (List.mem_cons_self ..)).2.2 rfl).1
    rw [show Spec.covText (["psi_t".toList], ["psi_{t+1}".toList]) ++ "_he".toList =
      "cov(psi_t, psi_{t+1})_he".toList from by decide] at this
    rw [this]
    simp only [Spec.avg, List.sum_cons, List.sum_nil, List.length_cons, List.length_nil]
    norm_num
  · rw [g6 _ (by decide)]
    unfold demoRes; rw [get, if_pos rfl]

end Pytwoway.FEResults
