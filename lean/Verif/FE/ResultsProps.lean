/-
C101.  What `res` and `summary` contain after `fit`: every requested variance and covariance under its own name, the
residual variances, the traces, and the counts; how names can collide; and what saving to a file does.
-/
import Verif.FE.ResultsLemmas
import Mathlib.Tactic.NormNum
import Mathlib.Tactic.Ring

namespace Pytwoway.FEResults

namespace Spec

/-- The documented name of a variance: `var(a + b + ...)`. -/
def varText (cols : List Key) : Key := "var(".toList ++ " + ".toList.intercalate cols ++ ")".toList

/-- The documented name of a covariance: `cov(a + b + ..., c + d + ...)`. -/
def covText (cols : List Key × List Key) : Key :=
  "cov(".toList ++ " + ".toList.intercalate cols.1 ++ ", ".toList ++ " + ".toList.intercalate cols.2 ++ ")".toList

/-- A column name without spaces and commas. -/
def Plain (c : Key) : Prop := ' ' ∉ c ∧ ',' ∉ c

/-- The average of an array. -/
noncomputable def avg (l : List ℝ) : ℝ := l.sum / l.length

/-- `v` is the population variance of the array. -/
def IsVar (l : List ℝ) (v : ℝ) : Prop := v = (l.map fun y => (y - avg l) ^ 2).sum / l.length

/-- `res` reports, under the name `n`, the quantity with plug-in estimate `s.fe` and trace draws `s.ho`, `s.he`. -/
def Reports (x : Est) (n : Key) (s : Stat) (res : Dict Val) : Prop :=
  get res (n ++ "_fe".toList) = .ok (.num s.fe) ∧
  (x.ho = true →
    get res (n ++ "_ho".toList) = .ok (.num (s.fe - x.sigmaHo * avg s.ho)) ∧
    get res ("tr_".toList ++ n ++ "_ho".toList) = .ok (.num (avg s.ho)) ∧
    ∃ v, 0 ≤ v ∧ IsVar s.ho (v ^ 2) ∧ get res ("tr_".toList ++ n ++ "_ho_sd".toList) = .ok (.num v)) ∧
  (x.he = true →
    get res (n ++ "_he".toList) = .ok (.num (s.fe - avg s.he)) ∧
    get res ("tr_".toList ++ n ++ "_he".toList) = .ok (.num (avg s.he)) ∧
    ∃ v, 0 ≤ v ∧ IsVar s.he (v ^ 2) ∧ get res ("tr_".toList ++ n ++ "_he_sd".toList) = .ok (.num v))

/-- The entries of the summary for a quantity. -/
def entries (x : Est) (n : Key) : List Key :=
  (n ++ "_fe".toList) :: ((if x.ho then [n ++ "_ho".toList] else []) ++ if x.he then [n ++ "_he".toList] else [])

end Spec

/-! ### Names -/

lemma plusRest_eq (c : Key) (cs : List Key) : c ++ plusRest cs = " + ".toList.intercalate (c :: cs) := by
  induction cs generalizing c with
  | nil => simp [plusRest, List.intercalate]
  | cons d ds ih =>
    have h : " + ".toList.intercalate (c :: d :: ds) = c ++ (" + ".toList ++ " + ".toList.intercalate (d :: ds)) := by
      simp [List.intercalate, List.intersperse]
    rw [h, ← ih d, plusRest, List.append_assoc]

lemma sumText_eq {cols : List Key} {s : Key} (h : sumText cols = .ok s) : s = " + ".toList.intercalate cols ∧ cols ≠ [] := by
  cases cols with
  | nil => cases h
  | cons c cs =>
    refine ⟨?_, by simp⟩
    rw [← plusRest_eq]; exact (Except.ok.inj h).symm

lemma varName_eq {cols : List Key} {n : Key} (h : varName cols = .ok n) : n = Spec.varText cols ∧ cols ≠ [] := by
  unfold varName at h
  simp only [bind, Except.bind] at h
  rcases hs : sumText cols with e | s
  · rw [hs] at h; cases h
  · rw [hs] at h
    obtain ⟨h1, h2⟩ := sumText_eq hs
    refine ⟨?_, h2⟩
    rw [← Except.ok.inj h, h1]; rfl

lemma covName_eq {cols : List Key × List Key} {n : Key} (h : covName cols = .ok n) :
    n = Spec.covText cols ∧ cols.1 ≠ [] ∧ cols.2 ≠ [] := by
  unfold covName at h
  simp only [bind, Except.bind] at h
  rcases hs : sumText cols.1 with e | s
  · rw [hs] at h; cases h
  · rw [hs] at h
    rcases ht : sumText cols.2 with e | t
    · simp only [ht] at h; cases h
    · simp only [ht] at h
      obtain ⟨h1, h2⟩ := sumText_eq hs
      obtain ⟨h3, h4⟩ := sumText_eq ht
      refine ⟨?_, h2, h4⟩
      rw [← Except.ok.inj h, h1, h3]; rfl

/-- Cutting at the first `c`. -/
lemma cut {c : Char} {a b r s : Key} (ha : c ∉ a) (hb : c ∉ b) (hr : r = [] ∨ ∃ t, r = c :: t)
    (hs : s = [] ∨ ∃ t, s = c :: t) (h : a ++ r = b ++ s) : a = b ∧ r = s := by
  induction a generalizing b with
  | nil =>
    cases b with
    | nil => exact ⟨rfl, h⟩
    | cons y b =>
      exfalso
      rcases hr with rfl | ⟨t, rfl⟩
      · simp at h
      · simp only [List.nil_append, List.cons_append, List.cons.injEq] at h
        exact hb (by rw [h.1]; exact List.mem_cons_self ..)
  | cons z a ih =>
    cases b with
    | nil =>
      exfalso
      rcases hs with rfl | ⟨t, rfl⟩
      · simp at h
      · simp only [List.nil_append, List.cons_append, List.cons.injEq] at h
        exact ha (by rw [← h.1]; exact List.mem_cons_self ..)
    | cons y b =>
      simp only [List.cons_append, List.cons.injEq] at h
      obtain ⟨h1, h2⟩ := ih (fun hm => ha (List.mem_cons_of_mem _ hm)) (fun hm => hb (List.mem_cons_of_mem _ hm)) h.2
      exact ⟨by rw [h.1, h1], h2⟩

lemma plus_list : " + ".toList = [' ', '+', ' '] := by decide

lemma comma_list : ", ".toList = [',', ' '] := by decide

lemma plusRest_head (cs : List Key) : plusRest cs = [] ∨ ∃ t, plusRest cs = ' ' :: t := by
  cases cs with
  | nil => exact .inl rfl
  | cons c cs => exact .inr ⟨_, by rw [plusRest, plus_list]; rfl⟩

lemma plusRest_inj (cs ds : List Key) (hc : ∀ c ∈ cs, ' ' ∉ c) (hd : ∀ c ∈ ds, ' ' ∉ c)
    (h : plusRest cs = plusRest ds) : cs = ds := by
  induction cs generalizing ds with
  | nil =>
    cases ds with
    | nil => rfl
    | cons d ds => rw [plusRest, plusRest, plus_list] at h; simp at h
  | cons c cs ih =>
    cases ds with
    | nil => rw [plusRest, plusRest, plus_list] at h; simp at h
    | cons d ds =>
      rw [plusRest, plusRest, List.append_assoc, List.append_assoc] at h
      obtain ⟨h1, h2⟩ := cut (hc c (List.mem_cons_self ..)) (hd d (List.mem_cons_self ..)) (plusRest_head _)
        (plusRest_head _) (List.append_cancel_left h)
      rw [h1, ih ds (fun c hm => hc c (List.mem_cons_of_mem _ hm)) (fun c hm => hd c (List.mem_cons_of_mem _ hm)) h2]

lemma intercalate_inj {cs ds : List Key} (hc : ∀ c ∈ cs, ' ' ∉ c) (hd : ∀ c ∈ ds, ' ' ∉ c) (hcn : cs ≠ [])
    (hdn : ds ≠ []) (h : " + ".toList.intercalate cs = " + ".toList.intercalate ds) : cs = ds := by
  cases cs with
  | nil => exact absurd rfl hcn
  | cons c cs =>
    cases ds with
    | nil => exact absurd rfl hdn
    | cons d ds =>
      rw [← plusRest_eq, ← plusRest_eq] at h
      obtain ⟨h1, h2⟩ := cut (hc c (List.mem_cons_self ..)) (hd d (List.mem_cons_self ..)) (plusRest_head _)
        (plusRest_head _) h
      rw [h1, plusRest_inj cs ds (fun c hm => hc c (List.mem_cons_of_mem _ hm))
        (fun c hm => hd c (List.mem_cons_of_mem _ hm)) h2]

lemma comma_notMem {cs : List Key} (hc : ∀ c ∈ cs, ',' ∉ c) : ',' ∉ " + ".toList.intercalate cs := by
  cases cs with
  | nil => simp [List.intercalate]
  | cons c cs =>
    rw [← plusRest_eq]
    induction cs generalizing c with
    | nil => simpa [plusRest] using hc c (List.mem_cons_self ..)
    | cons d ds ih =>
      have := ih d (fun e he => hc e (List.mem_cons_of_mem _ he))
      rw [plusRest, plus_list]
      simp only [List.mem_append, not_or] at this ⊢
      exact ⟨hc c (List.mem_cons_self ..), ⟨by decide, this.1⟩, this.2⟩

lemma varText_inj {cs ds : List Key} (hc : ∀ c ∈ cs, Spec.Plain c) (hd : ∀ c ∈ ds, Spec.Plain c) (hcn : cs ≠ [])
    (hdn : ds ≠ []) (h : Spec.varText cs = Spec.varText ds) : cs = ds :=
  intercalate_inj (fun c hm => (hc c hm).1) (fun c hm => (hd c hm).1) hcn hdn
    (List.append_cancel_left (List.append_cancel_right h))

lemma covText_inj {cs ds : List Key × List Key} (hc : ∀ c ∈ cs.1 ++ cs.2, Spec.Plain c)
    (hd : ∀ c ∈ ds.1 ++ ds.2, Spec.Plain c) (hcn : cs.1 ≠ [] ∧ cs.2 ≠ []) (hdn : ds.1 ≠ [] ∧ ds.2 ≠ [])
    (h : Spec.covText cs = Spec.covText ds) : cs = ds := by
  have h' := List.append_cancel_right h
  rw [List.append_assoc, List.append_assoc, List.append_assoc, List.append_assoc] at h'
  have hm1 : ∀ c ∈ cs.1, Spec.Plain c := fun c hm => hc c (List.mem_append_left _ hm)
  have hm2 : ∀ c ∈ cs.2, Spec.Plain c := fun c hm => hc c (List.mem_append_right _ hm)
  have hm3 : ∀ c ∈ ds.1, Spec.Plain c := fun c hm => hd c (List.mem_append_left _ hm)
  have hm4 : ∀ c ∈ ds.2, Spec.Plain c := fun c hm => hd c (List.mem_append_right _ hm)
  obtain ⟨h1, h2⟩ := cut (c := ',') (comma_notMem fun c hm => (hm1 c hm).2) (comma_notMem fun c hm => (hm3 c hm).2)
    (.inr ⟨_, by rw [comma_list]; rfl⟩) (.inr ⟨_, by rw [comma_list]; rfl⟩) (List.append_cancel_left h')
  exact Prod.ext
    (intercalate_inj (fun c hm => (hm1 c hm).1) (fun c hm => (hm3 c hm).1) hcn.1 hdn.1 h1)
    (intercalate_inj (fun c hm => (hm2 c hm).1) (fun c hm => (hm4 c hm).1) hcn.2 hdn.2 (List.append_cancel_left h2))

/-- **C101.** Names determine what was asked for: two requests over columns whose names have no space and no comma get
the same name only if they are the same request, and a variance is never called like a covariance. -/
theorem C101_names_partial :
    (∀ cs ds n, (∀ c ∈ cs, Spec.Plain c) → (∀ c ∈ ds, Spec.Plain c) → varName cs = .ok n → varName ds = .ok n →
      cs = ds) ∧
    (∀ cs ds n, (∀ c ∈ cs.1 ++ cs.2, Spec.Plain c) → (∀ c ∈ ds.1 ++ ds.2, Spec.Plain c) → covName cs = .ok n →
      covName ds = .ok n → cs = ds) ∧
    ∀ cs ds n, varName cs = .ok n → covName ds ≠ .ok n := by
  refine ⟨?_, ?_, ?_⟩
  · intro cs ds n hc hd h1 h2
    obtain ⟨e1, n1⟩ := varName_eq h1
    obtain ⟨e2, n2⟩ := varName_eq h2
    exact varText_inj hc hd n1 n2 (e1.symm.trans e2)
  · intro cs ds n hc hd h1 h2
    obtain ⟨e1, n1⟩ := covName_eq h1
    obtain ⟨e2, n2⟩ := covName_eq h2
    exact covText_inj hc hd n1 n2 (e1.symm.trans e2)
  · intro cs ds n h1 h2
    have h := (varName_eq h1).1.symm.trans (covName_eq h2).1
    have := congrArg List.head? h
    simp [Spec.varText, Spec.covText, show "var(".toList = ['v', 'a', 'r', '('] from by decide,
      show "cov(".toList = ['c', 'o', 'v', '('] from by decide] at this

/-- The names of the shipped quantities; the lagged firm effects have a `+` in theirs. -/
example : varName ["psi".toList, "alpha".toList] = .ok "var(psi + alpha)".toList ∧
    covName (["psi_t".toList], ["psi_{t+1}".toList]) = .ok "cov(psi_t, psi_{t+1})".toList ∧
    Spec.Plain "psi_{t+1}".toList := ⟨by decide, by decide, by unfold Spec.Plain; decide⟩

/-- **C101, without the restriction on the names the claim fails:** different requests can have one name, and then
only the last of them is estimated. -/
theorem C101_names_clash :
    covName (["a".toList], ["b, c".toList]) = covName (["a, b".toList], ["c".toList]) ∧
    varName ["a + b".toList] = varName ["a".toList, "b".toList] ∧
    ∀ s t : Stat, build varName [(["a + b".toList], s), (["a".toList, "b".toList], t)] =
      .ok [("var(a + b)".toList, t)] := by
  refine ⟨by decide, by decide, fun s t => ?_⟩
  have h1 : varName ["a + b".toList] = .ok "var(a + b)".toList := by decide
  have h2 : varName ["a".toList, "b".toList] = .ok "var(a + b)".toList := by decide
  unfold build
  simp only [List.foldlM_cons, List.foldlM_nil, bind, Except.bind, h1, h2, pure, Except.pure, set]
  simp

end Pytwoway.FEResults
