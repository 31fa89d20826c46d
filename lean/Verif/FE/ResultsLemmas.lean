/-
Lemmas on the model of the results dictionary (`Verif.FE.Results`).
-/
import Verif.FE.Results
import Mathlib.Data.List.Lex
import Mathlib.Data.List.Nodup
import Mathlib.Tactic.Linarith

namespace Pytwoway.FEResults

variable {α : Type}

/-! ### Dictionaries -/

lemma get_set_same (d : Dict α) (k : Key) (v : α) : get (set d k v) k = .ok v := by
  induction d with
  | nil => simp [set, get]
  | cons p d ih =>
    obtain ⟨k', v'⟩ := p
    by_cases hk : k' = k
    · simp [set, hk, get]
    · simp [set, hk, get, ih]

lemma get_set_ne (d : Dict α) {k k' : Key} (v : α) (h : k ≠ k') : get (set d k v) k' = get d k' := by
  induction d with
  | nil => simp [set, get, h]
  | cons p d ih =>
    obtain ⟨k₀, v₀⟩ := p
    by_cases hk : k₀ = k
    · subst hk; simp [set, get, h]
    · by_cases hk' : k₀ = k'
      · simp [set, get, hk']
        rw [if_neg (by rw [← hk']; exact hk)]; simp [get]
      · simp [set, hk, get, hk', ih]

/-- Storing what is already there changes nothing, not even the order. -/
lemma set_get (d : Dict α) (k : Key) (v : α) (h : get d k = .ok v) : set d k v = d := by
  induction d with
  | nil => simp [get] at h
  | cons p d ih =>
    obtain ⟨k', v'⟩ := p
    by_cases hk : k' = k
    · simp only [get, hk, if_true] at h
      simp [set, hk, Except.ok.inj h]
    · simp only [get, hk, if_false] at h
      simp [set, hk, ih h]

lemma refresh_id {k : Key} {d d' : Dict Val} (h : refresh k d = .ok d') : d' = d := by
  unfold refresh at h
  simp only [bind, Except.bind] at h
  rcases hg : get d k with e | v
  · rw [hg] at h; cases h
  · rw [hg] at h
    rw [← Except.ok.inj h, set_get _ _ _ hg]

lemma mem_set {d : Dict α} {k : Key} {v : α} {p : Key × α} (h : p ∈ set d k v) : p = (k, v) ∨ (p ∈ d ∧ True) := by
  induction d with
  | nil => simp [set] at h; exact .inl h
  | cons q d ih =>
    obtain ⟨k', v'⟩ := q
    by_cases hk : k' = k
    · simp only [set, hk, if_true, List.mem_cons] at h
      rcases h with h | h
      · exact .inl h
      · exact .inr ⟨List.mem_cons_of_mem _ h, trivial⟩
    · simp only [set, hk, if_false, List.mem_cons] at h
      rcases h with h | h
      · exact .inr ⟨by rw [h]; exact List.mem_cons_self .., trivial⟩
      · rcases ih h with h | h
        · exact .inl h
        · exact .inr ⟨List.mem_cons_of_mem _ h.1, trivial⟩

lemma set_fresh (d : Dict α) (k : Key) (v : α) (h : k ∉ d.map Prod.fst) : set d k v = d ++ [(k, v)] := by
  induction d with
  | nil => rfl
  | cons p d ih =>
    obtain ⟨k', v'⟩ := p
    simp only [List.map_cons, List.mem_cons, not_or] at h
    simp only [set, if_neg (Ne.symm h.1), ih h.2, List.cons_append]

/-! ### Building the dictionary of requests -/

lemma build_go (name : α → Py Key) (nm : α → Key) (hname : ∀ a n, name a = .ok n → n = nm a)
    (reqs : List (α × Stat)) (hnd : (reqs.map fun r => nm r.1).Nodup)
    (d₀ d : Dict Stat) (hdis : ∀ r ∈ reqs, ∀ p ∈ d₀, p.1 ≠ nm r.1)
    (h : reqs.foldlM (fun d r => do
      let n ← name r.1
      return set d n r.2) d₀ = .ok d) :
    d = d₀ ++ reqs.map (fun r => (nm r.1, r.2)) ∧ ∀ r ∈ reqs, name r.1 = .ok (nm r.1) := by
  induction reqs generalizing d₀ with
  | nil => exact ⟨by simp [Except.ok.inj h], by simp⟩
  | cons r rs ih =>
    rw [List.map_cons, List.nodup_cons] at hnd
    rw [List.foldlM_cons] at h
    simp only [bind, Except.bind] at h
    rcases hn : name r.1 with e | n
    · rw [hn] at h; cases h
    · rw [hn] at h
      obtain rfl := hname _ _ hn
      have hfr : nm r.1 ∉ d₀.map Prod.fst := by
        intro hm
        obtain ⟨p, hp, hpn⟩ := List.mem_map.mp hm
        exact hdis r (List.mem_cons_self ..) p hp hpn
      simp only [pure, Except.pure] at h
      rw [set_fresh _ _ _ hfr] at h
      obtain ⟨h1, h2⟩ := ih hnd.2 (d₀ ++ [(nm r.1, r.2)]) (by
        intro r' hr' p hp
        rcases List.mem_append.mp hp with hp | hp
        · exact hdis r' (List.mem_cons_of_mem _ hr') p hp
        · rw [List.mem_singleton] at hp
          subst hp
          intro he
          exact hnd.1 (List.mem_map.mpr ⟨r', hr', he.symm⟩)) h
      refine ⟨by rw [h1]; simp, ?_⟩
      intro r' hr'
      rcases List.mem_cons.mp hr' with rfl | hr'
      · exact hn
      · exact h2 r' hr'

/-- With distinct names the dictionary holds every request, in the order of the requests. -/
lemma build_distinct (name : α → Py Key) (nm : α → Key) (hname : ∀ a n, name a = .ok n → n = nm a)
    (reqs : List (α × Stat)) (hnd : (reqs.map fun r => nm r.1).Nodup) (d : Dict Stat)
    (h : build name reqs = .ok d) :
    d = reqs.map (fun r => (nm r.1, r.2)) ∧ ∀ r ∈ reqs, name r.1 = .ok (nm r.1) := by
  have := build_go name nm hname reqs hnd [] d (by simp) h
  simpa using this

/-! ### Kinds of keys written by `_collect_res` -/

/-- The three estimators. -/
inductive Meth where
  | fe | ho | he
  deriving DecidableEq

/-- The suffix of an estimator. -/
def suf : Meth → Key
  | .fe => "_fe".toList
  | .ho => "_ho".toList
  | .he => "_he".toList

/-- The keys `_collect_res` assigns to. -/
inductive Kind where
  | eps (m : Meth)
  | est (m : Meth) (q : Key × Stat)
  | tr (m : Meth) (q : Key × Stat)
  | sd (m : Meth) (q : Key × Stat)

/-- The text of a key. -/
def Kind.str : Kind → Key
  | .eps m => "var(eps)".toList ++ suf m
  | .est m q => q.1 ++ suf m
  | .tr m q => "tr_".toList ++ q.1 ++ suf m
  | .sd m q => "tr_".toList ++ q.1 ++ suf m ++ "_sd".toList

/-- The value the key should get. -/
noncomputable def Kind.val (x : Est) : Kind → ℝ
  | .eps .fe => x.sigmaFe
  | .eps .ho => x.sigmaHo
  | .eps .he => 0
  | .est .fe q => q.2.fe
  | .est .ho q => q.2.fe - x.sigmaHo * mean q.2.ho
  | .est .he q => q.2.fe - 1 * mean q.2.he
  | .tr .fe _ => 0
  | .tr .ho q => mean q.2.ho
  | .tr .he q => mean q.2.he
  | .sd .fe _ => 0
  | .sd .ho q => std q.2.ho
  | .sd .he q => std q.2.he

/-- The quantity of a key is one of the items. -/
def Kind.within (items : Dict Stat) : Kind → Prop
  | .eps _ => True
  | .est _ q => q ∈ items
  | .tr _ q => q ∈ items
  | .sd _ q => q ∈ items

/-- Names start with `v` or `c`. -/
def IsName (n : Key) : Prop := ∃ s, n = 'v' :: s ∨ n = 'c' :: s

lemma suf_len (m : Meth) : (suf m).length = 3 := by cases m <;> decide

lemma suf_inj {m m' : Meth} (h : suf m = suf m') : m = m' := by
  cases m <;> cases m' <;> first | rfl | exact absurd h (by decide)

lemma append_suf {a b : Key} {m m' : Meth} (h : a ++ suf m = b ++ suf m') : a = b ∧ m = m' := by
  have h' := List.append_inj' h (by rw [suf_len, suf_len])
  exact ⟨h'.1, suf_inj h'.2⟩

lemma suf_sd {a b : Key} {m : Meth} (h : a ++ suf m = b ++ "_sd".toList) : False := by
  have h' := (List.append_inj' h (by rw [suf_len]; decide)).2
  cases m <;> exact absurd h' (by decide)

lemma name_tr {n s : Key} (hn : IsName n) (h : n ++ s = "tr_".toList ++ t) : False := by
  obtain ⟨u, rfl | rfl⟩ := hn
  · have := congrArg List.head? h
    simp [show "tr_".toList = ['t', 'r', '_'] from by decide] at this
  · have := congrArg List.head? h
    simp [show "tr_".toList = ['t', 'r', '_'] from by decide] at this

/-- Distinct keys have distinct texts. -/
lemma str_inj {items : Dict Stat} (hn : ∀ q ∈ items, IsName q.1 ∧ q.1 ≠ "var(eps)".toList)
    (hnd : (items.map Prod.fst).Nodup) {a b : Kind} (ha : a.within items) (hb : b.within items)
    (h : a.str = b.str) : a = b := by
  have huniq : ∀ q ∈ items, ∀ q' ∈ items, q.1 = q'.1 → q = q' := fun q hq q' hq' he =>
    List.inj_on_of_nodup_map hnd hq hq' he
  have heps : IsName "var(eps)".toList := ⟨"ar(eps)".toList, .inl (by decide)⟩
  match a, b, ha, hb, h with
  | .eps m, .eps m', _, _, h =>
    replace h : "var(eps)".toList ++ suf m = "var(eps)".toList ++ suf m' := h
    rw [(append_suf h).2]
  | .eps m, .est m' q', _, hb, h =>
    replace h : "var(eps)".toList ++ suf m = q'.1 ++ suf m' := h
    exact absurd (append_suf h).1.symm (hn _ hb).2
  | .eps m, .tr m' q', _, hb, h =>
    replace h : "var(eps)".toList ++ suf m = "tr_".toList ++ q'.1 ++ suf m' := h
    rw [List.append_assoc] at h; exact (name_tr heps h).elim
  | .eps m, .sd m' q', _, hb, h =>
    replace h : "var(eps)".toList ++ suf m = "tr_".toList ++ q'.1 ++ suf m' ++ "_sd".toList := h
    exact (suf_sd h).elim
  | .est m q, .eps m', ha, _, h =>
    replace h : q.1 ++ suf m = "var(eps)".toList ++ suf m' := h
    exact absurd (append_suf h).1 (hn _ ha).2
  | .est m q, .est m' q', ha, hb, h =>
    replace h : q.1 ++ suf m = q'.1 ++ suf m' := h
    obtain ⟨h1, rfl⟩ := append_suf h
    rw [huniq _ ha _ hb h1]
  | .est m q, .tr m' q', ha, hb, h =>
    replace h : q.1 ++ suf m = "tr_".toList ++ q'.1 ++ suf m' := h
    rw [List.append_assoc] at h; exact (name_tr (hn _ ha).1 h).elim
  | .est m q, .sd m' q', ha, hb, h =>
    replace h : q.1 ++ suf m = "tr_".toList ++ q'.1 ++ suf m' ++ "_sd".toList := h
    exact (suf_sd h).elim
  | .tr m q, .eps m', ha, _, h =>
    replace h : "tr_".toList ++ q.1 ++ suf m = "var(eps)".toList ++ suf m' := h
    rw [List.append_assoc] at h; exact (name_tr heps h.symm).elim
  | .tr m q, .est m' q', ha, hb, h =>
    replace h : "tr_".toList ++ q.1 ++ suf m = q'.1 ++ suf m' := h
    rw [List.append_assoc] at h; exact (name_tr (hn _ hb).1 h.symm).elim
  | .tr m q, .tr m' q', ha, hb, h =>
    replace h : "tr_".toList ++ q.1 ++ suf m = "tr_".toList ++ q'.1 ++ suf m' := h
    obtain ⟨h1, rfl⟩ := append_suf h
    rw [huniq _ ha _ hb (List.append_cancel_left h1)]
  | .tr m q, .sd m' q', ha, hb, h =>
    replace h : "tr_".toList ++ q.1 ++ suf m = "tr_".toList ++ q'.1 ++ suf m' ++ "_sd".toList := h
    exact (suf_sd h).elim
  | .sd m q, .eps m', ha, _, h =>
    replace h : "tr_".toList ++ q.1 ++ suf m ++ "_sd".toList = "var(eps)".toList ++ suf m' := h
    exact (suf_sd h.symm).elim
  | .sd m q, .est m' q', ha, hb, h =>
    replace h : "tr_".toList ++ q.1 ++ suf m ++ "_sd".toList = q'.1 ++ suf m' := h
    exact (suf_sd h.symm).elim
  | .sd m q, .tr m' q', ha, hb, h =>
    replace h : "tr_".toList ++ q.1 ++ suf m ++ "_sd".toList = "tr_".toList ++ q'.1 ++ suf m' := h
    exact (suf_sd h.symm).elim
  | .sd m q, .sd m' q', ha, hb, h =>
    replace h : "tr_".toList ++ q.1 ++ suf m ++ "_sd".toList = "tr_".toList ++ q'.1 ++ suf m' ++ "_sd".toList := h
    obtain ⟨h1, rfl⟩ := append_suf (List.append_cancel_right h)
    rw [huniq _ ha _ hb (List.append_cancel_left h1)]

/-- Storing the values of a list of keys. -/
noncomputable def run (x : Est) (l : List Kind) (d : Dict Val) : Dict Val :=
  l.foldl (fun d κ => put d κ.str (κ.val x)) d

lemma run_append (x : Est) (l l' : List Kind) (d : Dict Val) : run x (l ++ l') d = run x l' (run x l d) := by
  simp [run, List.foldl_append]

lemma get_run_other (x : Est) (l : List Kind) (d : Dict Val) (k : Key) (h : ∀ a ∈ l, a.str ≠ k) :
    get (run x l d) k = get d k := by
  induction l generalizing d with
  | nil => rfl
  | cons a l ih =>
    show get (run x l (put d a.str (a.val x))) k = _
    rw [ih _ fun b hb => h b (List.mem_cons_of_mem _ hb)]
    exact get_set_ne _ _ (h a (List.mem_cons_self ..))

lemma get_run_mem (x : Est) {items : Dict Stat} (hn : ∀ q ∈ items, IsName q.1 ∧ q.1 ≠ "var(eps)".toList)
    (hnd : (items.map Prod.fst).Nodup) (l : List Kind) (d : Dict Val) (hl : ∀ a ∈ l, a.within items)
    (κ : Kind) (hκ : κ ∈ l) : get (run x l d) κ.str = .ok (.num (κ.val x)) := by
  induction l generalizing d with
  | nil => simp at hκ
  | cons a l ih =>
    show get (run x l (put d a.str (a.val x))) κ.str = _
    by_cases hm : κ ∈ l
    · exact ih _ (fun b hb => hl b (List.mem_cons_of_mem _ hb)) hm
    · have hka : κ = a := by
        rcases List.mem_cons.mp hκ with h | h
        · exact h
        · exact absurd h hm
      subst hka
      rw [get_run_other]
      · exact get_set_same _ _ _
      · intro b hb he
        exact hm (str_inj hn hnd (hl b (List.mem_cons_of_mem _ hb)) (hl κ (List.mem_cons_self ..)) he ▸ hb)

/-! ### The loops store the values of their keys -/

lemma plugIn_run (x : Est) (items : Dict Stat) (d : Dict Val) :
    plugIn items d = run x (items.map (Kind.est .fe)) d := by
  unfold plugIn run
  rw [List.foldl_map]; rfl

/-- The keys of the traces of an item. -/
def trKinds (m : Meth) (q : Key × Stat) : List Kind := [.tr m q, .sd m q]

lemma traces_ho (x : Est) (items : Dict Stat) (d : Dict Val) :
    traces "_ho".toList Stat.ho items d = run x (items.flatMap (trKinds .ho)) d := by
  induction items generalizing d with
  | nil => rfl
  | cons q l ih =>
    rw [List.flatMap_cons, run_append, ← ih]
    rfl

lemma traces_he (x : Est) (items : Dict Stat) (d : Dict Val) :
    traces "_he".toList Stat.he items d = run x (items.flatMap (trKinds .he)) d := by
  induction items generalizing d with
  | nil => rfl
  | cons q l ih =>
    rw [List.flatMap_cons, run_append, ← ih]
    rfl

lemma est_ne_tr {n n' : Key} (hn : IsName n) (s s' : Key) : n ++ s ≠ "tr_".toList ++ n' ++ s' := by
  intro h
  rw [List.append_assoc] at h
  exact name_tr hn h

lemma corrected_run (x : Est) (m : Meth) (c : ℝ) (items l : Dict Stat) (hn : ∀ q ∈ items, IsName q.1)
    (hl : ∀ q ∈ l, q ∈ items)
    (hv : ∀ q ∈ l, Kind.val x (.est m q) = q.2.fe - c * Kind.val x (.tr m q)) (d : Dict Val)
    (ht : ∀ q ∈ l, get d (Kind.str (.tr m q)) = .ok (.num (Kind.val x (.tr m q)))) :
    corrected (suf m) c l d = .ok (run x (l.map (Kind.est m)) d) := by
  induction l generalizing d with
  | nil => rfl
  | cons q l ih =>
    have hq := ht q (List.mem_cons_self ..)
    have hg : getNum d ("tr_".toList ++ q.1 ++ suf m) = .ok (Kind.val x (.tr m q)) := by
      unfold getNum
      rw [show "tr_".toList ++ q.1 ++ suf m = Kind.str (.tr m q) from rfl, hq]
    unfold corrected
    rw [List.foldlM_cons]
    simp only [bind, Except.bind]
    rw [hg]
    simp only [pure, Except.pure]
    rw [← hv q (List.mem_cons_self ..)]
    exact ih (fun q hq => hl q (List.mem_cons_of_mem _ hq)) (fun q hq => hv q (List.mem_cons_of_mem _ hq)) _ (by
      intro q' hq'
      exact (get_set_ne _ _ (est_ne_tr (hn q (hl q (List.mem_cons_self ..))) (suf m) (suf m))).trans
        (ht q' (List.mem_cons_of_mem _ hq')))

lemma refresh_ok {k : Key} {d : Dict Val} {v : Val} (h : get d k = .ok v) : refresh k d = .ok d := by
  unfold refresh
  simp only [bind, Except.bind, h, pure, Except.pure, set_get _ _ _ h]

lemma refresh_get {k : Key} {d d' : Dict Val} (h : refresh k d = .ok d') : ∃ v, get d k = .ok v := by
  unfold refresh at h
  simp only [bind, Except.bind] at h
  rcases hg : get d k with e | v
  · rw [hg] at h; cases h
  · exact ⟨v, rfl⟩

/-- Copying keys that are all there. -/
lemma copyKeys_ok (ks : List Key) (res summ : Dict Val) (h : ∀ k ∈ ks, ∃ v, get res k = .ok v) :
    ∃ s, copyKeys ks res summ = .ok s := by
  induction ks generalizing summ with
  | nil => exact ⟨summ, rfl⟩
  | cons k ks ih =>
    obtain ⟨v, hv⟩ := h k (List.mem_cons_self ..)
    unfold copyKeys
    rw [List.foldlM_cons]
    simp only [bind, Except.bind, hv, pure, Except.pure]
    exact ih _ fun k hk => h k (List.mem_cons_of_mem _ hk)

/-- What copying does. -/
lemma copyKeys_spec (ks : List Key) (res summ s : Dict Val) (h : copyKeys ks res summ = .ok s) :
    (∀ k ∈ ks, get s k = get res k ∧ ∃ v, get res k = .ok v) ∧ (∀ k, k ∉ ks → get s k = get summ k) ∧
    ((summ.map Prod.fst ++ ks).Nodup → s.map Prod.fst = summ.map Prod.fst ++ ks) := by
  induction ks generalizing summ with
  | nil =>
    obtain rfl := Except.ok.inj h
    exact ⟨by simp, by simp, by simp⟩
  | cons k ks ih =>
    unfold copyKeys at h
    rw [List.foldlM_cons] at h
    simp only [bind, Except.bind] at h
    rcases hv : get res k with e | v
    · rw [hv] at h; cases h
    rw [hv] at h
    simp only [pure, Except.pure] at h
    obtain ⟨h1, h2, h3⟩ := ih (set summ k v) h
    refine ⟨?_, ?_, ?_⟩
    · intro k' hk'
      by_cases hm : k' ∈ ks
      · exact h1 k' hm
      · have : k' = k := by
          rcases List.mem_cons.mp hk' with h | h
          · exact h
          · exact absurd h hm
        subst this
        exact ⟨by rw [h2 k' hm, get_set_same, hv], v, hv⟩
    · intro k' hk'
      rw [List.mem_cons, not_or] at hk'
      rw [h2 k' hk'.2, get_set_ne _ _ (Ne.symm hk'.1)]
    · intro hnd
      have hfr : k ∉ summ.map Prod.fst := by
        intro hm
        rw [List.nodup_append] at hnd
        exact hnd.2.2 k hm k (List.mem_cons_self ..) rfl
      rw [set_fresh _ _ _ hfr] at h3
      rw [h3 (by simpa using hnd)]
      simp

end Pytwoway.FEResults
