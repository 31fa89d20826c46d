import Verif.Attrition.Subsets
import Verif.Util.Props

/-! # Results of attrition (attrition.py): C48 and C79 -/

namespace Pytwoway.Attrition

open Finset

/-! ## Model -/

/-- Keys of `to_plot_dict`, attrition.py:508-515. -/
inductive Est
  | fe | ho | he | cre | bs1 | bs2
deriving DecidableEq

/-- Keys of the results.  Used for attrition.py:361-368 and attrition.py:369-373. -/
inductive Mod
  | fe | cre | bs
deriving DecidableEq

/-- The six estimators, in the order of the code, attrition.py:391-416. -/
def allEst : List Est := [.fe, .ho, .he, .cre, .bs1, .bs2]

/-- `model_dict`, attrition.py:361-368. -/
def modelOf : Est → Mod
  | .fe | .ho | .he => .fe
  | .cre => .cre
  | .bs1 | .bs2 => .bs

/-- `var_y_dict`, attrition.py:369-373. -/
def varY : Mod → String
  | .fe => "var(y)"
  | .cre => "var_y"
  | .bs => "var(y)"

/-- `var_psi_dict`, attrition.py:374-381. -/
def varPsi : Est → String
  | .fe => "var(psi)_fe"
  | .ho => "var(psi)_ho"
  | .he => "var(psi)_he"
  | .cre => "tot_var"
  | .bs1 => "var(mu)_bs1"
  | .bs2 => "var(mu)_bs2"

/-- `cov_dict`, attrition.py:382-389. -/
def covKey : Est → String
  | .fe => "cov(psi, alpha)_fe"
  | .ho => "cov(psi, alpha)_ho"
  | .he => "cov(psi, alpha)_he"
  | .cre => "tot_cov"
  | .bs1 => "cov(lambda, mu)_bs1"
  | .bs2 => "cov(lambda, mu)_bs2"

/-- One model's results: a dictionary.  Used for attrition.py:400-416 and attrition.py:339-431. -/
abbrev ModRes := String → Option ℝ

/-- `_attrition_interior`'s result. -/
abbrev Res := Mod → ModRes

/-- What `_attrition_interior` returns for the leave-one-out or the connected set, a run, a subset and the position
of its random seed.  Used for attrition.py:207-281 and attrition.py:283-337. -/
abbrev Interior := Bool → ℕ → Subset → ℕ → Py Res

/-- The estimation loop of `_attrition_single`, attrition.py:246-263. -/
def estimate (ncore : ℕ) (f : Subset × ℕ → Py Res) (subsets : List Subset) : Py (List Res) :=
  if 1 < ncore then (Util.unscramble ·) <$> (Util.scramble subsets.zipIdx).mapM f
  else subsets.zipIdx.mapM f

/-- `self.res`: for both sets and every model, a list over runs of lists over fractions.
Used for attrition.py:283-337 and attrition.py:339-431. -/
abbrev AllRes := Bool → Mod → List (List ModRes)

/-- `_attrition_single`, attrition.py:207-281: first the connected set, then the leave-one-out set. -/
def single (ncore : ℕ) (interior : Interior) (subs : Bool → List Subset) (run : ℕ) : Py (Bool → List Res) := do
  let a ← estimate ncore (fun s => interior false run s.1 s.2) (subs false)
  let b ← estimate ncore (fun s => interior true run s.1 s.2) (subs true)
  .ok fun h => if h then b else a

/-- `attrition`, attrition.py:283-337, from line 314 on: `runs` lists what `_gen_subsets` returned in each run. -/
def attrition (ncore : ℕ) (interior : Interior) (runs : List (Bool → List Subset)) : Py AllRes := do
  let rs ← runs.zipIdx.mapM fun r => single ncore interior r.1 r.2
  .ok fun h m => rs.map fun r => (r h).map fun res => res m

/-- One entry, attrition.py:400-416. -/
noncomputable def cell (key vy : String) (r : ModRes) : Py ℝ :=
  match r key, r vy with
  | some a, some b => .ok (100 * (a / b))
  | _, _ => .error .key

/-- One table: runs by subsets, attrition.py:339-431. -/
noncomputable def matrix (key vy : String) (res : List (List ModRes)) : Py (List (List ℝ)) :=
  res.mapM fun run => run.mapM (cell key vy)

/-- The four dictionaries of arrays, attrition.py:391-416: which set, which estimator, variance (`true`) or
covariance. -/
def tableKeys (plot : Est → Bool) : List (Bool × Est × Bool) :=
  ((allEst.filter fun x => plot x && x != .he).flatMap fun x => [(false, x, true), (false, x, false)]) ++
  ((allEst.filter plot).flatMap fun x => [(true, x, true), (true, x, false)])

/-- All tables, in the order they are built, attrition.py:339-431. -/
noncomputable def tables (res : AllRes) (plot : Est → Bool) : Py (List ((Bool × Est × Bool) × List (List ℝ))) :=
  (tableKeys plot).mapM fun k => do
    let m ← matrix (if k.2.2 then varPsi k.2.1 else covKey k.2.1) (varY (modelOf k.2.1)) (res k.1 (modelOf k.2.1))
    .ok (k, m)

/-- `np.round(100 * f, digits)`, attrition.py:419; the conversion to integers in 420-422 changes no value. -/
noncomputable def axisOf (digits : ℕ) (fracs : List ℝ) : List ℝ :=
  fracs.map fun f => (npRound (100 * f * 10 ^ digits) : ℝ) / 10 ^ digits

/-- `max` of a list, attrition.py:453-466. -/
def listMax (l : List ℝ) : ℝ := l.foldl max (l.headD 0)

/-- `min` of a list, attrition.py:453-466. -/
def listMin (l : List ℝ) : ℝ := l.foldl min (l.headD 0)

open scoped Classical in
/-- The search of attrition.py:459-466 (and 472-479): neighbouring pairs of averages and positions. -/
noncomputable def search (mpf : ℝ) : List ℝ → List ℝ → Py ℝ
  | m0 :: m1 :: ms, x0 :: x1 :: xs =>
    if mpf < m1 then .ok (x0 + (mpf - m0) / (m1 - m0) * (x1 - x0))
    else search mpf (m1 :: ms) (x1 :: xs)
  | _, _ => .error .unbound

open scoped Classical in
/-- The position of the line, attrition.py:453-466 (and 468-479). -/
noncomputable def lineAt (mpf : ℝ) (m x : List ℝ) : Py ℝ :=
  if listMax m ≤ mpf then .ok (listMax x)
  else if mpf ≤ listMin m then .ok (listMin x)
  else search mpf m x

open scoped Classical in
/-- `_combine_res` without the line, attrition.py:339-431.  If the fractions never rise, `np.flip` is applied to
dictionaries (424-431), which are not arrays with an axis 1: `AxisError`. -/
noncomputable def combine (res : AllRes) (plot : Est → Bool) (fracs : List ℝ) (digits : ℕ) :
    Py (List ((Bool × Est × Bool) × List (List ℝ)) × List ℝ) := do
  let t ← tables res plot
  if npDiff fracs = [] then .error .value
  else if ∀ d ∈ npDiff fracs, d ≤ 0 then .error .axis
  else .ok (t, axisOf digits fracs)

/-- Unpacking what `_combine_res` returns, attrition.py:542 (`plots`): seven names, but without the line the tuple has
five entries. -/
noncomputable def plots (res : AllRes) (plot : Est → Bool) (fracs : List ℝ) (digits : ℕ) (line : Bool) :
    Py (List ((Bool × Est × Bool) × List (List ℝ)) × List ℝ) := do
  let r ← combine res plot fracs digits
  if line then .ok r else .error .value

/-! ## Lists of results -/

theorem mapM_ok_iff {α β : Type} (f : α → Py β) : ∀ (l : List α) (r : List β),
    l.mapM f = .ok r ↔ List.Forall₂ (fun a b => f a = .ok b) l r := by
  intro l
  induction l with
  | nil =>
    intro r
    rw [List.mapM_nil]
    constructor
    · intro h
      have : r = [] := by
        simpa [pure, Except.pure] using h.symm
      rw [this]
      exact List.Forall₂.nil
    · intro h
      cases h
      rfl
  | cons a l ih =>
    intro r
    rw [List.mapM_cons]
    constructor
    · intro h
      cases hf : f a with
      | error e => rw [hf] at h; cases h
      | ok b =>
        rw [hf] at h
        cases hl : l.mapM f with
        | error e => rw [hl] at h; cases h
        | ok bs =>
          rw [hl] at h
          have : r = b :: bs := by
            simpa [pure, Except.pure, bind, Except.bind] using h.symm
          rw [this]
          exact List.Forall₂.cons hf ((ih bs).mp hl)
    · intro h
      cases h with
      | cons h1 h2 =>
        rw [h1, (ih _).mpr h2]
        rfl

theorem forall2_getElem {α β : Type} {R : α → β → Prop} : ∀ {l : List α} {r : List β}, List.Forall₂ R l r →
    l.length = r.length ∧ ∀ (k : ℕ) a b, l[k]? = some a → r[k]? = some b → R a b := by
  intro l r h
  induction h with
  | nil => simp
  | cons h _ ih =>
    refine ⟨by simp [ih.1], ?_⟩
    intro k a b ha hb
    cases k with
    | zero => simp at ha hb; rw [← ha, ← hb]; exact h
    | succ k => simp at ha hb; exact ih.2 k a b ha hb

theorem mapM_get {α β : Type} (f : α → Py β) (l : List α) (r : List β) (h : l.mapM f = .ok r) :
    l.length = r.length ∧ ∀ (k : ℕ) b, r[k]? = some b → ∃ a, l[k]? = some a ∧ f a = .ok b := by
  obtain ⟨h1, h2⟩ := forall2_getElem ((mapM_ok_iff f l r).mp h)
  refine ⟨h1, fun k b hb => ?_⟩
  have hk : k < l.length := by
    rw [h1]
    exact (List.getElem?_eq_some_iff.mp hb).1
  exact ⟨l[k], by simp [hk], h2 k _ b (by simp [hk]) hb⟩

/-- Several cores give the same results in the same order. -/
theorem estimate_ncore (n : ℕ) (f : Subset × ℕ → Py Res) (l : List Subset) (r : List Res) :
    estimate n f l = .ok r ↔ l.zipIdx.mapM f = .ok r := by
  classical
  unfold estimate
  split
  · generalize l.zipIdx = w
    constructor
    · intro h
      cases hs : (Util.scramble w).mapM f with
      | error e => rw [hs] at h; cases h
      | ok v =>
        rw [hs] at h
        have hr : Util.unscramble v = r := by
          simpa [Functor.map, Except.map] using h
        have hall : ∀ x ∈ w, ∃ y, f x = .ok y := by
          intro x hx
          have hx' : x ∈ Util.scramble w := (Util.C01_scramble_perm w).mem_iff.mpr hx
          obtain ⟨k, hk⟩ := List.getElem?_of_mem hx'
          obtain ⟨hl, hg⟩ := mapM_get f _ _ hs
          have hkv : k < v.length := by
            rw [← hl]
            exact (List.getElem?_eq_some_iff.mp hk).1
          obtain ⟨a, ha, hfa⟩ := hg k v[k] (by simp [hkv])
          rw [hk] at ha
          cases ha
          exact ⟨_, hfa⟩
        let g : Subset × ℕ → Res := fun x => if h : ∃ y, f x = .ok y then h.choose else fun _ _ => none
        have hg : ∀ x ∈ w, f x = .ok (g x) := by
          intro x hx
          have h := hall x hx
          simp only [g, h, dif_pos]
          exact h.choose_spec
        have key : ∀ u : List (Subset × ℕ), (∀ x ∈ u, x ∈ w) → u.mapM f = .ok (u.map g) := by
          intro u hu
          rw [mapM_ok_iff]
          induction u with
          | nil => exact List.Forall₂.nil
          | cons a u ih => exact List.Forall₂.cons (hg a (hu a (by simp))) (ih fun x hx => hu x (by simp [hx]))
        rw [key w fun x hx => hx]
        rw [key _ fun x hx => (Util.C01_scramble_perm w).mem_iff.mp hx] at hs
        cases hs
        rw [← hr, Util.C01_scrambled_work_in_order]
    · intro h
      have hf := (mapM_ok_iff f w r).mp h
      have hlen := (forall2_getElem hf).1
      have hs : (Util.scramble w).mapM f = .ok (Util.scramble r) := by
        rw [mapM_ok_iff]
        have hz : ∃ z : List ((Subset × ℕ) × Res), z.map Prod.fst = w ∧ z.map Prod.snd = r ∧ ∀ x ∈ z, f x.1 = .ok x.2 := by
          clear h hlen
          induction hf with
          | nil => exact ⟨[], rfl, rfl, by simp⟩
          | @cons a b l1 l2 h _ ih =>
            obtain ⟨z, h1, h2, h3⟩ := ih
            refine ⟨(a, b) :: z, by simp [h1], by simp [h2], ?_⟩
            intro x hx
            rw [List.mem_cons] at hx
            rcases hx with rfl | hx
            · exact h
            · exact h3 x hx
        obtain ⟨z, h1, h2, h3⟩ := hz
        rw [← h1, ← h2, Util.scramble_map, Util.scramble_map]
        have h4 : ∀ x ∈ Util.scramble z, f x.1 = .ok x.2 := fun x hx =>
          h3 x ((Util.C01_scramble_perm z).mem_iff.mp hx)
        generalize Util.scramble z = z' at h4
        induction z' with
        | nil => exact List.Forall₂.nil
        | cons a z' ih => exact List.Forall₂.cons (h4 a (by simp)) (ih fun x hx => h4 x (by simp [hx]))
      rw [hs]
      show Except.ok (Util.unscramble (Util.scramble r)) = _
      rw [Util.C01_unscramble_scramble]
  · exact Iff.rfl

/-! ## C48 -/

/-- C48: with one or several cores, the stored results list for every run, in order, the result of every subset, in
the order of the fractions. -/
theorem C48_stored (ncore : ℕ) (interior : Interior) (runs : List (Bool → List Subset)) (res : AllRes)
    (h : attrition ncore interior runs = .ok res) (he : Bool) (m : Mod) :
    (res he m).length = runs.length ∧
    ∀ (i : ℕ) subs, runs[i]? = some subs → ∃ row, (res he m)[i]? = some row ∧ row.length = (subs he).length ∧
      ∀ (j : ℕ) s, (subs he)[j]? = some s → ∃ r, interior he i s j = .ok r ∧ row[j]? = some (r m) := by
  unfold attrition at h
  cases hr : runs.zipIdx.mapM fun r => single ncore interior r.1 r.2 with
  | error e => rw [hr] at h; cases h
  | ok rs =>
    rw [hr] at h
    have hres : (fun h m => rs.map fun r => (r h).map fun res => res m) = res := by
      simpa [bind, Except.bind] using h
    rw [← hres]
    obtain ⟨hl, hg⟩ := mapM_get _ _ _ hr
    rw [List.length_zipIdx] at hl
    refine ⟨by simp [hl], ?_⟩
    intro i subs hi
    have hi' : i < rs.length := by
      rw [← hl]
      exact (List.getElem?_eq_some_iff.mp hi).1
    obtain ⟨a, ha, hs⟩ := hg i rs[i] (by simp [hi'])
    rw [List.getElem?_zipIdx, hi] at ha
    simp only [Option.map_some, Option.some.injEq, zero_add] at ha
    subst ha
    dsimp only at hs
    unfold single at hs
    cases e1 : estimate ncore (fun s => interior false i s.1 s.2) (subs false) with
    | error e => rw [e1] at hs; cases hs
    | ok la =>
      rw [e1] at hs
      cases e2 : estimate ncore (fun s => interior true i s.1 s.2) (subs true) with
      | error e => rw [e2] at hs; cases hs
      | ok lb =>
        rw [e2] at hs
        have hsr : (fun h => if h = true then lb else la) = rs[i] := by
          simpa [bind, Except.bind] using hs
        refine ⟨(rs[i] he).map fun res => res m, by simp [hi'], ?_⟩
        have key : estimate ncore (fun s => interior he i s.1 s.2) (subs he) = .ok (rs[i] he) := by
          rw [← hsr]
          cases he
          · exact e1
          · exact e2
        obtain ⟨kl, kg⟩ := mapM_get _ _ _ ((estimate_ncore _ _ _ _).mp key)
        rw [List.length_zipIdx] at kl
        refine ⟨by simp [kl], ?_⟩
        intro j s hj
        have hj' : j < (rs[i] he).length := by
          rw [← kl]
          exact (List.getElem?_eq_some_iff.mp hj).1
        obtain ⟨b, hb, hfb⟩ := kg j (rs[i] he)[j] (by simp [hj'])
        rw [List.getElem?_zipIdx, hj] at hb
        simp only [Option.map_some, Option.some.injEq, zero_add] at hb
        subst hb
        exact ⟨_, hfb, by simp [hj']⟩

/-- Every requested combination of set, estimator and parameter has its table. -/
theorem mem_tableKeys (plot : Est → Bool) (he : Bool) (x : Est) (v : Bool) :
    (he, x, v) ∈ tableKeys plot ↔ plot x = true ∧ (he = false → x ≠ .he) := by
  unfold tableKeys
  simp only [List.mem_append, List.mem_flatMap, List.mem_filter, List.mem_cons, Prod.mk.injEq, List.not_mem_nil,
    or_false, Bool.and_eq_true, bne_iff_ne]
  have hall : ∀ y : Est, y ∈ allEst := by intro y; cases y <;> simp [allEst]
  constructor
  · rintro (⟨y, ⟨-, h1, h2⟩, h3⟩ | ⟨y, ⟨-, h1⟩, h3⟩)
    · rcases h3 with ⟨rfl, rfl, rfl⟩ | ⟨rfl, rfl, rfl⟩ <;> exact ⟨h1, fun _ => h2⟩
    · rcases h3 with ⟨rfl, rfl, rfl⟩ | ⟨rfl, rfl, rfl⟩ <;> exact ⟨h1, by simp⟩
  · rintro ⟨h1, h2⟩
    cases he
    · refine Or.inl ⟨x, ⟨hall x, h1, h2 rfl⟩, ?_⟩
      cases v <;> simp
    · refine Or.inr ⟨x, ⟨hall x, h1⟩, ?_⟩
      cases v <;> simp

/-- What is reported for an estimator: its model and the names of the variance of firm effects, of the covariance
of firm and worker effects, and of the variance of log wages in that model's results. -/
def Spec.reported : Est → Mod × String × String × String
  | .fe => (.fe, "var(psi)_fe", "cov(psi, alpha)_fe", "var(y)")
  | .ho => (.fe, "var(psi)_ho", "cov(psi, alpha)_ho", "var(y)")
  | .he => (.fe, "var(psi)_he", "cov(psi, alpha)_he", "var(y)")
  | .cre => (.cre, "tot_var", "tot_cov", "var_y")
  | .bs1 => (.bs, "var(mu)_bs1", "cov(lambda, mu)_bs1", "var(y)")
  | .bs2 => (.bs, "var(mu)_bs2", "cov(lambda, mu)_bs2", "var(y)")

theorem reported_eq (est : Est) :
    Spec.reported est = (modelOf est, varPsi est, covKey est, varY (modelOf est)) := by
  cases est <;> rfl

/-- C48 (partial): if some fraction is larger than its predecessor, the combined tables list, for each requested
estimator, every run and every fraction in the order of the x-axis, the share (in percent of the variance of log
wages) estimated in that run for that fraction.  Missing: attrition with decreasing fractions, which always raises
(`C48_decreasing_raises`). -/
theorem C48_combined_partial (ncore : ℕ) (interior : Interior) (runs : List (Bool → List Subset)) (res : AllRes)
    (h : attrition ncore interior runs = .ok res) (plot : Est → Bool) (fracs : List ℝ) (digits : ℕ)
    (t : List ((Bool × Est × Bool) × List (List ℝ))) (x : List ℝ)
    (hc : combine res plot fracs digits = .ok (t, x)) :
    (∃ d ∈ npDiff fracs, 0 < d) ∧
    (x.length = fracs.length ∧ ∀ (j : ℕ) (f : ℝ), fracs[j]? = some f → ∃ v : ℝ, x[j]? = some v ∧ |v - 100 * f| ≤ 1 / 2 / 10 ^ digits) ∧
    (∀ he est v, plot est = true → (he = false → est ≠ .he) → ∃ tab, ((he, est, v), tab) ∈ t) ∧
    ∀ he est v tab, ((he, est, v), tab) ∈ t → tab.length = runs.length ∧
      ∀ (i : ℕ) subs, runs[i]? = some subs → ∃ row, tab[i]? = some row ∧ row.length = (subs he).length ∧
        ∀ (j : ℕ) s, (subs he)[j]? = some s → ∃ r a b, interior he i s j = .ok r ∧
          r (Spec.reported est).1 (if v then (Spec.reported est).2.1 else (Spec.reported est).2.2.1) = some a ∧
          r (Spec.reported est).1 (Spec.reported est).2.2.2 = some b ∧ row[j]? = some (100 * (a / b)) := by
  simp only [reported_eq]
  unfold combine at hc
  cases ht : tables res plot with
  | error e => rw [ht] at hc; cases hc
  | ok t' =>
    rw [ht] at hc
    simp only [bind, Except.bind] at hc
    split at hc
    · cases hc
    · split at hc
      · cases hc
      · rename_i hd
        push Not at hd
        simp only [Except.ok.injEq, Prod.mk.injEq] at hc
        obtain ⟨rfl, rfl⟩ := hc
        refine ⟨hd, ?_, ?_, ?_⟩
        · refine ⟨by simp [axisOf], fun j f hf => ⟨(npRound (100 * f * 10 ^ digits) : ℝ) / 10 ^ digits, ?_, ?_⟩⟩
          · simp [axisOf, hf]
          · have hn := npRound_near (100 * f * 10 ^ digits)
            have hp : (0 : ℝ) < 10 ^ digits := by positivity
            have e1 : (npRound (100 * f * 10 ^ digits) : ℝ) / 10 ^ digits - 100 * f =
                ((npRound (100 * f * 10 ^ digits) : ℝ) - 100 * f * 10 ^ digits) / 10 ^ digits := by
              field_simp
            rw [e1, abs_div, abs_of_pos hp]
            exact div_le_div_of_nonneg_right hn hp.le
        · intro he est v h1 h2
          obtain ⟨hl, hg⟩ := mapM_get _ _ _ ht
          obtain ⟨k, hk⟩ := List.getElem?_of_mem ((mem_tableKeys plot he est v).mpr ⟨h1, h2⟩)
          have hkv : k < t'.length := by
            rw [← hl]
            exact (List.getElem?_eq_some_iff.mp hk).1
          obtain ⟨a, ha, hfa⟩ := hg k t'[k] (by simp [hkv])
          rw [hk] at ha
          cases ha
          dsimp only at hfa
          rcases hm : matrix (if v = true then varPsi est else covKey est) (varY (modelOf est))
            (res he (modelOf est)) with e | m
          · rw [hm] at hfa
            cases hfa
          · rw [hm] at hfa
            refine ⟨m, ?_⟩
            have : ((he, est, v), m) = t'[k] := by simpa [bind, Except.bind] using hfa
            rw [this]
            exact List.getElem_mem hkv
        · intro he est v tab hmem
          obtain ⟨hl, hg⟩ := mapM_get _ _ _ ht
          obtain ⟨k, hk⟩ := List.getElem?_of_mem hmem
          obtain ⟨⟨he', est', v'⟩, ha, hfa⟩ := hg k _ hk
          dsimp only at hfa
          rcases hm : matrix (if v' = true then varPsi est' else covKey est') (varY (modelOf est'))
            (res he' (modelOf est')) with e | m
          · rw [hm] at hfa
            cases hfa
          · rw [hm] at hfa
            have hpair : (he', est', v') = (he, est, v) ∧ m = tab := by simpa [bind, Except.bind] using hfa
            obtain ⟨h1, rfl⟩ := hpair
            cases h1
            obtain ⟨s1, s2⟩ := C48_stored ncore interior runs res h he (modelOf est)
            obtain ⟨ml, mg⟩ := mapM_get _ _ _ hm
            refine ⟨by rw [← ml, s1], ?_⟩
            intro i subs hi
            obtain ⟨row, r1, r2, r3⟩ := s2 i subs hi
            have him : i < m.length := by
              rw [← ml]
              exact (List.getElem?_eq_some_iff.mp r1).1
            obtain ⟨b, hb, hfb⟩ := mg i m[i] (by simp [him])
            rw [r1] at hb
            cases hb
            obtain ⟨rl, rg⟩ := mapM_get _ _ _ hfb
            refine ⟨m[i], by simp [him], by rw [← rl, r2], ?_⟩
            intro j s hj
            obtain ⟨r, hr, hrow⟩ := r3 j s hj
            have hjm : j < m[i].length := by
              rw [← rl]
              exact (List.getElem?_eq_some_iff.mp hrow).1
            obtain ⟨c, hcc, hfc⟩ := rg j m[i][j] (by simp [hjm])
            rw [hrow] at hcc
            cases hcc
            unfold cell at hfc
            split at hfc
            · rename_i a b ha hb
              refine ⟨r, a, b, hr, ha, hb, ?_⟩
              simp only [Except.ok.injEq] at hfc
              rw [hfc]
              simp [hjm]
            · cases hfc

/-- C48 is false for decreasing attrition: combining the results raises for all fractions that never rise, that is
all that `AttritionDecreasing` accepts, whenever all the requested results are there. -/
theorem C48_decreasing_raises (res : AllRes) (plot : Est → Bool) (fracs : List ℝ) (digits : ℕ)
    (hf : ∃ l, mkDecr fracs = .ok l) (ht : ∃ t, tables res plot = .ok t) :
    combine res plot fracs digits = .error .axis := by
  obtain ⟨t, ht⟩ := ht
  obtain ⟨l, hl⟩ := hf
  unfold mkDecr at hl
  unfold combine
  rw [ht]
  simp only [bind, Except.bind]
  split at hl
  · cases hl
  · rename_i h1
    rw [if_neg h1]
    split at hl
    · rename_i h2
      rw [if_pos h2]
    · cases hl

/-- One run with two fractions and all estimators of the fixed-effect and the correlated random effects models. -/
example : ∃ res, attrition 2 (fun _ _ _ j => .ok fun _ _ => some (j + 1)) [fun _ => [(none, none), (none, none)]] =
    .ok res ∧ ∃ t x, combine res (fun _ => true) [1 / 2, 1] 1 = .ok (t, x) := by
  have h1 : ∀ f : Subset × ℕ → Py Res, (∀ x, ∃ y, f x = .ok y) → ∃ r, estimate 2 f [(none, none), (none, none)] = .ok r := by
    intro f hf
    choose g hg using hf
    refine ⟨([(none, none), (none, none)] : List Subset).zipIdx.map g, (estimate_ncore _ _ _ _).mpr ?_⟩
    rw [mapM_ok_iff]
    exact List.Forall₂.cons (hg _) (List.Forall₂.cons (hg _) List.Forall₂.nil)
  obtain ⟨ra, ha⟩ := h1 (fun s => .ok fun _ _ => some (s.2 + 1)) fun x => ⟨_, rfl⟩
  have hra := (mapM_ok_iff _ _ _).mp ((estimate_ncore _ _ _ _).mp ha)
  have hra' : ra = [fun _ _ => some (((0 : ℕ) : ℝ) + 1), fun _ _ => some (((1 : ℕ) : ℝ) + 1)] := by
    cases hra with
    | cons e1 t1 => cases t1 with
      | cons e2 t2 => cases t2; simp at e1 e2; rw [← e1, ← e2]; simp
  refine ⟨fun _ m => [ra.map fun r => r m], ?_, ?_⟩
  · unfold attrition
    have : ([fun _ => [(none, none), (none, none)]] : List (Bool → List Subset)).zipIdx.mapM
        (fun r => single 2 (fun _ _ _ j => .ok fun _ _ => some (j + 1)) r.1 r.2) = .ok [fun _ => ra] := by
      rw [mapM_ok_iff]
      refine List.Forall₂.cons ?_ List.Forall₂.nil
      unfold single
      dsimp only
      rw [ha]
      simp [bind, Except.bind]
    rw [this]
    rfl
  · have hm : ∀ k vy, ∃ m, matrix k vy [[fun _ => some (((0 : ℕ) : ℝ) + 1), fun _ => some (((1 : ℕ) : ℝ) + 1)]] = .ok m := by
      intro k vy
      refine ⟨[[100 * ((((0 : ℕ) : ℝ) + 1) / (((0 : ℕ) : ℝ) + 1)), 100 * ((((1 : ℕ) : ℝ) + 1) / (((1 : ℕ) : ℝ) + 1))]], ?_⟩
      unfold matrix
      rw [mapM_ok_iff]
      refine List.Forall₂.cons ?_ List.Forall₂.nil
      rw [mapM_ok_iff]
      exact List.Forall₂.cons rfl (List.Forall₂.cons rfl List.Forall₂.nil)
    have ht : ∃ t, tables (fun _ m => [ra.map fun r => r m]) (fun _ => true) = .ok t := by
      have hall : ∀ l : List (Bool × Est × Bool), ∃ t, l.mapM (fun k => do
          let m ← matrix (if k.2.2 then varPsi k.2.1 else covKey k.2.1) (varY (modelOf k.2.1))
            ((fun _ m => [ra.map fun (r : Res) => r m] : AllRes) k.1 (modelOf k.2.1))
          .ok (k, m)) = .ok t := by
        intro l
        induction l with
        | nil => exact ⟨[], rfl⟩
        | cons a l ih =>
          obtain ⟨t, ht⟩ := ih
          obtain ⟨m, hm'⟩ := hm (if a.2.2 then varPsi a.2.1 else covKey a.2.1) (varY (modelOf a.2.1))
          refine ⟨(a, m) :: t, ?_⟩
          rw [mapM_ok_iff] at ht ⊢
          refine List.Forall₂.cons ?_ ht
          rw [hra']
          simp only [List.map_cons, List.map_nil]
          rw [hm']
          rfl
      exact hall _
    obtain ⟨t, ht⟩ := ht
    refine ⟨t, axisOf 1 [1 / 2, 1], ?_⟩
    unfold combine
    rw [ht]
    have hd : npDiff [1 / 2, 1] = [1 / 2] := by norm_num [npDiff]
    simp only [bind, Except.bind]
    simp only [hd]
    rw [if_neg (by simp), if_neg (by simp)]

/-! ## C79 -/

/-- C79: without the line, plotting always raises. -/
theorem C79_no_line_raises (res : AllRes) (plot : Est → Bool) (fracs : List ℝ) (digits : ℕ) :
    ∃ e, plots res plot fracs digits false = .error e := by
  unfold plots
  cases combine res plot fracs digits with
  | error e => exact ⟨e, rfl⟩
  | ok r => exact ⟨.value, rfl⟩

theorem foldl_max_le (l : List ℝ) (a c : ℝ) : l.foldl max a ≤ c ↔ a ≤ c ∧ ∀ x ∈ l, x ≤ c := by
  induction l generalizing a with
  | nil => simp
  | cons b l ih =>
    simp only [List.foldl_cons, ih, max_le_iff, List.mem_cons, forall_eq_or_imp]
    tauto

theorem le_foldl_min (l : List ℝ) (a c : ℝ) : c ≤ l.foldl min a ↔ c ≤ a ∧ ∀ x ∈ l, c ≤ x := by
  induction l generalizing a with
  | nil => simp
  | cons b l ih =>
    simp only [List.foldl_cons, ih, le_min_iff, List.mem_cons, forall_eq_or_imp]
    tauto

/-- The search between neighbours. -/
theorem search_spec (mpf : ℝ) : ∀ (m x : List ℝ), m.length = x.length → m.Pairwise (· ≤ ·) →
    (∀ a ∈ m.head?, a ≤ mpf) → (∃ a ∈ m, mpf < a) →
    ∃ v, search mpf m x = .ok v ∧ ∃ (i : ℕ) (m0 m1 x0 x1 : ℝ), m[i]? = some m0 ∧ m[i + 1]? = some m1 ∧
      x[i]? = some x0 ∧ x[i + 1]? = some x1 ∧ m0 ≤ mpf ∧ mpf < m1 ∧ v = x0 + (mpf - m0) / (m1 - m0) * (x1 - x0) := by
  intro m
  induction m with
  | nil => intro x _ _ _ h; simp at h
  | cons m0 m ih =>
    intro x hl hp hh hex
    have h0 : m0 ≤ mpf := hh m0 (by simp)
    cases m with
    | nil =>
      obtain ⟨a, ha, hlt⟩ := hex
      simp at ha
      rw [ha] at hlt
      exact absurd hlt (not_lt.mpr h0)
    | cons m1 ms =>
      match x, hl with
      | x0 :: x1 :: xs, hl =>
        unfold search
        split
        · rename_i h1
          exact ⟨_, rfl, 0, m0, m1, x0, x1, rfl, rfl, rfl, rfl, h0, h1, rfl⟩
        · rename_i h1
          push Not at h1
          obtain ⟨v, hv, i, a, b, c, d, e1, e2, e3, e4, e5⟩ := ih (x1 :: xs) (by simpa using hl)
            (List.pairwise_cons.mp hp).2 (by simpa using h1) (by
              obtain ⟨y, hy, hlt⟩ := hex
              rw [List.mem_cons] at hy
              rcases hy with rfl | hy
              · exact absurd hlt (not_lt.mpr h0)
              · exact ⟨y, hy, hlt⟩)
          exact ⟨v, hv, i + 1, a, b, c, d, e1, e2, e3, e4, e5⟩

/-- C79 (partial): when the average number of movers per firm never falls along the x-axis (as for increasing
attrition, whose samples are nested with the same firms), the line is drawn at the point where the linear
interpolation of the averages takes the full sample's value, or at the end of the axis if it never does; it is always
on the axis.  Missing: plotting without a line raises (`C79_no_line_raises`). -/
theorem C79_line_partial (mpf : ℝ) (m x : List ℝ) (hl : m.length = x.length) (hne : m ≠ [])
    (hm : m.Pairwise (· ≤ ·)) (hx : x.Pairwise (· ≤ ·)) :
    ∃ v, lineAt mpf m x = .ok v ∧ (∃ a ∈ x, a ≤ v) ∧ (∃ b ∈ x, v ≤ b) ∧
      (((∀ a ∈ m, a ≤ mpf) ∧ ∀ b ∈ x, b ≤ v) ∨ ((∀ a ∈ m, mpf ≤ a) ∧ ∀ b ∈ x, v ≤ b) ∨
        ∃ (i : ℕ) (m0 m1 x0 x1 : ℝ), m[i]? = some m0 ∧ m[i + 1]? = some m1 ∧ x[i]? = some x0 ∧ x[i + 1]? = some x1 ∧
          m0 ≤ mpf ∧ mpf < m1 ∧ (v - x0) * (m1 - m0) = (mpf - m0) * (x1 - x0)) := by
  have hxne : x ≠ [] := by
    rintro rfl
    exact hne (List.length_eq_zero_iff.mp hl)
  have hmax : ∀ l : List ℝ, ∀ c, listMax l ≤ c ↔ (l.headD 0) ≤ c ∧ ∀ a ∈ l, a ≤ c := fun l c => foldl_max_le l _ c
  have hmin : ∀ l : List ℝ, ∀ c, c ≤ listMin l ↔ c ≤ (l.headD 0) ∧ ∀ a ∈ l, c ≤ a := fun l c => le_foldl_min l _ c
  have hfm : ∀ (l : List ℝ) (a : ℝ), l.foldl max a = a ∨ l.foldl max a ∈ l := by
    intro l
    induction l with
    | nil => intro a; exact Or.inl rfl
    | cons b l ih =>
      intro a
      rw [List.foldl_cons, List.mem_cons]
      rcases ih (max a b) with h | h
      · rcases max_choice a b with h' | h'
        · exact Or.inl (h.trans h')
        · exact Or.inr (Or.inl (h.trans h'))
      · exact Or.inr (Or.inr h)
  have hfn : ∀ (l : List ℝ) (a : ℝ), l.foldl min a = a ∨ l.foldl min a ∈ l := by
    intro l
    induction l with
    | nil => intro a; exact Or.inl rfl
    | cons b l ih =>
      intro a
      rw [List.foldl_cons, List.mem_cons]
      rcases ih (min a b) with h | h
      · rcases min_choice a b with h' | h'
        · exact Or.inl (h.trans h')
        · exact Or.inr (Or.inl (h.trans h'))
      · exact Or.inr (Or.inr h)
  have hmem : listMax x ∈ x ∧ listMin x ∈ x := by
    obtain ⟨b, xs, rfl⟩ := List.exists_cons_of_ne_nil hxne
    refine ⟨?_, ?_⟩
    · rcases hfm (b :: xs) b with h | h
      · show (b :: xs).foldl max b ∈ _
        rw [h]
        exact List.mem_cons_self
      · exact h
    · rcases hfn (b :: xs) b with h | h
      · show (b :: xs).foldl min b ∈ _
        rw [h]
        exact List.mem_cons_self
      · exact h
  unfold lineAt
  split
  · rename_i h1
    exact ⟨_, rfl, ⟨_, hmem.1, le_rfl⟩, ⟨_, hmem.1, le_rfl⟩, Or.inl ⟨((hmax _ _).mp h1).2, ((hmax _ _).mp le_rfl).2⟩⟩
  · rename_i h1
    split
    · rename_i h2
      exact ⟨_, rfl, ⟨_, hmem.2, le_rfl⟩, ⟨_, hmem.2, le_rfl⟩,
        Or.inr (Or.inl ⟨((hmin _ _).mp h2).2, ((hmin _ _).mp le_rfl).2⟩)⟩
    · rename_i h2
      obtain ⟨m0, ms, rfl⟩ := List.exists_cons_of_ne_nil hne
      have hm0 : m0 ≤ mpf := by
        by_contra hc
        push Not at hc
        refine h2 ((hmin _ _).mpr ⟨hc.le, fun a ha => ?_⟩)
        rw [List.mem_cons] at ha
        rcases ha with rfl | ha
        · exact hc.le
        · exact hc.le.trans ((List.pairwise_cons.mp hm).1 a ha)
      have hlt : ∃ a ∈ m0 :: ms, mpf < a := by
        by_contra hc
        push Not at hc
        exact h1 ((hmax _ _).mpr ⟨hc m0 (by simp), hc⟩)
      obtain ⟨v, hv, i, a, b, c, d, e1, e2, e3, e4, e5, e6, e7⟩ := search_spec mpf _ x hl hm (by simpa using hm0) hlt
      have hab : 0 < b - a := by linarith
      have hcd : c ≤ d := by
        obtain ⟨hi3, hi3'⟩ := List.getElem?_eq_some_iff.mp e3
        obtain ⟨hi4, hi4'⟩ := List.getElem?_eq_some_iff.mp e4
        rw [← hi3', ← hi4']
        exact List.pairwise_iff_getElem.mp hx i (i + 1) hi3 hi4 (by omega)
      have hf0 : 0 ≤ (mpf - a) / (b - a) := div_nonneg (by linarith) hab.le
      have hf1 : (mpf - a) / (b - a) ≤ 1 := by rw [div_le_one hab]; linarith
      refine ⟨v, hv, ⟨c, List.mem_of_getElem? e3, ?_⟩, ⟨d, List.mem_of_getElem? e4, ?_⟩,
        Or.inr (Or.inr ⟨i, a, b, c, d, e1, e2, e3, e4, e5, e6, ?_⟩)⟩
      · rw [e7]
        nlinarith
      · rw [e7]
        nlinarith
      · rw [e7]
        field_simp
        ring

/-- Averages that rise, with the full sample's value between them. -/
example : ([2, 3, 5] : List ℝ).Pairwise (· ≤ ·) ∧ ([10, 20, 30] : List ℝ).Pairwise (· ≤ ·) ∧
    lineAt 4 [2, 3, 5] [10, 20, 30] = .ok 25 := by
  refine ⟨by norm_num [List.pairwise_cons], by norm_num [List.pairwise_cons], ?_⟩
  unfold lineAt
  rw [if_neg (by norm_num [listMax]), if_neg (by norm_num [listMin])]
  unfold search
  rw [if_neg (by norm_num)]
  unfold search
  rw [if_pos (by norm_num)]
  norm_num

/-- Monotone averages are needed: otherwise the code may leave its variable unset. -/
theorem C79_needs_monotone : lineAt 5 [10, 2, 3] [10, 20, 30] = .error .unbound := by
  unfold lineAt
  rw [if_neg (by norm_num [listMax]), if_neg (by norm_num [listMin])]
  unfold search
  rw [if_neg (by norm_num)]
  unfold search
  rw [if_neg (by norm_num)]
  unfold search
  rfl

end Pytwoway.Attrition
