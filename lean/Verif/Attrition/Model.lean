import Mathlib.Data.Finset.Card
import Mathlib.Algebra.Order.Archimedean.Real.Basic
import Mathlib.Algebra.Order.Floor.Ring
import Mathlib.Algebra.BigOperators.Group.Finset.Basic
import Mathlib.Algebra.BigOperators.Group.List.Basic
import Mathlib.Data.List.Pairwise
import Verif.Util.Model

/-! # Attrition: subsets of movers (attrition_utils/attrition_utils.py) and their results (attrition.py)

Data frames are lists of observations with one firm column (long and collapsed long format; the event study format
with two firm columns is not modelled).  Worker and firm ids are natural numbers.  `bipartitepandas` is not part of
the repository: selecting rows by id is modelled as filtering, `clean` is an oracle. -/

namespace Pytwoway.Attrition

open Finset

/-- Exceptions; `value` is `ValueError`, which `_gen_subsets` catches. -/
inductive Exc
  | value
  | unbound
  | axis
  | key
  | other
deriving DecidableEq

abbrev Py := Except Exc

/-- One observation: worker, firm and weight (1 if the frame has no weights).  Used for attrition_utils.py:100-115. -/
structure Row where
  i : ℕ
  j : ℕ
  w : ℝ

/-- A data frame: its rows in order, attrition_utils.py:100-115 and attrition_utils.py:77-96. -/
abbrev Frame := List Row

/-- Ids of the workers with `m > 0`: those observed at two firms.
Used for attrition_utils.py:100-115 and attrition_utils.py:77-96. -/
def movers (f : Frame) : Finset ℕ := ((f.filter fun r => f.any fun r' => r'.i == r.i && r'.j != r.j).map (·.i)).toFinset

/-- `unique_ids('j')`.  Used for attrition_utils.py:77-96 and attrition_utils.py:33-197. -/
def firms (f : Frame) : Finset ℕ := (f.map (·.j)).toFinset

/-- `drop_ids('i', …)`, `drop_ids('j', …)` and `keep_ids('j', …)`.
Used for attrition_utils.py:77-96 and attrition.py:145-149. -/
def dropW (f : Frame) (S : Finset ℕ) : Frame := f.filter fun r => r.i ∉ S

/-- `isin` drop of firms: rows whose firm is not in the set, attrition.py:145-149. -/
def dropJ (f : Frame) (S : Finset ℕ) : Frame := f.filter fun r => r.j ∉ S

/-- `keep_ids` on firms: rows whose firm is in the set, attrition_utils.py:33-197. -/
def keepJ (f : Frame) (S : Finset ℕ) : Frame := f.filter fun r => r.j ∈ S

open scoped Classical in
/-- Stayers with total weight at most one, attrition_utils.py:100-115 and 156-164. -/
noncomputable def singleStayers (f : Frame) : Finset ℕ :=
  ((f.map (·.i)).toFinset.filter fun i => i ∉ movers f ∧ ((f.filter fun r => r.i = i).map (·.w)).sum ≤ 1)

/-- Entries of `clean_params` read or written here; `rest` stands for the other entries.
Used for attrition_utils.py:77-96 and attrition_utils.py:33-197. -/
structure CleanParams where
  isSorted : Bool
  copy : Bool
  dropSingle : Bool
  connectedness : Option String
  rest : ℕ

/-- `np.round`: to the nearest integer, halves to the even one.
Used for attrition_utils.py:77-96 and attrition_utils.py:171-191. -/
noncomputable def npRound (x : ℝ) : ℤ :=
  if 2 * Int.fract x < 1 then ⌊x⌋
  else if 1 < 2 * Int.fract x then ⌊x⌋ + 1
  else if Even ⌊x⌋ then ⌊x⌋ else ⌊x⌋ + 1

/-- What the random generator and `bipartitepandas` do: `pick t S n` is the `t`-th call of
`rng.choice(S, size=n, replace=False)`, `clean p f` is `f.clean(p)` with ids replaced by the original ones.
Used for attrition_utils.py:77-96 and attrition_utils.py:171-191. -/
structure Env where
  pick : ℕ → Finset ℕ → ℕ → Finset ℕ
  clean : CleanParams → Frame → Py Frame

/-- `rng.choice` draws `n` distinct elements. -/
def Env.Draws (e : Env) : Prop := ∀ t S n, n ≤ #S → e.pick t S n ⊆ S ∧ #(e.pick t S n) = n

/-- `rng.choice(S, size=n, replace=False)`: raises `ValueError` if `n` is negative or too large.
Used for attrition_utils.py:77-96. -/
def choice (e : Env) (t : ℕ) (S : Finset ℕ) (n : ℤ) : Py (Finset ℕ) :=
  if n < 0 ∨ (#S : ℤ) < n then .error .value else .ok (e.pick t S n.toNat)

/-- Attributes of `AttritionIncreasing`.  Used for attrition_utils.py:21-31 and attrition_utils.py:33-197. -/
structure Incr where
  fracs : List ℝ
  nDraws : ℕ
  minFirms : ℕ

/-- Differences of consecutive entries.  Used for attrition_utils.py:21-31 and attrition_utils.py:223-231. -/
def npDiff : List ℝ → List ℝ
  | a :: b :: l => (b - a) :: npDiff (b :: l)
  | _ => []

open scoped Classical in
/-- `AttritionIncreasing.__init__`, attrition_utils.py:21-31; `np.min` of an empty array raises `ValueError`. -/
noncomputable def mkIncr (fracs : List ℝ) (nDraws minFirms : ℕ) : Py Incr :=
  if npDiff fracs = [] then .error .value
  else if ∀ d ∈ npDiff fracs, 0 ≤ d then .ok ⟨fracs, nDraws, minFirms⟩
  else .error .value

/-- The loop of attrition_utils.py:77-96: `n` attempts are left, `t` counts the calls of the generator. -/
noncomputable def firstDraw (e : Env) (p : CleanParams) (bdf : Frame) (minFirms : ℕ) (drop0 : ℝ) :
    (n t : ℕ) → Py (Finset ℕ × Frame)
  | 0, _ => .error .unbound
  | n + 1, t => do
    let wid ← choice e t (movers bdf) (npRound (drop0 * #(movers bdf)))
    match e.clean p (dropW bdf wid) with
    | .ok s1 =>
      if minFirms ≤ #(firms s1) then .ok (wid, s1)
      else if n = 0 then .error .value
      else firstDraw e p bdf minFirms drop0 n (t + 1)
    | .error x =>
      if x = .value then (if n = 0 then .error .value else firstDraw e p bdf minFirms drop0 n (t + 1))
      else .error x

/-- The loop of attrition_utils.py:171-191: the sets of movers dropped for the second and later fractions. -/
noncomputable def laterDrops (e : Env) (V : ℕ) : (t : ℕ) → (dropFracs : List ℝ) → Finset ℕ → List (Finset ℕ)
  | _, [], _ => []
  | t, d :: ds, S =>
    let n : ℤ := min (npRound (d * V)) #S
    let S' := if n = 0 then ∅ else if 0 < n ∧ n < #S then e.pick t S n.toNat else S
    S' :: laterDrops e V (t + 1) ds S'

/-- `{True: s, False: None}[len(s) > 0]`.  Used for attrition_utils.py:33-197 and attrition_utils.py:233-274. -/
def orNone (s : Finset ℕ) : Option (Finset ℕ) := if s = ∅ then none else some s

/-- What one element of the returned list holds: firms and workers to drop.
Used for attrition_utils.py:33-197 and attrition_utils.py:233-274. -/
abbrev Subset := Option (Finset ℕ) × Option (Finset ℕ)

/-- `AttritionIncreasing._gen_subsets`, attrition_utils.py:33-197.  `clean_params` is changed in place, so its value
afterwards is returned too, also when an exception leaves the function.  `bdf.copy`, id bookkeeping and warnings are
not modelled; the calls of the generator after the first draws are numbered from `nDraws` on. -/
noncomputable def genIncreasing (a : Incr) (e : Env) (bdf : Frame) (p : CleanParams) : Py (List Subset) × CleanParams :=
  if #(firms bdf) < a.minFirms then (.error .value, p)
  else
    let p1 := { p with isSorted := true, copy := false, dropSingle := false }
    let drops := a.fracs.map fun f => 1 - f
    match firstDraw e p1 bdf a.minFirms (drops.headD 0) a.nDraws 0 with
    | .error x => (.error x, p1)
    | .ok (wid, s1) =>
      let wid1 := if p.dropSingle then wid ∪ singleStayers s1 else wid
      let valid := firms s1
      let fids := firms bdf \ valid
      let s2 := keepJ bdf valid
      let single := if p.dropSingle then singleStayers s2 else ∅
      let rest := laterDrops e #(movers s2) a.nDraws drops.tail (movers s2 \ movers s1)
      (.ok ((orNone fids, orNone wid1) :: rest.map fun S => (orNone fids, orNone (S ∪ single))),
        { p1 with dropSingle := p.dropSingle })

/-- `AttritionIncreasing._update_clean_params`, attrition_utils.py:199-212: a copy. -/
def updateIncreasing (p : CleanParams) : CleanParams := { p with connectedness := none }

open scoped Classical in
/-- `AttritionDecreasing.__init__`, attrition_utils.py:223-231. -/
noncomputable def mkDecr (fracs : List ℝ) : Py (List ℝ) :=
  if npDiff fracs = [] then .error .value
  else if ∀ d ∈ npDiff fracs, d ≤ 0 then .ok fracs
  else .error .value

open scoped Classical in
/-- The loop of attrition_utils.py:254-272; `prev` is the previous fraction.  `numpy` divides by a zero fraction to
`nan`, which never passes `drop_frac > 0`; here the quotient is 0, and there is no mover left to drop. -/
noncomputable def decrLoop (e : Env) : (t : ℕ) → (prev : ℝ) → List ℝ → (left dropped : Finset ℕ) → List (Finset ℕ)
  | _, _, [], _, _ => []
  | t, prev, f :: fs, left, dropped =>
    let d := 1 - f / prev
    let n : ℤ := min (npRound (d * #left)) #left
    let w := if 0 < d ∧ 0 < n then e.pick t left n.toNat else ∅
    (dropped ∪ w) :: decrLoop e (t + 1) f fs (left \ w) (dropped ∪ w)

/-- `AttritionDecreasing._gen_subsets`, attrition_utils.py:233-274. -/
noncomputable def genDecreasing (fracs : List ℝ) (e : Env) (bdf : Frame) : List Subset :=
  (decrLoop e 0 1 fracs (movers bdf) ∅).map fun S => (none, orNone S)

/-- What `_attrition_interior` estimates on, before cleaning: attrition.py:145-149. -/
def sample (bdf : Frame) (s : Subset) : Frame :=
  let f1 := match s.1 with
    | some S => dropJ bdf S
    | none => bdf
  match s.2 with
  | some S => dropW f1 S
  | none => f1

end Pytwoway.Attrition
