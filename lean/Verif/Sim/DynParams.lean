import Mathlib.Data.Finset.Card
import Mathlib.Algebra.BigOperators.Fin
import Mathlib.Data.Real.Basic
import Mathlib.Tactic.FinCases
import Mathlib.Tactic.NormNum
import Mathlib.Tactic.Ring
import Mathlib.Data.Fin.Tuple.Sort
import Verif.Sim.Ids

/-! # Parameters of the dynamic simulator: C46

`pytwoway/simdblm.py`, `SimDynamicBLM._sort_A` (608-645) and `_gen_params` (647-836).  The dictionaries of
arrays are modelled with a heap, because the function both aliases arrays (`A[period] = A['12']`) and
writes into them (`A['2mb'][:] = 0`). -/

namespace Pytwoway.Sim.Dyn

open Finset Pytwoway.Sim

/-! ## Model -/

/-- The eight periods, simdblm.py:568. -/
inductive Per
  | p12 | p43 | p2ma | p3ma | p2mb | p3mb | p2s | p3s
  deriving DecidableEq

/-- `all_periods`, in order.  Used for simdblm.py:668-712 and simdblm.py:608-645. -/
def allPeriods : List Per := [.p12, .p43, .p2ma, .p3ma, .p2mb, .p3mb, .p2s, .p3s]

/-- `period[-1] == 'b'`.  Used for simdblm.py:608-645. -/
def Per.isB : Per → Bool
  | .p2mb | .p3mb => true
  | _ => false

/-- A numpy array of one or two dimensions.  Used for simdblm.py:668-712 and simdblm.py:811-836. -/
inductive ND
  | mat (r c : ℕ) (v : ℕ → ℕ → ℝ)
  | vec (n : ℕ) (v : ℕ → ℝ)

/-- `x[:] = 0`.  Used for simdblm.py:828-834. -/
def ND.zeroed : ND → ND
  | .mat r c _ => .mat r c fun _ _ => 0
  | .vec n _ => .vec n fun _ => 0

/-- `np.mean(x, axis=1)`: an array of one dimension has no axis 1.  Used for simdblm.py:826. -/
noncomputable def ND.rowMeans : ND → Py (ℕ × (ℕ → ℝ))
  | .mat r c v => .ok (r, fun l => (∑ k ∈ range c, v l k) / c)
  | .vec _ _ => .error "AxisError"

/-- Elementwise operation between a matrix and a vector: numpy aligns the vector with the last axis.
Used for simdblm.py:826. -/
def bc (op : ℝ → ℝ → ℝ) (M : ND) (a : ℕ × (ℕ → ℝ)) : Py ND :=
  match M with
  | .mat r c v =>
    if a.1 = c then .ok (.mat r c fun l k => op (v l k) (a.2 k))
    else if a.1 = 1 then .ok (.mat r c fun l k => op (v l k) (a.2 0))
    else if c = 1 then .ok (.mat r a.1 fun l k => op (v l 0) (a.2 k))
    else .error "ValueError"
  | .vec n v =>
    if a.1 = n then .ok (.vec n fun k => op (v k) (a.2 k))
    else if a.1 = 1 then .ok (.vec n fun k => op (v k) (a.2 0))
    else if n = 1 then .ok (.vec a.1 fun k => op (v 0) (a.2 k))
    else .error "ValueError"

/-- A dictionary of arrays: `names` the object each key refers to, `obj` the objects, `next` the first
unused one.  Used for simdblm.py:668-712 and simdblm.py:608-645. -/
structure Store where
  names : Per → ℕ
  obj : ℕ → ND
  next : ℕ

/-- `d[p]`.  Used for simdblm.py:608-645 and simdblm.py:826. -/
def Store.read (s : Store) (p : Per) : ND := s.obj (s.names p)

/-- `d[p] = v` with `v` a new array.  Used for simdblm.py:668-712 and simdblm.py:608-645. -/
def Store.put (s : Store) (p : Per) (v : ND) : Store :=
  ⟨Function.update s.names p s.next, Function.update s.obj s.next v, s.next + 1⟩

/-- `d[p] = d[q]`.  Used for simdblm.py:815-821. -/
def Store.alias (s : Store) (p q : Per) : Store := { s with names := Function.update s.names p (s.names q) }

/-- `d[p][...] = v`: writes into the object.  Used for simdblm.py:608-645 and simdblm.py:828-834. -/
def Store.write (s : Store) (p : Per) (v : ND) : Store :=
  { s with obj := Function.update s.obj (s.names p) v }

/-- The dictionary built by the loop over periods, simdblm.py:668-712. -/
def Store.init (draw : Per → ND) : Store :=
  allPeriods.foldl (fun s p => s.put p (draw p)) ⟨fun _ => 0, fun _ => .vec 0 fun _ => 0, 0⟩

/-- `argsort` of a vector of the given length.  Used for simdblm.py:608-645 and simdblm.py:811-836. -/
abbrev Order := ℕ → (ℕ → ℝ) → ℕ → ℕ

/-- `np.sort` of one row.  Used for simdblm.py:608-645 and simdblm.py:811-836. -/
abbrev RowSort := ℕ → (ℕ → ℝ) → ℕ → ℝ

/-- `A[l, :] = np.sort(A[l, :])` for every row.  Used for simdblm.py:608-645. -/
def ND.sortRows (srt : RowSort) : ND → ND
  | .mat r c v => .mat r c fun l => srt c (v l)
  | x => x

/-- `A[order, :]`.  Used for simdblm.py:608-645. -/
def ND.permRows (o : ℕ → ℕ) : ND → ND
  | .mat r c v => .mat r c fun l k => v (o l) k
  | x => x

/-- `A[:, order]` of a matrix, `A[order]` of a vector.  Used for simdblm.py:608-645. -/
def ND.permCols (o : ℕ → ℕ) : ND → ND
  | .mat r c v => .mat r c fun l k => v l (o k)
  | .vec n v => .vec n fun k => v (o k)

/-- `np.mean(A['12'], axis=1).argsort()`.  Used for simdblm.py:608-645. -/
noncomputable def rowOrder (ord : Order) : ND → ℕ → ℕ
  | .mat r c v => ord r fun l => (∑ k ∈ range c, v l k) / c
  | _ => id

/-- `np.mean(A['12'], axis=0).argsort()`.  Used for simdblm.py:608-645. -/
noncomputable def colOrder (ord : Order) : ND → ℕ → ℕ
  | .mat r c v => ord c fun k => (∑ l ∈ range r, v l k) / r
  | _ => id

/-- `_sort_A`, simdblm.py:608-645. -/
noncomputable def sortA (ord : Order) (srt : RowSort) (strict : Bool) (s : Store) : Store :=
  let s1 := if strict then
      allPeriods.foldl (fun s p => if p.isB then s else s.write p ((s.read p).sortRows srt)) s
    else s
  let w := rowOrder ord (s1.read .p12)
  let s2 := allPeriods.foldl (fun s p => if p.isB then s else s.put p ((s.read p).permRows w)) s1
  if strict then s2
  else
    let f := colOrder ord (s2.read .p12)
    allPeriods.foldl (fun s p => s.put p ((s.read p).permCols f)) s2

/-- The options, simdblm.py:28-200. -/
structure Opts where
  statA : Bool
  statS : Bool
  statFirm : Bool
  strict : Bool
  endog : Bool
  state : Bool

/-- `for period in all_periods[1:]: d[period] = d['12']`, simdblm.py:815-821. -/
def statAll (s : Store) : Store := allPeriods.tail.foldl (fun s p => s.alias p .p12) s

/-- One step of the stationary firm type variation, simdblm.py:826. -/
noncomputable def firmStep (s : Store) (p : Per) : Py Store := do
  let m ← (s.read p).rowMeans
  let m0 ← (s.read .p12).rowMeans
  let x ← bc (· + ·) (s.read .p12) m
  let y ← bc (· - ·) x m0
  .ok (s.put p y)

/-- Endogeneity and state dependence for one dictionary, simdblm.py:828-834. -/
def switchOff (endog state : Bool) (s : Store) : Store :=
  let s1 := if endog then s else s.write .p2mb (s.read .p2mb).zeroed
  if state then s1 else s1.write .p3mb (s1.read .p3mb).zeroed

/-- `_gen_params` for the main parameters after the draws, simdblm.py:811-836: the means and the standard
deviations. -/
noncomputable def genParams (ord : Order) (srt : RowSort) (o : Opts) (dA dS : Per → ND) :
    Py (Store × Store) := do
  let A := sortA ord srt o.strict (.init dA)
  let A := if o.statA then statAll A else A
  let S := if o.statS then statAll (.init dS) else .init dS
  let A ← if o.statFirm then allPeriods.tail.foldlM firmStep A else .ok A
  .ok (switchOff o.endog o.state A, switchOff o.endog o.state S)

/-- Means (or standard deviations) of one categorical control without stationary firm type variation,
simdblm.py:744-770. -/
def genCat (stat endog state : Bool) (d : Per → ND) : Store :=
  switchOff endog state (if stat then statAll (.init d) else .init d)

/-- Mean of the movers' period 2 wages, `A_sum['2ma'] + A_sum['2mb']` with `A_sum` from simdblm.py:892-896
as the `loc` of `rng.normal(..., size=nmi)`, simdblm.py:955-958; `L`, `G1`, `G2` the movers' types.  If
`A['2mb']` is a matrix, `A['2mb'][G2]` has shape `(nmi, nk)`, so `loc` has two dimensions and numpy rejects
`size=nmi`. -/
def loc2 (A : Store) (n : ℕ) (L G1 G2 : ℕ → ℕ) : Py (List ℝ) :=
  match A.read .p2ma, A.read .p2mb with
  | .mat _ _ a, .vec _ b => .ok ((List.range n).map fun i => a (L i) (G1 i) + b (G2 i))
  | _, _ => .error "ValueError"

/-! ## Specification -/

/-- The draws have the shapes of simdblm.py:668-712. -/
def Spec.Shapes (nl nk : ℕ) (d : Per → ND) : Prop :=
  ∀ p : Per, if p.isB then ∃ v, d p = ND.vec nk v else ∃ v, d p = ND.mat nl nk v

/-- All entries are zero. -/
def Spec.IsZero : ND → Prop
  | .mat r c v => ∀ l k, l < r → k < c → v l k = 0
  | .vec n v => ∀ k, k < n → v k = 0

/-- Switching the effects off zeroes them and changes nothing else: `full` is the dictionary with both
effects switched on. -/
def Spec.OnlySwitchedOff (endog state : Bool) (full s : Store) : Prop :=
  ∀ p, if p = .p2mb ∧ endog = false ∨ p = .p3mb ∧ state = false then Spec.IsZero (s.read p)
    else s.read p = full.read p

/-- Every period has the same array of means. -/
def Spec.AllEqual (s : Store) : Prop := ∀ p q, s.read p = s.read q

/-! ## Lemmas -/

/-- Every key has its own object. -/
def Sep (s : Store) : Prop := Function.Injective s.names ∧ ∀ p, s.names p < s.next

theorem read_put (s : Store) (h : ∀ p, s.names p < s.next) (p q : Per) (v : ND) :
    (s.put p v).read q = if q = p then v else s.read q := by
  unfold Store.put Store.read
  by_cases e : q = p
  · subst e; simp
  · simp only [Function.update_of_ne e, if_neg e]
    rw [Function.update_of_ne (h q).ne]

theorem put_lt (s : Store) (h : ∀ p, s.names p < s.next) (p : Per) (v : ND) :
    ∀ q, (s.put p v).names q < (s.put p v).next := by
  intro q
  unfold Store.put
  by_cases e : q = p
  · subst e; simp
  · simp only [Function.update_of_ne e]
    exact Nat.lt_succ_of_lt (h q)

theorem sep_put (s : Store) (h : Sep s) (p : Per) (v : ND) : Sep (s.put p v) := by
  refine ⟨?_, put_lt s h.2 p v⟩
  intro a b hab
  unfold Store.put at hab
  dsimp only at hab
  by_cases ha : a = p <;> by_cases hb : b = p
  · rw [ha, hb]
  · subst ha
    rw [Function.update_self, Function.update_of_ne hb] at hab
    exact absurd hab.symm (h.2 b).ne
  · subst hb
    rw [Function.update_self, Function.update_of_ne ha] at hab
    exact absurd hab (h.2 a).ne
  · rw [Function.update_of_ne ha, Function.update_of_ne hb] at hab
    exact h.1 hab

theorem read_write (s : Store) (h : Function.Injective s.names) (p q : Per) (v : ND) :
    (s.write p v).read q = if q = p then v else s.read q := by
  unfold Store.write Store.read
  dsimp only
  by_cases e : q = p
  · subst e; simp
  · rw [if_neg e, Function.update_of_ne fun h' => e (h h')]

theorem sep_write (s : Store) (h : Sep s) (p : Per) (v : ND) : Sep (s.write p v) := h

theorem init_lt_aux (l : List Per) (draw : Per → ND) (s : Store) (hinj : ∀ p q, p ∉ l → q ∉ l → s.names p = s.names q → p = q)
    (hlt : ∀ p, p ∉ l → s.names p < s.next) :
    Sep (l.foldl (fun s p => s.put p (draw p)) s) := by
  induction l generalizing s with
  | nil => exact ⟨fun p q h => hinj p q (by simp) (by simp) h, fun p => hlt p (by simp)⟩
  | cons a l ih =>
    rw [List.foldl_cons]
    apply ih
    · intro p q hp hq h
      unfold Store.put at h
      dsimp only at h
      by_cases ea : p = a <;> by_cases eb : q = a
      · rw [ea, eb]
      · subst ea
        rw [Function.update_self, Function.update_of_ne eb] at h
        exact absurd h.symm (hlt q (by simp [eb, hq])).ne
      · subst eb
        rw [Function.update_self, Function.update_of_ne ea] at h
        exact absurd h (hlt p (by simp [ea, hp])).ne
      · rw [Function.update_of_ne ea, Function.update_of_ne eb] at h
        exact hinj p q (by simp [ea, hp]) (by simp [eb, hq]) h
    · intro p hp
      unfold Store.put
      dsimp only
      by_cases ea : p = a
      · subst ea; simp
      · rw [Function.update_of_ne ea]
        exact Nat.lt_succ_of_lt (hlt p (by simp [ea, hp]))

theorem mem_all (p : Per) : p ∈ allPeriods := by cases p <;> decide

theorem sep_init (draw : Per → ND) : Sep (.init draw) :=
  init_lt_aux _ _ _ (fun p _ hp => absurd (mem_all p) hp) (fun p hp => absurd (mem_all p) hp)

theorem read_init_aux (l : List Per) (draw : Per → ND) (s : Store) (hlt : ∀ p, s.names p < s.next + 1)
    (hpos : s.next = 0 → s.names = fun _ => 0) (h : ∀ p, p ∉ l → s.names p < s.next ∧ s.read p = draw p)
    (hnd : l.Nodup) (p : Per) :
    (l.foldl (fun s p => s.put p (draw p)) s).read p = draw p := by
  induction l generalizing s with
  | nil => exact (h p (by simp)).2
  | cons a l ih =>
    rw [List.foldl_cons]
    apply ih
    · intro q
      unfold Store.put
      dsimp only
      by_cases e : q = a
      · subst e; rw [Function.update_self]; omega
      · rw [Function.update_of_ne e]
        exact Nat.lt_succ_of_lt (hlt q)
    · intro h0; simp [Store.put] at h0
    · intro q hq
      by_cases e : q = a
      · subst e
        simp [Store.put, Store.read]
      · obtain ⟨h1, h2⟩ := h q (by simp [e, hq])
        simp only [Store.put, Store.read, Function.update_of_ne e, Function.update_of_ne h1.ne]
        exact ⟨Nat.lt_succ_of_lt h1, h2⟩
    · exact (List.nodup_cons.mp hnd).2

theorem read_init (draw : Per → ND) (p : Per) : (Store.init draw).read p = draw p := by
  apply read_init_aux
  · intro q; exact Nat.zero_lt_one
  · intro _; rfl
  · intro q hq; exact absurd (mem_all q) hq
  · decide

/-- A loop over periods that replaces each array by a function of itself. -/
theorem fold_put (l : List Per) (f : Per → ND → ND) (g : Per → Bool) (s : Store) (h : Sep s) (hnd : l.Nodup) :
    Sep (l.foldl (fun s p => if g p then s else s.put p (f p (s.read p))) s) ∧
    ∀ q, (l.foldl (fun s p => if g p then s else s.put p (f p (s.read p))) s).read q =
      if q ∈ l ∧ g q = false then f q (s.read q) else s.read q := by
  induction l generalizing s with
  | nil => exact ⟨h, fun q => by simp⟩
  | cons a l ih =>
    rw [List.foldl_cons]
    have hn := List.nodup_cons.mp hnd
    cases hg : g a
    · rw [if_neg (by simp)]
      obtain ⟨h1, h2⟩ := ih _ (sep_put s h a (f a (s.read a))) hn.2
      refine ⟨h1, fun q => ?_⟩
      rw [h2, read_put _ h.2]
      by_cases e : q = a
      · subst e; simp [hn.1, hg]
      · simp [e]
    · rw [if_pos rfl]
      obtain ⟨h1, h2⟩ := ih s h hn.2
      refine ⟨h1, fun q => ?_⟩
      rw [h2]
      by_cases e : q = a
      · subst e; simp [hg]
      · simp [e]

theorem fold_write (l : List Per) (f : Per → ND → ND) (g : Per → Bool) (s : Store) (h : Sep s) (hnd : l.Nodup) :
    Sep (l.foldl (fun s p => if g p then s else s.write p (f p (s.read p))) s) ∧
    ∀ q, (l.foldl (fun s p => if g p then s else s.write p (f p (s.read p))) s).read q =
      if q ∈ l ∧ g q = false then f q (s.read q) else s.read q := by
  induction l generalizing s with
  | nil => exact ⟨h, fun q => by simp⟩
  | cons a l ih =>
    rw [List.foldl_cons]
    have hn := List.nodup_cons.mp hnd
    cases hg : g a
    · rw [if_neg (by simp)]
      obtain ⟨h1, h2⟩ := ih _ (sep_write s h a (f a (s.read a))) hn.2
      refine ⟨h1, fun q => ?_⟩
      rw [h2, read_write _ h.1]
      by_cases e : q = a
      · subst e; simp [hn.1, hg]
      · simp [e]
    · rw [if_pos rfl]
      obtain ⟨h1, h2⟩ := ih s h hn.2
      refine ⟨h1, fun q => ?_⟩
      rw [h2]
      by_cases e : q = a
      · subst e; simp [hg]
      · simp [e]

theorem nodup_all : allPeriods.Nodup := by decide

/-- What `_sort_A` does to the values, and that it leaves every period its own array. -/
theorem sortA_spec (ord : Order) (srt : RowSort) (strict : Bool) (s : Store) (h : Sep s) :
    Sep (sortA ord srt strict s) ∧
    (∀ p, (sortA ord srt strict s).read p =
      let x := if strict ∧ p.isB = false then (s.read p).sortRows srt else s.read p
      let x12 := if strict then (s.read .p12).sortRows srt else s.read .p12
      let y := if p.isB = false then x.permRows (rowOrder ord x12) else x
      let y12 := x12.permRows (rowOrder ord x12)
      if strict then y else y.permCols (colOrder ord y12)) := by
  unfold sortA
  dsimp only
  cases strict
  · simp only [Bool.false_eq_true, if_false, false_and]
    obtain ⟨a1, a2⟩ := fold_put allPeriods (fun _ x => x.permRows (rowOrder ord (s.read .p12))) Per.isB s h nodup_all
    obtain ⟨b1, b2⟩ := fold_put allPeriods (fun _ x => x.permCols (colOrder ord
      ((s.read .p12).permRows (rowOrder ord (s.read .p12))))) (fun _ => false) _ a1 nodup_all
    have e : (allPeriods.foldl (fun s_1 p => if p.isB then s_1 else
        s_1.put p ((s_1.read p).permRows (rowOrder ord (s.read .p12)))) s).read .p12 =
        (s.read .p12).permRows (rowOrder ord (s.read .p12)) := by
      rw [a2, if_pos ⟨mem_all _, rfl⟩]
    simp only [Bool.false_eq_true, if_false] at b1 b2
    rw [e]
    refine ⟨b1, fun p => ?_⟩
    rw [b2, if_pos ⟨mem_all _, trivial⟩, a2]
    simp only [mem_all, true_and]
  · simp only [if_true, true_and]
    obtain ⟨a1, a2⟩ := fold_write allPeriods (fun _ x => x.sortRows srt) Per.isB s h nodup_all
    have e : (allPeriods.foldl (fun s_1 p => if p.isB then s_1 else
        s_1.write p ((s_1.read p).sortRows srt)) s).read .p12 = (s.read .p12).sortRows srt := by
      rw [a2, if_pos ⟨mem_all _, rfl⟩]
    rw [e]
    obtain ⟨b1, b2⟩ := fold_put allPeriods (fun _ x => x.permRows (rowOrder ord ((s.read .p12).sortRows srt)))
      Per.isB _ a1 nodup_all
    refine ⟨b1, fun p => ?_⟩
    rw [b2, a2]
    simp only [mem_all, true_and]

/-- After `statAll` every key refers to the object of `'12'`. -/
theorem statAll_names (s : Store) (p : Per) : (statAll s).names p = s.names .p12 := by
  cases p <;> rfl

theorem statAll_obj (s : Store) : (statAll s).obj = s.obj ∧ (statAll s).next = s.next := ⟨rfl, rfl⟩

theorem statAll_read (s : Store) (p : Per) : (statAll s).read p = s.read .p12 := by
  cases p <;> rfl

theorem isZero_zeroed (x : ND) : Spec.IsZero x.zeroed := by
  cases x <;> simp [ND.zeroed, Spec.IsZero]

theorem switchOff_sep (endog state : Bool) (s : Store) (h : Sep s) :
    Spec.OnlySwitchedOff endog state s (switchOff endog state s) := by
  intro p
  unfold switchOff
  dsimp only
  cases endog <;> cases state <;> cases p <;>
    simp [read_write _ h.1, read_write _ (sep_write s h _ _).1, isZero_zeroed]

theorem switchOff_on (s : Store) : switchOff true true s = s := rfl

theorem read_write_all (s : Store) (h : ∀ p q, s.names p = s.names q) (p q : Per) (v : ND) :
    (s.write p v).read q = v := by
  unfold Store.write Store.read
  dsimp only
  rw [h q p, Function.update_self]

theorem switchOff_alias (endog state : Bool) (s : Store) (h : ∀ p q, s.names p = s.names q)
    (hoff : endog = false ∨ state = false) (p : Per) : Spec.IsZero ((switchOff endog state s).read p) := by
  unfold switchOff
  dsimp only
  have h' : ∀ v, ∀ p q, (s.write .p2mb v).names p = (s.write .p2mb v).names q := fun v => h
  cases endog <;> cases state
  · simp only [Bool.false_eq_true, if_false]
    rw [read_write_all _ (h' _)]
    exact isZero_zeroed _
  · simp only [Bool.false_eq_true, if_false, if_true]
    rw [read_write_all _ h]
    exact isZero_zeroed _
  · simp only [Bool.false_eq_true, if_false, if_true]
    rw [read_write_all _ h]
    exact isZero_zeroed _
  · simp at hoff

theorem firmStep_sep (s s' : Store) (p : Per) (h : Sep s) (hs : firmStep s p = .ok s') : Sep s' := by
  unfold firmStep at hs
  cases h1 : (s.read p).rowMeans with
  | error e => rw [h1] at hs; cases hs
  | ok m =>
    cases h2 : (s.read .p12).rowMeans with
    | error e => rw [h1, h2] at hs; cases hs
    | ok m0 =>
      cases h3 : bc (· + ·) (s.read .p12) m with
      | error e => simp only [h1, h2, h3, bind, Except.bind] at hs; cases hs
      | ok x =>
        cases h4 : bc (· - ·) x m0 with
        | error e => simp only [h1, h2, h3, h4, bind, Except.bind] at hs; cases hs
        | ok y =>
          simp only [h1, h2, h3, h4, bind, Except.bind, Except.ok.injEq] at hs
          rw [← hs]
          exact sep_put s h p y

/-- Reading another key is not affected by one step. -/
theorem firmStep_read (s s' : Store) (p q : Per) (h : ∀ p, s.names p < s.next) (hs : firmStep s p = .ok s')
    (hq : q ≠ p) : s'.read q = s.read q ∧ (∀ p, s'.names p < s'.next) ∧
      ∃ r c v, s.read p = .mat r c v := by
  unfold firmStep at hs
  cases h1 : (s.read p).rowMeans with
  | error e => rw [h1] at hs; cases hs
  | ok m =>
    have hmat : ∃ r c v, s.read p = .mat r c v := by
      cases hx : s.read p with
      | mat r c v => exact ⟨r, c, v, rfl⟩
      | vec n v => rw [hx] at h1; cases h1
    cases h2 : (s.read .p12).rowMeans with
    | error e => rw [h1, h2] at hs; cases hs
    | ok m0 =>
      cases h3 : bc (· + ·) (s.read .p12) m with
      | error e => simp only [h1, h2, h3, bind, Except.bind] at hs; cases hs
      | ok x =>
        cases h4 : bc (· - ·) x m0 with
        | error e => simp only [h1, h2, h3, h4, bind, Except.bind] at hs; cases hs
        | ok y =>
          simp only [h1, h2, h3, h4, bind, Except.bind, Except.ok.injEq] at hs
          rw [← hs]
          refine ⟨?_, put_lt s h p y, hmat⟩
          rw [read_put s h, if_neg hq]

theorem foldlM_ok_cons {σ α : Type*} (f : σ → α → Py σ) (a : α) (l : List α) (s s' : σ)
    (h : (a :: l).foldlM f s = .ok s') : ∃ s1, f s a = .ok s1 ∧ l.foldlM f s1 = .ok s' := by
  rw [List.foldlM_cons] at h
  cases hf : f s a with
  | error e => rw [hf] at h; cases h
  | ok s1 => rw [hf] at h; exact ⟨s1, rfl, h⟩

/-- If the loop succeeds, every key it visits held a matrix. -/
theorem firm_loop_mats (l : List Per) (s s' : Store) (hlt : ∀ p, s.names p < s.next) (hnd : l.Nodup)
    (h : l.foldlM firmStep s = .ok s') : ∀ p ∈ l, ∃ r c v, s.read p = .mat r c v := by
  induction l generalizing s with
  | nil => simp
  | cons a l ih =>
    obtain ⟨s1, h1, h2⟩ := foldlM_ok_cons _ _ _ _ _ h
    have hn := List.nodup_cons.mp hnd
    have hmat : ∃ r c v, s.read a = .mat r c v := by
      cases hx : s.read a with
      | mat r c v => exact ⟨r, c, v, rfl⟩
      | vec n v =>
        unfold firmStep at h1
        rw [hx] at h1
        cases h1
    have hlt1 : ∀ p, s1.names p < s1.next := by
      by_cases ea : a = .p12
      · exact (firmStep_read s s1 a .p43 hlt h1 (by rw [ea]; decide)).2.1
      · exact (firmStep_read s s1 a .p12 hlt h1 (Ne.symm ea)).2.1
    intro p hp
    rcases List.mem_cons.mp hp with rfl | hp
    · exact hmat
    · have hne : p ≠ a := fun e => hn.1 (e ▸ hp)
      obtain ⟨r, c, v, hv⟩ := ih s1 hlt1 hn.2 h2 p hp
      rw [(firmStep_read s s1 a p hlt h1 hne).1] at hv
      exact ⟨r, c, v, hv⟩

theorem perm_shape (x : ND) (o f : ℕ → ℕ) (srt : RowSort) :
    (∀ n v, x = .vec n v → (∃ w, x.permCols f = .vec n w) ∧ x.permRows o = x ∧ x.sortRows srt = x) ∧
    (∀ r c v, x = .mat r c v → (∃ w, x.permCols f = .mat r c w) ∧ (∃ w, x.permRows o = .mat r c w) ∧
      (∃ w, x.sortRows srt = .mat r c w)) := by
  constructor
  · rintro n v rfl; exact ⟨⟨_, rfl⟩, rfl, rfl⟩
  · rintro r c v rfl; exact ⟨⟨_, rfl⟩, ⟨_, rfl⟩, ⟨_, rfl⟩⟩

/-- Sorting keeps the shapes. -/
theorem sortA_shapes (ord : Order) (srt : RowSort) (strict : Bool) (nl nk : ℕ) (d : Per → ND)
    (hd : Spec.Shapes nl nk d) : Spec.Shapes nl nk (sortA ord srt strict (.init d)).read := by
  intro p
  have hp := hd p
  rw [(sortA_spec ord srt strict _ (sep_init d)).2 p]
  simp only [read_init]
  cases hb : p.isB
  · simp only [hb, Bool.false_eq_true, if_false] at hp ⊢
    obtain ⟨v, hv⟩ := hp
    rw [hv]
    cases strict <;> exact ⟨_, rfl⟩
  · simp only [hb, if_true] at hp ⊢
    obtain ⟨v, hv⟩ := hp
    rw [hv]
    cases strict <;> simp [ND.permCols]

/-! ## C46 -/

/-- C46 (partial): without the stationarity options, switching endogeneity or state dependence off sets
exactly the corresponding means and standard deviations to zero and changes no other parameter.  Missing:
stationary parameters (`C46_stationary_zeroes`). -/
theorem C46_switch_off_partial (ord : Order) (srt : RowSort) (o : Opts) (dA dS : Per → ND)
    (hf : o.statFirm = false) :
    ∃ full out, genParams ord srt { o with endog := true, state := true } dA dS = .ok full ∧
      genParams ord srt o dA dS = .ok out ∧
      (o.statA = false → Spec.OnlySwitchedOff o.endog o.state full.1 out.1) ∧
      (o.statS = false → Spec.OnlySwitchedOff o.endog o.state full.2 out.2) := by
  unfold genParams
  simp only [hf]
  refine ⟨_, _, rfl, rfl, ?_, ?_⟩
  · intro h
    simp only [h, switchOff_on, Bool.false_eq_true, if_false]
    exact switchOff_sep _ _ _ (sortA_spec ord srt o.strict _ (sep_init dA)).1
  · intro h
    simp only [h, switchOff_on, Bool.false_eq_true, if_false]
    exact switchOff_sep _ _ _ (sep_init dS)

/-- C46: the same for a categorical control that is not stationary. -/
theorem C46_switch_off_cat (endog state : Bool) (d : Per → ND) :
    Spec.OnlySwitchedOff endog state (genCat false true true d) (genCat false endog state d) := by
  unfold genCat
  simp only [Bool.false_eq_true, if_false, switchOff_on]
  exact switchOff_sep _ _ _ (sep_init d)

/-- C46 (wrong): with stationary parameters, switching endogeneity or state dependence off sets *every*
period's means (or standard deviations) to zero, whatever was drawn: all periods share one array. -/
theorem C46_stationary_zeroes (ord : Order) (srt : RowSort) (o : Opts) (dA dS : Per → ND)
    (hf : o.statFirm = false) (hoff : o.endog = false ∨ o.state = false) :
    ∃ out, genParams ord srt o dA dS = .ok out ∧
      (o.statA = true → ∀ p, Spec.IsZero (out.1.read p)) ∧
      (o.statS = true → ∀ p, Spec.IsZero (out.2.read p)) := by
  unfold genParams
  simp only [hf]
  refine ⟨_, rfl, ?_, ?_⟩
  · intro h p
    simp only [h, if_true, Bool.false_eq_true, if_false]
    exact switchOff_alias _ _ _ (fun p q => by rw [statAll_names, statAll_names]) hoff p
  · intro h p
    simp only [h, if_true]
    exact switchOff_alias _ _ _ (fun p q => by rw [statAll_names, statAll_names]) hoff p

/-- C46 (wrong): the same for a stationary categorical control. -/
theorem C46_stationary_zeroes_cat (endog state : Bool) (d : Per → ND) (hoff : endog = false ∨ state = false)
    (p : Per) : Spec.IsZero ((genCat true endog state d).read p) := by
  unfold genCat
  simp only [if_true]
  exact switchOff_alias _ _ _ (fun p q => by rw [statAll_names, statAll_names]) hoff p

/-- C46: with stationary means and both effects on, all periods have the means of period `'12'`. -/
theorem C46_stationary_equal (ord : Order) (srt : RowSort) (o : Opts) (dA dS : Per → ND)
    (hf : o.statFirm = false) (he : o.endog = true) (hs : o.state = true) :
    ∃ out, genParams ord srt o dA dS = .ok out ∧
      (o.statA = true → Spec.AllEqual out.1) ∧ (o.statS = true → Spec.AllEqual out.2) := by
  unfold genParams
  simp only [hf, he, hs, switchOff_on]
  refine ⟨_, rfl, ?_, ?_⟩
  · intro h p q
    simp only [h, if_true, Bool.false_eq_true, if_false, statAll_read]
  · intro h p q
    simp only [h, if_true, statAll_read]

/-- C46 (wrong): but then the endogeneity effect, which has one entry per firm type, has become a matrix,
and simulating movers raises, for every draw and every list of movers. -/
theorem C46_stationary_simulation_raises (ord : Order) (srt : RowSort) (o : Opts) (nl nk : ℕ) (dA dS : Per → ND)
    (hd : Spec.Shapes nl nk dA) (hA : o.statA = true) (hf : o.statFirm = false) (n : ℕ) (L G1 G2 : ℕ → ℕ) :
    ∃ out, genParams ord srt o dA dS = .ok out ∧ loc2 out.1 n L G1 G2 = .error "ValueError" := by
  unfold genParams
  simp only [hf, hA, if_true, Bool.false_eq_true, if_false]
  refine ⟨_, rfl, ?_⟩
  have hs := sortA_shapes ord srt o.strict nl nk dA hd .p12
  simp only [Per.isB, Bool.false_eq_true, if_false] at hs
  obtain ⟨v, hv⟩ := hs
  have key : ∀ p, ∃ w, (switchOff o.endog o.state (statAll (sortA ord srt o.strict (.init dA)))).read p =
      .mat nl nk w := by
    intro p
    have hn : ∀ p q, (statAll (sortA ord srt o.strict (.init dA))).names p =
      (statAll (sortA ord srt o.strict (.init dA))).names q := fun p q => by rw [statAll_names, statAll_names]
    have hr : ∀ p, (statAll (sortA ord srt o.strict (.init dA))).read p = .mat nl nk v := fun p => by
      rw [statAll_read, hv]
    generalize statAll (sortA ord srt o.strict (.init dA)) = s at hn hr
    unfold switchOff
    dsimp only
    have h' : ∀ v, ∀ p q, (s.write .p2mb v).names p = (s.write .p2mb v).names q := fun v => hn
    cases o.endog <;> cases o.state
    · simp only [Bool.false_eq_true, if_false]
      rw [read_write_all _ (h' _), read_write_all _ hn, hr]
      exact ⟨_, rfl⟩
    · simp only [Bool.false_eq_true, if_false, if_true]
      rw [read_write_all _ hn, hr]
      exact ⟨_, rfl⟩
    · simp only [Bool.false_eq_true, if_false, if_true]
      rw [read_write_all _ hn, hr]
      exact ⟨_, rfl⟩
    · exact ⟨v, hr p⟩
  obtain ⟨w, hw⟩ := key .p2mb
  unfold loc2
  rw [hw]
  cases (switchOff o.endog o.state (statAll (sortA ord srt o.strict (.init dA)))).read .p2ma <;> rfl

/-- C46 (wrong): the stationary-firm-type-variation option always raises when the means are not
stationary as well, for every size and every draw: the endogeneity effect has only one axis. -/
theorem C46_firm_variation_raises (ord : Order) (srt : RowSort) (o : Opts) (nl nk : ℕ) (dA dS : Per → ND)
    (hd : Spec.Shapes nl nk dA) (hA : o.statA = false) (hf : o.statFirm = true) :
    ∃ e, genParams ord srt o dA dS = .error e := by
  have hsep := (sortA_spec ord srt o.strict _ (sep_init dA)).1
  unfold genParams
  simp only [hA, hf, if_true, Bool.false_eq_true, if_false]
  cases h : allPeriods.tail.foldlM firmStep (sortA ord srt o.strict (.init dA)) with
  | error e => exact ⟨e, rfl⟩
  | ok s' =>
    obtain ⟨r, c, v, hv⟩ := firm_loop_mats _ _ _ hsep.2 (by decide) h .p2mb (by decide)
    have hs := sortA_shapes ord srt o.strict nl nk dA hd .p2mb
    simp only [Per.isB, if_true] at hs
    obtain ⟨w, hw⟩ := hs
    rw [hw] at hv
    cases hv

/-- C46: without stationarity the movers' period 2 means are those of the model. -/
theorem C46_simulation_means (ord : Order) (srt : RowSort) (o : Opts) (nl nk : ℕ) (dA dS : Per → ND)
    (hd : Spec.Shapes nl nk dA) (hA : o.statA = false) (hf : o.statFirm = false) (n : ℕ) (L G1 G2 : ℕ → ℕ) :
    ∃ out a b, genParams ord srt o dA dS = .ok out ∧ out.1.read .p2ma = .mat nl nk a ∧
      out.1.read .p2mb = .vec nk b ∧ (o.endog = false → ∀ k, k < nk → b k = 0) ∧
      loc2 out.1 n L G1 G2 = .ok ((List.range n).map fun i => a (L i) (G1 i) + b (G2 i)) := by
  obtain ⟨full, out, -, hout, h1, -⟩ := C46_switch_off_partial ord srt o dA dS hf
  have hsep := (sortA_spec ord srt o.strict _ (sep_init dA)).1
  have hs := sortA_shapes ord srt o.strict nl nk dA hd
  have e : out.1 = switchOff o.endog o.state (sortA ord srt o.strict (.init dA)) := by
    unfold genParams at hout
    simp only [hf, hA, Bool.false_eq_true, if_false] at hout
    simp only [bind, Except.bind, Except.ok.injEq] at hout
    rw [← hout]
  have ha : ∃ a, out.1.read .p2ma = .mat nl nk a := by
    have := switchOff_sep o.endog o.state _ hsep .p2ma
    rw [if_neg (by simp)] at this
    rw [e, this]
    have := hs .p2ma
    simpa [Per.isB] using this
  have hb : ∃ b, out.1.read .p2mb = .vec nk b := by
    have h0 := hs .p2mb
    simp only [Per.isB, if_true] at h0
    obtain ⟨b, hb⟩ := h0
    rw [e]
    unfold switchOff
    dsimp only
    cases o.endog <;> cases o.state <;>
      simp [read_write _ hsep.1, read_write _ (sep_write _ hsep _ _).1, hb, ND.zeroed]
  obtain ⟨a, ha⟩ := ha
  obtain ⟨b, hb⟩ := hb
  refine ⟨out, a, b, hout, ha, hb, ?_, ?_⟩
  · intro he
    have := h1 hA .p2mb
    rw [if_pos (by simp [he]), hb] at this
    exact this
  · unfold loc2
    rw [ha, hb]

/-- A rearrangement of `0, ..., n - 1`. -/
def Spec.Perm (n : ℕ) (w : ℕ → ℕ) : Prop := (∀ a < n, w a < n) ∧ ∀ a < n, ∀ b < n, w a = w b → a = b

/-- `argsort`: a rearrangement that puts the values in ascending order. -/
def Spec.IsArgsort (ord : Order) : Prop :=
  ∀ n x, Spec.Perm n (ord n x) ∧ ∀ a b, a ≤ b → b < n → x (ord n x a) ≤ x (ord n x b)

/-- `np.sort`: the values, rearranged in ascending order. -/
def Spec.IsSort (srt : RowSort) : Prop :=
  ∀ n x, (∃ w, Spec.Perm n w ∧ ∀ a < n, srt n x a = x (w a)) ∧ ∀ a b, a ≤ b → b < n → srt n x a ≤ srt n x b

theorem sum_perm {n : ℕ} {w : ℕ → ℕ} (h : Spec.Perm n w) (x : ℕ → ℝ) : ∑ a ∈ range n, x (w a) = ∑ a ∈ range n, x a := by
  have himg : (range n).image w = range n := by
    apply Finset.eq_of_subset_of_card_le
    · intro b hb
      obtain ⟨a, ha, rfl⟩ := Finset.mem_image.1 hb
      exact Finset.mem_range.2 (h.1 a (Finset.mem_range.1 ha))
    · rw [Finset.card_image_of_injOn]
      intro a ha b hb e
      exact h.2 a (by simpa using ha) b (by simpa using hb) e
  conv_rhs => rw [← himg]
  rw [Finset.sum_image]
  intro a ha b hb e
  exact h.2 a (by simpa using ha) b (by simpa using hb) e

theorem genParams_means (ord : Order) (srt : RowSort) (o : Opts) (dA dS : Per → ND) (hA : o.statA = false)
    (hf : o.statFirm = false) : ∃ out, genParams ord srt o dA dS = .ok out ∧
      ∀ p, ¬ (p = .p2mb ∧ o.endog = false ∨ p = .p3mb ∧ o.state = false) →
        out.1.read p = (sortA ord srt o.strict (.init dA)).read p := by
  unfold genParams
  simp only [hf, hA, Bool.false_eq_true, if_false]
  refine ⟨_, rfl, fun p hp => ?_⟩
  have := switchOff_sep o.endog o.state _ (sortA_spec ord srt o.strict _ (sep_init dA)).1 p
  rwa [if_neg hp] at this

/-- C46, order of types: the rows of every matrix of means are rearranged in one way and the columns (and the effects of
firm types) in another, so that worker types and firm types have ascending mean wages in period `'12'`. -/
theorem C46_types_ordered (ord : Order) (srt : RowSort) (ho : Spec.IsArgsort ord) (o : Opts) (nl nk : ℕ) (dA dS : Per → ND)
    (hd : Spec.Shapes nl nk dA) (hA : o.statA = false) (hf : o.statFirm = false) (hm : o.strict = false) :
    ∃ out w f v, genParams ord srt o dA dS = .ok out ∧ Spec.Perm nl w ∧ Spec.Perm nk f ∧
      (∀ p x, p.isB = false → dA p = .mat nl nk x → out.1.read p = .mat nl nk fun l k => x (w l) (f k)) ∧
      (∀ p x, dA p = .vec nk x → ¬ (p = .p2mb ∧ o.endog = false ∨ p = .p3mb ∧ o.state = false) →
        out.1.read p = .vec nk fun k => x (f k)) ∧
      out.1.read .p12 = .mat nl nk v ∧
      (∀ l l', l ≤ l' → l' < nl → (∑ k ∈ range nk, v l k) / nk ≤ (∑ k ∈ range nk, v l' k) / nk) ∧
      (∀ k k', k ≤ k' → k' < nk → (∑ l ∈ range nl, v l k) / nl ≤ (∑ l ∈ range nl, v l k') / nl) := by
  obtain ⟨out, hout, hread⟩ := genParams_means ord srt o dA dS hA hf
  have h12 := hd .p12
  simp only [Per.isB, Bool.false_eq_true, if_false] at h12
  obtain ⟨x0, hx0⟩ := h12
  have hs := (sortA_spec ord srt o.strict _ (sep_init dA)).2
  simp only [hm, Bool.false_eq_true, if_false, false_and, read_init, hx0] at hs hread
  obtain ⟨hw, hw2⟩ := ho nl fun l => (∑ k ∈ range nk, x0 l k) / nk
  obtain ⟨hk, hk2⟩ := ho nk fun k => (∑ l ∈ range nl, x0 (ord nl (fun l => (∑ k ∈ range nk, x0 l k) / nk) l) k) / nl
  have hmat : ∀ p x, p.isB = false → dA p = .mat nl nk x → out.1.read p = .mat nl nk fun l k =>
      x (ord nl (fun l => (∑ k ∈ range nk, x0 l k) / nk) l)
        (ord nk (fun k => (∑ l ∈ range nl, x0 (ord nl (fun l => (∑ k ∈ range nk, x0 l k) / nk) l) k) / nl) k) := by
    intro p x hb hp
    rw [hread p (by rintro (⟨rfl, -⟩ | ⟨rfl, -⟩) <;> cases hb), hs, hp, if_pos hb]
    rfl
  refine ⟨out, _, _, _, hout, hw, hk, hmat, ?_, hmat _ _ rfl hx0, ?_, ?_⟩
  · intro p x hp hsw
    have hb : p.isB = true := by
      cases h : p.isB
      · have := hd p
        rw [h] at this
        obtain ⟨y, hy⟩ := this
        rw [hy] at hp; cases hp
      · rfl
    rw [hread p hsw, hs, hp, if_neg (by simp [hb])]
    rfl
  · intro l l' h1 h2
    rw [sum_perm hk fun k => x0 (ord nl (fun l => (∑ k ∈ range nk, x0 l k) / nk) l) k,
      sum_perm hk fun k => x0 (ord nl (fun l => (∑ k ∈ range nk, x0 l k) / nk) l') k]
    exact hw2 l l' h1 h2
  · intro k k' h1 h2
    exact hk2 k k' h1 h2

/-- C46, order of types with `strictly_monotone_a`: every matrix of means is ascending in the firm type for every worker
type, each row has the values drawn, worker types have ascending mean wages in period `'12'`, and the effects of firm types
stay as drawn. -/
theorem C46_strictly_ordered (ord : Order) (srt : RowSort) (ho : Spec.IsArgsort ord) (hsrt : Spec.IsSort srt) (o : Opts)
    (nl nk : ℕ) (dA dS : Per → ND)
    (hd : Spec.Shapes nl nk dA) (hA : o.statA = false) (hf : o.statFirm = false) (hm : o.strict = true) :
    ∃ out w v0, genParams ord srt o dA dS = .ok out ∧ Spec.Perm nl w ∧
      (∀ p x, p.isB = false → dA p = .mat nl nk x → ∃ v, out.1.read p = .mat nl nk v ∧
        ∀ l, (∃ f, Spec.Perm nk f ∧ ∀ k < nk, v l k = x (w l) (f k)) ∧ ∀ k k', k ≤ k' → k' < nk → v l k ≤ v l k') ∧
      (∀ p x, dA p = .vec nk x → ¬ (p = .p2mb ∧ o.endog = false ∨ p = .p3mb ∧ o.state = false) →
        out.1.read p = .vec nk x) ∧
      out.1.read .p12 = .mat nl nk v0 ∧
      (∀ l l', l ≤ l' → l' < nl → (∑ k ∈ range nk, v0 l k) / nk ≤ (∑ k ∈ range nk, v0 l' k) / nk) := by
  obtain ⟨out, hout, hread⟩ := genParams_means ord srt o dA dS hA hf
  have h12 := hd .p12
  simp only [Per.isB, Bool.false_eq_true, if_false] at h12
  obtain ⟨x0, hx0⟩ := h12
  have hs := (sortA_spec ord srt o.strict _ (sep_init dA)).2
  simp only [hm, if_true, true_and, read_init, hx0] at hs hread
  obtain ⟨hw, hw2⟩ := ho nl fun l => (∑ k ∈ range nk, srt nk (x0 l) k) / nk
  have hmat : ∀ p x, p.isB = false → dA p = .mat nl nk x → out.1.read p = .mat nl nk fun l k =>
      srt nk (x (ord nl (fun l => (∑ k ∈ range nk, srt nk (x0 l) k) / nk) l)) k := by
    intro p x hb hp
    rw [hread p (by rintro (⟨rfl, -⟩ | ⟨rfl, -⟩) <;> cases hb), hs, hp, if_pos hb, if_pos hb]
    rfl
  refine ⟨out, _, _, hout, hw, fun p x hb hp => ⟨_, hmat p x hb hp, fun l => hsrt nk _⟩, ?_, hmat _ _ rfl hx0, hw2⟩
  intro p x hp hsw
  have hb : p.isB = true := by
    cases h : p.isB
    · have := hd p
      rw [h] at this
      obtain ⟨y, hy⟩ := this
      rw [hy] at hp; cases hp
    · rfl
  rw [hread p hsw, hs, hp, if_neg (by simp [hb]), if_neg (by simp [hb])]

/-- Sorting functions exist. -/
theorem exists_argsort : ∃ ord, Spec.IsArgsort ord := by
  have h : ∀ (n : ℕ) (x : ℕ → ℝ), ∃ w : ℕ → ℕ, Spec.Perm n w ∧ ∀ a b, a ≤ b → b < n → x (w a) ≤ x (w b) := by
    intro n x
    let σ : Equiv.Perm (Fin n) := Tuple.sort fun a : Fin n => x a
    have hmono : Monotone ((fun a : Fin n => x a) ∘ σ) := Tuple.monotone_sort _
    refine ⟨fun a => if h : a < n then (σ ⟨a, h⟩ : Fin n) else a, ⟨fun a ha => ?_, fun a ha b hb e => ?_⟩,
      fun a b hab hb => ?_⟩
    · simp only [ha, dif_pos]; exact (σ ⟨a, ha⟩).2
    · simp only [ha, hb, dif_pos] at e
      have := σ.injective (Fin.ext e)
      exact congrArg Fin.val this
    · simp only [hab.trans_lt hb, hb, dif_pos]
      exact hmono (show (⟨a, hab.trans_lt hb⟩ : Fin n) ≤ ⟨b, hb⟩ from hab)
  choose ord h1 h2 using h
  exact ⟨ord, fun n x => ⟨h1 n x, h2 n x⟩⟩

theorem exists_sort : ∃ srt, Spec.IsSort srt := by
  obtain ⟨ord, h⟩ := exists_argsort
  exact ⟨fun n x a => x (ord n x a), fun n x => ⟨⟨ord n x, (h n x).1, fun _ _ => rfl⟩, (h n x).2⟩⟩

/-- Non-vacuity: draws of the right shapes, all equal to one. -/
def demoDraw : Per → ND := fun p => if p.isB then .vec 3 fun _ => 1 else .mat 2 3 fun _ _ => 1

example : Spec.Shapes 2 3 demoDraw := by
  intro p
  cases p <;> simp [demoDraw, Per.isB]

/-- Non-vacuity of `C46_stationary_zeroes`: the claim that nothing else changes fails. -/
example : ∃ full out,
    genParams (fun _ _ k => k) (fun _ v => v) ⟨true, false, false, false, true, true⟩ demoDraw demoDraw = .ok full ∧
    genParams (fun _ _ k => k) (fun _ v => v) ⟨true, false, false, false, false, true⟩ demoDraw demoDraw = .ok out ∧
    ¬ Spec.OnlySwitchedOff false true full.1 out.1 := by
  obtain ⟨out, ho, hz, -⟩ := C46_stationary_zeroes (fun _ _ k => k) (fun _ v => v)
    ⟨true, false, false, false, false, true⟩ demoDraw demoDraw rfl (Or.inl rfl)
  refine ⟨_, out, rfl, ho, ?_⟩
  intro h
  have h1 := h .p12
  rw [if_neg (by simp)] at h1
  have h2 := hz rfl .p12
  rw [h1] at h2
  simp only [if_true, Bool.false_eq_true, if_false, switchOff_on, statAll_read] at h2
  rw [(sortA_spec _ _ _ _ (sep_init demoDraw)).2] at h2
  simp only [read_init, demoDraw, Per.isB, Bool.false_eq_true, if_false, false_and, if_true, ND.permRows,
    ND.permCols, Spec.IsZero] at h2
  have := h2 0 0 (by norm_num) (by norm_num)
  exact one_ne_zero this

end Pytwoway.Sim.Dyn
