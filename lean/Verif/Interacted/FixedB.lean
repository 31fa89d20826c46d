import Verif.Interacted.FixedPoint
import Mathlib.LinearAlgebra.Matrix.Notation
import Mathlib.Logic.Relation
import Mathlib.Order.ConditionallyCompleteLattice.Finset

/-! # The fixed-point estimator of the slopes: C69

`pytwoway/blm_interacted.py`, `_fit_b_fixed_point` (469-707). -/

namespace Pytwoway.Interacted

open Finset

/-- Collapsed data without returns: the wage of each worker at each firm, if any, and its weight (1 if
the estimator is unweighted).  `returns` is `not jdata.no_returns`.
Used for blm_interacted.py:584-607 and blm_interacted.py:633-651. -/
structure Spells (nf nw : ℕ) where
  y : Fin nw → Fin nf → Option ℝ
  w : Fin nw → Fin nf → ℝ
  returns : Bool

/-- The parameters `how_split`, `alternative_estimator`, `weight_firm_pairs`, blm_interacted.py:73-86. -/
inductive How | income | enterExit
deriving DecidableEq

/-- Options of the fixed-point method, blm_interacted.py:616-629 and blm_interacted.py:637-654. -/
structure FPOpts where
  how : How
  alternative : Bool
  weightPairs : Bool

variable {nf nw : ℕ}

/-- The workers with observations at both firms, in the order of the rows, blm_interacted.py:584-607.
`ord` lists the workers in row order: by mean wage if `how_split='income'` (549-559), by id otherwise.
Simplification: a worker's rows stay together (with equal mean wages pandas may interleave them). -/
def both (d : Spells nf nw) (ord : List (Fin nw)) (j1 j2 : Fin nf) : List (Fin nw) :=
  ord.filter fun i => (d.y i j1).isSome && (d.y i j2).isSome

/-- The entering and exiting groups of a pair, blm_interacted.py:616-629.  `coin` is the binomial draw
for an odd number of workers; `first i j1 j2` is whether worker `i` was at `j2` before `j1`. -/
def splitPair (o : FPOpts) (coin : Fin nf → Fin nf → Bool)
    (first : Fin nw → Fin nf → Fin nf → Bool) (L : List (Fin nw)) (j1 j2 : Fin nf) :
    List (Fin nw) × List (Fin nw) :=
  match o.how with
  | .income =>
    let halfway := if L.length % 2 = 0 then L.length / 2
      else L.length / 2 + if coin j1 j2 then 1 else 0
    (L.take halfway, L.drop halfway)
  | .enterExit => (L.filter fun i => first i j1 j2, L.filter fun i => !first i j1 j2)

/-- The weighted mean wage at firm `j` of a group, blm_interacted.py:633-651. -/
noncomputable def gmean (d : Spells nf nw) (L : List (Fin nw)) (j : Fin nf) : ℝ :=
  (L.map fun i => d.w i j * (d.y i j).getD 0).sum / (L.map fun i => d.w i j).sum

/-- `w1` or `w2`: the weight of a pair at one of its firms, blm_interacted.py:637-654. -/
noncomputable def pairWeight (o : FPOpts) (d : Spells nf nw) (E X : List (Fin nw)) (j : Fin nf) : ℝ :=
  if o.weightPairs then (E.map fun i => d.w i j).sum + (X.map fun i => d.w i j).sum else 1

/-- A run's random and ordering inputs.  Used for blm_interacted.py:608 and blm_interacted.py:655-673. -/
structure FPIn (nf nw : ℕ) where
  ord : List (Fin nw)
  coin : Fin nf → Fin nf → Bool
  first : Fin nw → Fin nf → Fin nf → Bool

/-- The groups of the pair `j1 < j2`.  Used for blm_interacted.py:608 and blm_interacted.py:655-673. -/
def groups (o : FPOpts) (d : Spells nf nw) (x : FPIn nf nw) (j1 j2 : Fin nf) :
    List (Fin nw) × List (Fin nw) :=
  splitPair o x.coin x.first (both d x.ord j1 j2) j1 j2

/-- Whether the pair `j1 < j2` contributes, blm_interacted.py:608 and 630. -/
def used (o : FPOpts) (d : Spells nf nw) (x : FPIn nf nw) (j1 j2 : Fin nf) : Prop :=
  2 ≤ (both d x.ord j1 j2).length ∧ (groups o d x j1 j2).1 ≠ [] ∧ (groups o d x j1 j2).2 ≠ []

open scoped Classical in
/-- `M0`, blm_interacted.py:655-673. -/
noncomputable def M0 (o : FPOpts) (d : Spells nf nw) (x : FPIn nf nw) (r c : Fin nf) : ℝ :=
  if r < c ∧ used o d x r c then
    let g := groups o d x r c
    pairWeight o d g.1 g.2 r * (gmean d g.1 r - gmean d g.2 r)
  else if c < r ∧ used o d x c r then
    let g := groups o d x c r
    (if o.alternative then -1 else 1) *
      (pairWeight o d g.1 g.2 r * (gmean d g.2 r - gmean d g.1 r))
  else 0

/-- `S0`, blm_interacted.py:674-676. -/
noncomputable def S0 (o : FPOpts) (d : Spells nf nw) (x : FPIn nf nw) (c : Fin nf) : ℝ :=
  (if o.alternative then -1 else 1) * -∑ r, M0 o d x r c

/-- `lhs`, blm_interacted.py:679. -/
noncomputable def lhs (o : FPOpts) (d : Spells nf nw) (x : FPIn nf nw) (r c : Fin nf) : ℝ :=
  1 / S0 o d x r * M0 o d x r c

/-- `eigs(lhs, k=1, sigma=1)` and its fallback, blm_interacted.py:693-701: an eigenvector for the
eigenvalue nearest to 1.  Only what happens when 1 is an eigenvalue is specified. -/
abbrev EigNear1 (nf : ℕ) := (Fin nf → Fin nf → ℝ) → Fin nf → ℝ

def EigNear1.Right (e : EigNear1 nf) : Prop :=
  ∀ M : Fin nf → Fin nf → ℝ, (∃ v : Fin nf → ℝ, v ≠ 0 ∧ ∀ r, ∑ c, M r c * v c = v r) →
    e M ≠ 0 ∧ ∀ r, ∑ c, M r c * e M c = e M r

open scoped Classical in
/-- `_fit_b_fixed_point`, blm_interacted.py:469-707.  A firm in some pair with `S0 = 0` makes entries of
`lhs` infinite or undefined, and a zero first entry makes the normalised vector so. -/
noncomputable def fitB (o : FPOpts) (d : Spells (nf + 1) nw) (x : FPIn (nf + 1) nw)
    (e : EigNear1 (nf + 1)) : Py (Fin (nf + 1) → ℝ) :=
  if d.returns then .error "ValueError"
  else if ∃ r, S0 o d x r = 0 ∧ ∃ c, (r < c ∧ used o d x r c) ∨ (c < r ∧ used o d x c r) then
    .error "nonfinite"
  else
    let v := e (lhs o d x)
    if v 0 = 0 then .error "nonfinite" else .ok fun j => v j / v 0

/-! ## Specification -/

/-- Wages are exactly `a[j] + b[j] * alpha[i]`. -/
def Spec.Noiseless (d : Spells nf nw) (a b : Fin nf → ℝ) (α : Fin nw → ℝ) : Prop :=
  ∀ i j v, d.y i j = some v → v = a j + b j * α i

/-- Every observation of a worker has the same positive weight (in particular, no weights). -/
def Spec.WorkerWeights (d : Spells nf nw) : Prop :=
  ∃ ω : Fin nw → ℝ, (∀ i, 0 < ω i) ∧ ∀ i j, d.w i j = ω i

/-- Two firms are linked if at least two workers worked at both. -/
def Spec.Shared (d : Spells nf nw) (j1 j2 : Fin nf) : Prop :=
  j1 ≠ j2 ∧ ∃ i i', i ≠ i' ∧ (d.y i j1).isSome ∧ (d.y i j2).isSome ∧
    (d.y i' j1).isSome ∧ (d.y i' j2).isSome

/-! ## Lemmas -/

theorem groups_sub (o : FPOpts) (d : Spells nf nw) (x : FPIn nf nw) (j1 j2 : Fin nf) :
    (∀ i ∈ (groups o d x j1 j2).1, i ∈ both d x.ord j1 j2) ∧
    (∀ i ∈ (groups o d x j1 j2).2, i ∈ both d x.ord j1 j2) := by
  unfold groups splitPair
  cases o.how
  · exact ⟨fun i h => List.mem_of_mem_take h, fun i h => List.mem_of_mem_drop h⟩
  · exact ⟨fun i h => (List.mem_filter.mp h).1, fun i h => (List.mem_filter.mp h).1⟩

theorem both_some (d : Spells nf nw) (ord : List (Fin nw)) (j1 j2 : Fin nf) (i : Fin nw)
    (h : i ∈ both d ord j1 j2) : (d.y i j1).isSome ∧ (d.y i j2).isSome := by
  have := (List.mem_filter.mp h).2
  simpa using this

theorem sum_pos_of_ne_nil {ω : Fin nw → ℝ} (hω : ∀ i, 0 < ω i) :
    ∀ L : List (Fin nw), L ≠ [] → 0 < (L.map ω).sum
  | [], h => absurd rfl h
  | [i], _ => by simpa using hω i
  | i :: k :: L, _ => by
    have := sum_pos_of_ne_nil hω (k :: L) (by simp)
    rw [List.map_cons, List.sum_cons]
    linarith [hω i]

/-- The weighted mean of the worker effects of a group. -/
noncomputable def amean (ω : Fin nw → ℝ) (α : Fin nw → ℝ) (L : List (Fin nw)) : ℝ :=
  (L.map fun i => ω i * α i).sum / (L.map ω).sum

theorem gmean_noiseless (d : Spells nf nw) (a b : Fin nf → ℝ) (α ω : Fin nw → ℝ)
    (hn : Spec.Noiseless d a b α) (hω : ∀ i, 0 < ω i) (hw : ∀ i j, d.w i j = ω i)
    (L : List (Fin nw)) (hL : L ≠ []) (j : Fin nf) (hs : ∀ i ∈ L, (d.y i j).isSome) :
    gmean d L j = a j + b j * amean ω α L := by
  have hpos := sum_pos_of_ne_nil hω L hL
  have e1 : (L.map fun i => d.w i j) = L.map ω := List.map_congr_left fun i _ => hw i j
  have e2 : (L.map fun i => d.w i j * (d.y i j).getD 0) = L.map fun i => a j * ω i + b j * (ω i * α i) := by
    refine List.map_congr_left fun i hi => ?_
    obtain ⟨v, hv⟩ := Option.isSome_iff_exists.mp (hs i hi)
    rw [hv, hn i j v hv, hw]
    simp only [Option.getD_some]
    ring
  rw [gmean, amean, e1, e2, List.sum_map_add, List.sum_map_mul_left, List.sum_map_mul_left]
  field_simp

/-- The antisymmetric (symmetric if `alternative`) matrix with `M0 r c = b r * Delta r c`. -/
theorem M0_eq (o : FPOpts) (d : Spells nf nw) (x : FPIn nf nw) (a b : Fin nf → ℝ) (α ω : Fin nw → ℝ)
    (hn : Spec.Noiseless d a b α) (hω : ∀ i, 0 < ω i) (hw : ∀ i j, d.w i j = ω i) (r c : Fin nf) :
    (r < c → used o d x r c → M0 o d x r c = b r * (pairWeight o d (groups o d x r c).1
      (groups o d x r c).2 r * (amean ω α (groups o d x r c).1 - amean ω α (groups o d x r c).2)) ∧
      M0 o d x c r = (if o.alternative then 1 else -1) * (b c * (pairWeight o d (groups o d x r c).1
      (groups o d x r c).2 r * (amean ω α (groups o d x r c).1 - amean ω α (groups o d x r c).2)))) := by
  intro hlt hu
  obtain ⟨s1, s2⟩ := groups_sub o d x r c
  have g1 := fun j (hj : ∀ i ∈ (groups o d x r c).1, (d.y i j).isSome) =>
    gmean_noiseless d a b α ω hn hω hw _ hu.2.1 j hj
  have g2 := fun j (hj : ∀ i ∈ (groups o d x r c).2, (d.y i j).isSome) =>
    gmean_noiseless d a b α ω hn hω hw _ hu.2.2 j hj
  have hpw : pairWeight o d (groups o d x r c).1 (groups o d x r c).2 c =
      pairWeight o d (groups o d x r c).1 (groups o d x r c).2 r := by
    simp only [pairWeight, hw]
  constructor
  · unfold M0
    rw [if_pos ⟨hlt, hu⟩]
    dsimp only
    rw [g1 r fun i hi => (both_some d _ _ _ i (s1 i hi)).1,
      g2 r fun i hi => (both_some d _ _ _ i (s2 i hi)).1]
    ring
  · unfold M0
    rw [if_neg (fun h => absurd h.1 (not_lt.mpr hlt.le)), if_pos ⟨hlt, hu⟩]
    dsimp only
    rw [g1 c fun i hi => (both_some d _ _ _ i (s1 i hi)).2,
      g2 c fun i hi => (both_some d _ _ _ i (s2 i hi)).2, hpw]
    split <;> ring

theorem M0_zero (o : FPOpts) (d : Spells nf nw) (x : FPIn nf nw) (r c : Fin nf)
    (h1 : ¬(r < c ∧ used o d x r c)) (h2 : ¬(c < r ∧ used o d x c r)) : M0 o d x r c = 0 := by
  unfold M0
  rw [if_neg h1, if_neg h2]

/-- The reciprocity behind the estimator: `b c * M0 r c = ± b r * M0 c r`. -/
theorem M0_recip (o : FPOpts) (d : Spells nf nw) (x : FPIn nf nw) (a b : Fin nf → ℝ) (α ω : Fin nw → ℝ)
    (hn : Spec.Noiseless d a b α) (hω : ∀ i, 0 < ω i) (hw : ∀ i j, d.w i j = ω i) (r c : Fin nf) :
    M0 o d x r c * b c = (if o.alternative then 1 else -1) * (b r * M0 o d x c r) := by
  by_cases h1 : r < c ∧ used o d x r c
  · obtain ⟨e1, e2⟩ := M0_eq o d x a b α ω hn hω hw r c h1.1 h1.2
    rw [e1, e2]
    split <;> ring
  · by_cases h2 : c < r ∧ used o d x c r
    · obtain ⟨e1, e2⟩ := M0_eq o d x a b α ω hn hω hw c r h2.1 h2.2
      rw [e1, e2]
      split <;> ring
    · rw [M0_zero o d x r c h1 h2, M0_zero o d x c r h2 h1]
      simp

theorem lhs_fixed (o : FPOpts) (d : Spells nf nw) (x : FPIn nf nw) (a b : Fin nf → ℝ) (α : Fin nw → ℝ)
    (hn : Spec.Noiseless d a b α) (hww : Spec.WorkerWeights d) (hS : ∀ r, S0 o d x r ≠ 0) (r : Fin nf) :
    ∑ c, lhs o d x r c * b c = b r := by
  obtain ⟨ω, hω, hw⟩ := hww
  have : ∑ c, lhs o d x r c * b c = 1 / S0 o d x r * (b r * S0 o d x r) := by
    unfold lhs
    rw [S0, ← sum_neg_distrib, mul_sum, mul_sum, mul_sum]
    refine sum_congr rfl fun c _ => ?_
    rw [mul_assoc, M0_recip o d x a b α ω hn hω hw r c]
    split <;> ring
  rw [this]
  have := hS r
  field_simp

/-- C69 (partial): with wages exactly `a[j] + b[j] * alpha[i]` and weights that do not differ between a
worker's observations, the slopes are a fixed point of the estimated system, and if they are its only
fixed point up to scale the estimator returns them relative to the first firm's.  Fails for weights that
do differ (`C69_weighted_wrong`). -/
theorem C69_recovers_partial (o : FPOpts) (d : Spells (nf + 1) nw) (x : FPIn (nf + 1) nw)
    (e : EigNear1 (nf + 1)) (he : e.Right) (a b : Fin (nf + 1) → ℝ) (α : Fin nw → ℝ)
    (hn : Spec.Noiseless d a b α) (hww : Spec.WorkerWeights d) (hr : d.returns = false)
    (hS : ∀ r, S0 o d x r ≠ 0) (hb : b 0 ≠ 0)
    (hid : ∀ v : Fin (nf + 1) → ℝ, (∀ r, ∑ c, lhs o d x r c * v c = v r) → ∃ k : ℝ, v = fun j => k * b j) :
    fitB o d x e = .ok fun j => b j / b 0 := by
  obtain ⟨hne, hfix⟩ := he (lhs o d x) ⟨b, fun h => hb (congrFun h 0), lhs_fixed o d x a b α hn hww hS⟩
  obtain ⟨k, hk⟩ := hid _ hfix
  have hk0 : k ≠ 0 := by
    rintro rfl
    exact hne (by rw [hk]; funext j; simp)
  unfold fitB
  rw [if_neg (by simp [hr]), if_neg (fun ⟨r, h, _⟩ => hS r h)]
  dsimp only
  rw [hk]
  dsimp only
  rw [if_neg (mul_ne_zero hk0 hb)]
  congr 1
  funext j
  field_simp

/-- C69: data with returns is rejected. -/
theorem C69_rejects_returns (o : FPOpts) (d : Spells (nf + 1) nw) (x : FPIn (nf + 1) nw)
    (e : EigNear1 (nf + 1)) (hr : d.returns = true) : fitB o d x e = .error "ValueError" := by
  unfold fitB
  rw [if_pos hr]

/-! ### The default estimator identifies the slopes -/

theorem amean_lt {ω α : Fin nw → ℝ} (hω : ∀ i, 0 < ω i) (L L' : List (Fin nw)) (hL : L ≠ []) (hL' : L' ≠ [])
    (h : ∀ i ∈ L, ∀ i' ∈ L', α i < α i') : amean ω α L < amean ω α L' := by
  have p1 := sum_pos_of_ne_nil hω L hL
  have p2 := sum_pos_of_ne_nil hω L' hL'
  unfold amean
  rw [div_lt_div_iff₀ p1 p2]
  -- double sum
  have key : ∀ (L : List (Fin nw)), L ≠ [] → (∀ i ∈ L, ∀ i' ∈ L', α i < α i') →
      (L.map fun i => ω i * α i).sum * (L'.map ω).sum < (L'.map fun i => ω i * α i).sum * (L.map ω).sum := by
    have one : ∀ i, ∀ L' : List (Fin nw), L' ≠ [] → (∀ i' ∈ L', α i < α i') →
        ω i * α i * (L'.map ω).sum < (L'.map fun i => ω i * α i).sum * ω i := by
      intro i L'
      induction L' with
      | nil => intro h; exact absurd rfl h
      | cons k t ih =>
        intro _ hk
        have h1 : ω i * ω k * α i < ω i * ω k * α k :=
          mul_lt_mul_of_pos_left (hk k (by simp)) (mul_pos (hω i) (hω k))
        rcases eq_or_ne t [] with rfl | ht
        · simp only [List.map_cons, List.map_nil, List.sum_cons, List.sum_nil, add_zero]
          linarith
        · have := ih ht fun i' hi' => hk i' (by simp [hi'])
          simp only [List.map_cons, List.sum_cons]
          nlinarith
    intro L
    induction L with
    | nil => intro h; exact absurd rfl h
    | cons k t ih =>
      intro _ hk
      have h1 := one k L' hL' fun i' hi' => hk k (by simp) i' hi'
      rcases eq_or_ne t [] with rfl | ht
      · simp only [List.map_cons, List.map_nil, List.sum_cons, List.sum_nil, add_zero]
        linarith
      · have := ih ht fun i hi i' hi' => hk i (by simp [hi]) i' hi'
        simp only [List.map_cons, List.sum_cons]
        nlinarith
  exact key L hL h

/-- With the income split every pair sharing two workers is used. -/
theorem used_income (o : FPOpts) (ho : o.how = .income) (d : Spells nf nw) (x : FPIn nf nw)
    (j1 j2 : Fin nf) : used o d x j1 j2 ↔ 2 ≤ (both d x.ord j1 j2).length := by
  refine ⟨fun h => h.1, fun h => ⟨h, ?_⟩⟩
  unfold groups splitPair
  rw [ho]
  dsimp only
  set L := both d x.ord j1 j2
  set hw := if L.length % 2 = 0 then L.length / 2 else L.length / 2 + if x.coin j1 j2 then 1 else 0 with hh
  have hb : 1 ≤ hw ∧ hw < L.length := by
    rw [hh]
    split
    · omega
    · split <;> omega
  constructor
  · intro h0
    have := congrArg List.length h0
    rw [List.length_take, List.length_nil] at this
    omega
  · intro h0
    have := congrArg List.length h0
    rw [List.length_drop, List.length_nil] at this
    omega

theorem shared_length (d : Spells nf nw) (ord : List (Fin nw)) (hnd : ord.Nodup) (hall : ∀ i, i ∈ ord)
    (j1 j2 : Fin nf) (hs : Spec.Shared d j1 j2) : 2 ≤ (both d ord j1 j2).length := by
  obtain ⟨_, i, i', hne, h1, h2, h3, h4⟩ := hs
  have hnd' : (both d ord j1 j2).Nodup := hnd.filter _
  have m1 : i ∈ both d ord j1 j2 := List.mem_filter.mpr ⟨hall i, by simp [h1, h2]⟩
  have m2 : i' ∈ both d ord j1 j2 := List.mem_filter.mpr ⟨hall i', by simp [h3, h4]⟩
  by_contra hlt
  push Not at hlt
  match hL : both d ord j1 j2, m1, m2, hlt with
  | [], m1, _, _ => simp at m1
  | [k], m1, m2, _ => simp at m1 m2; exact hne (m1.trans m2.symm)
  | _ :: _ :: _, _, _, h => simp at h

/-- The sign of `M0` off the diagonal under the default estimator. -/
theorem M0_neg (o : FPOpts) (ho : o.how = .income) (halt : o.alternative = true) (d : Spells nf nw)
    (x : FPIn nf nw) (a b : Fin nf → ℝ) (α ω : Fin nw → ℝ) (hn : Spec.Noiseless d a b α)
    (hω : ∀ i, 0 < ω i) (hw : ∀ i j, d.w i j = ω i) (hb : ∀ j, 0 < b j)
    (hsort : x.ord.Pairwise fun i i' => α i < α i') (r c : Fin nf) :
    M0 o d x r c ≤ 0 ∧ ((r < c ∧ used o d x r c) ∨ (c < r ∧ used o d x c r) → M0 o d x r c < 0) := by
  have hd : ∀ j1 j2, used o d x j1 j2 →
      pairWeight o d (groups o d x j1 j2).1 (groups o d x j1 j2).2 j1 *
      (amean ω α (groups o d x j1 j2).1 - amean ω α (groups o d x j1 j2).2) < 0 := by
    intro j1 j2 hu
    refine mul_neg_of_pos_of_neg ?_ (sub_neg.mpr ?_)
    · unfold pairWeight
      split
      · simp only [hw]
        exact add_pos (sum_pos_of_ne_nil hω _ hu.2.1) (sum_pos_of_ne_nil hω _ hu.2.2)
      · exact one_pos
    · refine amean_lt hω _ _ hu.2.1 hu.2.2 ?_
      have hp : (both d x.ord j1 j2).Pairwise fun i i' => α i < α i' := hsort.filter _
      unfold groups splitPair
      rw [ho]
      dsimp only
      generalize (if (both d x.ord j1 j2).length % 2 = 0 then (both d x.ord j1 j2).length / 2 else _) = m
      rw [← List.take_append_drop m (both d x.ord j1 j2), List.pairwise_append] at hp
      exact hp.2.2
  by_cases h1 : r < c ∧ used o d x r c
  · obtain ⟨e1, _⟩ := M0_eq o d x a b α ω hn hω hw r c h1.1 h1.2
    have : M0 o d x r c < 0 := by
      rw [e1]; exact mul_neg_of_pos_of_neg (hb r) (hd r c h1.2)
    exact ⟨this.le, fun _ => this⟩
  · by_cases h2 : c < r ∧ used o d x c r
    · obtain ⟨_, e2⟩ := M0_eq o d x a b α ω hn hω hw c r h2.1 h2.2
      have : M0 o d x r c < 0 := by
        rw [e2, halt, if_pos rfl, one_mul]; exact mul_neg_of_pos_of_neg (hb r) (hd c r h2.2)
      exact ⟨this.le, fun _ => this⟩
    · rw [M0_zero o d x r c h1 h2]
      exact ⟨le_rfl, fun h => absurd h (not_or.mpr ⟨h1, h2⟩)⟩

/-- C69: with the default settings (split by income, alternative estimator), exact wages with positive
slopes, worker effects ordered as the mean wages the workers are sorted by, weights that do not differ
between a worker's observations, and firms connected through pairs sharing at least two workers, the
estimator returns every firm's slope relative to the first firm's, whatever the coin flips. -/
theorem C69_default_recovers (o : FPOpts) (ho : o.how = .income) (halt : o.alternative = true)
    (d : Spells (nf + 1) nw) (x : FPIn (nf + 1) nw) (e : EigNear1 (nf + 1)) (he : e.Right)
    (a b : Fin (nf + 1) → ℝ) (α : Fin nw → ℝ) (hn : Spec.Noiseless d a b α)
    (hww : Spec.WorkerWeights d) (hr : d.returns = false) (hb : ∀ j, 0 < b j)
    (hall : ∀ i, i ∈ x.ord) (hsort : x.ord.Pairwise fun i i' => α i < α i') (hnf : 1 ≤ nf)
    (hconn : ∀ j j', Relation.ReflTransGen (Spec.Shared d) j j') :
    fitB o d x e = .ok fun j => b j / b 0 := by
  have hww' := hww
  obtain ⟨ω, hω, hw⟩ := hww'
  have hneg := M0_neg o ho halt d x a b α ω hn hω hw hb hsort
  have hnd : x.ord.Nodup := hsort.imp fun h => by rintro rfl; exact lt_irrefl _ h
  have hshared : ∀ r c, Spec.Shared d r c → M0 o d x r c < 0 := by
    intro r c hs
    refine (hneg r c).2 ?_
    rcases lt_or_gt_of_ne hs.1 with h | h
    · exact .inl ⟨h, (used_income o ho d x r c).mpr (shared_length d _ hnd hall _ _ hs)⟩
    · refine .inr ⟨h, (used_income o ho d x c r).mpr (shared_length d _ hnd hall _ _ ?_)⟩
      obtain ⟨h0, i, i', h1, h2, h3, h4, h5⟩ := hs
      exact ⟨h0.symm, i, i', h1, h3, h2, h5, h4⟩
  have hrec := M0_recip o d x a b α ω hn hω hw
  simp only [halt, if_true, one_mul] at hrec
  have hSb : ∀ r, S0 o d x r = ∑ k, M0 o d x k r := by
    intro r; unfold S0; rw [halt]; simp
  -- every firm has a partner
  have hpart : ∀ r, ∃ c, Spec.Shared d c r := by
    intro r
    have : ∃ r' : Fin (nf + 1), r' ≠ r := by
      have : Nontrivial (Fin (nf + 1)) := Fin.nontrivial_iff_two_le.mpr (by omega)
      exact exists_ne r
    obtain ⟨r', hr'⟩ := this
    rcases (Relation.ReflTransGen.cases_tail (hconn r' r)) with h | ⟨c, _, h⟩
    · exact absurd h.symm hr'
    · exact ⟨c, h⟩
  have hS : ∀ r, S0 o d x r < 0 := by
    intro r
    obtain ⟨c, hc⟩ := hpart r
    rw [hSb]
    exact sum_neg' (fun k _ => (hneg k r).1) ⟨c, mem_univ _, hshared c r hc⟩
  refine C69_recovers_partial o d x e he a b α hn hww hr (fun r => (hS r).ne) (hb 0).ne' ?_
  intro v hv
  -- maximum principle for u = v / b
  obtain ⟨m, _, hm⟩ := exists_max_image univ (fun j => v j / b j) ⟨(0 : Fin (nf + 1)), mem_univ _⟩
  have hstep : ∀ r, v r / b r = v m / b m → ∀ c, Spec.Shared d r c → v c / b c = v m / b m := by
    intro r hrm c hs
    have h1 : ∑ k, M0 o d x r k * v k = S0 o d x r * v r := by
      have := hv r
      simp only [lhs] at this
      rw [← this, mul_sum]
      refine sum_congr rfl fun k _ => ?_
      have := (hS r).ne
      field_simp
    have h2 : ∑ k, M0 o d x r k * b k = S0 o d x r * b r := by
      rw [hSb, sum_mul]
      refine sum_congr rfl fun k _ => ?_
      rw [hrec r k]; ring
    have h3 : ∑ k, -(M0 o d x r k * b k) * (v m / b m - v k / b k) = 0 := by
      have : ∀ k, -(M0 o d x r k * b k) * (v m / b m - v k / b k) =
          M0 o d x r k * v k - M0 o d x r k * b k * (v m / b m) := by
        intro k
        have := (hb k).ne'
        field_simp
        ring
      simp only [this, sum_sub_distrib, ← sum_mul]
      rw [h1, h2, ← hrm]
      have := (hb r).ne'
      field_simp
      ring
    have hnn : ∀ k ∈ univ, 0 ≤ -(M0 o d x r k * b k) * (v m / b m - v k / b k) := by
      intro k _
      refine mul_nonneg ?_ (sub_nonneg.mpr (hm k (mem_univ _)))
      have := mul_nonpos_of_nonpos_of_nonneg (hneg r k).1 (hb k).le
      linarith
    have := (sum_eq_zero_iff_of_nonneg hnn).mp h3 c (mem_univ _)
    rcases mul_eq_zero.mp this with h | h
    · have := mul_neg_of_neg_of_pos (hshared r c hs) (hb c)
      linarith
    · linarith
  have hallm : ∀ j, v j / b j = v m / b m := by
    intro j
    have := hconn m j
    induction this with
    | refl => rfl
    | tail _ hs ih => exact hstep _ ih _ hs
  refine ⟨v m / b m, ?_⟩
  funext j
  rw [← hallm j]
  have := (hb j).ne'
  field_simp

/-! ### Examples -/

/-- Four workers, each at both firms, with worker effects 0, 1, 2, 3 and the wage `a[j] + b[j] * alpha`
for given intercepts and slopes. -/
noncomputable def exSpells (a b : Fin 2 → ℝ) (w : Fin 4 → Fin 2 → ℝ) : Spells 2 4 where
  y i j := some (a j + b j * i.val)
  w := w
  returns := false

/-- Workers in order of their mean wages. -/
def exIn : FPIn 2 4 := ⟨[0, 1, 2, 3], fun _ _ => false, fun _ _ _ => false⟩

/-- Non-vacuity of `C69_default_recovers`: slopes 2 and 6 give the estimate 1 and 3. -/
example (e : EigNear1 2) (he : e.Right) :
    fitB ⟨.income, true, false⟩ (exSpells ![5, 1] ![2, 6] fun _ _ => 1) exIn e =
      .ok fun j => (![2, 6] : Fin 2 → ℝ) j / 2 := by
  have := C69_default_recovers (nf := 1) ⟨.income, true, false⟩ rfl rfl
    (exSpells ![5, 1] ![2, 6] fun _ _ => 1) exIn e he ![5, 1] ![2, 6] (fun i => i.val)
    (by intro i j v h; cases h; rfl) ⟨fun _ => 1, fun _ => one_pos, fun _ _ => rfl⟩ rfl
    (by intro j; fin_cases j <;> norm_num)
    (by intro i; fin_cases i <;> simp [exIn]) (by simp [exIn]) le_rfl
    (by
      intro j j'
      by_cases h : j = j'
      · rw [h]
      · exact .single ⟨h, 0, 1, by decide, rfl, rfl, rfl, rfl⟩)
  simpa using this

/-- C69 (wrong with weights): with exact wages equal to the worker effect at both firms but one weight
differing between a worker's two observations, the default estimator returns 7/8 for the second firm's
relative slope, which is 1. -/
theorem C69_weighted_wrong (e : EigNear1 2) (he : e.Right) :
    ∃ d : Spells 2 4, Spec.Noiseless d (fun _ => 0) (fun _ => 1) (fun i => i.val) ∧
      (∀ i j, 0 < d.w i j) ∧ d.returns = false ∧
      ∃ B, fitB ⟨.income, true, false⟩ d exIn e = .ok B ∧ B 1 = 7 / 8 := by
  set d := exSpells (fun _ => 0) (fun _ => 1) (fun i j => if i = 1 ∧ j = 1 then 3 else 1) with hd
  refine ⟨d, by intro i j v h; cases h; rfl, ?_, rfl, ?_⟩
  · intro i j
    simp only [hd, exSpells]
    split <;> norm_num
  set o : FPOpts := ⟨.income, true, false⟩ with ho
  have hboth : both d exIn.ord 0 1 = [0, 1, 2, 3] := by
    simp [both, hd, exSpells, exIn]
  have hg : groups o d exIn 0 1 = ([0, 1], [2, 3]) := by
    unfold groups
    rw [hboth]
    rfl
  have hu : used o d exIn 0 1 := by
    unfold used
    rw [hboth, hg]
    simp
  have m01 : M0 o d exIn 0 1 = -2 := by
    unfold M0
    rw [if_pos ⟨by decide, hu⟩, hg]
    simp [gmean, pairWeight, ho, hd, exSpells]
    norm_num
  have m10 : M0 o d exIn 1 0 = -(7 / 4) := by
    unfold M0
    rw [if_neg (fun h => absurd h.1 (by decide)), if_pos ⟨by decide, hu⟩, hg]
    simp [gmean, pairWeight, ho, hd, exSpells]
    norm_num
  have m00 : M0 o d exIn 0 0 = 0 := M0_zero _ _ _ _ _ (fun h => absurd h.1 (by decide)) (fun h => absurd h.1 (by decide))
  have m11 : M0 o d exIn 1 1 = 0 := M0_zero _ _ _ _ _ (fun h => absurd h.1 (by decide)) (fun h => absurd h.1 (by decide))
  have s0 : S0 o d exIn 0 = -(7 / 4) := by
    rw [S0, Fin.sum_univ_two, m00, m10, if_pos rfl]; norm_num
  have s1 : S0 o d exIn 1 = -2 := by
    rw [S0, Fin.sum_univ_two, m11, m01, if_pos rfl]; norm_num
  obtain ⟨hne, hfix⟩ := he (lhs o d exIn) ⟨![8, 7], fun h => by simpa using congrFun h 0, by
    intro r
    fin_cases r <;> simp [lhs, Fin.sum_univ_two, s0, s1, m00, m01, m10, m11] <;> norm_num⟩
  have f1 := hfix 1
  rw [Fin.sum_univ_two, show lhs o d exIn 1 0 = 7 / 8 by rw [lhs, s1, m10]; norm_num,
    show lhs o d exIn 1 1 = 0 by rw [lhs, m11, mul_zero]] at f1
  have h01 : e (lhs o d exIn) 1 = 7 / 8 * e (lhs o d exIn) 0 := by
    linarith
  have hv0 : e (lhs o d exIn) 0 ≠ 0 := by
    intro h0
    apply hne
    funext j
    fin_cases j
    · exact h0
    · show e (lhs o d exIn) 1 = 0
      rw [h01, h0, mul_zero]
  refine ⟨fun j => e (lhs o d exIn) j / e (lhs o d exIn) 0, ?_, ?_⟩
  · unfold fitB
    rw [if_neg (by simp [hd, exSpells]), if_neg]
    · dsimp only
      rw [if_neg hv0]
    · rintro ⟨r, hr, _⟩
      fin_cases r
      · exact absurd hr (by rw [show (⟨0, _⟩ : Fin 2) = 0 from rfl]; rw [s0]; norm_num)
      · exact absurd hr (by rw [show (⟨1, _⟩ : Fin 2) = 1 from rfl]; rw [s1]; norm_num)
  · show e (lhs o d exIn) 1 / e (lhs o d exIn) 0 = _
    rw [h01]
    field_simp

end Pytwoway.Interacted
