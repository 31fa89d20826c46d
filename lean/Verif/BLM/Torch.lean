import Mathlib.Logic.Equiv.Fin.Basic
import Verif.BLM.Lemmas

/-! # With and without PyTorch (C112)

`util.py` defines `exp_`, `log_`, `square_` and `logsumexp` twice: with PyTorch if `import torch` succeeds (util.py:208-305),
with NumPy otherwise (util.py:307-370).  Here the shapes of arrays are part of the model, because the two versions differ in
the shapes they return. -/

namespace Pytwoway.BLM.Torch

open Finset

/-! ## Model: arrays with shapes -/

/-- A number, or an array with one or two dimensions: its shape and its entries (those outside the shape are never read).
Used for util.py:210-219 and util.py:238-240, 259-261, 280-282, 303-305. -/
inductive Nd
  | scal (x : ℝ)
  | vec (n : ℕ) (f : ℕ → ℝ)
  | mat (r c : ℕ) (f : ℕ → ℕ → ℝ)

namespace Nd

/-- The shape.  Used for util.py:374-385. -/
def shape : Nd → List ℕ
  | scal _ => []
  | vec n _ => [n]
  | mat r c _ => [r, c]

/-- A function applied to every entry.  Used for util.py:221-282 and util.py:374-385. -/
def map (g : ℝ → ℝ) : Nd → Nd
  | scal x => scal (g x)
  | vec n f => vec n fun i => g (f i)
  | mat r c f => mat r c fun i j => g (f i j)

/-- `a.T`.  Used for blm.py:1415-1416 and blm.py:1458, 2079. -/
def T : Nd → Nd
  | mat r c f => mat c r fun i j => f j i
  | a => a

/-- `a.flatten()`, rows one after the other.  Used for util.py:284-305 and blm.py:1458, 2079. -/
def flatten : Nd → Nd
  | scal x => vec 1 fun _ => x
  | vec n f => vec n f
  | mat r c f => vec (r * c) fun p => f (p / c) (p % c)

/-- The common length of two dimensions under NumPy's broadcasting.  Used for util.py:374-385. -/
def dim (a b : ℕ) : Option ℕ := if a = b then some a else if a = 1 then some b else if b = 1 then some a else none

/-- The index read in a dimension of length `n`.  Used for util.py:374-385. -/
def ix (n i : ℕ) : ℕ := if n = 1 then 0 else i

/-- A binary operation of NumPy, with broadcasting.  Used for util.py:374-385 and util.py:387-393. -/
def bin (op : ℝ → ℝ → ℝ) : Nd → Nd → Py Nd
  | scal x, scal y => .ok (scal (op x y))
  | scal x, vec n g => .ok (vec n fun i => op x (g i))
  | vec n f, scal y => .ok (vec n fun i => op (f i) y)
  | scal x, mat r c g => .ok (mat r c fun i j => op x (g i j))
  | mat r c f, scal y => .ok (mat r c fun i j => op (f i j) y)
  | vec n f, vec m g =>
    match dim n m with
    | some k => .ok (vec k fun i => op (f (ix n i)) (g (ix m i)))
    | none => .error "ValueError"
  | vec n f, mat r c g =>
    match dim n c with
    | some k => .ok (mat r k fun i j => op (f (ix n j)) (g i (ix c j)))
    | none => .error "ValueError"
  | mat r c f, vec n g =>
    match dim c n with
    | some k => .ok (mat r k fun i j => op (f i (ix c j)) (g (ix n j)))
    | none => .error "ValueError"
  | mat r c f, mat r' c' g =>
    match dim r r', dim c c' with
    | some k, some k' => .ok (mat k k' fun i j => op (f (ix r i) (ix c j)) (g (ix r' i) (ix c' j)))
    | _, _ => .error "ValueError"

/-- `a -= b`: an array keeps its shape (`ValueError` if it cannot), a number is replaced.
Used for util.py:374-385 and util.py:387-393. -/
def isub (a b : Nd) : Py Nd :=
  match bin (· - ·) a b with
  | .error e => .error e
  | .ok r =>
    match a with
    | scal _ => .ok r
    | _ => if r.shape = a.shape then .ok r else .error "ValueError"

/-- `a.mean()`.  Used for blm.py:1389-1899 and blm.py:2048-2081. -/
noncomputable def mean : Nd → ℝ
  | scal x => x
  | vec n f => (∑ i ∈ range n, f i) / n
  | mat r c f => (∑ i ∈ range r, ∑ j ∈ range c, f i j) / (r * c)

/-- `a[:, l]`: `IndexError` unless there are two dimensions and the column exists.  Used for blm.py:1512-1513. -/
def col (l : ℕ) : Nd → Py Nd
  | mat r c f => if l < c then .ok (vec r fun i => f i l) else .error "IndexError"
  | _ => .error "IndexError"

/-- `a[G]` for an index array of length `n`.  Used for util.py:387-393. -/
def take (n : ℕ) (G : ℕ → ℕ) : Nd → Py Nd
  | vec _ f => .ok (vec n fun i => f (G i))
  | _ => .error "IndexError"

end Nd

open Nd

/-! ## Model: the helpers -/

/-- `_to_numpy`, util.py:210-219: a number becomes an array with one entry. -/
def toNumpy : Nd → Nd
  | .scal x => .vec 1 fun _ => x
  | a => a

/-- `if len(a) == 1: return a[0]`, util.py:238-240, 259-261, 280-282, 303-305.  `len` of an array without dimensions raises. -/
def unwrap : Nd → Py Nd
  | .scal _ => .error "TypeError"
  | .vec n f => .ok (if n = 1 then .scal (f 0) else .vec n f)
  | .mat r c f => .ok (if r = 1 then .vec c (f 0) else .mat r c f)

/-- `exp_`, `log_` and `square_` for `g` the exponential, logarithm or square; util.py:221-282 with PyTorch, 308-346
without.  (`gpu` only says where PyTorch computes.) -/
def helper (torch : Bool) (g : ℝ → ℝ) (a : Nd) : Py Nd := if torch then unwrap ((toNumpy a).map g) else .ok (a.map g)

/-- `exp_`.  Used for blm.py:1415-1416. -/
noncomputable def exp_ (torch : Bool) : Nd → Py Nd := helper torch Real.exp
/-- `log_`.  Used for util.py:374-385. -/
noncomputable def log_ (torch : Bool) : Nd → Py Nd := helper torch Real.log
/-- `square_`.  Used for util.py:374-385 and util.py:387-393. -/
noncomputable def square_ (torch : Bool) : Nd → Py Nd := helper torch fun x => x ^ 2

/-- `log(sum(exp))` of `c` numbers: `torch.logsumexp`, or util.py:360-370. -/
noncomputable def lse (torch : Bool) (c : ℕ) (g : ℕ → ℝ) : ℝ :=
  if torch then Real.log (∑ l ∈ range c, Real.exp (g l))
  else if h : 0 < c then haveI : Nonempty (Fin c) := ⟨⟨0, h⟩⟩; Util.logsumexp fun l : Fin c => g l
  else 0

/-- `logsumexp(a, axis)` for `axis=1` on two dimensions and for `axis=None`; util.py:284-305 with PyTorch, where
`range(a.shape)` raises for `axis=None`, and 348-370 without.  Dimensions are assumed not to be empty. -/
noncomputable def logsumexp (torch : Bool) (a : Nd) (axis : Option Unit) : Py Nd :=
  match axis, toNumpy a with
  | some _, .mat r c f => if torch then unwrap (.vec r fun i => lse true c (f i)) else .ok (.vec r fun i => lse false c (f i))
  | some _, _ => .error "IndexError"
  | none, b =>
    if torch then .error "TypeError"
    else match b.flatten with
      | .vec n f => .ok (.scal (lse false n f))
      | _ => .error "unreachable"

/-- `lognormpdf`, util.py:374-385. -/
noncomputable def lognormpdf (torch : Bool) (x mu : Nd) (sd var : Option Nd) : Py Nd :=
  match sd, var with
  | some sd, none => do
    let ls ← log_ torch sd
    let res := ls.map fun v => Util.logpi - v
    let num ← square_ torch (← bin (· - ·) x mu)
    let den ← square_ torch sd
    isub res (← bin (· / ·) num (den.map fun v => 2 * v))
  | none, some var => do
    let lv ← log_ torch var
    let res := lv.map fun v => Util.logpi - (1 / 2) * v
    let num ← square_ torch (← bin (· - ·) x mu)
    isub res (← bin (· / ·) num (var.map fun v => 2 * v))
  | _, _ => .error "ValueError"

/-- `fast_lognormpdf`, util.py:387-393, with an index array of length `n`. -/
noncomputable def fastLognormpdf (torch : Bool) (x mu sd : Nd) (n : ℕ) (G : ℕ → ℕ) : Py Nd := do
  let logSd := sd.map Real.log
  let sdSq := sd.map fun v => v ^ 2
  let res := (← take n G logSd).map fun v => Util.logpi - v
  let num ← square_ torch (← bin (· - ·) x (← take n G mu))
  isub res (← bin (· / ·) num ((← take n G sdSq).map fun v => 2 * v))

/-! ## Model: the two loops of `blm.py` -/

variable {ni nl nk : ℕ}

/-- A function on `Fin n` as the entries of an array.  Used for blm.py:1401-1410 and blm.py:1455-1463. -/
def ent {α : Type*} [Zero α] (f : Fin n → α) (i : ℕ) : α := if h : i < n then f ⟨i, h⟩ else 0

/-- A column as an array.  Used for blm.py:1401-1410 and blm.py:1402-1411. -/
def arr (f : Fin n → ℝ) : Nd := .vec n (ent f)

/-- `lp1`, `lp2`: blm.py:1401-1410 for movers and 2031-2044 for stayers. -/
noncomputable def wage (torch : Bool) (d : Data ni nk) (b : Base nl nk) (cs : List (Ctrl ni nl)) (t : Fin 2) (l : Fin nl) :
    Py Nd :=
  if cs.isEmpty then fastLognormpdf torch (arr (d.Y t)) (arr (b.A t l)) (arr (b.S t l)) ni (ent fun i => (d.G t i).val)
  else lognormpdf torch (arr (d.Y t)) (arr fun i => b.A t l (d.G t i) + sumNonA cs t i + sumByA cs l t i) none
    (some (arr fun i => b.S t l (d.G t i) ^ 2 + sumNonS cs t i + sumByS cs l t i))

/-- An array assigned to `lp[:, l]`; NumPy also accepts a number or an array with one entry.
Used for blm.py:1402-1411 and blm.py:2035-2055. -/
def setCol (ni : ℕ) : Nd → Py (ℕ → ℝ)
  | .scal x => .ok fun _ => x
  | .vec n f => if n = ni then .ok f else if n = 1 then .ok fun _ => f 0 else .error "ValueError"
  | _ => .error "ValueError"

/-- `lp` of movers, blm.py:1402-1411. -/
noncomputable def lpM (torch : Bool) (d : Data ni nk) (b : Base nl nk) (cs : List (Ctrl ni nl)) (pk1 : ℕ → Fin nl → ℝ) :
    Py Nd := do
  let cols ← (List.finRange nl).mapM fun l => do
    let lp1 ← wage torch d b cs 0 l
    let lp2 ← wage torch d b cs 1 l
    let a ← bin (· + ·) (arr fun i => Real.log (pk1 (KK d i) l)) (← bin (· * ·) (arr (d.W 0)) lp1)
    setCol ni (← bin (· + ·) a (← bin (· * ·) (arr (d.W 1)) lp2))
  .ok (.mat ni nl fun i l => cols.getD l 0 i)

/-- `lp` of stayers, blm.py:2035-2055; the part `lp_stable`, which the source computes once before the loop, is computed
again in every iteration. -/
noncomputable def lpS (torch : Bool) (d : Data ni nk) (b : Base nl nk) (cs : List (Ctrl ni nl))
    (pk0 : Fin nk → Option (Fin nl → ℝ)) : Py Nd := do
  let cols ← (List.finRange nl).mapM fun l => do
    let lp1 ← wage torch d b cs 0 l
    let stable ← bin (· * ·) (arr (d.W 0)) lp1
    setCol ni (← bin (· + ·) stable (arr fun i => Real.log ((pk0 (d.G 0 i)).getD (fun _ => 1) l)))
  .ok (.mat ni nl fun i l => cols.getD l 0 i)

/-- blm.py:1415-1416 and 2058-2059: `lse_lp` and `qi`. -/
noncomputable def eStep (torch : Bool) (lp : Nd) : Py (Nd × Nd) := do
  let s ← logsumexp torch lp (some ())
  let q ← exp_ torch (← bin (· - ·) lp.T s)
  .ok (s, q.T)

/-- `(W * (qi.T + d_prior - 1)).T.flatten()`, blm.py:1458, 2079; then `np.bincount` compares its length with that of the
index array. -/
noncomputable def flatW (n : ℕ) (W : Nd) (q : Nd) (dprior : ℝ) : Py (ℕ → ℝ) := do
  match (← bin (· * ·) W (q.T.map fun v => v + dprior - 1)).T.flatten with
  | .vec m f => if m = n then .ok f else .error "ValueError"
  | _ => .error "unreachable"

/-- blm.py:1455-1463. -/
noncomputable def pkM (updPk : Bool) (d : Data ni nk) (q : Nd) (dprior : ℝ) (pk1 : ℕ → Fin nl → ℝ) :
    Py (ℕ → Fin nl → ℝ) := do
  if updPk then
    let w ← flatW (ni * nl) (arr (jointW d)) q dprior
    let a := bincount (fun p : Fin (ni * nl) => ent (KK d) (p / nl) + nk ^ 2 * (p % nl)) fun p => w p
    let e : ℕ → Fin nl → ℝ ← if a.len = nl * nk ^ 2 then .ok fun p l => a.val (l.val * nk ^ 2 + p) else .error "ValueError"
    (open scoped Classical in
    if ∃ p < nk ^ 2, ∑ l, e p l = 0 then .error "ValueError"
    else .ok fun p l => 1 / (∑ l', e p l') * e p l)
  else .ok pk1

/-- blm.py:2079-2081. -/
noncomputable def pkS (d : Data ni nk) (q : Nd) (dprior : ℝ) : Py (Fin nk → Option (Fin nl → ℝ)) := do
  let w ← flatW (ni * nl) (arr (d.W 0)) q dprior
  let a := bincount (fun p : Fin (ni * nl) => ent (fun i => (d.G 0 i).val) (p / nl) + nk * (p % nl)) fun p => w p
  let e : Fin nk → Fin nl → ℝ ← if a.len = nl * nk then .ok fun k l => a.val (l.val * nk + k.val) else .error "ValueError"
  (open scoped Classical in
  .ok fun k => if ∑ l, e k l = 0 then none else some fun l => 1 / (∑ l', e k l') * e k l)

/-- The M-step, which reads `qi` as `qi[:, l]` only (blm.py:1512-1513). -/
noncomputable def mstepT (d : Data ni nk) (q : Nd) (b : Base nl nk) (updA updS : Bool) (sA sS : Solver) :
    Py (Base nl nk) := do
  if updA || updS then
    let cols ← (List.finRange nl).mapM fun l : Fin nl => q.col l.val
    mstep d (fun i l => match cols.getD l (.scal 0) with | .vec _ f => f i | _ => 0) b updA updS sA sS
  else .ok b

/-- The loop of `_fit_movers`, blm.py:1389-1899, without controls in the M-step; as `moversLoop`. -/
noncomputable def loopM (torch : Bool) (d : Data ni nk) (o : MoverOpts) (sA sS : Solver)
    (minType : (Fin 2 → Fin nl → Fin nk → ℝ) → ℕ) :
    (fuel : ℕ) → (first : Bool) → (prev : Option ℝ) → (prevMin : ℕ) → MoverState nl nk → Py (MoverState nl nk)
  | 0, _, _, _, s => .ok s
  | fuel + 1, first, prev, prevMin, s => do
    let (ls, q) ← eStep torch (← lpM torch d s.base [] s.pk1)
    let lik := ls.mean +
      if !first && o.updPk then (o.dprior - 1) * ∑ p ∈ range (nk ^ 2), ∑ l, Real.log (s.pk1 p l) else 0
    let m := minType s.base.A
    let s' := { s with liks := s.liks ++ [lik] }
    if stop lik prev o.threshold (m == prevMin) then .ok s'
    else do
      let pk1 ← pkM o.updPk d q o.dprior s.pk1
      let base ← mstepT d q s.base o.updA o.updS sA sS
      loopM torch d o sA sS minType fuel false (some lik) m ⟨base, pk1, s'.liks⟩

/-- What `fit_movers` returns with `return_qi=True` (blm.py:1417-1418): `qi` at the starting values. -/
noncomputable def returnQi (torch : Bool) (d : Data ni nk) (b : Base nl nk) (cs : List (Ctrl ni nl)) (pk1 : ℕ → Fin nl → ℝ) :
    Py Nd := do
  let (_, q) ← eStep torch (← lpM torch d b cs pk1)
  .ok q

/-- The loop of `fit_stayers`, blm.py:2048-2081; as `stayersLoop`. -/
noncomputable def loopS (torch : Bool) (d : Data ni nk) (b : Base nl nk) (cs : List (Ctrl ni nl)) (dprior thr : ℝ) :
    (fuel : ℕ) → (first : Bool) → (prev : Option ℝ) → (Fin nk → Option (Fin nl → ℝ)) →
      List (Option ℝ) → Py ((Fin nk → Option (Fin nl → ℝ)) × List (Option ℝ))
  | 0, _, _, pk0, liks => .ok (pk0, liks)
  | fuel + 1, first, prev, pk0, liks => do
    let (ls, q) ← eStep torch (← lpS torch d b cs pk0)
    let lik : Option ℝ := open scoped Classical in
      if first then some ls.mean
      else if ∃ k, pk0 k = none then none
      else some (ls.mean + (dprior - 1) * ∑ k, ∑ l, Real.log ((pk0 k).getD (fun _ => 1) l))
    if stopStayers lik prev thr then .ok (pk0, liks ++ [lik])
    else do
      let pk0' ← pkS d q dprior
      loopS torch d b cs dprior thr fuel false lik pk0' (liks ++ [lik])

/-! ## Lemmas -/

variable {n r c : ℕ}

/-- An array of length `n` with given entries. -/
def IsVec (a : Nd) (n : ℕ) (F : Fin n → ℝ) : Prop := ∃ f, a = .vec n f ∧ ∀ i : Fin n, f i = F i

/-- An array of length `n` with given entries, or a number standing for an array of length one. -/
def Loose (a : Nd) (n : ℕ) (F : Fin n → ℝ) : Prop := IsVec a n F ∨ (n = 1 ∧ ∃ x, a = .scal x ∧ ∀ i, x = F i)

/-- An array with two dimensions and given entries. -/
def IsMat (a : Nd) (r c : ℕ) (F : Fin r → Fin c → ℝ) : Prop :=
  ∃ f, a = .mat r c f ∧ ∀ (i : Fin r) (j : Fin c), f i j = F i j

theorem arr_vec (F : Fin n → ℝ) : IsVec (arr F) n F := ⟨_, rfl, fun i => by simp [ent]⟩

theorem ent_val {α : Type*} [Zero α] (F : Fin n → α) (i : Fin n) : ent F i = F i := by simp [ent]

theorem dim_self (n : ℕ) : dim n n = some n := by simp [dim]

theorem ix_lt {i : ℕ} (h : i < n) : ix n i = i := by
  unfold ix; split
  · omega
  · rfl

theorem bin_vec (op : ℝ → ℝ → ℝ) {a b : Nd} {F G : Fin n → ℝ} (ha : Loose a n F) (hb : IsVec b n G) :
    ∃ x, bin op a b = .ok x ∧ IsVec x n fun i => op (F i) (G i) := by
  obtain ⟨g, rfl, hg⟩ := hb
  rcases ha with ⟨f, rfl, hf⟩ | ⟨-, x, rfl, hx⟩
  · refine ⟨.vec n fun i => op (f (ix n i)) (g (ix n i)), by simp only [bin, dim_self], _, rfl, fun i => ?_⟩
    simp only [ix_lt i.2, hf, hg]
  · exact ⟨_, rfl, _, rfl, fun i => by simp only [hg, hx i]⟩

theorem bin_loose (op : ℝ → ℝ → ℝ) {a b : Nd} {F G : Fin n → ℝ} (ha : Loose a n F) (hb : Loose b n G) :
    ∃ x, bin op a b = .ok x ∧ Loose x n fun i => op (F i) (G i) := by
  rcases hb with hb | ⟨h1, y, rfl, hy⟩
  · obtain ⟨x, hx, h⟩ := bin_vec op ha hb
    exact ⟨x, hx, .inl h⟩
  · rcases ha with ⟨f, rfl, hf⟩ | ⟨-, x, rfl, hx⟩
    · exact ⟨_, rfl, .inl ⟨_, rfl, fun i => by simp only [hf, hy i]⟩⟩
    · exact ⟨_, rfl, .inr ⟨h1, _, rfl, fun i => by simp only [← hx i, ← hy i]⟩⟩

theorem map_vec (g : ℝ → ℝ) {a : Nd} {F : Fin n → ℝ} (ha : IsVec a n F) : IsVec (a.map g) n fun i => g (F i) := by
  obtain ⟨f, rfl, hf⟩ := ha
  exact ⟨_, rfl, fun i => by simp only [hf]⟩

theorem map_loose (g : ℝ → ℝ) {a : Nd} {F : Fin n → ℝ} (ha : Loose a n F) : Loose (a.map g) n fun i => g (F i) := by
  rcases ha with h | ⟨h1, x, rfl, hx⟩
  · exact .inl (map_vec g h)
  · exact .inr ⟨h1, _, rfl, fun i => congrArg g (hx i)⟩

theorem helper_loose (torch : Bool) (g : ℝ → ℝ) {a : Nd} {F : Fin n → ℝ} (ha : Loose a n F) :
    ∃ x, helper torch g a = .ok x ∧ Loose x n fun i => g (F i) := by
  cases torch
  · exact ⟨_, rfl, map_loose g ha⟩
  · rcases ha with ⟨f, rfl, hf⟩ | ⟨h1, x, rfl, hx⟩
    · by_cases h1 : n = 1
      · subst h1
        exact ⟨_, rfl, .inr ⟨rfl, g (f 0), by simp, fun i => by rw [Subsingleton.elim i 0]; exact congrArg g (hf 0)⟩⟩
      · refine ⟨.vec n fun i => g (f i), by simp [helper, toNumpy, Nd.map, unwrap, h1], .inl ⟨_, rfl, fun i => by simp only [hf]⟩⟩
    · exact ⟨.scal (g x), by simp [helper, toNumpy, Nd.map, unwrap], .inr ⟨h1, _, rfl, fun i => congrArg g (hx i)⟩⟩

theorem isub_vec {a b : Nd} {F G : Fin n → ℝ} (ha : Loose a n F) (hb : IsVec b n G) :
    ∃ x, isub a b = .ok x ∧ IsVec x n fun i => F i - G i := by
  obtain ⟨x, hx, h⟩ := bin_vec (· - ·) ha hb
  refine ⟨x, ?_, h⟩
  rw [isub, hx]
  rcases ha with ⟨f, rfl, hf⟩ | ⟨-, y, rfl, -⟩
  · obtain ⟨f', rfl, -⟩ := h
    simp [shape]
  · rfl

theorem isub_loose {a b : Nd} {F G : Fin n → ℝ} (ha : Loose a n F) (hb : Loose b n G) :
    ∃ x, isub a b = .ok x ∧ Loose x n fun i => F i - G i := by
  rcases hb with hb | ⟨h1, y, rfl, hy⟩
  · obtain ⟨x, hx, h⟩ := isub_vec ha hb
    exact ⟨x, hx, .inl h⟩
  · rcases ha with ⟨f, rfl, hf⟩ | ⟨-, x, rfl, hx⟩
    · exact ⟨_, by simp [isub, bin, shape]; rfl, .inl ⟨_, rfl, fun i => by simp only [hf, hy i]⟩⟩
    · exact ⟨_, rfl, .inr ⟨h1, _, rfl, fun i => by simp only [← hx i, ← hy i]⟩⟩

theorem setCol_loose {a : Nd} {F : Fin n → ℝ} (ha : Loose a n F) : ∃ f, setCol n a = .ok f ∧ ∀ i : Fin n, f i = F i := by
  rcases ha with ⟨f, rfl, hf⟩ | ⟨-, x, rfl, hx⟩
  · exact ⟨f, by simp [setCol], hf⟩
  · exact ⟨_, rfl, hx⟩

theorem mapM_ok {α β : Type*} {f : α → Py β} {g : α → β} (h : ∀ a, f a = .ok (g a)) (l : List α) :
    l.mapM f = .ok (l.map g) := by
  induction l with
  | nil => rfl
  | cons a l ih => rw [List.mapM_cons, h, ih]; rfl

theorem lse_eq (torch : Bool) {c : ℕ} [NeZero c] (g : ℕ → ℝ) (G : Fin c → ℝ) (h : ∀ l : Fin c, g l = G l) :
    lse torch c g = Util.logsumexp G := by
  have hG : (fun l : Fin c => g l) = G := funext h
  unfold lse
  cases torch
  · simp only [Bool.false_eq_true, if_false, dif_pos (NeZero.pos c), hG]
  · rw [if_pos rfl, Util.C04_exact, ← hG, Finset.sum_range]

theorem density_vec (torch : Bool) {x mu var : Nd} {X M V : Fin n → ℝ} (hx : Loose x n X) (hm : Loose mu n M)
    (hv : IsVec var n V) : ∃ a, lognormpdf torch x mu none (some var) = .ok a ∧
      IsVec a n fun i => Util.logpi - (1 / 2) * Real.log (V i) - (X i - M i) ^ 2 / (2 * V i) := by
  obtain ⟨lv, e1, h1⟩ := helper_loose torch Real.log (.inl hv : Loose var n V)
  obtain ⟨df, e2, h2⟩ := bin_loose (· - ·) hx hm
  obtain ⟨num, e3, h3⟩ := helper_loose torch (fun v => v ^ 2) h2
  obtain ⟨q, e4, h4⟩ := bin_vec (· / ·) h3 (map_vec (fun v => 2 * v) hv)
  obtain ⟨a, e5, h5⟩ := isub_vec (map_loose (fun v => Util.logpi - (1 / 2) * v) h1) h4
  refine ⟨a, ?_, h5⟩
  simp only [lognormpdf, log_, square_, bind, Except.bind, e1, e2, e3, e4, e5]

theorem density_sd_vec (torch : Bool) {x mu sd : Nd} {X M V : Fin n → ℝ} (hx : Loose x n X) (hm : Loose mu n M)
    (hv : IsVec sd n V) : ∃ a, lognormpdf torch x mu (some sd) none = .ok a ∧
      Loose a n fun i => Util.logpi - Real.log (V i) - (X i - M i) ^ 2 / (2 * V i ^ 2) := by
  obtain ⟨lv, e1, h1⟩ := helper_loose torch Real.log (.inl hv : Loose sd n V)
  obtain ⟨df, e2, h2⟩ := bin_loose (· - ·) hx hm
  obtain ⟨num, e3, h3⟩ := helper_loose torch (fun v => v ^ 2) h2
  obtain ⟨den, e6, h6⟩ := helper_loose torch (fun v => v ^ 2) (.inl hv : Loose sd n V)
  obtain ⟨q, e4, h4⟩ := bin_loose (· / ·) h3 (map_loose (fun v => 2 * v) h6)
  obtain ⟨a, e5, h5⟩ := isub_loose (map_loose (fun v => Util.logpi - v) h1) h4
  refine ⟨a, ?_, h5⟩
  simp only [lognormpdf, log_, square_, bind, Except.bind, e1, e2, e3, e4, e5, e6]

theorem fast_vec (torch : Bool) {m : ℕ} {x : Nd} {X : Fin n → ℝ} (hx : Loose x n X) (mu sd : Fin m → ℝ) (G : Fin n → Fin m) :
    ∃ a, fastLognormpdf torch x (arr mu) (arr sd) n (ent fun i => (G i).val) = .ok a ∧
      IsVec a n (fun i => Util.logpi - Real.log (sd (G i)) - (X i - mu (G i)) ^ 2 / (2 * sd (G i) ^ 2)) := by
  have tk : ∀ (g : ℝ → ℝ) (F : Fin m → ℝ), IsVec (.vec n fun i => g (ent F (ent (fun i => (G i).val) i))) n fun i => g (F (G i)) :=
    fun g F => ⟨_, rfl, fun i => by rw [ent_val, ent_val]⟩
  obtain ⟨df, e2, h2⟩ := bin_loose (· - ·) hx (.inl (tk (fun v => v) mu))
  obtain ⟨num, e3, h3⟩ := helper_loose torch (fun v => v ^ 2) h2
  obtain ⟨q, e4, h4⟩ := bin_vec (· / ·) h3 (map_vec (fun v => 2 * v) (tk (fun v => v ^ 2) sd))
  obtain ⟨a, e5, h5⟩ := isub_vec (.inl (map_vec (fun v => Util.logpi - v) (tk Real.log sd))) h4
  refine ⟨a, ?_, h5⟩
  simp only [fastLognormpdf, square_, arr, Nd.map, take, bind, Except.bind]
  simp only [Nd.map] at e4 e5
  simp only [e2, e3, e4, e5]

theorem wage_vec (torch : Bool) (d : Data ni nk) (b : Base nl nk) (cs : List (Ctrl ni nl)) (t : Fin 2) (l : Fin nl) :
    ∃ a, wage torch d b cs t l = .ok a ∧ IsVec a ni (lpWage d b cs t l) := by
  unfold wage lpWage
  by_cases h : cs.isEmpty
  · simp only [h, if_true]
    exact fast_vec torch (.inl (arr_vec _)) _ _ _
  · simp only [h]
    exact density_vec torch (.inl (arr_vec _)) (.inl (arr_vec _)) (arr_vec _)

theorem mapM_cols {f : Fin nl → Py (ℕ → ℝ)} {F : Fin ni → Fin nl → ℝ}
    (h : ∀ l, ∃ g, f l = .ok g ∧ ∀ i : Fin ni, g i = F i l) :
    ∃ cols, (List.finRange nl).mapM f = .ok cols ∧ ∀ (i : Fin ni) (l : Fin nl), cols.getD l 0 i = F i l := by
  choose g h1 h2 using h
  refine ⟨_, mapM_ok h1 _, fun i l => ?_⟩
  rw [← h2 l i]
  simp [List.getD]

theorem lpM_mat (torch : Bool) (d : Data ni nk) (b : Base nl nk) (cs : List (Ctrl ni nl)) (pk1 : ℕ → Fin nl → ℝ) :
    ∃ a, lpM torch d b cs pk1 = .ok a ∧ IsMat a ni nl (lpMovers d b cs pk1) := by
  obtain ⟨cols, hc, h⟩ := mapM_cols (F := lpMovers d b cs pk1) (f := fun l => do
    let lp1 ← wage torch d b cs 0 l
    let lp2 ← wage torch d b cs 1 l
    let a ← bin (· + ·) (arr fun i => Real.log (pk1 (KK d i) l)) (← bin (· * ·) (arr (d.W 0)) lp1)
    setCol ni (← bin (· + ·) a (← bin (· * ·) (arr (d.W 1)) lp2))) fun l => by
      obtain ⟨a1, e1, h1⟩ := wage_vec torch d b cs 0 l
      obtain ⟨a2, e2, h2⟩ := wage_vec torch d b cs 1 l
      obtain ⟨a3, e3, h3⟩ := bin_vec (· * ·) (.inl (arr_vec (d.W 0))) h1
      obtain ⟨a4, e4, h4⟩ := bin_vec (· + ·) (.inl (arr_vec fun i => Real.log (pk1 (KK d i) l))) h3
      obtain ⟨a5, e5, h5⟩ := bin_vec (· * ·) (.inl (arr_vec (d.W 1))) h2
      obtain ⟨a6, e6, h6⟩ := bin_vec (· + ·) (.inl h4) h5
      obtain ⟨g, e7, h7⟩ := setCol_loose (.inl h6)
      exact ⟨g, by simp only [bind, Except.bind, e1, e2, e3, e4, e5, e6, e7], h7⟩
  refine ⟨.mat ni nl fun i l => cols.getD l 0 i, ?_, _, rfl, h⟩
  rw [lpM, hc]; rfl

theorem lpS_mat (torch : Bool) (d : Data ni nk) (b : Base nl nk) (cs : List (Ctrl ni nl))
    (pk0 : Fin nk → Option (Fin nl → ℝ)) : ∃ a, lpS torch d b cs pk0 = .ok a ∧ IsMat a ni nl (lpStayers d b cs pk0) := by
  obtain ⟨cols, hc, h⟩ := mapM_cols (F := lpStayers d b cs pk0) (f := fun l => do
    let lp1 ← wage torch d b cs 0 l
    let stable ← bin (· * ·) (arr (d.W 0)) lp1
    setCol ni (← bin (· + ·) stable (arr fun i => Real.log ((pk0 (d.G 0 i)).getD (fun _ => 1) l)))) fun l => by
      obtain ⟨a1, e1, h1⟩ := wage_vec torch d b cs 0 l
      obtain ⟨a3, e3, h3⟩ := bin_vec (· * ·) (.inl (arr_vec (d.W 0))) h1
      obtain ⟨a6, e6, h6⟩ := bin_vec (· + ·) (.inl h3) (arr_vec fun i => Real.log ((pk0 (d.G 0 i)).getD (fun _ => 1) l))
      obtain ⟨g, e7, h7⟩ := setCol_loose (.inl h6)
      exact ⟨g, by simp only [bind, Except.bind, e1, e3, e6, e7], h7⟩
  refine ⟨.mat ni nl fun i l => cols.getD l 0 i, ?_, _, rfl, h⟩
  rw [lpS, hc]; rfl

theorem mean_loose {a : Nd} {F : Fin n → ℝ} (h : Loose a n F) : a.mean = (∑ i, F i) / n := by
  rcases h with ⟨f, rfl, hf⟩ | ⟨rfl, x, rfl, hx⟩
  · rw [Nd.mean, Finset.sum_range]; simp only [hf]
  · simp [Nd.mean, hx 0]

theorem eStep_ok (torch : Bool) [NeZero nl] {a : Nd} {F : Fin ni → Fin nl → ℝ} (ha : IsMat a ni nl F) :
    ∃ s q, eStep torch a = .ok (s, q) ∧ Loose s ni (fun i => Util.logsumexp (F i)) ∧
      ((torch = false ∨ nl ≠ 1) → IsMat q ni nl (posterior F)) ∧
      ((torch = true ∧ nl = 1) → IsVec q ni fun i => posterior F i 0) := by
  obtain ⟨f, rfl, hf⟩ := ha
  have hl : ∀ i : Fin ni, lse torch nl (f i) = Util.logsumexp (F i) := fun i => lse_eq torch _ _ (hf i)
  obtain ⟨s, e1, h1⟩ : ∃ s, logsumexp torch (.mat ni nl f) (some ()) = .ok s ∧
      Loose s ni (fun i => Util.logsumexp (F i)) := by
    cases torch
    · exact ⟨_, rfl, .inl ⟨_, rfl, hl⟩⟩
    · by_cases h : ni = 1
      · subst h
        exact ⟨.scal (lse true nl (f 0)), rfl, .inr ⟨rfl, _, rfl, fun i => by rw [Subsingleton.elim i 0]; exact hl 0⟩⟩
      · exact ⟨_, by simp [logsumexp, toNumpy, unwrap, h]; rfl, .inl ⟨_, rfl, hl⟩⟩
  obtain ⟨x, e2, g, rfl, hg⟩ : ∃ x, bin (· - ·) (Nd.T (.mat ni nl f)) s = .ok x ∧
      IsMat x nl ni fun l i => F i l - Util.logsumexp (F i) := by
    rcases h1 with ⟨g, rfl, hg⟩ | ⟨-, y, rfl, hy⟩
    · exact ⟨.mat nl ni fun l i => f (ix ni i) l - g (ix ni i), by simp only [Nd.T, bin, dim_self], _, rfl, fun l i => by
        simp only [ix_lt i.2, hf, hg]⟩
    · exact ⟨_, rfl, _, rfl, fun l i => by simp only [hf, hy i]⟩
  refine ⟨s, ?_⟩
  by_cases h : torch = true ∧ nl = 1
  · obtain ⟨rfl, rfl⟩ := h
    refine ⟨.vec ni fun i => Real.exp (g 0 i), ?_, h1, fun h => by simp at h, fun _ => ⟨_, rfl, fun i => ?_⟩⟩
    · simp only [eStep, bind, Except.bind, e1, e2]; rfl
    · exact congrArg Real.exp (hg 0 i)
  · refine ⟨.mat ni nl fun i l => Real.exp (g l i), ?_, h1, fun _ => ⟨_, rfl, fun i l => congrArg Real.exp (hg l i)⟩,
      fun h' => absurd h' h⟩
    simp only [eStep, bind, Except.bind, e1, e2]
    cases torch
    · rfl
    · have : nl ≠ 1 := fun h' => h ⟨rfl, h'⟩
      simp [exp_, helper, toNumpy, Nd.map, unwrap, this, Nd.T]

/-- The posterior in whatever shape. -/
def Holds (q : Nd) (Q : Fin ni → Fin nl → ℝ) : Prop :=
  IsMat q ni nl Q ∨ (nl = 1 ∧ ∃ f, q = .vec ni f ∧ ∀ i l, f (i : Fin ni).val = Q i l)

theorem flatW_ok {q : Nd} {Q : Fin ni → Fin nl → ℝ} (h : Holds q Q) (W : Fin ni → ℝ) (dp : ℝ) :
    ∃ f, flatW (ni * nl) (arr W) q dp = .ok f ∧
      ∀ (i : Fin ni) (l : Fin nl), f (l + nl * i) = W i * (Q i l + dp - 1) := by
  rcases h with ⟨f, rfl, hf⟩ | ⟨rfl, f, rfl, hf⟩
  · refine ⟨fun p => ent W (ix ni (p / nl)) * (f (ix ni (p / nl)) (p % nl) + dp - 1), by
      simp only [flatW, arr, Nd.T, Nd.map, bin, dim_self, bind, Except.bind, Nd.flatten, if_true], fun i l => ?_⟩
    have h1 : (l + nl * i : ℕ) / nl = i := by
      rw [Nat.add_mul_div_left _ _ l.pos, Nat.div_eq_of_lt l.2, zero_add]
    have h2 : (l + nl * i : ℕ) % nl = l := by rw [Nat.add_mul_mod_self_left, Nat.mod_eq_of_lt l.2]
    simp only [h1, h2, ix_lt i.2, ent_val, hf]
  · refine ⟨fun i => ent W (ix ni i) * (f (ix ni i) + dp - 1), by
      simp only [flatW, arr, Nd.T, Nd.map, bin, dim_self, bind, Except.bind, Nd.flatten, mul_one, if_true],
      fun i l => ?_⟩
    have h1 : (l + 1 * i : ℕ) = i := by omega
    simp only [h1, ix_lt i.2, ent_val, hf i l]

theorem bincount_prod (idx : Fin ni × Fin nl → ℕ) (w : Fin ni × Fin nl → ℝ) (idx' : ℕ → ℕ) (w' : ℕ → ℝ)
    (hi : ∀ (i : Fin ni) (l : Fin nl), idx' (l + nl * i) = idx (i, l))
    (hw : ∀ (i : Fin ni) (l : Fin nl), w' (l + nl * i) = w (i, l)) :
    bincount (fun p : Fin (ni * nl) => idx' p) (fun p => w' p) = bincount idx w := by
  have e1 : idx = fun x => idx' (finProdFinEquiv x) := funext fun x => (hi x.1 x.2).symm
  have e2 : w = fun x => w' (finProdFinEquiv x) := funext fun x => (hw x.1 x.2).symm
  rw [e1, e2]
  unfold bincount
  congr 1
  · apply le_antisymm
    · refine Finset.sup_le fun p _ => ?_
      have := Finset.le_sup (f := fun x : Fin ni × Fin nl => idx' (finProdFinEquiv x) + 1)
        (Finset.mem_univ (finProdFinEquiv.symm p))
      rwa [Equiv.apply_symm_apply] at this
    · exact Finset.sup_le fun x _ =>
        Finset.le_sup (f := fun p : Fin (ni * nl) => idx' p + 1) (Finset.mem_univ (finProdFinEquiv x))
  · funext v
    exact (Equiv.sum_comp finProdFinEquiv fun p : Fin (ni * nl) => if idx' p = v then w' p else 0).symm

theorem idx_div (i : Fin ni) (l : Fin nl) : (l + nl * i : ℕ) / nl = i ∧ (l + nl * i : ℕ) % nl = l := by
  refine ⟨?_, by rw [Nat.add_mul_mod_self_left, Nat.mod_eq_of_lt l.2]⟩
  rw [Nat.add_mul_div_left _ _ l.pos, Nat.div_eq_of_lt l.2, zero_add]

theorem pkM_eq (updPk : Bool) (d : Data ni nk) {q : Nd} {Q : Fin ni → Fin nl → ℝ} (h : Holds q Q) (dp : ℝ)
    (pk1 : ℕ → Fin nl → ℝ) : pkM updPk d q dp pk1 = nextPk1 updPk d Q dp pk1 := by
  unfold pkM nextPk1
  cases updPk
  · rfl
  · obtain ⟨w, e, hw⟩ := flatW_ok h (jointW d) dp
    have hb := bincount_prod (fun x : Fin ni × Fin nl => KK d x.1 + nk ^ 2 * x.2.val)
      (fun x => jointW d x.1 * (Q x.1 x.2 + dp - 1)) (fun p => ent (KK d) (p / nl) + nk ^ 2 * (p % nl)) w
      (fun i l => by simp only [idx_div, ent_val]) hw
    simp only [if_true, bind, Except.bind, e, updatePk1, sumPk1, hb]
    split_ifs <;> simp_all

theorem pkS_eq (d : Data ni nk) {q : Nd} {Q : Fin ni → Fin nl → ℝ} (h : Holds q Q) (dp : ℝ) :
    pkS (nl := nl) d q dp = updatePk0 d Q dp := by
  unfold pkS
  obtain ⟨w, e, hw⟩ := flatW_ok h (d.W 0) dp
  have hb := bincount_prod (fun x : Fin ni × Fin nl => (d.G 0 x.1).val + nk * x.2.val)
    (fun x => d.W 0 x.1 * (Q x.1 x.2 + dp - 1)) (fun p => ent (fun i => (d.G 0 i).val) (p / nl) + nk * (p % nl)) w
    (fun i l => by simp only [idx_div, ent_val]) hw
  simp only [bind, Except.bind, e, updatePk0, sumPk0, hb]
  split_ifs <;> rfl

theorem mstepT_eq (d : Data ni nk) {q : Nd} {Q : Fin ni → Fin nl → ℝ} (h : IsMat q ni nl Q) (b : Base nl nk)
    (updA updS : Bool) (sA sS : Solver) : mstepT d q b updA updS sA sS = mstep d Q b updA updS sA sS := by
  obtain ⟨f, rfl, hf⟩ := h
  unfold mstepT
  cases hu : updA || updS
  · unfold mstep; rw [hu]; rfl
  · have := mapM_ok (f := fun l : Fin nl => Nd.col l (.mat ni nl f)) (g := fun l : Fin nl => .vec ni fun i => f i l)
      (fun l => by simp [Nd.col]) (List.finRange nl)
    simp only [if_true, bind, Except.bind, this]
    congr 1
    funext i l
    rw [← hf i l]
    simp [List.getD]

end Pytwoway.BLM.Torch
