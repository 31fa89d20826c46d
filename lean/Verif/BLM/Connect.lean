import Mathlib.Analysis.Matrix.Spectrum
import Mathlib.Analysis.SpecialFunctions.Pow.Real
import Mathlib.LinearAlgebra.FiniteDimensional.Basic
import Mathlib.LinearAlgebra.Matrix.Charpoly.Basic
import Mathlib.Data.List.Sort
import Verif.BLM.Realloc

/-! # Connectedness (`compute_connectedness_measure`) and C50 -/

namespace Pytwoway.BLM

open Finset Matrix

variable {nl nk n : ℕ}

/-! ## Model -/

/-- `np.linalg.eig`: the list of eigenvalues, in any order.  The external routine is a parameter.
Used for blm.py:2225-2237 and blm.py:2221-2237. -/
structure Eig where
  evals : {n : ℕ} → Matrix (Fin n) (Fin n) ℝ → List ℝ

/-- An `eig` that is right on symmetric matrices: it lists the roots of the characteristic polynomial
with multiplicity. -/
def Eig.Right (e : Eig) : Prop :=
  ∀ (n : ℕ) (M : Matrix (Fin n) (Fin n) ℝ), M.IsHermitian → (e.evals M : Multiset ℝ) = M.charpoly.roots

/-- blm.py:2222-2223 `pr`, at worker type `l`: the flow `NNm[a, b]` times the reshaped `pk1[a, b]`, which
is row `a * nk + b`. -/
def Props.pr (p : Props nl nk) (l : Fin nl) (a b : Fin nk) : ℝ := (p.NNm a b : ℝ) * p.reshaped a b l

/-- blm.py:2227-2229: scale to total one and symmetrise. -/
noncomputable def adjacency (F : Fin nk → Fin nk → ℝ) (a b : Fin nk) : ℝ :=
  (F a b / (∑ a', ∑ b', F a' b') + F b a / (∑ a', ∑ b', F a' b')) / 2

/-- blm.py:2230-2231: `np.eye(nk) - D @ A @ D` with `D = diag(rowsum ** (-0.5))`. -/
noncomputable def laplacian (A : Fin nk → Fin nk → ℝ) : Matrix (Fin nk) (Fin nk) ℝ :=
  let D : Matrix (Fin nk) (Fin nk) ℝ := Matrix.diagonal fun a => (∑ b, A a b) ^ (-(1 / 2) : ℝ)
  1 - D * Matrix.of A * D

open scoped Classical in
/-- `sorted(evals)[1]`.  Used for blm.py:2225-2237. -/
noncomputable def sortedSecond (ev : List ℝ) : Py ℝ :=
  match (ev.mergeSort fun a b => decide (a ≤ b))[1]? with
  | some v => .ok v
  | none => .error "IndexError"

open scoped Classical in
/-- blm.py:2225-2237 for one worker type, given its flows.  A zero total gives `NaN`, a firm type
without flows gives `inf * 0 = NaN`; `np.linalg.eig` raises `LinAlgError` on either. -/
noncomputable def evOf (e : Eig) (F : Fin nk → Fin nk → ℝ) : Py ℝ :=
  if (∑ a, ∑ b, F a b = 0) ∨ ∃ a, ∑ b, adjacency F a b = 0 then .error "LinAlgError"
  else sortedSecond (e.evals (laplacian (adjacency F)))

/-- `EV` of blm.py:2221-2237. -/
noncomputable def evs (e : Eig) (p : Props nl nk) : Py (List ℝ) :=
  (List.finRange nl).mapM fun l => evOf e (p.pr l)

/-- `np.abs(EV).min()`.  Used for blm.py:2213-2241. -/
noncomputable def minAbs : List ℝ → Py ℝ
  | [] => .error "ValueError"
  | v :: vs => .ok (vs.foldl (fun m x => min m |x|) |v|)

/-- What is stored in `connectedness`: a number or a vector.  Used for blm.py:2213-2241. -/
inductive Stored
  | scalar (c : ℝ)
  | vector (v : List ℝ)

/-- `compute_connectedness_measure`, blm.py:2213-2241: the attribute after the call.  Line 2240 assigns
the vector if `all`, line 2241 then assigns the minimum in either case.  The method of the dynamic model,
blm_dynamic.py:3842-3870, has the same text. -/
noncomputable def connectedness (e : Eig) (all : Bool) (p : Props nl nk) : Py Stored := do
  let ev ← evs e p
  let _first := if all then some (Stored.vector ev) else none
  let m ← minAbs ev
  .ok (.scalar m)

/-! ## Specification -/

/-- `v` is the second smallest eigenvalue of `M`, counted with multiplicity. -/
def Spec.IsSecondSmallest (M : Matrix (Fin n) (Fin n) ℝ) (v : ℝ) : Prop :=
  ∃ (a : ℝ) (rest : Multiset ℝ), M.charpoly.roots = a ::ₘ v ::ₘ rest ∧ a ≤ v ∧ ∀ r ∈ rest, v ≤ r

/-- The number of movers of worker type `l` from `a` to `b` the model expects. -/
def Spec.flow (p : Props nl nk) (l : Fin nl) (a b : Fin nk) : ℝ :=
  (p.NNm a b : ℝ) * p.pk1 (a.val + nk * b.val) l

/-- Normalised Laplacian of the undirected graph whose weights are the mean flows in both directions
(a zero row sum, excluded below, would make it meaningless). -/
noncomputable def Spec.normLaplacian (F : Fin nk → Fin nk → ℝ) : Matrix (Fin nk) (Fin nk) ℝ :=
  fun a b => (if a = b then 1 else 0) -
    ((F a b + F b a) / 2) / (√(∑ c, (F a c + F c a) / 2) * √(∑ c, (F b c + F c b) / 2))

/-- Firm types linked by flows in either direction, directly or through others. -/
def Spec.Linked (F : Fin nk → Fin nk → ℝ) (a b : Fin nk) : Prop :=
  Relation.ReflTransGen (fun a b => 0 < F a b ∨ 0 < F b a) a b

/-- Every firm type can be reached from every other one. -/
def Spec.Connected (F : Fin nk → Fin nk → ℝ) : Prop := ∀ a b, Spec.Linked F a b

/-! ## Laplacians of symmetric graphs -/

section graph

variable (W : Fin n → Fin n → ℝ)

/-- Degrees. -/
def deg (a : Fin n) : ℝ := ∑ b, W a b

variable {W}

theorem laplacian_apply (hd : ∀ a, 0 < deg W a) (a b : Fin n) :
    laplacian W a b = (if a = b then 1 else 0) - W a b / (√(deg W a) * √(deg W b)) := by
  have e : ∀ a, (∑ b, W a b) ^ (-(1 / 2) : ℝ) = (√(deg W a))⁻¹ := by
    intro a
    change deg W a ^ (-(1 / 2) : ℝ) = _
    rw [Real.rpow_neg (hd a).le, Real.sqrt_eq_rpow]
  simp only [laplacian, Matrix.sub_apply, Matrix.one_apply, Matrix.diagonal_mul, Matrix.mul_diagonal,
    Matrix.of_apply, e]
  rw [mul_assoc, mul_comm (W a b), ← mul_assoc, ← mul_inv, mul_comm, div_eq_mul_inv]

theorem laplacian_symm (hW : ∀ a b, W a b = W b a) : (laplacian W).IsHermitian := by
  ext a b
  rw [Matrix.conjTranspose_apply, star_trivial]
  simp only [laplacian, Matrix.sub_apply, Matrix.one_apply, Matrix.diagonal_mul, Matrix.mul_diagonal,
    Matrix.of_apply, hW b a, eq_comm (a := b)]
  ring

theorem laplacian_mulVec (hd : ∀ a, 0 < deg W a) (z : Fin n → ℝ) (a : Fin n) :
    (laplacian W *ᵥ fun a => √(deg W a) * z a) a =
      (∑ b, W a b * (z a - z b)) / √(deg W a) := by
  have hs : ∀ a, √(deg W a) ≠ 0 := fun a => (Real.sqrt_pos.mpr (hd a)).ne'
  have h1 : ∀ b, laplacian W a b * (√(deg W b) * z b) =
      (if a = b then √(deg W b) * z b else 0) - W a b * z b / √(deg W a) := by
    intro b
    rw [laplacian_apply hd, sub_mul]
    congr 1
    · split <;> simp
    · have := hs b; have := hs a
      field_simp
  simp only [Matrix.mulVec, dotProduct, h1, sum_sub_distrib, sum_ite_eq, mem_univ, if_true]
  rw [← sum_div, eq_div_iff (hs a), sub_mul, div_mul_cancel₀ _ (hs a)]
  simp only [mul_sub, sum_sub_distrib, ← sum_mul]
  rw [mul_right_comm, Real.mul_self_sqrt (hd a).le]
  rfl

theorem quad_form (hW : ∀ a b, W a b = W b a) (hd : ∀ a, 0 < deg W a) (z : Fin n → ℝ) :
    (∑ a, (√(deg W a) * z a) * (laplacian W *ᵥ fun a => √(deg W a) * z a) a) =
      (∑ a, ∑ b, W a b * (z a - z b) ^ 2) / 2 := by
  have hs : ∀ a, √(deg W a) ≠ 0 := fun a => (Real.sqrt_pos.mpr (hd a)).ne'
  have h1 : ∀ a, (√(deg W a) * z a) * (laplacian W *ᵥ fun a => √(deg W a) * z a) a =
      ∑ b, W a b * (z a * (z a - z b)) := by
    intro a
    rw [laplacian_mulVec hd, mul_comm (√(deg W a)), mul_assoc, mul_div_cancel₀ _ (hs a), mul_sum]
    exact sum_congr rfl fun b _ => by ring
  simp only [h1]
  have h2 : ∑ a, ∑ b, W a b * (z a * (z a - z b)) = ∑ a, ∑ b, W a b * (z b * (z b - z a)) := by
    rw [sum_comm]
    exact sum_congr rfl fun a _ => sum_congr rfl fun b _ => by rw [hW]
  rw [eq_div_iff two_ne_zero, mul_two]
  nth_rewrite 2 [h2]
  rw [← sum_add_distrib]
  refine sum_congr rfl fun a _ => ?_
  rw [← sum_add_distrib]
  exact sum_congr rfl fun b _ => by ring

/-- Vectors killed by the Laplacian are, up to scaling by degrees, constant along edges. -/
theorem kernel_iff (hW : ∀ a b, W a b = W b a) (h0 : ∀ a b, 0 ≤ W a b) (hd : ∀ a, 0 < deg W a)
    (z : Fin n → ℝ) :
    laplacian W *ᵥ (fun a => √(deg W a) * z a) = 0 ↔ ∀ a b, 0 < W a b → z a = z b := by
  constructor
  · intro h a b hab
    have := quad_form hW hd z
    rw [h] at this
    simp only [Pi.zero_apply, mul_zero, sum_const_zero] at this
    have h2 : ∑ a, ∑ b, W a b * (z a - z b) ^ 2 = 0 := by linarith
    rw [sum_eq_zero_iff_of_nonneg fun a _ => sum_nonneg fun b _ => mul_nonneg (h0 a b) (sq_nonneg _)] at h2
    have h3 := h2 a (mem_univ a)
    rw [sum_eq_zero_iff_of_nonneg fun b _ => mul_nonneg (h0 a b) (sq_nonneg _)] at h3
    have h4 := h3 b (mem_univ b)
    rcases mul_eq_zero.mp h4 with h | h
    · exact absurd h hab.ne'
    · exact sub_eq_zero.mp (pow_eq_zero_iff (two_ne_zero)|>.mp h)
  · intro h
    funext a
    rw [laplacian_mulVec hd]
    have : ∑ b, W a b * (z a - z b) = 0 := by
      refine sum_eq_zero fun b _ => ?_
      rcases (h0 a b).lt_or_eq with hab | hab
      · rw [h a b hab, sub_self, mul_zero]
      · rw [← hab, zero_mul]
    rw [this, zero_div]; rfl

/-- Two firm types joined by a path of positive weights. -/
def Path (W : Fin n → Fin n → ℝ) (a b : Fin n) : Prop := Relation.ReflTransGen (fun a b => 0 < W a b) a b

theorem kernel_connected (hW : ∀ a b, W a b = W b a) (h0 : ∀ a b, 0 ≤ W a b) (hd : ∀ a, 0 < deg W a)
    [NeZero n] (hc : ∀ a b, Path W a b) :
    Module.finrank ℝ (LinearMap.ker (laplacian W).mulVecLin) ≤ 1 := by
  have hs : ∀ a, √(deg W a) ≠ 0 := fun a => (Real.sqrt_pos.mpr (hd a)).ne'
  have h1 : laplacian W *ᵥ (fun a => √(deg W a) * (fun _ => (1 : ℝ)) a) = 0 :=
    (kernel_iff hW h0 hd _).mpr fun _ _ _ => rfl
  refine finrank_le_one ⟨_, LinearMap.mem_ker.mpr h1⟩ ?_
  rintro ⟨x, hx⟩
  rw [LinearMap.mem_ker] at hx
  have hxz : x = fun a => √(deg W a) * (fun a => x a / √(deg W a)) a := by
    funext a; exact (mul_div_cancel₀ (x a) (hs a)).symm
  have hx' : laplacian W *ᵥ (fun a => √(deg W a) * (fun a => x a / √(deg W a)) a) = 0 := by
    rw [← hxz]; exact hx
  have hz := (kernel_iff hW h0 hd _).mp hx'
  have hconst : ∀ a b, Path W a b → x a / √(deg W a) = x b / √(deg W b) := by
    intro a b h
    induction h with
    | refl => rfl
    | tail _ h ih => exact ih.trans (hz _ _ h)
  refine ⟨x 0 / √(deg W 0), ?_⟩
  ext a
  simp only [SetLike.mk_smul_mk, Pi.smul_apply, smul_eq_mul, mul_one]
  rw [hconst 0 a (hc 0 a), div_mul_cancel₀ _ (hs a)]

theorem kernel_disconnected (hW : ∀ a b, W a b = W b a) (h0 : ∀ a b, 0 ≤ W a b)
    (hd : ∀ a, 0 < deg W a) (a0 b0 : Fin n) (hc : ¬ Path W a0 b0) :
    2 ≤ Module.finrank ℝ (LinearMap.ker (laplacian W).mulVecLin) := by
  classical
  by_contra hlt
  push Not at hlt
  have hle : Module.finrank ℝ (LinearMap.ker (laplacian W).mulVecLin) ≤ 1 := by omega
  rw [finrank_le_one_iff] at hle
  obtain ⟨⟨v, hv⟩, hall⟩ := hle
  have hs : ∀ a, √(deg W a) ≠ 0 := fun a => (Real.sqrt_pos.mpr (hd a)).ne'
  have h1 : laplacian W *ᵥ (fun a => √(deg W a) * (fun _ => (1 : ℝ)) a) = 0 :=
    (kernel_iff hW h0 hd _).mpr fun _ _ _ => rfl
  have h2 : laplacian W *ᵥ (fun a => √(deg W a) * (fun a => if Path W a0 a then (1 : ℝ) else 0) a) = 0 := by
    refine (kernel_iff hW h0 hd _).mpr fun a b hab => ?_
    have : Path W a0 a ↔ Path W a0 b :=
      ⟨fun h => h.tail hab, fun h => h.tail (by rw [hW]; exact hab)⟩
    simp only [this]
  obtain ⟨c1, e1⟩ := hall ⟨_, LinearMap.mem_ker.mpr h1⟩
  obtain ⟨c2, e2⟩ := hall ⟨_, LinearMap.mem_ker.mpr h2⟩
  simp only [SetLike.mk_smul_mk, Subtype.mk.injEq] at e1 e2
  have e1b := congrFun e1 b0
  have e2b := congrFun e2 b0
  have e2a := congrFun e2 a0
  have hrefl : Path W a0 a0 := Relation.ReflTransGen.refl
  simp only [Pi.smul_apply, smul_eq_mul, mul_one, if_neg hc, if_pos hrefl, mul_zero] at e1b e2b e2a
  rcases mul_eq_zero.mp e2b with h | h
  · rw [h, zero_mul] at e2a; exact hs a0 e2a.symm
  · rw [h, mul_zero] at e1b; exact hs b0 e1b.symm

/-- Number of zero eigenvalues. -/
theorem count_zero (hW : ∀ a b, W a b = W b a) (hd : ∀ a, 0 < deg W a) :
    (laplacian W).charpoly.roots.count 0 =
      Module.finrank ℝ (LinearMap.ker (laplacian W).mulVecLin) := by
  classical
  have hH := laplacian_symm hW
  have hroots : (laplacian W).charpoly.roots = Multiset.map hH.eigenvalues univ.val := by
    simpa using hH.roots_charpoly_eq_eigenvalues
  have hrank := hH.rank_eq_card_non_zero_eigs
  have hrn := LinearMap.finrank_range_add_finrank_ker (laplacian W).mulVecLin
  have h1 : Module.finrank ℝ (LinearMap.range (laplacian W).mulVecLin) = (laplacian W).rank := rfl
  rw [h1, hrank] at hrn
  simp only [Module.finrank_fintype_fun_eq_card, Fintype.card_fin] at hrn
  rw [hroots, Multiset.count_map]
  have h2 : Multiset.card (Multiset.filter (fun a => 0 = hH.eigenvalues a) (univ : Finset (Fin n)).val) =
      Fintype.card {i // ¬ hH.eigenvalues i ≠ 0} := by
    rw [Fintype.card_subtype]
    simp only [not_not]
    rw [Finset.card_def, Finset.filter_val]
    congr 1
    exact Multiset.filter_congr fun _ _ => eq_comm
  rw [h2]
  have h3 := Fintype.card_subtype_compl (fun i => hH.eigenvalues i ≠ 0)
  have h4 : Fintype.card {i // hH.eigenvalues i ≠ 0} ≤ Fintype.card (Fin n) := Fintype.card_subtype_le _
  rw [Fintype.card_fin] at h3 h4
  omega

theorem roots_nonneg (hW : ∀ a b, W a b = W b a) (h0 : ∀ a b, 0 ≤ W a b) (hd : ∀ a, 0 < deg W a)
    (r : ℝ) (hr : r ∈ (laplacian W).charpoly.roots) : 0 ≤ r := by
  have hH := laplacian_symm hW
  have hroots : (laplacian W).charpoly.roots = Multiset.map hH.eigenvalues univ.val := by
    simpa using hH.roots_charpoly_eq_eigenvalues
  rw [hroots, Multiset.mem_map] at hr
  obtain ⟨i, -, rfl⟩ := hr
  have hev := hH.mulVec_eigenvectorBasis i
  set x : Fin n → ℝ := (hH.eigenvectorBasis i).ofLp with hx
  have hs : ∀ a, √(deg W a) ≠ 0 := fun a => (Real.sqrt_pos.mpr (hd a)).ne'
  have hxz : x = fun a => √(deg W a) * (fun a => x a / √(deg W a)) a := by
    funext a; exact (mul_div_cancel₀ (x a) (hs a)).symm
  have hq := quad_form hW hd fun a => x a / √(deg W a)
  rw [← hxz] at hq
  have hpos : 0 ≤ (∑ a, ∑ b, W a b * (x a / √(deg W a) - x b / √(deg W b)) ^ 2) / 2 :=
    div_nonneg (sum_nonneg fun a _ => sum_nonneg fun b _ => mul_nonneg (h0 a b) (sq_nonneg _)) two_pos.le
  have h5 : ∑ a, √(deg W a) * (x a / √(deg W a)) * (laplacian W *ᵥ x) a =
      hH.eigenvalues i * ∑ a, x a ^ 2 := by
    rw [hev, mul_sum]
    refine sum_congr rfl fun a _ => ?_
    rw [mul_div_cancel₀ _ (hs a)]
    simp only [Pi.smul_apply, smul_eq_mul]
    ring
  rw [h5] at hq
  have hne : ∃ a, x a ≠ 0 := by
    by_contra hall
    push Not at hall
    have : hH.eigenvectorBasis i = 0 := by
      ext a; exact hall a
    exact (hH.eigenvectorBasis.orthonormal.ne_zero i) this
  obtain ⟨a, ha⟩ := hne
  have hx2 : 0 < ∑ a, x a ^ 2 := sum_pos' (fun a _ => sq_nonneg _) ⟨a, mem_univ a, by positivity⟩
  by_contra hneg
  push Not at hneg
  nlinarith [mul_pos (neg_pos.mpr hneg) hx2]

/-- The second smallest eigenvalue is zero exactly for disconnected graphs, and never negative. -/
theorem second_zero_iff (hW : ∀ a b, W a b = W b a) (h0 : ∀ a b, 0 ≤ W a b) (hd : ∀ a, 0 < deg W a)
    [NeZero n] (v : ℝ) (hv : Spec.IsSecondSmallest (laplacian W) v) :
    0 ≤ v ∧ (v = 0 ↔ ¬ ∀ a b, Path W a b) := by
  obtain ⟨a, rest, hr, hav, hrest⟩ := hv
  have hnn := roots_nonneg hW h0 hd
  rw [hr] at hnn
  have ha : 0 ≤ a := hnn a (by simp)
  have hcount := count_zero hW hd
  rw [hr] at hcount
  refine ⟨hnn v (by simp), ?_, ?_⟩
  · rintro rfl hc
    have h1 := kernel_connected hW h0 hd hc
    have ha0 : a = 0 := le_antisymm hav ha
    rw [ha0, Multiset.count_cons_self, Multiset.count_cons_self] at hcount
    omega
  · intro hc
    push Not at hc
    obtain ⟨a0, b0, hc⟩ := hc
    have h1 := kernel_disconnected hW h0 hd a0 b0 hc
    by_contra hne
    have hvpos : 0 < v := lt_of_le_of_ne (hnn v (by simp)) (Ne.symm hne)
    have h2 : Multiset.count 0 (v ::ₘ rest) = 0 := by
      rw [Multiset.count_eq_zero]
      intro hmem
      rcases Multiset.mem_cons.mp hmem with h | h
      · exact hne h.symm
      · exact absurd (hrest 0 h) (not_le.mpr hvpos)
    rw [Multiset.count_cons, h2] at hcount
    split at hcount <;> omega

end graph

/-! ## Lemmas on the model -/

section flows

variable {F : Fin nk → Fin nk → ℝ}

theorem adjacency_symm (F : Fin nk → Fin nk → ℝ) (a b : Fin nk) : adjacency F a b = adjacency F b a := by
  rw [adjacency, adjacency, add_comm]

theorem adjacency_eq (F : Fin nk → Fin nk → ℝ) (a b : Fin nk) :
    adjacency F a b = ((F a b + F b a) / 2) / (∑ a', ∑ b', F a' b') := by
  rw [adjacency]; ring

theorem total_nonneg (h : ∀ a b, 0 ≤ F a b) : 0 ≤ ∑ a, ∑ b, F a b :=
  sum_nonneg fun a _ => sum_nonneg fun b _ => h a b

theorem deg_adjacency (F : Fin nk → Fin nk → ℝ) (a : Fin nk) :
    deg (adjacency F) a = (∑ c, (F a c + F c a) / 2) / (∑ a', ∑ b', F a' b') := by
  simp only [deg, adjacency_eq, sum_div]

theorem laplacian_adjacency (h : ∀ a b, 0 ≤ F a b) (hT : ∑ a, ∑ b, F a b ≠ 0)
    (hd : ∀ a, 0 < deg (adjacency F) a) : laplacian (adjacency F) = Spec.normLaplacian F := by
  have hT' : 0 < ∑ a, ∑ b, F a b := lt_of_le_of_ne (total_nonneg h) hT.symm
  ext a b
  rw [laplacian_apply hd, Spec.normLaplacian, deg_adjacency, deg_adjacency, adjacency_eq,
    Real.sqrt_div' _ hT'.le, Real.sqrt_div' _ hT'.le]
  congr 1
  rw [div_mul_div_comm, Real.mul_self_sqrt hT'.le, div_div_div_cancel_right₀ hT'.ne']

theorem normLaplacian_transpose (F : Fin nk → Fin nk → ℝ) :
    Spec.normLaplacian (fun a b => F b a) = Spec.normLaplacian F := by
  ext a b
  simp only [Spec.normLaplacian, add_comm]

theorem adjacency_pos_iff (h : ∀ a b, 0 ≤ F a b) (hT : ∑ a, ∑ b, F a b ≠ 0) (a b : Fin nk) :
    0 < adjacency F a b ↔ (0 < F a b ∨ 0 < F b a) := by
  have hT' : 0 < ∑ a, ∑ b, F a b := lt_of_le_of_ne (total_nonneg h) hT.symm
  rw [adjacency_eq, div_pos_iff_of_pos_right hT']
  constructor
  · intro hp
    by_contra hn
    push Not at hn
    linarith [hn.1, hn.2]
  · rintro (hp | hp) <;> [linarith [h b a]; linarith [h a b]]

theorem path_iff (h : ∀ a b, 0 ≤ F a b) (hT : ∑ a, ∑ b, F a b ≠ 0) (a b : Fin nk) :
    Path (adjacency F) a b ↔ Spec.Linked F a b := by
  unfold Path Spec.Linked
  have : (fun a b => 0 < adjacency F a b) = fun a b => 0 < F a b ∨ 0 < F b a := by
    funext a b; exact propext (adjacency_pos_iff h hT a b)
  rw [this]

theorem deg_adjacency_nonneg (h : ∀ a b, 0 ≤ F a b) (a : Fin nk) : 0 ≤ deg (adjacency F) a := by
  rw [deg_adjacency]
  exact div_nonneg (sum_nonneg fun c _ => by linarith [h a c, h c a]) (total_nonneg h)

theorem sortedSecond_spec {M : Matrix (Fin n) (Fin n) ℝ} {ev : List ℝ}
    (hev : (ev : Multiset ℝ) = M.charpoly.roots) {v : ℝ} (hv : sortedSecond ev = .ok v) :
    Spec.IsSecondSmallest M v := by
  classical
  unfold sortedSecond at hv
  set s := ev.mergeSort fun a b => decide (a ≤ b) with hs
  have hperm : s.Perm ev := List.mergeSort_perm ev _
  have hsorted : s.Pairwise (· ≤ ·) := by
    have := List.pairwise_mergeSort (le := fun a b : ℝ => decide (a ≤ b))
      (by intro a b c; simp only [decide_eq_true_eq]; exact le_trans)
      (by intro a b; simpa using le_total a b) ev
    simpa using this
  clear_value s
  match s with
  | [] => simp at hv
  | [a] => simp at hv
  | a :: w :: rest =>
    simp only [List.getElem?_cons_succ, List.getElem?_cons_zero] at hv
    cases hv
    rw [List.pairwise_cons, List.pairwise_cons] at hsorted
    refine ⟨a, rest, ?_, hsorted.1 _ (by simp), fun r hr => hsorted.2.1 r (by simpa using hr)⟩
    rw [← hev, ← Multiset.coe_eq_coe.mpr hperm]
    rfl

theorem evOf_ok {e : Eig} (he : e.Right) (h : ∀ a b, 0 ≤ F a b) {v : ℝ} (hv : evOf e F = .ok v) :
    (∑ a, ∑ b, F a b ≠ 0) ∧ (∀ a, 0 < deg (adjacency F) a) ∧
      Spec.IsSecondSmallest (laplacian (adjacency F)) v := by
  unfold evOf at hv
  split at hv
  · cases hv
  · rename_i hc
    push Not at hc
    have hd : ∀ a, 0 < deg (adjacency F) a := fun a =>
      lt_of_le_of_ne (deg_adjacency_nonneg h a) (hc.2 a).symm
    exact ⟨hc.1, hd, sortedSecond_spec (he _ _ (laplacian_symm (adjacency_symm F))) hv⟩

theorem foldl_min (vs : List ℝ) (m : ℝ) :
    vs.foldl (fun m x => min m |x|) m ≤ m ∧ (∀ x ∈ vs, vs.foldl (fun m x => min m |x|) m ≤ |x|) ∧
      (vs.foldl (fun m x => min m |x|) m = m ∨ ∃ x ∈ vs, vs.foldl (fun m x => min m |x|) m = |x|) := by
  induction vs generalizing m with
  | nil => simp
  | cons y ys ih =>
    obtain ⟨h1, h2, h3⟩ := ih (min m |y|)
    simp only [List.foldl_cons]
    refine ⟨h1.trans (min_le_left _ _), ?_, ?_⟩
    · intro x hx
      rcases List.mem_cons.mp hx with rfl | hx
      · exact h1.trans (min_le_right _ _)
      · exact h2 x hx
    · rcases h3 with h3 | ⟨x, hx, h3⟩
      · rcases min_choice m |y| with hm | hm
        · left; rw [h3, hm]
        · right; exact ⟨y, by simp, by rw [h3, hm]⟩
      · right; exact ⟨x, by simp [hx], h3⟩

theorem minAbs_ok {vs : List ℝ} {m : ℝ} (h : minAbs vs = .ok m) :
    (∀ x ∈ vs, m ≤ |x|) ∧ ∃ x ∈ vs, m = |x| := by
  cases vs with
  | nil => cases h
  | cons v vs =>
    cases h
    obtain ⟨h1, h2, h3⟩ := foldl_min vs |v|
    refine ⟨?_, ?_⟩
    · intro x hx
      rcases List.mem_cons.mp hx with rfl | hx
      · exact h1
      · exact h2 x hx
    · rcases h3 with h3 | ⟨x, hx, h3⟩
      · exact ⟨v, by simp, h3⟩
      · exact ⟨x, by simp [hx], h3⟩

theorem mapM_ok {α β : Type} (f : α → Py β) (l : List α) (r : List β) (h : l.mapM f = .ok r) :
    (∀ a ∈ l, ∃ b ∈ r, f a = .ok b) ∧ ∀ b ∈ r, ∃ a ∈ l, f a = .ok b := by
  induction l generalizing r with
  | nil =>
    rw [List.mapM_nil] at h; cases h; simp
  | cons a l ih =>
    rw [List.mapM_cons] at h
    cases ha : f a with
    | error e => rw [ha] at h; cases h
    | ok b =>
      rw [ha] at h
      cases hl : l.mapM f with
      | error e => rw [hl] at h; cases h
      | ok bs =>
        rw [hl] at h
        cases h
        obtain ⟨i1, i2⟩ := ih bs hl
        constructor
        · intro x hx
          rcases List.mem_cons.mp hx with rfl | hx
          · exact ⟨b, by simp, ha⟩
          · obtain ⟨y, hy, e⟩ := i1 x hx
            exact ⟨y, by simp [hy], e⟩
        · intro y hy
          rcases List.mem_cons.mp hy with rfl | hy
          · exact ⟨a, by simp, ha⟩
          · obtain ⟨x, hx, e⟩ := i2 y hy
            exact ⟨x, by simp [hx], e⟩

theorem connectedness_ok {e : Eig} {all : Bool} {p : Props nl nk} {s : Stored}
    (h : connectedness e all p = .ok s) :
    ∃ c, s = .scalar c ∧ (∀ l, ∃ v, evOf e (p.pr l) = .ok v ∧ c ≤ |v|) ∧
      ∃ l v, evOf e (p.pr l) = .ok v ∧ c = |v| := by
  unfold connectedness at h
  cases hev : evs e p with
  | error x => rw [hev] at h; cases h
  | ok ev =>
    rw [hev] at h
    change (minAbs ev >>= fun m => Except.ok (Stored.scalar m)) = .ok s at h
    cases hm : minAbs ev with
    | error x => rw [hm] at h; cases h
    | ok m =>
      rw [hm] at h
      cases h
      obtain ⟨h1, h2⟩ := minAbs_ok hm
      obtain ⟨m1, m2⟩ := mapM_ok _ _ _ hev
      refine ⟨m, rfl, fun l => ?_, ?_⟩
      · obtain ⟨v, hv, e⟩ := m1 l (List.mem_finRange l)
        exact ⟨v, e, h1 v hv⟩
      · obtain ⟨x, hx, rfl⟩ := h2
        obtain ⟨l, -, e⟩ := m2 x hx
        exact ⟨l, x, e, rfl⟩

end flows

/-! ## C50 -/

/-- Proportions are not negative. -/
def Props.Nonneg (p : Props nl nk) : Prop := ∀ i l, 0 ≤ p.pk1 i l

theorem Props.pr_nonneg {p : Props nl nk} (h : p.Nonneg) (l : Fin nl) (a b : Fin nk) :
    0 ≤ p.pr l a b := mul_nonneg (Nat.cast_nonneg _) (h _ _)

theorem pr_eq_flow {p : Props nl nk} (hs : ∀ a b, p.NNm a b = p.NNm b a) (l : Fin nl) :
    p.pr l = fun a b => Spec.flow p l b a := by
  funext a b
  simp only [Props.pr, Spec.flow, Props.reshaped]
  rw [hs a b]
  congr 2
  ring

/-- C50, value, for any flows: the number stored is the smallest, over worker types, of the second
smallest eigenvalue of the normalised Laplacian of the flows of that type **as the code pairs them**,
`NNm[a, b]` with the proportions of the row `a * nk + b`. -/
theorem C50_value_of_pairing [NeZero nk] (e : Eig) (he : e.Right) (all : Bool) (p : Props nl nk)
    (hp : p.Nonneg) (s : Stored) (h : connectedness e all p = .ok s) :
    ∃ c, s = .scalar c ∧
      (∀ l, ∃ v, Spec.IsSecondSmallest (Spec.normLaplacian (p.pr l)) v ∧ c ≤ v) ∧
      ∃ l, Spec.IsSecondSmallest (Spec.normLaplacian (p.pr l)) c := by
  obtain ⟨c, rfl, h1, l, v, hv, hc⟩ := connectedness_ok h
  refine ⟨c, rfl, fun l => ?_, l, ?_⟩
  · obtain ⟨v, hv, hcv⟩ := h1 l
    obtain ⟨hT, hd, hsec⟩ := evOf_ok he (Props.pr_nonneg hp l) hv
    have hv0 := (second_zero_iff (adjacency_symm _)
      (fun a b => by
        rw [adjacency_eq]
        exact div_nonneg (by linarith [Props.pr_nonneg hp l a b, Props.pr_nonneg hp l b a])
          (total_nonneg (Props.pr_nonneg hp l))) hd v hsec).1
    rw [laplacian_adjacency (Props.pr_nonneg hp l) hT hd] at hsec
    exact ⟨v, hsec, by rwa [abs_of_nonneg hv0] at hcv⟩
  · obtain ⟨hT, hd, hsec⟩ := evOf_ok he (Props.pr_nonneg hp l) hv
    have hv0 := (second_zero_iff (adjacency_symm _)
      (fun a b => by
        rw [adjacency_eq]
        exact div_nonneg (by linarith [Props.pr_nonneg hp l a b, Props.pr_nonneg hp l b a])
          (total_nonneg (Props.pr_nonneg hp l))) hd v hsec).1
    rw [laplacian_adjacency (Props.pr_nonneg hp l) hT hd] at hsec
    rw [abs_of_nonneg hv0] at hc
    rw [hc]; exact hsec

/-- C50, value: with as many movers from `a` to `b` as from `b` to `a`, the number stored is the
smallest, over worker types, of the second smallest eigenvalue of the normalised Laplacian of the flows
of that type.  Missing: other flows, for which `C50_wrong` shows the claim false. -/
theorem C50_value_partial [NeZero nk] (e : Eig) (he : e.Right) (all : Bool) (p : Props nl nk)
    (hp : p.Nonneg) (hs : ∀ a b, p.NNm a b = p.NNm b a) (s : Stored)
    (h : connectedness e all p = .ok s) :
    ∃ c, s = .scalar c ∧
      (∀ l, ∃ v, Spec.IsSecondSmallest (Spec.normLaplacian (Spec.flow p l)) v ∧ c ≤ v) ∧
      ∃ l, Spec.IsSecondSmallest (Spec.normLaplacian (Spec.flow p l)) c := by
  have := C50_value_of_pairing e he all p hp s h
  simpa only [pr_eq_flow hs, normLaplacian_transpose] using this

theorem zero_iff_pairing [NeZero nk] (e : Eig) (he : e.Right) (all : Bool) (p : Props nl nk)
    (hp : p.Nonneg) (s : Stored) (h : connectedness e all p = .ok s) :
    ∃ c, s = .scalar c ∧ 0 ≤ c ∧ (c = 0 ↔ ∃ l, ¬ Spec.Connected (p.pr l)) := by
  obtain ⟨c, rfl, h1, l, v, hv, hc⟩ := connectedness_ok h
  have key : ∀ l v, evOf e (p.pr l) = .ok v → 0 ≤ v ∧ (v = 0 ↔ ¬ Spec.Connected (p.pr l)) := by
    intro l v hv
    obtain ⟨hT, hd, hsec⟩ := evOf_ok he (Props.pr_nonneg hp l) hv
    have := second_zero_iff (adjacency_symm _)
      (fun a b => by
        rw [adjacency_eq]
        exact div_nonneg (by linarith [Props.pr_nonneg hp l a b, Props.pr_nonneg hp l b a])
          (total_nonneg (Props.pr_nonneg hp l))) hd v hsec
    simp only [path_iff (Props.pr_nonneg hp l) hT] at this
    exact this
  refine ⟨c, rfl, by rw [hc]; exact abs_nonneg v, ?_, ?_⟩
  · intro h0
    refine ⟨l, (key l v hv).2.mp ?_⟩
    rw [h0] at hc
    exact abs_eq_zero.mp hc.symm
  · rintro ⟨l', hl'⟩
    obtain ⟨v', hv', hle⟩ := h1 l'
    rw [(key l' v' hv').2.mpr hl', abs_zero] at hle
    exact le_antisymm hle (by rw [hc]; exact abs_nonneg v)

/-- C50, meaning of zero: if every worker type has a positive share of every flow (as `d_prior > 1`
ensures), the measure is never negative, and it is zero exactly when the firm types cannot all be
reached from one another through moves in either direction. -/
theorem C50_zero_iff_disconnected [NeZero nk] [NeZero nl] (e : Eig) (he : e.Right) (all : Bool)
    (p : Props nl nk) (hp : ∀ i l, 0 < p.pk1 i l) (s : Stored) (h : connectedness e all p = .ok s) :
    ∃ c, s = .scalar c ∧ 0 ≤ c ∧
      (c = 0 ↔ ¬ Spec.Connected fun a b : Fin nk => (p.NNm a b : ℝ)) := by
  obtain ⟨c, hc, h0, hiff⟩ := zero_iff_pairing e he all p (fun i l => (hp i l).le) s h
  refine ⟨c, hc, h0, hiff.trans ?_⟩
  have hpos : ∀ l a b, 0 < p.pr l a b ↔ 0 < (p.NNm a b : ℝ) := fun l a b =>
    mul_pos_iff_of_pos_right (hp _ _)
  have hcon : ∀ l, Spec.Connected (p.pr l) ↔ Spec.Connected fun a b : Fin nk => (p.NNm a b : ℝ) := by
    intro l
    unfold Spec.Connected Spec.Linked
    simp only [hpos]
  simp only [hcon]
  exact ⟨fun ⟨_, h⟩ => h, fun h => ⟨0, h⟩⟩

/-- C50, meaning of zero with possibly empty shares, for symmetric flows. -/
theorem C50_zero_iff_partial [NeZero nk] (e : Eig) (he : e.Right) (all : Bool) (p : Props nl nk)
    (hp : p.Nonneg) (hs : ∀ a b, p.NNm a b = p.NNm b a) (s : Stored)
    (h : connectedness e all p = .ok s) :
    ∃ c, s = .scalar c ∧ 0 ≤ c ∧ (c = 0 ↔ ∃ l, ¬ Spec.Connected (Spec.flow p l)) := by
  have := zero_iff_pairing e he all p hp s h
  have hcon : ∀ l, Spec.Connected (p.pr l) ↔ Spec.Connected (Spec.flow p l) := by
    intro l
    unfold Spec.Connected Spec.Linked
    simp only [pr_eq_flow hs, or_comm]
  simpa only [hcon] using this

/-! ### When it returns -/

theorem mapM_total {α β : Type} (f : α → Py β) (l : List α) (h : ∀ a ∈ l, ∃ b, f a = .ok b) :
    ∃ r, l.mapM f = .ok r ∧ r.length = l.length := by
  induction l with
  | nil => exact ⟨[], rfl, rfl⟩
  | cons a l ih =>
    obtain ⟨b, hb⟩ := h a (by simp)
    obtain ⟨r, hr, hl⟩ := ih fun x hx => h x (by simp [hx])
    exact ⟨b :: r, by rw [List.mapM_cons, hb, hr]; rfl, by simp [hl]⟩

theorem sortedSecond_total {ev : List ℝ} (h : 2 ≤ ev.length) : ∃ v, sortedSecond ev = .ok v := by
  classical
  unfold sortedSecond
  have : 1 < (ev.mergeSort fun a b => decide (a ≤ b)).length := by
    rw [List.length_mergeSort]; omega
  rw [List.getElem?_eq_getElem this]
  exact ⟨_, rfl⟩

theorem sortedSecond_short {ev : List ℝ} (h : ev.length < 2) : sortedSecond ev = .error "IndexError" := by
  classical
  unfold sortedSecond
  rw [List.getElem?_eq_none (by rw [List.length_mergeSort]; omega)]

theorem evals_length {e : Eig} (he : e.Right) (F : Fin nk → Fin nk → ℝ) :
    (e.evals (laplacian (adjacency F))).length = nk := by
  have hH := laplacian_symm (adjacency_symm F)
  have h1 := he _ _ hH
  have hroots : (laplacian (adjacency F)).charpoly.roots = Multiset.map hH.eigenvalues univ.val := by
    simpa using hH.roots_charpoly_eq_eigenvalues
  have h2 := congrArg Multiset.card (h1.trans hroots)
  simpa using h2

theorem deg_zero_iff {F : Fin nk → Fin nk → ℝ} (h : ∀ a b, 0 ≤ F a b) (a : Fin nk)
    (hT : ∑ a, ∑ b, F a b ≠ 0) :
    ∑ b, adjacency F a b = 0 ↔ ∀ b, F a b = 0 ∧ F b a = 0 := by
  have hT' : 0 < ∑ a, ∑ b, F a b := lt_of_le_of_ne (total_nonneg h) hT.symm
  have e : ∑ b, adjacency F a b = (∑ c, (F a c + F c a) / 2) / (∑ a', ∑ b', F a' b') :=
    deg_adjacency F a
  rw [e, div_eq_zero_iff, or_iff_left hT,
    sum_eq_zero_iff_of_nonneg fun c _ => by linarith [h a c, h c a]]
  constructor
  · intro hz b
    have := hz b (mem_univ b)
    constructor <;> linarith [h a b, h b a]
  · intro hz b _
    rw [(hz b).1, (hz b).2]; norm_num

/-- C50, when it returns: exactly if there are at least two firm types and, for every worker type, every
firm type has a move of that type to or from it (as the code pairs flows and proportions). -/
theorem C50_returns_iff (e : Eig) (he : e.Right) (all : Bool) (p : Props nl nk) (hl : 0 < nl)
    (hp : p.Nonneg) :
    (∃ s, connectedness e all p = .ok s) ↔
      2 ≤ nk ∧ ∀ l a, ∃ b, 0 < p.pr l a b ∨ 0 < p.pr l b a := by
  constructor
  · rintro ⟨s, h⟩
    obtain ⟨c, -, h1, l0, v0, hv0, -⟩ := connectedness_ok h
    constructor
    · by_contra hk
      unfold evOf at hv0
      split at hv0
      · cases hv0
      · rw [sortedSecond_short (by rw [evals_length he]; omega)] at hv0
        cases hv0
    · intro l a
      obtain ⟨v, hv, -⟩ := h1 l
      by_contra hno
      push Not at hno
      have hz : ∀ b, p.pr l a b = 0 ∧ p.pr l b a = 0 := fun b =>
        ⟨le_antisymm (hno b).1 (Props.pr_nonneg hp l a b), le_antisymm (hno b).2 (Props.pr_nonneg hp l b a)⟩
      unfold evOf at hv
      by_cases hT : ∑ a, ∑ b, p.pr l a b = 0
      · rw [if_pos (Or.inl hT)] at hv; cases hv
      · rw [if_pos (Or.inr ⟨a, (deg_zero_iff (Props.pr_nonneg hp l) a hT).mpr hz⟩)] at hv; cases hv
  · rintro ⟨hk, hpos⟩
    have hev : ∀ l, ∃ v, evOf e (p.pr l) = .ok v := by
      intro l
      have hT : ∑ a, ∑ b, p.pr l a b ≠ 0 := by
        obtain ⟨b, hb⟩ := hpos l ⟨0, by omega⟩
        have h0 := Props.pr_nonneg hp l
        rw [Ne, sum_eq_zero_iff_of_nonneg fun a _ => sum_nonneg fun b _ => h0 a b]
        intro hz
        have hz' : ∀ a b, p.pr l a b = 0 := fun a b => by
          have := hz a (mem_univ a)
          rw [sum_eq_zero_iff_of_nonneg fun b _ => h0 a b] at this
          exact this b (mem_univ b)
        rw [hz', hz'] at hb
        simp at hb
      unfold evOf
      rw [if_neg]
      · exact sortedSecond_total (by rw [evals_length he]; exact hk)
      · rintro (h | ⟨a, ha⟩)
        · exact hT h
        · rw [deg_zero_iff (Props.pr_nonneg hp l) a hT] at ha
          obtain ⟨b, hb⟩ := hpos l a
          rw [(ha b).1, (ha b).2] at hb
          simp at hb
    obtain ⟨r, hr, hlen⟩ := mapM_total (fun l => evOf e (p.pr l)) (List.finRange nl) fun l _ => hev l
    rw [List.length_finRange] at hlen
    unfold connectedness evs
    rw [hr]
    cases r with
    | nil => simp at hlen; omega
    | cons v vs => exact ⟨_, rfl⟩

/-! ### Relabelling -/

/-- `p'` describes the same movers with the firm types renamed: its type `a` is `p`'s type `σ a`. -/
def Spec.Renamed (σ : Equiv.Perm (Fin nk)) (p p' : Props nl nk) : Prop :=
  ∀ a b, p'.NNm a b = p.NNm (σ a) (σ b) ∧
    p'.pk1 (a.val + nk * b.val) = p.pk1 ((σ a).val + nk * (σ b).val)

theorem evOf_relabel (e : Eig) (he : e.Right) (σ : Equiv.Perm (Fin nk)) (F : Fin nk → Fin nk → ℝ) :
    evOf e (fun a b => F (σ a) (σ b)) = evOf e F := by
  have hT : ∑ a, ∑ b, F (σ a) (σ b) = ∑ a, ∑ b, F a b := by
    rw [← Equiv.sum_comp σ fun a => ∑ b, F a b]
    exact sum_congr rfl fun a _ => Equiv.sum_comp σ fun b => F (σ a) b
  have hA : adjacency (fun a b => F (σ a) (σ b)) = fun a b => adjacency F (σ a) (σ b) := by
    funext a b
    simp only [adjacency, hT]
  have hD : ∀ a, ∑ b, adjacency F (σ a) (σ b) = ∑ b, adjacency F (σ a) b := fun a =>
    Equiv.sum_comp σ fun b => adjacency F (σ a) b
  have hL : laplacian (fun a b => adjacency F (σ a) (σ b)) = (laplacian (adjacency F)).submatrix σ σ := by
    ext a b
    simp only [laplacian, Matrix.sub_apply, Matrix.one_apply, Matrix.diagonal_mul,
      Matrix.mul_diagonal, Matrix.of_apply, Matrix.submatrix_apply, hD, σ.injective.eq_iff]
  have hcond : (∃ a, ∑ b, adjacency F (σ a) (σ b) = 0) ↔ ∃ a, ∑ b, adjacency F a b = 0 := by
    simp only [hD]
    exact ⟨fun ⟨a, h⟩ => ⟨σ a, h⟩, fun ⟨a, h⟩ => ⟨σ.symm a, by rwa [Equiv.apply_symm_apply]⟩⟩
  unfold evOf
  rw [hT, hA]
  simp only [hcond]
  split
  · rfl
  · have hH := laplacian_symm (adjacency_symm F)
    have hperm : (e.evals (laplacian (adjacency F))).Perm
        (e.evals ((laplacian (adjacency F)).submatrix σ σ)) := by
      rw [← Multiset.coe_eq_coe, he _ _ hH, he _ _ (hH.submatrix σ)]
      have := Matrix.charpoly_reindex σ.symm (laplacian (adjacency F))
      rw [Matrix.reindex_apply, Equiv.symm_symm] at this
      rw [this]
    rw [hL]
    unfold sortedSecond
    classical
    have hs : ∀ l : List ℝ, (l.mergeSort fun a b => decide (a ≤ b)).Pairwise (· ≤ ·) := by
      intro l
      have := List.pairwise_mergeSort (le := fun a b : ℝ => decide (a ≤ b))
        (by intro a b c; simp only [decide_eq_true_eq]; exact le_trans)
        (by intro a b; simpa using le_total a b) l
      simpa using this
    have heq := List.Perm.eq_of_pairwise (le := fun a b : ℝ => a ≤ b) (fun a b _ _ => le_antisymm)
      (hs _) (hs _)
      ((List.mergeSort_perm _ _).trans (hperm.trans (List.mergeSort_perm _ _).symm))
    rw [heq]

/-- C50, relabelling: renaming the firm types changes nothing, errors included. -/
theorem C50_relabelling (e : Eig) (he : e.Right) (all : Bool) (σ : Equiv.Perm (Fin nk))
    (p p' : Props nl nk) (hr : Spec.Renamed σ p p') :
    connectedness e all p' = connectedness e all p := by
  have h : ∀ l, p'.pr l = fun a b => p.pr l (σ a) (σ b) := by
    intro l
    funext a b
    simp only [Props.pr, Props.reshaped]
    rw [(hr a b).1]
    have e1 : a.val * nk + b.val = b.val + nk * a.val := by ring
    have e2 : (σ a).val * nk + (σ b).val = (σ b).val + nk * (σ a).val := by ring
    rw [e1, e2, (hr b a).2]
  unfold connectedness evs
  simp only [h, evOf_relabel e he σ]

/-! ### Defects -/

/-- An `eig` that is right exists, so the theorems are not about an empty class of routines. -/
noncomputable def exactEig : Eig := ⟨fun M => M.charpoly.roots.toList⟩

theorem exactEig_right : exactEig.Right := fun _ M _ => Multiset.coe_toList M.charpoly.roots

/-- `all=True` never stores the vector of all worker types: the attribute is the minimum regardless,
although the documentation promises the vector. -/
theorem C50_all_ignored (e : Eig) (p : Props nl nk) :
    connectedness e true p = connectedness e false p ∧
      ∀ s, connectedness e true p = .ok s → ∃ c, s = .scalar c := by
  refine ⟨rfl, fun s h => ?_⟩
  obtain ⟨c, hc, -⟩ := connectedness_ok h
  exact ⟨c, hc⟩

/-- Two firm types; one worker moves from the first to the second, none back; both worker types are
equally likely among those movers, while the (unused) proportions of the opposite move are all type 0. -/
noncomputable def lopsided : Props 2 2 where
  NNm := fun a b => if a = 1 ∧ b = 0 then 0 else 1
  NNs := fun _ => 0
  pk1 := fun i l => if i = 1 then (if l = 0 then 1 else 0) else 1 / 2
  pk0 := fun _ _ => 1 / 2

theorem lopsided_nonneg : lopsided.Nonneg := by
  intro i l
  simp only [lopsided]
  split_ifs <;> norm_num

/-- The pairing of flows with the proportions of the opposite flows matters: in `lopsided` the flow
graph of every worker type is connected, yet the measure is zero. -/
theorem C50_wrong (e : Eig) (he : e.Right) (all : Bool) :
    (∀ l, Spec.Connected (Spec.flow lopsided l)) ∧ connectedness e all lopsided = .ok (.scalar 0) := by
  constructor
  · intro l a b
    have h01 : 0 < Spec.flow lopsided l 0 1 := by
      norm_num [Spec.flow, lopsided]
    fin_cases a <;> fin_cases b
    · exact Relation.ReflTransGen.refl
    · exact Relation.ReflTransGen.single (Or.inl h01)
    · exact Relation.ReflTransGen.single (Or.inr h01)
    · exact Relation.ReflTransGen.refl
  · obtain ⟨s, hs⟩ := (C50_returns_iff e he all lopsided (by norm_num) lopsided_nonneg).mpr
      ⟨le_refl _, fun l a => ⟨a, Or.inl (by
        fin_cases a <;> norm_num [Props.pr, Props.reshaped, lopsided])⟩⟩
    obtain ⟨c, rfl, h0, hiff⟩ := zero_iff_pairing e he all lopsided lopsided_nonneg s hs
    rw [hs, hiff.mpr]
    refine ⟨1, fun hc => ?_⟩
    have h01 : ∀ a b : Fin 2, a ≠ b → lopsided.pr 1 a b = 0 := by
      intro a b hab
      fin_cases a <;> fin_cases b <;> first | exact absurd rfl hab | norm_num [Props.pr, Props.reshaped, lopsided]
    have hstay : ∀ b, Spec.Linked (lopsided.pr 1) 0 b → b = 0 := by
      intro b h
      induction h with
      | refl => rfl
      | tail _ hstep ih =>
        rename_i b c
        subst ih
        by_contra hne
        rcases hstep with h | h
        · rw [h01 _ _ (Ne.symm hne)] at h; exact lt_irrefl _ h
        · rw [h01 _ _ hne] at h; exact lt_irrefl _ h
    exact absurd (hstay 1 (hc 0 1)) (by decide)

/-- Two firm types with two moves each way and two equally likely worker types. -/
noncomputable def evenMoves : Props 2 2 where
  NNm := fun _ _ => 2
  NNs := fun _ => 0
  pk1 := fun _ _ => 1 / 2
  pk0 := fun _ _ => 1 / 2

/-- Non-vacuity: `evenMoves` meets the hypotheses of every theorem above and its measure is positive. -/
example : (∃ s, connectedness exactEig false evenMoves = .ok s) ∧ evenMoves.Nonneg ∧
    (∀ a b, evenMoves.NNm a b = evenMoves.NNm b a) ∧ (∀ i l, 0 < evenMoves.pk1 i l) ∧
    ∃ c, 0 < c ∧ connectedness exactEig false evenMoves = .ok (.scalar c) := by
  have hp : ∀ i l, 0 < evenMoves.pk1 i l := fun i l => by norm_num [evenMoves]
  have h1 : ∃ s, connectedness exactEig false evenMoves = .ok s :=
    (C50_returns_iff _ exactEig_right _ _ (by norm_num) fun i l => (hp i l).le).mpr
      ⟨le_refl _, fun l a => ⟨a, Or.inl (by norm_num [Props.pr, Props.reshaped, evenMoves])⟩⟩
  refine ⟨h1, fun i l => (hp i l).le, fun _ _ => rfl, hp, ?_⟩
  obtain ⟨s, hs⟩ := h1
  obtain ⟨c, rfl, h0, hiff⟩ := C50_zero_iff_disconnected _ exactEig_right _ _ hp s hs
  refine ⟨c, lt_of_le_of_ne h0 fun h => ?_, hs⟩
  exact hiff.mp h.symm fun a b => Relation.ReflTransGen.single (Or.inl (by norm_num [evenMoves]))

/-- Non-vacuity for the relabelling: swapping the two types of `lopsided`. -/
example : ∃ p', Spec.Renamed (Equiv.swap 0 1) lopsided p' ∧ p'.NNm 1 0 = 1 ∧ p'.NNm 0 1 = 0 := by
  refine ⟨⟨fun a b => if a = 0 ∧ b = 1 then 0 else 1, fun _ => 0,
    fun i => lopsided.pk1 (3 - i), fun _ _ => 1 / 2⟩, ?_, by decide, by decide⟩
  intro a b
  fin_cases a <;> fin_cases b <;> exact ⟨by decide, rfl⟩

end Pytwoway.BLM
