import Verif.FEControl.Props2
import Verif.FEControl.TraceModel
import Verif.FE.Quad
import Verif.FE.Props4

/-! # Design matrix, solver and components as matrices (helper lemmas for C85 and C86) -/

namespace Pytwoway.FE

open Matrix Pytwoway.Util MeasureTheory
open scoped BigOperators

variable {ι κ : Type*} [Fintype ι] [DecidableEq ι] [Fintype κ] [DecidableEq κ]

/-- `(X'DX)⁻¹ X'D`. -/
noncomputable def lgen (X : Matrix ι κ ℝ) (w : ι → ℝ) : Matrix κ ι ℝ := (nmat X w)⁻¹ * Xᵀ * diagonal w

variable {X : Matrix ι κ ℝ} {w : ι → ℝ}

theorem lgen_mul_X (hu : IsUnit (nmat X w).det) : lgen X w * X = 1 := by
  rw [lgen, Matrix.mul_assoc, Matrix.mul_assoc, ← Matrix.mul_assoc Xᵀ]
  exact nonsing_inv_mul _ hu

theorem X_mul_lgen : X * lgen X w = hat X w := by
  rw [lgen, hat]; simp only [Matrix.mul_assoc]

theorem lgen_transpose : (lgen X w)ᵀ = diagonal w * X * (nmat X w)⁻¹ := by
  rw [lgen, transpose_mul, transpose_mul, diagonal_transpose, transpose_transpose, nmat_inv_symm,
    Matrix.mul_assoc]

theorem lgen_cov (hw : ∀ o, 0 < w o) (hu : IsUnit (nmat X w).det) :
    lgen X w * diagonal (fun o => 1 / w o) * (lgen X w)ᵀ = (nmat X w)⁻¹ := by
  have h1 : diagonal w * diagonal (fun o => 1 / w o) = 1 := by
    rw [diagonal_mul_diagonal, ← diagonal_one]; congr 1; ext o
    rw [mul_one_div, div_self (hw o).ne']
  have h2 : lgen X w * diagonal (fun o => 1 / w o) = (nmat X w)⁻¹ * Xᵀ := by
    rw [lgen, Matrix.mul_assoc, h1, Matrix.mul_one]
  rw [h2, lgen_transpose, Matrix.mul_assoc, ← Matrix.mul_assoc Xᵀ, ← Matrix.mul_assoc Xᵀ]
  change (nmat X w)⁻¹ * (nmat X w * (nmat X w)⁻¹) = _
  rw [mul_nonsing_inv _ hu, Matrix.mul_one]

/-- `Σ_b (1-H)_ob² / w_b = (1 - H_oo) / w_o`. -/
theorem resid_var_gen (hw : ∀ o, 0 < w o) (hu : IsUnit (nmat X w).det) (o : ι) :
    ∑ b, ((if o = b then 1 else 0) - hat X w o b) ^ 2 * (1 / w b) = (1 - hat X w o o) / w o := by
  set G := X * (nmat X w)⁻¹ * Xᵀ with hG
  have hH : ∀ a b, hat X w a b = G a b * w b := fun a b => hat_apply _ _ a b
  have hGG : ∑ b, G o b ^ 2 * w b = G o o := by
    have h1 : hat X w * G = G := by
      rw [hG, Matrix.mul_assoc, ← Matrix.mul_assoc, hat_mul_X _ _ hu]
    conv_rhs => rw [← h1]
    rw [mul_apply]
    refine Finset.sum_congr rfl fun b _ => ?_
    rw [hH, hG, gmat_symm X w b o]; ring
  have : ∀ b, ((if o = b then 1 else 0) - hat X w o b) ^ 2 * (1 / w b)
      = (if o = b then 1 / w o - 2 * G o o else 0) + G o b ^ 2 * w b := by
    intro b
    have := (hw b).ne'
    rw [hH]
    split
    · next h => subst h; field_simp; ring
    · field_simp; ring
  rw [Finset.sum_congr rfl fun b _ => this b, Finset.sum_add_distrib, Finset.sum_ite_eq, hGG, hH]
  simp only [Finset.mem_univ, if_true]
  have := (hw o).ne'
  field_simp
  ring

/-- `sqrt(D) X (X'DX)⁻¹ X' sqrt(D)`. -/
noncomputable def sgen (X : Matrix ι κ ℝ) (w : ι → ℝ) : Matrix ι ι ℝ :=
  of fun a b => Real.sqrt (w a) * (X * (nmat X w)⁻¹ * Xᵀ) a b * Real.sqrt (w b)

theorem sgen_diag (hw : ∀ o, 0 < w o) (o : ι) : sgen X w o o = hat X w o o := by
  have h : sgen X w o o = Real.sqrt (w o) * Real.sqrt (w o) * (X * (nmat X w)⁻¹ * Xᵀ) o o := by
    rw [sgen, of_apply]; ring
  rw [h, Real.mul_self_sqrt (hw o).le, hat_apply, mul_comm]

theorem sgen_sq (hw : ∀ o, 0 < w o) (hu : IsUnit (nmat X w).det) (o : ι) :
    ∑ b, sgen X w o b ^ 2 = hat X w o o := by
  conv_rhs => rw [← hat_idem X w hu, mul_apply]
  refine Finset.sum_congr rfl fun b _ => ?_
  rw [hat_apply, hat_apply, gmat_symm X w b o, sgen, of_apply, mul_pow, mul_pow,
    Real.sq_sqrt (hw o).le, Real.sq_sqrt (hw b).le]
  ring

end Pytwoway.FE

namespace Pytwoway.FEControl

open Matrix Pytwoway.Util MeasureTheory FE
open scoped BigOperators
open FE.Panel (WOpt Stayers LevAvg)

variable {n m nw : ℕ} {d : CData n m nw} {solve : List ℝ → List ℝ}

/-- Different coefficients give different fitted values: the covariates are linearly independent. -/
def CData.Identified (d : CData n m nw) : Prop :=
  ∀ x y : List ℝ, x.length = d.nCov → y.length = d.nCov → (∀ o, d.multA x o = d.multA y o) → x = y

/-- The same data with outcomes `y`. -/
def CData.withY (d : CData n m nw) (y : Fin n → ℝ) : CData n m nw := { d with y := y }

theorem zip_ofFn (h : d.names.Nodup) (t : Fin d.nCov → ℝ) (k : ℝ) (o : Fin n) :
    (List.zipWith (fun col g => (k * col o) * g) d.A (List.ofFn t)).sum = k * (d.amat *ᵥ t) o := by
  have : List.zipWith (fun col g => (k * col o) * g) d.A (List.ofFn t)
      = List.ofFn fun c : Fin d.nCov => k * (d.A.getD c 0 o * t c) := by
    apply List.ext_getElem
    · simp [A_length h]
    · intro c h1 h2
      have hc : c < d.A.length := by simpa [A_length h] using h2
      simp [List.getD_eq_getElem?_getD, List.getElem?_eq_getElem hc, mul_assoc]
  rw [this, List.sum_ofFn, ← Finset.mul_sum]; rfl

theorem multAw_ofFn (h : d.names.Nodup) (c : WOpt) (t : Fin d.nCov → ℝ) :
    d.multAw c (List.ofFn t) = fun o => d.wt c o * (d.amat *ᵥ t) o := by
  ext o; exact zip_ofFn h t _ o

theorem multA_ofFn (h : d.names.Nodup) (t : Fin d.nCov → ℝ) : d.multA (List.ofFn t) = d.amat *ᵥ t := by
  ext o
  have := zip_ofFn h t 1 o
  simp only [one_mul] at this
  exact this

theorem multATw_eq (h : d.names.Nodup) (c : WOpt) (v : Fin n → ℝ) :
    d.multATw c v = List.ofFn (d.amatᵀ *ᵥ fun o => d.wt c o * v o) := by
  apply List.ext_getElem
  · simp [CData.multATw, A_length h]
  · intro k h1 h2
    have hk : k < d.A.length := by simpa [A_length h] using h2
    simp only [CData.multATw, List.getElem_map, List.getElem_ofFn, mulVec, dotProduct, transpose_apply,
      CData.amat, of_apply, List.getD_eq_getElem?_getD, List.getElem?_eq_getElem hk, Option.getD_some]
    exact Finset.sum_congr rfl fun o _ => by ring

theorem multAT_eq_yes (v : Fin n → ℝ) : d.multAT v = d.multATw .yes v := rfl

theorem AtDpA_ofFn (h : d.names.Nodup) (t : Fin d.nCov → ℝ) :
    d.AtDpA (List.ofFn t) = List.ofFn (nmat d.amat d.Dp *ᵥ t) := by
  rw [CData.AtDpA, multAT_eq_yes, multATw_eq h, multA_ofFn h]
  congr 1
  rw [nmat, ← mulVec_mulVec, ← mulVec_mulVec]
  congr 1
  ext o; rw [mulVec_diagonal]; rfl

theorem nmat_unit (h : d.names.Nodup) (hw : ∀ o, 0 < d.Dp o) (hi : d.Identified) :
    IsUnit (nmat d.amat d.Dp).det := by
  refine nmat_isUnit _ _ hw fun t ht => ?_
  have := hi (List.ofFn t) (List.ofFn (0 : Fin d.nCov → ℝ)) (by simp) (by simp) fun o => by
    rw [multA_ofFn h, multA_ofFn h, ht, mulVec_zero]
  exact List.ofFn_injective this

theorem solve_ofFn (h : d.names.Nodup) (hu : IsUnit (nmat d.amat d.Dp).det) (hs : d.GoodSolver solve)
    (b : Fin d.nCov → ℝ) : solve (List.ofFn b) = List.ofFn ((nmat d.amat d.Dp)⁻¹ *ᵥ b) := by
  obtain ⟨hl, he⟩ := hs (List.ofFn b) ⟨List.ofFn ((nmat d.amat d.Dp)⁻¹ *ᵥ b), by simp, by
    rw [AtDpA_ofFn h, mulVec_mulVec, mul_nonsing_inv _ hu, one_mulVec]⟩
  obtain ⟨t, ht⟩ : ∃ t : Fin d.nCov → ℝ, solve (List.ofFn b) = List.ofFn t :=
    ⟨fun c => (solve (List.ofFn b))[c]'(by rw [hl]; exact c.2), by
      apply List.ext_getElem
      · simp [hl]
      · intro k h1 h2; simp⟩
  rw [ht, AtDpA_ofFn h] at he
  have := List.ofFn_injective he
  rw [ht, ← this, mulVec_mulVec, nonsing_inv_mul _ hu, one_mulVec]

theorem gammaHat_ofFn (h : d.names.Nodup) (hu : IsUnit (nmat d.amat d.Dp).det) (hs : d.GoodSolver solve) :
    d.gammaHat solve = List.ofFn (lgen d.amat d.Dp *ᵥ d.y) := by
  rw [CData.gammaHat, multAT_eq_yes, multATw_eq h, solve_ofFn h hu hs, mulVec_mulVec]
  congr 1
  rw [lgen, ← mulVec_mulVec d.y]
  congr 1
  ext o; rw [mulVec_diagonal]; rfl

/-! ## Components -/

theorem qCol_one (h : d.names.Nodup) (nm : String) (hnm : nm ∈ d.names) :
    ∃ M : Matrix (Fin n) (Fin d.nCov) ℝ, ∃ a k, (∀ gh, dget (d.unpack gh).idx nm = some (a, a + k)) ∧
      ∀ t : Fin d.nCov → ℝ, (fun o => dotL (slice d.A a (a + k)) (slice (List.ofFn t) a (a + k)) o) = M *ᵥ t := by
  rw [← covs_names, List.mem_map] at hnm
  obtain ⟨c, hc, rfl⟩ := hnm
  obtain ⟨pre, post, hs⟩ := mem_of_split hc
  set a := start m nw pre with ha
  set k := c.size m nw with hk
  have hb : a + k ≤ d.nCov := bound_of_split h hs
  refine ⟨of fun o c => ∑ q : Fin k, if a + q = c then d.A.getD c 0 o else 0, a, k,
    fun gh => idx_of_split h gh hs, fun t => ?_⟩
  ext o
  have e : List.zipWith (fun c g => c o * g) (slice d.A a (a + k)) (slice (List.ofFn t) a (a + k))
      = List.ofFn fun q : Fin k => d.A.getD (a + q) 0 o * t ⟨a + q, by omega⟩ := by
    apply List.ext_getElem
    · rw [List.length_zipWith, slice_length _ _ _ (by rw [A_length h]; exact hb),
        slice_length _ _ _ (by simpa using hb)]
      simp
    · intro q h1 h2
      have hq : q < k := by simpa using h2
      have hA : a + q < d.A.length := by rw [A_length h]; omega
      simp [slice, List.getD_eq_getElem?_getD, List.getElem?_eq_getElem hA]
  rw [dotL, e, List.sum_ofFn]
  simp only [mulVec, dotProduct, of_apply, Finset.sum_mul, ite_mul, zero_mul]
  rw [Finset.sum_comm]
  refine Finset.sum_congr rfl fun q _ => ?_
  rw [Finset.sum_eq_single (⟨a + q, by omega⟩ : Fin d.nCov)]
  · simp
  · intro b _ hb
    rw [if_neg]
    intro e; exact hb (Fin.ext e.symm)
  · simp

theorem qCol_cons (gh : List ℝ) (nm : String) (rest : List String) (Z : List ℝ) (a k : ℕ)
    (hidx : dget (d.unpack gh).idx nm = some (a, a + k))
    (hlen : (slice d.A a (a + k)).length = (slice Z a (a + k)).length) {v : Fin n → ℝ}
    (hrest : d.qCol (d.unpack gh) rest Z = some v) :
    d.qCol (d.unpack gh) (nm :: rest) Z
      = some fun o => dotL (slice d.A a (a + k)) (slice Z a (a + k)) o + v o := by
  unfold CData.qCol at hrest ⊢
  unfold CData.subA CData.subZ at hrest ⊢
  simp only [List.mapM_cons, hidx]
  generalize (rest.mapM fun s => do let r ← dget (d.unpack gh).idx s; return slice d.A r.1 r.2) = A at hrest ⊢
  generalize (rest.mapM fun s => do let r ← dget (d.unpack gh).idx s; return slice Z r.1 r.2) = B at hrest ⊢
  cases A with
  | none => cases hrest
  | some A =>
    cases B with
    | none => cases hrest
    | some B =>
      cases hrest
      simp only [Option.bind_eq_bind, Option.bind_some, Option.pure_def, List.flatten_cons, Option.some.injEq]
      ext o
      exact dotL_append _ _ _ _ _ hlen

/-- The product of a list of covariates with a coefficient vector as a matrix product. -/
theorem qCol_mat (h : d.names.Nodup) (l : List String) (hl : ∀ s ∈ l, s ∈ d.names) :
    ∃ M : Matrix (Fin n) (Fin d.nCov) ℝ, ∀ gh (t : Fin d.nCov → ℝ),
      d.qCol (d.unpack gh) l (List.ofFn t) = some (M *ᵥ t) := by
  induction l with
  | nil => exact ⟨0, fun gh t => by
      simp only [CData.qCol, CData.subA, CData.subZ, List.mapM_nil, zero_mulVec]; rfl⟩
  | cons nm rest ih =>
    obtain ⟨M, hM⟩ := ih fun s hs => hl s (List.mem_cons_of_mem _ hs)
    obtain ⟨N, a, k, hidx, hN⟩ := qCol_one h nm (hl nm (by simp))
    refine ⟨N + M, fun gh t => ?_⟩
    obtain ⟨a', b', hidx', -, hb⟩ := (C24_layout h gh).2.1 nm (hl nm (by simp))
    have hab : a + k ≤ d.nCov := by
      have := (hidx gh).symm.trans hidx'
      simp only [Option.some.injEq, Prod.mk.injEq] at this
      omega
    rw [qCol_cons gh nm rest _ a k (hidx gh) _ (hM gh t), add_mulVec, ← hN]
    · rfl
    · rw [slice_length _ _ _ (by rw [A_length h]; exact hab), slice_length _ _ _ (by simpa using hab)]

/-- The column is `qMult` of every row. -/
theorem qCol_row (u : CData.Unpack) (l : List String) (Z : List ℝ) (o : Fin n) :
    (d.qCol u l Z).map (fun v => v o) = d.qMult u l Z o := by
  unfold CData.qCol CData.qMult
  cases d.subA u l with
  | none => rfl
  | some M =>
    cases CData.subZ u l Z with
    | none => rfl
    | some z => rfl

end Pytwoway.FEControl
