import Verif.Interacted.OtherLemmas

/-! # C100: `liml_2` of the interacted model -/

namespace Pytwoway.Interacted

open Finset

variable {ni nf n m : ℕ}

/-! ## Specification -/

/-- The movers with the same pair of firms as mover `i`. -/
def Spec.peers (d : Data ni nf) (i : Fin ni) : Finset (Fin ni) := univ.filter fun i' => d.J1 i' = d.J1 i ∧ d.J2 i' = d.J2 i

/-- The average of `f` over the movers with the same pair of firms. -/
noncomputable def Spec.avg (d : Data ni nf) (f : Fin ni → ℝ) (i : Fin ni) : ℝ :=
  (∑ i' ∈ Spec.peers d i, f i') / (Spec.peers d i).card

/-- Sum of squares. -/
def Spec.total (f : Fin ni → ℝ) : ℝ := ∑ i, f i ^ 2

/-- Sum of squares around the averages of the firm pairs. -/
noncomputable def Spec.within (d : Data ni nf) (f : Fin ni → ℝ) : ℝ := ∑ i, (f i - Spec.avg d f i) ^ 2

/-! ## Groups -/

theorem pairKey_eq (d : Data ni nf) (i i' : Fin ni) : pairKey d i' = pairKey d i ↔ d.J1 i' = d.J1 i ∧ d.J2 i' = d.J2 i := by
  unfold pairKey
  have h1 := (d.J1 i).isLt
  have h2 := (d.J1 i').isLt
  constructor
  · intro h
    have e1 : (d.J1 i').val = (d.J1 i).val := by
      have := congrArg (· % nf) h
      simpa [Nat.add_mul_mod_self_left, Nat.mod_eq_of_lt h1, Nat.mod_eq_of_lt h2] using this
    rw [e1] at h
    have e2 : nf * (d.J2 i').val = nf * (d.J2 i).val := by omega
    exact ⟨Fin.ext e1, Fin.ext (Nat.eq_of_mul_eq_mul_left (by omega) e2)⟩
  · rintro ⟨e1, e2⟩
    rw [e1, e2]

theorem filter_pairKey (d : Data ni nf) (i : Fin ni) :
    (univ.filter fun i' => pairKey d i' = pairKey d i) = Spec.peers d i := by
  ext i'
  simp [Spec.peers, pairKey_eq]

theorem peers_card_pos (d : Data ni nf) (i : Fin ni) : (0 : ℝ) < (Spec.peers d i).card := by
  have : i ∈ Spec.peers d i := by simp [Spec.peers]
  exact_mod_cast card_pos.mpr ⟨i, this⟩

theorem avg_congr (d : Data ni nf) (f : Fin ni → ℝ) {i i' : Fin ni} (h : pairKey d i' = pairKey d i) :
    Spec.avg d f i' = Spec.avg d f i := by
  unfold Spec.avg
  rw [← filter_pairKey d i', ← filter_pairKey d i, h]

/-- Sums over the rows by groups. -/
theorem sum_groups (key : Fin ni → ℕ) (f : Fin ni → ℝ) :
    ∑ i, f i = ∑ z ∈ univ.image key, ∑ i with key i = z, f i :=
  (sum_fiberwise_of_maps_to (fun i _ => mem_image_of_mem key (mem_univ i)) f).symm

theorem one_cols (key : Fin ni → ℕ) (F : ℕ × ℕ → ℝ) :
    ∑ c ∈ (Instr.one key).cols, F c = ∑ z ∈ univ.image key, F (0, z) := by
  have : (Instr.one key).cols = (univ.image key).image fun z => (0, z) := by
    ext ⟨k, z⟩
    simp only [Instr.cols, Instr.one, mem_image, mem_product, mem_range, mem_univ, and_true, Prod.exists, Prod.mk.injEq,
      true_and]
    constructor
    · rintro ⟨k', i, h1, rfl, h2⟩
      exact ⟨z, ⟨i, h2⟩, by omega, rfl⟩
    · rintro ⟨z', ⟨i, h⟩, rfl, rfl⟩
      exact ⟨0, i, one_pos, rfl, h⟩
  rw [this, sum_image fun a _ b _ h => (Prod.mk.inj h).2]

theorem one_sum (key : Fin ni → ℕ) (u x : Fin ni → ℝ) (z : ℕ) : (Instr.one key).sum u x (0, z) = zsum key u x z := rfl

/-- The quadratic form of the projection on the groups. -/
theorem proj_form (d : Data ni nf) (f g : Fin ni → ℝ) :
    ∑ c ∈ (Instr.one (pairKey d)).cols, (Instr.one (pairKey d)).sum (fun _ => 1) f c *
        (Instr.one (pairKey d)).inv (fun _ => 1) 0 c * (Instr.one (pairKey d)).sum (fun _ => 1) g c =
      ∑ i, f i * Spec.avg d g i := by
  rw [one_cols, sum_groups (pairKey d)]
  refine sum_congr rfl fun z hz => ?_
  obtain ⟨i, -, rfl⟩ := mem_image.mp hz
  have e : ∑ i' with pairKey d i' = pairKey d i, f i' * Spec.avg d g i' =
      (∑ i' with pairKey d i' = pairKey d i, f i') * Spec.avg d g i := by
    rw [sum_mul]
    exact sum_congr rfl fun i' hi' => by rw [avg_congr d g (mem_filter.mp hi').2]
  rw [e, Spec.avg]
  simp only [Instr.inv, one_sum, zsum, one_mul, add_zero, sum_const, nsmul_eq_mul, mul_one, filter_pairKey]
  ring

theorem sum_avg_mul (d : Data ni nf) (f g : Fin ni → ℝ) :
    ∑ i, f i * Spec.avg d g i = ∑ i, Spec.avg d f i * Spec.avg d g i := by
  rw [sum_groups (pairKey d), sum_groups (pairKey d) fun i => Spec.avg d f i * Spec.avg d g i]
  refine sum_congr rfl fun z hz => ?_
  obtain ⟨i, -, rfl⟩ := mem_image.mp hz
  have e : ∑ i' with pairKey d i' = pairKey d i, f i' * Spec.avg d g i' =
      (∑ i' with pairKey d i' = pairKey d i, f i') * Spec.avg d g i := by
    rw [sum_mul]
    exact sum_congr rfl fun i' hi' => by rw [avg_congr d g (mem_filter.mp hi').2]
  have e' : ∑ i' with pairKey d i' = pairKey d i, Spec.avg d f i' * Spec.avg d g i' =
      ∑ _i ∈ univ.filter fun i' => pairKey d i' = pairKey d i, Spec.avg d f i * Spec.avg d g i :=
    sum_congr rfl fun i' hi' => by rw [avg_congr d g (mem_filter.mp hi').2, avg_congr d f (mem_filter.mp hi').2]
  rw [e, e', sum_const, nsmul_eq_mul, filter_pairKey]
  have := (peers_card_pos d i).ne'
  unfold Spec.avg
  field_simp

theorem within_eq (d : Data ni nf) (f : Fin ni → ℝ) :
    Spec.within d f = Spec.total f - ∑ i, f i * Spec.avg d f i := by
  unfold Spec.within Spec.total
  have : ∀ i, (f i - Spec.avg d f i) ^ 2 = f i ^ 2 - 2 * (f i * Spec.avg d f i) + Spec.avg d f i * Spec.avg d f i :=
    fun i => by ring
  simp only [this, sum_add_distrib, sum_sub_distrib, ← mul_sum]
  rw [← sum_avg_mul]
  ring

theorem within_nonneg (d : Data ni nf) (f : Fin ni → ℝ) : 0 ≤ Spec.within d f := sum_nonneg fun _ _ => sq_nonneg _

/-- Adding something constant within pairs changes nothing. -/
theorem within_add (d : Data ni nf) (f g : Fin ni → ℝ) (hg : ∀ i i', pairKey d i' = pairKey d i → g i' = g i) :
    Spec.within d (fun i => f i + g i) = Spec.within d f := by
  refine sum_congr rfl fun i _ => ?_
  have : Spec.avg d (fun i => f i + g i) i = Spec.avg d f i + g i := by
    unfold Spec.avg
    have e : ∑ i' ∈ Spec.peers d i, g i' = (Spec.peers d i).card * g i := by
      rw [← nsmul_eq_mul, ← sum_const]
      refine sum_congr rfl fun i' hi' => hg i i' ?_
      rw [← filter_pairKey] at hi'
      exact (mem_filter.mp hi').2
    rw [sum_add_distrib, e]
    have := (peers_card_pos d i).ne'
    field_simp
  rw [this]
  ring

theorem within_smul (d : Data ni nf) (f : Fin ni → ℝ) (s : ℝ) :
    Spec.within d (fun i => s * f i) = s ^ 2 * Spec.within d f := by
  unfold Spec.within
  rw [mul_sum]
  refine sum_congr rfl fun i _ => ?_
  have : Spec.avg d (fun i => s * f i) i = s * Spec.avg d f i := by
    unfold Spec.avg
    rw [← mul_sum, mul_div_assoc]
  rw [this]
  ring

/-! ## Columns -/

/-- Rows of a pair have equal entries in the intercept columns. -/
theorem X2_const (d : Data ni nf) (statA : Bool) {i i' : Fin ni} (h : pairKey d i' = pairKey d i) (c : ℕ) :
    X2 d statA i' c = X2 d statA i c := by
  obtain ⟨h1, h2⟩ := (pairKey_eq d i i').mp h
  cases statA <;> simp only [X2, hcat, drop1, JJ, h1, h2, Bool.false_eq_true, if_true, if_false]

/-- The coefficients of `R` and of the intercepts as coefficients of the whole design. -/
def joinR (o : Opts) (v : Fin (w1 nf o.statB) → ℝ) (a : Fin (w2 nf o.statA) → ℝ) (c : ℕ) : ℝ :=
  if c < w1 nf o.statB then
    (if c = o.normFid then - ext _ v 0 else if c < o.normFid then ext _ v (c + 1) else ext _ v c)
  else ext _ a (c - w1 nf o.statB)

theorem lin_ext (X : Fin ni → ℕ → ℝ) (v : Fin m → ℝ) (i : Fin ni) : lin m X v i = ∑ c ∈ range m, X i c * ext m v c :=
  sum_fin_ext (fun c => X i c) v

theorem lin_RR1 (d : Data ni nf) (o : Opts) (hn : o.normFid < w1 nf o.statB) (v : Fin (w1 nf o.statB) → ℝ) (i : Fin ni) :
    lin _ (RR1 d o) v i = ∑ c ∈ range (w1 nf o.statB), X1 d o.statB i c *
      (if c = o.normFid then - ext _ v 0 else if c < o.normFid then ext _ v (c + 1) else ext _ v c) := by
  rw [lin_ext]
  obtain ⟨k, hk⟩ : ∃ k, w1 nf o.statB = o.normFid + 1 + k := ⟨w1 nf o.statB - o.normFid - 1, by omega⟩
  generalize ext (w1 nf o.statB) v = w
  generalize hX : X1 d o.statB i = x
  have hR : ∀ c, RR1 d o i c = if c = 0 then - x o.normFid else x (skip o.normFid (c - 1)) := fun c => by
    simp only [RR1, hX]
  simp only [hR]
  rw [hk]
  generalize o.normFid = p
  have e1 : p + 1 + k = (p + k) + 1 := by omega
  have hl : ∑ c ∈ range (p + 1 + k), (if c = 0 then - x p else x (skip p (c - 1))) * w c =
      (∑ c ∈ range p, x c * w (c + 1)) + (∑ c ∈ range k, x (p + 1 + c) * w (p + 1 + c)) - x p * w 0 := by
    rw [e1, sum_range_succ' _ (p + k), sum_range_add]
    have s1 : ∑ c ∈ range p, (if c + 1 = 0 then - x p else x (skip p (c + 1 - 1))) * w (c + 1) =
        ∑ c ∈ range p, x c * w (c + 1) := sum_congr rfl fun c hc => by
      have := mem_range.mp hc
      rw [if_neg (by omega), Nat.add_sub_cancel, skip, if_pos this]
    have s2 : ∑ c ∈ range k, (if p + c + 1 = 0 then - x p else x (skip p (p + c + 1 - 1))) * w (p + c + 1) =
        ∑ c ∈ range k, x (p + 1 + c) * w (p + 1 + c) := sum_congr rfl fun c _ => by
      have e : p + c + 1 = p + 1 + c := by omega
      rw [if_neg (by omega), Nat.add_sub_cancel, skip, if_neg (by omega), e]
    rw [s1, s2, if_pos rfl]
    ring
  have hr : ∑ c ∈ range (p + 1 + k), x c * (if c = p then - w 0 else if c < p then w (c + 1) else w c) =
      (∑ c ∈ range p, x c * w (c + 1)) + (∑ c ∈ range k, x (p + 1 + c) * w (p + 1 + c)) - x p * w 0 := by
    rw [sum_range_add, sum_range_succ]
    have s1 : ∑ c ∈ range p, x c * (if c = p then - w 0 else if c < p then w (c + 1) else w c) =
        ∑ c ∈ range p, x c * w (c + 1) := sum_congr rfl fun c hc => by
      have := mem_range.mp hc
      rw [if_neg (by omega), if_pos this]
    have s2 : ∑ c ∈ range k, x (p + 1 + c) *
        (if p + 1 + c = p then - w 0 else if p + 1 + c < p then w (p + 1 + c + 1) else w (p + 1 + c)) =
        ∑ c ∈ range k, x (p + 1 + c) * w (p + 1 + c) := sum_congr rfl fun c _ => by
      rw [if_neg (by omega), if_neg (by omega)]
    rw [s1, s2, if_pos rfl]
    ring
  rw [hl, hr]

theorem resid_join (d : Data ni nf) (o : Opts) (hn : o.normFid < w1 nf o.statB) (v : Fin (w1 nf o.statB) → ℝ)
    (a : Fin (w2 nf o.statA) → ℝ) (i : Fin ni) :
    resid d o (joinR o v a) i = lin _ (RR1 d o) v i + lin _ (X2 d o.statA) a i := by
  have e : resid d o (joinR o v a) i = ∑ c ∈ range (w1 nf o.statB), X1 d o.statB i c * joinR o v a c +
      ∑ c ∈ range (w2 nf o.statA), X2 d o.statA i c * joinR o v a (w1 nf o.statB + c) := sum_hcat _ _ _ _ _ _
  rw [e, lin_RR1 d o hn, lin_ext (X2 d o.statA)]
  congr 1
  · exact sum_congr rfl fun c hc => by rw [joinR, if_pos (mem_range.mp hc)]
  · exact sum_congr rfl fun c _ => by rw [joinR, if_neg (by omega), Nat.add_sub_cancel_left]

/-- Every vector of coefficients is of that form. -/
theorem exists_join (o : Opts) (hn : o.normFid < w1 nf o.statB) (β : ℕ → ℝ) :
    ∃ (v : Fin (w1 nf o.statB) → ℝ) (a : Fin (w2 nf o.statA) → ℝ), ∀ c < ncol nf o, joinR o v a c = β c := by
  refine ⟨fun c => if c.val = 0 then - β o.normFid else β (skip o.normFid (c.val - 1)), fun c => β (w1 nf o.statB + c.val),
    fun c hc => ?_⟩
  unfold joinR
  by_cases h1 : c < w1 nf o.statB
  · rw [if_pos h1]
    by_cases h2 : c = o.normFid
    · rw [if_pos h2, ext, dif_pos (by omega)]
      simp [h2]
    · rw [if_neg h2]
      by_cases h3 : c < o.normFid
      · rw [if_pos h3, ext, dif_pos (by omega)]
        simp [skip, h3]
      · rw [if_neg h3, ext, dif_pos h1]
        have h4 : ¬ c - 1 < o.normFid := by omega
        have h5 : c - 1 + 1 = c := by omega
        have h6 : ¬ c = 0 := by omega
        simp [skip, h4, h5, h6]
  · rw [if_neg h1, ext, dif_pos (by unfold ncol at hc; omega)]
    have : w1 nf o.statB + (c - w1 nf o.statB) = c := by omega
    simp [this]

/-! ## Common weights -/

theorem cross_const (w : ℝ) (A B : Fin ni → ℕ → ℝ) : cross n m (fun _ => w) A B = w • cross n m (fun _ => 1) A B := by
  funext a b
  simp only [cross, Matrix.smul_apply, smul_eq_mul, mul_sum]
  exact sum_congr rfl fun i _ => by ring

theorem isum_const (z : Instr ni) (u : ℝ) (x : Fin ni → ℝ) (c : ℕ × ℕ) :
    z.sum (fun _ => u) x c = u * z.sum (fun _ => 1) x c := by
  simp only [Instr.sum, zsum, mul_sum]
  exact sum_congr rfl fun i _ => by ring

theorem crossZ_const (z : Instr ni) (w u v : ℝ) (A B : Fin ni → ℕ → ℝ) :
    crossZ n m z (fun _ => w) 0 (fun _ => u) (fun _ => v) A B =
      (u * v / w) • crossZ n m z (fun _ => 1) 0 (fun _ => 1) (fun _ => 1) A B := by
  funext a b
  simp only [crossZ, Matrix.smul_apply, smul_eq_mul, mul_sum]
  refine sum_congr rfl fun c _ => ?_
  simp only [Instr.inv, isum_const z u, isum_const z v, isum_const z w, add_zero]
  rw [one_div, mul_inv]
  ring

theorem crossP_mulVec (d : Data ni nf) (A B : Fin ni → ℕ → ℝ) (v : Fin m → ℝ) (a : Fin n) :
    (crossZ n m (.one (pairKey d)) (fun _ => 1) 0 (fun _ => 1) (fun _ => 1) A B).mulVec v a =
      ∑ i, A i a.val * Spec.avg d (lin m B v) i := by
  rw [crossZ_mulVec, proj_form]

theorem crossP_quad (d : Data ni nf) (A : Fin ni → ℕ → ℝ) (v : Fin n → ℝ) :
    quad (crossZ n n (.one (pairKey d)) (fun _ => 1) 0 (fun _ => 1) (fun _ => 1) A A) v =
      ∑ i, lin n A v i * Spec.avg d (lin n A v) i := by
  rw [crossZ_quad, ← proj_form]
  exact sum_congr rfl fun c _ => by ring

theorem cross1_quad (A : Fin ni → ℕ → ℝ) (v : Fin n → ℝ) :
    quad (cross n n (fun _ => 1) A A) v = Spec.total (lin n A v) := by
  rw [cross_quad, Spec.total]
  exact sum_congr rfl fun i _ => one_mul _

section
variable {w : ℝ} {d : Data ni nf} {o : Opts}

theorem wz2_eq (hD : d.D = fun _ => w) (hw : 0 < w) (htik : o.tik = 0) : wz2 d o (.one (pairKey d)) =
    w • (cross _ _ (fun _ => 1) (RR1 d o) (RR1 d o) -
      crossZ _ _ (.one (pairKey d)) (fun _ => 1) 0 (fun _ => 1) (fun _ => 1) (RR1 d o) (RR1 d o)) := by
  unfold wz2
  simp only [hD, htik]
  rw [cross_const, crossZ_const, smul_sub]
  have : √w * (√w * w) / w = w := by
    rw [← mul_assoc, Real.mul_self_sqrt hw.le]
    field_simp
  rw [this]

theorem wz2_symm (hD : d.D = fun _ => w) (hw : 0 < w) (htik : o.tik = 0) (a b : Fin (w1 nf o.statB)) :
    wz2 d o (.one (pairKey d)) a b = wz2 d o (.one (pairKey d)) b a := by
  rw [wz2_eq hD hw htik]
  simp only [Matrix.smul_apply, Matrix.sub_apply]
  rw [cross_symm, crossZ_symm]

theorem wz2_quad (hD : d.D = fun _ => w) (hw : 0 < w) (htik : o.tik = 0) (v : Fin (w1 nf o.statB) → ℝ) :
    quad (wz2 d o (.one (pairKey d))) v = w * Spec.within d (lin _ (RR1 d o) v) := by
  rw [wz2_eq hD hw htik, quad_smulM, quad_sub, cross1_quad, crossP_quad, within_eq]

theorem cross_transpose (u : Fin ni → ℝ) (A B : Fin ni → ℕ → ℝ) : (cross n m u A B).transpose = cross m n u B A := by
  funext a b
  simp only [Matrix.transpose_apply, cross]
  exact sum_congr rfl fun i _ => by ring

theorem wx2_symm (hD : d.D = fun _ => w) (a b : Fin (w1 nf o.statB)) :
    wx2 d o (cross _ _ d.D (X2 d o.statA) (X2 d o.statA))⁻¹ a b = wx2 d o (cross _ _ d.D (X2 d o.statA) (X2 d o.statA))⁻¹ b a := by
  have key : (wx2 d o (cross _ _ d.D (X2 d o.statA) (X2 d o.statA))⁻¹).transpose =
      wx2 d o (cross _ _ d.D (X2 d o.statA) (X2 d o.statA))⁻¹ := by
    unfold wx2
    simp only [hD]
    rw [cross_const (w * w), Matrix.mul_smul, Matrix.transpose_sub, Matrix.transpose_smul, Matrix.transpose_mul,
      Matrix.transpose_mul, Matrix.transpose_nonsing_inv]
    simp only [cross_transpose, Matrix.mul_assoc]
  exact congrFun (congrFun key b) a

/-- The quadratic form of `wx2`: the sum of squares of the residuals of a regression on the intercept columns. -/
theorem wx2_quad (hD : d.D = fun _ => w) (hw : 0 < w)
    (hdet : (cross (w2 nf o.statA) (w2 nf o.statA) d.D (X2 d o.statA) (X2 d o.statA)).det ≠ 0)
    (v : Fin (w1 nf o.statB) → ℝ) : ∃ a : Fin (w2 nf o.statA) → ℝ,
      quad (wx2 d o (cross _ _ d.D (X2 d o.statA) (X2 d o.statA))⁻¹) v =
        w * Spec.total (fun i => lin _ (RR1 d o) v i - lin _ (X2 d o.statA) a i) ∧
      ∀ a' : Fin (w2 nf o.statA) → ℝ, Spec.total (fun i => lin _ (RR1 d o) v i - lin _ (X2 d o.statA) a i) ≤
        Spec.total (fun i => lin _ (RR1 d o) v i + lin _ (X2 d o.statA) a' i) := by
  set G := cross (w2 nf o.statA) (w2 nf o.statA) d.D (X2 d o.statA) (X2 d o.statA) with hG
  set f := lin _ (RR1 d o) v with hf
  set c := (cross (w2 nf o.statA) (w1 nf o.statB) (fun i => d.D i * d.D i) (X2 d o.statA) (RR1 d o)).mulVec v with hc
  set a0 := G⁻¹.mulVec c with ha0
  have hGa : G.mulVec a0 = c := by
    rw [ha0, Matrix.mulVec_mulVec, Matrix.mul_nonsing_inv _ (isUnit_iff_ne_zero.mpr hdet), Matrix.one_mulVec]
  have hnormal : ∀ b : Fin (w2 nf o.statA), ∑ i, X2 d o.statA i b.val * (f i - lin _ (X2 d o.statA) (w⁻¹ • a0) i) = 0 := by
    intro b
    have := congrFun hGa b
    rw [hG, cross_mulVec, hc, cross_mulVec] at this
    simp only [hD] at this
    have hl : ∀ i, lin _ (X2 d o.statA) (w⁻¹ • a0) i = w⁻¹ * lin _ (X2 d o.statA) a0 i := fun i => by
      simp only [lin, mul_sum, Pi.smul_apply, smul_eq_mul]
      exact sum_congr rfl fun b _ => by ring
    have e : ∑ i, X2 d o.statA i b.val * (f i - lin _ (X2 d o.statA) (w⁻¹ • a0) i) =
        (w * w)⁻¹ * (∑ i, w * w * X2 d o.statA i b.val * f i) -
          (w * w)⁻¹ * (∑ i, w * X2 d o.statA i b.val * lin _ (X2 d o.statA) a0 i) := by
      rw [mul_sum, mul_sum, ← sum_sub_distrib]
      refine sum_congr rfl fun i _ => ?_
      rw [hl]
      field_simp
    rw [e, this, sub_self]
  set g := lin _ (X2 d o.statA) (w⁻¹ • a0) with hg
  have horth : ∀ a' : Fin (w2 nf o.statA) → ℝ, ∑ i, lin _ (X2 d o.statA) a' i * (f i - g i) = 0 := by
    intro a'
    have : ∀ i, lin _ (X2 d o.statA) a' i * (f i - g i) = ∑ b : Fin (w2 nf o.statA), a' b * (X2 d o.statA i b.val * (f i - g i)) :=
      fun i => by
        simp only [lin, sum_mul]
        exact sum_congr rfl fun b _ => by ring
    simp only [this]
    rw [sum_comm]
    exact sum_eq_zero fun b _ => by rw [← mul_sum, hnormal, mul_zero]
  refine ⟨w⁻¹ • a0, ?_, fun a' => ?_⟩
  · have hwx : ∀ a, (wx2 d o G⁻¹).mulVec v a = w * ∑ i, RR1 d o i a.val * (f i - g i) := by
      intro a
      unfold wx2
      rw [Matrix.sub_mulVec, Pi.sub_apply, ← Matrix.mulVec_mulVec, ← Matrix.mulVec_mulVec, ← hc, ← ha0, cross_mulVec,
        cross_mulVec, mul_sum, ← sum_sub_distrib]
      refine sum_congr rfl fun i _ => ?_
      have hl : lin _ (X2 d o.statA) a0 i = w * g i := by
        rw [hg]
        simp only [lin, mul_sum, Pi.smul_apply, smul_eq_mul]
        exact sum_congr rfl fun b _ => by field_simp
      rw [hl, ← hf]
      simp only [hD]
      ring
    unfold quad
    simp only [hwx]
    have e : ∑ a, v a * (w * ∑ i, RR1 d o i a.val * (f i - g i)) = w * ∑ i, f i * (f i - g i) := by
      simp only [mul_sum]
      rw [sum_comm]
      refine sum_congr rfl fun i _ => ?_
      rw [hf, lin, sum_mul, mul_sum]
      exact sum_congr rfl fun a _ => by ring
    rw [e]
    congr 1
    have := horth (w⁻¹ • a0)
    rw [← hg] at this
    rw [Spec.total]
    have e2 : ∑ i, (f i - g i) ^ 2 = ∑ i, f i * (f i - g i) - ∑ i, g i * (f i - g i) := by
      rw [← sum_sub_distrib]
      exact sum_congr rfl fun i _ => by ring
    rw [e2, this, sub_zero]
  · have h1 := horth (w⁻¹ • a0 + a')
    have hadd : ∀ i, lin _ (X2 d o.statA) (w⁻¹ • a0 + a') i = g i + lin _ (X2 d o.statA) a' i := fun i => by
      rw [hg]
      simp only [lin, Pi.add_apply, mul_add, sum_add_distrib]
    simp only [hadd] at h1
    unfold Spec.total
    have e : ∑ i, (f i + lin _ (X2 d o.statA) a' i) ^ 2 = ∑ i, (f i - g i) ^ 2 +
        2 * (∑ i, (g i + lin _ (X2 d o.statA) a' i) * (f i - g i)) + ∑ i, (g i + lin _ (X2 d o.statA) a' i) ^ 2 := by
      rw [mul_sum, ← sum_add_distrib, ← sum_add_distrib]
      exact sum_congr rfl fun i _ => by ring
    rw [e, h1]
    have := sum_nonneg fun i (_ : i ∈ univ) => sq_nonneg (g i + lin _ (X2 d o.statA) a' i)
    linarith

theorem resid_congr (d : Data ni nf) (o : Opts) {β β' : ℕ → ℝ} (h : ∀ c < ncol nf o, β c = β' c) :
    resid d o β = resid d o β' := by
  funext i
  exact sum_congr rfl fun c hc => by rw [h c (mem_range.mp hc)]

theorem lin_XX (d : Data ni nf) (o : Opts) (v : Fin (ncol nf o) → ℝ) : lin _ (XX d o) v = resid d o (ext _ v) := by
  funext i
  rw [lin_ext, resid]

/-- The matrix of the criterion, and the row `k` of its product with coefficients. -/
noncomputable def qm (d : Data ni nf) (o : Opts) (lam : ℝ) : Matrix (Fin (ncol nf o)) (Fin (ncol nf o)) ℝ :=
  (1 - lam) • cross _ _ (fun _ => 1) (XX d o) (XX d o) +
    lam • crossZ _ _ (.one (pairKey d)) (fun _ => 1) 0 (fun _ => 1) (fun _ => 1) (XX d o) (XX d o)

noncomputable def qrow (d : Data ni nf) (o : Opts) (lam : ℝ) (β : ℕ → ℝ) (k : ℕ) : ℝ :=
  (1 - lam) * (∑ i, XX d o i k * resid d o β i) + lam * ∑ i, XX d o i k * Spec.avg d (resid d o β) i

theorem qm_symm (lam : ℝ) (a b : Fin (ncol nf o)) : qm d o lam a b = qm d o lam b a := by
  simp only [qm, Matrix.add_apply, Matrix.smul_apply]
  rw [cross_symm, crossZ_symm]

theorem qm_quad (lam : ℝ) (v : Fin (ncol nf o) → ℝ) : quad (qm d o lam) v =
    Spec.total (resid d o (ext _ v)) - lam * Spec.within d (resid d o (ext _ v)) := by
  rw [qm, quad_addM, quad_smulM, quad_smulM, cross1_quad, crossP_quad, lin_XX, within_eq]
  ring

theorem qm_mulVec (lam : ℝ) (v : Fin (ncol nf o) → ℝ) (a : Fin (ncol nf o)) :
    (qm d o lam).mulVec v a = qrow d o lam (ext _ v) a.val := by
  rw [qm, Matrix.add_mulVec, Matrix.smul_mulVec, Matrix.smul_mulVec]
  simp only [Pi.add_apply, Pi.smul_apply, smul_eq_mul]
  rw [cross_mulVec, crossP_mulVec, lin_XX, qrow]
  simp only [one_mul]

theorem avg_add (d : Data ni nf) (f g : Fin ni → ℝ) (i : Fin ni) :
    Spec.avg d (fun i => f i + g i) i = Spec.avg d f i + Spec.avg d g i := by
  unfold Spec.avg
  rw [sum_add_distrib, add_div]

theorem avg_smul (d : Data ni nf) (s : ℝ) (f : Fin ni → ℝ) (i : Fin ni) :
    Spec.avg d (fun i => s * f i) i = s * Spec.avg d f i := by
  unfold Spec.avg
  rw [← mul_sum, mul_div_assoc]

theorem resid_insert (d : Data ni nf) (o : Opts) (hn : o.normFid < ncol nf o) (x : Fin (ncol nf o - 1) → ℝ) (i : Fin ni) :
    resid d o (insert1 o.normFid (ext _ x)) i = XX d o i o.normFid + lin _ (XXn d o) x i := by
  rw [resid, sum_insert1 _ _ _ _ hn, lin_ext]
  rfl

theorem RR1_zero (d : Data ni nf) (o : Opts) (hn : o.normFid < w1 nf o.statB) (i : Fin ni) :
    RR1 d o i 0 = - XX d o i o.normFid := by
  rw [RR1, if_pos rfl, XX, hcat, if_pos hn]

theorem rr2_eq (hD : d.D = fun _ => w) (hw : 0 < w) (htik : o.tik = 0) (lam : ℝ) : rr2 d o (.one (pairKey d)) lam =
    (1 - lam) • cross _ _ (fun _ => 1) (XXn d o) (XXn d o) +
      lam • crossZ _ _ (.one (pairKey d)) (fun _ => 1) 0 (fun _ => 1) (fun _ => 1) (XXn d o) (XXn d o) := by
  unfold rr2
  simp only [hD, htik]
  rw [crossZ_const, Real.mul_self_sqrt hw.le, div_self hw.ne', one_smul]

theorem ry2_eq (hD : d.D = fun _ => w) (hw : 0 < w) (htik : o.tik = 0) (hn : o.normFid < w1 nf o.statB) (lam : ℝ)
    (a : Fin (ncol nf o - 1)) : ry2 d o (.one (pairKey d)) lam a =
      (1 - lam) * (∑ i, XXn d o i a.val * - XX d o i o.normFid) +
        lam * ∑ i, XXn d o i a.val * Spec.avg d (fun i => - XX d o i o.normFid) i := by
  unfold ry2
  simp only [hD, htik]
  rw [crossZ_const, Real.mul_self_sqrt hw.le, div_self hw.ne', one_smul]
  have h0 : ∀ i, RR1 d o i (0 : Fin 1).val = - XX d o i o.normFid := RR1_zero d o hn
  simp only [cross, crossZ, h0, one_mul]
  rw [proj_form]

theorem rr2_ry2 (hD : d.D = fun _ => w) (hw : 0 < w) (htik : o.tik = 0) (hn : o.normFid < w1 nf o.statB) (lam : ℝ)
    (x : Fin (ncol nf o - 1) → ℝ) (a : Fin (ncol nf o - 1)) :
    (rr2 d o (.one (pairKey d)) lam).mulVec x a - ry2 d o (.one (pairKey d)) lam a =
      qrow d o lam (insert1 o.normFid (ext _ x)) (skip o.normFid a.val) := by
  have hn' : o.normFid < ncol nf o := lt_of_lt_of_le hn (Nat.le_add_right _ _)
  rw [rr2_eq hD hw htik, ry2_eq hD hw htik hn, Matrix.add_mulVec, Matrix.smul_mulVec, Matrix.smul_mulVec]
  simp only [Pi.add_apply, Pi.smul_apply, smul_eq_mul]
  rw [cross_mulVec, crossP_mulVec, qrow]
  have hr : resid d o (insert1 o.normFid (ext _ x)) = fun i => XX d o i o.normFid + lin _ (XXn d o) x i :=
    funext (resid_insert d o hn' x)
  have ha : ∀ i, Spec.avg d (fun i => - XX d o i o.normFid) i = - Spec.avg d (fun i => XX d o i o.normFid) i := fun i => by
    have := avg_smul d (-1) (fun i => XX d o i o.normFid) i
    simpa using this
  have hX : ∀ i, XX d o i (skip o.normFid a.val) = XXn d o i a.val := fun i => rfl
  rw [hr]
  simp only [avg_add, ha, hX, mul_add, mul_neg, sum_add_distrib, sum_neg_distrib, one_mul]
  ring

/-- What a successful run of `liml_2` establishes. -/
theorem limlTwo_spec (e : EigVec) (he : e.Right) (hD : d.D = fun _ => w) (hw : 0 < w) (htik : o.tik = 0)
    (β : ℕ → ℝ) (h : limlTwo e d o (.one (pairKey d)) = .ok β) :
    o.normFid < w1 nf o.statB ∧ β o.normFid = 1 ∧ ∃ lam : ℝ,
      (∀ β', lam * Spec.within d (resid d o β') ≤ Spec.total (resid d o β')) ∧
      Spec.total (resid d o β) = lam * Spec.within d (resid d o β) ∧
      (∀ δ : ℕ → ℝ, δ o.normFid = 0 → Spec.total (resid d o δ) = lam * Spec.within d (resid d o δ) →
        ∀ c < ncol nf o, δ c = 0) ∧
      (∀ β' : ℕ → ℝ, β' o.normFid = 1 → 0 < Spec.within d (resid d o β')) := by
  unfold limlTwo at h
  split at h
  · cases h
  rename_i hn
  have hn : o.normFid < w1 nf o.statB := by omega
  have hn' : o.normFid < ncol nf o := lt_of_lt_of_le hn (Nat.le_add_right _ _)
  simp only [bind, Except.bind] at h
  rcases h2 : invOf (cross (w2 nf o.statA) (w2 nf o.statA) d.D (X2 d o.statA) (X2 d o.statA)) with err | inv2
  · rw [h2] at h; cases h
  rw [h2] at h
  obtain ⟨hdet2, rfl⟩ := invOf_ok h2
  rcases h3 : invOf (wz2 d o (.one (pairKey d))) with err | wz
  · rw [h3] at h; cases h
  rw [h3] at h
  obtain ⟨hdetz, rfl⟩ := invOf_ok h3
  dsimp only at h
  rcases h4 : smallest e (wx2 d o (cross _ _ d.D (X2 d o.statA) (X2 d o.statA))⁻¹ * (wz2 d o (.one (pairKey d)))⁻¹) with err | p
  · rw [h4] at h; cases h
  rw [h4] at h
  dsimp only at h
  rcases h5 : solveQP (rr2 d o (.one (pairKey d)) p.1) (ry2 d o (.one (pairKey d)) p.1) with err | x
  · rw [h5] at h; cases h
  rw [h5] at h
  obtain ⟨hPD, hx⟩ := solveQP_ok h5
  have hβ : β = insert1 o.normFid (ext _ x) := (Except.ok.inj h).symm
  have hzpos : PosDef (wz2 d o (.one (pairKey d))) := posDef_of_det _ (wz2_symm hD hw htik)
    (fun v => by rw [wz2_quad hD hw htik]; exact mul_nonneg hw.le (within_nonneg d _)) hdetz
  obtain ⟨v, hv, hveq, hlow⟩ := smallest_right e he _ _ (wx2_symm hD) (wz2_symm hD hw htik) hzpos h4
  have hX2 : ∀ (a : Fin (w2 nf o.statA) → ℝ) i i', pairKey d i' = pairKey d i →
      lin _ (X2 d o.statA) a i' = lin _ (X2 d o.statA) a i := fun a i i' hh =>
    sum_congr rfl fun b _ => by rw [X2_const d o.statA hh]
  -- the criterion is nonnegative
  have hnonneg : ∀ β', p.1 * Spec.within d (resid d o β') ≤ Spec.total (resid d o β') := by
    intro β'
    obtain ⟨v', a', hj⟩ := exists_join o hn β'
    rw [← resid_congr d o hj]
    have hr : resid d o (joinR o v' a') = fun i => lin _ (RR1 d o) v' i + lin _ (X2 d o.statA) a' i :=
      funext (resid_join d o hn v' a')
    rw [hr, within_add d _ _ (hX2 a')]
    obtain ⟨a, hq, hmin⟩ := wx2_quad (o := o) hD hw hdet2 v'
    have := hlow v'
    rw [hq, wz2_quad hD hw htik] at this
    have h6 : p.1 * Spec.within d (lin _ (RR1 d o) v') ≤
        Spec.total (fun i => lin _ (RR1 d o) v' i - lin _ (X2 d o.statA) a i) := by
      by_contra hc
      push Not at hc
      have := mul_lt_mul_of_pos_left hc hw
      nlinarith
    exact le_trans h6 (hmin a')
  -- the eigenvector
  obtain ⟨a, hq, -⟩ := wx2_quad (o := o) hD hw hdet2 v
  have hz : Spec.total (resid d o (joinR o v (-a))) = p.1 * Spec.within d (resid d o (joinR o v (-a))) := by
    have hr : resid d o (joinR o v (-a)) = fun i => lin _ (RR1 d o) v i + lin _ (X2 d o.statA) (-a) i :=
      funext (resid_join d o hn v (-a))
    have hneg : ∀ i, lin _ (X2 d o.statA) (-a) i = - lin _ (X2 d o.statA) a i := fun i => by
      simp only [lin, Pi.neg_apply, mul_neg, sum_neg_distrib]
    rw [hr, within_add d _ _ (hX2 _)]
    simp only [hneg, ← sub_eq_add_neg]
    have e1 : quad (wx2 d o (cross _ _ d.D (X2 d o.statA) (X2 d o.statA))⁻¹) v =
        p.1 * quad (wz2 d o (.one (pairKey d))) v := by
      unfold quad
      rw [hveq, mul_sum]
      exact sum_congr rfl fun c _ => by simp only [Pi.smul_apply, smul_eq_mul]; ring
    rw [hq, wz2_quad hD hw htik] at e1
    have : w * Spec.total (fun i => lin _ (RR1 d o) v i - lin _ (X2 d o.statA) a i) =
        w * (p.1 * Spec.within d (lin _ (RR1 d o) v)) := by rw [e1]; ring
    exact mul_left_cancel₀ hw.ne' this
  have hjoin : ∀ c < ncol nf o, ext (ncol nf o) (fun c => joinR o v (-a) c.val) c = joinR o v (-a) c := fun c hc => by
    simp [ext, hc]
  -- zeros of the criterion with a zero at `norm_fid`
  have huniq : ∀ δ : ℕ → ℝ, δ o.normFid = 0 → Spec.total (resid d o δ) = p.1 * Spec.within d (resid d o δ) →
      ∀ c < ncol nf o, δ c = 0 := by
    intro δ h0 hδ
    set y : Fin (ncol nf o - 1) → ℝ := fun c => δ (skip o.normFid c.val) with hy
    have hins : ∀ i, lin _ (XXn d o) y i = resid d o δ i := by
      intro i
      have e1 : resid d o (insert1 o.normFid (ext _ y)) i = XX d o i o.normFid + lin _ (XXn d o) y i :=
        resid_insert d o hn' y i
      have e2 : resid d o (insert1 o.normFid (ext _ y)) i = XX d o i o.normFid + resid d o δ i := by
        have : ∀ c ∈ range (ncol nf o), XX d o i c * insert1 o.normFid (ext _ y) c =
            (if c = o.normFid then XX d o i o.normFid else 0) + XX d o i c * δ c := by
          intro c hc
          have hc := mem_range.mp hc
          by_cases hcn : c = o.normFid
          · rw [if_pos hcn, hcn, h0]
            simp [insert1]
          · rw [if_neg hcn, zero_add]
            congr 1
            unfold insert1
            by_cases hlt : c < o.normFid
            · rw [if_pos hlt, ext, dif_pos (by omega)]
              simp [hy, skip, hlt]
            · rw [if_neg hlt, if_neg hcn, ext, dif_pos (by omega)]
              have h7 : ¬ c - 1 < o.normFid := by omega
              have h8 : c - 1 + 1 = c := by omega
              simp [hy, skip, h7, h8]
        rw [resid, sum_congr rfl this, sum_add_distrib, sum_ite_eq' (range (ncol nf o)), if_pos (mem_range.mpr hn')]
        rfl
      linarith
    have hins' : lin _ (XXn d o) y = resid d o δ := funext hins
    have hy0 : y = 0 := by
      by_contra hne
      have := hPD y hne
      have e3 : ∑ c, y c * (rr2 d o (.one (pairKey d)) p.1).mulVec y c = 0 := by
        change quad _ y = 0
        rw [rr2_eq hD hw htik, quad_addM, quad_smulM, quad_smulM, cross1_quad, crossP_quad, hins']
        have := within_eq d (resid d o δ)
        rw [hδ] at this ⊢
        have e4 : ∑ i, resid d o δ i * Spec.avg d (resid d o δ) i =
            p.1 * Spec.within d (resid d o δ) - Spec.within d (resid d o δ) := by linarith
        rw [e4]
        ring
      rw [e3] at this
      exact lt_irrefl _ this
    intro c hc
    by_cases hcn : c = o.normFid
    · rw [hcn, h0]
    · by_cases hlt : c < o.normFid
      · have := congrFun hy0 ⟨c, by omega⟩
        simpa [hy, skip, hlt] using this
      · have := congrFun hy0 ⟨c - 1, by omega⟩
        have h7 : ¬ c - 1 < o.normFid := by omega
        have h8 : c - 1 + 1 = c := by omega
        simpa [hy, skip, h7, h8] using this
  -- the eigenvector can be normalised
  set s := joinR o v (-a) o.normFid with hs
  have hs0 : s ≠ 0 := by
    intro hs0
    have hall := huniq (joinR o v (-a)) hs0 hz
    apply hv
    funext c
    have hc0 : ext (w1 nf o.statB) v 0 = 0 := by
      have := hs0
      rw [hs, joinR, if_pos hn, if_pos rfl] at this
      linarith
    rw [← ext_lt v c]
    rcases Nat.eq_zero_or_pos c.val with h0 | hpos
    · rw [h0, hc0]; rfl
    · by_cases hle : c.val ≤ o.normFid
      · have := hall (c.val - 1) (by omega)
        rw [joinR, if_pos (by omega), if_neg (by omega), if_pos (by omega), Nat.sub_add_cancel hpos] at this
        exact this
      · have := hall c.val (by have := c.isLt; unfold ncol; omega)
        rw [joinR, if_pos c.isLt, if_neg (by omega), if_neg (by omega)] at this
        exact this
  set βn : ℕ → ℝ := fun c => s⁻¹ * joinR o v (-a) c with hβn
  have hrn : resid d o βn = fun i => s⁻¹ * resid d o (joinR o v (-a)) i := by
    funext i
    rw [resid, resid, mul_sum]
    exact sum_congr rfl fun c _ => by rw [hβn]; ring
  have hzn : Spec.total (resid d o βn) = p.1 * Spec.within d (resid d o βn) := by
    rw [hrn, within_smul]
    have : Spec.total (fun i => s⁻¹ * resid d o (joinR o v (-a)) i) = s⁻¹ ^ 2 * Spec.total (resid d o (joinR o v (-a))) := by
      unfold Spec.total
      rw [mul_sum]
      exact sum_congr rfl fun i _ => by ring
    rw [this, hz]
    ring
  have hβn1 : βn o.normFid = 1 := by
    rw [hβn]
    exact inv_mul_cancel₀ hs0
  -- it solves the equations
  have hextn : ∀ c < ncol nf o, ext (ncol nf o) (fun c => βn c.val) c = βn c := fun c hc => by simp [ext, hc]
  have hnull := null_of_quad (qm d o p.1) (qm_symm p.1) (fun y => by
    rw [qm_quad]; linarith [hnonneg (ext _ y)]) (fun c => βn c.val) (by
    rw [qm_quad, resid_congr d o hextn, hzn, sub_self])
  set xn : Fin (ncol nf o - 1) → ℝ := fun c => βn (skip o.normFid c.val) with hxn
  have hinsn : ∀ c < ncol nf o, insert1 o.normFid (ext _ xn) c = βn c := by
    intro c hc
    unfold insert1
    by_cases hlt : c < o.normFid
    · rw [if_pos hlt, ext, dif_pos (by omega)]
      simp [hxn, skip, hlt]
    · rw [if_neg hlt]
      by_cases hcn : c = o.normFid
      · rw [if_pos hcn, hcn, hβn1]
      · rw [if_neg hcn, ext, dif_pos (by omega)]
        have h7 : ¬ c - 1 < o.normFid := by omega
        have h8 : c - 1 + 1 = c := by omega
        simp [hxn, skip, h7, h8]
  have hsol : (rr2 d o (.one (pairKey d)) p.1).mulVec xn = ry2 d o (.one (pairKey d)) p.1 := by
    funext b
    rw [← sub_eq_zero, rr2_ry2 hD hw htik hn]
    have hb : skip o.normFid b.val < ncol nf o := by
      have := b.isLt
      unfold skip
      split <;> omega
    have := congrFun hnull ⟨_, hb⟩
    rw [qm_mulVec, qrow, resid_congr d o hextn] at this
    rw [qrow, resid_congr d o hinsn]
    exact this
  have hxx : x = xn := by
    have h9 := solveQP_eq hPD hsol
    rw [h5] at h9
    exact Except.ok.inj h9
  have hwpos : ∀ β' : ℕ → ℝ, β' o.normFid = 1 → 0 < Spec.within d (resid d o β') := by
    intro β' h1
    obtain ⟨v', a', hj⟩ := exists_join o hn β'
    have hv' : v' ≠ 0 := by
      rintro rfl
      have := hj o.normFid hn'
      rw [joinR, if_pos hn, if_pos rfl, h1] at this
      simp [ext] at this
    rw [← resid_congr d o hj]
    have hr : resid d o (joinR o v' a') = fun i => lin _ (RR1 d o) v' i + lin _ (X2 d o.statA) a' i :=
      funext (resid_join d o hn v' a')
    rw [hr, within_add d _ _ (hX2 a')]
    have := hzpos v' hv'
    change 0 < quad _ v' at this
    rw [wz2_quad hD hw htik] at this
    exact (mul_pos_iff_of_pos_left hw).mp this
  refine ⟨hn, ?_, p.1, hnonneg, ?_, huniq, hwpos⟩
  · rw [hβ]
    simp [insert1]
  · rw [hβ, hxx, resid_congr d o hinsn, hzn]

theorem resid_sub (d : Data ni nf) (o : Opts) (β β' : ℕ → ℝ) :
    resid d o (fun c => β c - β' c) = fun i => resid d o β i - resid d o β' i := by
  funext i
  simp only [resid, mul_sub, sum_sub_distrib]

theorem resid_add (d : Data ni nf) (o : Opts) (β β' : ℕ → ℝ) :
    resid d o (fun c => β c + β' c) = fun i => resid d o β i + resid d o β' i := by
  funext i
  simp only [resid, mul_add, sum_add_distrib]

theorem total_parallel (f g : Fin ni → ℝ) :
    Spec.total (fun i => f i - g i) + Spec.total (fun i => f i + g i) = 2 * Spec.total f + 2 * Spec.total g := by
  unfold Spec.total
  rw [mul_sum, mul_sum, ← sum_add_distrib, ← sum_add_distrib]
  exact sum_congr rfl fun i _ => by ring

theorem within_parallel (d : Data ni nf) (f g : Fin ni → ℝ) : Spec.within d (fun i => f i - g i) +
    Spec.within d (fun i => f i + g i) = 2 * Spec.within d f + 2 * Spec.within d g := by
  have e1 : ∀ i, Spec.avg d (fun i => f i - g i) i = Spec.avg d f i - Spec.avg d g i := fun i => by
    unfold Spec.avg
    rw [sum_sub_distrib, sub_div]
  unfold Spec.within
  simp only [e1, avg_add]
  rw [mul_sum, mul_sum, ← sum_add_distrib, ← sum_add_distrib]
  exact sum_congr rfl fun i _ => by ring

/-- The coefficients are the only ones for which the criterion is zero. -/
theorem limlTwo_unique (e : EigVec) (he : e.Right) (hD : d.D = fun _ => w) (hw : 0 < w) (htik : o.tik = 0)
    (β : ℕ → ℝ) (h : limlTwo e d o (.one (pairKey d)) = .ok β) (β' : ℕ → ℝ) (h1 : β' o.normFid = 1)
    (hle : Spec.total (resid d o β') * Spec.within d (resid d o β) ≤ Spec.total (resid d o β) * Spec.within d (resid d o β')) :
    ∀ c < ncol nf o, β c = β' c := by
  obtain ⟨-, hβ1, lam, hge, heq, hz, hpos⟩ := limlTwo_spec e he hD hw htik β h
  have p1 := hpos β hβ1
  have e1 : Spec.total (resid d o β') = lam * Spec.within d (resid d o β') := by
    refine le_antisymm ?_ (hge β')
    rw [heq] at hle
    have : Spec.total (resid d o β') * Spec.within d (resid d o β) ≤
        lam * Spec.within d (resid d o β') * Spec.within d (resid d o β) := by linarith
    exact le_of_mul_le_mul_right this p1
  have h0 : Spec.total (resid d o fun c => β c - β' c) = lam * Spec.within d (resid d o fun c => β c - β' c) := by
    have a1 := hge fun c => β c - β' c
    have a2 := hge fun c => β c + β' c
    rw [resid_sub] at a1 ⊢
    rw [resid_add] at a2
    have t := total_parallel (resid d o β) (resid d o β')
    have u := within_parallel d (resid d o β) (resid d o β')
    have u' := congrArg (lam * ·) u
    simp only [mul_add] at u'
    linarith
  intro c hc
  have := hz (fun c => β c - β' c) (by rw [hβ1, h1, sub_self]) h0 c hc
  linarith

end

/-! ## `liml_2` -/

/-- Effects have the slope of firm `norm_fid` in period one equal to one. -/
def Spec.Normalised (o : Opts) (x : Effects nf) : Prop := ∀ j : Fin nf, j.val = o.normFid → x.B1 j = 1

theorem coeffs_norm {o : Opts} {x : Effects nf} (hn : o.normFid < nf) (h : Spec.Normalised o x) :
    coeffs o x o.normFid = 1 := by
  have := coeffs_b1 o x ⟨o.normFid, hn⟩
  simp only at this
  rw [this, h _ rfl, one_div_one]

theorem extract_slopes (o : Opts) (hprof : o.profiling = false) (β : ℕ → ℝ)
    (hx : ∀ j, (extract nf o β).B1 j ≠ 0 ∧ (extract nf o β).B2 j ≠ 0) : ∀ c < w1 nf o.statB, β c ≠ 0 := by
  intro c hc h0
  unfold extract at hx
  simp only [hprof, Bool.or_false] at hx
  by_cases hB : o.statB = true
  · simp only [w1, hB, if_true] at hc
    have := (hx ⟨c, hc⟩).1
    simp [h0] at this
  · have hB : o.statB = false := by simpa using hB
    simp only [w1, hB, Bool.false_eq_true, if_false] at hc hx
    by_cases hlt : c < nf
    · have := (hx ⟨c, hlt⟩).1
      simp [h0] at this
    · have := (hx ⟨c - nf, by omega⟩).2
      have e : nf + (c - nf) = c := by omega
      simp [e, h0] at this

theorem extract_admissible (o : Opts) (β : ℕ → ℝ)
    (hx : ∀ j, (extract nf o β).B1 j ≠ 0 ∧ (extract nf o β).B2 j ≠ 0) : Spec.Admissible o (extract nf o β) where
  b1 j := (hx j).1
  b2 j := (hx j).2
  a0 j hj := by simp [extract, hj]
  statB h := by simp [extract, h]
  statA h j := by
    have h1 := (hx j).1
    have h2 := (hx j).2
    have e : (extract nf o β).A2 j = (extract nf o β).A1 j * ((extract nf o β).B2 j / (extract nf o β).B1 j) := by
      simp only [extract, h, if_true]
    rw [e]
    field_simp

theorem extract_norm (o : Opts) (β : ℕ → ℝ) (h1 : β o.normFid = 1) : Spec.Normalised o (extract nf o β) := by
  intro j hj
  change 1 / β j.val = 1
  rw [hj, h1, one_div_one]

/-- What a run without an exception consists of, unless the method is `linear`. -/
theorem fitAll_ok {e : EigVec} {rss : Data ni nf → (Fin ni → ℝ) → ℕ → ℝ} {d : Data ni nf} {o : Opts} {weighted : Bool}
    {C : ℝ} {W : Fin ni → ℕ} {nw : ℕ} {cz : Bool} (hm : o.method ≠ .linear) {x : Effects nf}
    (h : fitAll e rss d o weighted C W nw cz = .ok x) : validate o = .ok () ∧
      ∃ z β, instrOf d o W nw cz = .ok z ∧ coefficients e rss d o weighted C z = .ok β ∧ x = extract nf o β := by
  unfold fitAll at h
  simp only [bind, Except.bind] at h
  rcases hv : validate o with err | u
  · rw [hv] at h; cases h
  rw [hv] at h
  simp only [if_neg hm] at h
  rcases hz : instrOf d o W nw cz with err | z
  · rw [hz] at h; cases h
  rw [hz] at h
  dsimp only at h
  rcases hc : coefficients e rss d o weighted C z with err | β
  · rw [hc] at h; cases h
  rw [hc] at h
  exact ⟨rfl, z, β, rfl, hc, (Except.ok.inj h).symm⟩

theorem validate_prof {o : Opts} (h : validate o = .ok ()) (hp : o.profiling = true) :
    o.statB = false ∧ (o.method = .liml1 ∨ o.method = .hful) := by
  unfold validate at h
  rw [hp] at h
  cases hb : o.statB <;> cases hm : o.method <;> simp [hb, hm] at h ⊢

/-- What `liml_2` runs. -/
theorem fitAll_liml2 {e : EigVec} {rss : Data ni nf → (Fin ni → ℝ) → ℕ → ℝ} {d : Data ni nf} {o : Opts} {weighted : Bool}
    {C : ℝ} {W : Fin ni → ℕ} {nw : ℕ} (hm : o.method = .liml2) (hi : o.instrument = .firmPairs) {x : Effects nf}
    (h : fitAll e rss d o weighted C W nw true = .ok x) :
    o.profiling = false ∧ ∃ β, limlTwo e d o (.one (pairKey d)) = .ok β ∧ x = extract nf o β := by
  obtain ⟨hv, z, β, hz, hc, rfl⟩ := fitAll_ok (by rw [hm]; decide) h
  have hp : o.profiling = false := by
    by_contra hp
    have := (validate_prof hv (by simpa using hp)).2
    rw [hm] at this
    simp at this
  have hz' : z = .one (pairKey d) := by
    unfold instrOf at hz
    rw [if_pos rfl, hi] at hz
    exact (Except.ok.inj hz).symm
  subst hz'
  unfold coefficients at hc
  rw [if_neg (by rw [hp]; decide), if_pos hm] at hc
  exact ⟨hp, β, hc, rfl⟩

/-- C100, `liml_2` with firm pairs as instruments and equal weights: if it returns effects `x` and their slopes are
numbers, then `x` is admissible and normalised, and it minimises, over all admissible effects, the ratio of the sum of
squares of the moments to their sum of squares around the averages of the firm pairs; and no other normalised admissible
effects reach that minimum. -/
theorem C100_liml2_minimises (e : EigVec) (he : e.Right) (rss : Data ni nf → (Fin ni → ℝ) → ℕ → ℝ) (d : Data ni nf)
    (o : Opts) (weighted : Bool) (C : ℝ) (W : Fin ni → ℕ) (nw : ℕ) (hm : o.method = .liml2)
    (hi : o.instrument = .firmPairs) (htik : o.tik = 0) (w : ℝ) (hw : 0 < w) (hD : ∀ i, d.D i = w) (hn : o.normFid < nf)
    (x : Effects nf) (h : fitAll e rss d o weighted C W nw true = .ok x) (hx : ∀ j, x.B1 j ≠ 0 ∧ x.B2 j ≠ 0) :
    Spec.Admissible o x ∧ Spec.Normalised o x ∧ 0 < Spec.within d (Spec.moment d x) ∧
    (∀ x', Spec.Admissible o x' → Spec.total (Spec.moment d x) * Spec.within d (Spec.moment d x') ≤
      Spec.total (Spec.moment d x') * Spec.within d (Spec.moment d x)) ∧
    ∀ x', Spec.Admissible o x' → Spec.Normalised o x' → Spec.total (Spec.moment d x') * Spec.within d (Spec.moment d x) ≤
      Spec.total (Spec.moment d x) * Spec.within d (Spec.moment d x') → x' = x := by
  obtain ⟨hp, β, hβ, rfl⟩ := fitAll_liml2 hm hi h
  have hD' : d.D = fun _ => w := funext hD
  obtain ⟨hn1, hβ1, lam, hge, heq, -, hpos⟩ := limlTwo_spec e he hD' hw htik β hβ
  have hr : resid d o β = Spec.moment d (extract nf o β) :=
    funext fun i => C41_layout d o hp β (extract_slopes o hp β hx) i
  have hr' : ∀ x', Spec.Admissible o x' → resid d o (coeffs o x') = Spec.moment d x' := fun x' h' =>
    funext (resid_coeffs d o hp x' h')
  refine ⟨extract_admissible o β hx, extract_norm o β hβ1, hr ▸ hpos β hβ1, fun x' h' => ?_, fun x' h' hn' hle => ?_⟩
  · rw [← hr, ← hr' x' h', heq]
    have := mul_le_mul_of_nonneg_left (hge (coeffs o x')) (hpos β hβ1).le
    linarith
  · rw [← hr, ← hr' x' h'] at hle
    have := limlTwo_unique e he hD' hw htik β hβ (coeffs o x') (coeffs_norm hn hn') hle
    rw [extract_congr o hp _ _ this, C41_extract_coeffs o hp x' h']

/-- C100, `liml_2` with firm pairs as instruments and equal weights: if in every firm pair the moments at the effects `x`
average to zero, `liml_2` returns `x` whenever it returns.  Missing: unequal weights, for which
`C100_liml2_weighted_wrong` shows it false. -/
theorem C100_liml2_recovers_partial (e : EigVec) (he : e.Right) (rss : Data ni nf → (Fin ni → ℝ) → ℕ → ℝ) (d : Data ni nf)
    (o : Opts) (weighted : Bool) (C : ℝ) (W : Fin ni → ℕ) (nw : ℕ) (hm : o.method = .liml2)
    (hi : o.instrument = .firmPairs) (htik : o.tik = 0) (w : ℝ) (hw : 0 < w) (hD : ∀ i, d.D i = w) (hn : o.normFid < nf)
    (x : Effects nf) (hx : Spec.Admissible o x) (hnorm : Spec.Normalised o x)
    (hmom : ∀ j1 j2, ∑ i with d.J1 i = j1 ∧ d.J2 i = j2, Spec.moment d x i = 0)
    (x' : Effects nf) (h : fitAll e rss d o weighted C W nw true = .ok x') : x' = x := by
  obtain ⟨hp, β, hβ, rfl⟩ := fitAll_liml2 hm hi h
  have hD' : d.D = fun _ => w := funext hD
  obtain ⟨hn1, hβ1, lam, hge, heq, -, hpos⟩ := limlTwo_spec e he hD' hw htik β hβ
  have hr : resid d o (coeffs o x) = Spec.moment d x := funext (resid_coeffs d o hp x hx)
  have hc := coeffs_norm hn hnorm
  have havg : ∀ i, Spec.avg d (Spec.moment d x) i = 0 := fun i => by
    unfold Spec.avg Spec.peers
    rw [hmom, zero_div]
  have ht : Spec.total (resid d o (coeffs o x)) = Spec.within d (resid d o (coeffs o x)) := by
    rw [hr]
    simp only [Spec.within, havg, sub_zero, Spec.total]
  have hbig : Spec.within d (resid d o β) ≤ Spec.total (resid d o β) := by
    rw [within_eq, sum_avg_mul]
    have : 0 ≤ ∑ i, Spec.avg d (resid d o β) i * Spec.avg d (resid d o β) i := sum_nonneg fun i _ => mul_self_nonneg _
    linarith
  have := limlTwo_unique e he hD' hw htik β hβ (coeffs o x) hc (by
    rw [ht, mul_comm]
    exact mul_le_mul_of_nonneg_right hbig (within_nonneg d _))
  rw [extract_congr o hp _ _ this, C41_extract_coeffs o hp x hx]

end Pytwoway.Interacted
