import Verif.Interacted.OtherProps

/-! # C100: other instruments, and the link with C41 -/

namespace Pytwoway.Interacted

open Finset

variable {ni nf n m : ℕ}

/-! ## The same estimator as in C41 -/

theorem crossZ_one_eq (d : Data ni nf) (o : Opts) (key : Fin ni → ℕ) :
    crossZ (ncol nf o) (ncol nf o) (.one key) d.D o.tik d.D d.D (XX d o) (XX d o) = Wz d o key := by
  funext a b
  unfold crossZ Wz
  rw [one_cols]
  rfl

theorem limlOne_eq (e : EigVec) (d : Data ni nf) (o : Opts) (key : Fin ni → ℕ) :
    limlOne e (ncol nf o) (XX d o) d.D (.one key) o.tik o.normFid = liml1 e d o key := by
  unfold limlOne liml1
  rw [crossZ_one_eq]
  change (do
    let wx ← invOf (Wx d o)
    let p ← smallest e (wx * Wz d o key)
    let s ← pickNorm (ncol nf o) o.normFid p.2
    Except.ok fun c => ext (ncol nf o) p.2 c / s : Py (ℕ → ℝ)) = _
  unfold invOf smallest
  by_cases hd : (Wx d o).det = 0
  · rw [if_pos hd, if_pos hd]; rfl
  rw [if_neg hd, if_neg hd]
  simp only [bind, Except.bind]
  rcases (e.pairs ((Wx d o)⁻¹ * Wz d o key)).argmin Prod.fst with _ | p
  · rfl
  · by_cases hn : o.normFid < ncol nf o
    · simp only [pickNorm, dif_pos hn, if_pos hn, ext]
    · simp only [pickNorm, dif_neg hn, if_neg hn]

theorem ivAny_eq (d : Data ni nf) (o : Opts) (key : Fin ni → ℕ) : ivAny d o (.one key) = iv d o key := by
  unfold ivAny iv
  by_cases hw : w1 nf o.statB ≤ o.normFid
  · rw [if_pos hw, if_pos hw]
  rw [if_neg hw, if_neg hw]
  have e1 : crossZ (ncol nf o - 1) (ncol nf o - 1) (.one key) d.D o.tik (fun i => √(d.D i)) (fun i => √(d.D i)) (XXn d o)
      (XXn d o) = ivRR d o key := by
    funext a b
    unfold crossZ ivRR
    rw [one_cols]
    rfl
  have e2 : (fun a : Fin (ncol nf o - 1) => crossZ (ncol nf o - 1) 1 (.one key) d.D o.tik (fun i => √(d.D i))
      (fun i => √(d.D i)) (XXn d o) (RR1 d o) a 0) = ivRY d o key := by
    funext a
    unfold crossZ ivRY
    rw [one_cols]
    refine sum_congr rfl fun z _ => ?_
    have h0 : (fun i => RR1 d o i (0 : Fin 1).val) = fun i => - XX d o i o.normFid := funext (RR1_zero d o (by omega))
    rw [h0]
    rfl
  rw [e1, e2]

/-- C100: where the model of C41 applies (no profiling, no coarse instrument, method `linear`, `liml_1` or `iv`) the two
models agree, exceptions included. -/
theorem C100_agrees (e : EigVec) (rss : Data ni nf → (Fin ni → ℝ) → ℕ → ℝ) (d : Data ni nf) (o : Opts) (weighted : Bool)
    (C : ℝ) (W : Fin ni → ℕ) (nw : ℕ) (hp : o.profiling = false)
    (hm : o.method = .linear ∨ o.method = .liml1 ∨ o.method = .iv) :
    fitAll e rss d o weighted C W nw true = fitLinear e (fun d _ => rss d fun i => d.Y1 i - d.Y2 i) d o W nw true := by
  unfold fitAll fitLinear
  simp only [bind, Except.bind]
  rcases validate o with err | u
  · rfl
  dsimp only
  by_cases hl : o.method = .linear
  · rw [if_pos hl, if_pos hl]
  rw [if_neg hl, if_neg hl]
  have hk : ∀ key, coefficients e rss d o weighted C (.one key) =
      (if o.method = .liml1 then liml1 e d o key else iv d o key) := by
    intro key
    unfold coefficients
    rw [if_neg (by rw [hp]; decide)]
    rcases hm with hm | hm | hm
    · exact absurd hm hl
    · rw [hm]
      simp only [reduceCtorEq, if_false, if_true]
      rw [onDesign, if_pos hm, limlOne_eq]
    · rw [hm]
      simp only [reduceCtorEq, if_false, if_true]
      rw [ivAny_eq]
  unfold instrOf keyOf
  rw [if_pos rfl, if_pos rfl]
  cases hi : o.instrument
  · simp only [hp, Bool.false_eq_true, if_false]
    rw [hk]
    rcases hm with hm | hm | hm
    · exact absurd hm hl
    · rw [if_pos hm, if_pos hm]
    · have : ¬ o.method = .liml1 := by rw [hm]; decide
      rw [if_neg this, if_neg this, if_pos hm]
  · by_cases hW : ∀ i, W i < nw
    · simp only [if_pos hW, hp, Bool.false_eq_true, if_false]
      rw [hk]
      rcases hm with hm | hm | hm
      · exact absurd hm hl
      · rw [if_pos hm, if_pos hm]
      · have : ¬ o.method = .liml1 := by rw [hm]; decide
        rw [if_neg this, if_neg this, if_pos hm]
    · simp only [if_neg hW]
  · simp only [hp, Bool.false_eq_true, if_false]
    rw [hk]
    rcases hm with hm | hm | hm
    · exact absurd hm hl
    · rw [if_pos hm, if_pos hm]
    · have : ¬ o.method = .liml1 := by rw [hm]; decide
      rw [if_neg this, if_neg this, if_pos hm]

/-! ## Any instrument -/

theorem isum_pos (z : Instr ni) (D : Fin ni → ℝ) (hD : ∀ i, 0 < D i) (c : ℕ × ℕ) (hc : c ∈ z.cols) :
    0 < z.sum D (fun _ => 1) c := by
  obtain ⟨⟨k, i⟩, -, rfl⟩ := mem_image.mp hc
  unfold Instr.sum zsum
  simp only [mul_one]
  exact sum_pos (fun i' _ => hD i') ⟨i, by simp⟩

theorem inv_pos' (z : Instr ni) (D : Fin ni → ℝ) (hD : ∀ i, 0 < D i) {tik : ℝ} (ht : 0 ≤ tik) (c : ℕ × ℕ) (hc : c ∈ z.cols) :
    0 < z.inv D tik c := by
  unfold Instr.inv
  have := isum_pos z D hD c hc
  positivity

/-- `liml_1` on any design: if the sums of the instruments vanish at coefficients `b` and, up to a factor, at no others,
`liml_1` returns `b`. -/
theorem limlOne_recovers (e : EigVec) (he : e.Right) (X : Fin ni → ℕ → ℝ) (D : Fin ni → ℝ) (hD : ∀ i, 0 < D i) (z : Instr ni)
    (tik : ℝ) (ht : 0 ≤ tik) (norm : ℕ) (b : ℕ → ℝ) (hb : b norm = 1) (hn : norm < n)
    (hmom : ∀ c ∈ z.cols, z.sum D (fun i => ∑ c ∈ range n, X i c * b c) c = 0)
    (hid : ∀ β : ℕ → ℝ, (∀ c ∈ z.cols, z.sum D (fun i => ∑ c ∈ range n, X i c * β c) c = 0) →
      ∃ r : ℝ, ∀ c < n, β c = r * b c)
    (β : ℕ → ℝ) (h : limlOne e n X D z tik norm = .ok β) : ∀ c < n, β c = b c := by
  unfold limlOne at h
  simp only [bind, Except.bind] at h
  rcases h2 : invOf (cross n n D X X) with err | wx
  · rw [h2] at h; cases h
  rw [h2] at h
  obtain ⟨hdet, rfl⟩ := invOf_ok h2
  dsimp only at h
  rcases h4 : smallest e ((cross n n D X X)⁻¹ * crossZ n n z D tik D D X X) with err | p
  · rw [h4] at h; cases h
  rw [h4] at h
  simp only [pickNorm, dif_pos hn] at h
  have hβ := (Except.ok.inj h).symm
  have hpos : PosDef (cross n n D X X) := posDef_of_det _ (cross_symm D X)
    (fun v => by rw [cross_quad]; exact sum_nonneg fun i _ => mul_nonneg (hD i).le (sq_nonneg _)) hdet
  obtain ⟨hv, hveq, hlow⟩ := smallest_left e he _ _ (crossZ_symm z D tik D X) (cross_symm D X) hpos h4
  have hl : ∀ v : Fin n → ℝ, lin n X v = fun i => ∑ c ∈ range n, X i c * ext n v c := fun v => funext fun i => lin_ext X v i
  have hnn : ∀ v, 0 ≤ quad (crossZ n n z D tik D D X X) v := fun v => by
    rw [crossZ_quad]
    exact sum_nonneg fun c hc => mul_nonneg (inv_pos' z D hD ht c hc).le (sq_nonneg _)
  set v0 : Fin n → ℝ := fun c => b c.val with hv0
  have hv0e : ∀ i, lin n X v0 i = ∑ c ∈ range n, X i c * b c := fun i => by
    rw [lin_ext]
    exact sum_congr rfl fun c hc => by simp [ext, mem_range.mp hc, hv0]
  have hv0n : v0 ≠ 0 := fun h0 => by
    have := congrFun h0 ⟨norm, hn⟩
    simp [hv0, hb] at this
  have hq0 : quad (crossZ n n z D tik D D X X) v0 = 0 := by
    rw [crossZ_quad]
    refine sum_eq_zero fun c hc => ?_
    rw [funext hv0e, hmom c hc]
    ring
  have hle : p.1 ≤ 0 := by
    have h1 := hlow v0
    rw [hq0] at h1
    have h2 := hpos v0 hv0n
    change 0 < quad _ v0 at h2
    by_contra hc
    push Not at hc
    have := mul_pos hc h2
    linarith
  have hqp : quad (crossZ n n z D tik D D X X) p.2 = p.1 * quad (cross n n D X X) p.2 := by
    unfold quad
    rw [hveq, mul_sum]
    exact sum_congr rfl fun c _ => by simp only [Pi.smul_apply, smul_eq_mul]; ring
  have hq : quad (crossZ n n z D tik D D X X) p.2 = 0 := by
    have h1 := hnn p.2
    have h2 := hpos p.2 hv
    change 0 < quad _ p.2 at h2
    have := mul_nonneg_of_nonpos_of_nonpos hle (neg_nonpos.mpr h2.le)
    linarith
  rw [crossZ_quad, sum_eq_zero_iff_of_nonneg fun c hc => mul_nonneg (inv_pos' z D hD ht c hc).le (sq_nonneg _)] at hq
  obtain ⟨r, hr⟩ := hid (ext n p.2) fun c hc => by
    have h1 := hq c hc
    rw [hl] at h1
    exact pow_eq_zero_iff (two_ne_zero) |>.mp ((mul_eq_zero.mp h1).resolve_left (inv_pos' z D hD ht c hc).ne')
  have hr0 : r ≠ 0 := by
    rintro rfl
    apply hv
    funext c
    have := hr c.val c.isLt
    rw [ext_lt] at this
    rw [this]
    simp
  have hs : p.2 ⟨norm, hn⟩ = r := by
    have := hr norm hn
    rw [ext, dif_pos hn, hb, mul_one] at this
    exact this
  intro c hc
  rw [hβ]
  beta_reduce
  rw [hr c hc, hs]
  field_simp

/-- The coarse groups of firm pairs: movers from firm `j` to the coarse group `g`, and movers from the coarse group `g` to
firm `j`. -/
noncomputable def Spec.fromFirm (d : Data ni nf) (coarse : ℝ) (j : Fin nf) (g : ℕ) : Finset (Fin ni) :=
  open scoped Classical in univ.filter fun i => d.J1 i = j ∧ ⌊((d.J2 i).val : ℝ) / coarse⌋₊ = g

noncomputable def Spec.toFirm (d : Data ni nf) (coarse : ℝ) (j : Fin nf) (g : ℕ) : Finset (Fin ni) :=
  open scoped Classical in univ.filter fun i => d.J2 i = j ∧ ⌊((d.J1 i).val : ℝ) / coarse⌋₊ = g

theorem key_split {j j' : Fin nf} {g g' : ℕ} : j.val + nf * g = j'.val + nf * g' ↔ j = j' ∧ g = g' := by
  have h1 := j.isLt
  have h2 := j'.isLt
  constructor
  · intro h
    have e1 : j.val = j'.val := by
      have := congrArg (· % nf) h
      simpa [Nat.add_mul_mod_self_left, Nat.mod_eq_of_lt h1, Nat.mod_eq_of_lt h2] using this
    rw [e1] at h
    have e2 : nf * g = nf * g' := by omega
    exact ⟨Fin.ext e1, Nat.eq_of_mul_eq_mul_left (by omega) e2⟩
  · rintro ⟨rfl, rfl⟩; rfl

/-- The sums of the coarse instruments are sums over the coarse groups. -/
theorem coarse_sums (d : Data ni nf) (coarse : ℝ) (u f : Fin ni → ℝ) :
    (∀ c ∈ (Instr.coarse d coarse).cols, (Instr.coarse d coarse).sum u f c = 0) ↔
      (∀ j g, ∑ i ∈ Spec.fromFirm d coarse j g, u i * f i = 0) ∧ ∀ j g, ∑ i ∈ Spec.toFirm d coarse j g, u i * f i = 0 := by
  classical
  have hf : ∀ i0, (univ.filter fun i => (Instr.coarse d coarse).key 0 i = (Instr.coarse d coarse).key 0 i0) =
      Spec.fromFirm d coarse (d.J1 i0) ⌊((d.J2 i0).val : ℝ) / coarse⌋₊ := by
    intro i0
    ext i
    simp only [Spec.fromFirm, mem_filter, mem_univ, true_and, Instr.coarse, if_true]
    exact key_split
  have ht : ∀ i0, (univ.filter fun i => (Instr.coarse d coarse).key 1 i = (Instr.coarse d coarse).key 1 i0) =
      Spec.toFirm d coarse (d.J2 i0) ⌊((d.J1 i0).val : ℝ) / coarse⌋₊ := by
    intro i0
    ext i
    simp only [Spec.toFirm, mem_filter, mem_univ, true_and, Instr.coarse, one_ne_zero, if_false]
    exact key_split
  have hsum : ∀ k i0, (Instr.coarse d coarse).sum u f (k, (Instr.coarse d coarse).key k i0) =
      ∑ i ∈ univ.filter fun i => (Instr.coarse d coarse).key k i = (Instr.coarse d coarse).key k i0, u i * f i := by
    intro k i0
    unfold Instr.sum zsum
    exact sum_congr (by ext i; simp) fun _ _ => rfl
  have hmem : ∀ k < 2, ∀ i0, (k, (Instr.coarse d coarse).key k i0) ∈ (Instr.coarse d coarse).cols := fun k hk i0 =>
    mem_image.mpr ⟨(k, i0), mem_product.mpr ⟨mem_range.mpr hk, mem_univ _⟩, rfl⟩
  constructor
  · intro h
    constructor <;> intro j g
    · rcases (Spec.fromFirm d coarse j g).eq_empty_or_nonempty with he | ⟨i0, hi0⟩
      · rw [he, sum_empty]
      · simp only [Spec.fromFirm, mem_filter, mem_univ, true_and] at hi0
        obtain ⟨rfl, rfl⟩ := hi0
        rw [← hf, ← hsum]
        exact h _ (hmem 0 (by norm_num) i0)
    · rcases (Spec.toFirm d coarse j g).eq_empty_or_nonempty with he | ⟨i0, hi0⟩
      · rw [he, sum_empty]
      · simp only [Spec.toFirm, mem_filter, mem_univ, true_and] at hi0
        obtain ⟨rfl, rfl⟩ := hi0
        rw [← ht, ← hsum]
        exact h _ (hmem 1 (by norm_num) i0)
  · rintro ⟨h1, h2⟩ c hc
    obtain ⟨⟨k, i0⟩, hk, rfl⟩ := mem_image.mp hc
    have hk : k < 2 := mem_range.mp (mem_product.mp hk).1
    have : k = 0 ∨ k = 1 := by omega
    dsimp only
    rcases this with rfl | rfl
    · rw [hsum, hf]; exact h1 _ _
    · rw [hsum, ht]; exact h2 _ _

/-- C100, coarse instruments, `liml_1`: if in every coarse group the weighted moments at the effects `x` sum to zero, and
up to a factor no other coefficients have that property, `liml_1` returns `x` whenever it returns. -/
theorem C100_coarse_recovers (e : EigVec) (he : e.Right) (rss : Data ni nf → (Fin ni → ℝ) → ℕ → ℝ) (d : Data ni nf)
    (o : Opts) (weighted : Bool) (C : ℝ) (W : Fin ni → ℕ) (nw : ℕ) (hm : o.method = .liml1) (hp : o.profiling = false)
    (hi : o.instrument = .firmPairs) (htik : 0 ≤ o.tik) (hD : ∀ i, 0 < d.D i) (hn : o.normFid < nf)
    (x : Effects nf) (hx : Spec.Admissible o x) (hnorm : Spec.Normalised o x)
    (hfrom : ∀ j g, ∑ i ∈ Spec.fromFirm d o.coarse j g, d.D i * Spec.moment d x i = 0)
    (hto : ∀ j g, ∑ i ∈ Spec.toFirm d o.coarse j g, d.D i * Spec.moment d x i = 0)
    (hid : ∀ β : ℕ → ℝ,
      (∀ j g, ∑ i ∈ Spec.fromFirm d o.coarse j g, d.D i * ∑ c ∈ range (ncol nf o), XX d o i c * β c = 0) →
      (∀ j g, ∑ i ∈ Spec.toFirm d o.coarse j g, d.D i * ∑ c ∈ range (ncol nf o), XX d o i c * β c = 0) →
      ∃ r : ℝ, ∀ c < ncol nf o, β c = r * coeffs o x c)
    (x' : Effects nf) (h : fitAll e rss d o weighted C W nw false = .ok x') : x' = x := by
  obtain ⟨-, z, β, hz, hc, rfl⟩ := fitAll_ok (by rw [hm]; decide) h
  have hz' : z = .coarse d o.coarse := by
    unfold instrOf at hz
    rw [if_neg (by decide), hi] at hz
    exact (Except.ok.inj hz).symm
  subst hz'
  have h1 : ¬ o.method = .liml2 := by rw [hm]; decide
  have h2 : ¬ o.method = .iv := by rw [hm]; decide
  unfold coefficients at hc
  rw [if_neg (by rw [hp]; decide), if_neg h1, if_neg h2, onDesign, if_pos hm] at hc
  have hn' : o.normFid < ncol nf o := lt_of_lt_of_le hn (le_trans (w1_ge nf o.statB) (Nat.le_add_right _ _))
  have hr : ∀ i, ∑ c ∈ range (ncol nf o), XX d o i c * coeffs o x c = Spec.moment d x i := resid_coeffs d o hp x hx
  have := limlOne_recovers e he (XX d o) d.D hD _ o.tik htik o.normFid (coeffs o x) (coeffs_norm hn hnorm) hn'
    ((coarse_sums d o.coarse d.D _).mpr (by simp only [hr]; exact ⟨hfrom, hto⟩))
    (fun β hβ => by
      obtain ⟨hf, ht⟩ := (coarse_sums d o.coarse d.D _).mp hβ
      exact hid β hf ht) β hc
  rw [extract_congr o hp _ _ this, C41_extract_coeffs o hp x hx]

end Pytwoway.Interacted
