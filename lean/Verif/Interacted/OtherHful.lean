import Verif.Interacted.OtherCoarse

/-! # C100: `hful` -/

namespace Pytwoway.Interacted

open Finset

variable {ni nf n m : ℕ}

/-- The jackknife quadratic form: each mover's value times the sum of the values of the *other* movers with the same pair
of firms, over the number of movers with that pair. -/
noncomputable def Spec.jack (d : Data ni nf) (f : Fin ni → ℝ) : ℝ :=
  ∑ i, f i * (∑ i' ∈ (Spec.peers d i).erase i, f i') / (Spec.peers d i).card

theorem pzDiag_const (d : Data ni nf) {w : ℝ} (hw : 0 < w) (i : Fin ni) :
    pzDiag (.one (pairKey d)) (fun _ => w) 0 i = 1 / (Spec.peers d i).card := by
  unfold pzDiag
  change ∑ k ∈ range 1, _ = _
  rw [sum_range_one]
  unfold Instr.inv
  rw [show (Instr.one (pairKey d)).key 0 i = pairKey d i from rfl, one_sum]
  simp only [zsum, mul_one, add_zero, sum_const, nsmul_eq_mul, filter_pairKey]
  have := (peers_card_pos d i).ne'
  have h2 : √w * √w = w := Real.mul_self_sqrt hw.le
  calc √w * (1 / ((Spec.peers d i).card * w)) * √w = (√w * √w) * (1 / ((Spec.peers d i).card * w)) := by ring
    _ = _ := by rw [h2]; field_simp

theorem jack_eq (d : Data ni nf) (f : Fin ni → ℝ) :
    Spec.jack d f = ∑ i, f i * Spec.avg d f i - ∑ i, 1 / (Spec.peers d i).card * f i ^ 2 := by
  unfold Spec.jack Spec.avg
  rw [← sum_sub_distrib]
  refine sum_congr rfl fun i _ => ?_
  have hi : i ∈ Spec.peers d i := by simp [Spec.peers]
  rw [← add_sum_erase _ _ hi]
  have := (peers_card_pos d i).ne'
  field_simp
  ring

section
variable {w : ℝ} {d : Data ni nf}

theorem wzH_quad (hw : 0 < w) (X : Fin ni → ℕ → ℝ) (v : Fin n → ℝ) :
    quad (wzH n X (fun _ => w) (.one (pairKey d)) 0) v = Spec.jack d (lin n X v) := by
  unfold wzH
  rw [quad_sub, crossZ_const, Real.mul_self_sqrt hw.le, div_self hw.ne', one_smul, crossP_quad, cross_quad, jack_eq]
  simp only [pzDiag_const d hw]

theorem wzH_symm (X : Fin ni → ℕ → ℝ) (D : Fin ni → ℝ) (z : Instr ni) (tik : ℝ) (a b : Fin n) :
    wzH n X D z tik a b = wzH n X D z tik b a := by
  unfold wzH
  simp only [Matrix.sub_apply]
  rw [crossZ_symm, cross_symm]

end

theorem lambda2_zero (lam : ℝ) (ni : ℕ) : lambda2 lam 0 ni = lam := by simp [lambda2]

theorem rowWeights_const {weighted : Bool} {w : ℝ} (hw : 0 < w) {wt : Fin n → ℝ}
    (h : rowWeights (ni := ni) n weighted (fun _ => w) = .ok wt) : ∃ s : ℝ, 0 < s ∧ wt = fun _ => s := by
  unfold rowWeights at h
  split at h
  · split at h
    · exact ⟨w, hw, (Except.ok.inj h).symm⟩
    · cases h
  · exact ⟨1, one_pos, (Except.ok.inj h).symm⟩

/-- `W y` in terms of the entry `norm` and the others. -/
theorem dropCol_sum (norm : Fin n) (W : Matrix (Fin n) (Fin n) ℝ) (y : Fin n → ℝ) (r : Fin n) :
    W.mulVec y r = W r norm * y norm + ∑ c : Fin (n - 1), dropCol norm.val W r c.val * ext n y (skip norm.val c.val) := by
  have e : W.mulVec y r = ∑ c ∈ range n, (if h : c < n then W r ⟨c, h⟩ else 0) * ext n y c := by
    rw [← sum_fin_ext (fun c => if h : c < n then W r ⟨c, h⟩ else 0) y]
    simp only [Matrix.mulVec, dotProduct]
    exact sum_congr rfl fun c _ => by rw [dif_pos c.isLt]
  rw [e]
  set g : ℕ → ℝ := fun c => (if h : c < n then W r ⟨c, h⟩ else 0) * ext n y c with hg
  have hsplit : ∑ c ∈ range n, g c = g norm.val + ∑ c ∈ range (n - 1), g (skip norm.val c) := by
    have := sum_insert1 (fun c => g c) (fun c => 1) norm.val n norm.isLt
    have hi : ∀ c, insert1 norm.val (fun _ => (1 : ℝ)) c = 1 := fun c => by unfold insert1; split_ifs <;> rfl
    simpa [hi] using this
  rw [hsplit]
  congr 1
  · simp only [hg, dif_pos norm.isLt, ext_lt]
  · rw [← Fin.sum_univ_eq_sum_range (fun c => g (skip norm.val c))]
    rfl

theorem hfulG_mulVec (norm : ℕ) (s : ℝ) (W : Matrix (Fin n) (Fin n) ℝ) (x : Fin (n - 1) → ℝ) (a : Fin (n - 1)) :
    (hfulG norm (fun _ => s) W).mulVec x a =
      ∑ r, s * dropCol norm W r a.val * ∑ c : Fin (n - 1), dropCol norm W r c.val * x c := by
  simp only [Matrix.mulVec, dotProduct, hfulG, mul_sum, sum_mul]
  rw [sum_comm]
  exact sum_congr rfl fun r _ => sum_congr rfl fun c _ => by ring

theorem hfulG_quad (norm : ℕ) (s : ℝ) (W : Matrix (Fin n) (Fin n) ℝ) (x : Fin (n - 1) → ℝ) :
    quad (hfulG norm (fun _ => s) W) x = s * ∑ r, (∑ c : Fin (n - 1), dropCol norm W r c.val * x c) ^ 2 := by
  unfold quad
  have h1 : ∀ a : Fin (n - 1), x a * (hfulG norm (fun _ => s) W).mulVec x a =
      ∑ r, s * (dropCol norm W r a.val * x a) * ∑ c : Fin (n - 1), dropCol norm W r c.val * x c := fun a => by
    rw [hfulG_mulVec, mul_sum]
    exact sum_congr rfl fun r _ => by ring
  rw [sum_congr rfl fun a _ => h1 a, sum_comm, mul_sum]
  refine sum_congr rfl fun r _ => ?_
  rw [← sum_mul, ← mul_sum]
  ring

/-- What a successful run of `hful` with `C = 0` establishes, for a design with `n` columns. -/
theorem hful_spec (e : EigVec) (he : e.Right) (d : Data ni nf) (X : Fin ni → ℕ → ℝ) {w : ℝ} (hw : 0 < w) (weighted : Bool)
    (norm : ℕ) (β : ℕ → ℝ) (h : hful e n X (fun _ => w) weighted (.one (pairKey d)) 0 0 norm = .ok β) :
    norm < n ∧ β norm = 1 ∧ ∃ lam : ℝ,
      (∀ v : Fin n → ℝ, lam * Spec.total (lin n X v) ≤ Spec.jack d (lin n X v)) ∧
      Spec.jack d (lin n X fun c => β c.val) = lam * Spec.total (lin n X fun c => β c.val) ∧
      (∀ v : Fin n → ℝ, v ≠ 0 → 0 < Spec.total (lin n X v)) ∧
      (∀ v : Fin n → ℝ, (∀ h : norm < n, v ⟨norm, h⟩ = 1) →
        Spec.jack d (lin n X v) = lam * Spec.total (lin n X v) → ∀ c : Fin n, v c = β c.val) := by
  unfold hful at h
  simp only [bind, Except.bind] at h
  rcases h2 : invOf (cross n n (fun _ => 1) X X) with err | wx
  · rw [h2] at h; cases h
  rw [h2] at h
  obtain ⟨hdet, rfl⟩ := invOf_ok h2
  dsimp only at h
  set B := cross n n (fun _ => (1 : ℝ)) X X with hB
  set A := wzH n X (fun _ => w) (.one (pairKey d)) 0 with hA
  rcases h4 : smallest e (B⁻¹ * A) with err | p
  · rw [h4] at h; cases h
  rw [h4] at h
  dsimp only at h
  rw [lambda2_zero] at h
  set M := B⁻¹ * A - p.1 • (1 : Matrix (Fin n) (Fin n) ℝ) with hM
  unfold hfulSolve at h
  split at h
  swap
  · cases h
  rename_i hn
  simp only [bind, Except.bind] at h
  rcases h5 : rowWeights n weighted (fun _ : Fin ni => w) with err | wt
  · rw [h5] at h; cases h
  rw [h5] at h
  obtain ⟨s, hs, rfl⟩ := rowWeights_const hw h5
  dsimp only at h
  rcases h6 : solveQP (hfulG norm (fun _ => s) M) (hfulA ⟨norm, hn⟩ (fun _ => s) M) with err | x
  · rw [h6] at h; cases h
  rw [h6] at h
  have hβ := (Except.ok.inj h).symm
  obtain ⟨hPD, hx⟩ := solveQP_ok h6
  have hBs : ∀ a b, B a b = B b a := cross_symm _ X
  have hAs : ∀ a b, A a b = A b a := wzH_symm X _ _ _
  have hBpos : PosDef B := posDef_of_det _ hBs
    (fun v => by rw [hB, cross1_quad]; exact sum_nonneg fun i _ => sq_nonneg _) hdet
  obtain ⟨hv, hveq, hlow⟩ := smallest_left e he A B hAs hBs hBpos h4
  have hAq : ∀ v, quad A v = Spec.jack d (lin n X v) := fun v => wzH_quad hw X v
  have hBq : ∀ v, quad B v = Spec.total (lin n X v) := fun v => cross1_quad X v
  have hu : IsUnit B.det := isUnit_iff_ne_zero.mpr hdet
  -- null vectors
  have hnull : ∀ v : Fin n → ℝ, quad A v = p.1 * quad B v → M.mulVec v = 0 := by
    intro v hq
    have h1 := null_of_quad (A - p.1 • B)
      (fun a b => by simp only [Matrix.sub_apply, Matrix.smul_apply]; rw [hAs a b, hBs a b])
      (fun y => by rw [quad_sub, quad_smulM]; linarith [hlow y]) v (by rw [quad_sub, quad_smulM, hq, sub_self])
    have h2 : M = B⁻¹ * (A - p.1 • B) := by
      rw [hM, Matrix.mul_sub, Matrix.mul_smul, Matrix.nonsing_inv_mul _ hu]
    rw [h2, ← Matrix.mulVec_mulVec, h1, Matrix.mulVec_zero]
  have hzero : ∀ v : Fin n → ℝ, v ⟨norm, hn⟩ = 0 → M.mulVec v = 0 → v = 0 := by
    intro v h0 hM0
    set y : Fin (n - 1) → ℝ := fun c => ext n v (skip norm c.val) with hy
    have hy0 : y = 0 := by
      by_contra hne
      have := hPD y hne
      change 0 < quad _ y at this
      rw [hfulG_quad] at this
      have hz : ∀ r, ∑ c : Fin (n - 1), dropCol norm M r c.val * y c = 0 := by
        intro r
        have := congrFun hM0 r
        rw [dropCol_sum ⟨norm, hn⟩, h0, mul_zero, zero_add] at this
        exact this
      simp [hz] at this
    funext c
    by_cases hcn : c.val = norm
    · have : c = ⟨norm, hn⟩ := Fin.ext hcn
      rw [this, h0]; rfl
    · rw [← ext_lt v c]
      have hcl := c.isLt
      by_cases hlt : c.val < norm
      · have := congrFun hy0 ⟨c.val, by omega⟩
        simpa [hy, skip, hlt] using this
      · have := congrFun hy0 ⟨c.val - 1, by omega⟩
        have h7 : ¬ c.val - 1 < norm := by omega
        have h8 : c.val - 1 + 1 = c.val := by omega
        simpa [hy, skip, h7, h8] using this
  -- normalised null vectors are what is returned
  have hret : ∀ v : Fin n → ℝ, v ⟨norm, hn⟩ = 1 → M.mulVec v = 0 → ∀ c : Fin n, v c = β c.val := by
    intro v h1 hM0
    set y : Fin (n - 1) → ℝ := fun c => ext n v (skip norm c.val) with hy
    have hsol : (hfulG norm (fun _ => s) M).mulVec y = hfulA ⟨norm, hn⟩ (fun _ => s) M := by
      funext a
      rw [hfulG_mulVec, hfulA]
      refine sum_congr rfl fun r _ => ?_
      have := congrFun hM0 r
      rw [dropCol_sum ⟨norm, hn⟩, h1, mul_one] at this
      change M r ⟨norm, hn⟩ + ∑ c : Fin (n - 1), dropCol norm M r c.val * y c = 0 at this
      have h9 : ∑ c : Fin (n - 1), dropCol norm M r c.val * y c = - M r ⟨norm, hn⟩ := by linarith
      rw [h9]
    have h10 := solveQP_eq hPD hsol
    rw [h6] at h10
    have hxy : x = y := Except.ok.inj h10
    intro c
    rw [hβ, hxy]
    have hcl := c.isLt
    unfold insert1
    by_cases hlt : c.val < norm
    · rw [if_pos hlt, ext, dif_pos (by omega)]
      simp [hy, skip, hlt, ext_lt]
    · rw [if_neg hlt]
      by_cases hcn : c.val = norm
      · rw [if_pos hcn, ← h1]
        congr 1
        exact Fin.ext hcn
      · rw [if_neg hcn, ext, dif_pos (by omega)]
        have h7 : ¬ c.val - 1 < norm := by omega
        have h8 : c.val - 1 + 1 = c.val := by omega
        simp [hy, skip, h7, h8, ext_lt]
  -- the eigenvector
  have hqp : quad A p.2 = p.1 * quad B p.2 := by
    unfold quad
    rw [hveq, mul_sum]
    exact sum_congr rfl fun c _ => by simp only [Pi.smul_apply, smul_eq_mul]; ring
  have hpn : p.2 ⟨norm, hn⟩ ≠ 0 := fun h0 => hv (hzero p.2 h0 (hnull p.2 hqp))
  set t := (p.2 ⟨norm, hn⟩)⁻¹ with ht
  have hq1 : quad A (t • p.2) = p.1 * quad B (t • p.2) := by
    rw [quad_smul, quad_smul, hqp]; ring
  have hpβ := hret (t • p.2) (by simp only [Pi.smul_apply, smul_eq_mul]; exact inv_mul_cancel₀ hpn) (hnull _ hq1)
  have hfun : (fun c : Fin n => β c.val) = t • p.2 := funext fun c => (hpβ c).symm
  refine ⟨hn, ?_, p.1, fun v => ?_, ?_, fun v hv0 => ?_, fun v h1 hq => ?_⟩
  · rw [hβ]; simp [insert1]
  · rw [← hAq, ← hBq]; exact hlow v
  · rw [hfun, ← hAq, ← hBq, hq1]
  · rw [← hBq]; exact hBpos v hv0
  · exact hret v (h1 hn) (hnull v (by rw [hAq, hBq, hq]))

/-- What `hful` runs without profiling. -/
theorem fitAll_hful {e : EigVec} {rss : Data ni nf → (Fin ni → ℝ) → ℕ → ℝ} {d : Data ni nf} {o : Opts} {weighted : Bool}
    {C : ℝ} {W : Fin ni → ℕ} {nw : ℕ} (hm : o.method = .hful) (hi : o.instrument = .firmPairs) (hp : o.profiling = false)
    {x : Effects nf} (h : fitAll e rss d o weighted C W nw true = .ok x) :
    ∃ β, hful e (ncol nf o) (XX d o) d.D weighted (.one (pairKey d)) o.tik C o.normFid = .ok β ∧ x = extract nf o β := by
  obtain ⟨hv, z, β, hz, hc, rfl⟩ := fitAll_ok (by rw [hm]; decide) h
  have hz' : z = .one (pairKey d) := by
    unfold instrOf at hz
    rw [if_pos rfl, hi] at hz
    exact (Except.ok.inj hz).symm
  subst hz'
  have h1 : ¬ o.method = .liml2 := by rw [hm]; decide
  have h2 : ¬ o.method = .iv := by rw [hm]; decide
  have h3 : ¬ o.method = .liml1 := by rw [hm]; decide
  unfold coefficients at hc
  rw [if_neg (by rw [hp]; decide), if_neg h1, if_neg h2, onDesign, if_neg h3] at hc
  exact ⟨β, hc, rfl⟩

/-- C100, `hful` with firm pairs as instruments, equal weights and `C = 0`: if it returns effects `x` and their slopes are
numbers, then `x` is admissible, and normalised if `norm_fid` is a firm, and minimises over all admissible effects the
ratio of the jackknife form of the moments to their sum of squares; no other normalised admissible effects reach that
minimum.  Missing: unequal weights, and `C` other than 0 (the default is 1), for which
`C100_hful_default_wrong` shows that the equations of the estimator are not solved. -/
theorem C100_hful_minimises_partial (e : EigVec) (he : e.Right) (rss : Data ni nf → (Fin ni → ℝ) → ℕ → ℝ) (d : Data ni nf)
    (o : Opts) (weighted : Bool) (W : Fin ni → ℕ) (nw : ℕ) (hm : o.method = .hful) (hp : o.profiling = false)
    (hi : o.instrument = .firmPairs) (htik : o.tik = 0) (w : ℝ) (hw : 0 < w) (hD : ∀ i, d.D i = w) (hn : o.normFid < nf)
    (x : Effects nf) (h : fitAll e rss d o weighted 0 W nw true = .ok x) (hx : ∀ j, x.B1 j ≠ 0 ∧ x.B2 j ≠ 0) :
    Spec.Admissible o x ∧ Spec.Normalised o x ∧ 0 < Spec.total (Spec.moment d x) ∧
    (∀ x', Spec.Admissible o x' → Spec.jack d (Spec.moment d x) * Spec.total (Spec.moment d x') ≤
      Spec.jack d (Spec.moment d x') * Spec.total (Spec.moment d x)) ∧
    ∀ x', Spec.Admissible o x' → Spec.Normalised o x' → Spec.jack d (Spec.moment d x') * Spec.total (Spec.moment d x) ≤
      Spec.jack d (Spec.moment d x) * Spec.total (Spec.moment d x') → x' = x := by
  obtain ⟨β, hβ, rfl⟩ := fitAll_hful hm hi hp h
  rw [show d.D = fun _ => w from funext hD, htik] at hβ
  obtain ⟨hn', hβ1, lam, hge, heq, hpos, huniq⟩ := hful_spec e he d (XX d o) hw weighted o.normFid β hβ
  have hl : ∀ b : ℕ → ℝ, lin (ncol nf o) (XX d o) (fun c => b c.val) = resid d o b := fun b => by
    rw [lin_XX]
    exact resid_congr d o fun c hc => by simp [ext, hc]
  have hr : resid d o β = Spec.moment d (extract nf o β) :=
    funext fun i => C41_layout d o hp β (extract_slopes o hp β hx) i
  have hr' : ∀ x', Spec.Admissible o x' → resid d o (coeffs o x') = Spec.moment d x' := fun x' h' =>
    funext (resid_coeffs d o hp x' h')
  have htot : 0 < Spec.total (resid d o β) := by
    rw [← hl]
    refine hpos _ fun h0 => ?_
    have := congrFun h0 ⟨o.normFid, hn'⟩
    simp [hβ1] at this
  rw [hl] at heq
  refine ⟨extract_admissible o β hx, extract_norm o β hβ1, hr ▸ htot, fun x' h' => ?_, fun x' h' hn' hle => ?_⟩
  · rw [← hr, ← hr' x' h', heq]
    have := hge fun c => coeffs o x' c.val
    rw [hl] at this
    have := mul_le_mul_of_nonneg_left this htot.le
    linarith
  · rw [← hr, ← hr' x' h', heq] at hle
    have h1 := hge fun c => coeffs o x' c.val
    rw [hl] at h1
    have h2 : Spec.jack d (resid d o (coeffs o x')) = lam * Spec.total (resid d o (coeffs o x')) := by
      refine le_antisymm ?_ h1
      have : Spec.jack d (resid d o (coeffs o x')) * Spec.total (resid d o β) ≤
          lam * Spec.total (resid d o (coeffs o x')) * Spec.total (resid d o β) := by linarith
      exact le_of_mul_le_mul_right this htot
    have h3 := huniq (fun c => coeffs o x' c.val) (fun _ => coeffs_norm hn hn') (by rw [hl]; exact h2)
    rw [← C41_extract_coeffs o hp x' h']
    exact extract_congr o hp _ _ fun c hc => h3 ⟨c, hc⟩

/-- C100, `hful` with `C = 0`, equal weights and as many movers in every pair of firms: if the moments at the effects `x`
average to zero in every pair, `hful` returns `x` whenever it returns.  Missing: pairs of different sizes
(`C100_hful_pairs_wrong`), unequal weights (`C100_hful_weighted_wrong`) and `C` other than zero
(`C100_hful_default_wrong`), for which the claim is false. -/
theorem C100_hful_recovers_partial (e : EigVec) (he : e.Right) (rss : Data ni nf → (Fin ni → ℝ) → ℕ → ℝ) (d : Data ni nf)
    (o : Opts) (weighted : Bool) (W : Fin ni → ℕ) (nw : ℕ) (hm : o.method = .hful) (hp : o.profiling = false)
    (hi : o.instrument = .firmPairs) (htik : o.tik = 0) (w : ℝ) (hw : 0 < w) (hD : ∀ i, d.D i = w) (hn : o.normFid < nf)
    (k : ℕ) (hbal : ∀ i, (univ.filter fun i' => d.J1 i' = d.J1 i ∧ d.J2 i' = d.J2 i).card = k)
    (x : Effects nf) (hx : Spec.Admissible o x) (hnorm : Spec.Normalised o x)
    (hmom : ∀ j1 j2, ∑ i with d.J1 i = j1 ∧ d.J2 i = j2, Spec.moment d x i = 0)
    (x' : Effects nf) (h : fitAll e rss d o weighted 0 W nw true = .ok x') : x' = x := by
  obtain ⟨β, hβ, rfl⟩ := fitAll_hful hm hi hp h
  rw [show d.D = fun _ => w from funext hD, htik] at hβ
  obtain ⟨hn', hβ1, lam, hge, heq, hpos, huniq⟩ := hful_spec e he d (XX d o) hw weighted o.normFid β hβ
  have hl : ∀ b : ℕ → ℝ, lin (ncol nf o) (XX d o) (fun c => b c.val) = resid d o b := fun b => by
    rw [lin_XX]
    exact resid_congr d o fun c hc => by simp [ext, hc]
  have hr : resid d o (coeffs o x) = Spec.moment d x := funext (resid_coeffs d o hp x hx)
  have hj : ∀ f : Fin ni → ℝ, Spec.jack d f = ∑ i, Spec.avg d f i * Spec.avg d f i - 1 / k * Spec.total f := fun f => by
    rw [jack_eq, sum_avg_mul, Spec.total, mul_sum]
    congr 1
    exact sum_congr rfl fun i _ => by rw [show Spec.peers d i = univ.filter fun i' => d.J1 i' = d.J1 i ∧ d.J2 i' = d.J2 i from rfl, hbal]
  have havg : ∀ i, Spec.avg d (Spec.moment d x) i = 0 := fun i => by
    unfold Spec.avg Spec.peers
    rw [hmom, zero_div]
  have htot : 0 < Spec.total (resid d o β) := by
    rw [← hl]
    refine hpos _ fun h0 => ?_
    have := congrFun h0 ⟨o.normFid, hn'⟩
    simp [hβ1] at this
  have hx0 : 0 < Spec.total (Spec.moment d x) := by
    rw [← hr, ← hl]
    refine hpos _ fun h0 => ?_
    have := congrFun h0 ⟨o.normFid, hn'⟩
    simp [coeffs_norm hn hnorm] at this
  rw [hl, hj] at heq
  have h1 := hge fun c => coeffs o x c.val
  rw [hl, hr, hj] at h1
  simp only [havg, mul_zero, sum_const_zero, zero_sub] at h1
  have hlam : lam = - (1 / k) := by
    refine le_antisymm ?_ ?_
    · by_contra hc
      push Not at hc
      have := mul_lt_mul_of_pos_right hc hx0
      linarith
    · by_contra hc
      push Not at hc
      have := mul_lt_mul_of_pos_right hc htot
      have h2 : 0 ≤ ∑ i, Spec.avg d (resid d o β) i * Spec.avg d (resid d o β) i := sum_nonneg fun i _ => mul_self_nonneg _
      linarith
  have h3 := huniq (fun c => coeffs o x c.val) (fun _ => coeffs_norm hn hnorm) (by
    rw [hl, hr, hj, hlam]
    simp only [havg, mul_zero, sum_const_zero]
    ring)
  rw [← C41_extract_coeffs o hp x hx]
  exact (extract_congr o hp _ _ fun c hc => h3 ⟨c, hc⟩).symm

/-! ## Without noise -/

theorem cross_singular (D : Fin ni → ℝ) (X : Fin ni → ℕ → ℝ) (b : ℕ → ℝ) (c0 : ℕ) (hc0 : c0 < n) (hb : b c0 ≠ 0)
    (h0 : ∀ i, ∑ c ∈ range n, X i c * b c = 0) : (cross n n D X X).det = 0 := by
  refine Matrix.exists_mulVec_eq_zero_iff.mp ⟨fun c => b c.val, fun h => hb (congrFun h ⟨c0, hc0⟩), ?_⟩
  funext a
  rw [cross_mulVec]
  refine sum_eq_zero fun i _ => ?_
  have : lin n X (fun c => b c.val) i = 0 := by
    rw [lin_ext, ← h0 i]
    exact sum_congr rfl fun c hc => by simp [ext, mem_range.mp hc]
  rw [this, mul_zero]

/-- C100: data without noise cannot be used: if the moments hold exactly for every mover, `hful` raises, whatever the
instruments and weights. -/
theorem C100_hful_noiseless_raises (e : EigVec) (rss : Data ni nf → (Fin ni → ℝ) → ℕ → ℝ) (d : Data ni nf)
    (o : Opts) (weighted : Bool) (C : ℝ) (W : Fin ni → ℕ) (nw : ℕ) (cz : Bool) (hm : o.method = .hful)
    (hp : o.profiling = false) (hi : o.instrument = .firmPairs) (hnf : 0 < nf) (x : Effects nf) (hx : Spec.Admissible o x)
    (hmom : ∀ i, Spec.moment d x i = 0) : fitAll e rss d o weighted C W nw cz = .error "RuntimeError" := by
  have hdet : (cross (ncol nf o) (ncol nf o) (fun _ => 1) (XX d o) (XX d o)).det = 0 := by
    have h0 : 0 < ncol nf o := lt_of_lt_of_le hnf (le_trans (w1_ge nf o.statB) (Nat.le_add_right _ _))
    refine cross_singular _ _ (coeffs o x) 0 h0 (coeffs_ne o x hx 0 (lt_of_lt_of_le hnf (w1_ge nf o.statB))) fun i => ?_
    rw [← hmom i, ← resid_coeffs d o hp x hx i, resid]
  have hv : validate o = .ok () := by
    unfold validate
    simp [hp, hm, hi]
  have hz : ∃ z, instrOf d o W nw cz = .ok z := by
    unfold instrOf
    rw [hi]
    cases cz <;> exact ⟨_, rfl⟩
  obtain ⟨z, hz⟩ := hz
  have hc : coefficients e rss d o weighted C z = .error "RuntimeError" := by
    have h1 : ¬ o.method = .liml2 := by rw [hm]; decide
    have h2 : ¬ o.method = .iv := by rw [hm]; decide
    have h3 : ¬ o.method = .liml1 := by rw [hm]; decide
    unfold coefficients
    rw [if_neg (by rw [hp]; decide), if_neg h1, if_neg h2, onDesign, if_neg h3, hful, invOf, if_pos hdet]
    rfl
  unfold fitAll
  simp only [bind, Except.bind, hv]
  rw [if_neg (by rw [hm]; decide), hz]
  dsimp only
  rw [hc]

end Pytwoway.Interacted
