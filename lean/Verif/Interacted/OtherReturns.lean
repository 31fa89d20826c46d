import Verif.Interacted.OtherEx

/-! # C100: when `liml_2` and `hful` return -/

namespace Pytwoway.Interacted

open Finset

variable {ni nf n m : ℕ}

theorem invOf_eq {M : Matrix (Fin n) (Fin n) ℝ} (h : M.det ≠ 0) : invOf M = .ok M⁻¹ := by
  unfold invOf
  rw [if_neg h]

theorem total_pos {f : Fin ni → ℝ} (h : ∃ i, f i ≠ 0) : 0 < Spec.total f := by
  obtain ⟨i, hi⟩ := h
  exact sum_pos' (fun _ _ => sq_nonneg _) ⟨i, mem_univ i, sq_pos_of_ne_zero hi⟩

theorem avg_zero_of {d : Data ni nf} {f : Fin ni → ℝ} (h : ∑ i, f i * Spec.avg d f i = 0) : ∀ i, Spec.avg d f i = 0 := by
  rw [sum_avg_mul] at h
  intro i
  have := (sum_eq_zero_iff_of_nonneg fun i _ => mul_self_nonneg (Spec.avg d f i)).mp h i (mem_univ i)
  exact mul_self_eq_zero.mp this

/-- Identification: no coefficients other than zero fit every mover exactly, and the effects `x` are the only ones, up to a
factor, at which the residuals average to zero in every pair of firms. -/
structure Spec.Identified (d : Data ni nf) (o : Opts) (x : Effects nf) : Prop where
  noisy : ∀ β : ℕ → ℝ, (∀ i, ∑ c ∈ range (ncol nf o), XX d o i c * β c = 0) → ∀ c < ncol nf o, β c = 0
  unique : ∀ β : ℕ → ℝ, (∀ j1 j2, ∑ i with d.J1 i = j1 ∧ d.J2 i = j2, ∑ c ∈ range (ncol nf o), XX d o i c * β c = 0) →
    ∃ r : ℝ, ∀ c < ncol nf o, β c = r * coeffs o x c

theorem Spec.Identified.of_avg {d : Data ni nf} {o : Opts} {x : Effects nf} (h : Spec.Identified d o x) {β : ℕ → ℝ}
    (h0 : ∀ i, Spec.avg d (resid d o β) i = 0) : ∃ r : ℝ, ∀ c < ncol nf o, β c = r * coeffs o x c := by
  refine h.unique β fun j1 j2 => ?_
  rcases (univ.filter fun i => d.J1 i = j1 ∧ d.J2 i = j2).eq_empty_or_nonempty with he | ⟨i0, hi0⟩
  · rw [he, sum_empty]
  · simp only [mem_filter, mem_univ, true_and] at hi0
    obtain ⟨rfl, rfl⟩ := hi0
    have := h0 i0
    unfold Spec.avg Spec.peers at this
    rcases div_eq_zero_iff.mp this with h1 | h1
    · exact h1
    · exact absurd h1 (peers_card_pos d i0).ne'

/-- C100, `hful` with `C = 0`, equal weights (and, if they are given, at least as many movers as coefficients), and as many
movers in every pair: if the moments at `x` average to zero in every pair and `x` is identified, `hful` returns, and
returns `x`. -/
theorem C100_hful_returns (e : EigVec) (he : e.Right) (rss : Data ni nf → (Fin ni → ℝ) → ℕ → ℝ) (d : Data ni nf)
    (o : Opts) (weighted : Bool) (W : Fin ni → ℕ) (nw : ℕ) (hm : o.method = .hful) (hp : o.profiling = false)
    (hi : o.instrument = .firmPairs) (htik : o.tik = 0) (w : ℝ) (hw : 0 < w) (hD : ∀ i, d.D i = w) (hn : o.normFid < nf)
    (hrows : weighted = true → ncol nf o ≤ ni)
    (k : ℕ) (hbal : ∀ i, (univ.filter fun i' => d.J1 i' = d.J1 i ∧ d.J2 i' = d.J2 i).card = k)
    (x : Effects nf) (hx : Spec.Admissible o x) (hnorm : Spec.Normalised o x)
    (hmom : ∀ j1 j2, ∑ i with d.J1 i = j1 ∧ d.J2 i = j2, Spec.moment d x i = 0) (hid : Spec.Identified d o x) :
    fitAll e rss d o weighted 0 W nw true = .ok x := by
  have hn' : o.normFid < ncol nf o := lt_of_lt_of_le hn (le_trans (w1_ge nf o.statB) (Nat.le_add_right _ _))
  have hr : resid d o (coeffs o x) = Spec.moment d x := funext (resid_coeffs d o hp x hx)
  have hc1 := coeffs_norm hn hnorm
  set X := XX d o with hX
  set N := ncol nf o with hN
  set B := cross N N (fun _ => (1 : ℝ)) X X with hB
  set A := wzH N X (fun _ : Fin ni => w) (.one (pairKey d)) 0 with hA
  have hBs : ∀ a b, B a b = B b a := cross_symm _ X
  have hAs : ∀ a b, A a b = A b a := wzH_symm X _ _ _
  have hl : ∀ v : Fin N → ℝ, lin N X v = resid d o (ext N v) := fun v => lin_XX d o v
  have hBpos : PosDef B := by
    intro v hv
    change 0 < quad B v
    rw [hB, cross1_quad]
    refine total_pos ?_
    by_contra hc
    push Not at hc
    apply hv
    funext c
    have := hid.noisy (ext N v) (fun i => by rw [← hc i, hl]; rfl) c.val c.isLt
    rwa [ext_lt] at this
  have hBq : ∀ v, quad B v = Spec.total (lin N X v) := fun v => cross1_quad X v
  have hAq : ∀ v, quad A v = ∑ i, lin N X v i * Spec.avg d (lin N X v) i - 1 / k * quad B v := fun v => by
    rw [hBq, hA, wzH_quad hw, jack_eq, Spec.total, mul_sum]
    congr 1
    exact sum_congr rfl fun i _ => by
      rw [show Spec.peers d i = univ.filter fun i' => d.J1 i' = d.J1 i ∧ d.J2 i' = d.J2 i from rfl, hbal]
  have hPsq : ∀ v, 0 ≤ ∑ i, lin N X v i * Spec.avg d (lin N X v) i := fun v => by
    rw [sum_avg_mul]; exact sum_nonneg fun i _ => mul_self_nonneg _
  set v0 : Fin N → ℝ := fun c => coeffs o x c.val with hv0
  have hlv0 : lin N X v0 = Spec.moment d x := by
    rw [hl, ← hr]
    exact resid_congr d o fun c hc => by rw [ext, dif_pos hc]
  have havg : ∀ i, Spec.avg d (Spec.moment d x) i = 0 := fun i => by
    unfold Spec.avg Spec.peers
    rw [hmom, zero_div]
  have hv0n : v0 ≠ 0 := fun h0 => by
    have := congrFun h0 ⟨o.normFid, hn'⟩
    simp [hv0, hc1] at this
  have hq0 : quad A v0 = - (1 / k) * quad B v0 := by
    rw [hAq, hlv0]
    simp only [havg, mul_zero, sum_const_zero]
    ring
  have hu : IsUnit B.det := isUnit_iff_ne_zero.mpr hBpos.det_ne
  -- the smallest eigenvalue
  have hsum : ∀ v, quad (A + (1 / (k : ℝ)) • B) v = ∑ i, lin N X v i * Spec.avg d (lin N X v) i := fun v => by
    rw [quad_addM, quad_smulM, hAq]; ring
  have hnullk : ∀ v, ∑ i, lin N X v i * Spec.avg d (lin N X v) i = 0 → A.mulVec v = (-(1 / (k : ℝ))) • B.mulVec v := by
    intro v hv
    have h1 := null_of_quad (A + (1 / (k : ℝ)) • B)
      (fun a b => by simp only [Matrix.add_apply, Matrix.smul_apply]; rw [hAs a b, hBs a b])
      (fun y => by rw [hsum]; exact hPsq y) v (by rw [hsum, hv])
    rw [Matrix.add_mulVec, Matrix.smul_mulVec] at h1
    rw [neg_smul]
    exact eq_neg_of_add_eq_zero_left h1
  have heig0 : (B⁻¹ * A).mulVec v0 = (-(1 / (k : ℝ))) • v0 := by
    rw [← Matrix.mulVec_mulVec, hnullk v0 (by rw [hlv0]; simp [havg]), Matrix.mulVec_smul, Matrix.mulVec_mulVec,
      Matrix.nonsing_inv_mul _ hu, Matrix.one_mulVec]
  obtain ⟨p, hps⟩ := smallest_ok e he (B⁻¹ * A) _ v0 hv0n heig0
  obtain ⟨hv, hveq, hlow⟩ := smallest_left e he A B hAs hBs hBpos hps
  have hp1 : p.1 = -(1 / (k : ℝ)) := by
    refine le_antisymm ((smallest_spec e he _ hps).2.2 _ v0 hv0n heig0) ?_
    have h1 : quad A p.2 = p.1 * quad B p.2 := by
      unfold quad
      rw [hveq, mul_sum]
      exact sum_congr rfl fun c _ => by simp only [Pi.smul_apply, smul_eq_mul]; ring
    have h2 : 0 < quad B p.2 := hBpos p.2 hv
    rw [hAq] at h1
    have h3 := hPsq p.2
    by_contra hc
    push Not at hc
    have := mul_lt_mul_of_pos_right hc h2
    linarith
  -- the last regression
  set M := B⁻¹ * A - p.1 • (1 : Matrix (Fin N) (Fin N) ℝ) with hM
  have hMn : ∀ v : Fin N → ℝ, v ⟨o.normFid, hn'⟩ = 0 → M.mulVec v = 0 → v = 0 := by
    intro v h0 hMv
    have h1 : (A + (1 / (k : ℝ)) • B).mulVec v = 0 := by
      have h2 : A + (1 / (k : ℝ)) • B = B * M := by
        rw [hM, Matrix.mul_sub, ← Matrix.mul_assoc, Matrix.mul_nonsing_inv _ hu, Matrix.one_mul, Matrix.mul_smul,
          Matrix.mul_one, hp1, neg_smul, sub_neg_eq_add]
      rw [h2, ← Matrix.mulVec_mulVec, hMv, Matrix.mulVec_zero]
    have h3 : ∑ i, lin N X v i * Spec.avg d (lin N X v) i = 0 := by
      rw [← hsum]; unfold quad; rw [h1]; simp
    obtain ⟨r, hr0⟩ := hid.of_avg (β := ext N v) (by rw [← hl]; exact avg_zero_of h3)
    have : r = 0 := by
      have := hr0 o.normFid hn'
      rw [hc1, mul_one, ext, dif_pos hn', h0] at this
      exact this.symm
    funext c
    rw [← ext_lt v c, hr0 c.val c.isLt, this, zero_mul]; rfl
  have hPD : ∀ s : ℝ, 0 < s → PosDef (hfulG o.normFid (fun _ => s) M) := by
    intro s hs y hy
    change 0 < quad _ y
    rw [hfulG_quad]
    refine mul_pos hs (total_pos (ni := N) (f := fun r => ∑ c : Fin (N - 1), dropCol o.normFid M r c.val * y c) ?_)
    by_contra hc
    push Not at hc
    apply hy
    set v : Fin N → ℝ := fun c => if c.val = o.normFid then 0 else if c.val < o.normFid then ext _ y c.val else ext _ y (c.val - 1)
      with hvd
    have hskip : ∀ c : Fin (N - 1), ext N v (skip o.normFid c.val) = y c := by
      intro c
      have hcl := c.isLt
      have hsk : skip o.normFid c.val < N := by unfold skip; split <;> omega
      rw [ext, dif_pos hsk]
      simp only [hvd]
      unfold skip
      by_cases hlt : c.val < o.normFid
      · rw [if_pos hlt, if_neg (by omega), if_pos hlt, ext_lt]
      · rw [if_neg hlt, if_neg (by omega), if_neg (by omega), Nat.add_sub_cancel, ext_lt]
    have hvn : v ⟨o.normFid, hn'⟩ = 0 := by simp [hvd]
    have hv0' := hMn v hvn (by
      funext r
      rw [dropCol_sum ⟨o.normFid, hn'⟩, hvn, mul_zero, zero_add]
      simp only [hskip]
      exact hc r)
    funext c
    rw [← hskip c, hv0']
    simp [ext]
  have hrun : ∃ β, hful e N X d.D weighted (.one (pairKey d)) o.tik 0 o.normFid = .ok β := by
    rw [show d.D = fun _ => w from funext hD, htik]
    unfold hful
    simp only [bind, Except.bind]
    rw [invOf_eq hBpos.det_ne]
    dsimp only
    rw [hps]
    dsimp only
    rw [lambda2_zero, ← hM]
    unfold hfulSolve
    rw [dif_pos hn']
    have hrw : ∃ s : ℝ, 0 < s ∧ rowWeights N weighted (fun _ : Fin ni => w) = .ok fun _ => s := by
      unfold rowWeights
      cases hwt : weighted
      · exact ⟨1, one_pos, by rw [if_neg (by decide)]⟩
      · exact ⟨w, hw, by rw [if_pos rfl, dif_pos (hrows hwt)]⟩
    obtain ⟨s, hs, hrw⟩ := hrw
    simp only [bind, Except.bind]
    rw [hrw]
    dsimp only
    unfold solveQP
    rw [if_pos (hPD s hs)]
    exact ⟨_, rfl⟩
  obtain ⟨β, hβ⟩ := hrun
  have h1 : ¬ o.method = .liml2 := by rw [hm]; decide
  have h2 : ¬ o.method = .iv := by rw [hm]; decide
  have h3 : ¬ o.method = .liml1 := by rw [hm]; decide
  have hok : fitAll e rss d o weighted 0 W nw true = .ok (extract nf o β) := by
    refine fitAll_run (by rw [hm]; decide) (by unfold validate; simp [hp, hm, hi]) (z := .one (pairKey d))
      (by unfold instrOf; rw [if_pos rfl, hi]) ?_
    unfold coefficients
    rw [if_neg (by rw [hp]; decide), if_neg h1, if_neg h2, onDesign, if_neg h3]
    exact hβ
  rw [hok, C100_hful_recovers_partial e he rss d o weighted W nw hm hp hi htik w hw hD hn k hbal x hx hnorm hmom _ hok]

/-- C100, `liml_2` with equal weights: if the moments at `x` average to zero in every pair, `x` is identified, the
intercept columns are independent, and no slopes other than zero are fitted exactly within pairs, `liml_2` returns, and
returns `x`. -/
theorem C100_liml2_returns (e : EigVec) (he : e.Right) (rss : Data ni nf → (Fin ni → ℝ) → ℕ → ℝ) (d : Data ni nf)
    (o : Opts) (weighted : Bool) (C : ℝ) (W : Fin ni → ℕ) (nw : ℕ) (hm : o.method = .liml2) (hp : o.profiling = false)
    (hi : o.instrument = .firmPairs) (htik : o.tik = 0) (w : ℝ) (hw : 0 < w) (hD : ∀ i, d.D i = w) (hn : o.normFid < nf)
    (x : Effects nf) (hx : Spec.Admissible o x) (hnorm : Spec.Normalised o x)
    (hmom : ∀ j1 j2, ∑ i with d.J1 i = j1 ∧ d.J2 i = j2, Spec.moment d x i = 0) (hid : Spec.Identified d o x)
    (hwithin : ∀ β : ℕ → ℝ, Spec.within d (fun i => ∑ c ∈ range (ncol nf o), XX d o i c * β c) = 0 →
      ∀ c < w1 nf o.statB, β c = 0) :
    fitAll e rss d o weighted C W nw true = .ok x := by
  have hw1 : o.normFid < w1 nf o.statB := lt_of_lt_of_le hn (w1_ge nf o.statB)
  have hn' : o.normFid < ncol nf o := lt_of_lt_of_le hw1 (Nat.le_add_right _ _)
  have hD' : d.D = fun _ => w := funext hD
  have hr : resid d o (coeffs o x) = Spec.moment d x := funext (resid_coeffs d o hp x hx)
  have hc1 := coeffs_norm hn hnorm
  have havg : ∀ i, Spec.avg d (Spec.moment d x) i = 0 := fun i => by
    unfold Spec.avg Spec.peers
    rw [hmom, zero_div]
  -- intercept columns
  have hG : PosDef (cross (w2 nf o.statA) (w2 nf o.statA) d.D (X2 d o.statA) (X2 d o.statA)) := by
    intro a ha
    change 0 < quad _ a
    rw [hD', cross_const, quad_smulM, cross1_quad]
    refine mul_pos hw (total_pos ?_)
    by_contra hc
    push Not at hc
    apply ha
    have hj : ∀ i, resid d o (joinR o 0 a) i = 0 := fun i => by
      rw [resid_join d o hw1, hc i]
      simp [lin]
    funext c
    have := hid.noisy (joinR o 0 a) hj (w1 nf o.statB + c.val) (by have := c.isLt; unfold ncol; omega)
    rw [joinR, if_neg (by omega), Nat.add_sub_cancel_left, ext_lt] at this
    exact this
  have hX2 : ∀ (a : Fin (w2 nf o.statA) → ℝ) i i', pairKey d i' = pairKey d i →
      lin _ (X2 d o.statA) a i' = lin _ (X2 d o.statA) a i := fun a i i' hh =>
    sum_congr rfl fun b _ => by rw [X2_const d o.statA hh]
  have hj0 : ∀ v : Fin (w1 nf o.statB) → ℝ, (∀ c < w1 nf o.statB, joinR o v (0 : Fin (w2 nf o.statA) → ℝ) c = 0) → v = 0 := by
    intro v h0
    funext c
    rw [← ext_lt v c]
    have hcl := c.isLt
    rcases Nat.eq_zero_or_pos c.val with hz | hpos
    · have := h0 o.normFid hw1
      rw [joinR, if_pos hw1, if_pos rfl] at this
      rw [hz]
      simpa using this
    · by_cases hle : c.val ≤ o.normFid
      · have := h0 (c.val - 1) (by omega)
        rw [joinR, if_pos (by omega), if_neg (by omega), if_pos (by omega), Nat.sub_add_cancel hpos] at this
        exact this
      · have := h0 c.val c.isLt
        rw [joinR, if_pos c.isLt, if_neg (by omega), if_neg (by omega)] at this
        exact this
  have hz : PosDef (wz2 d o (.one (pairKey d))) := by
    intro v hv
    change 0 < quad _ v
    rw [wz2_quad hD' hw htik]
    refine mul_pos hw (lt_of_le_of_ne (within_nonneg d _) fun h0 => hv (hj0 v ?_))
    refine hwithin _ ?_
    change Spec.within d (resid d o (joinR o v 0)) = 0
    have : resid d o (joinR o v (0 : Fin (w2 nf o.statA) → ℝ)) = fun i => lin _ (RR1 d o) v i + lin _ (X2 d o.statA) 0 i :=
      funext (resid_join d o hw1 v 0)
    rw [this, within_add d _ _ (hX2 0), ← h0]
  -- the smallest eigenvalue
  have hpos1 : 0 < w1 nf o.statB := by omega
  obtain ⟨t0, u0, hu0, heq0, hlow0⟩ := exists_min_ratio _ _ (wx2_symm (o := o) hD') (wz2_symm hD' hw htik) hz hpos1
  have huz : IsUnit (wz2 d o (.one (pairKey d))).det := isUnit_iff_ne_zero.mpr hz.det_ne
  obtain ⟨p, hps⟩ := smallest_ok e he (wx2 d o (cross _ _ d.D (X2 d o.statA) (X2 d o.statA))⁻¹ * (wz2 d o (.one (pairKey d)))⁻¹)
    t0 ((wz2 d o (.one (pairKey d))).mulVec u0)
    (fun h0 => hz.det_ne (Matrix.exists_mulVec_eq_zero_iff.mp ⟨u0, hu0, h0⟩))
    (by rw [← Matrix.mulVec_mulVec, Matrix.mulVec_mulVec (M := (wz2 d o (.one (pairKey d)))⁻¹), Matrix.nonsing_inv_mul _ huz,
      Matrix.one_mulVec, heq0])
  obtain ⟨v, hv, hveq, hlow⟩ := smallest_right e he _ _ (wx2_symm hD') (wz2_symm hD' hw htik) hz hps
  have hp1 : p.1 = 1 := by
    refine le_antisymm ?_ ?_
    · obtain ⟨v', a', hj⟩ := exists_join o hw1 (coeffs o x)
      obtain ⟨a, hq, hmin⟩ := wx2_quad (o := o) hD' hw hG.det_ne v'
      have h1 := hlow v'
      have h2 := hmin a'
      have hres : (fun i => lin _ (RR1 d o) v' i + lin _ (X2 d o.statA) a' i) = Spec.moment d x := by
        rw [← hr, ← resid_congr d o hj]
        exact (funext (resid_join d o hw1 v' a')).symm
      have hwi : Spec.within d (lin _ (RR1 d o) v') = Spec.within d (Spec.moment d x) := by
        rw [← within_add d _ _ (hX2 a'), hres]
      have ht : Spec.total (Spec.moment d x) = Spec.within d (Spec.moment d x) := by
        simp only [Spec.within, havg, sub_zero, Spec.total]
      have hv' : v' ≠ 0 := by
        rintro rfl
        have := hj o.normFid hn'
        rw [joinR, if_pos hw1, if_pos rfl, hc1] at this
        simp [ext] at this
      have h3 : 0 < quad _ v' := hz v' hv'
      rw [hq] at h1
      rw [wz2_quad hD' hw htik, hwi] at h1 h3
      rw [hres, ht] at h2
      by_contra hc
      push Not at hc
      have h4 := mul_lt_mul_of_pos_right hc h3
      have h5 := mul_le_mul_of_nonneg_left h2 hw.le
      linarith
    · obtain ⟨a, hq, -⟩ := wx2_quad (o := o) hD' hw hG.det_ne v
      have e1 : quad (wx2 d o (cross _ _ d.D (X2 d o.statA) (X2 d o.statA))⁻¹) v =
          p.1 * quad (wz2 d o (.one (pairKey d))) v := by
        unfold quad
        rw [hveq, mul_sum]
        exact sum_congr rfl fun c _ => by simp only [Pi.smul_apply, smul_eq_mul]; ring
      have h3 : 0 < quad _ v := hz v hv
      have hneg : ∀ i, lin _ (X2 d o.statA) (-a) i = - lin _ (X2 d o.statA) a i := fun i => by
        simp only [lin, Pi.neg_apply, mul_neg, sum_neg_distrib]
      have h4 : Spec.within d (lin _ (RR1 d o) v) ≤ Spec.total (fun i => lin _ (RR1 d o) v i - lin _ (X2 d o.statA) a i) := by
        rw [← within_add d _ _ (hX2 (-a))]
        simp only [hneg, ← sub_eq_add_neg]
        rw [within_eq, sum_avg_mul]
        have : 0 ≤ ∑ i, Spec.avg d (fun i => lin _ (RR1 d o) v i - lin _ (X2 d o.statA) a i) i *
          Spec.avg d (fun i => lin _ (RR1 d o) v i - lin _ (X2 d o.statA) a i) i := sum_nonneg fun i _ => mul_self_nonneg _
        linarith
      rw [hq] at e1
      rw [wz2_quad hD' hw htik] at e1 h3
      have h5 := mul_le_mul_of_nonneg_left h4 hw.le
      by_contra hc
      push Not at hc
      have h6 := mul_lt_mul_of_pos_right hc h3
      linarith
  -- the last regression
  have hPD : PosDef (rr2 d o (.one (pairKey d)) p.1) := by
    intro y hy
    change 0 < quad _ y
    rw [rr2_eq hD' hw htik, hp1, quad_addM, quad_smulM, quad_smulM, crossP_quad, sub_self, zero_mul, zero_add, one_mul, sum_avg_mul]
    refine lt_of_le_of_ne (sum_nonneg fun i _ => mul_self_nonneg _) fun h0 => hy ?_
    set β : ℕ → ℝ := fun c => if c = o.normFid then 0 else if c < o.normFid then ext _ y c else ext _ y (c - 1) with hβ
    have hins : ∀ i, resid d o β i = lin _ (XXn d o) y i := by
      intro i
      have e1 := resid_insert d o hn' y i
      have e2 : ∀ c, insert1 o.normFid (ext _ y) c = β c + if c = o.normFid then 1 else 0 := fun c => by
        simp only [insert1, hβ]
        by_cases h1 : c < o.normFid
        · rw [if_pos h1, if_neg (by omega), if_pos h1, if_neg (by omega), add_zero]
        · by_cases h2 : c = o.normFid
          · rw [if_neg h1, if_pos h2, if_pos h2, if_pos h2, zero_add]
          · rw [if_neg h1, if_neg h2, if_neg h2, if_neg h1, if_neg h2, add_zero]
      rw [resid] at e1
      simp only [e2, mul_add, sum_add_distrib, mul_ite, mul_one, mul_zero] at e1
      rw [sum_ite_eq' (range (ncol nf o)), if_pos (mem_range.mpr hn')] at e1
      rw [resid]
      linarith
    have hz0 : ∀ i, Spec.avg d (resid d o β) i = 0 := by
      rw [funext hins]
      refine avg_zero_of ?_
      rw [sum_avg_mul, ← h0]
    obtain ⟨r, hr0⟩ := hid.of_avg hz0
    have hr00 : r = 0 := by
      have := hr0 o.normFid hn'
      rw [hc1, mul_one] at this
      simp only [hβ, if_true] at this
      exact this.symm
    funext c
    have hcl := c.isLt
    rw [← ext_lt y c]
    have := hr0 (skip o.normFid c.val) (by unfold skip; split <;> omega)
    rw [hr00, zero_mul] at this
    simp only [hβ] at this
    unfold skip at this
    by_cases hlt : c.val < o.normFid
    · rw [if_pos hlt, if_neg (by omega), if_pos hlt] at this
      exact this
    · rw [if_neg hlt, if_neg (by omega), if_neg (by omega), Nat.add_sub_cancel] at this
      exact this
  have hsol : ∃ y, solveQP (rr2 d o (.one (pairKey d)) p.1) (ry2 d o (.one (pairKey d)) p.1) = .ok y := by
    unfold solveQP
    rw [if_pos hPD]
    exact ⟨_, rfl⟩
  obtain ⟨y, hy⟩ := hsol
  have hrun := limlTwo_run hw1 (invOf_eq hG.det_ne) (invOf_eq hz.det_ne) hps hy
  have hok : fitAll e rss d o weighted C W nw true = .ok (extract nf o (insert1 o.normFid (ext _ y))) := by
    refine fitAll_run (by rw [hm]; decide) (by unfold validate; simp [hp, hm, hi]) (z := .one (pairKey d))
      (by unfold instrOf; rw [if_pos rfl, hi]) ?_
    unfold coefficients
    rw [if_neg (by rw [hp]; decide), if_pos hm]
    exact hrun
  rw [hok, C100_liml2_recovers_partial e he rss d o weighted C W nw hm hi htik w hw hD hn x hx hnorm hmom _ hok]

end Pytwoway.Interacted
