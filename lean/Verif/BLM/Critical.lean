import Verif.BLM.Settle

/-! # Where the movers' loop comes to rest with a Dirichlet prior (C139) -/

namespace Pytwoway.BLM

open Finset Filter Topology

variable {ni nl nk : ℕ}

/-- One more iteration of `fit_movers` with the prior `dp`, everything updated, returns what it is given. -/
def Spec.SettledPrior [NeZero nl] (d : Data ni nk) (dp thr : ℝ) (sA sS : Solver) (b : Base nl nk)
    (pk1 : ℕ → Fin nl → ℝ) : Prop :=
  ∃ s', moversLoop d ⟨true, true, true, dp, thr⟩ sA sS (fun _ => 0) 1 true none 0 ⟨b, pk1, []⟩ = .ok s' ∧
    s'.base = b ∧ ∀ p < nk ^ 2, s'.pk1 p = pk1 p

theorem pk_part_prior [NeZero nl] (d : Data ni nk) (q : Fin ni → Fin nl → ℝ) (pk pk' : ℕ → Fin nl → ℝ)
    (vp : ℕ → Fin nl → ℝ) (hnk : 0 < nk) (c dp : ℝ) (hdp : 1 ≤ dp) (hW : ∀ t i, 0 < d.W t i)
    (hWc : ∀ i, d.W 0 i * d.W 1 i = c) (hq : ∀ i l, 0 < q i l) (hq1 : ∀ i, ∑ l, q i l = 1)
    (h : updatePk1 d q dp = .ok pk') (hfix : ∀ p < nk ^ 2, pk' p = pk p)
    (hv : ∀ p, ∑ l, vp p l = 0) :
    ∑ i, ∑ l, (q i l + (dp - 1)) * (vp (KK d i) l / pk (KK d i) l) = 0 := by
  have hall := top_of_updatePk1 d q dp pk' h
  obtain ⟨pk2, h2, hform⟩ := C32_movers d q dp hW hdp (fun i l => (hq i l).le) hq1 hnk hall
  rw [h] at h2
  cases h2
  have hcp : 0 < √c := by
    obtain ⟨i, -⟩ := hall ⟨0, hnk⟩ ⟨0, hnk⟩
    rw [← hWc i]
    exact Real.sqrt_pos.mpr (mul_pos (hW 0 i) (hW 1 i))
  have hT : (0 : ℝ) < 1 + nl * (dp - 1) := by
    have : (0 : ℝ) ≤ nl * (dp - 1) := mul_nonneg (Nat.cast_nonneg _) (by linarith)
    linarith
  have e : ∑ i, ∑ l, (q i l + (dp - 1)) * (vp (KK d i) l / pk (KK d i) l) =
      ∑ k : Fin nk × Fin nk, ∑ i with (d.G 0 i, d.G 1 i) = k, ∑ l, (q i l + (dp - 1)) *
        (vp (k.1.val + nk * k.2.val) l / pk (k.1.val + nk * k.2.val) l) := by
    rw [← sum_fiberwise_of_maps_to (s := univ) (t := univ) (g := fun i => (d.G 0 i, d.G 1 i))
      (fun i _ => mem_univ _)]
    refine sum_congr rfl fun k _ => sum_congr rfl fun i hi => ?_
    rw [← (mem_filter.mp hi).2]
    rfl
  rw [e]
  refine sum_eq_zero fun k _ => ?_
  obtain ⟨k1, k2⟩ := k
  simp only [Prod.mk.injEq]
  rw [sum_comm]
  have hlt : k1.val + nk * k2.val < nk ^ 2 := by
    have h0 := k1.isLt; have h1 := k2.isLt; nlinarith
  set N : ℝ := ∑ i with d.G 0 i = k1 ∧ d.G 1 i = k2, (1 : ℝ) with hN
  have hpk : ∀ l, pk (k1.val + nk * k2.val) l =
      (∑ i with d.G 0 i = k1 ∧ d.G 1 i = k2, (q i l + (dp - 1))) / (N * (1 + nl * (dp - 1))) := by
    intro l
    rw [← hfix _ hlt, (hform k1 k2).1 l]
    simp only [hWc, ← mul_sum]
    have : ∑ i with d.G 0 i = k1 ∧ d.G 1 i = k2, √c = √c * N := by rw [hN, mul_sum]; simp
    rw [this, mul_assoc, mul_div_mul_left _ _ hcp.ne']
  have hNpos : 0 < N := by
    obtain ⟨i, hi⟩ := hall k1 k2
    exact sum_pos (fun _ _ => one_pos) ⟨i, by simp [hi]⟩
  have hQ : ∀ l, 0 < ∑ i with d.G 0 i = k1 ∧ d.G 1 i = k2, (q i l + (dp - 1)) := by
    intro l
    obtain ⟨i, hi⟩ := hall k1 k2
    exact sum_pos (fun i _ => by have := hq i l; linarith) ⟨i, by simp [hi]⟩
  have : ∀ l, ∑ i with d.G 0 i = k1 ∧ d.G 1 i = k2,
      (q i l + (dp - 1)) * (vp (k1.val + nk * k2.val) l / pk (k1.val + nk * k2.val) l) =
      N * (1 + nl * (dp - 1)) * vp (k1.val + nk * k2.val) l := by
    intro l
    rw [← sum_mul, hpk]
    have := (hQ l).ne'
    field_simp
  simp only [this, ← mul_sum, hv, mul_zero]

theorem hasDerivAt_penLik [NeZero nl] (d : Data ni nk) (dp : ℝ) (b : Base nl nk) (pk : ℕ → Fin nl → ℝ)
    (vA vS : Fin 2 → Fin nl → Fin nk → ℝ) (vp : ℕ → Fin nl → ℝ) (hS : ∀ t l k, 0 < b.S t l k)
    (hp : ∀ p < nk ^ 2, ∀ l, 0 < pk p l) :
    HasDerivAt (fun e : ℝ => Spec.penLikMovers d dp (fun t l k => b.A t l k + e * vA t l k)
        (fun t l k => b.S t l k + e * vS t l k) fun p l => pk p l + e * vp p l)
      ((∑ i, ∑ l, posterior (lpMovers d b [] pk) i l * (vp (KK d i) l / pk (KK d i) l + ∑ t, d.W t i *
        ((d.Y t i - b.A t l (d.G t i)) * vA t l (d.G t i) / b.S t l (d.G t i) ^ 2 +
          vS t l (d.G t i) * ((d.Y t i - b.A t l (d.G t i)) ^ 2 - b.S t l (d.G t i) ^ 2) /
            b.S t l (d.G t i) ^ 3))) / ni +
        (∑ i, (dp - 1) * ∑ l, vp (KK d i) l / pk (KK d i) l) / ni) 0 := by
  unfold Spec.penLikMovers
  refine (hasDerivAt_logLik d b pk vA vS vp hS hp).add ?_
  refine HasDerivAt.div_const (HasDerivAt.fun_sum fun i _ => ?_) _
  refine HasDerivAt.const_mul _ (HasDerivAt.fun_sum fun l _ => ?_)
  have h1 : HasDerivAt (fun e : ℝ => pk (KK d i) l + e * vp (KK d i) l) (vp (KK d i) l) 0 := by
    simpa using ((hasDerivAt_id (0 : ℝ)).mul_const (vp (KK d i) l)).const_add (pk (KK d i) l)
  have h2 := h1.log (by simpa using (hp _ (KK_lt d i) l).ne')
  simp only [zero_mul, add_zero] at h2
  exact h2

/-- C139, resting points: for any prior of at least one, where an iteration changes nothing, no admissible
direction raises the penalised likelihood to first order: towards any other admissible means, with standard
deviations moving up where their variance is at its bound and in any direction elsewhere, and proportions
moving so that they keep their sums. -/
theorem C139_settled_critical [NeZero nl] (d : Data ni nk) (dp thr : ℝ) (hdp : 1 ≤ dp) (sA sS : Solver)
    (F : (Fin 2 → Fin nl → Fin nk → ℝ) → Prop)
    (hconv : ∀ A A', F A → F A' → ∀ e : ℝ, 0 ≤ e → e ≤ 1 →
      F fun t l k => A t l k + e * (A' t l k - A t l k))
    (lb c : ℝ) (hlb : 0 < lb) (hnk : 0 < nk)
    (hsA : RightSolver (2 * (nl * nk)) (fun x => F (unflatten nl nk x)) sA)
    (hsS : RightSolver (2 * (nl * nk)) (BoundS nl nk lb) sS)
    (hW : ∀ t i, 0 < d.W t i) (hWc : ∀ i, d.W 0 i * d.W 1 i = c)
    (b : Base nl nk) (pk1 : ℕ → Fin nl → ℝ) (hF : F b.A) (hS : ∀ t l k, 0 < b.S t l k)
    (hpos : ∀ p < nk ^ 2, ∀ l, 0 < pk1 p l) (hfix : Spec.SettledPrior d dp thr sA sS b pk1)
    (A' : Fin 2 → Fin nl → Fin nk → ℝ) (hA' : F A') (vS : Fin 2 → Fin nl → Fin nk → ℝ)
    (hvS : ∀ t l k, b.S t l k ^ 2 = lb → 0 ≤ vS t l k)
    (vp : ℕ → Fin nl → ℝ) (hvp : ∀ p, ∑ l, vp p l = 0) :
    ∃ D ≤ 0, HasDerivAt (fun e : ℝ =>
      Spec.penLikMovers d dp (fun t l k => b.A t l k + e * (A' t l k - b.A t l k))
        (fun t l k => b.S t l k + e * vS t l k) fun p l => pk1 p l + e * vp p l) D 0 := by
  refine ⟨_, ?_, hasDerivAt_penLik d dp b pk1 (fun t l k => A' t l k - b.A t l k) vS vp hS hpos⟩
  set q := posterior (lpMovers d b [] pk1) with hqdef
  have hq : ∀ i l, 0 < q i l := posterior_pos _
  have hq1 : ∀ i, ∑ l, q i l = 1 := posterior_sum _
  obtain ⟨s', h, hb, hpk⟩ := hfix
  unfold moversLoop at h
  dsimp only at h
  rw [if_neg (by simp [stop]), ← hqdef] at h
  cases hu : nextPk1 true d q dp pk1 with
  | error m => rw [hu] at h; cases h
  | ok pk2 =>
    cases hm : mstep d q b true true sA sS with
    | error m => rw [hu, hm] at h; cases h
    | ok b2 =>
      rw [hu, hm] at h
      simp only [Bind.bind, Except.bind, moversLoop, Except.ok.injEq] at h
      subst h
      simp only at hb hpk
      subst hb
      simp only [nextPk1, if_true] at hu
      have hall := top_of_updatePk1 d q dp pk2 hu
      have htop := topObserved_of_allPairs d hnk hall
      have hcell := cellW_pos_of d q hW hq hall
      have hmin := (C34_means_minimise d q b2 b2 true sA sS F hsA htop hS ⟨_, hF⟩ hcell hm).2
      have hA := means_part d q b2.S b2.A A' fun e he he1 => hmin _ (hconv _ _ hF hA' e he.le he1)
      have hs := sds_part d q b2.A b2.S vS lb hS hcell
        (mstep_variances d q b2 b2 lb sA sS true hsS hlb htop hS hcell hm) hvS
      have hp := pk_part_prior d q pk1 pk2 vp hnk c dp hdp hW hWc hq hq1 hu hpk hvp
      rw [← add_div]
      refine div_nonpos_of_nonpos_of_nonneg ?_ (Nat.cast_nonneg _)
      rw [split_derivative d q b2 pk1 (fun t l k => A' t l k - b2.A t l k) vS vp]
      simp only [add_mul, sum_add_distrib, ← mul_sum] at hp
      simp only [← mul_sum]
      linarith

/-- C139, limits are critical: under the conditions of `C139_estimates`, whatever the estimates accumulate at
is a critical point of the penalised likelihood: no direction that respects the bounds on the variances and
the sums of the proportions raises it to first order. -/
theorem C139_limits_critical [NeZero nl] (d : Data ni nk) (dp thr : ℝ) (sA sS : Solver)
    (minType : (Fin 2 → Fin nl → Fin nk → ℝ) → ℕ) (lb c : ℝ) (hlb : 0 < lb) (hnk : 0 < nk)
    (hsA : RightSolver (2 * (nl * nk)) (fun _ => True) sA)
    (hsS : RightSolver (2 * (nl * nk)) (BoundS nl nk lb) sS)
    (hall : AllPairs d) (hW : ∀ t i, 0 < d.W t i) (hWc : ∀ i, d.W 0 i * d.W 1 i = c) (hd : 1 < dp)
    (hthr : thr ≤ 0) (pm : ℕ) (b : Base nl nk) (pk1 : ℕ → Fin nl → ℝ)
    (hS : ∀ t l k, 0 < b.S t l k ∧ lb ≤ b.S t l k ^ 2)
    (hpos : ∀ p < nk ^ 2, ∀ l, 0 < pk1 p l) (hsum : ∀ p < nk ^ 2, ∑ l, pk1 p l ≤ 1)
    (s : ℕ → MoverState nl nk)
    (hs : ∀ n, moversLoop d ⟨true, true, true, dp, thr⟩ sA sS minType n true none pm ⟨b, pk1, []⟩ = .ok (s n))
    (φ : ℕ → ℕ) (hφ : Tendsto φ atTop atTop) (A S : Fin 2 → Fin nl → Fin nk → ℝ) (pk : ℕ → Fin nl → ℝ)
    (hA : ∀ t l k, Tendsto (fun n => (s (φ n)).base.A t l k) atTop (𝓝 (A t l k)))
    (hSl : ∀ t l k, Tendsto (fun n => (s (φ n)).base.S t l k) atTop (𝓝 (S t l k)))
    (hpl : ∀ p < nk ^ 2, ∀ l, Tendsto (fun n => (s (φ n)).pk1 p l) atTop (𝓝 (pk p l)))
    (vA vS : Fin 2 → Fin nl → Fin nk → ℝ) (hvS : ∀ t l k, S t l k ^ 2 = lb → 0 ≤ vS t l k)
    (vp : ℕ → Fin nl → ℝ) (hvp : ∀ p, ∑ l, vp p l = 0) :
    ∃ D ≤ 0, HasDerivAt (fun e : ℝ =>
      Spec.penLikMovers d dp (fun t l k => A t l k + e * vA t l k)
        (fun t l k => S t l k + e * vS t l k) fun p l => pk p l + e * vp p l) D 0 := by
  obtain ⟨s', h1, h2, h3, h4, h5⟩ := C139_limits_unmoved d dp thr sA sS minType lb c hlb hnk hsA hsS hall hW hWc
    hd hthr pm b pk1 hS hpos hsum s hs φ hφ A S pk hA hSl hpl
  have hset : Spec.SettledPrior d dp thr sA sS ⟨A, S⟩ pk := by
    obtain ⟨s2, hs2⟩ := C33_movers_returns d ⟨true, true, true, dp, thr⟩ sA sS (fun _ => 0) hnk hall hW hd.le rfl
      1 true none 0 ⟨⟨A, S⟩, pk, []⟩
    obtain ⟨hu, hm⟩ := moversLoop_next d ⟨true, true, true, dp, thr⟩ sA sS minType hthr 0 true none pm
      ⟨⟨A, S⟩, pk, []⟩ _ s' rfl h1
    obtain ⟨hu2, hm2⟩ := moversLoop_next d ⟨true, true, true, dp, thr⟩ sA sS (fun _ => 0) hthr 0 true none 0
      ⟨⟨A, S⟩, pk, []⟩ _ s2 rfl hs2
    rw [hu] at hu2
    rw [hm] at hm2
    simp only [Except.ok.injEq] at hu2 hm2
    exact ⟨s2, hs2, by rw [← hm2, h2], fun p hp => by rw [← hu2, h3 p hp]⟩
  have h := C139_settled_critical d dp thr hd.le sA sS (fun _ => True) (fun _ _ _ _ _ _ _ => trivial) lb c hlb
    hnk hsA hsS hW hWc ⟨A, S⟩ pk trivial h4 h5 hset (fun t l k => A t l k + vA t l k) trivial vS hvS vp hvp
  simpa only [add_sub_cancel_left] using h

end Pytwoway.BLM
