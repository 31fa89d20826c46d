import Verif.CRE.Props
import Verif.FE.Props4
import Mathlib.LinearAlgebra.Matrix.PosDef

/-! # C63, C64: between-cluster effects and posterior variance of the CRE estimator -/

namespace Pytwoway.CRE

open Matrix MeasureTheory

variable {nf K mn ns : ℕ}

/-! ## C63: between-cluster effects -/

/-- Sum of squared errors when the wage change of every mover is predicted by the difference of the effects of
the destination and the origin cluster. -/
def Data.ssr (d : Data nf K mn ns) (phi : Fin (K + 1) → ℝ) : ℝ :=
  ∑ r, ((d.mv r).y2 - (d.mv r).y1 - (phi (d.mv r).g2 - phi (d.mv r).g1)) ^ 2

/-- Two clusters are linked when a mover goes from one to the other. -/
def Data.Linked (d : Data nf K mn ns) (a b : Fin (K + 1)) : Prop :=
  ∃ r, ((d.mv r).g1 = a ∧ (d.mv r).g2 = b) ∨ ((d.mv r).g1 = b ∧ (d.mv r).g2 = a)

/-- Moves connect all the clusters. -/
def Data.Connected (d : Data nf K mn ns) : Prop := ∀ a b, Relation.ReflTransGen d.Linked a b

/-- What is assumed of scipy's solver: it solves nonsingular systems. -/
def GoodSpsolve (solve : Matrix (Fin K) (Fin K) ℝ → (Fin K → ℝ) → (Fin K → ℝ)) : Prop :=
  ∀ M b, IsUnit M.det → M *ᵥ solve M b = b

theorem Jc_mulVec (d : Data nf K mn ns) (phi : Fin (K + 1) → ℝ) (h : phi (Fin.last K) = 0) (r : Fin mn) :
    (d.Jc *ᵥ fun c => phi c.castSucc) r = phi (d.mv r).g2 - phi (d.mv r).g1 := by
  have key : ∀ g : Fin (K + 1), ∑ c : Fin K, (if g = c.castSucc then (1 : ℝ) else 0) * phi c.castSucc = phi g := by
    intro g
    refine Fin.lastCases ?_ (fun i => ?_) g
    · rw [h]
      refine Finset.sum_eq_zero fun c _ => ?_
      rw [if_neg (Fin.castSucc_ne_last c).symm, zero_mul]
    · rw [Finset.sum_eq_single i]
      · simp
      · intro c _ hc
        rw [if_neg fun he => hc (Fin.castSucc_injective _ he).symm, zero_mul]
      · simp
  simp only [mulVec, dotProduct, Data.Jc, sub_mul, Finset.sum_sub_distrib, key]

theorem snoc_restrict (phi : Fin (K + 1) → ℝ) (h : phi (Fin.last K) = 0) :
    (Fin.snoc (α := fun _ => ℝ) (fun c : Fin K => phi c.castSucc) 0 : Fin (K + 1) → ℝ) = phi := by
  ext g
  refine Fin.lastCases ?_ (fun i => ?_) g <;> simp [h]

theorem dot_sub_self {n : ℕ} (e u : Fin n → ℝ) : (e - u) ⬝ᵥ (e - u) = e ⬝ᵥ e - 2 * (e ⬝ᵥ u) + u ⬝ᵥ u := by
  rw [sub_dotProduct, dotProduct_sub, dotProduct_sub, dotProduct_comm u e]; ring

theorem dot_add_self {n : ℕ} (e u : Fin n → ℝ) : (e + u) ⬝ᵥ (e + u) = e ⬝ᵥ e + 2 * (e ⬝ᵥ u) + u ⬝ᵥ u := by
  rw [add_dotProduct, dotProduct_add, dotProduct_add, dotProduct_comm u e]; ring

theorem Jc_ker {d : Data nf K mn ns} (hc : d.Connected) {a : Fin K → ℝ} (h : d.Jc *ᵥ a = 0) : a = 0 := by
  set phi : Fin (K + 1) → ℝ := Fin.snoc (α := fun _ => ℝ) a 0 with hphi
  have hl : phi (Fin.last K) = 0 := by simp [hphi]
  have ha : (fun c : Fin K => phi c.castSucc) = a := by ext c; simp [hphi]
  have hlink : ∀ x y, d.Linked x y → phi x = phi y := by
    rintro x y ⟨r, hr⟩
    have := Jc_mulVec d phi hl r
    rw [ha, h] at this
    simp only [Pi.zero_apply] at this
    rcases hr with ⟨h1, h2⟩ | ⟨h1, h2⟩ <;> rw [h1, h2] at this <;> linarith
  have hall : ∀ x y, phi x = phi y := fun x y => by
    induction hc x y with
    | refl => rfl
    | tail _ hxy ih => exact ih.trans (hlink _ _ hxy)
  ext c
  have := hall c.castSucc (Fin.last K)
  rw [hl] at this
  simpa [hphi] using this

theorem Mc_unit {d : Data nf K mn ns} (hc : d.Connected) : IsUnit (d.Jcᵀ * d.Jc).det := by
  rw [← Matrix.isUnit_iff_isUnit_det, ← Matrix.mulVec_injective_iff_isUnit]
  intro x y hxy
  have h0 : (d.Jcᵀ * d.Jc) *ᵥ (x - y) = 0 := by rw [mulVec_sub, sub_eq_zero]; exact hxy
  have h1 : d.Jc *ᵥ (x - y) = 0 := by
    have h2 : (d.Jc *ᵥ (x - y)) ⬝ᵥ (d.Jc *ᵥ (x - y)) = 0 := by
      have := congrArg (fun v => (x - y) ⬝ᵥ v) h0
      simp only [dotProduct_zero] at this
      rw [← this, ← mulVec_mulVec, dotProduct_mulVec (x - y), vecMul_transpose]
    exact dotProduct_self_eq_zero.1 h2
  exact sub_eq_zero.1 (Jc_ker hc h1)

/-- C63: with clusters connected by moves the cluster effects the estimator uses are the least-squares fit of
wage changes on cluster differences among all effects, with the last cluster's effect zero. -/
theorem C63_least_squares (d : Data nf K mn ns) (hc : d.Connected)
    {solve : Matrix (Fin K) (Fin K) ℝ → (Fin K → ℝ) → (Fin K → ℝ)} (hs : GoodSpsolve solve) :
    afill false (d.A solve) (Fin.last K) = 0 ∧ ∀ phi, d.ssr (afill false (d.A solve)) ≤ d.ssr phi := by
  refine ⟨by simp [afill], fun phi => ?_⟩
  set af := afill false (d.A solve) with haf
  have hlast : af (Fin.last K) = 0 := by simp [haf, afill]
  have hA : (fun c : Fin K => af c.castSucc) = d.A solve := by ext c; simp [haf, afill]
  -- normal equations
  have hN : d.Jcᵀ *ᵥ (d.Yc - d.Jc *ᵥ d.A solve) = 0 := by
    rw [mulVec_sub, mulVec_mulVec, Data.A, hs _ _ (Mc_unit hc), sub_self]
  set psi : Fin (K + 1) → ℝ := fun g => phi g - phi (Fin.last K) with hpsi
  have hpl : psi (Fin.last K) = 0 := by simp [hpsi]
  have hss : d.ssr phi = d.ssr psi := by
    unfold Data.ssr
    refine Finset.sum_congr rfl fun r _ => ?_
    simp only [hpsi]; ring
  rw [hss]
  set b : Fin K → ℝ := fun c => psi c.castSucc - af c.castSucc with hb
  have hform : ∀ f : Fin (K + 1) → ℝ, f (Fin.last K) = 0 →
      d.ssr f = (d.Yc - d.Jc *ᵥ fun c => f c.castSucc) ⬝ᵥ (d.Yc - d.Jc *ᵥ fun c => f c.castSucc) := by
    intro f hf
    unfold Data.ssr dotProduct
    refine Finset.sum_congr rfl fun r _ => ?_
    rw [Pi.sub_apply, Jc_mulVec d f hf r]
    simp only [Data.Yc]; ring
  rw [hform af hlast, hform psi hpl, hA]
  have hsplit : d.Yc - d.Jc *ᵥ (fun c => psi c.castSucc) = (d.Yc - d.Jc *ᵥ d.A solve) - d.Jc *ᵥ b := by
    have : (fun c => psi c.castSucc) = d.A solve + b := by
      rw [← hA]; ext c; simp [hb]
    rw [this, mulVec_add]; abel
  rw [hsplit]
  set e := d.Yc - d.Jc *ᵥ d.A solve
  have hcross : e ⬝ᵥ (d.Jc *ᵥ b) = 0 := by
    rw [dotProduct_mulVec, ← mulVec_transpose, hN, zero_dotProduct]
  rw [dot_sub_self e, hcross]
  have : 0 ≤ (d.Jc *ᵥ b) ⬝ᵥ (d.Jc *ᵥ b) := Finset.sum_nonneg fun r _ => mul_self_nonneg _
  linarith

/-- C63: when wage changes are exactly differences of cluster effects, those effects are recovered, relative to
the last cluster. -/
theorem C63_recovers (d : Data nf K mn ns) (hc : d.Connected)
    {solve : Matrix (Fin K) (Fin K) ℝ → (Fin K → ℝ) → (Fin K → ℝ)} (hs : GoodSpsolve solve) (phi : Fin (K + 1) → ℝ)
    (hy : ∀ r, (d.mv r).y2 - (d.mv r).y1 = phi (d.mv r).g2 - phi (d.mv r).g1) (g : Fin (K + 1)) :
    afill false (d.A solve) g = phi g - phi (Fin.last K) := by
  set psi : Fin (K + 1) → ℝ := fun g => phi g - phi (Fin.last K) with hpsi
  have hpl : psi (Fin.last K) = 0 := by simp [hpsi]
  have hY : d.Yc = d.Jc *ᵥ fun c => psi c.castSucc := by
    ext r
    rw [Jc_mulVec d psi hpl r]
    simp only [Data.Yc, hy, hpsi]; ring
  have : d.A solve = fun c => psi c.castSucc := by
    apply (Matrix.mulVec_injective_iff_isUnit).2 ((Matrix.isUnit_iff_isUnit_det _).2 (Mc_unit hc))
    show (d.Jcᵀ * d.Jc) *ᵥ _ = _
    rw [Data.A, hs _ _ (Mc_unit hc), hY, mulVec_mulVec]
  unfold afill
  rw [if_neg (by simp), this, snoc_restrict psi hpl]

/-- C63: net outcomes average to zero within every pair of clusters (movers, over both periods) and within every
cluster (stayers). -/
theorem C63_centred (d : Data nf K mn ns) (af : Fin (K + 1) → ℝ) :
    (∀ a b, ∑ r with (d.mv r).g1 = a ∧ (d.mv r).g2 = b, ((d.dm false af r).y1n + (d.dm false af r).y2n) = 0) ∧
    ∀ a, ∑ r with (d.st r).g1 = a, (d.ds false af r).y1n = 0 := by
  constructor
  · intro a b
    set S := Finset.univ.filter fun r => (d.mv r).g1 = a ∧ (d.mv r).g2 = b with hS
    set f := fun r' => 1 / 2 * ((d.mv r').y2 - d.psi2 af r' + (d.mv r').y1 - d.psi1 af r')
    have h1 : ∀ r ∈ S, (d.dm false af r).y1n + (d.dm false af r).y2n = 2 * (f r - gmean S f) := by
      intro r hr
      obtain ⟨ha, hb⟩ : (d.mv r).g1 = a ∧ (d.mv r).g2 = b := by simpa [hS] using hr
      simp only [Data.dm, Data.mxM, ha, hb, f, ← hS, Bool.false_eq_true, if_false]
      ring
    rw [Finset.sum_congr rfl h1, ← Finset.mul_sum, Finset.sum_sub_distrib, Finset.sum_const, nsmul_eq_mul,
      card_mul_gmean, sub_self, mul_zero]
  · intro a
    set S := Finset.univ.filter fun r => (d.st r).g1 = a with hS
    set f := fun r' => (d.st r').y1 - d.psiS af r'
    have h1 : ∀ r ∈ S, (d.ds false af r).y1n = f r - gmean S f := by
      intro r hr
      have ha : (d.st r).g1 = a := by simpa [hS] using hr
      simp only [Data.ds, Data.mxS, ha, f, ← hS, Bool.false_eq_true, if_false]
    rw [Finset.sum_congr rfl h1, Finset.sum_sub_distrib, Finset.sum_const, nsmul_eq_mul, card_mul_gmean, sub_self]

/-- Two clusters, two firms each; one move each way and one stayer. -/
def exD : Data 4 1 2 1 where
  mv := ![⟨0, 1, 0, 1, 1, 4⟩, ⟨1, 0, 1, 0, 6, 2⟩]
  st := ![⟨2, 0, 3⟩]

theorem exD_connected : exD.Connected := by
  have h01 : exD.Linked 0 1 := ⟨0, Or.inl ⟨rfl, rfl⟩⟩
  have h10 : exD.Linked 1 0 := ⟨0, Or.inr ⟨rfl, rfl⟩⟩
  intro a b
  fin_cases a <;> fin_cases b
  · exact .refl
  · exact .single h01
  · exact .single h10
  · exact .refl

/-- A solver satisfying the hypothesis exists: multiplication by the inverse. -/
theorem goodSpsolve_inv : GoodSpsolve fun (M : Matrix (Fin K) (Fin K) ℝ) b => M⁻¹ *ᵥ b := by
  intro M b h
  rw [mulVec_mulVec, Matrix.mul_nonsing_inv _ h, one_mulVec]

example : exD.Connected ∧ GoodSpsolve fun (M : Matrix (Fin 1) (Fin 1) ℝ) b => M⁻¹ *ᵥ b :=
  ⟨exD_connected, goodSpsolve_inv⟩

/-! ## C64: posterior -/

/-- The penalised sum of squares whose minimiser is the posterior mean under normal errors: wage changes
explained by firm effects, with prior mean `mu` and variance `vp`. -/
noncomputable def Data.penalised (d : Data nf K mn ns) (vp ve : ℝ) (mu psi : Fin nf → ℝ) : ℝ :=
  (∑ r, ((d.mv r).y2 - (d.mv r).y1 - (psi (d.mv r).j2 - psi (d.mv r).j1)) ^ 2) / ve
    + (∑ j, (psi j - mu j) ^ 2) / vp

theorem Jd_mulVec (d : Data nf K mn ns) (psi : Fin nf → ℝ) (r : Fin mn) :
    (d.Jd *ᵥ psi) r = psi (d.mv r).j2 - psi (d.mv r).j1 := by
  simp [mulVec, dotProduct, Data.Jd, sub_mul, Finset.sum_sub_distrib]

theorem penalised_eq (d : Data nf K mn ns) (vp ve : ℝ) (mu psi : Fin nf → ℝ) :
    d.penalised vp ve mu psi = (1 / ve) * ((d.Yc - d.Jd *ᵥ psi) ⬝ᵥ (d.Yc - d.Jd *ᵥ psi))
      + (1 / vp) * ((psi - mu) ⬝ᵥ (psi - mu)) := by
  unfold Data.penalised dotProduct
  simp only [Pi.sub_apply, Jd_mulVec, Data.Yc]
  congr 1
  · rw [div_eq_mul_one_div, mul_comm]; congr 1; refine Finset.sum_congr rfl fun _ _ => ?_; ring
  · rw [div_eq_mul_one_div, mul_comm]; congr 1; refine Finset.sum_congr rfl fun _ _ => ?_; ring

/-- C64: the solved vector is the posterior mean: it minimises the penalised sum of squares. -/
theorem C64_mean (d : Data nf K mn ns) {vp ve : ℝ} (hp : 0 < vp) (he : 0 < ve) (mu : Fin nf → ℝ)
    {solve : (Fin nf → ℝ) → (Fin nf → ℝ)} (hs : ∀ v, d.M vp ve *ᵥ solve v = v) (psi : Fin nf → ℝ) :
    d.penalised vp ve mu (solve (d.v1 vp ve mu)) ≤ d.penalised vp ve mu psi := by
  set x := solve (d.v1 vp ve mu) with hx
  have hN : (1 / ve) • (d.Jdᵀ *ᵥ (d.Yc - d.Jd *ᵥ x)) = (1 / vp) • (x - mu) := by
    have := hs (d.v1 vp ve mu)
    rw [← hx, Data.M, Data.v1, add_mulVec, smul_mulVec, smul_mulVec, one_mulVec, ← mulVec_mulVec] at this
    rw [mulVec_sub, smul_sub, smul_sub, sub_eq_sub_iff_add_eq_add]
    rw [add_comm, ← this]
  obtain ⟨b, rfl⟩ : ∃ b, psi = x + b := ⟨psi - x, by abel⟩
  rw [penalised_eq, penalised_eq]
  set e := d.Yc - d.Jd *ᵥ x
  set q := x - mu
  have h1 : d.Yc - d.Jd *ᵥ (x + b) = e - d.Jd *ᵥ b := by rw [mulVec_add, ← sub_sub]
  have h2 : x + b - mu = q + b := by simp only [q]; abel
  rw [h1, h2]
  have hcross : (1 / ve) * (e ⬝ᵥ (d.Jd *ᵥ b)) = (1 / vp) * (q ⬝ᵥ b) := by
    rw [dotProduct_mulVec, ← mulVec_transpose, ← smul_eq_mul, ← smul_dotProduct, hN, smul_dotProduct, smul_eq_mul]
  rw [dot_sub_self e, dot_add_self q]
  have n1 : 0 ≤ (1 / ve) * ((d.Jd *ᵥ b) ⬝ᵥ (d.Jd *ᵥ b)) :=
    mul_nonneg (by positivity) (Finset.sum_nonneg fun r _ => mul_self_nonneg _)
  have n2 : 0 ≤ (1 / vp) * (b ⬝ᵥ b) := mul_nonneg (by positivity) (Finset.sum_nonneg fun r _ => mul_self_nonneg _)
  nlinarith [hcross]

theorem M_unit (d : Data nf K mn ns) {vp ve : ℝ} (hp : 0 < vp) (he : 0 < ve) : IsUnit (d.M vp ve).det := by
  rw [← Matrix.isUnit_iff_isUnit_det, ← Matrix.mulVec_injective_iff_isUnit]
  intro x y hxy
  have h0 : d.M vp ve *ᵥ (x - y) = 0 := by rw [mulVec_sub, sub_eq_zero]; exact hxy
  set b := x - y
  have h1 := congrArg (fun v => b ⬝ᵥ v) h0
  simp only [dotProduct_zero, Data.M, add_mulVec, smul_mulVec, one_mulVec, ← mulVec_mulVec, dotProduct_add,
    dotProduct_smul, smul_eq_mul] at h1
  rw [dotProduct_mulVec b, vecMul_transpose] at h1
  have n1 : 0 ≤ (1 / ve) * ((d.Jd *ᵥ b) ⬝ᵥ (d.Jd *ᵥ b)) :=
    mul_nonneg (by positivity) (Finset.sum_nonneg fun r _ => mul_self_nonneg _)
  have n2 : 0 ≤ b ⬝ᵥ b := Finset.sum_nonneg fun r _ => mul_self_nonneg _
  have hpp : 0 < 1 / vp := by positivity
  have : b ⬝ᵥ b = 0 := by nlinarith
  exact sub_eq_zero.1 (dotProduct_self_eq_zero.1 this)

/-- The hypothesis on the solver can be met for every data set with positive variances. -/
example (d : Data nf K mn ns) {vp ve : ℝ} (hp : 0 < vp) (he : 0 < ve) :
    ∃ solve : (Fin nf → ℝ) → (Fin nf → ℝ), ∀ v, d.M vp ve *ᵥ solve v = v :=
  ⟨fun v => (d.M vp ve)⁻¹ *ᵥ v, fun v => by rw [mulVec_mulVec, Matrix.mul_nonsing_inv _ (M_unit d hp he), one_mulVec]⟩

/-- Random firm effects with mean `m` and covariance matrix `V`. -/
structure Law {Ω : Type*} [MeasurableSpace Ω] (μ : Measure Ω) (psi : Ω → Fin nf → ℝ) (m : Fin nf → ℝ)
    (V : Matrix (Fin nf) (Fin nf) ℝ) : Prop where
  int2 : ∀ a b, Integrable (fun ω => psi ω a * psi ω b) μ
  cov : ∀ a b, ∫ ω, psi ω a * psi ω b ∂μ = m a * m b + V a b

/-- The variance (divisor `n`) across the cross-section rows of the effect of each row's firm. -/
noncomputable def Data.crossVar (d : Data nf K mn ns) (psi : Fin nf → ℝ) : ℝ :=
  let q := fun r => psi (Fin.append (fun s => (d.st s).j1) (fun m => (d.mv m).j1) r)
  (∑ r, (q r - (∑ r', q r') / ((ns + mn : ℕ) : ℝ)) ^ 2) / ((ns + mn : ℕ) : ℝ)

theorem Jq_mulVec (d : Data nf K mn ns) (psi : Fin nf → ℝ) :
    d.Jq *ᵥ psi = fun r => psi (Fin.append (fun s => (d.st s).j1) (fun m => (d.mv m).j1) r) := by
  ext r
  simp [mulVec, dotProduct, Data.Jq]

/-- The centring matrix. -/
noncomputable def cmat (n : ℕ) : Matrix (Fin n) (Fin n) ℝ := 1 - (1 / (n : ℝ)) • Matrix.of fun _ _ => 1

theorem centred_sum {n : ℕ} (u v : Fin n → ℝ) :
    ∑ r, (u r - gmean Finset.univ u) * (v r - gmean Finset.univ v) = u ⬝ᵥ (cmat n *ᵥ v) := by
  have hv : cmat n *ᵥ v = fun r => v r - gmean Finset.univ v := by
    ext r
    simp only [cmat, sub_mulVec, one_mulVec, smul_mulVec, Pi.sub_apply, Pi.smul_apply, smul_eq_mul, gmean,
      Finset.card_univ, Fintype.card_fin]
    simp only [mulVec, dotProduct, Matrix.of_apply, one_mul]
    ring
  rw [hv]
  have : ∑ r, (v r - gmean Finset.univ v) = 0 := by
    rw [Finset.sum_sub_distrib, Finset.sum_const, nsmul_eq_mul, card_mul_gmean, sub_self]
  simp only [sub_mul, Finset.sum_sub_distrib, ← Finset.mul_sum, this, mul_zero, sub_zero, dotProduct]

/-- `qmat` is the form giving the centred sum of squares of the effects across rows. -/
noncomputable def Data.qmat (d : Data nf K mn ns) : Matrix (Fin nf) (Fin nf) ℝ :=
  d.Jqᵀ * cmat (ns + mn) * d.Jq

theorem qcov_Jq (d : Data nf K mn ns) (a b : Fin nf → ℝ) :
    qcov Finset.univ (d.Jq *ᵥ a) (d.Jq *ᵥ b) = (a ⬝ᵥ (d.qmat *ᵥ b)) / (((ns + mn : ℕ) : ℝ) - 1) := by
  unfold qcov
  rw [centred_sum, Finset.card_univ, Fintype.card_fin]
  congr 1
  rw [Data.qmat, ← mulVec_mulVec, ← mulVec_mulVec, dotProduct_mulVec, dotProduct_mulVec a, vecMul_transpose,
    ← dotProduct_mulVec]

theorem crossVar_eq (d : Data nf K mn ns) (a : Fin nf → ℝ) :
    d.crossVar a = (a ⬝ᵥ (d.qmat *ᵥ a)) / ((ns + mn : ℕ) : ℝ) := by
  have h := centred_sum (d.Jq *ᵥ a) (d.Jq *ᵥ a)
  have h2 : (d.Jq *ᵥ a) ⬝ᵥ (cmat (ns + mn) *ᵥ (d.Jq *ᵥ a)) = a ⬝ᵥ (d.qmat *ᵥ a) := by
    rw [Data.qmat, ← mulVec_mulVec, ← mulVec_mulVec, dotProduct_mulVec a, vecMul_transpose]
  rw [← h2, ← h, Data.crossVar, Jq_mulVec]
  simp only [gmean, Finset.card_univ, Fintype.card_fin]
  congr 1
  exact Finset.sum_congr rfl fun r _ => by ring

variable {Ω : Type*} [MeasurableSpace Ω] {μ : Measure Ω}

theorem law_form {psi : Ω → Fin nf → ℝ} {m : Fin nf → ℝ} {V : Matrix (Fin nf) (Fin nf) ℝ} (h : Law μ psi m V)
    (B : Matrix (Fin nf) (Fin nf) ℝ) :
    ∫ ω, psi ω ⬝ᵥ (B *ᵥ psi ω) ∂μ = m ⬝ᵥ (B *ᵥ m) + (B * Vᵀ).trace := by
  have e : (fun ω => psi ω ⬝ᵥ (B *ᵥ psi ω)) = fun ω => ∑ a, ∑ b, B a b * (psi ω a * psi ω b) := by
    ext ω
    simp only [dotProduct, mulVec, Finset.mul_sum]
    exact Finset.sum_congr rfl fun a _ => Finset.sum_congr rfl fun b _ => by ring
  have hi : ∀ a, Integrable (fun ω => ∑ b, B a b * (psi ω a * psi ω b)) μ := fun a =>
    integrable_finsetSum _ fun b _ => (h.int2 a b).const_mul _
  rw [e, integral_finsetSum _ fun a _ => hi a]
  have : ∀ a, ∫ ω, ∑ b, B a b * (psi ω a * psi ω b) ∂μ = ∑ b, B a b * (m a * m b + V a b) := by
    intro a
    rw [integral_finsetSum _ fun b _ => (h.int2 a b).const_mul _]
    refine Finset.sum_congr rfl fun b _ => ?_
    rw [integral_const_mul, h.cov]
  simp only [this, dotProduct, mulVec, Matrix.trace, Matrix.diag, Matrix.mul_apply, Matrix.transpose_apply,
    Finset.mul_sum, mul_add, Finset.sum_add_distrib]
  congr 1
  exact Finset.sum_congr rfl fun a _ => Finset.sum_congr rfl fun b _ => by ring

theorem M_symm (d : Data nf K mn ns) (vp ve : ℝ) : (d.M vp ve)ᵀ = d.M vp ve := by
  simp [Data.M]

/-- C64 (part): averaged over the random probes, `var_posterior` is the variance of the posterior mean plus the
expected sample variance (divisor `n - 1`) of the posterior deviations; so it equals the posterior expectation of
the variance of the firm effects across the cross section plus `1 / n` of that second term, because the first
term divides by `n` and the second by `n - 1`. -/
theorem C64_posterior_partial (d : Data nf K mn ns) {vp ve : ℝ} (hp : 0 < vp) (he : 0 < ve) (mu : Fin nf → ℝ)
    {solve : (Fin nf → ℝ) → (Fin nf → ℝ)} (hs : ∀ v, d.M vp ve *ᵥ solve v = v) (hn : 1 < ns + mn)
    {R : ℕ} (hR : 0 < R) (z : Fin R → Ω → Fin nf → ℝ) (hz : ∀ k, FE.Noise μ (z k) fun _ => 1)
    {Ω' : Type*} [MeasurableSpace Ω'] {ν : Measure Ω'} {psi : Ω' → Fin nf → ℝ}
    (hpsi : Law ν psi (solve (d.v1 vp ve mu)) (d.M vp ve)⁻¹) :
    let n : ℝ := ((ns + mn : ℕ) : ℝ)
    let report := ∫ ω, d.posteriorVar solve (d.v1 vp ve mu) (fun k => z k ω) ∂μ
    let truth := ∫ ω, d.crossVar (psi ω) ∂ν
    report - d.crossVar (solve (d.v1 vp ve mu)) = n / (n - 1) * (truth - d.crossVar (solve (d.v1 vp ve mu))) := by
  have hsol : ∀ v, solve v = (d.M vp ve)⁻¹ *ᵥ v := by
    intro v
    conv_rhs => rw [← hs v]
    rw [mulVec_mulVec, Matrix.nonsing_inv_mul _ (M_unit d hp he), one_mulVec]
  have hn1 : (1 : ℝ) < ((ns + mn : ℕ) : ℝ) := by exact_mod_cast hn
  intro n report truth
  set m := solve (d.v1 vp ve mu)
  have hT1 : d.postT1 solve (d.v1 vp ve mu) = d.crossVar m := by
    simp only [Data.postT1, Data.crossVar, Jq_mulVec, gmean, Finset.card_univ, Fintype.card_fin, m]
  have hdraw : ∀ k, Integrable (fun ω => d.postDraw solve (z k ω)) μ ∧
      ∫ ω, d.postDraw solve (z k ω) ∂μ = (d.qmat * (d.M vp ve)⁻¹).trace / (n - 1) := by
    intro k
    have h := FE.probe_form (hz k) (d.qmat * (d.M vp ve)⁻¹)
    have e : (fun ω => d.postDraw solve (z k ω))
        = fun ω => (z k ω ⬝ᵥ ((d.qmat * (d.M vp ve)⁻¹) *ᵥ z k ω)) / (n - 1) := by
      ext ω
      rw [Data.postDraw, qcov_Jq, hsol, mulVec_mulVec]
    rw [e]
    exact ⟨h.1.div_const _, by rw [integral_div, h.2]⟩
  have hmean := FE.mean_of_draws hR hdraw
  have hrep : report = d.crossVar m + (d.qmat * (d.M vp ve)⁻¹).trace / (n - 1) := by
    have := (hz ⟨0, hR⟩).prob
    show ∫ ω, (d.postT1 solve (d.v1 vp ve mu) + FE.Panel.meanDraws fun k => d.postDraw solve (z k ω)) ∂μ = _
    rw [integral_add (integrable_const _) hmean.1, hmean.2, hT1]
    simp
  have htr : truth = d.crossVar m + (d.qmat * (d.M vp ve)⁻¹).trace / n := by
    show ∫ ω, d.crossVar (psi ω) ∂ν = _
    simp only [crossVar_eq]
    rw [integral_div, law_form hpsi, add_div, Matrix.transpose_nonsing_inv, M_symm]
  rw [hrep, htr]
  have a1 : n ≠ 0 := by simp only [n]; linarith
  have a2 : n - 1 ≠ 0 := by simp only [n]; linarith
  field_simp
  ring

/-- A firm that only has stayers is given prior mean zero whatever its cluster. -/
theorem C64_stayer_only_prior (d : Data nf K mn ns) (af : Fin (K + 1) → ℝ) (j : Fin nf)
    (h : ∀ r, (d.mv r).j1 ≠ j ∧ (d.mv r).j2 ≠ j) : d.mud af j = 0 := by
  classical
  unfold Data.mud
  refine Finset.sum_eq_zero fun g _ => ?_
  rw [if_neg]
  rintro ⟨r, h' | h'⟩
  · exact (h r).1 h'.1
  · exact (h r).2 h'.1

/-- C64: a firm seen in the mover data, always in the same cluster, is given its cluster's effect as prior mean. -/
theorem C64_prior (d : Data nf K mn ns) (af : Fin (K + 1) → ℝ) (cl : Fin nf → Fin (K + 1))
    (hcl : ∀ r, (d.mv r).g1 = cl (d.mv r).j1 ∧ (d.mv r).g2 = cl (d.mv r).j2) (j : Fin nf)
    (h : ∃ r, (d.mv r).j1 = j ∨ (d.mv r).j2 = j) : d.mud af j = af (cl j) := by
  classical
  unfold Data.mud
  rw [Finset.sum_eq_single (cl j)]
  · rw [if_pos]
    obtain ⟨r, h | h⟩ := h
    · exact ⟨r, Or.inl ⟨h, h ▸ (hcl r).1⟩⟩
    · exact ⟨r, Or.inr ⟨h, h ▸ (hcl r).2⟩⟩
  · intro g _ hg
    rw [if_neg]
    rintro ⟨r, ⟨h1, h2⟩ | ⟨h1, h2⟩⟩
    · exact hg (h2 ▸ h1 ▸ (hcl r).1)
    · exact hg (h2 ▸ h1 ▸ (hcl r).2)
  · simp

/-- C64: the posterior mean of a firm without movers is zero, although the cluster it belongs to has an estimated
effect: the prior mean of its cluster is not used. -/
theorem C64_stayer_only_mean (d : Data nf K mn ns) {vp ve : ℝ} (hp : 0 < vp)
    {solve : (Fin nf → ℝ) → (Fin nf → ℝ)} (hs : ∀ v, d.M vp ve *ᵥ solve v = v) (af : Fin (K + 1) → ℝ) (j : Fin nf)
    (h : ∀ r, (d.mv r).j1 ≠ j ∧ (d.mv r).j2 ≠ j) : solve (d.v1 vp ve (d.mud af)) j = 0 := by
  have h1 := congrFun (hs (d.v1 vp ve (d.mud af))) j
  have hcol : ∀ w : Fin mn → ℝ, (d.Jdᵀ *ᵥ w) j = 0 := by
    intro w
    simp only [mulVec, dotProduct, Matrix.transpose_apply, Data.Jd]
    refine Finset.sum_eq_zero fun r _ => ?_
    rw [if_neg (h r).1, if_neg (h r).2]; ring
  simp only [Data.M, Data.v1, add_mulVec, smul_mulVec, one_mulVec, ← mulVec_mulVec, Pi.add_apply, Pi.smul_apply,
    smul_eq_mul, hcol, mul_zero, add_zero, C64_stayer_only_prior d af j h] at h1
  rcases mul_eq_zero.1 h1 with h2 | h2
  · exact absurd h2 (by positivity)
  · exact h2

/-- The stayer of `exD` works in firm 2, which has no movers. -/
example : ∀ r, (exD.mv r).j1 ≠ 2 ∧ (exD.mv r).j2 ≠ 2 := by
  intro r; fin_cases r <;> simp [exD]

end Pytwoway.CRE
