import Verif.CRE.Props2

/-! # C117: names, order of rows and units in the CRE estimator -/

namespace Pytwoway.CRE

open Matrix

variable {nf K mn ns : ℕ}

/-- What a user means by the same data in other names, order and units: firms are renamed by `f` and clusters by `h`, mover
rows are reordered by `σ` and stayer rows by `τ`, and outcomes are `a * y + b`. -/
structure Spec.Renamed (d d' : Data nf K mn ns) (σ : Fin mn ≃ Fin mn) (τ : Fin ns ≃ Fin ns) (f : Fin nf ≃ Fin nf)
    (h : Fin (K + 1) ≃ Fin (K + 1)) (a b : ℝ) : Prop where
  mover : ∀ r, d'.mv (σ r) = ⟨f (d.mv r).j1, f (d.mv r).j2, h (d.mv r).g1, h (d.mv r).g2, a * (d.mv r).y1 + b,
    a * (d.mv r).y2 + b⟩
  stayer : ∀ r, d'.st (τ r) = ⟨f (d.st r).j1, h (d.st r).g1, a * (d.st r).y1 + b⟩

/-! ## Averages and covariances over reordered rows -/

theorem averageOver_affine {n : ℕ} (σ : Fin n ≃ Fin n) {P P' : Fin n → Prop} (hP : ∀ r, P' (σ r) ↔ P r) {u u' : Fin n → ℝ}
    {a c : ℝ} (hu : ∀ r, P r → u' (σ r) = a * u r + c) (hne : ∃ r, P r) :
    averageOver u' P' = a * averageOver u P + c := by
  classical
  have hs : Finset.univ.filter P' = (Finset.univ.filter P).map σ.toEmbedding := by
    ext r
    simp only [Finset.mem_filter, Finset.mem_univ, true_and, Finset.mem_map, Equiv.coe_toEmbedding]
    constructor
    · intro h
      exact ⟨σ.symm r, (hP _).mp (by rwa [σ.apply_symm_apply]), σ.apply_symm_apply r⟩
    · rintro ⟨x, hx, rfl⟩
      exact (hP x).mpr hx
  have hc : ((Finset.univ.filter P).card : ℝ) ≠ 0 := by
    obtain ⟨r, hr⟩ := hne
    exact_mod_cast Finset.card_ne_zero_of_mem (a := r) (by simpa using hr)
  unfold averageOver
  rw [hs, Finset.sum_map, Finset.card_map]
  have e : ∑ r ∈ Finset.univ.filter P, u' (σ.toEmbedding r) = a * ∑ r ∈ Finset.univ.filter P, u r
      + ((Finset.univ.filter P).card : ℝ) * c := by
    rw [Finset.mul_sum, ← nsmul_eq_mul, ← Finset.sum_const, ← Finset.sum_add_distrib]
    exact Finset.sum_congr rfl fun r hr => hu r (Finset.mem_filter.mp hr).2
  rw [e]
  field_simp

theorem sampleCov_affine {n : ℕ} (σ : Fin n ≃ Fin n) {P P' : Fin n → Prop} (hP : ∀ r, P' (σ r) ↔ P r)
    {u u' v v' : Fin n → ℝ} {a c c' : ℝ} (hu : ∀ r, P r → u' (σ r) = a * u r + c)
    (hv : ∀ r, P r → v' (σ r) = a * v r + c') : sampleCov P' u' v' = a ^ 2 * sampleCov P u v := by
  classical
  have hs : Finset.univ.filter P' = (Finset.univ.filter P).map σ.toEmbedding := by
    ext r
    simp only [Finset.mem_filter, Finset.mem_univ, true_and, Finset.mem_map, Equiv.coe_toEmbedding]
    constructor
    · intro h
      exact ⟨σ.symm r, (hP _).mp (by rwa [σ.apply_symm_apply]), σ.apply_symm_apply r⟩
    · rintro ⟨x, hx, rfl⟩
      exact (hP x).mpr hx
  unfold sampleCov
  rw [hs, Finset.sum_map, Finset.card_map, ← mul_div_assoc]
  congr 1
  rw [Finset.mul_sum]
  refine Finset.sum_congr rfl fun r hr => ?_
  have hr' := (Finset.mem_filter.mp hr).2
  rw [averageOver_affine σ hP hu ⟨r, hr'⟩, averageOver_affine σ hP hv ⟨r, hr'⟩]
  simp only [Equiv.coe_toEmbedding, hu r hr', hv r hr']
  ring

/-! ## Cluster effects -/

theorem ssr_unique {d : Data nf K mn ns} (hc : d.Connected) {p q : Fin (K + 1) → ℝ} (hp : p (Fin.last K) = 0)
    (hq : q (Fin.last K) = 0) (h1 : ∀ phi, d.ssr p ≤ d.ssr phi) (h2 : ∀ phi, d.ssr q ≤ d.ssr phi) : p = q := by
  have hz : d.Jc *ᵥ (fun c : Fin K => (fun g => p g - q g) c.castSucc) = 0 := by
    have hmid := h1 fun g => (p g + q g) / 2
    have hsame : d.ssr p = d.ssr q := le_antisymm (h1 q) (h2 p)
    have hpar : d.ssr (fun g => (p g + q g) / 2) = (d.ssr p + d.ssr q) / 2
        - 1 / 4 * ∑ r, ((p (d.mv r).g2 - q (d.mv r).g2) - (p (d.mv r).g1 - q (d.mv r).g1)) ^ 2 := by
      unfold Data.ssr
      rw [Finset.mul_sum, ← Finset.sum_add_distrib, Finset.sum_div, ← Finset.sum_sub_distrib]
      exact Finset.sum_congr rfl fun r _ => by ring
    have hle : ∑ r, ((p (d.mv r).g2 - q (d.mv r).g2) - (p (d.mv r).g1 - q (d.mv r).g1)) ^ 2 ≤ 0 := by
      rw [hpar] at hmid; linarith
    have h0 := (Finset.sum_eq_zero_iff_of_nonneg fun r _ => sq_nonneg
      ((p (d.mv r).g2 - q (d.mv r).g2) - (p (d.mv r).g1 - q (d.mv r).g1))).mp
      (le_antisymm hle (Finset.sum_nonneg fun r _ => sq_nonneg _))
    funext r
    rw [Jc_mulVec d (fun g => p g - q g) (by rw [hp, hq, sub_self])]
    exact pow_eq_zero_iff (two_ne_zero) |>.mp (h0 r (Finset.mem_univ r))
  have hk := Jc_ker hc hz
  funext g
  refine Fin.lastCases (by rw [hp, hq]) (fun c => ?_) g
  exact sub_eq_zero.mp (congrFun hk c)

variable {d d' : Data nf K mn ns} {σ : Fin mn ≃ Fin mn} {τ : Fin ns ≃ Fin ns} {f : Fin nf ≃ Fin nf}
  {h : Fin (K + 1) ≃ Fin (K + 1)} {a b : ℝ} {solve solve' : Matrix (Fin K) (Fin K) ℝ → (Fin K → ℝ) → (Fin K → ℝ)}

theorem Spec.Renamed.connected (hr : Spec.Renamed d d' σ τ f h a b) (hc : d.Connected) : d'.Connected := by
  have key : ∀ u v, Relation.ReflTransGen d.Linked u v → Relation.ReflTransGen d'.Linked (h u) (h v) := by
    intro u v huv
    induction huv with
    | refl => exact .refl
    | tail _ hl ih =>
      refine .tail ih ?_
      obtain ⟨r, ⟨h1, h2⟩ | ⟨h1, h2⟩⟩ := hl
      · exact ⟨σ r, Or.inl ⟨by rw [hr.mover, h1], by rw [hr.mover, h2]⟩⟩
      · exact ⟨σ r, Or.inr ⟨by rw [hr.mover, h1], by rw [hr.mover, h2]⟩⟩
  intro x y
  simpa using key (h.symm x) (h.symm y) (hc _ _)

theorem Spec.Renamed.ssr (hr : Spec.Renamed d d' σ τ f h a b) (phi : Fin (K + 1) → ℝ) :
    d'.ssr phi = ∑ r, (a * ((d.mv r).y2 - (d.mv r).y1) - (phi (h (d.mv r).g2) - phi (h (d.mv r).g1))) ^ 2 := by
  rw [Data.ssr, ← Equiv.sum_comp σ]
  refine Finset.sum_congr rfl fun r _ => ?_
  rw [hr.mover]
  ring

/-- C117, cluster effects: `a` times the ones before, up to a constant that depends on which cluster comes last. -/
theorem C117_cluster_effects (hr : Spec.Renamed d d' σ τ f h a b) (hc : d.Connected) (hs : GoodSpsolve solve)
    (hs' : GoodSpsolve solve') (wo : Bool) :
    ∃ t, (∀ g, afill wo (d'.A solve') (h g) = a * afill wo (d.A solve) g + t) ∧
      (wo = true ∨ h (Fin.last K) = Fin.last K → t = 0) := by
  cases wo with
  | true => exact ⟨0, fun g => by rw [afill_wo, afill_wo]; ring, fun _ => rfl⟩
  | false =>
    obtain ⟨l1, m1⟩ := C63_least_squares d hc hs
    obtain ⟨l2, m2⟩ := C63_least_squares d' (hr.connected hc) hs'
    set P := afill false (d.A solve) with hP
    have hu := ssr_unique (hr.connected hc) (q := fun g => a * P (h.symm g) - a * P (h.symm (Fin.last K))) l2
      (sub_self _) m2 (by
        intro phi
        rw [hr.ssr, hr.ssr]
        have e1 : ∑ r, (a * ((d.mv r).y2 - (d.mv r).y1) - (a * P (h.symm (h (d.mv r).g2)) - a * P (h.symm (Fin.last K))
            - (a * P (h.symm (h (d.mv r).g1)) - a * P (h.symm (Fin.last K))))) ^ 2 = a ^ 2 * d.ssr P := by
          rw [Data.ssr, Finset.mul_sum]
          refine Finset.sum_congr rfl fun r _ => ?_
          rw [h.symm_apply_apply, h.symm_apply_apply]; ring
        rw [e1]
        by_cases ha : a = 0
        · rw [ha, zero_pow two_ne_zero, zero_mul]
          exact Finset.sum_nonneg fun r _ => sq_nonneg _
        · refine le_trans (mul_le_mul_of_nonneg_left (m1 fun g => phi (h g) / a) (sq_nonneg a)) (le_of_eq ?_)
          rw [Data.ssr, Finset.mul_sum]
          refine Finset.sum_congr rfl fun r _ => ?_
          field_simp)
    refine ⟨-(a * P (h.symm (Fin.last K))), fun g => ?_, fun h0 => ?_⟩
    · rw [hu]; simp only [h.symm_apply_apply]; ring
    · have h1 : h (Fin.last K) = Fin.last K := by simpa using h0
      rw [show h.symm (Fin.last K) = Fin.last K by rw [Equiv.symm_apply_eq, h1], l1]; simp

/-! ## Net outcomes -/

theorem gmean_averageOver {n : ℕ} (P : Fin n → Prop) [DecidablePred P] (u : Fin n → ℝ) :
    gmean (Finset.univ.filter P) u = averageOver u P := gmean_eq_averageOver fun r => by simp

theorem Spec.Renamed.mx (hr : Spec.Renamed d d' σ τ f h a b) {af af' : Fin (K + 1) → ℝ} {t : ℝ}
    (ht : ∀ g, af' (h g) = a * af g + t) (wo : Bool) :
    (∀ r, d'.mxM wo af' (σ r) = a * d.mxM wo af r + if wo then 0 else b - t) ∧
    ∀ r, d'.mxS wo af' (τ r) = a * d.mxS wo af r + if wo then 0 else b - t := by
  cases wo with
  | true => simp [Data.mxM, Data.mxS]
  | false =>
    simp only [Data.mxM, Data.mxS, Bool.false_eq_true, if_false, gmean_averageOver]
    refine ⟨fun r => averageOver_affine σ (fun x => ?_) (fun x _ => ?_) ⟨r, rfl, rfl⟩,
      fun r => averageOver_affine τ (fun x => ?_) (fun x _ => ?_) ⟨r, rfl⟩⟩
    · rw [hr.mover, hr.mover]; simp
    · simp only [Data.psi1, Data.psi2, hr.mover, ht]; ring
    · rw [hr.stayer, hr.stayer]; simp
    · simp only [Data.psiS, hr.stayer, ht]; ring

/-- The frames of net outcomes hold the same rows, in other names, order and units. -/
structure Net (σ : Fin mn ≃ Fin mn) (τ : Fin ns ≃ Fin ns) (f : Fin nf ≃ Fin nf) (h : Fin (K + 1) ≃ Fin (K + 1)) (a c : ℝ)
    (dm dm' : Fin mn → NMRow nf K) (ds ds' : Fin ns → NSRow nf K) : Prop where
  m : ∀ r, dm' (σ r) = ⟨f (dm r).j1, f (dm r).j2, h (dm r).g1, h (dm r).g2, a * (dm r).y1n + c, a * (dm r).y2n + c⟩
  s : ∀ r, ds' (τ r) = ⟨f (ds r).j1, h (ds r).g1, a * (ds r).y1n + c⟩

theorem Spec.Renamed.net (hr : Spec.Renamed d d' σ τ f h a b) {af af' : Fin (K + 1) → ℝ} {t : ℝ}
    (ht : ∀ g, af' (h g) = a * af g + t) (wo : Bool) (hwo : wo = true → t = 0) :
    Net σ τ f h a (if wo then b else 0) (d.dm wo af) (d'.dm wo af') (d.ds wo af) (d'.ds wo af') := by
  obtain ⟨h1, h2⟩ := hr.mx ht wo
  constructor
  · intro r
    simp only [Data.dm, h1, hr.mover, Data.psi1, Data.psi2, ht, NMRow.mk.injEq, true_and]
    cases wo with
    | true => rw [hwo rfl]; constructor <;> simp <;> ring
    | false => constructor <;> simp <;> ring
  · intro r
    simp only [Data.ds, h2, hr.stayer, Data.psiS, ht, NSRow.mk.injEq, true_and]
    cases wo with
    | true => rw [hwo rfl]; simp; ring
    | false => simp; ring

/-! ## Moments and parameters -/

/-- All moments multiplied by `c`. -/
def Moments.scale (c : ℝ) (m : Moments) : Moments :=
  ⟨c * m.y1s_y1s, c * m.y1s_y1m1, c * m.y1s_y2m1, c * m.y1m1_y1m1, c * m.y2m1_y1m1, c * m.y2m1_y2m1, c * m.y1s_y1m2,
    c * m.y1s_y2m2, c * m.y1m2_y1m2, c * m.y2m2_y1m2, c * m.y2m2_y2m2, c * m.dym_dym⟩

/-- All parameters multiplied by `c`. -/
def Params.scale (c : ℝ) (p : Params) : Params :=
  ⟨c * p.cov_Am1Am1, c * p.cov_Am1Psi1, c * p.var_psi_m1, c * p.cov_Am2Am2, c * p.cov_Am2Psi2, c * p.var_psi_m2,
    c * p.cov_AsAm1, c * p.cov_AsAm2, c * p.psi_plus_cov1, c * p.psi_plus_cov2, c * p.var_psi, c * p.cov_AsPsi1,
    c * p.cov_AsAs, c * p.var_eps⟩

theorem withinParams_scale (c : ℝ) (hc : 0 ≤ c) (m : Moments) : withinParams (m.scale c) = (withinParams m).scale c := by
  simp only [withinParams, Moments.scale, Params.scale, Params.mk.injEq]
  refine ⟨trivial, ?_, ?_, trivial, ?_, ?_, ?_, ?_, ?_, ?_, ?_, ?_, ?_, ?_⟩
  all_goals first
    | ring1
    | (rw [mul_max_of_nonneg _ _ hc, mul_zero]; congr 1; ring1)

theorem exists_equiv {n : ℕ} (σ : Fin n ≃ Fin n) {P P' : Fin n → Prop} (hP : ∀ r, P' (σ r) ↔ P r) :
    (∃ r, P' r) ↔ ∃ r, P r := by
  exact ⟨fun ⟨r, h⟩ => ⟨σ.symm r, (hP _).mp (by rwa [σ.apply_symm_apply])⟩, fun ⟨r, h⟩ => ⟨σ r, (hP r).mpr h⟩⟩

theorem Net.moments {c : ℝ} {dm dm' : Fin mn → NMRow nf K} {ds ds' : Fin ns → NSRow nf K} (hn : Net σ τ f h a c dm dm' ds ds') :
    momentsWithin dm' ds' = (momentsWithin dm ds).scale (a ^ 2) := by
  obtain ⟨p1, p2, p3, p4, p5, p6, p7⟩ := C26_moments dm ds
  obtain ⟨q1, q2, q3, q4, q5, q6, q7⟩ := C26_moments dm' ds'
  obtain ⟨p8, p9, p10, p11⟩ := C26_stayer_mover_moments dm ds
  obtain ⟨q8, q9, q10, q11⟩ := C26_stayer_mover_moments dm' ds'
  have p12 := C26_change_moment dm ds
  have q12 := C26_change_moment dm' ds'
  have y1 : ∀ r, (dm' (σ r)).y1n = a * (dm r).y1n + c := fun r => by rw [hn.m]
  have y2 : ∀ r, (dm' (σ r)).y2n = a * (dm r).y2n + c := fun r => by rw [hn.m]
  have ys : ∀ r, (ds' (τ r)).y1n = a * (ds r).y1n + c := fun r => by rw [hn.s]
  have l1 : ∀ r k, ((dm' (σ k)).j1 = (dm' (σ r)).j1 ∧ (dm' (σ k)).g2 ≠ (dm' (σ r)).g2) ↔
      ((dm k).j1 = (dm r).j1 ∧ (dm k).g2 ≠ (dm r).g2) := by
    intro r k; rw [hn.m, hn.m]; simp
  have l2 : ∀ r k, ((dm' (σ k)).j2 = (dm' (σ r)).j2 ∧ (dm' (σ k)).g1 ≠ (dm' (σ r)).g1) ↔
      ((dm k).j2 = (dm r).j2 ∧ (dm k).g1 ≠ (dm r).g1) := by
    intro r k; rw [hn.m, hn.m]; simp
  have l3 : ∀ r k, (τ k ≠ τ r ∧ (ds' (τ k)).j1 = (ds' (τ r)).j1) ↔ (k ≠ r ∧ (ds k).j1 = (ds r).j1) := by
    intro r k; rw [hn.s, hn.s]; simp
  have l4 : ∀ r k, (dm' (σ k)).j1 = (ds' (τ r)).j1 ↔ (dm k).j1 = (ds r).j1 := by
    intro r k; rw [hn.m, hn.s]; simp
  have l5 : ∀ r k, (dm' (σ k)).j2 = (ds' (τ r)).j1 ↔ (dm k).j2 = (ds r).j1 := by
    intro r k; rw [hn.m, hn.s]; simp
  have l6 : ∀ r, ((∃ k, (dm' k).j1 = (ds' (τ r)).j1) ∧ ∃ k, (dm' k).j2 = (ds' (τ r)).j1) ↔
      ((∃ k, (dm k).j1 = (ds r).j1) ∧ ∃ k, (dm k).j2 = (ds r).j1) := fun r =>
    and_congr (exists_equiv σ (P' := fun k => (dm' k).j1 = (ds' (τ r)).j1) (l4 r))
      (exists_equiv σ (P' := fun k => (dm' k).j2 = (ds' (τ r)).j1) (l5 r))
  have e1 := fun r => exists_equiv σ (P' := fun k => (dm' k).j1 = (dm' (σ r)).j1 ∧ (dm' k).g2 ≠ (dm' (σ r)).g2) (l1 r)
  have e2 := fun r => exists_equiv σ (P' := fun k => (dm' k).j2 = (dm' (σ r)).j2 ∧ (dm' k).g1 ≠ (dm' (σ r)).g1) (l2 r)
  have e3 := fun r => exists_equiv τ (P' := fun k => k ≠ τ r ∧ (ds' k).j1 = (ds' (τ r)).j1) (l3 r)
  simp only [Moments.scale]
  have hext : ∀ x y : Moments, x.y1s_y1s = y.y1s_y1s → x.y1s_y1m1 = y.y1s_y1m1 → x.y1s_y2m1 = y.y1s_y2m1 →
      x.y1m1_y1m1 = y.y1m1_y1m1 → x.y2m1_y1m1 = y.y2m1_y1m1 → x.y2m1_y2m1 = y.y2m1_y2m1 → x.y1s_y1m2 = y.y1s_y1m2 →
      x.y1s_y2m2 = y.y1s_y2m2 → x.y1m2_y1m2 = y.y1m2_y1m2 → x.y2m2_y1m2 = y.y2m2_y1m2 → x.y2m2_y2m2 = y.y2m2_y2m2 →
      x.dym_dym = y.dym_dym → x = y := by
    intro x y; cases x; cases y; simp only [Moments.mk.injEq]; intros; simp_all
  refine hext _ _ ?_ ?_ ?_ ?_ ?_ ?_ ?_ ?_ ?_ ?_ ?_ ?_
  · change (momentsWithin dm' ds').y1s_y1s = a ^ 2 * _
    rw [p7, q7]
    exact sampleCov_affine τ (fun r => and_congr (l6 r) (e3 r)) (fun r _ => ys r)
      fun r hr => averageOver_affine τ (l3 r) (fun k _ => ys k) hr.2
  · change (momentsWithin dm' ds').y1s_y1m1 = a ^ 2 * _
    rw [p8, q8]
    exact sampleCov_affine τ l6 (fun r _ => ys r) fun r hr => averageOver_affine σ (l4 r) (fun k _ => y1 k) hr.1
  · change (momentsWithin dm' ds').y1s_y2m1 = a ^ 2 * _
    rw [p9, q9]
    exact sampleCov_affine τ l6 (fun r _ => ys r) fun r hr => averageOver_affine σ (l4 r) (fun k _ => y2 k) hr.1
  · change (momentsWithin dm' ds').y1m1_y1m1 = a ^ 2 * _
    rw [p1, q1]
    exact sampleCov_affine σ e1 (fun r _ => y1 r) fun r hr => averageOver_affine σ (l1 r) (fun k _ => y1 k) hr
  · change (momentsWithin dm' ds').y2m1_y1m1 = a ^ 2 * _
    rw [p2, q2]
    exact sampleCov_affine σ e1 (fun r _ => y2 r) fun r hr => averageOver_affine σ (l1 r) (fun k _ => y1 k) hr
  · change (momentsWithin dm' ds').y2m1_y2m1 = a ^ 2 * _
    rw [p3, q3]
    exact sampleCov_affine σ e1 (fun r _ => y2 r) fun r hr => averageOver_affine σ (l1 r) (fun k _ => y2 k) hr
  · change (momentsWithin dm' ds').y1s_y1m2 = a ^ 2 * _
    rw [p10, q10]
    exact sampleCov_affine τ l6 (fun r _ => ys r) fun r hr => averageOver_affine σ (l5 r) (fun k _ => y1 k) hr.2
  · change (momentsWithin dm' ds').y1s_y2m2 = a ^ 2 * _
    rw [p11, q11]
    exact sampleCov_affine τ l6 (fun r _ => ys r) fun r hr => averageOver_affine σ (l5 r) (fun k _ => y2 k) hr.2
  · change (momentsWithin dm' ds').y1m2_y1m2 = a ^ 2 * _
    rw [p4, q4]
    exact sampleCov_affine σ e2 (fun r _ => y1 r) fun r hr => averageOver_affine σ (l2 r) (fun k _ => y1 k) hr
  · change (momentsWithin dm' ds').y2m2_y1m2 = a ^ 2 * _
    rw [p5, q5]
    exact sampleCov_affine σ e2 (fun r _ => y2 r) fun r hr => averageOver_affine σ (l2 r) (fun k _ => y1 k) hr
  · change (momentsWithin dm' ds').y2m2_y2m2 = a ^ 2 * _
    rw [p6, q6]
    exact sampleCov_affine σ e2 (fun r _ => y2 r) fun r hr => averageOver_affine σ (l2 r) (fun k _ => y2 k) hr
  · change (momentsWithin dm' ds').dym_dym = a ^ 2 * _
    rw [p12, q12]
    have hd : ∀ r, (dm' (σ r)).y2n - (dm' (σ r)).y1n = a * ((dm r).y2n - (dm r).y1n) + 0 := fun r => by rw [y1, y2]; ring
    exact sampleCov_affine σ (fun r => by rw [hn.m]; simp) (fun r _ => hd r) fun r _ => hd r

/-- C117, within-cluster parameters: every one is `a ^ 2` times the one before. -/
theorem C117_within (hr : Spec.Renamed d d' σ τ f h a b) (hc : d.Connected) (hs : GoodSpsolve solve)
    (hs' : GoodSpsolve solve') (wo : Bool) :
    withinParams (momentsWithin (d'.dm wo (afill wo (d'.A solve'))) (d'.ds wo (afill wo (d'.A solve')))) =
      (withinParams (momentsWithin (d.dm wo (afill wo (d.A solve))) (d.ds wo (afill wo (d.A solve))))).scale (a ^ 2) := by
  obtain ⟨t, ht, h0⟩ := C117_cluster_effects hr hc hs hs' wo
  rw [(hr.net ht wo fun hw => h0 (Or.inl hw)).moments, withinParams_scale _ (sq_nonneg a)]

/-! ## Results -/

/-- Stayer rows followed by mover rows, reordered. -/
def catEquiv (τ : Fin ns ≃ Fin ns) (σ : Fin mn ≃ Fin mn) : Fin (ns + mn) ≃ Fin (ns + mn) :=
  (finSumFinEquiv.symm.trans (Equiv.sumCongr τ σ)).trans finSumFinEquiv

theorem cat_equiv {s s' : Fin ns → ℝ} {m m' : Fin mn → ℝ} {a c : ℝ} (hs : ∀ r, s' (τ r) = a * s r + c)
    (hm : ∀ r, m' (σ r) = a * m r + c) (r : Fin (ns + mn)) : cat s' m' (catEquiv τ σ r) = a * cat s m r + c := by
  refine Fin.addCases (fun i => ?_) (fun i => ?_) r
  · simp [catEquiv, cat, hs]
  · simp [catEquiv, cat, hm]

theorem qcov_univ_affine {n : ℕ} (σ : Fin n ≃ Fin n) {u u' v v' : Fin n → ℝ} {a c c' : ℝ} (hu : ∀ r, u' (σ r) = a * u r + c)
    (hv : ∀ r, v' (σ r) = a * v r + c') : qcov Finset.univ u' v' = a ^ 2 * qcov Finset.univ u v := by
  rw [qcov_eq (P := fun _ => True) (by simp) (fun _ _ => rfl), qcov_eq (P := fun _ => True) (by simp) (fun _ _ => rfl)]
  exact sampleCov_affine σ (fun _ => Iff.rfl) (fun r _ => hu r) fun r _ => hv r

theorem var_univ {n : ℕ} (u : Fin n → ℝ) :
    (∑ r, (u r - gmean Finset.univ u) ^ 2) / (n : ℝ) = qcov Finset.univ u u * (((n : ℝ) - 1) / n) := by
  unfold qcov
  rw [Finset.card_univ, Fintype.card_fin]
  rcases eq_or_ne n 1 with rfl | hn
  · have : ∀ r : Fin 1, u r - gmean Finset.univ u = 0 := fun r => gmean_const (u 0) u (fun r => by rw [Fin.eq_zero r]) r
    rw [Finset.sum_eq_zero fun r _ => by rw [this, zero_pow two_ne_zero]]
    simp
  · have : (n : ℝ) - 1 ≠ 0 := sub_ne_zero.mpr (by exact_mod_cast hn)
    simp only [pow_two]
    field_simp

/-- All entries of a result multiplied by `c`. -/
def Res.scale (c : ℝ) (r : Res) : Res :=
  ⟨c * r.var_y, c * r.var_bw, c * r.cov_bw, c * r.var_wt, c * r.cov_wt, c * r.tot_var, c * r.tot_cov, c * r.s_var_y,
    c * r.s_var_bw, c * r.s_cov_bw, c * r.s_var_tot, c * r.s_cov_tot⟩

/-- C117: every reported variance and covariance, between, within and total, is `a ^ 2` times the one before.  Names, order
of rows, which cluster comes last, and `b` do not matter. -/
theorem C117_results (hr : Spec.Renamed d d' σ τ f h a b) (hc : d.Connected) (hs : GoodSpsolve solve)
    (hs' : GoodSpsolve solve') (wo : Bool) : d'.fit solve' wo = (d.fit solve wo).scale (a ^ 2) := by
  obtain ⟨t, ht, h0⟩ := C117_cluster_effects hr hc hs hs' wo
  obtain ⟨x1, x2⟩ := hr.mx ht wo
  have hpsi := cat_equiv (σ := σ) (τ := τ) (s := d.psiS (afill wo (d.A solve))) (m := d.psi1 (afill wo (d.A solve)))
    (s' := d'.psiS (afill wo (d'.A solve'))) (m' := d'.psi1 (afill wo (d'.A solve'))) (a := a) (c := t)
    (fun r => by simp only [Data.psiS, hr.stayer, ht]) (fun r => by simp only [Data.psi1, hr.mover, ht])
  have hmx := cat_equiv (σ := σ) (τ := τ) x2 x1
  have hy := cat_equiv (σ := σ) (τ := τ) (s := fun r => (d.st r).y1) (m := fun r => (d.mv r).y1)
    (s' := fun r => (d'.st r).y1) (m' := fun r => (d'.mv r).y1) (a := a) (c := b)
    (fun r => by rw [hr.stayer]) (fun r => by rw [hr.mover])
  have k1 := qcov_univ_affine _ hpsi hpsi
  have k2 := qcov_univ_affine _ hpsi hmx
  have k3 := qcov_univ_affine _ hy hy
  simp only [Data.fit, C117_within hr hc hs hs' wo, collectRes, Res.scale, Params.scale, k1, k2, var_univ, k3, Res.mk.injEq]
  refine ⟨?_, trivial, trivial, trivial, ?_, ?_, ?_, ?_, trivial, trivial, ?_, ?_⟩ <;> ring

/-! ## Posterior -/

theorem Spec.Renamed.mud (hr : Spec.Renamed d d' σ τ f h a b) {af af' : Fin (K + 1) → ℝ} {t : ℝ}
    (ht : ∀ g, af' (h g) = a * af g + t) (cl : Fin nf → Fin (K + 1))
    (hcl : ∀ r, (d.mv r).g1 = cl (d.mv r).j1 ∧ (d.mv r).g2 = cl (d.mv r).j2) (j : Fin nf)
    (hj : ∃ r, (d.mv r).j1 = j ∨ (d.mv r).j2 = j) : d'.mud af' (f j) = a * d.mud af j + t := by
  rw [C64_prior d af cl hcl j hj, C64_prior d' af' (fun j => h (cl (f.symm j))) (fun r => ?_) (f j), f.symm_apply_apply, ht]
  · obtain ⟨r, h1 | h1⟩ := hj
    · exact ⟨σ r, Or.inl (by rw [hr.mover, h1])⟩
    · exact ⟨σ r, Or.inr (by rw [hr.mover, h1])⟩
  · obtain ⟨r, rfl⟩ := σ.surjective r
    rw [hr.mover]
    simp only [f.symm_apply_apply, (hcl r).1, (hcl r).2, and_self]

theorem JdT_mulVec (d : Data nf K mn ns) (v : Fin mn → ℝ) (j : Fin nf) :
    (d.Jdᵀ *ᵥ v) j = ∑ r, ((if (d.mv r).j2 = j then 1 else 0) - (if (d.mv r).j1 = j then 1 else 0)) * v r := rfl

theorem Spec.Renamed.JdT (hr : Spec.Renamed d d' σ τ f h a b) {v v' : Fin mn → ℝ} {c : ℝ} (hv : ∀ r, v' (σ r) = c * v r)
    (j : Fin nf) : (d'.Jdᵀ *ᵥ v') (f j) = c * (d.Jdᵀ *ᵥ v) j := by
  rw [JdT_mulVec, JdT_mulVec, ← Equiv.sum_comp σ, Finset.mul_sum]
  refine Finset.sum_congr rfl fun r _ => ?_
  rw [hr.mover, hv]
  simp only [f.apply_eq_iff_eq]
  ring

theorem M_mulVec (d : Data nf K mn ns) (vp ve : ℝ) (x : Fin nf → ℝ) (j : Fin nf) :
    (d.M vp ve *ᵥ x) j = 1 / vp * x j + 1 / ve * (d.Jdᵀ *ᵥ (d.Jd *ᵥ x)) j := by
  simp only [Data.M, add_mulVec, smul_mulVec, one_mulVec, ← mulVec_mulVec, Pi.add_apply, Pi.smul_apply, smul_eq_mul]

/-- The solution of the renamed system, from the solution of the first one. -/
theorem Spec.Renamed.solveM (hr : Spec.Renamed d d' σ τ f h a b) {vp ve : ℝ} (hp : 0 < vp) (he : 0 < ve) (ha : a ≠ 0)
    {solve solve' : (Fin nf → ℝ) → (Fin nf → ℝ)} (hs : ∀ v, d.M vp ve *ᵥ solve v = v)
    (hs' : ∀ v, d'.M (a ^ 2 * vp) (a ^ 2 * ve) *ᵥ solve' v = v) {v v' : Fin nf → ℝ} {c t : ℝ}
    (hv : ∀ j, v' (f j) = c * v j / a ^ 2 + t / (a ^ 2 * vp)) (j : Fin nf) : solve' v' (f j) = c * solve v j + t := by
  have ha2 : 0 < a ^ 2 := by positivity
  have hu := M_unit d' (mul_pos ha2 hp) (mul_pos ha2 he)
  set x : Fin nf → ℝ := fun k => c * solve v (f.symm k) + t with hx
  have key : d'.M (a ^ 2 * vp) (a ^ 2 * ve) *ᵥ x = v' := by
    funext k
    obtain ⟨k, rfl⟩ := f.surjective k
    have h1 := congrFun (hs v) k
    rw [M_mulVec] at h1
    rw [M_mulVec, hr.JdT (v := d.Jd *ᵥ solve v) (c := c), hv, ← h1]
    · simp only [hx, f.symm_apply_apply]
      field_simp
      ring
    · intro r
      rw [Jd_mulVec, Jd_mulVec, hr.mover]
      simp only [hx, f.symm_apply_apply]
      ring
  have e : solve' v' = x := by
    have h2 := (hs' v').trans key.symm
    have h3 := congrArg ((d'.M (a ^ 2 * vp) (a ^ 2 * ve))⁻¹ *ᵥ ·) h2
    simpa only [mulVec_mulVec, nonsing_inv_mul _ hu, one_mulVec] using h3
  rw [e]
  simp only [hx, f.symm_apply_apply]

theorem Spec.Renamed.Jq (hr : Spec.Renamed d d' σ τ f h a b) {x x' : Fin nf → ℝ} {c t : ℝ}
    (hx : ∀ j, x' (f j) = c * x j + t) (r : Fin (ns + mn)) :
    (d'.Jq *ᵥ x') (catEquiv τ σ r) = c * (d.Jq *ᵥ x) r + t := by
  rw [Jq_mulVec, Jq_mulVec]
  refine Fin.addCases (fun i => ?_) (fun i => ?_) r
  · simp [catEquiv, hr.stayer, hx]
  · simp [catEquiv, hr.mover, hx]

/-- C117, posterior variance (part): if every firm has a mover and belongs to one cluster, then with the draw of each firm
following the firm, the posterior variance is `a ^ 2` times the one before, whichever cluster comes last.  `vp` and `ve` are
the estimates `var_psi` and `var_eps`, which are `a ^ 2` times the ones before (`C117_within`).  Missing: firms without
movers (`C117_posterior_wrong`). -/
theorem C117_posterior_partial (hr : Spec.Renamed d d' σ τ f h a b) (hc : d.Connected) (hs : GoodSpsolve solve)
    (hs' : GoodSpsolve solve') (wo : Bool) (cl : Fin nf → Fin (K + 1))
    (hcl : ∀ r, (d.mv r).g1 = cl (d.mv r).j1 ∧ (d.mv r).g2 = cl (d.mv r).j2)
    (hall : ∀ j, ∃ r, (d.mv r).j1 = j ∨ (d.mv r).j2 = j) {vp ve : ℝ} (hp : 0 < vp) (he : 0 < ve) (ha : a ≠ 0)
    {ml ml' : (Fin nf → ℝ) → (Fin nf → ℝ)} (hm : ∀ v, d.M vp ve *ᵥ ml v = v)
    (hm' : ∀ v, d'.M (a ^ 2 * vp) (a ^ 2 * ve) *ᵥ ml' v = v) {R : ℕ} (z z' : Fin R → Fin nf → ℝ)
    (hz : ∀ k j, z' k (f j) = z k j) :
    d'.posteriorVar ml' (d'.v1 (a ^ 2 * vp) (a ^ 2 * ve) (d'.mud (afill wo (d'.A solve')))) z' =
      a ^ 2 * d.posteriorVar ml (d.v1 vp ve (d.mud (afill wo (d.A solve)))) z := by
  obtain ⟨t, ht, -⟩ := C117_cluster_effects hr hc hs hs' wo
  have hY : ∀ r, d'.Yc (σ r) = a * d.Yc r := fun r => by simp only [Data.Yc, hr.mover]; ring
  have hmean : ∀ j, ml' (d'.v1 (a ^ 2 * vp) (a ^ 2 * ve) (d'.mud (afill wo (d'.A solve')))) (f j)
      = a * ml (d.v1 vp ve (d.mud (afill wo (d.A solve)))) j + t := by
    refine hr.solveM hp he ha hm hm' fun j => ?_
    simp only [Data.v1, Pi.add_apply, Pi.smul_apply, smul_eq_mul, hr.JdT hY, hr.mud ht cl hcl j (hall j)]
    field_simp
    ring
  have hdraw : ∀ k j, ml' (z' k) (f j) = a ^ 2 * ml (z k) j + 0 := fun k =>
    hr.solveM hp he ha hm hm' fun j => by rw [hz]; field_simp; ring
  have k1 := qcov_univ_affine _ (hr.Jq hmean) (hr.Jq hmean)
  have k2 : ∀ k, d'.postDraw ml' (z' k) = a ^ 2 * d.postDraw ml (z k) := by
    intro k
    have h1 : ∀ j, (fun j => a ^ 2 * z' k j) (f j) = a ^ 2 * z k j + 0 := fun j => by simp only [hz, add_zero]
    have h2 := qcov_univ_affine _ (hr.Jq (x := z k) (x' := fun j => a ^ 2 * z' k j) (c := a ^ 2) (t := 0) h1)
      (hr.Jq (hdraw k))
    have h3 : d'.Jq *ᵥ (fun j => a ^ 2 * z' k j) = fun r => a ^ 2 * (d'.Jq *ᵥ z' k) r := by rw [Jq_mulVec, Jq_mulVec]
    have h4 : ∀ (u v : Fin (ns + mn) → ℝ) (c : ℝ), qcov Finset.univ (fun r => c * u r) v = c * qcov Finset.univ u v := by
      intro u v c
      unfold qcov gmean
      rw [← mul_div_assoc, Finset.mul_sum, ← Finset.mul_sum]
      congr 1
      exact Finset.sum_congr rfl fun r _ => by rw [mul_div_assoc]; ring
    rw [h3, h4] at h2
    have ha2 : a ^ 2 ≠ 0 := pow_ne_zero 2 ha
    have h5 : a ^ 2 * d'.postDraw ml' (z' k) = (a ^ 2) ^ 2 * d.postDraw ml (z k) := h2
    have h6 : a ^ 2 * d'.postDraw ml' (z' k) = a ^ 2 * (a ^ 2 * d.postDraw ml (z k)) := by rw [h5]; ring
    exact mul_left_cancel₀ ha2 h6
  simp only [Data.posteriorVar, k2, ← Finset.mul_sum]
  have k3 : d'.postT1 ml' (d'.v1 (a ^ 2 * vp) (a ^ 2 * ve) (d'.mud (afill wo (d'.A solve'))))
      = a ^ 2 * d.postT1 ml (d.v1 vp ve (d.mud (afill wo (d.A solve)))) := by
    simp only [Data.postT1, var_univ, k1]
    ring
  rw [k3]
  ring

/-- If the prior explains the wage changes, the posterior mean is the prior. -/
theorem posterior_exact (d : Data nf K mn ns) {vp ve : ℝ} (hp : 0 < vp) (he : 0 < ve) {ml : (Fin nf → ℝ) → (Fin nf → ℝ)}
    (hm : ∀ v, d.M vp ve *ᵥ ml v = v) {mu : Fin nf → ℝ} (hy : d.Yc = d.Jd *ᵥ mu) : ml (d.v1 vp ve mu) = mu := by
  have hu := M_unit d hp he
  have h2 : d.M vp ve *ᵥ mu = d.v1 vp ve mu := by
    funext j
    rw [M_mulVec, ← hy]
    simp only [Data.v1, Pi.add_apply, Pi.smul_apply, smul_eq_mul]
  have h3 := congrArg ((d.M vp ve)⁻¹ *ᵥ ·) ((hm (d.v1 vp ve mu)).trans h2.symm)
  simpa only [mulVec_mulVec, nonsing_inv_mul _ hu, one_mulVec] using h3

/-- A mover from firm 0 of cluster 0 to firm 1 of cluster 1, who gains 3, and a stayer at firm 2 of cluster 0. -/
def exW : Data 3 1 1 1 where
  mv := ![⟨0, 1, 0, 1, 1, 4⟩]
  st := ![⟨2, 0, 3⟩]

/-- The same with the names of the two clusters swapped. -/
def exW' : Data 3 1 1 1 where
  mv := ![⟨0, 1, 1, 0, 1, 4⟩]
  st := ![⟨2, 1, 3⟩]

theorem exW_renamed : Spec.Renamed exW exW' (Equiv.refl _) (Equiv.refl _) (Equiv.refl _) (Equiv.swap 0 1) 1 0 where
  mover := by intro r; fin_cases r; simp [exW, exW']
  stayer := by intro r; fin_cases r; simp [exW, exW']

theorem exW_connected : exW.Connected := by
  have h01 : exW.Linked 0 1 := ⟨0, Or.inl ⟨rfl, rfl⟩⟩
  have h10 : exW.Linked 1 0 := ⟨0, Or.inr ⟨rfl, rfl⟩⟩
  intro a b
  fin_cases a <;> fin_cases b
  · exact .refl
  · exact .single h01
  · exact .single h10
  · exact .refl

/-- C117: the claim fails for the posterior variance when a firm has no movers.  The prior mean of such a firm is zero,
the effect of the cluster that happens to come last, not the effect of its own cluster.  Swapping the names of the two
clusters lowers the posterior variance by 9/4, for all solvers and draws. -/
theorem C117_posterior_wrong :
    Spec.Renamed exW exW' (Equiv.refl _) (Equiv.refl _) (Equiv.refl _) (Equiv.swap 0 1) 1 0 ∧ exW.Connected ∧
    ∀ (solve solve' : Matrix (Fin 1) (Fin 1) ℝ → (Fin 1 → ℝ) → (Fin 1 → ℝ)), GoodSpsolve solve → GoodSpsolve solve' →
    ∀ (ml ml' : (Fin 3 → ℝ) → (Fin 3 → ℝ)), (∀ v, exW.M 1 1 *ᵥ ml v = v) → (∀ v, exW'.M 1 1 *ᵥ ml' v = v) →
    ∀ (R : ℕ) (z : Fin R → Fin 3 → ℝ),
      exW'.posteriorVar ml' (exW'.v1 1 1 (exW'.mud (afill false (exW'.A solve')))) z =
        exW.posteriorVar ml (exW.v1 1 1 (exW.mud (afill false (exW.A solve)))) z - 9 / 4 := by
  refine ⟨exW_renamed, exW_connected, fun solve solve' hs hs' ml ml' hm hm' R z => ?_⟩
  have a1 := C63_recovers exW exW_connected hs ![-3, 0] (by intro r; fin_cases r; simp [exW]; norm_num)
  have a2 := C63_recovers exW' (exW_renamed.connected exW_connected) hs' ![3, 0]
    (by intro r; fin_cases r; simp [exW']; norm_num)
  set af := afill false (exW.A solve) with haf
  set af' := afill false (exW'.A solve') with haf'
  have b0 : af 0 = -3 := by rw [a1]; simp [Fin.last]
  have b1 : af 1 = 0 := by rw [a1]; simp [Fin.last]
  have c0 : af' 0 = 3 := by rw [a2]; simp [Fin.last]
  have c1 : af' 1 = 0 := by rw [a2]; simp [Fin.last]
  have m1 : exW.mud af = ![-3, 0, 0] := by
    funext j
    fin_cases j
    · exact (C64_prior exW af ![0, 1, 0] (by intro r; fin_cases r; simp [exW]) 0 ⟨0, Or.inl rfl⟩).trans b0
    · exact (C64_prior exW af ![0, 1, 0] (by intro r; fin_cases r; simp [exW]) 1 ⟨0, Or.inr rfl⟩).trans b1
    · exact C64_stayer_only_prior exW af 2 (by intro r; fin_cases r; simp [exW])
  have m2 : exW'.mud af' = ![0, 3, 0] := by
    funext j
    fin_cases j
    · exact (C64_prior exW' af' ![1, 0, 1] (by intro r; fin_cases r; simp [exW']) 0 ⟨0, Or.inl rfl⟩).trans c1
    · exact (C64_prior exW' af' ![1, 0, 1] (by intro r; fin_cases r; simp [exW']) 1 ⟨0, Or.inr rfl⟩).trans c0
    · exact C64_stayer_only_prior exW' af' 2 (by intro r; fin_cases r; simp [exW'])
  have p1 := posterior_exact exW one_pos one_pos hm (mu := ![-3, 0, 0])
    (by funext r; rw [Jd_mulVec]; fin_cases r; simp [Data.Yc, exW]; norm_num)
  have p2 := posterior_exact exW' one_pos one_pos hm' (mu := ![0, 3, 0])
    (by funext r; rw [Jd_mulVec]; fin_cases r; simp [Data.Yc, exW']; norm_num)
  have hJd : exW'.Jd = exW.Jd := by ext r j; fin_cases r; rfl
  have hJq : exW'.Jq = exW.Jq := by ext r j; fin_cases r <;> rfl
  have hM : exW'.M 1 1 = exW.M 1 1 := by simp only [Data.M, hJd]
  have hml : ml' = ml := by
    funext v
    have hu := M_unit exW one_pos one_pos
    have h2 := (hm' v)
    rw [hM] at h2
    have h3 := congrArg ((exW.M 1 1)⁻¹ *ᵥ ·) (h2.trans (hm v).symm)
    simpa only [mulVec_mulVec, nonsing_inv_mul _ hu, one_mulVec] using h3
  have t1 : exW.postT1 ml (exW.v1 1 1 (exW.mud af)) = 9 / 4 := by
    rw [m1, Data.postT1, p1, Jq_mulVec]
    simp [gmean, Fin.sum_univ_two, Fin.append, Fin.addCases, exW]
    norm_num
  have t2 : exW'.postT1 ml' (exW'.v1 1 1 (exW'.mud af')) = 0 := by
    rw [m2, Data.postT1, p2, Jq_mulVec]
    simp [gmean, Fin.sum_univ_two, Fin.append, Fin.addCases, exW']
  rw [Data.posteriorVar, Data.posteriorVar, t1, t2]
  simp only [Data.postDraw, hJq, hml]
  ring

/-! ## The hypotheses can be met -/

/-- Every data set can be renamed in every way. -/
noncomputable def Spec.rename (d : Data nf K mn ns) (σ : Fin mn ≃ Fin mn) (τ : Fin ns ≃ Fin ns) (f : Fin nf ≃ Fin nf)
    (h : Fin (K + 1) ≃ Fin (K + 1)) (a b : ℝ) : Data nf K mn ns where
  mv := fun r => let x := d.mv (σ.symm r); ⟨f x.j1, f x.j2, h x.g1, h x.g2, a * x.y1 + b, a * x.y2 + b⟩
  st := fun r => let x := d.st (τ.symm r); ⟨f x.j1, h x.g1, a * x.y1 + b⟩

theorem Spec.rename_renamed (d : Data nf K mn ns) (σ : Fin mn ≃ Fin mn) (τ : Fin ns ≃ Fin ns) (f : Fin nf ≃ Fin nf)
    (h : Fin (K + 1) ≃ Fin (K + 1)) (a b : ℝ) : Spec.Renamed d (Spec.rename d σ τ f h a b) σ τ f h a b := by
  constructor <;> (intro r; simp [Spec.rename])

/-- Two clusters of one firm each, one move each way and two stayers. -/
def exV : Data 2 1 2 2 where
  mv := ![⟨0, 1, 0, 1, 1, 4⟩, ⟨1, 0, 1, 0, 6, 2⟩]
  st := ![⟨0, 0, 3⟩, ⟨0, 0, 5⟩]

example : ∃ (d' : Data 2 1 2 2) (solve : Matrix (Fin 1) (Fin 1) ℝ → (Fin 1 → ℝ) → (Fin 1 → ℝ))
    (ml ml' : (Fin 2 → ℝ) → (Fin 2 → ℝ)),
    Spec.Renamed exV d' (Equiv.swap 0 1) (Equiv.swap 0 1) (Equiv.swap 0 1) (Equiv.swap 0 1) 2 3 ∧ exV.Connected ∧
    GoodSpsolve solve ∧ (∀ r, (exV.mv r).g1 = ![0, 1] (exV.mv r).j1 ∧ (exV.mv r).g2 = ![0, 1] (exV.mv r).j2) ∧
    (∀ j, ∃ r, (exV.mv r).j1 = j ∨ (exV.mv r).j2 = j) ∧ (∀ v, exV.M 1 1 *ᵥ ml v = v) ∧
    (∀ v, d'.M (2 ^ 2 * 1) (2 ^ 2 * 1) *ᵥ ml' v = v) := by
  refine ⟨Spec.rename exV (Equiv.swap 0 1) (Equiv.swap 0 1) (Equiv.swap 0 1) (Equiv.swap 0 1) 2 3, _,
    fun v => (exV.M 1 1)⁻¹ *ᵥ v, fun v => (Data.M (Spec.rename exV (Equiv.swap 0 1) (Equiv.swap 0 1) (Equiv.swap 0 1)
      (Equiv.swap 0 1) 2 3) (2 ^ 2 * 1) (2 ^ 2 * 1))⁻¹ *ᵥ v, Spec.rename_renamed exV _ _ _ _ 2 3, ?_, goodSpsolve_inv, ?_, ?_, fun v => ?_, fun v => ?_⟩
  · have h01 : exV.Linked 0 1 := ⟨0, Or.inl ⟨rfl, rfl⟩⟩
    have h10 : exV.Linked 1 0 := ⟨0, Or.inr ⟨rfl, rfl⟩⟩
    intro a b
    fin_cases a <;> fin_cases b
    · exact .refl
    · exact .single h01
    · exact .single h10
    · exact .refl
  · intro r; fin_cases r <;> simp [exV]
  · intro j; fin_cases j
    · exact ⟨0, Or.inl rfl⟩
    · exact ⟨0, Or.inr rfl⟩
  · rw [mulVec_mulVec, Matrix.mul_nonsing_inv _ (M_unit exV one_pos one_pos), one_mulVec]
  · rw [mulVec_mulVec, Matrix.mul_nonsing_inv _ (M_unit _ (by norm_num) (by norm_num)), one_mulVec]

end Pytwoway.CRE
