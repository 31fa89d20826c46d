import Verif.FEControl.Design

/-! # Homoskedastic correction with controls: C85

Outcomes are the sum of firm, worker and category effects, coefficients times continuous controls, and an
error (`CData.obs`). -/

namespace Pytwoway.FEControl

open Matrix Pytwoway.Util MeasureTheory FE
open scoped BigOperators
open FE.Panel (WOpt Stayers LevAvg)

variable {n m nw R : ℕ} {d : CData n m nw} {solve : List ℝ → List ℝ}
variable {Ω : Type*} [MeasurableSpace Ω] {μ : Measure Ω} {eps : Ω → Fin n → ℝ} {s2 : Fin n → ℝ}
variable {Ω' : Type*} [MeasurableSpace Ω'] {ν : Measure Ω'}

/-! ## Specification -/

/-- True effects. -/
structure Truth (m nw : ℕ) where
  psi : Fin (m + 1) → ℝ
  alpha : Fin nw → ℝ
  /-- Effect of a category of a categorical control. -/
  eff : String → ℕ → ℝ
  /-- Coefficient of a continuous control. -/
  coef : String → ℝ

/-- The data with outcomes generated by the true effects and errors `e`. -/
def CData.obs (d : CData n m nw) (t : Truth m nw) (e : Fin n → ℝ) : CData n m nw :=
  d.withY fun o => t.psi (d.j o) + t.alpha (d.i o) + (d.cats.map fun c => t.eff c.name (c.val o)).sum
    + (d.cts.map fun c => t.coef c.name * c.val o).sum + e o

/-- The true contribution of the covariate named `s` to the outcome of a row. -/
def CData.effect (d : CData n m nw) (t : Truth m nw) (s : String) (o : Fin n) : ℝ :=
  (if s = "psi" then t.psi (d.j o) else 0) + (if s = "alpha" then t.alpha (d.i o) else 0)
    + (d.cats.map fun c => if c.name = s then t.eff s (c.val o) else 0).sum
    + (d.cts.map fun c => if c.name = s then t.coef s * c.val o else 0).sum

/-- The true covariance of the sums of two lists of covariates. -/
noncomputable def CData.trueCov (d : CData n m nw) (t : Truth m nw) (l1 l2 : List String) : ℝ :=
  weightedCov (fun o => (l1.map fun s => d.effect t s o).sum) (fun o => (l2.map fun s => d.effect t s o).sum)
    d.DpW d.DpW 0

/-- What the theorems below assume about the data: distinct names, positive weights, covariates that are
linearly independent. -/
structure CData.Ok (d : CData n m nw) : Prop where
  names : d.names.Nodup
  pos : ∀ o, 0 < d.Dp o
  ident : d.Identified

/-! ## Truth as coefficients -/

/-- Coefficients of one covariate, first firm and first categories normalised. -/
def Truth.co (t : Truth m nw) (base : ℝ) : Cov n → List ℝ
  | .firm => List.ofFn fun k : Fin m => t.psi k.succ - t.psi 0
  | .worker => List.ofFn fun i => t.alpha i + base
  | .cat c => List.ofFn fun k : Fin c.k => t.eff c.name (k + 1) - t.eff c.name 0
  | .cts c => [t.coef c.name]

/-- Contribution of a covariate to a row. -/
def Truth.at (d : CData n m nw) (t : Truth m nw) (o : Fin n) : Cov n → ℝ
  | .firm => t.psi (d.j o)
  | .worker => t.alpha (d.i o)
  | .cat c => t.eff c.name (c.val o)
  | .cts c => t.coef c.name * c.val o

/-- The constant a covariate loses by the normalisation. -/
def Truth.off (t : Truth m nw) (base : ℝ) : Cov n → ℝ
  | .firm => t.psi 0
  | .worker => -base
  | .cat c => t.eff c.name 0
  | .cts _ => 0

theorem co_length (t : Truth m nw) (base : ℝ) (c : Cov n) : (t.co base c).length = (c.cols d).length := by
  rw [Cov.cols_length]; cases c <;> simp [Truth.co, Cov.size]

theorem dotL_co (t : Truth m nw) (base : ℝ) (c : Cov n) (o : Fin n) :
    dotL (c.cols d) (t.co base c) o = Truth.at d t o c - t.off base c := by
  have hfirst : ∀ {k : ℕ} (v : Fin n → Fin (k + 1)) (g : ℕ → ℝ) o,
      dotL ((indicators v).drop 1) (List.ofFn fun q : Fin k => g (q + 1) - g 0) o = g (v o) - g 0 := by
    intro k v g o
    have := dotL_indicators_drop v (List.ofFn fun q : Fin k => g (q + 1) - g 0) o (by simp)
    rw [← Option.some_inj, ← this]
    generalize v o = z
    refine Fin.cases ?_ (fun q => ?_) z
    · simp
    · simp
  cases c with
  | firm =>
    have := hfirst d.j (fun k => if hk : k < m + 1 then t.psi ⟨k, hk⟩ else 0) o
    have hle : (d.j o : ℕ) ≤ m := by omega
    simpa [Truth.co, Cov.cols, Fin.succ, hle, Truth.at, Truth.off] using this
  | worker =>
    have := dotL_indicators d.i (t.co base (.worker : Cov n)) o (by simp [Truth.co])
    rw [← Option.some_inj]
    refine this.symm.trans ?_
    simp [Truth.co, Truth.at, Truth.off]
  | cat c => exact hfirst c.val (t.eff c.name) o
  | cts c => simp [dotL, Cov.cols, Truth.co, Truth.at, Truth.off, mul_comm]

/-- The true coefficient vector. -/
def CData.gammaTrue (d : CData n m nw) (t : Truth m nw) : List ℝ :=
  (d.covs.map (t.co (t.psi 0 + (d.cats.map fun c => t.eff c.name 0).sum))).flatten

theorem gammaTrue_length (h : d.names.Nodup) (t : Truth m nw) : (d.gammaTrue t).length = d.nCov := by
  rw [CData.gammaTrue, List.length_flatten, List.map_map, nCov_eq h]
  congr 1
  refine List.map_congr_left fun c _ => ?_
  rw [Function.comp, co_length (d := d), Cov.cols_length]

theorem multA_gammaTrue (t : Truth m nw) (o : Fin n) : d.multA (d.gammaTrue t) o
    = t.psi (d.j o) + t.alpha (d.i o) + (d.cats.map fun c => t.eff c.name (c.val o)).sum
      + (d.cts.map fun c => t.coef c.name * c.val o).sum := by
  have hflat : ∀ (base : ℝ) (l : List (Cov n)), dotL (l.map (Cov.cols d)).flatten (l.map (t.co base)).flatten o
      = (l.map fun c => Truth.at d t o c - t.off base c).sum := by
    intro base l
    induction l with
    | nil => simp [dotL]
    | cons c l ih =>
      simp only [List.map_cons, List.flatten_cons, List.sum_cons]
      rw [dotL_append _ _ _ _ _ (co_length t base c).symm, ih, dotL_co]
  have h1 : d.multA (d.gammaTrue t) o = dotL (d.covs.map (Cov.cols d)).flatten (d.gammaTrue t) o := by
    rw [← A_eq]; rfl
  rw [h1, CData.gammaTrue, hflat]
  simp only [CData.covs, List.map_cons, List.sum_cons, List.map_append, List.sum_append, List.map_map,
    Function.comp_def, Truth.at, Truth.off, sub_zero]
  have hsub : ∀ l : List (Cat n), (l.map fun c => t.eff c.name (c.val o) - t.eff c.name 0).sum
      = (l.map fun c => t.eff c.name (c.val o)).sum - (l.map fun c => t.eff c.name 0).sum := by
    intro l
    induction l with
    | nil => simp
    | cons c l ih => simp only [List.map_cons, List.sum_cons, ih]; ring
  rw [hsub]
  ring

theorem sum_ite_name {α : Type*} (f : α → String) (g : α → ℝ) (l : List α) (h : (l.map f).Nodup) (a : α)
    (ha : a ∈ l) : (l.map fun c => if f c = f a then g c else 0).sum = g a := by
  induction l with
  | nil => simp at ha
  | cons b l ih =>
    simp only [List.map_cons, List.nodup_cons, List.sum_cons] at h ⊢
    rcases List.mem_cons.1 ha with rfl | ha
    · have : (l.map fun c => if f c = f a then g c else 0) = l.map fun _ => (0 : ℝ) := by
        refine List.map_congr_left fun c hc => ?_
        rw [if_neg]
        intro e; exact h.1 (e ▸ List.mem_map_of_mem hc)
      rw [this]; simp
    · rw [ih h.2 ha, if_neg, zero_add]
      intro e; exact h.1 (e ▸ List.mem_map_of_mem ha)

theorem effect_cov (h : d.names.Nodup) (t : Truth m nw) (c : Cov n) (hc : c ∈ d.covs) (o : Fin n) :
    d.effect t c.name o = Truth.at d t o c := by
  have key := sum_ite_name Cov.name (Truth.at d t o) d.covs (by rwa [covs_names]) c hc
  rw [← key, CData.effect]
  generalize hnm : c.name = s at *
  simp only [CData.covs, List.map_cons, List.sum_cons, List.map_append, List.sum_append, List.map_map,
    Function.comp_def, Truth.at, Cov.name]
  have e1 : ∀ x : Cat n, (if x.name = s then t.eff s (x.val o) else 0)
      = if x.name = s then t.eff x.name (x.val o) else 0 := fun x => by
    split
    · next e => rw [e]
    · rfl
  have e2 : ∀ x : Cts n, (if x.name = s then t.coef s * x.val o else 0)
      = if x.name = s then t.coef x.name * x.val o else 0 := fun x => by
    split
    · next e => rw [e]
    · rfl
  simp only [e1, e2, eq_comm (a := s), add_assoc]
  congr!

/-- The true coefficients give the true columns, up to a constant. -/
theorem qCol_gammaTrue (h : d.names.Nodup) (t : Truth m nw) (l : List String) (hl : ∀ s ∈ l, s ∈ d.names)
    (gh : List ℝ) :
    ∃ k : ℝ, d.qCol (d.unpack gh) l (d.gammaTrue t) = some fun o => (l.map fun s => d.effect t s o).sum + k := by
  induction l with
  | nil => exact ⟨0, by simp only [CData.qCol, CData.subA, CData.subZ, List.mapM_nil]; simp⟩
  | cons nm rest ih =>
    obtain ⟨k, hk⟩ := ih fun s hs => hl s (List.mem_cons_of_mem _ hs)
    have hnm := hl nm (by simp)
    rw [← covs_names, List.mem_map] at hnm
    obtain ⟨c, hc, rfl⟩ := hnm
    obtain ⟨pre, post, hs⟩ := mem_of_split hc
    set base := t.psi 0 + (d.cats.map fun c => t.eff c.name 0).sum with hbase
    have hsl : slice (d.gammaTrue t) (start m nw pre) (start m nw pre + c.size m nw) = t.co base c := by
      have := slice_flatten (t.co base) pre post c
      rw [← hs] at this
      have hl1 : ∀ c : Cov n, (t.co base c).length = c.size m nw := fun c => by
        rw [co_length (d := d), Cov.cols_length]
      rw [CData.gammaTrue, start]
      simpa only [hl1] using this
    refine ⟨k - t.off base c, ?_⟩
    rw [qCol_cons gh c.name rest _ _ _ (idx_of_split h gh hs) _ hk]
    · rw [hsl, cols_of_split hs]
      congr 1; ext o
      rw [dotL_co, List.map_cons, List.sum_cons, effect_cov h t c hc]
      ring
    · rw [hsl, cols_of_split hs, co_length (d := d)]

/-! ## The estimates under the model -/

theorem CData.Ok.unit (hd : d.Ok) : IsUnit (nmat d.amat d.Dp).det := nmat_unit hd.names hd.pos hd.ident

/-- True coefficients as a vector. -/
theorem exists_true (hd : d.Ok) (t : Truth m nw) : ∃ g : Fin d.nCov → ℝ, d.gammaTrue t = List.ofFn g ∧
    ∀ e, d.obs t e = d.withY (d.amat *ᵥ g + e) := by
  have hl := gammaTrue_length hd.names t
  obtain ⟨g, hg⟩ : ∃ g : Fin d.nCov → ℝ, d.gammaTrue t = List.ofFn g :=
    ⟨fun c => (d.gammaTrue t)[c]'(by rw [hl]; exact c.2), by
      apply List.ext_getElem
      · simp [hl]
      · intro k h1 h2; simp⟩
  refine ⟨g, hg, fun e => ?_⟩
  rw [CData.obs]; congr 1; ext o
  rw [Pi.add_apply, ← multA_ofFn hd.names, ← hg, multA_gammaTrue]

theorem stdWeight_DpW (hd : d.Ok) : StdWeight d.DpW := by
  rw [CData.DpW]
  split
  · next h =>
    intro o
    have := hd.pos o
    rw [CData.Dp, if_pos h] at this
    exact this.le
  · rfl

theorem usable_DpW (hd : d.Ok) (hn : 0 < n) : d.DpW.Usable := by
  rw [CData.DpW]
  split
  · next h =>
    refine (Finset.sum_pos (fun o _ => ?_) ⟨⟨0, hn⟩, Finset.mem_univ _⟩).ne'
    have := hd.pos o
    rwa [CData.Dp, if_pos h] at this
  · change 0 < Fintype.card (Fin n)
    simpa using hn

/-- Matrix of the covariance of two lists of covariates. -/
noncomputable def cmat (d : CData n m nw) (M1 M2 : Matrix (Fin n) (Fin d.nCov) ℝ) :
    Matrix (Fin d.nCov) (Fin d.nCov) ℝ :=
  M1ᵀ * kmat (Panel.wvec d.DpW) (Panel.wvec d.DpW) * M2

theorem covFe_form (hd : d.Ok) (hs : d.GoodSolver solve) {l1 l2 : List String}
    {M1 M2 : Matrix (Fin n) (Fin d.nCov) ℝ}
    (h1 : ∀ gh (t : Fin d.nCov → ℝ), d.qCol (d.unpack gh) l1 (List.ofFn t) = some (M1 *ᵥ t))
    (h2 : ∀ gh (t : Fin d.nCov → ℝ), d.qCol (d.unpack gh) l2 (List.ofFn t) = some (M2 *ᵥ t)) (y : Fin n → ℝ) :
    (d.withY y).covFe solve l1 l2
      = some (y ⬝ᵥ (((lgen d.amat d.Dp)ᵀ * cmat d M1 M2 * lgen d.amat d.Dp) *ᵥ y)) := by
  have hg : (d.withY y).gammaHat solve = List.ofFn (lgen d.amat d.Dp *ᵥ y) :=
    gammaHat_ofFn (d := d.withY y) hd.names hd.unit hs
  have q1 : (d.withY y).qCol ((d.withY y).unpack ((d.withY y).gammaHat solve)) l1 ((d.withY y).gammaHat solve)
      = some (M1 *ᵥ (lgen d.amat d.Dp *ᵥ y)) := by rw [hg]; exact h1 _ _
  have q2 : (d.withY y).qCol ((d.withY y).unpack ((d.withY y).gammaHat solve)) l2 ((d.withY y).gammaHat solve)
      = some (M2 *ᵥ (lgen d.amat d.Dp *ᵥ y)) := by rw [hg]; exact h2 _ _
  have hstd := stdWeight_DpW hd
  simp only [CData.covFe, q1, q2, Option.bind_eq_bind, Option.bind_some, Option.pure_def, Option.some.injEq]
  refine (weightedCov_kmat _ _ hstd hstd).trans ?_
  rw [form_assoc, form_assoc, cmat]

/-- The covariance estimated from outcomes that are 1 for row `o` and 0 elsewhere. -/
theorem unit_form (hd : d.Ok) (hs : d.GoodSolver solve) {l1 l2 : List String}
    {M1 M2 : Matrix (Fin n) (Fin d.nCov) ℝ}
    (h1 : ∀ gh (t : Fin d.nCov → ℝ), d.qCol (d.unpack gh) l1 (List.ofFn t) = some (M1 *ᵥ t))
    (h2 : ∀ gh (t : Fin d.nCov → ℝ), d.qCol (d.unpack gh) l2 (List.ofFn t) = some (M2 *ᵥ t)) (o : Fin n) :
    (d.withY (Pi.single o 1)).covFe solve l1 l2
      = some (((lgen d.amat d.Dp)ᵀ * cmat d M1 M2 * lgen d.amat d.Dp) o o) := by
  rw [covFe_form hd hs h1 h2, mulVec_single_one, single_one_dotProduct]
  rfl

/-- The truth as a quadratic form. -/
theorem trueCov_form (hd : d.Ok) (hn : 0 < n) (t : Truth m nw) {l1 l2 : List String}
    (hl1 : ∀ s ∈ l1, s ∈ d.names) (hl2 : ∀ s ∈ l2, s ∈ d.names)
    {M1 M2 : Matrix (Fin n) (Fin d.nCov) ℝ}
    (h1 : ∀ gh (t : Fin d.nCov → ℝ), d.qCol (d.unpack gh) l1 (List.ofFn t) = some (M1 *ᵥ t))
    (h2 : ∀ gh (t : Fin d.nCov → ℝ), d.qCol (d.unpack gh) l2 (List.ofFn t) = some (M2 *ᵥ t))
    {g : Fin d.nCov → ℝ} (hg : d.gammaTrue t = List.ofFn g) :
    d.trueCov t l1 l2 = g ⬝ᵥ (cmat d M1 M2 *ᵥ g) := by
  obtain ⟨k1, e1⟩ := qCol_gammaTrue hd.names t l1 hl1 []
  obtain ⟨k2, e2⟩ := qCol_gammaTrue hd.names t l2 hl2 []
  rw [hg, h1, Option.some_inj] at e1
  rw [hg, h2, Option.some_inj] at e2
  have hstd := stdWeight_DpW hd
  have hu := usable_DpW hd hn
  rw [CData.trueCov, ← C02_cov_shift _ _ _ _ _ k1 k2 hu hu, ← e1, ← e2, weightedCov_kmat _ _ hstd hstd,
    form_assoc, cmat]

/-- C85, plug-in estimate: for any error variances its expectation is the true covariance plus, summed
over observations, the error variance times the covariance estimated from a unit change of the outcome. -/
theorem C85_plug_in (hd : d.Ok) (hs : d.GoodSolver solve) (hn : 0 < n) (h : Noise μ eps s2) (t : Truth m nw)
    (l1 l2 : List String) (hl1 : ∀ s ∈ l1, s ∈ d.names) (hl2 : ∀ s ∈ l2, s ∈ d.names) :
    ∃ (f : Ω → ℝ) (u : Fin n → ℝ), (∀ ω, (d.obs t (eps ω)).covFe solve l1 l2 = some (f ω)) ∧
      (∀ o, (d.withY (Pi.single o 1)).covFe solve l1 l2 = some (u o)) ∧ Integrable f μ ∧
      ∫ ω, f ω ∂μ = d.trueCov t l1 l2 + ∑ o, s2 o * u o := by
  obtain ⟨M1, h1⟩ := qCol_mat hd.names l1 hl1
  obtain ⟨M2, h2⟩ := qCol_mat hd.names l2 hl2
  obtain ⟨g, hg, hobs⟩ := exists_true hd t
  set L := lgen d.amat d.Dp with hL
  have key := h.integral_form (Lᵀ * cmat d M1 M2 * L) (d.amat *ᵥ g)
  refine ⟨_, _, fun ω => by rw [hobs, covFe_form hd hs h1 h2], unit_form hd hs h1 h2, key.1, key.2.trans ?_⟩
  rw [trueCov_form hd hn t hl1 hl2 h1 h2 hg, ← form_assoc L _ L, mulVec_mulVec, hL, lgen_mul_X hd.unit, one_mulVec]

theorem E_obs (hd : d.Ok) (hs : d.GoodSolver solve) (t : Truth m nw) (e : Fin n → ℝ) (o : Fin n) :
    (d.obs t e).E solve o = ∑ b, ((if o = b then 1 else 0) - hat d.amat d.Dp o b) * e b := by
  obtain ⟨g, -, hobs⟩ := exists_true hd t
  have hg : (d.obs t e).gammaHat solve = List.ofFn (lgen d.amat d.Dp *ᵥ (d.amat *ᵥ g + e)) := by
    rw [hobs]; exact gammaHat_ofFn (d := d.withY _) hd.names hd.unit hs
  have hA : (d.obs t e).multA ((d.obs t e).gammaHat solve) o = d.multA ((d.obs t e).gammaHat solve) o := rfl
  have hy : (d.obs t e).y o = (d.amat *ᵥ g + e) o := by rw [hobs]; rfl
  rw [CData.E, hA, hg, multA_ofFn hd.names, mulVec_mulVec, X_mul_lgen, mulVec_add, mulVec_mulVec,
    hat_mul_X _ _ hd.unit, hy]
  simp only [Pi.add_apply, sub_mul, Finset.sum_sub_distrib, ite_mul, one_mul, zero_mul,
    Finset.sum_ite_eq, Finset.mem_univ, if_true]
  rw [add_sub_add_left_eq_sub]
  rfl

theorem ssr_expectation (hd : d.Ok) (hs : d.GoodSolver solve) {σ2 : ℝ}
    (h : Noise μ eps fun o => σ2 / d.Dp o) (t : Truth m nw) :
    Integrable (fun ω => ∑ o, (d.obs t (eps ω)).E solve o ^ 2) μ ∧
    ∫ ω, (∑ o, (d.obs t (eps ω)).E solve o ^ 2) ∂μ = σ2 * ∑ o, (1 - hat d.amat d.Dp o o) / d.Dp o := by
  have hrw : ∀ ω, (∑ o, (d.obs t (eps ω)).E solve o ^ 2) = ∑ o : Fin n, (1 : ℝ) *
      ((0 + ∑ b, ((if o = b then 1 else 0) - hat d.amat d.Dp o b) * eps ω b)
        * (0 + ∑ b, ((if o = b then 1 else 0) - hat d.amat d.Dp o b) * eps ω b)) := fun ω => by
    refine Finset.sum_congr rfl fun o _ => ?_
    rw [E_obs hd hs]; ring
  simp only [hrw]
  have key := h.integral_sum_mul (ι := Fin n) (fun _ => 1) (fun _ => 0) (fun _ => 0)
    (fun o b => (if o = b then 1 else 0) - hat d.amat d.Dp o b)
    (fun o b => (if o = b then 1 else 0) - hat d.amat d.Dp o b)
  refine ⟨key.1, key.2.trans ?_⟩
  rw [Finset.mul_sum]
  refine Finset.sum_congr rfl fun o _ => ?_
  rw [← resid_var_gen hd.pos hd.unit o, Finset.mul_sum]
  simp only [mul_zero, zero_add, one_mul]
  exact Finset.sum_congr rfl fun b _ => by ring

theorem AAinv_eq : d.AAinv = (nmat d.amat d.Dp)⁻¹ := by
  rw [CData.AAinv, nmat, Matrix.mul_assoc]
  congr 2
  ext o c; simp [diagonal_mul]

theorem gmat_trace : (d.amat * (nmat d.amat d.Dp)⁻¹ * d.amatᵀ).trace = d.exactTraceSigma2 := by
  rw [CData.exactTraceSigma2, AAinv_eq, Matrix.mul_assoc, trace_mul_comm, Matrix.mul_assoc, trace_mul_comm]
  refine Finset.sum_congr rfl fun k _ => ?_
  rw [C05_diag_of_prod]; rfl

theorem exactTraceSigma2_eq (hd : d.Ok) : d.exactTraceSigma2 = ∑ o, hat d.amat d.Dp o o / d.Dp o := by
  rw [← gmat_trace, trace]
  refine Finset.sum_congr rfl fun o _ => ?_
  rw [hat_apply, mul_div_assoc, div_self (hd.pos o).ne', mul_one]
  rfl

/-- C85, error variance: with more observations than coefficients and error variances `σ2 / weight` the
corrected error variance is unbiased, with weights (exact trace) or without. -/
theorem C85_sigma2_unbiased (hd : d.Ok) (hs : d.GoodSolver solve) {σ2 : ℝ}
    (h : Noise μ eps fun o => σ2 / d.Dp o) (t : Truth m nw) (hdf : d.nCov < n) :
    Integrable (fun ω => (d.obs t (eps ω)).sigma2ho solve d.exactTraceSigma2) μ ∧
    ∫ ω, (d.obs t (eps ω)).sigma2ho solve d.exactTraceSigma2 ∂μ = σ2 := by
  have hu := hd.unit
  obtain ⟨hi, hE⟩ := ssr_expectation hd hs h t
  set T := ∑ o, (1 - hat d.amat d.Dp o o) / d.Dp o with hT
  have hle : ∀ o, hat d.amat d.Dp o o ≤ 1 := fun o => (hat_diag_mem d.amat d.Dp hd.pos hu o).2
  have hTpos : 0 < T := by
    have hex : ∃ o, hat d.amat d.Dp o o < 1 := by
      by_contra hc
      push Not at hc
      have : ∑ o, hat d.amat d.Dp o o = ∑ _o : Fin n, (1 : ℝ) :=
        Finset.sum_congr rfl fun o _ => le_antisymm (hle o) (hc o)
      rw [hat_trace _ _ hu] at this
      simp only [Fintype.card_fin, Finset.sum_const, Finset.card_univ, nsmul_eq_mul, mul_one] at this
      have : d.nCov = n := by exact_mod_cast this
      omega
    obtain ⟨o, ho⟩ := hex
    refine Finset.sum_pos' (fun b _ => div_nonneg ?_ (hd.pos b).le) ⟨o, Finset.mem_univ o,
      div_pos (by linarith) (hd.pos o)⟩
    linarith [hle b]
  have hn : (n : ℝ) ≠ 0 := by
    have : 0 < n := by omega
    positivity
  have hsig : ∀ ω, (d.obs t (eps ω)).sigma2ho solve d.exactTraceSigma2
      = (1 / T) * ∑ o, (d.obs t (eps ω)).E solve o ^ 2 := by
    intro ω
    have hDp : (d.obs t (eps ω)).Dp = d.Dp := rfl
    have hw' : (d.obs t (eps ω)).weighted = d.weighted := rfl
    have hN : (d.obs t (eps ω)).nCov = d.nCov := rfl
    rw [CData.sigma2ho, hw', hDp, hN]
    by_cases hw : d.weighted = true
    · have h1 : (∑ o, 1 / d.Dp o) - d.exactTraceSigma2 = T := by
        rw [exactTraceSigma2_eq hd, ← Finset.sum_sub_distrib]
        exact Finset.sum_congr rfl fun o _ => (sub_div _ _ _).symm
      rw [if_pos hw, h1, mul_div_cancel₀ _ hn]; ring
    · have hD1 : ∀ o, d.Dp o = 1 := fun o => by simp [CData.Dp, hw]
      have h1 : (n : ℝ) - (d.nCov : ℝ) = T := by
        rw [hT]
        simp only [hD1, div_one, Finset.sum_sub_distrib]
        rw [hat_trace _ _ hu]
        simp
      have h2 : (d.obs t (eps ω)).sigma2fe solve = (∑ o, (d.obs t (eps ω)).E solve o ^ 2) / n := by
        have hW : (d.obs t (eps ω)).DpW = .scalar 1 := by
          simp [CData.DpW, hw', hw]
        rw [CData.sigma2fe, hW, weightedMean, hDp]
        simp [hD1]
      rw [if_neg hw, h1, h2, mul_div_cancel₀ _ hn]; ring
  simp only [hsig]
  refine ⟨hi.const_mul _, ?_⟩
  rw [integral_const_mul, hE]
  field_simp

/-! ## Probes -/

theorem drawTraceHo_form (hd : d.Ok) (hs : d.GoodSolver solve) {l1 l2 : List String}
    {M1 M2 : Matrix (Fin n) (Fin d.nCov) ℝ}
    (h1 : ∀ gh (t : Fin d.nCov → ℝ), d.qCol (d.unpack gh) l1 (List.ofFn t) = some (M1 *ᵥ t))
    (h2 : ∀ gh (t : Fin d.nCov → ℝ), d.qCol (d.unpack gh) l2 (List.ofFn t) = some (M2 *ᵥ t))
    (z : Fin d.nCov → ℝ) :
    d.drawTraceHo solve l1 l2 (List.ofFn z)
      = some (z ⬝ᵥ ((cmat d M1 M2 * (nmat d.amat d.Dp)⁻¹) *ᵥ z)) := by
  have hstd := stdWeight_DpW hd
  simp only [CData.drawTraceHo, solve_ofFn hd.names hd.unit hs, h1, h2, Option.bind_eq_bind, Option.bind_some,
    Option.pure_def, Option.some.injEq]
  rw [weightedCov_kmat _ _ hstd hstd, form_assoc, cmat]
  simp only [mulVec_mulVec]

/-- Noise contribution to a component when variances are inversely proportional to the weights. -/
theorem unit_trace (hd : d.Ok) (hs : d.GoodSolver solve) {l1 l2 : List String}
    {M1 M2 : Matrix (Fin n) (Fin d.nCov) ℝ}
    (h1 : ∀ gh (t : Fin d.nCov → ℝ), d.qCol (d.unpack gh) l1 (List.ofFn t) = some (M1 *ᵥ t))
    (h2 : ∀ gh (t : Fin d.nCov → ℝ), d.qCol (d.unpack gh) l2 (List.ofFn t) = some (M2 *ᵥ t)) (u : Fin n → ℝ)
    (hu : ∀ o, (d.withY (Pi.single o 1)).covFe solve l1 l2 = some (u o)) (s : Fin n → ℝ) :
    (cmat d M1 M2 * (lgen d.amat d.Dp * diagonal s * (lgen d.amat d.Dp)ᵀ)).trace = ∑ o, s o * u o := by
  rw [← Matrix.mul_assoc, trace_mul_comm, ← Matrix.mul_assoc, ← Matrix.mul_assoc]
  refine Finset.sum_congr rfl fun o _ => ?_
  have := (unit_form hd hs h1 h2 o).symm.trans (hu o)
  rw [Option.some_inj] at this
  rw [diag_apply, mul_diagonal, this, mul_comm]

theorem mapM_ofFn {α : Type*} {k : ℕ} (Z : Fin k → α) (f : α → Option ℝ) (g : Fin k → ℝ)
    (h : ∀ q, f (Z q) = some (g q)) : (List.ofFn Z).mapM f = some (List.ofFn g) := by
  induction k with
  | zero => simp
  | succ k ih =>
    rw [List.ofFn_succ, List.mapM_cons, h 0, ih (fun q => Z q.succ) (fun q => g q.succ) fun q => h q.succ,
      List.ofFn_succ]
    rfl

theorem sum_draws {k : ℕ} (g : Fin k → ℝ) : (List.ofFn g).sum / (k : ℝ) = Panel.meanDraws g := by
  rw [List.sum_ofFn]; rfl

/-- C85, trace: for any number of draws the approximate trace averages to the sum over observations of
(1 / weight) times the covariance estimated from a unit change in that observation's outcome. -/
theorem C85_draws (hd : d.Ok) (hs : d.GoodSolver solve) (hR : 0 < R) (l1 l2 : List String)
    (hl1 : ∀ s ∈ l1, s ∈ d.names) (hl2 : ∀ s ∈ l2, s ∈ d.names)
    (z : Fin R → Ω' → Fin d.nCov → ℝ) (hz : ∀ k, Noise ν (z k) fun _ => 1) :
    ∃ (f : Fin R → Ω' → ℝ) (u : Fin n → ℝ),
      (∀ k ω, d.drawTraceHo solve l1 l2 (List.ofFn (z k ω)) = some (f k ω)) ∧
      (∀ o, (d.withY (Pi.single o 1)).covFe solve l1 l2 = some (u o)) ∧
      Integrable (fun ω => (∑ k, f k ω) / (R : ℝ)) ν ∧
      ∫ ω, (∑ k, f k ω) / (R : ℝ) ∂ν = ∑ o, 1 / d.Dp o * u o := by
  obtain ⟨M1, h1⟩ := qCol_mat hd.names l1 hl1
  obtain ⟨M2, h2⟩ := qCol_mat hd.names l2 hl2
  have key := mean_of_draws (μ := ν) hR fun k => probe_form (hz k) (cmat d M1 M2 * (nmat d.amat d.Dp)⁻¹)
  refine ⟨_, _, fun k ω => drawTraceHo_form hd hs h1 h2 (z k ω), unit_form hd hs h1 h2, key.1, key.2.trans ?_⟩
  rw [← lgen_cov hd.pos hd.unit, unit_trace hd hs h1 h2 _ (unit_form hd hs h1 h2)]

/-- C85: averaging over the errors and over the probes, the HO-corrected covariance of any two lists of
covariates is the true one. -/
theorem C85_ho_unbiased (hd : d.Ok) (hs : d.GoodSolver solve) {σ2 : ℝ}
    (h : Noise μ eps fun o => σ2 / d.Dp o) (t : Truth m nw) (hdf : d.nCov < n) (l1 l2 : List String)
    (hl1 : ∀ s ∈ l1, s ∈ d.names) (hl2 : ∀ s ∈ l2, s ∈ d.names) (hR : 0 < R)
    (z : Fin R → Ω' → Fin d.nCov → ℝ) (hz : ∀ k, Noise ν (z k) fun _ => 1) :
    ∃ f : Ω → Ω' → ℝ, (∀ ω ω', (d.obs t (eps ω)).covHo solve l1 l2 d.exactTraceSigma2
        (fun k => List.ofFn (z k ω')) = some (f ω ω')) ∧
      ∫ ω, (∫ ω', f ω ω' ∂ν) ∂μ = d.trueCov t l1 l2 := by
  obtain ⟨p, u, hp, hu, ip, ep⟩ := C85_plug_in hd hs (by omega) h t l1 l2 hl1 hl2
  obtain ⟨q, u', hq, hu', iq, eq⟩ := C85_draws hd hs hR l1 l2 hl1 hl2 z hz
  obtain ⟨is, es⟩ := C85_sigma2_unbiased hd hs h t hdf
  have huu : u' = u := by
    ext o; have := (hu' o).symm.trans (hu o); exact Option.some_inj.1 this
  subst huu
  have := (hz ⟨0, hR⟩).prob
  have hq' : ∀ ω k ω', (d.obs t (eps ω)).drawTraceHo solve l1 l2 (List.ofFn (z k ω')) = some (q k ω') := by
    intro ω k ω'
    rw [← hq k ω']
    obtain ⟨M1, h1⟩ := qCol_mat hd.names l1 hl1
    obtain ⟨M2, h2⟩ := qCol_mat hd.names l2 hl2
    have hd' : (d.obs t (eps ω)).Ok := ⟨hd.names, hd.pos, hd.ident⟩
    exact (drawTraceHo_form hd' hs h1 h2 (z k ω')).trans (drawTraceHo_form hd hs h1 h2 (z k ω')).symm
  refine ⟨fun ω ω' => p ω - (d.obs t (eps ω)).sigma2ho solve d.exactTraceSigma2 * ((∑ k, q k ω') / (R : ℝ)),
    fun ω ω' => ?_, ?_⟩
  · rw [CData.covHo, hp, mapM_ofFn _ _ (fun k => q k ω') fun k => hq' ω k ω']
    simp [List.sum_ofFn]
  · have hin : ∀ ω, ∫ ω', (p ω - (d.obs t (eps ω)).sigma2ho solve d.exactTraceSigma2
          * ((∑ k, q k ω') / (R : ℝ))) ∂ν
        = p ω - (d.obs t (eps ω)).sigma2ho solve d.exactTraceSigma2 * ∑ o, 1 / d.Dp o * u' o := by
      intro ω
      rw [integral_sub (integrable_const _) (iq.const_mul _), integral_const_mul, eq, integral_const,
        probReal_univ, one_smul]
    simp only [hin]
    rw [integral_sub ip (is.mul_const _), ep, integral_mul_const, es, Finset.mul_sum]
    have : ∀ o, σ2 / d.Dp o * u' o = σ2 * (1 / d.Dp o * u' o) := fun o => by ring
    simp only [this]
    ring

/-- A variance is the covariance with itself. -/
theorem varHo_eq (hd : d.Ok) (l : List String) (tr : ℝ) (Z : Fin R → List ℝ) :
    d.varHo solve l tr Z = d.covHo solve l l tr Z := by
  have hstd := stdWeight_DpW hd
  have : d.varFe solve l = d.covFe solve l l := by
    simp only [CData.varFe, CData.covFe]
    cases d.qCol (d.unpack (d.gammaHat solve)) l (d.gammaHat solve) with
    | none => rfl
    | some a => simp [weightedVar_eq_cov _ hstd]
  rw [CData.varHo, CData.covHo, this]

/-- C85, variances. -/
theorem C85_ho_unbiased_var (hd : d.Ok) (hs : d.GoodSolver solve) {σ2 : ℝ}
    (h : Noise μ eps fun o => σ2 / d.Dp o) (t : Truth m nw) (hdf : d.nCov < n) (l : List String)
    (hl : ∀ s ∈ l, s ∈ d.names) (hR : 0 < R)
    (z : Fin R → Ω' → Fin d.nCov → ℝ) (hz : ∀ k, Noise ν (z k) fun _ => 1) :
    ∃ f : Ω → Ω' → ℝ, (∀ ω ω', (d.obs t (eps ω)).varHo solve l d.exactTraceSigma2
        (fun k => List.ofFn (z k ω')) = some (f ω ω')) ∧
      ∫ ω, (∫ ω', f ω ω' ∂ν) ∂μ = weightedVar (fun o => (l.map fun s => d.effect t s o).sum) d.DpW 0 := by
  obtain ⟨f, hf, he⟩ := C85_ho_unbiased hd hs h t hdf l l hl hl hR z hz
  refine ⟨f, fun ω ω' => ?_, he.trans ?_⟩
  · have hd' : (d.obs t (eps ω)).Ok := ⟨hd.names, hd.pos, hd.ident⟩
    rw [varHo_eq hd', hf]
  · rw [CData.trueCov, weightedVar_eq_cov _ (stdWeight_DpW hd)]

/-- `tr_method_sigma_2='hutchinson'`: the approximate trace averages to the analytical one. -/
theorem sigma2Apply_eq (hd : d.Ok) (hs : d.GoodSolver solve) (v : Fin n → ℝ) :
    d.sigma2Apply solve v = (d.amat * (nmat d.amat d.Dp)⁻¹ * d.amatᵀ) *ᵥ v := by
  rw [CData.sigma2Apply, CData.solveLS, multATw_eq hd.names, solve_ofFn hd.names hd.unit hs, multAw_ofFn hd.names]
  simp only [CData.wt, one_mul]
  rw [mulVec_mulVec, mulVec_mulVec]

/-- C85, `tr_method_sigma_2='hutchinson'`: the approximate trace for the error variance averages to the
analytical one. -/
theorem C85_sigma2_hutchinson (hd : d.Ok) (hs : d.GoodSolver solve) (hR : 0 < R)
    (z : Fin R → Ω' → Fin n → ℝ) (hz : ∀ k, Noise ν (z k) fun _ => 1) :
    ∫ ω, (∑ k, d.drawTraceSigma2 solve (z k ω)) / (R : ℝ) ∂ν = d.exactTraceSigma2 := by
  refine (mean_of_draws (μ := ν) hR fun k => ?_).2
  simp only [CData.drawTraceSigma2, sigma2Apply_eq hd hs]
  have := probe_form (hz k) (d.amat * (nmat d.amat d.Dp)⁻¹ * d.amatᵀ)
  rwa [gmat_trace] at this

/-- C85, `tr_method_sigma_2='hutch++'`: whatever orthonormal `Q` the first stage produced, the estimate
averages over the second set of probes to the analytical trace; with more draws than rows it fails. -/
theorem C85_sigma2_hutchPP (hd : d.Ok) (hs : d.GoodSolver solve) (hR : 0 < R) (Q : Matrix (Fin n) (Fin R) ℝ)
    (hQ : Qᵀ * Q = 1) (Z : Ω' → Matrix (Fin n) (Fin R) ℝ) (hZ : ∀ k, Noise ν (fun ω o => Z ω o k) fun _ => 1) :
    (n < R → ∀ ω, d.hutchPP solve Q (Z ω) = none) ∧
    (R ≤ n → ∃ f : Ω' → ℝ, (∀ ω, d.hutchPP solve Q (Z ω) = some (f ω)) ∧ Integrable f ν ∧
      ∫ ω, f ω ∂ν = d.exactTraceSigma2) := by
  refine ⟨fun hn ω => by rw [CData.hutchPP, if_neg (by omega)], fun hn => ?_⟩
  set A := d.amat * (nmat d.amat d.Dp)⁻¹ * d.amatᵀ with hA
  set P : Matrix (Fin n) (Fin n) ℝ := 1 - Q * Qᵀ with hP
  have hPt : Pᵀ = P := by rw [hP]; simp
  have hPP : P * P = P := by
    have hq : Q * Qᵀ * (Q * Qᵀ) = Q * Qᵀ := by
      rw [Matrix.mul_assoc, ← Matrix.mul_assoc Qᵀ, hQ, Matrix.one_mul]
    rw [hP, Matrix.mul_sub, Matrix.mul_one, Matrix.sub_mul, Matrix.one_mul, hq, sub_self, sub_zero]
  refine ⟨fun ω => (∑ k, (Qᵀ * (A * Q)) k k)
    + Panel.meanDraws (fun k => (fun o => Z ω o k) ⬝ᵥ ((P * A * P) *ᵥ fun o => Z ω o k)), fun ω => ?_, ?_⟩
  · have hcol : ∀ M : Matrix (Fin n) (Fin R) ℝ,
        (of fun o k => d.sigma2Apply solve (fun b => M b k) o) = A * M := by
      intro M; ext o k
      rw [of_apply, sigma2Apply_eq hd hs]; rfl
    rw [CData.hutchPP, if_pos hn]
    simp only [hcol, C05_diag_of_prod, Panel.meanDraws]
    congr 2
    rw [one_div_mul_eq_div]
    congr 1
    refine Finset.sum_congr rfl fun k _ => ?_
    have hG : Z ω - Q * (Qᵀ * Z ω) = P * Z ω := by
      rw [hP, Matrix.sub_mul, Matrix.one_mul, Matrix.mul_assoc]
    rw [hG, transpose_mul, hPt]
    have : (Z ω)ᵀ * P * (A * (P * Z ω)) = (Z ω)ᵀ * ((P * A * P) * Z ω) := by simp only [Matrix.mul_assoc]
    rw [this, mul_apply]
    rfl
  · have key := mean_of_draws (μ := ν) (R := R) hR fun k => probe_form (hZ k) (P * A * P)
    have := (hZ ⟨0, hR⟩).prob
    refine ⟨(integrable_const _).add key.1, ?_⟩
    rw [integral_add (integrable_const _) key.1, key.2, integral_const, probReal_univ, one_smul]
    change (Qᵀ * (A * Q)).trace + (P * A * P).trace = _
    rw [← gmat_trace, trace_mul_comm (P * A) P, ← Matrix.mul_assoc P, hPP, trace_mul_comm Qᵀ,
      Matrix.mul_assoc A, trace_mul_comm A, ← trace_add, ← Matrix.add_mul, hP, add_sub_cancel, Matrix.one_mul]

end Pytwoway.FEControl
