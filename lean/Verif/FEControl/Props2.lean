import Verif.FEControl.Props
import Mathlib.Algebra.BigOperators.Group.Finset.Sigma
import Mathlib.Tactic.FinCases

/-! # Least squares with controls, variance components of covariates, standard errors: C25, C61, C62 -/

namespace Pytwoway.FEControl

open scoped BigOperators

variable {n m nw : ℕ} {d : CData n m nw} {solve : List ℝ → List ℝ}

/-- The linear solver returns a solution of every solvable system it is given. -/
def CData.GoodSolver (d : CData n m nw) (solve : List ℝ → List ℝ) : Prop :=
  ∀ b, (∃ x, x.length = d.nCov ∧ d.AtDpA x = b) → (solve b).length = d.nCov ∧ d.AtDpA (solve b) = b

/-- Weighted sum of squared residuals of firm, worker, category effects and coefficients of continuous
controls. -/
def CData.SSR (d : CData n m nw) (psi : Fin (m + 1) → ℝ) (alpha : Fin nw → ℝ) (eff : String → ℕ → ℝ)
    (coef : String → ℝ) : ℝ :=
  ∑ o, d.Dp o * (d.y o - (psi (d.j o) + alpha (d.i o) + (d.cats.map fun c => eff c.name (c.val o)).sum
    + (d.cts.map fun c => coef c.name * c.val o).sum)) ^ 2

theorem exists_goodSolver (d : CData n m nw) : ∃ solve, d.GoodSolver solve := by
  classical
  refine ⟨fun b => if h : ∃ x, x.length = d.nCov ∧ d.AtDpA x = b then h.choose else [], fun b hb => ?_⟩
  simp only [dif_pos hb]
  exact hb.choose_spec

/-! ## Products of lists -/

/-- Product of two lists of numbers. -/
def dotR (x y : List ℝ) : ℝ := (List.zipWith (fun a b => a * b) x y).sum

theorem dotR_cols (cols : List (Fin n → ℝ)) (x : List ℝ) (D v : Fin n → ℝ) :
    dotR x (cols.map fun c => ∑ o, D o * c o * v o) = ∑ o, D o * dotL cols x o * v o := by
  induction cols generalizing x with
  | nil => simp [dotR, dotL]
  | cons c t ih =>
    cases x with
    | nil => simp [dotR, dotL]
    | cons a x =>
      have := ih x
      simp only [dotR, dotL, List.map_cons, List.zipWith_cons_cons, List.sum_cons] at this ⊢
      rw [this, Finset.mul_sum, ← Finset.sum_add_distrib]
      exact Finset.sum_congr rfl fun o _ => by ring

theorem dotR_multAT (x : List ℝ) (v : Fin n → ℝ) :
    dotR x (d.multAT v) = ∑ o, d.Dp o * d.multA x o * v o := dotR_cols d.A x d.Dp v

theorem dotR_unit (x : List ℝ) (k c : ℕ) (hc : c < k) (hx : x.length = k) :
    x[c]? = some (dotR x (CData.unitVec k c)) := by
  subst hx
  induction x generalizing c with
  | nil => simp at hc
  | cons a t ih =>
    cases c with
    | zero =>
      have : (List.zipWith (fun a b => a * b) t (List.replicate t.length (0 : ℝ))).sum = 0 := by
        clear ih hc
        induction t with
        | nil => rfl
        | cons b t ih => simp [List.replicate_succ, ih]
      simp [dotR, CData.unitVec, List.replicate_succ, this]
    | succ c =>
      have := ih c (by simpa using hc)
      simp only [dotR, CData.unitVec, List.length_cons, List.replicate_succ, List.set_cons_succ,
        List.zipWith_cons_cons, mul_zero, List.sum_cons, zero_add, List.getElem?_cons_succ] at this ⊢
      exact this

/-! ## C61: least squares with controls -/

section C61

/-- Some coefficient vector solves the normal equations. -/
theorem normal_solvable (h : d.names.Nodup) (hw : ∀ o, 0 ≤ d.Dp o) (v : Fin n → ℝ) :
    ∃ x, x.length = d.nCov ∧ d.AtDpA x = d.multAT v := by
  obtain ⟨t, ht⟩ := FE.normal_consistent
    (Matrix.of fun (o : Fin n) (c : Fin d.A.length) => d.A[c] o) d.Dp hw v
  have hA : ∀ o, d.multA (List.ofFn t) o = ∑ c : Fin d.A.length, d.A[c] o * t c := by
    intro o
    have : List.zipWith (fun c g => c o * g) d.A (List.ofFn t)
        = List.ofFn fun c : Fin d.A.length => d.A[c] o * t c := by
      apply List.ext_getElem <;> simp
    rw [CData.multA, this, List.sum_ofFn]
  refine ⟨List.ofFn t, by rw [List.length_ofFn, A_length h], ?_⟩
  apply List.ext_getElem
  · simp [CData.AtDpA, CData.multAT]
  intro c h1 h2
  have hc : c < d.A.length := by simpa [CData.multAT] using h2
  have := congrFun ht ⟨c, hc⟩
  rw [FE.nmat, ← Matrix.mulVec_mulVec, ← Matrix.mulVec_mulVec] at this
  simp only [Matrix.mulVec, dotProduct, Matrix.transpose_apply, Matrix.of_apply, Matrix.diagonal_apply,
    ite_mul, zero_mul, Finset.sum_ite_eq, Finset.mem_univ, if_true] at this
  simp only [CData.AtDpA, CData.multAT, List.getElem_map, hA]
  refine Eq.trans (Finset.sum_congr rfl fun o _ => ?_) (this.trans (Finset.sum_congr rfl fun o _ => ?_))
  · simp; ring
  · simp; ring

/-- The estimates solve the normal equations. -/
theorem gammaHat_spec (h : d.names.Nodup) (hw : ∀ o, 0 ≤ d.Dp o) (hs : d.GoodSolver solve) :
    (d.gammaHat solve).length = d.nCov ∧ d.AtDpA (d.gammaHat solve) = d.multAT d.y :=
  hs _ (normal_solvable h hw d.y)

/-- Every set of effects is a coefficient vector. -/
theorem effects_as_coefficients (h : d.names.Nodup) (psi : Fin (m + 1) → ℝ) (alpha : Fin nw → ℝ)
    (eff : String → ℕ → ℝ) (coef : String → ℝ) :
    ∃ x, x.length = d.nCov ∧ ∀ o, d.multA x o = psi (d.j o) + alpha (d.i o)
      + (d.cats.map fun c => eff c.name (c.val o)).sum + (d.cts.map fun c => coef c.name * c.val o).sum := by
  set base := psi 0 + (d.cats.map fun c => eff c.name 0).sum with hbase
  let co : Cov n → List ℝ := fun
    | .firm => List.ofFn fun k : Fin m => psi k.succ - psi 0
    | .worker => List.ofFn fun i => alpha i + base
    | .cat c => List.ofFn fun k : Fin c.k => eff c.name (k + 1) - eff c.name 0
    | .cts c => [coef c.name]
  have hlen : ∀ c, (co c).length = (c.cols d).length := by
    intro c; rw [Cov.cols_length]; cases c <;> simp [co, Cov.size]
  have hflat : ∀ (l : List (Cov n)) o, dotL (l.map (Cov.cols d)).flatten (l.map co).flatten o
      = (l.map fun c => dotL (c.cols d) (co c) o).sum := by
    intro l o
    induction l with
    | nil => simp [dotL]
    | cons c t ih =>
      simp only [List.map_cons, List.flatten_cons, List.sum_cons]
      rw [dotL_append _ _ _ _ _ (hlen c).symm, ih]
  have hfirst : ∀ {k : ℕ} (v : Fin n → Fin (k + 1)) (g : ℕ → ℝ) o,
      dotL ((indicators v).drop 1) (List.ofFn fun q : Fin k => g (q + 1) - g 0) o = g (v o) - g 0 := by
    intro k v g o
    have := dotL_indicators_drop v (List.ofFn fun q : Fin k => g (q + 1) - g 0) o (by simp)
    rw [← Option.some_inj, ← this]
    generalize v o = z
    refine Fin.cases ?_ (fun q => ?_) z
    · simp
    · simp
  refine ⟨(d.covs.map co).flatten, ?_, fun o => ?_⟩
  · rw [List.length_flatten, List.map_map, nCov_eq h]
    congr 1
    refine List.map_congr_left fun c _ => ?_
    rw [Function.comp, hlen, Cov.cols_length]
  · have : d.multA (d.covs.map co).flatten o = dotL (d.covs.map (Cov.cols d)).flatten (d.covs.map co).flatten o := by
      rw [← A_eq]; rfl
    rw [this, hflat]
    simp only [CData.covs, List.map_cons, List.sum_cons, List.map_append, List.sum_append, List.map_map,
      Function.comp_def]
    have e1 : dotL (Cov.cols d .firm) (co .firm) o = psi (d.j o) - psi 0 := by
      have := hfirst d.j (fun k => if hk : k < m + 1 then psi ⟨k, hk⟩ else 0) o
      have hle : (d.j o : ℕ) ≤ m := by omega
      simpa [co, Cov.cols, Fin.succ, hle] using this
    have e2 : dotL (Cov.cols d .worker) (co .worker) o = alpha (d.i o) + base := by
      have := dotL_indicators d.i (co .worker) o (by simp [co])
      rw [← Option.some_inj]
      refine this.symm.trans ?_
      simp [co]
    have e3 : (d.cats.map fun c => dotL (Cov.cols d (.cat c)) (co (.cat c)) o).sum
        = (d.cats.map fun c => eff c.name (c.val o)).sum - (d.cats.map fun c => eff c.name 0).sum := by
      have : ∀ c : Cat n, dotL (Cov.cols d (.cat c)) (co (.cat c)) o = eff c.name (c.val o) - eff c.name 0 :=
        fun c => hfirst c.val (eff c.name) o
      simp only [this]
      generalize d.cats = l
      induction l with
      | nil => simp
      | cons c t ih => simp only [List.map_cons, List.sum_cons, ih]; ring
    have e4 : ∀ c : Cts n, dotL (Cov.cols d (.cts c)) (co (.cts c)) o = coef c.name * c.val o := by
      intro c; simp [dotL, Cov.cols, co, mul_comm]
    rw [e1, e2, e3]
    simp only [e4, hbase]
    ring

/-- C61: the attached columns minimise the weighted sum of squared residuals: in every row they add up to
the fitted value, and no firm effects, worker effects, category effects and coefficients of the continuous
controls, normalised or not, fit better. -/
theorem C61_least_squares (h : d.names.Nodup) (hw : ∀ o, 0 ≤ d.Dp o) (hs : d.GoodSolver solve) :
    ∃ fit : Fin n → ℝ, (∀ o, ∃ l, d.attached (d.gammaHat solve) o = some l ∧ l.sum = fit o) ∧
      ∀ psi alpha eff coef, ∑ o, d.Dp o * (d.y o - fit o) ^ 2 ≤ d.SSR psi alpha eff coef := by
  obtain ⟨hl, hN⟩ := gammaHat_spec h hw hs
  set g := d.gammaHat solve with hg
  refine ⟨d.multA g, fun o => C24_attached h g hl o, fun psi alpha eff coef => ?_⟩
  obtain ⟨x, hx, hfit⟩ := effects_as_coefficients h psi alpha eff coef
  have horth : ∀ z, ∑ o, d.Dp o * d.multA z o * (d.y o - d.multA g o) = 0 := by
    intro z
    have h1 := congrArg (dotR z) hN
    rw [CData.AtDpA, dotR_multAT, dotR_multAT] at h1
    simp only [mul_sub, Finset.sum_sub_distrib, h1, sub_self]
  have : d.SSR psi alpha eff coef = ∑ o, d.Dp o * (d.y o - d.multA g o) ^ 2
      - 2 * (∑ o, d.Dp o * d.multA x o * (d.y o - d.multA g o))
      + 2 * (∑ o, d.Dp o * d.multA g o * (d.y o - d.multA g o))
      + ∑ o, d.Dp o * (d.multA x o - d.multA g o) ^ 2 := by
    rw [Finset.mul_sum, Finset.mul_sum, ← Finset.sum_sub_distrib, ← Finset.sum_add_distrib,
      ← Finset.sum_add_distrib]
    refine Finset.sum_congr rfl fun o _ => ?_
    rw [← hfit o]; ring
  rw [this, horth, horth]
  have : 0 ≤ ∑ o, d.Dp o * (d.multA x o - d.multA g o) ^ 2 :=
    Finset.sum_nonneg fun o _ => mul_nonneg (hw o) (sq_nonneg _)
  linarith

end C61

/-! ## Variance components of covariates -/

section Components

/-- C24, components: what `VarCovariate` / `CovCovariate` takes the variance of for one covariate is that
covariate's attached column. -/
theorem C24_component (h : d.names.Nodup) (gh : List ℝ) (hl : gh.length = d.nCov) (o : Fin n) :
    (d.qMult (d.unpack gh) ["psi"] gh o).isSome ∧
    d.qMult (d.unpack gh) ["psi"] gh o = CData.attachVec (d.unpack gh) "psi" (d.j o) ∧
    d.qMult (d.unpack gh) ["alpha"] gh o = CData.attachVec (d.unpack gh) "alpha" (d.i o) ∧
    (∀ c ∈ d.cats, d.qMult (d.unpack gh) [c.name] gh o = CData.attachVec (d.unpack gh) c.name (c.val o)) ∧
    (∀ c ∈ d.cts, d.qMult (d.unpack gh) [c.name] gh o = CData.attachNum (d.unpack gh) c.name (c.val o)) := by
  have key : ∀ c ∈ d.covs, (c.attach d (d.unpack gh) o).isSome ∧
      d.qMult (d.unpack gh) [c.name] gh o = c.attach d (d.unpack gh) o := by
    intro c hc
    obtain ⟨pre, post, hs⟩ := mem_of_split hc
    rw [attach_of_split h gh hl o hs]
    refine ⟨rfl, ?_⟩
    simp [CData.qMult, CData.subA, CData.subZ, idx_of_split h gh hs, cols_of_split hs, dotL]
  refine ⟨?_, (key .firm (by simp [CData.covs])).2, (key .worker (by simp [CData.covs])).2,
    fun c hc => (key (.cat c) (by simp [CData.covs, hc])).2,
    fun c hc => (key (.cts c) (by simp [CData.covs, hc])).2⟩
  have := key .firm (by simp [CData.covs])
  simp only [Cov.name] at this
  rw [this.2]; exact this.1

/-- C24, sums of covariates: listing several covariates gives the sum of their columns. -/
theorem C24_component_sum (h : d.names.Nodup) (gh : List ℝ) (hl : gh.length = d.nCov) (o : Fin n)
    (nm : String) (hnm : nm ∈ d.names) (rest : List String) (hrest : ∀ s ∈ rest, s ∈ d.names) :
    ∃ x y, d.qMult (d.unpack gh) [nm] gh o = some x ∧ d.qMult (d.unpack gh) rest gh o = some y ∧
      d.qMult (d.unpack gh) (nm :: rest) gh o = some (x + y) := by
  have hone : ∀ s ∈ d.names, ∃ r, dget (d.unpack gh).idx s = some r ∧
      (slice d.A r.1 r.2).length = (slice gh r.1 r.2).length := by
    intro s hsm
    rw [← covs_names, List.mem_map] at hsm
    obtain ⟨c, hc, rfl⟩ := hsm
    obtain ⟨pre, post, hs⟩ := mem_of_split hc
    refine ⟨_, idx_of_split h gh hs, ?_⟩
    simp only
    rw [slice_length _ _ _ (by rw [A_length h]; exact bound_of_split h hs),
      slice_length _ _ _ (by rw [hl]; exact bound_of_split h hs)]
  obtain ⟨r, hr, hrl⟩ := hone nm hnm
  have hall : ∀ l : List String, (∀ s ∈ l, s ∈ d.names) → ∃ a b,
      (l.mapM fun s => do let r ← dget (d.unpack gh).idx s; return slice d.A r.1 r.2) = some a ∧
      (l.mapM fun s => do let r ← dget (d.unpack gh).idx s; return slice gh r.1 r.2) = some b := by
    intro l
    induction l with
    | nil => intro _; exact ⟨[], [], by simp, by simp⟩
    | cons s t ih =>
      intro hl'
      obtain ⟨a, b, ha, hb⟩ := ih fun x hx => hl' x (List.mem_cons_of_mem _ hx)
      obtain ⟨q, hq, -⟩ := hone s (hl' s (by simp))
      refine ⟨slice d.A q.1 q.2 :: a, slice gh q.1 q.2 :: b, ?_, ?_⟩
      · rw [List.mapM_cons, ha]; simp [hq]
      · rw [List.mapM_cons, hb]; simp [hq]
  obtain ⟨a, b, ha, hb⟩ := hall rest hrest
  refine ⟨dotL (slice d.A r.1 r.2) (slice gh r.1 r.2) o, dotL a.flatten b.flatten o, ?_, ?_, ?_⟩
  · simp [CData.qMult, CData.subA, CData.subZ, hr, dotL]
  · simp only [CData.qMult, CData.subA, CData.subZ, ha, hb]; rfl
  · rw [← dotL_append _ _ _ _ _ hrl]
    simp only [CData.qMult, CData.subA, CData.subZ, List.mapM_cons, ha, hb, hr]; rfl

end Components

/-! ## C25: clustered standard errors -/

section C25

/-- Two rows are in the same group of the named cluster. -/
def CData.Share (d : CData n m nw) (nm : String) (o b : Fin n) : Prop :=
  (nm = "alpha" ∧ d.i o = d.i b) ∨ (nm = "psi" ∧ d.j o = d.j b) ∨
    ∃ c ∈ d.cats, c.name = nm ∧ c.val o = c.val b

/-- A row is in the first (normalised) category of the named cluster. -/
def CData.First (d : CData n m nw) (nm : String) (o : Fin n) : Prop :=
  (nm = "psi" ∧ d.j o = 0) ∨ ∃ c ∈ d.cats, c.name = nm ∧ c.val o = 0

/-- Cluster names accepted by the estimator, after replacing `i` and `j`. -/
def CData.Clusters (d : CData n m nw) (cl : List String) : Prop :=
  ∀ nm ∈ cl, nm = "alpha" ∨ nm = "psi" ∨ ∃ c ∈ d.cats, c.name = nm

theorem sum_indicators {k : ℕ} (v : Fin n → Fin k) (o b : Fin n) :
    ((indicators v).map fun c => c o * c b).sum = if v o = v b then 1 else 0 := by
  rw [indicators, List.map_ofFn, List.sum_ofFn]
  simp [eq_comm]

theorem sum_indicators_drop {k : ℕ} (v : Fin n → Fin (k + 1)) (o b : Fin n) :
    (((indicators v).drop 1).map fun c => c o * c b).sum = if v o = v b ∧ v o ≠ 0 then 1 else 0 := by
  have h := sum_indicators v o b
  have : indicators v = (fun o => if v o = 0 then 1 else 0) :: (indicators v).drop 1 := by
    simp [indicators, List.ofFn_succ]
  rw [this, List.map_cons, List.sum_cons] at h
  by_cases h1 : v o = v b
  · by_cases h2 : v o = 0
    · have h3 : v b = 0 := by rw [← h1, h2]
      simp only [h2, h3, if_true, mul_one] at h ⊢
      simp only [ne_eq, not_true, and_false, if_false]
      linarith
    · have h3 : v b ≠ 0 := by rw [← h1]; exact h2
      simp only [h1, if_true, h3, if_false, zero_mul, zero_add] at h ⊢
      simp only [ne_eq, h3, not_false_eq_true, and_true, if_true]
      exact h
  · simp only [h1, if_false, false_and] at h ⊢
    by_cases h2 : v o = 0
    · have h3 : v b ≠ 0 := fun e => h1 (by rw [h2, e])
      simpa [h3] using h
    · simpa [h2] using h

/-- Columns of one cluster. -/
theorem cluster_cols (h : d.names.Nodup) (gh : List ℝ) (nm : String)
    (hc : nm = "alpha" ∨ nm = "psi" ∨ ∃ c ∈ d.cats, c.name = nm) :
    ∃ r, dget (d.unpack gh).idx nm = some r ∧ ∀ o b, ∃ t : ℝ, ((slice d.A r.1 r.2).map fun c => c o * c b).sum = t ∧
      0 ≤ t ∧ (t = 0 ↔ ¬ (d.Share nm o b ∧ ¬ d.First nm o)) := by
  have hn := h
  simp only [CData.names, List.nodup_cons, List.mem_cons, List.mem_append, not_or] at hn
  have hcat : ∀ c ∈ d.cats, c.name ≠ "psi" ∧ c.name ≠ "alpha" := fun c hc =>
    ⟨fun e => hn.1.2.1 (e ▸ List.mem_map_of_mem hc), fun e => hn.2.1.1 (e ▸ List.mem_map_of_mem hc)⟩
  have huniq : ∀ c ∈ d.cats, ∀ c' ∈ d.cats, c.name = c'.name → c = c' := by
    have := (List.nodup_append.1 hn.2.2).1
    exact fun c hc c' hc' e => List.inj_on_of_nodup_map this hc hc' e
  rcases hc with rfl | rfl | ⟨c, hc, rfl⟩
  · obtain ⟨pre, post, hs⟩ := mem_of_split (show (Cov.worker : Cov n) ∈ d.covs by simp [CData.covs])
    refine ⟨_, idx_of_split h gh hs, fun o b => ⟨if d.i o = d.i b then 1 else 0,
      by rw [cols_of_split hs]; exact sum_indicators d.i o b, by split <;> simp, ?_⟩⟩
    have h1 : d.Share "alpha" o b ↔ d.i o = d.i b := by
      simp only [CData.Share, true_and, String.reduceEq, false_and, false_or, or_iff_left_iff_imp]
      rintro ⟨c, hc, he, -⟩; exact absurd he (hcat c hc).2
    have h2 : ¬ d.First "alpha" o := by
      rintro (⟨e, -⟩ | ⟨c, hc, he, -⟩)
      · simp at e
      · exact absurd he (hcat c hc).2
    simp [h1, h2]
  · obtain ⟨pre, post, hs⟩ := mem_of_split (show (Cov.firm : Cov n) ∈ d.covs by simp [CData.covs])
    refine ⟨_, idx_of_split h gh hs, fun o b => ⟨if d.j o = d.j b ∧ d.j o ≠ 0 then 1 else 0,
      by rw [cols_of_split hs]; exact sum_indicators_drop d.j o b, by split <;> simp, ?_⟩⟩
    have h1 : d.Share "psi" o b ↔ d.j o = d.j b := by
      simp only [CData.Share, String.reduceEq, false_and, true_and, false_or, or_iff_left_iff_imp]
      rintro ⟨c, hc, he, -⟩; exact absurd he (hcat c hc).1
    have h2 : d.First "psi" o ↔ d.j o = 0 := by
      simp only [CData.First, true_and, or_iff_left_iff_imp]
      rintro ⟨c, hc, he, -⟩; exact absurd he (hcat c hc).1
    simp [h1, h2]
  · obtain ⟨pre, post, hs⟩ := mem_of_split (show Cov.cat c ∈ d.covs by simp [CData.covs, hc])
    refine ⟨_, idx_of_split h gh hs, fun o b => ⟨if c.val o = c.val b ∧ c.val o ≠ 0 then 1 else 0,
      by rw [cols_of_split hs]; exact sum_indicators_drop c.val o b, by split <;> simp, ?_⟩⟩
    have h1 : d.Share c.name o b ↔ c.val o = c.val b := by
      constructor
      · rintro (⟨e, -⟩ | ⟨e, -⟩ | ⟨c', hc', he, hv⟩)
        · exact absurd e (hcat c hc).2
        · exact absurd e (hcat c hc).1
        · have := huniq c' hc' c hc he; subst this; exact hv
      · exact fun e => Or.inr (Or.inr ⟨c, hc, rfl, e⟩)
    have h2 : d.First c.name o ↔ c.val o = 0 := by
      constructor
      · rintro (⟨e, -⟩ | ⟨c', hc', he, hv⟩)
        · exact absurd e (hcat c hc).1
        · have := huniq c' hc' c hc he; subst this; exact hv
      · exact fun e => Or.inr ⟨c, hc, rfl, e⟩
    simp [h1, h2]

/-- C25 (partial: two rows sharing a group do not count as clustered if the group is the first category of
the covariate, see `C25_first_category`): the matrix `S` is 1 exactly for the pairs of rows that share a
group of some cluster covariate other than its first category, else 0. -/
theorem C25_pairs_partial (h : d.names.Nodup) (gh : List ℝ) (cl : List String) (hcl : d.Clusters cl)
    (o b : Fin n) :
    (d.S (d.unpack gh) cl o b = some 1 ∨ d.S (d.unpack gh) cl o b = some 0) ∧
    (d.S (d.unpack gh) cl o b = some 1 ↔ ∃ nm ∈ cl, d.Share nm o b ∧ ¬ d.First nm o) := by
  have key : ∃ a, (cl.mapM fun s => do let r ← dget (d.unpack gh).idx s; return slice d.A r.1 r.2) = some a ∧
      0 ≤ (a.flatten.map fun c => c o * c b).sum ∧
      ((a.flatten.map fun c => c o * c b).sum = 0 ↔ ¬ ∃ nm ∈ cl, d.Share nm o b ∧ ¬ d.First nm o) := by
    induction cl with
    | nil => exact ⟨[], by simp, by simp, by simp⟩
    | cons nm t ih =>
      obtain ⟨a, ha, h0, h1⟩ := ih fun x hx => hcl x (List.mem_cons_of_mem _ hx)
      obtain ⟨r, hr, hsum⟩ := cluster_cols h gh nm (hcl nm (by simp))
      obtain ⟨s, hs, hs0, hs1⟩ := hsum o b
      refine ⟨slice d.A r.1 r.2 :: a, by rw [List.mapM_cons, ha]; simp [hr], ?_, ?_⟩
      · rw [List.flatten_cons, List.map_append, List.sum_append, hs]; linarith
      · rw [List.flatten_cons, List.map_append, List.sum_append, hs]
        rw [add_eq_zero_iff_of_nonneg hs0 h0, hs1, h1]
        simp only [List.mem_cons, exists_eq_or_imp, not_or]
  obtain ⟨a, ha, h0, h1⟩ := key
  have hS : d.S (d.unpack gh) cl o b = some (if (a.flatten.map fun c => c o * c b).sum = 0 then 0 else 1) := by
    simp only [CData.S, CData.subA, ha]; rfl
  rw [hS]
  by_cases hz : (a.flatten.map fun c => c o * c b).sum = 0
  · simp only [hz, if_true, true_iff] at h1 ⊢
    simp [h1]
  · simp only [hz, if_false, false_iff, not_not] at h1 ⊢
    simp [h1]

/-- C25 is false of the code: clustering by firm, no observation at the first firm is in any cluster, not
even its own; likewise for the first category of a categorical control. -/
theorem C25_first_category (h : d.names.Nodup) (gh : List ℝ) (nm : String)
    (hc : nm = "psi" ∨ ∃ c ∈ d.cats, c.name = nm) (o : Fin n) (ho : d.First nm o) (b : Fin n) :
    d.S (d.unpack gh) [nm] o b = some 0 := by
  obtain ⟨h1, h2⟩ := C25_pairs_partial h gh [nm] (by simp [CData.Clusters]; exact Or.inr hc) o b
  rcases h1 with h1 | h1
  · obtain ⟨x, hx, -, hf⟩ := h2.1 h1
    simp only [List.mem_singleton] at hx
    subst hx; exact absurd ho hf
  · exact h1

/-- C25: an observation is always in its own cluster when workers are one of the clusters, as by
default. -/
theorem C25_own_cluster (h : d.names.Nodup) (gh : List ℝ) (cl : List String) (hcl : d.Clusters cl)
    (hw : "alpha" ∈ cl) (o b : Fin n) (hob : d.i o = d.i b) : d.S (d.unpack gh) cl o b = some 1 := by
  refine (C25_pairs_partial h gh cl hcl o b).2.2 ⟨"alpha", hw, Or.inl ⟨rfl, hob⟩, ?_⟩
  rintro (⟨e, -⟩ | ⟨c, hc, he, -⟩)
  · simp at e
  · simp only [CData.names, List.nodup_cons, List.mem_append, not_or] at h
    exact h.2.1.1 (he ▸ List.mem_map_of_mem hc)

theorem subA_isSome (h : d.names.Nodup) (gh : List ℝ) (cl : List String) (hcl : d.Clusters cl) :
    ∃ M, d.subA (d.unpack gh) cl = some M := by
  have : ∃ a, (cl.mapM fun s => do let r ← dget (d.unpack gh).idx s; return slice d.A r.1 r.2) = some a := by
    induction cl with
    | nil => exact ⟨[], by simp⟩
    | cons nm t ih =>
      obtain ⟨a, ha⟩ := ih fun x hx => hcl x (List.mem_cons_of_mem _ hx)
      obtain ⟨r, hr, -⟩ := cluster_cols h gh nm (hcl nm (by simp))
      exact ⟨slice d.A r.1 r.2 :: a, by rw [List.mapM_cons, ha]; simp [hr]⟩
  obtain ⟨a, ha⟩ := this
  exact ⟨a.flatten, by simp only [CData.subA, ha]; rfl⟩

/-- C25, sandwich form: if the coefficient of the column can be computed, it is a weighted sum
`Σ Dp_o a_o y_o` of outcomes, and the squared clustered standard error is the sum over clustered pairs of
the products of `a_o` times residual.  Without weights (`Dp = 1`) this is the cluster sandwich; with
weights the factors `Dp` are missing from it. -/
theorem C25_sandwich (h : d.names.Nodup) (hw : ∀ o, 0 ≤ d.Dp o) (hs : d.GoodSolver solve)
    (clusters : Option (List String)) (hcl : d.Clusters (CData.clusterNames clusters)) (c : Cts n) (hc : c ∈ d.cts)
    (hid : ∀ p, ∃ x, x.length = d.nCov ∧ d.AtDpA x = CData.unitVec d.nCov p) :
    ∃ (coef : ℝ) (a : Fin n → ℝ) (S : Fin n → Fin n → ℝ),
      dget (d.unpack (d.gammaHat solve)).gamma c.name = some (.num coef) ∧
      coef = ∑ o, d.Dp o * a o * d.y o ∧
      (∀ o b, d.S (d.unpack (d.gammaHat solve)) (CData.clusterNames clusters) o b = some (S o b)) ∧
      d.clusteredSq solve clusters c.name
        = some (∑ o, ∑ b, S o b * ((a o * d.E solve o) * (a b * d.E solve b))) := by
  obtain ⟨hl, hN⟩ := gammaHat_spec h hw hs
  obtain ⟨p, x, hp, hx, hpx⟩ := (C24_unpack h (d.gammaHat solve) hl).2.2.2 c hc
  obtain ⟨a', b', hab, -, hb⟩ := (C24_layout h (d.gammaHat solve)).2.1 c.name (by simp [CData.names]; exact Or.inr (Or.inr (Or.inr ⟨c, hc, rfl⟩)))
  rw [hp] at hab
  cases hab
  obtain ⟨hz1, hz2⟩ := hs _ (hid p)
  obtain ⟨M, hM⟩ := subA_isSome h (d.gammaHat solve) _ hcl
  refine ⟨x, d.multA (solve (CData.unitVec d.nCov p)), fun o b => (d.S (d.unpack (d.gammaHat solve)) (CData.clusterNames clusters) o b).getD 0, hx, ?_, fun o b => ?_, ?_⟩
  · have h1 := dotR_unit (d.gammaHat solve) d.nCov p (by omega) hl
    rw [hpx, Option.some_inj] at h1
    have h3 := dotR_multAT (d := d) (d.gammaHat solve) fun o => d.multA (solve (CData.unitVec d.nCov p)) o
    have h4 : d.multAT (fun o => d.multA (solve (CData.unitVec d.nCov p)) o) = CData.unitVec d.nCov p := hz2
    rw [h4] at h3
    rw [h1, h3]
    have h2 := congrArg (dotR (solve (CData.unitVec d.nCov p))) hN
    rw [CData.AtDpA, dotR_multAT, dotR_multAT] at h2
    rw [← h2]
    exact Finset.sum_congr rfl fun o _ => by ring
  · rcases (C25_pairs_partial h (d.gammaHat solve) _ hcl o b).1 with e | e <;> simp only [e, Option.getD_some]
  · simp only [CData.clusteredSq, hM, hp]
    simp only [Option.bind_eq_bind, Option.bind_some, Option.pure_def, Option.some_inj]
    refine Finset.sum_congr rfl fun o _ => Finset.sum_congr rfl fun b _ => ?_
    simp only [CData.epsA]; ring

/-- C25 is false of the code: with one firm, clustering by firm (all observations in one cluster) gives a
standard error of 0 whatever the data. -/
theorem C25_one_firm {d : CData n 0 nw} (h : d.names.Nodup) (hw : ∀ o, 0 ≤ d.Dp o) (hs : d.GoodSolver solve)
    (c : Cts n) (hc : c ∈ d.cts)
    (hid : ∀ p, ∃ x, x.length = d.nCov ∧ d.AtDpA x = CData.unitVec d.nCov p) :
    d.clusteredSe solve (some ["j"]) c.name = some 0 := by
  obtain ⟨coef, a, S, -, -, hS, hsq⟩ := C25_sandwich h hw hs (some ["j"]) (by
    simp [CData.clusterNames, CData.Clusters]) c hc hid
  have h0 : ∀ o b, S o b = 0 := by
    intro o b
    have := C25_first_category h (d.gammaHat solve) "psi" (Or.inl rfl) o
      (Or.inl ⟨rfl, Fin.ext (by omega)⟩) b
    have h2 := hS o b
    simp only [CData.clusterNames, List.map_cons, List.map_nil, String.reduceEq, if_false, if_true] at h2
    rw [this] at h2
    exact (Option.some_inj.1 h2).symm
  simp [CData.clusteredSe, hsq, h0]

/-- With a single cluster covariate the radicand is not negative, so the standard error exists. -/
theorem C25_single_cluster (h : d.names.Nodup) (gh : List ℝ) (nm : String) (hcl : d.Clusters [nm]) (e : Fin n → ℝ) :
    0 ≤ ∑ o, ∑ b, e o * ((d.S (d.unpack gh) [nm] o b).getD 0 * e b) := by
  obtain ⟨M, hM⟩ := subA_isSome h gh [nm] hcl
  obtain ⟨r, hr, hsum⟩ := cluster_cols h gh nm (hcl nm (by simp))
  -- each row has at most one nonzero column, so S is the product itself
  have hS : ∀ o b, (d.S (d.unpack gh) [nm] o b).getD 0 = ((slice d.A r.1 r.2).map fun c => c o * c b).sum := by
    intro o b
    have hMv : M = slice d.A r.1 r.2 := by
      simp [CData.subA, hr] at hM; exact hM.symm
    have h1 : d.S (d.unpack gh) [nm] o b
        = some (if ((slice d.A r.1 r.2).map fun c => c o * c b).sum = 0 then 0 else 1) := by
      simp only [CData.S, hM, hMv]; rfl
    rw [h1, Option.getD_some]
    split
    · next hz => rw [hz]
    · next hz =>
      -- the sum is 0 or 1
      have : ((slice d.A r.1 r.2).map fun c => c o * c b).sum = 0
          ∨ ((slice d.A r.1 r.2).map fun c => c o * c b).sum = 1 := by
        have hcols := hcl nm (by simp)
        rcases hcols with rfl | rfl | ⟨c, hc, rfl⟩
        · obtain ⟨pre, post, hs⟩ := mem_of_split (show (Cov.worker : Cov n) ∈ d.covs by simp [CData.covs])
          have := idx_of_split h gh hs
          simp only [Cov.name] at this
          rw [this] at hr; cases hr
          rw [cols_of_split hs]
          change ((indicators d.i).map _).sum = 0 ∨ _
          rw [Cov.cols, sum_indicators]; split <;> simp
        · obtain ⟨pre, post, hs⟩ := mem_of_split (show (Cov.firm : Cov n) ∈ d.covs by simp [CData.covs])
          have := idx_of_split h gh hs
          simp only [Cov.name] at this
          rw [this] at hr; cases hr
          rw [cols_of_split hs, Cov.cols, sum_indicators_drop]; split <;> simp
        · obtain ⟨pre, post, hs⟩ := mem_of_split (show Cov.cat c ∈ d.covs by simp [CData.covs, hc])
          have := idx_of_split h gh hs
          simp only [Cov.name] at this
          rw [this] at hr; cases hr
          rw [cols_of_split hs, Cov.cols, sum_indicators_drop]; split <;> simp
      rcases this with h | h
      · exact absurd h hz
      · exact h.symm
  simp only [hS]
  generalize slice d.A r.1 r.2 = L
  have : ∑ o, ∑ b, e o * ((L.map fun c => c o * c b).sum * e b) = (L.map fun c => (∑ o, e o * c o) ^ 2).sum := by
    induction L with
    | nil => simp
    | cons c t ih =>
      rw [List.map_cons, List.sum_cons, ← ih, pow_two, Finset.sum_mul_sum, ← Finset.sum_add_distrib]
      simp only [List.map_cons, List.sum_cons]
      refine Finset.sum_congr rfl fun o _ => ?_
      rw [← Finset.sum_add_distrib]
      exact Finset.sum_congr rfl fun b _ => by ring
  rw [this]
  exact List.sum_nonneg (by simp only [List.mem_map]; rintro _ ⟨c, -, rfl⟩; positivity)

/-- Three rows: the first two share firm 1, the last two share worker 1. -/
def ex25 : CData 3 1 2 where
  j := ![1, 1, 0]
  i := ![0, 1, 1]
  y := ![1, 2, 4]
  weighted := false
  w := fun _ => 1
  cats := []
  cts := []

/-- C25: with two cluster covariates the radicand can be negative (`S` is not positive semidefinite), and
then the standard error is NaN. -/
theorem C25_two_way_negative (gh : List ℝ) : ∃ e : Fin 3 → ℝ,
    ∑ o, ∑ b, e o * ((ex25.S (ex25.unpack gh) (CData.clusterNames none) o b).getD 0 * e b) < 0 := by
  have hn : ex25.names.Nodup := by decide
  have hcl : ex25.Clusters (CData.clusterNames none) := by simp [CData.Clusters, CData.clusterNames]
  have hS : ∀ o b, (ex25.S (ex25.unpack gh) (CData.clusterNames none) o b).getD 0
      = if (ex25.i o = ex25.i b) ∨ (ex25.j o = ex25.j b ∧ ex25.j o ≠ 0) then 1 else 0 := by
    intro o b
    obtain ⟨h1, h2⟩ := C25_pairs_partial hn gh _ hcl o b
    have hiff : (∃ nm ∈ CData.clusterNames none, ex25.Share nm o b ∧ ¬ ex25.First nm o)
        ↔ (ex25.i o = ex25.i b) ∨ (ex25.j o = ex25.j b ∧ ex25.j o ≠ 0) := by
      simp [CData.clusterNames, CData.Share, CData.First, ex25, or_comm]
    rw [hiff] at h2
    by_cases hc : (ex25.i o = ex25.i b) ∨ (ex25.j o = ex25.j b ∧ ex25.j o ≠ 0)
    · rw [h2.2 hc, if_pos hc]; rfl
    · rcases h1 with h1 | h1
      · exact absurd (h2.1 h1) hc
      · rw [h1, if_neg hc]; rfl
  refine ⟨![1, -1, 1], ?_⟩
  have hv : ∀ o b, (if (ex25.i o = ex25.i b) ∨ (ex25.j o = ex25.j b ∧ ex25.j o ≠ 0) then (1 : ℝ) else 0)
      = (![![1, 1, 0], ![1, 1, 1], ![0, 1, 1]] : Fin 3 → Fin 3 → ℝ) o b := by
    intro o b; fin_cases o <;> fin_cases b <;> simp [ex25]
  simp only [hS, hv, Fin.sum_univ_three]
  show (1 : ℝ) * (1 * 1) + 1 * (1 * -1) + 1 * (0 * 1) + (-1 * (1 * 1) + -1 * (1 * -1) + -1 * (1 * 1))
    + (1 * (0 * 1) + 1 * (1 * -1) + 1 * (1 * 1)) < 0
  norm_num

end C25

/-! ## C62: standard errors without clusters -/

section C62

/-- C62 (partial: without weights): the coefficient is a sum `Σ a_o y_o` of outcomes and the squared
standard error is the mean squared residual times `Σ a_o²`, the variance of that sum for independent
errors of that variance.  Missing: weighted data, where it is wrong (`C62_weighted`). -/
theorem C62_unweighted_partial (h : d.names.Nodup) (hwt : d.weighted = false) (hs : d.GoodSolver solve)
    (c : Cts n) (hc : c ∈ d.cts)
    (hid : ∀ p, ∃ x, x.length = d.nCov ∧ d.AtDpA x = CData.unitVec d.nCov p) :
    ∃ (coef : ℝ) (a : Fin n → ℝ),
      dget (d.unpack (d.gammaHat solve)).gamma c.name = some (.num coef) ∧
      coef = ∑ o, a o * d.y o ∧
      d.standardSq solve c.name = some ((∑ o, d.E solve o ^ 2) / n * ∑ o, a o ^ 2) := by
  have hD : ∀ o, d.Dp o = 1 := fun o => by simp [CData.Dp, hwt]
  have hw : ∀ o, 0 ≤ d.Dp o := fun o => by rw [hD]; norm_num
  obtain ⟨hl, hN⟩ := gammaHat_spec h hw hs
  obtain ⟨p, x, hp, hx, hpx⟩ := (C24_unpack h (d.gammaHat solve) hl).2.2.2 c hc
  obtain ⟨a', b', hab, -, hb⟩ := (C24_layout h (d.gammaHat solve)).2.1 c.name (by simp [CData.names]; exact Or.inr (Or.inr (Or.inr ⟨c, hc, rfl⟩)))
  rw [hp] at hab
  cases hab
  obtain ⟨hz1, hz2⟩ := hs _ (hid p)
  have h4 : d.multAT (fun o => d.multA (solve (CData.unitVec d.nCov p)) o) = CData.unitVec d.nCov p := hz2
  refine ⟨x, d.multA (solve (CData.unitVec d.nCov p)), hx, ?_, ?_⟩
  · have h1 := dotR_unit (d.gammaHat solve) d.nCov p (by omega) hl
    rw [hpx, Option.some_inj] at h1
    have h3 := dotR_multAT (d := d) (d.gammaHat solve) fun o => d.multA (solve (CData.unitVec d.nCov p)) o
    rw [h4] at h3
    rw [h1, h3]
    have h2 := congrArg (dotR (solve (CData.unitVec d.nCov p))) hN
    rw [CData.AtDpA, dotR_multAT, dotR_multAT] at h2
    simp only [hD, one_mul] at h2 ⊢
    rw [← h2]
    exact Finset.sum_congr rfl fun o _ => by ring
  · have h1 := dotR_unit (solve (CData.unitVec d.nCov p)) d.nCov p (by omega) hz1
    have h3 := dotR_multAT (d := d) (solve (CData.unitVec d.nCov p)) fun o => d.multA (solve (CData.unitVec d.nCov p)) o
    rw [h4] at h3
    rw [h3] at h1
    have hsig : d.sigma2fe solve = (∑ o, d.E solve o ^ 2) / n := by
      simp [CData.sigma2fe, CData.DpW, hwt, hD, Util.weightedMean]
    simp only [CData.standardSq, hp, hwt, Option.bind_eq_bind, Option.bind_some]
    simp only [Bool.false_eq_true, if_false, h1, Option.bind_some, hsig, hD, one_mul, Option.pure_def,
      pow_two]

/-- C62 fails with weights: if all weights are `k > 0`, the coefficient is `Σ a_o y_o` and the squared
standard error is `1 / k²` times the mean squared residual times `Σ a_o²`, although a common weight
changes neither the coefficient nor the residuals. -/
theorem C62_weighted (h : d.names.Nodup) (hwt : d.weighted = true) (k : ℝ) (hk : 0 < k) (hD : ∀ o, d.w o = k)
    (hs : d.GoodSolver solve) (c : Cts n) (hc : c ∈ d.cts)
    (hid : ∀ p, ∃ x, x.length = d.nCov ∧ d.AtDpA x = CData.unitVec d.nCov p) :
    ∃ (coef : ℝ) (a : Fin n → ℝ),
      dget (d.unpack (d.gammaHat solve)).gamma c.name = some (.num coef) ∧
      coef = ∑ o, a o * d.y o ∧
      d.standardSq solve c.name = some (1 / k ^ 2 * ((∑ o, d.E solve o ^ 2) / n * ∑ o, a o ^ 2)) := by
  have hD : ∀ o, d.Dp o = k := fun o => by simp [CData.Dp, hwt, hD]
  have hw : ∀ o, 0 ≤ d.Dp o := fun o => by rw [hD]; exact hk.le
  obtain ⟨hl, hN⟩ := gammaHat_spec h hw hs
  obtain ⟨p, x, hp, hx, hpx⟩ := (C24_unpack h (d.gammaHat solve) hl).2.2.2 c hc
  obtain ⟨a', b', hab, -, hb⟩ := (C24_layout h (d.gammaHat solve)).2.1 c.name (by simp [CData.names]; exact Or.inr (Or.inr (Or.inr ⟨c, hc, rfl⟩)))
  rw [hp] at hab
  cases hab
  obtain ⟨hz1, hz2⟩ := hs _ (hid p)
  have h4 : d.multAT (fun o => d.multA (solve (CData.unitVec d.nCov p)) o) = CData.unitVec d.nCov p := hz2
  refine ⟨x, fun o => k * d.multA (solve (CData.unitVec d.nCov p)) o, hx, ?_, ?_⟩
  · have h1 := dotR_unit (d.gammaHat solve) d.nCov p (by omega) hl
    rw [hpx, Option.some_inj] at h1
    have h3 := dotR_multAT (d := d) (d.gammaHat solve) fun o => d.multA (solve (CData.unitVec d.nCov p)) o
    rw [h4] at h3
    rw [h1, h3]
    have h2 := congrArg (dotR (solve (CData.unitVec d.nCov p))) hN
    rw [CData.AtDpA, dotR_multAT, dotR_multAT] at h2
    simp only [hD] at h2 ⊢
    rw [← h2]
    exact Finset.sum_congr rfl fun o _ => by ring
  · simp only [CData.standardSq, hp, hwt, Option.bind_eq_bind, Option.bind_some]
    simp only [if_true, Option.pure_def, Option.some_inj, mul_pow, ← Finset.mul_sum]
    field_simp

/-- C62: the reported residual variance is the weighted mean of the squared residuals, each scaled back by its weight
(an observation of weight `w` has error variance `σ² / w`): if every squared residual is `σ² / w_o`, it is `σ²`.
Without weights it is the mean squared residual. -/
theorem C62_residual_variance (hn : 0 < n) :
    (d.weighted = true → (∀ o, 0 < d.w o) → ∀ s : ℝ, (∀ o, d.E solve o ^ 2 = s / d.w o) → d.sigma2fe solve = s) ∧
    (d.weighted = true → d.sigma2fe solve = (∑ o, d.w o * (d.w o * d.E solve o ^ 2)) / ∑ o, d.w o) ∧
    (d.weighted = false → d.sigma2fe solve = (∑ o, d.E solve o ^ 2) / n) := by
  have h2 : d.weighted = true → d.sigma2fe solve = (∑ o, d.w o * (d.w o * d.E solve o ^ 2)) / ∑ o, d.w o := by
    intro hwt
    simp [CData.sigma2fe, CData.DpW, CData.Dp, hwt, Util.weightedMean]
  refine ⟨fun hwt hw s hs => ?_, h2, fun hwt => ?_⟩
  · rw [h2 hwt]
    have hW : (∑ o, d.w o) ≠ 0 := (Finset.sum_pos (fun o _ => hw o) ⟨⟨0, hn⟩, Finset.mem_univ _⟩).ne'
    have : ∀ o, d.w o * (d.w o * d.E solve o ^ 2) = d.w o * s := by
      intro o; rw [hs]; have := (hw o).ne'; field_simp
    simp only [this, ← Finset.sum_mul]
    field_simp
  · simp [CData.sigma2fe, CData.DpW, CData.Dp, hwt, Util.weightedMean]

end C62

/-! ## Non-vacuity -/

/-- A dataset with one categorical and one continuous control. -/
def exC : CData 4 1 2 where
  j := ![0, 1, 1, 0]
  i := ![0, 0, 1, 1]
  y := ![1, 2, 4, 3]
  weighted := true
  w := ![1, 2, 1, 1]
  cats := [⟨"region", 2, ![0, 1, 2, 1]⟩]
  cts := [⟨"age", ![20, 30, 40, 50]⟩]

/-- `exC` meets the hypotheses of C24 and C61: distinct names, nonnegative weights, a good solver exists;
it has six coefficients; clustering by firm and region is accepted and row 0 is in the first categories. -/
example : exC.names.Nodup ∧ exC.nCov = 6 ∧ (∀ o, 0 ≤ exC.Dp o) ∧ (∃ solve, exC.GoodSolver solve) ∧
    exC.Clusters ["psi", "region"] ∧ exC.First "region" 0 ∧ ¬ exC.First "region" 2 := by
  refine ⟨by decide, by decide, ?_, exists_goodSolver _, ?_, ?_, ?_⟩
  · intro o; fin_cases o <;> norm_num [CData.Dp, exC]
  · simp [CData.Clusters, exC]
  · exact Or.inr ⟨⟨"region", 2, ![0, 1, 2, 1]⟩, by simp [exC], rfl, rfl⟩
  · simp [CData.First, exC]

/-- One firm, one worker, one continuous control, three rows. -/
def exS (b : Bool) : CData 3 0 1 where
  j := fun _ => 0
  i := fun _ => 0
  y := ![1, 2, 4]
  weighted := b
  w := fun _ => 2
  cats := []
  cts := [⟨"x", ![0, 1, 2]⟩]

/-- `exS` meets the hypotheses of the standard error theorems, weighted or not. -/
example (b : Bool) : (exS b).names.Nodup ∧ (∀ o, 0 ≤ (exS b).Dp o) ∧ (∃ solve, (exS b).GoodSolver solve) ∧
    (∃ c, c ∈ (exS b).cts) ∧ (exS b).Clusters (CData.clusterNames (some ["j"])) ∧
    ∀ p, ∃ x, x.length = (exS b).nCov ∧ (exS b).AtDpA x = CData.unitVec (exS b).nCov p := by
  have hD : ∃ k : ℝ, 0 < k ∧ ∀ o, (exS b).Dp o = k := by
    cases b
    · exact ⟨1, by norm_num, fun o => by simp [CData.Dp, exS]⟩
    · exact ⟨2, by norm_num, fun o => by simp [CData.Dp, exS]⟩
  obtain ⟨k, hk, hD⟩ := hD
  refine ⟨by simp [CData.names, exS], fun o => by rw [hD]; exact hk.le, exists_goodSolver _, ⟨_, by simp [exS]; rfl⟩, by simp [CData.Clusters, CData.clusterNames], ?_⟩
  have hc : (exS b).nCov = 2 := by simp [CData.nCov, CData.nDict, exS, dset]
  have hA : ∀ u v : ℝ, (exS b).AtDpA [u, v] = [k * (3 * u + 3 * v), k * (3 * u + 5 * v)] := by
    intro u v
    have e : (exS b).A = [fun _ => 1, ![0, 1, 2]] := by
      simp [CData.A, exS, indicators]
    simp only [CData.AtDpA, CData.multAT, hD, CData.multA, e]
    simp [Fin.sum_univ_three]
    constructor <;> ring
  intro p
  rw [hc]
  match p with
  | 0 => exact ⟨[5 / 6 / k, -(1 / 2) / k], rfl, by rw [hA]; simp [CData.unitVec]; constructor <;> field_simp <;> norm_num⟩
  | 1 => exact ⟨[-(1 / 2) / k, 1 / 2 / k], rfl, by rw [hA]; simp [CData.unitVec]; constructor <;> field_simp <;> norm_num⟩
  | p + 2 => exact ⟨[0, 0], rfl, by rw [hA]; simp [CData.unitVec]⟩

/-- The names must differ: a control called `alpha` overwrites the worker effects, so that "alpha" no
longer names the workers' coefficients. -/
theorem C24_name_clash : ∃ d : CData 2 0 2, ¬ d.names.Nodup ∧ ∀ gh, gh.length = d.A.length →
    ∃ x, dget (d.unpack gh).gamma "alpha" = some (.num x) := by
  refine ⟨⟨fun _ => 0, ![0, 1], ![1, 2], false, fun _ => 1, [], [⟨"alpha", ![5, 6]⟩]⟩, by decide, fun gh _ => ?_⟩
  exact ⟨gh.getD 2 0, by simp [CData.unpack, CData.unpackInit, CData.unpackCts, dset, dget, List.lookup]⟩

end Pytwoway.FEControl
