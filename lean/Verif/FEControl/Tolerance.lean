import Verif.FEControl.Traces3
import Verif.FE.Tolerance

/-! # The linear solver with control variables: what its tolerance does to the estimates (C110)

As `Verif.FE.Tolerance`, for `FEControlEstimator`: all coefficients are solved for at once, so nothing is exact for workers,
and the tolerance is relative to the outcomes themselves, not to outcomes net of worker means. -/

namespace Pytwoway.FEControl.Tol

open Matrix FE
open scoped BigOperators
open FE.Tol (Call)

variable {n m nw : ℕ}

/-! ## Model -/

/-- The call in `_mult_AAinv`, fecontrol.py:1353-1367. -/
def callAAinv (solver : String) (tol : ℝ) : Call :=
  if solver = "amg" then ⟨solver, false, some tol, false⟩
  else if solver = "minres" then ⟨solver, true, some tol, false⟩
  else if solver = "qmr" then ⟨solver, false, some tol, true⟩
  else ⟨solver, true, some tol, true⟩

/-- A linear solver for `AtDpA x = b`: call and right-hand side to the pair `(x, info)`.
Used for fecontrol.py:730-737 and fecontrol.py:163-165. -/
abbrev Run := Call → List ℝ → List ℝ × ℤ

/-- `self.gamma_hat` in `_estimate_ols`, fecontrol.py:730-737, with `_solve` and `_mult_AAinv` (1342-1383): `info` is
dropped by the `[0]` of lines 1363-1367. -/
def gammaHat (d : CData n m nw) (run : Run) (solver : String) (tol : ℝ) : List ℝ :=
  d.gammaHat fun b => (run (callAAinv solver tol) b).1

/-! ## Specification -/

namespace Spec

variable (d : CData n m nw)

/-- Fitted outcome of a row. -/
def fit (t : Truth m nw) (o : Fin n) : ℝ :=
  t.psi (d.j o) + t.alpha (d.i o) + (d.cats.map fun c => t.eff c.name (c.val o)).sum
    + (d.cts.map fun c => t.coef c.name * c.val o).sum

/-- Weighted sum of squared residuals. -/
def ssr (t : Truth m nw) : ℝ := ∑ o, d.Dp o * (d.y o - fit d t o) ^ 2

/-- The first firm and the first category of every control have effect zero. -/
def Normal (t : Truth m nw) : Prop := t.psi 0 = 0 ∧ ∀ c ∈ d.cats, t.eff c.name 0 = 0

/-- The columns attached to the data are the ones of these effects. -/
def Attached (gh : List ℝ) (t : Truth m nw) : Prop :=
  ∀ o, d.attached gh o = some (t.psi (d.j o) :: t.alpha (d.i o) ::
    ((d.cats.map fun c => t.eff c.name (c.val o)) ++ d.cts.map fun c => t.coef c.name * c.val o))

/-- Squared moments of `v` with all covariates: firms but the first, workers, categories but the first of each control,
continuous controls. -/
def moments (v : Fin n → ℝ) : ℝ :=
  ∑ k with k ≠ 0, (∑ o with d.j o = k, d.Dp o * v o) ^ 2 + ∑ i, (∑ o with d.i o = i, d.Dp o * v o) ^ 2
    + (d.cats.map fun c => ∑ k with k ≠ 0, (∑ o with c.val o = k, d.Dp o * v o) ^ 2).sum
    + (d.cts.map fun c => (∑ o, d.Dp o * c.val o * v o) ^ 2).sum

/-- Squared distance of two sets of effects. -/
def sqDist (s t : Truth m nw) : ℝ :=
  ∑ k, (s.psi k - t.psi k) ^ 2 + ∑ i, (s.alpha i - t.alpha i) ^ 2
    + (d.cats.map fun c => ∑ k : Fin (c.k + 1), (s.eff c.name k - t.eff c.name k) ^ 2).sum
    + (d.cts.map fun c => (s.coef c.name - t.coef c.name) ^ 2).sum

/-- `lam` bounds from below how far fitted values move with normalised effects. -/
def Stiff (lam : ℝ) : Prop :=
  ∀ s t, Normal d s → Normal d t → lam * sqDist d s t ≤ ∑ o, d.Dp o * (fit d s o - fit d t o) ^ 2

/-- Normalised effects that fit best. -/
def Best (t : Truth m nw) : Prop := Normal d t ∧ ∀ t', ssr d t ≤ ssr d t'

/-- The documented contract of `solver_tol` (fecontrol.py:163-165): called with `tol = t` on a system that has a solution,
the solver reports success and stops with `norm(residual) <= t * norm(b)`. -/
def Stops (run : Run) : Prop :=
  ∀ c b t, c.tol = some t → (∃ x, x.length = d.nCov ∧ d.AtDpA x = b) →
    (run c b).2 = 0 ∧ (run c b).1.length = d.nCov ∧
    ((List.zipWith (fun r s => r - s) (d.AtDpA (run c b).1) b).map (· ^ 2)).sum ≤ t ^ 2 * (b.map (· ^ 2)).sum

end Spec

open Spec

/-! ## Lemmas -/

section Matrix

variable {ι κ : Type*} [Fintype ι] [Fintype κ]

/-- Least squares around a solution of the normal equations. -/
theorem ssr_around (X : Matrix ι κ ℝ) (w y : ι → ℝ) (b x : κ → ℝ)
    (hb : Xᵀ *ᵥ (fun o => w o * (y o - (X *ᵥ b) o)) = 0) :
    ∑ o, w o * (y o - (X *ᵥ x) o) ^ 2
      = ∑ o, w o * (y o - (X *ᵥ b) o) ^ 2 + ∑ o, w o * ((X *ᵥ x) o - (X *ᵥ b) o) ^ 2 := by
  have h0 : ∑ o, (X *ᵥ (x - b)) o * (w o * (y o - (X *ᵥ b) o)) = 0 := by
    have : (X *ᵥ (x - b)) ⬝ᵥ (fun o => w o * (y o - (X *ᵥ b) o)) = 0 := by
      rw [← dotProduct_comm, dotProduct_mulVec, ← mulVec_transpose, hb, zero_dotProduct]
    exact this
  have : ∑ o, w o * (y o - (X *ᵥ x) o) ^ 2
      = ∑ o, w o * (y o - (X *ᵥ b) o) ^ 2 + ∑ o, w o * ((X *ᵥ x) o - (X *ᵥ b) o) ^ 2
        - 2 * ∑ o, (X *ᵥ (x - b)) o * (w o * (y o - (X *ᵥ b) o)) := by
    rw [Finset.mul_sum, ← Finset.sum_add_distrib, ← Finset.sum_sub_distrib]
    refine Finset.sum_congr rfl fun o _ => ?_
    rw [mulVec_sub, Pi.sub_apply]; ring
  rw [this, h0, mul_zero, sub_zero]

/-- Error of coefficients whose normal equations hold up to `G`. -/
theorem error_of_gap (X : Matrix ι κ ℝ) (w y : ι → ℝ) (b x : κ → ℝ)
    (hb : Xᵀ *ᵥ (fun o => w o * (y o - (X *ᵥ b) o)) = 0) {lam G : ℝ} (hl : 0 < lam)
    (hst : lam * ∑ c, (x c - b c) ^ 2 ≤ ∑ o, w o * ((X *ᵥ x) o - (X *ᵥ b) o) ^ 2)
    (hG : ∑ c, (Xᵀ *ᵥ (fun o => w o * (y o - (X *ᵥ x) o))) c ^ 2 ≤ G) :
    ∑ o, w o * ((X *ᵥ x) o - (X *ᵥ b) o) ^ 2 ≤ G / lam ∧ ∑ c, (x c - b c) ^ 2 ≤ G / lam ^ 2 := by
  set g := Xᵀ *ᵥ (fun o => w o * (y o - (X *ᵥ x) o)) with hg
  set F := ∑ o, w o * ((X *ᵥ x) o - (X *ᵥ b) o) ^ 2 with hF
  set N := ∑ c, (x c - b c) ^ 2 with hN
  have e : ∑ c, g c * (b c - x c) = F := by
    have h1 : ∑ c, (Xᵀ *ᵥ (fun o => w o * (y o - (X *ᵥ b) o))) c * (b c - x c) = 0 := by
      rw [hb]; simp
    have h2 : ∀ z : κ → ℝ, ∑ c, (Xᵀ *ᵥ (fun o => w o * (y o - (X *ᵥ z) o))) c * (b c - x c)
        = ∑ o, w o * (y o - (X *ᵥ z) o) * ((X *ᵥ b) o - (X *ᵥ x) o) := by
      intro z
      have : (Xᵀ *ᵥ (fun o => w o * (y o - (X *ᵥ z) o))) ⬝ᵥ (b - x)
          = (fun o => w o * (y o - (X *ᵥ z) o)) ⬝ᵥ (X *ᵥ (b - x)) := by
        rw [mulVec_transpose, ← dotProduct_mulVec]
      simp only [dotProduct, mulVec_sub, Pi.sub_apply] at this
      exact this
    rw [hg, h2 x, hF, ← sub_zero (∑ o, _), ← h1, h2 b, ← Finset.sum_sub_distrib]
    exact Finset.sum_congr rfl fun o _ => by ring
  have hcs : F ^ 2 ≤ G * N := by
    rw [← e]
    refine le_trans (Finset.sum_mul_sq_le_sq_mul_sq _ _ _) ?_
    have : ∑ c, (b c - x c) ^ 2 = N := Finset.sum_congr rfl fun c _ => by ring
    rw [this]
    exact mul_le_mul_of_nonneg_right hG (Finset.sum_nonneg fun c _ => sq_nonneg _)
  have hN0 : 0 ≤ N := Finset.sum_nonneg fun c _ => sq_nonneg _
  have hG0 : 0 ≤ G := le_trans (Finset.sum_nonneg fun c _ => sq_nonneg _) hG
  have hF0 : 0 ≤ F := le_trans (mul_nonneg hl.le hN0) hst
  have hFl : lam * F ≤ G := by
    by_cases hFz : F = 0
    · rw [hFz, mul_zero]; exact hG0
    · have hFp : 0 < F := lt_of_le_of_ne hF0 (Ne.symm hFz)
      refine le_of_mul_le_mul_right (a := F) ?_ hFp
      calc lam * F * F = lam * F ^ 2 := by ring
        _ ≤ lam * (G * N) := mul_le_mul_of_nonneg_left hcs hl.le
        _ = G * (lam * N) := by ring
        _ ≤ G * F := mul_le_mul_of_nonneg_left hst hG0
  refine ⟨by rw [le_div_iff₀ hl]; linarith, ?_⟩
  rw [le_div_iff₀ (by positivity)]
  calc N * lam ^ 2 = lam * (lam * N) := by ring
    _ ≤ lam * F := mul_le_mul_of_nonneg_left hst hl.le
    _ ≤ G := hFl

end Matrix

section Layout

variable {d : CData n m nw}

theorem sumsq_ofFn {k : ℕ} (f : Fin k → ℝ) : ((List.ofFn f).map (· ^ 2)).sum = ∑ c, f c ^ 2 := by
  rw [List.map_ofFn, List.sum_ofFn]; rfl

theorem exists_ofFn {k : ℕ} {l : List ℝ} (h : l.length = k) : ∃ f : Fin k → ℝ, l = List.ofFn f := by
  subst h; exact ⟨_, (List.ofFn_get l).symm⟩

theorem sum_flatten_map {α β : Type*} (l : List β) (f : β → List α) (g : α → ℝ) :
    (((l.map f).flatten).map g).sum = (l.map fun c => ((f c).map g).sum).sum := by
  induction l with
  | nil => simp
  | cons a t ih => rw [List.map_cons, List.flatten_cons, List.map_append, List.sum_append, ih]; rfl

theorem sum_covs (f : Cov n → ℝ) : (d.covs.map f).sum
    = f .firm + f .worker + (d.cats.map fun c => f (.cat c)).sum + (d.cts.map fun c => f (.cts c)).sum := by
  simp only [CData.covs, List.map_cons, List.sum_cons, List.map_append, List.sum_append, List.map_map]
  rw [← add_assoc, ← add_assoc]; rfl

theorem sum_drop_indicators {k : ℕ} (v : Fin n → Fin (k + 1)) (g : (Fin n → ℝ) → ℝ) :
    (((indicators v).drop 1).map g).sum = ∑ c with c ≠ 0, g fun o => if v o = c then 1 else 0 := by
  rw [FE.Tol.sum_ne_zero, indicators, List.ofFn_succ, List.drop_succ_cons, List.drop_zero, List.map_ofFn, List.sum_ofFn]
  rfl

/-- The squared moments are the squared entries of `A' D v`. -/
theorem moments_eq (v : Fin n → ℝ) : ((d.multAT v).map (· ^ 2)).sum = moments d v := by
  have hind : ∀ {k : ℕ} (u : Fin n → Fin k) c, ∑ o, d.Dp o * (if u o = c then (1 : ℝ) else 0) * v o
      = ∑ o with u o = c, d.Dp o * v o := by
    intro k u c
    rw [Finset.sum_filter]
    exact Finset.sum_congr rfl fun o _ => by split <;> simp
  rw [CData.multAT, A_eq, List.map_map, sum_flatten_map, sum_covs, moments]
  simp only [Cov.cols, sum_drop_indicators, Function.comp, hind, List.map_cons, List.map_nil, List.sum_cons, List.sum_nil,
    add_zero]
  congr 3
  rw [indicators, List.map_ofFn, List.sum_ofFn]
  exact Finset.sum_congr rfl fun i _ => by simp only [Function.comp, hind]

theorem multA_fit (t : Truth m nw) (o : Fin n) : d.multA (d.gammaTrue t) o = fit d t o := multA_gammaTrue t o

/-- The squared distance of normalised effects is the one of their coefficients. -/
theorem dist_eq (s t : Truth m nw) (hs : Normal d s) (ht : Normal d t) :
    ((List.zipWith (fun a b => a - b) (d.gammaTrue s) (d.gammaTrue t)).map (· ^ 2)).sum = sqDist d s t := by
  have hb : ∀ u : Truth m nw, Normal d u → u.psi 0 + (d.cats.map fun c => u.eff c.name 0).sum = 0 := by
    intro u hu
    rw [hu.1, zero_add]
    have : (d.cats.map fun c => u.eff c.name 0) = d.cats.map fun _ => (0 : ℝ) := List.map_congr_left hu.2
    rw [this]; simp
  have hz : ∀ l : List (Cov n), ((List.zipWith (fun a b => a - b) (l.map (s.co 0)).flatten (l.map (t.co 0)).flatten).map
      (· ^ 2)).sum = (l.map fun c => ((List.zipWith (fun a b => a - b) (s.co 0 c) (t.co 0 c)).map (· ^ 2)).sum).sum := by
    intro l
    induction l with
    | nil => simp
    | cons c l ih =>
      simp only [List.map_cons, List.flatten_cons, List.sum_cons]
      rw [List.zipWith_append (by rw [co_length (d := d), co_length (d := d)]), List.map_append, List.sum_append, ih]
  have hof : ∀ {k : ℕ} (f g : Fin k → ℝ), ((List.zipWith (fun a b => a - b) (List.ofFn f) (List.ofFn g)).map (· ^ 2)).sum
      = ∑ c, (f c - g c) ^ 2 := by
    intro k f g
    have : List.zipWith (fun a b => a - b) (List.ofFn f) (List.ofFn g) = List.ofFn fun c => f c - g c := by
      apply List.ext_getElem <;> simp
    rw [this, sumsq_ofFn]
  rw [CData.gammaTrue, CData.gammaTrue, hb s hs, hb t ht, hz, sum_covs, sqDist]
  simp only [Truth.co, hof, add_zero, hs.1, ht.1, sub_zero, List.zipWith_cons_cons, List.zipWith_nil_left, List.map_cons,
    List.map_nil, List.sum_cons, List.sum_nil]
  congr 1
  congr 1
  · congr 1
    rw [Fin.sum_univ_succ, hs.1, ht.1]; simp
  · congr 1
    refine List.map_congr_left fun c hc => ?_
    rw [Fin.sum_univ_succ]
    have h1 := hs.2 c hc
    have h2 := ht.2 c hc
    simp [h1, h2]

/-- Effects read off a coefficient vector. -/
noncomputable def effects (d : CData n m nw) (gh : List ℝ) : Truth m nw where
  psi k := match dget (d.unpack gh).gamma "psi" with | some (.vec l) => l.getD k 0 | _ => 0
  alpha i := match dget (d.unpack gh).gamma "alpha" with | some (.vec l) => l.getD i 0 | _ => 0
  eff s k := match dget (d.unpack gh).gamma s with | some (.vec l) => l.getD k 0 | _ => 0
  coef s := match dget (d.unpack gh).gamma s with | some (.num x) => x | _ => 0

theorem effects_normal (h : d.names.Nodup) (gh : List ℝ) : Normal d (effects d gh) := by
  constructor
  · obtain ⟨pre, post, hs⟩ := mem_of_split (show Cov.firm ∈ d.covs by simp [CData.covs])
    have := gamma_of_split h gh hs
    simp only [Cov.name, Cov.entry] at this
    simp [effects, this]
  · intro c hc
    obtain ⟨pre, post, hs⟩ := mem_of_split (show Cov.cat c ∈ d.covs by simp [CData.covs, hc])
    have := gamma_of_split h gh hs
    simp only [Cov.name, Cov.entry] at this
    simp [effects, this]

theorem flatten_slices {α : Type*} (gh : List α) (l pre : List (Cov n)) (k : ℕ)
    (hk : k = start m nw pre) (hlen : gh.length = k + start m nw l) :
    ∀ f : Cov n → List α, (∀ p c q, l = p ++ c :: q →
      f c = slice gh (start m nw (pre ++ p)) (start m nw (pre ++ p) + c.size m nw)) → (l.map f).flatten = gh.drop k := by
  induction l generalizing pre k with
  | nil =>
    intro f _
    have : start m nw ([] : List (Cov n)) = 0 := rfl
    rw [this, add_zero] at hlen
    simp [← hlen]
  | cons c l ih =>
    intro f hf
    have h1 := hf [] c l rfl
    rw [List.append_nil, ← hk] at h1
    have hst : start m nw (c :: l) = c.size m nw + start m nw l := by simp [start]
    have := ih (pre ++ [c]) (k + c.size m nw) (by simp [start, hk]) (by rw [hlen, hst, add_assoc]) f
      fun p c' q hq => by
        have := hf (c :: p) c' q (by rw [hq]; rfl)
        rwa [show pre ++ c :: p = pre ++ [c] ++ p by simp] at this
    rw [List.map_cons, List.flatten_cons, this, h1, slice, Nat.add_sub_cancel_left, ← List.drop_drop,
      List.take_append_drop]

theorem ofFn_getD {k : ℕ} {l : List ℝ} (h : l.length = k) : (List.ofFn fun c : Fin k => l.getD c 0) = l := by
  subst h
  apply List.ext_getElem
  · simp
  · intro i h1 h2
    simp [List.getD_eq_getElem?_getD]

theorem gammaTrue_effects (h : d.names.Nodup) (gh : List ℝ) (hl : gh.length = d.nCov) :
    d.gammaTrue (effects d gh) = gh := by
  obtain ⟨hn1, hn2⟩ := effects_normal h gh
  have hb : (effects d gh).psi 0 + (d.cats.map fun c => (effects d gh).eff c.name 0).sum = 0 := by
    rw [hn1, zero_add]
    have : (d.cats.map fun c => (effects d gh).eff c.name 0) = d.cats.map fun _ => (0 : ℝ) := List.map_congr_left hn2
    rw [this]; simp
  rw [CData.gammaTrue, hb]
  have := flatten_slices gh d.covs [] 0 rfl (by rw [hl, zero_add, start, nCov_eq h]) ((effects d gh).co 0) ?_
  · rwa [List.drop_zero] at this
  intro p c q hs
  rw [List.nil_append]
  have hg := gamma_of_split h gh hs
  have hlen := slice_length gh (start m nw p) (c.size m nw) (by rw [hl]; exact bound_of_split h hs)
  have hc : c ∈ d.covs := by rw [hs]; simp
  generalize slice gh (start m nw p) (start m nw p + c.size m nw) = l at hg hlen ⊢
  cases c with
  | firm =>
    rw [Truth.co, hn1]
    simp only [Cov.name, Cov.entry] at hg
    simp only [Cov.size] at hlen
    simp only [effects, hg, Fin.val_succ, List.getD_cons_succ, sub_zero]
    exact ofFn_getD hlen
  | worker =>
    simp only [Cov.name, Cov.entry] at hg
    simp only [Cov.size] at hlen
    simp only [Truth.co, effects, hg, add_zero]
    exact ofFn_getD hlen
  | cat c =>
    have hc' : c ∈ d.cats := by simpa [CData.covs] using hc
    rw [Truth.co, hn2 c hc']
    simp only [Cov.name, Cov.entry] at hg
    simp only [Cov.size] at hlen
    simp only [effects, hg, List.getD_cons_succ, sub_zero]
    exact ofFn_getD hlen
  | cts c =>
    simp only [Cov.name, Cov.entry] at hg
    simp only [Cov.size] at hlen
    obtain ⟨x, rfl⟩ := List.length_eq_one_iff.1 hlen
    simp [Truth.co, effects, hg]

end Layout

/-! ### The solve -/

section Solve

variable {d : CData n m nw}

theorem call_tol (solver : String) (tol : ℝ) : (callAAinv solver tol).tol = some tol := by
  unfold callAAinv; split_ifs <;> rfl

/-- A set of effects as a vector. -/
theorem vec_of (h : d.names.Nodup) (t : Truth m nw) : ∃ g : Fin d.nCov → ℝ, d.gammaTrue t = List.ofFn g ∧
    ∀ o, (d.amat *ᵥ g) o = fit d t o := by
  obtain ⟨g, hg⟩ := exists_ofFn (gammaTrue_length h t)
  exact ⟨g, hg, fun o => by rw [← multA_ofFn h, ← hg, multA_fit]⟩

theorem sqDist_vec {s t : Truth m nw} (hs : Normal d s) (ht : Normal d t) {f g : Fin d.nCov → ℝ}
    (hf : d.gammaTrue s = List.ofFn f) (hg : d.gammaTrue t = List.ofFn g) : sqDist d s t = ∑ c, (f c - g c) ^ 2 := by
  rw [← dist_eq s t hs ht, hf, hg]
  have : List.zipWith (fun a b => a - b) (List.ofFn f) (List.ofFn g) = List.ofFn fun c => f c - g c := by
    apply List.ext_getElem <;> simp
  rw [this, sumsq_ofFn]

theorem moments_vec (h : d.names.Nodup) (v : Fin n → ℝ) :
    moments d v = ∑ c, (d.amatᵀ *ᵥ fun o => d.Dp o * v o) c ^ 2 := by
  rw [← moments_eq, multAT_eq_yes, multATw_eq h, sumsq_ofFn]; rfl

theorem getElem?_of_getD {l : List ℝ} {k : ℕ} (h : k < l.length) : l[k]? = some (l.getD k 0) := by
  simp [List.getD_eq_getElem?_getD, List.getElem?_eq_getElem h]

theorem mapM_some {α β : Type*} (l : List α) (f : α → Option β) (g : α → β) (h : ∀ a ∈ l, f a = some (g a)) :
    l.mapM f = some (l.map g) := by
  induction l with
  | nil => rfl
  | cons a t ih =>
    rw [List.mapM_cons, h a (by simp), ih fun b hb => h b (by simp [hb])]; rfl

theorem attached_effects (h : d.names.Nodup) (gh : List ℝ) (hl : gh.length = d.nCov) : Attached d gh (effects d gh) := by
  intro o
  have h1 : CData.attachVec (d.unpack gh) "psi" (d.j o) = some ((effects d gh).psi (d.j o)) := by
    obtain ⟨pre, post, hs⟩ := mem_of_split (show Cov.firm ∈ d.covs by simp [CData.covs])
    have hg := gamma_of_split h gh hs
    have hlen := slice_length gh (start m nw pre) _ (by rw [hl]; exact bound_of_split h hs)
    simp only [Cov.name, Cov.entry] at hg
    simp only [CData.attachVec, effects, hg]
    refine getElem?_of_getD ?_
    rw [List.length_cons, hlen]; exact (d.j o).2
  have h2 : CData.attachVec (d.unpack gh) "alpha" (d.i o) = some ((effects d gh).alpha (d.i o)) := by
    obtain ⟨pre, post, hs⟩ := mem_of_split (show Cov.worker ∈ d.covs by simp [CData.covs])
    have hg := gamma_of_split h gh hs
    have hlen := slice_length gh (start m nw pre) _ (by rw [hl]; exact bound_of_split h hs)
    simp only [Cov.name, Cov.entry] at hg
    simp only [CData.attachVec, effects, hg]
    refine getElem?_of_getD ?_
    rw [hlen]; exact (d.i o).2
  have h3 : d.cats.mapM (fun c => CData.attachVec (d.unpack gh) c.name (c.val o))
      = some (d.cats.map fun c => (effects d gh).eff c.name (c.val o)) := by
    refine mapM_some _ _ _ fun c hc => ?_
    obtain ⟨pre, post, hs⟩ := mem_of_split (show Cov.cat c ∈ d.covs by simp [CData.covs, hc])
    have hg := gamma_of_split h gh hs
    have hlen := slice_length gh (start m nw pre) _ (by rw [hl]; exact bound_of_split h hs)
    simp only [Cov.name, Cov.entry] at hg
    simp only [CData.attachVec, effects, hg]
    refine getElem?_of_getD ?_
    rw [List.length_cons, hlen]; exact (c.val o).2
  have h4 : d.cts.mapM (fun c => CData.attachNum (d.unpack gh) c.name (c.val o))
      = some (d.cts.map fun c => (effects d gh).coef c.name * c.val o) := by
    refine mapM_some _ _ _ fun c hc => ?_
    obtain ⟨pre, post, hs⟩ := mem_of_split (show Cov.cts c ∈ d.covs by simp [CData.covs, hc])
    have hg := gamma_of_split h gh hs
    simp only [Cov.name, Cov.entry] at hg
    simp only [CData.attachNum, effects, hg]
  simp only [CData.attached, h1, h2, h3, h4, Option.bind_eq_bind, Option.bind_some, Option.pure_def]

/-- The coefficients a stopped solver returns, as effects: the normal equations hold up to the tolerance. -/
theorem stopped (h : d.names.Nodup) (hw : ∀ o, 0 ≤ d.Dp o) {run : Run} (hr : Stops d run) (solver : String) (tol : ℝ) :
    (gammaHat d run solver tol).length = d.nCov ∧
    moments d (fun o => d.y o - fit d (effects d (gammaHat d run solver tol)) o) ≤ tol ^ 2 * moments d d.y := by
  obtain ⟨-, hlen, hst⟩ := hr (callAAinv solver tol) (d.multAT d.y) tol (call_tol solver tol) (normal_solvable h hw d.y)
  refine ⟨hlen, ?_⟩
  rw [moments_eq] at hst
  refine le_trans (le_of_eq ?_) hst
  have hg : gammaHat d run solver tol = (run (callAAinv solver tol) (d.multAT d.y)).1 := rfl
  rw [← hg] at hlen ⊢
  obtain ⟨x, hx⟩ := exists_ofFn hlen
  have hfit : ∀ o, fit d (effects d (gammaHat d run solver tol)) o = (d.amat *ᵥ x) o := fun o => by
    rw [← multA_fit, gammaTrue_effects h _ hlen, hx, multA_ofFn h]
  simp only [hfit]
  rw [hx, CData.AtDpA, multA_ofFn h, multAT_eq_yes, multAT_eq_yes, multATw_eq h, multATw_eq h, moments_vec h]
  have : ∀ a b : Fin d.nCov → ℝ, List.zipWith (fun r s => r - s) (List.ofFn a) (List.ofFn b)
      = List.ofFn fun c => a c - b c := fun a b => by apply List.ext_getElem <;> simp
  rw [this, sumsq_ofFn]
  refine Finset.sum_congr rfl fun c _ => ?_
  have e : (d.amatᵀ *ᵥ fun o => d.Dp o * (d.y o - (d.amat *ᵥ x) o))
      = (d.amatᵀ *ᵥ fun o => d.Dp o * d.y o) - d.amatᵀ *ᵥ fun o => d.Dp o * (d.amat *ᵥ x) o := by
    rw [← mulVec_sub]; congr 1; ext o; simp [mul_sub]
  rw [e, Pi.sub_apply]
  change _ = ((d.amatᵀ *ᵥ fun o => d.Dp o * (d.amat *ᵥ x) o) c - (d.amatᵀ *ᵥ fun o => d.Dp o * d.y o) c) ^ 2
  ring

/-- Best effects solve the normal equations. -/
theorem normal_of_best (h : d.names.Nodup) {t : Truth m nw} (hb : ∀ t', ssr d t ≤ ssr d t') {g : Fin d.nCov → ℝ}
    (hg : ∀ o, (d.amat *ᵥ g) o = fit d t o) : d.amatᵀ *ᵥ (fun o => d.Dp o * (d.y o - (d.amat *ᵥ g) o)) = 0 := by
  set r := d.amatᵀ *ᵥ (fun o => d.Dp o * (d.y o - (d.amat *ᵥ g) o)) with hr
  have hle : ∀ s : ℝ, 0 ≤ s ^ 2 * (∑ o, d.Dp o * ((d.amat *ᵥ r) o) ^ 2) - 2 * s * ∑ c, r c ^ 2 := by
    intro s
    have h1 := hb (effects d (List.ofFn (g + s • r)))
    have hf : ∀ o, fit d (effects d (List.ofFn (g + s • r))) o = (d.amat *ᵥ g) o + s * (d.amat *ᵥ r) o := fun o => by
      rw [← multA_fit, gammaTrue_effects h _ (by simp), multA_ofFn h, mulVec_add, mulVec_smul]; rfl
    simp only [ssr, hf, ← hg] at h1
    have h2 : ∑ c, r c ^ 2 = ∑ o, (d.amat *ᵥ r) o * (d.Dp o * (d.y o - (d.amat *ᵥ g) o)) := by
      have : r ⬝ᵥ r = (d.amat *ᵥ r) ⬝ᵥ (fun o => d.Dp o * (d.y o - (d.amat *ᵥ g) o)) := by
        have e : ∀ z : Fin n → ℝ, (d.amatᵀ *ᵥ z) ⬝ᵥ r = (d.amat *ᵥ r) ⬝ᵥ z := fun z => by
          rw [mulVec_transpose, ← dotProduct_mulVec, dotProduct_comm]
        exact e _
      simp only [dotProduct] at this
      rw [← this]; exact Finset.sum_congr rfl fun c _ => sq _
    have h3 : ∑ o, d.Dp o * (d.y o - ((d.amat *ᵥ g) o + s * (d.amat *ᵥ r) o)) ^ 2
        = ∑ o, d.Dp o * (d.y o - (d.amat *ᵥ g) o) ^ 2 + (s ^ 2 * (∑ o, d.Dp o * ((d.amat *ᵥ r) o) ^ 2)
          - 2 * s * ∑ o, (d.amat *ᵥ r) o * (d.Dp o * (d.y o - (d.amat *ᵥ g) o))) := by
      rw [Finset.mul_sum, Finset.mul_sum, ← Finset.sum_sub_distrib, ← Finset.sum_add_distrib]
      exact Finset.sum_congr rfl fun o _ => by ring
    rw [h3, ← h2] at h1
    linarith
  set P := ∑ o, d.Dp o * ((d.amat *ᵥ r) o) ^ 2 with hP
  set R := ∑ c, r c ^ 2 with hR
  have hR0 : 0 ≤ R := Finset.sum_nonneg fun c _ => sq_nonneg _
  have hRz : R = 0 := by
    by_contra hne
    have hRp : 0 < R := lt_of_le_of_ne hR0 (Ne.symm hne)
    rcases le_or_gt P 0 with hp | hp
    · have := hle 1; nlinarith
    · have := hle (R / P)
      have e : (R / P) ^ 2 * P - 2 * (R / P) * R = -(R ^ 2 / P) := by field_simp; ring
      rw [e] at this
      have : 0 < R ^ 2 / P := by positivity
      linarith
  ext c
  have := (Finset.sum_eq_zero_iff_of_nonneg (fun c _ => sq_nonneg (r c))).1 hRz c (Finset.mem_univ c)
  simpa using this

end Solve

/-! ## C110 -/

section C110

variable {d : CData n m nw}

/-- C110: the attached columns are the effects of the firm, the worker, the categories and the values of the controls of
each row, normalised, and the squared moments of residuals with all covariates are at most `tol²` times those of the
outcomes. -/
theorem C110_moments (h : d.names.Nodup) (hw : ∀ o, 0 ≤ d.Dp o) {run : Run} (hr : Stops d run) (solver : String)
    (tol : ℝ) : ∃ t, Normal d t ∧ Attached d (gammaHat d run solver tol) t ∧
      moments d (fun o => d.y o - fit d t o) ≤ tol ^ 2 * moments d d.y := by
  obtain ⟨hl, hm⟩ := stopped h hw hr solver tol
  exact ⟨_, effects_normal h _, attached_effects h _ hl, hm⟩

/-- The attached columns determine the fitted values. -/
theorem fit_of_attached {gh : List ℝ} {s s' : Truth m nw} (hs : Attached d gh s) (hs' : Attached d gh s') (o : Fin n) :
    fit d s o = fit d s' o := by
  have h := Option.some.inj ((hs o).symm.trans (hs' o))
  have h' := congrArg List.sum h
  simp only [List.sum_cons, List.sum_append] at h'
  simp only [fit]
  linarith

/-- C110, error: with `lam` as stiffness, fitted values and all estimated effects are as close to the best ones as the
tolerance says, and so is the sum of squares. -/
theorem C110_error (h : d.names.Nodup) (hw : ∀ o, 0 ≤ d.Dp o) {run : Run} (hr : Stops d run) (solver : String) (tol : ℝ)
    {lam : ℝ} (hl : 0 < lam) (hlam : Stiff d lam) {t : Truth m nw} (hb : Best d t)
    {s : Truth m nw} (hs : Normal d s) (ha : Attached d (gammaHat d run solver tol) s) :
    sqDist d s t ≤ tol ^ 2 * moments d d.y / lam ^ 2 ∧
    ∑ o, d.Dp o * (fit d s o - fit d t o) ^ 2 ≤ tol ^ 2 * moments d d.y / lam ∧
    ssr d s ≤ ssr d t + tol ^ 2 * moments d d.y / lam := by
  obtain ⟨hlen, hm⟩ := stopped h hw hr solver tol
  have hf : ∀ o, fit d (effects d (gammaHat d run solver tol)) o = fit d s o :=
    fit_of_attached (attached_effects h _ hlen) ha
  simp only [hf] at hm
  obtain ⟨x, hx, hxf⟩ := vec_of h s
  obtain ⟨b, hbx, hbf⟩ := vec_of h t
  have hn := normal_of_best h hb.2 hbf
  have hst := hlam s t hs hb.1
  rw [moments_vec h] at hm
  simp only [ssr, ← hxf, ← hbf] at hm hst ⊢
  rw [sqDist_vec hs hb.1 hx hbx] at hst ⊢
  obtain ⟨h1, h2⟩ := error_of_gap d.amat d.Dp d.y b x hn hl hst hm
  refine ⟨h2, h1, ?_⟩
  rw [ssr_around d.amat d.Dp d.y b x hn]; linarith

/-- C110, error of each estimate: its distance to the best one. -/
theorem C110_each (h : d.names.Nodup) (hw : ∀ o, 0 ≤ d.Dp o) {run : Run} (hr : Stops d run) (solver : String) {tol : ℝ}
    (h0 : 0 ≤ tol) {lam : ℝ} (hl : 0 < lam) (hlam : Stiff d lam) {t : Truth m nw} (hb : Best d t)
    {s : Truth m nw} (hs : Normal d s) (ha : Attached d (gammaHat d run solver tol) s) :
    (∀ k, |s.psi k - t.psi k| ≤ tol * √(moments d d.y) / lam) ∧
    (∀ i, |s.alpha i - t.alpha i| ≤ tol * √(moments d d.y) / lam) ∧
    (∀ c ∈ d.cats, ∀ k : Fin (c.k + 1), |s.eff c.name k - t.eff c.name k| ≤ tol * √(moments d d.y) / lam) ∧
    ∀ c ∈ d.cts, |s.coef c.name - t.coef c.name| ≤ tol * √(moments d d.y) / lam := by
  have hm0 : 0 ≤ moments d d.y := by
    rw [moments_vec h]; exact Finset.sum_nonneg fun c _ => sq_nonneg _
  have hd := (C110_error h hw hr solver tol hl hlam hb hs ha).1
  have hB : tol ^ 2 * moments d d.y / lam ^ 2 = (tol * √(moments d d.y) / lam) ^ 2 := by
    rw [div_pow, mul_pow, Real.sq_sqrt hm0]
  have hB0 : 0 ≤ tol * √(moments d d.y) / lam := by positivity
  rw [hB, sqDist] at hd
  have p1 : 0 ≤ ∑ k, (s.psi k - t.psi k) ^ 2 := Finset.sum_nonneg fun _ _ => sq_nonneg _
  have p2 : 0 ≤ ∑ i, (s.alpha i - t.alpha i) ^ 2 := Finset.sum_nonneg fun _ _ => sq_nonneg _
  have p3 : 0 ≤ (d.cats.map fun c => ∑ k : Fin (c.k + 1), (s.eff c.name k - t.eff c.name k) ^ 2).sum := by
    refine List.sum_nonneg fun x hx => ?_
    obtain ⟨c, -, rfl⟩ := List.mem_map.1 hx
    exact Finset.sum_nonneg fun _ _ => sq_nonneg _
  have p4 : 0 ≤ (d.cts.map fun c => (s.coef c.name - t.coef c.name) ^ 2).sum := by
    refine List.sum_nonneg fun x hx => ?_
    obtain ⟨c, -, rfl⟩ := List.mem_map.1 hx
    exact sq_nonneg _
  refine ⟨fun k => ?_, fun i => ?_, fun c hc k => ?_, fun c hc => ?_⟩ <;> refine abs_le_of_sq_le_sq ?_ hB0
  · have := Finset.single_le_sum (f := fun k => (s.psi k - t.psi k) ^ 2) (fun k _ => sq_nonneg _) (Finset.mem_univ k)
    linarith
  · have := Finset.single_le_sum (f := fun k => (s.alpha k - t.alpha k) ^ 2) (fun k _ => sq_nonneg _) (Finset.mem_univ i)
    linarith
  · have h1 := Finset.single_le_sum (f := fun k : Fin (c.k + 1) => (s.eff c.name k - t.eff c.name k) ^ 2)
      (fun k _ => sq_nonneg _) (Finset.mem_univ k)
    have h2 := List.single_le_sum (l := d.cats.map fun c => ∑ k : Fin (c.k + 1), (s.eff c.name k - t.eff c.name k) ^ 2)
      (fun x hx => by
        obtain ⟨c, -, rfl⟩ := List.mem_map.1 hx
        exact Finset.sum_nonneg fun _ _ => sq_nonneg _) _ (List.mem_map_of_mem hc)
    linarith
  · have h2 := List.single_le_sum (l := d.cts.map fun c => (s.coef c.name - t.coef c.name) ^ 2)
      (fun x hx => by
        obtain ⟨c, -, rfl⟩ := List.mem_map.1 hx
        exact sq_nonneg _) _ (List.mem_map_of_mem hc)
    linarith

/-- C110: if all effects are identified, a stiffness exists. -/
theorem C110_stiff_exists (hd : d.Ok) : ∃ lam, 0 < lam ∧ Stiff d lam := by
  set L := lgen d.amat d.Dp with hL
  set C := ∑ c, ∑ o, L c o ^ 2 / d.Dp o with hC
  have hC0 : 0 ≤ C := Finset.sum_nonneg fun c _ => Finset.sum_nonneg fun o _ =>
    div_nonneg (sq_nonneg _) (hd.pos o).le
  refine ⟨1 / (1 + C), by positivity, fun s t hs ht => ?_⟩
  obtain ⟨x, hx, hxf⟩ := vec_of hd.names s
  obtain ⟨b, hbx, hbf⟩ := vec_of hd.names t
  rw [sqDist_vec hs ht hx hbx]
  simp only [← hxf, ← hbf]
  set F := ∑ o, d.Dp o * ((d.amat *ᵥ x) o - (d.amat *ᵥ b) o) ^ 2 with hF
  have hF0 : 0 ≤ F := Finset.sum_nonneg fun o _ => mul_nonneg (hd.pos o).le (sq_nonneg _)
  have hc : ∀ c, (x c - b c) ^ 2 ≤ (∑ o, L c o ^ 2 / d.Dp o) * F := by
    intro c
    have e : L *ᵥ (d.amat *ᵥ (x - b)) = x - b := by
      rw [mulVec_mulVec, hL, lgen_mul_X hd.unit, one_mulVec]
    have e1 : x c - b c = ∑ o, (L c o / √(d.Dp o)) * (√(d.Dp o) * ((d.amat *ᵥ x) o - (d.amat *ᵥ b) o)) := by
      have := congrFun e c
      rw [mulVec_sub] at this
      simp only [mulVec, dotProduct, Pi.sub_apply] at this
      rw [← this]
      refine Finset.sum_congr rfl fun o _ => ?_
      have : √(d.Dp o) ≠ 0 := (Real.sqrt_pos.2 (hd.pos o)).ne'
      simp only [mulVec, dotProduct]
      field_simp
    rw [e1]
    refine le_trans (Finset.sum_mul_sq_le_sq_mul_sq _ _ _) (le_of_eq ?_)
    congr 1
    · exact Finset.sum_congr rfl fun o _ => by rw [div_pow, Real.sq_sqrt (hd.pos o).le]
    · exact Finset.sum_congr rfl fun o _ => by rw [mul_pow, Real.sq_sqrt (hd.pos o).le]
  have hsum : ∑ c, (x c - b c) ^ 2 ≤ C * F := by
    rw [hC, Finset.sum_mul]; exact Finset.sum_le_sum fun c _ => hc c
  rw [one_div, inv_mul_le_iff₀ (by positivity)]
  nlinarith

/-- C110: best effects exist. -/
theorem C110_best_exists (h : d.names.Nodup) (hw : ∀ o, 0 ≤ d.Dp o) : ∃ t, Best d t := by
  obtain ⟨x, hl, hx⟩ := normal_solvable h hw d.y
  obtain ⟨b, rfl⟩ := exists_ofFn hl
  have hf : ∀ o, fit d (effects d (List.ofFn b)) o = (d.amat *ᵥ b) o := fun o => by
    rw [← multA_fit, gammaTrue_effects h _ hl, multA_ofFn h]
  refine ⟨_, effects_normal h (List.ofFn b), fun t' => ?_⟩
  obtain ⟨g, -, hg⟩ := vec_of h t'
  simp only [ssr, hf, ← hg]
  have hn : d.amatᵀ *ᵥ (fun o => d.Dp o * (d.y o - (d.amat *ᵥ b) o)) = 0 := by
    rw [CData.AtDpA, multA_ofFn h, multAT_eq_yes, multAT_eq_yes, multATw_eq h, multATw_eq h] at hx
    have := List.ofFn_injective hx
    have e : (fun o => d.Dp o * (d.y o - (d.amat *ᵥ b) o))
        = (fun o => d.wt .yes o * d.y o) - fun o => d.wt .yes o * (d.amat *ᵥ b) o := by
      ext o; simp [CData.wt, mul_sub]
    rw [e, mulVec_sub, this, sub_self]
  rw [ssr_around d.amat d.Dp d.y b g hn]
  have := Finset.sum_nonneg (s := Finset.univ) (f := fun o => d.Dp o * ((d.amat *ᵥ g) o - (d.amat *ᵥ b) o) ^ 2)
    fun o _ => mul_nonneg (hw o) (sq_nonneg _)
  linarith

/-- C110, limit: if all effects are identified, every estimate comes as close as wanted to the best one if only the
tolerance is small enough, whichever solver is chosen and however it stops. -/
theorem C110_limit (hd : d.Ok) {t : Truth m nw} (hb : Best d t) {ε : ℝ} (hε : 0 < ε) :
    ∃ τ, 0 < τ ∧ ∀ (run : Run) (solver : String) (tol : ℝ), Stops d run → 0 ≤ tol → tol ≤ τ →
      ∀ s, Normal d s → Attached d (gammaHat d run solver tol) s →
        (∀ k, |s.psi k - t.psi k| < ε) ∧ (∀ i, |s.alpha i - t.alpha i| < ε) ∧
        (∀ c ∈ d.cats, ∀ k : Fin (c.k + 1), |s.eff c.name k - t.eff c.name k| < ε) ∧
        ∀ c ∈ d.cts, |s.coef c.name - t.coef c.name| < ε := by
  obtain ⟨lam, hl, hlam⟩ := C110_stiff_exists hd
  have hq : 0 < √(moments d d.y) + 1 := by positivity
  refine ⟨ε * lam / (√(moments d d.y) + 1), by positivity, fun run solver tol hr h0 ht s hs ha => ?_⟩
  have hlt : tol * √(moments d d.y) / lam < ε := by
    rw [div_lt_iff₀ hl]
    rw [le_div_iff₀ hq] at ht
    rcases h0.eq_or_lt with h | h
    · rw [← h, zero_mul]; positivity
    · nlinarith
  obtain ⟨h1, h2, h3, h4⟩ := C110_each hd.names (fun o => (hd.pos o).le) hr solver h0 hl hlam hb hs ha
  exact ⟨fun k => (h1 k).trans_lt hlt, fun i => (h2 i).trans_lt hlt, fun c hc k => (h3 c hc k).trans_lt hlt,
    fun c hc => (h4 c hc).trans_lt hlt⟩

/-- C110, sharp: for every panel there is a solver that keeps its contract and leaves exactly the share `tol` of each
moment of the outcomes in the residuals; in particular, unlike without controls (C109), the residuals of a worker need
not sum to zero. -/
theorem C110_sharp (h : d.names.Nodup) (hw : ∀ o, 0 ≤ d.Dp o) : ∃ run, Stops d run ∧ ∀ solver tol, ∃ s, Normal d s ∧
    Attached d (gammaHat d run solver tol) s ∧
    (∀ i, ∑ o with d.i o = i, d.Dp o * (d.y o - fit d s o) = tol * ∑ o with d.i o = i, d.Dp o * d.y o) ∧
    moments d (fun o => d.y o - fit d s o) = tol ^ 2 * moments d d.y := by
  classical
  have hsol : ∀ b : List ℝ, ∃ x : Fin d.nCov → ℝ, (∃ x, x.length = d.nCov ∧ d.AtDpA x = b) → d.AtDpA (List.ofFn x) = b := by
    intro b
    by_cases hb : ∃ x, x.length = d.nCov ∧ d.AtDpA x = b
    · obtain ⟨x, hl, hx⟩ := hb
      obtain ⟨f, rfl⟩ := exists_ofFn hl
      exact ⟨f, fun _ => hx⟩
    · exact ⟨0, fun hb' => absurd hb' hb⟩
  choose sol hsol using hsol
  set run : Run := fun c b => (List.ofFn fun k => (1 - c.tol.getD 0) * sol b k, 0) with hrun
  have hstop : Stops d run := by
    intro c b t ht hb
    refine ⟨rfl, by simp [hrun], ?_⟩
    have h1 := hsol b hb
    rw [AtDpA_ofFn h] at h1
    have e : (fun k => (1 - t) * sol b k) = (1 - t) • sol b := rfl
    simp only [hrun, ht, Option.getD_some]
    rw [AtDpA_ofFn h, e, mulVec_smul]
    generalize nmat d.amat d.Dp *ᵥ sol b = v at h1 ⊢
    subst h1
    have : List.zipWith (fun r s => r - s) (List.ofFn ((1 - t) • v)) (List.ofFn v) = List.ofFn fun c => -t * v c := by
      apply List.ext_getElem <;> simp; intros; ring
    rw [this, sumsq_ofFn, sumsq_ofFn, Finset.mul_sum]
    exact le_of_eq (Finset.sum_congr rfl fun c _ => by ring)
  refine ⟨run, hstop, fun solver tol => ?_⟩
  have hg : gammaHat d run solver tol = List.ofFn ((1 - tol) • sol (d.multAT d.y)) := by
    simp only [gammaHat, CData.gammaHat, hrun, call_tol, Option.getD_some]; rfl
  have hlen : (gammaHat d run solver tol).length = d.nCov := by rw [hg]; simp
  have hfit : ∀ o, fit d (effects d (gammaHat d run solver tol)) o
      = (1 - tol) * (d.amat *ᵥ sol (d.multAT d.y)) o := fun o => by
    rw [← multA_fit, gammaTrue_effects h _ hlen, hg, multA_ofFn h, mulVec_smul]; rfl
  have hN : d.multAT (fun o => d.y o - fit d (effects d (gammaHat d run solver tol)) o)
      = (d.multAT d.y).map (tol * ·) := by
    have h1 := hsol (d.multAT d.y) (normal_solvable h hw d.y)
    rw [CData.AtDpA, multA_ofFn h] at h1
    simp only [CData.multAT] at h1 ⊢
    rw [List.map_map]
    refine List.map_congr_left fun col hcol => ?_
    have h2 := List.map_inj_left.1 h1 col hcol
    simp only [hfit, Function.comp]
    have : ∀ f : Fin n → ℝ, ∑ o, d.Dp o * col o * (d.y o - (1 - tol) * f o)
        = ∑ o, d.Dp o * col o * d.y o - (1 - tol) * ∑ o, d.Dp o * col o * f o := by
      intro f
      rw [Finset.mul_sum, ← Finset.sum_sub_distrib]
      exact Finset.sum_congr rfl fun o _ => by ring
    have h3 : ∑ o, d.Dp o * col o * (d.amat *ᵥ sol (d.multAT d.y)) o = ∑ o, d.Dp o * col o * d.y o := h2
    rw [this, h3]; ring
  refine ⟨_, effects_normal h _, attached_effects h _ hlen, fun i => ?_, ?_⟩
  · have hmem : (fun o => if d.i o = i then (1 : ℝ) else 0) ∈ d.A := by
      rw [A_eq, List.mem_flatten]
      refine ⟨Cov.cols d .worker, List.mem_map_of_mem (by simp [CData.covs]), ?_⟩
      simp only [Cov.cols, indicators, List.mem_ofFn]
      exact ⟨i, rfl⟩
    simp only [CData.multAT] at hN
    rw [List.map_map] at hN
    have := List.map_inj_left.1 hN _ hmem
    simp only [Function.comp] at this
    have e : ∀ v : Fin n → ℝ, ∑ o, d.Dp o * (if d.i o = i then (1 : ℝ) else 0) * v o
        = ∑ o with d.i o = i, d.Dp o * v o := by
      intro v
      rw [Finset.sum_filter]
      exact Finset.sum_congr rfl fun o _ => by split <;> simp
    rw [e, e] at this
    exact this
  · rw [← moments_eq, hN, List.map_map, ← moments_eq, ← List.sum_map_mul_left]
    congr 1
    refine List.map_congr_left fun x _ => ?_
    simp only [Function.comp]; ring

/-- C110: a solver that fails, and says so, is not noticed: for every panel all fitted values can then be zero, without error. -/
theorem C110_failure_unnoticed (h : d.names.Nodup) : ∃ run : Run, (∀ c b, (run c b).2 ≠ 0) ∧ ∀ solver tol, ∃ s,
    Attached d (gammaHat d run solver tol) s ∧ ∀ o, fit d s o = 0 := by
  refine ⟨fun _ _ => (List.ofFn fun _ : Fin d.nCov => 0, 1), by simp, fun solver tol => ?_⟩
  have hlen : (gammaHat d (fun _ _ => (List.ofFn fun _ : Fin d.nCov => 0, 1)) solver tol).length = d.nCov := by
    simp [gammaHat, CData.gammaHat]
  refine ⟨_, attached_effects h _ hlen, fun o => ?_⟩
  rw [← multA_fit, gammaTrue_effects h _ hlen]
  simp only [gammaHat, CData.gammaHat]
  rw [multA_ofFn h]
  simp [mulVec, dotProduct]

/-- C110: the chosen solver is called with the chosen tolerance; the preconditioner goes to every SciPy solver but
`qmr`. -/
theorem C110_calls (solver : String) (tol : ℝ) :
    (callAAinv solver tol).solver = solver ∧ (callAAinv solver tol).tol = some tol ∧
    ((callAAinv solver tol).precond = true ↔ solver ≠ "amg" ∧ solver ≠ "qmr") ∧
    ((callAAinv solver tol).atol0 = true ↔ solver ≠ "amg" ∧ solver ≠ "minres") := by
  unfold callAAinv
  by_cases h1 : solver = "amg"
  · subst h1; simp
  by_cases h2 : solver = "minres"
  · subst h2; simp
  by_cases h3 : solver = "qmr"
  · subst h3; simp
  simp [h1, h2, h3]

/-- A panel with two firms, two workers, a categorical and a continuous control meets all hypotheses; with tolerance 1/2
the residuals of its first worker can sum to 6. -/
example : exT.Ok ∧ (∃ lam, 0 < lam ∧ Stiff exT lam) ∧ (∃ t, Best exT t) ∧ ∃ run, Stops exT run ∧
    ∃ s, Normal exT s ∧ Attached exT (gammaHat exT run "bicg" (1 / 2)) s ∧
      ∑ o with exT.i o = 0, exT.Dp o * (exT.y o - fit exT s o) = 6 := by
  refine ⟨exT_ok, C110_stiff_exists exT_ok, C110_best_exists exT_ok.names fun o => (exT_ok.pos o).le, ?_⟩
  obtain ⟨run, hr, hs⟩ := C110_sharp exT_ok.names fun o => (exT_ok.pos o).le
  obtain ⟨s, h1, h2, h3, -⟩ := hs "bicg" (1 / 2)
  refine ⟨run, hr, s, h1, h2, ?_⟩
  rw [h3 0, Finset.sum_filter]
  simp only [Fin.sum_univ_eight]
  simp [CData.Dp, exT]
  norm_num

end C110

end Pytwoway.FEControl.Tol
