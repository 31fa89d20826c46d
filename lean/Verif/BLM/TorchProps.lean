import Verif.BLM.Torch
import Verif.BLM.EM

/-! # With and without PyTorch: properties (C112)

`torch = true` is an installation in which `import torch` succeeds, `torch = false` one in which it does not. -/

namespace Pytwoway.BLM.Torch

open Finset Nd

variable {ni nl nk n r c : ℕ}

/-! ## Specification -/

namespace Spec

/-- Log density at `x` of the normal distribution with mean `m` and variance `v`. -/
noncomputable def logNormal (x m v : ℝ) : ℝ := Real.log (1 / Real.sqrt (2 * Real.pi * v) * Real.exp (-(x - m) ^ 2 / (2 * v)))

/-- The first dimension has length one, or there is none. -/
def Single : Nd → Prop
  | .scal _ => True
  | .vec n _ => n = 1
  | .mat r _ _ => r = 1

end Spec

open Torch.Spec

/-! ## The helpers -/

/-- The exponential, logarithm and square do not depend on PyTorch when the first dimension has another length than one. -/
theorem C112_helpers (a : Nd) (h : ¬ Single a) :
    exp_ true a = exp_ false a ∧ log_ true a = log_ false a ∧ square_ true a = square_ false a := by
  have key : ∀ g, helper true g a = helper false g a := fun g => by
    cases a with
    | scal x => exact absurd trivial h
    | vec n f => exact congrArg Except.ok (if_neg h)
    | mat r c f => exact congrArg Except.ok (if_neg h)
  exact ⟨key _, key _, key _⟩

/-- Non-vacuity: two entries, two rows. -/
example : ¬ Single (.vec 2 fun _ => 0) ∧ ¬ Single (.mat 2 1 fun _ _ => 0) := by simp [Single]

/-- When it has length one, PyTorch's version drops the dimension and NumPy's keeps it: a number instead of an array with
one entry, an array with one dimension instead of a matrix with one row.  Numbers are treated alike. -/
theorem C112_helpers_single (x : ℝ) (f : ℕ → ℝ) (F : ℕ → ℕ → ℝ) (c : ℕ) :
    (exp_ true (.scal x) = .ok (.scal (Real.exp x)) ∧ exp_ false (.scal x) = .ok (.scal (Real.exp x))) ∧
    (exp_ true (.vec 1 f) = .ok (.scal (Real.exp (f 0))) ∧ exp_ false (.vec 1 f) = .ok (.vec 1 fun i => Real.exp (f i))) ∧
    (exp_ true (.mat 1 c F) = .ok (.vec c fun j => Real.exp (F 0 j)) ∧
      exp_ false (.mat 1 c F) = .ok (.mat 1 c fun i j => Real.exp (F i j))) ∧
    (log_ true (.vec 1 f) = .ok (.scal (Real.log (f 0))) ∧ log_ false (.vec 1 f) = .ok (.vec 1 fun i => Real.log (f i))) ∧
    (square_ true (.vec 1 f) = .ok (.scal (f 0 ^ 2)) ∧ square_ false (.vec 1 f) = .ok (.vec 1 fun i => f i ^ 2)) :=
  ⟨⟨rfl, rfl⟩, ⟨rfl, rfl⟩, ⟨rfl, rfl⟩, ⟨rfl, rfl⟩, ⟨rfl, rfl⟩⟩

/-- Along rows, both versions return the logarithm of the sum of exponentials of each row, PyTorch's a number if there is
only one row. -/
theorem C112_logsumexp (torch : Bool) (hc : 0 < c) (f : ℕ → ℕ → ℝ) :
    (torch = false ∨ r ≠ 1 → ∃ g, logsumexp torch (.mat r c f) (some ()) = .ok (.vec r g) ∧
      ∀ i < r, g i = Real.log (∑ l ∈ range c, Real.exp (f i l))) ∧
    (torch = true → r = 1 →
      logsumexp torch (.mat r c f) (some ()) = .ok (.scal (Real.log (∑ l ∈ range c, Real.exp (f 0 l))))) := by
  have : NeZero c := ⟨hc.ne'⟩
  have hl : ∀ i, lse torch c (f i) = Real.log (∑ l ∈ range c, Real.exp (f i l)) := fun i =>
    (lse_eq torch _ (fun l : Fin c => f i l) fun _ => rfl).trans ((lse_eq true _ _ fun _ => rfl).symm.trans rfl)
  refine ⟨fun h => ⟨fun i => lse torch c (f i), ?_, fun i _ => hl i⟩, ?_⟩
  · cases torch
    · rfl
    · have : r ≠ 1 := by simpa using h
      simp [logsumexp, toNumpy, unwrap, this]
  · rintro rfl rfl
    rfl

/-- Over all entries (the default), PyTorch's version raises whatever the input, NumPy's returns the logarithm of the sum of
all exponentials. -/
theorem C112_logsumexp_all (hr : 0 < r) (hc : 0 < c) (f : ℕ → ℕ → ℝ) :
    (∀ a, logsumexp true a none = .error "TypeError") ∧
    logsumexp false (.mat r c f) none = .ok (.scal (Real.log (∑ i ∈ range r, ∑ l ∈ range c, Real.exp (f i l)))) := by
  refine ⟨fun a => rfl, ?_⟩
  have : NeZero (r * c) := ⟨(Nat.mul_pos hr hc).ne'⟩
  have h1 : logsumexp false (.mat r c f) none = .ok (.scal (lse false (r * c) fun p => f (p / c) (p % c))) := rfl
  rw [h1, lse_eq false _ (fun p : Fin (r * c) => f (p / c) (p % c)) fun _ => rfl,
    ← lse_eq true (fun p => f (p / c) (p % c)) _ fun _ => rfl, lse, if_pos rfl, Finset.sum_range,
    ← Equiv.sum_comp finProdFinEquiv, Fintype.sum_prod_type, Finset.sum_range]
  simp only [Finset.sum_range]
  congr 3
  refine Finset.sum_congr rfl fun i _ => Finset.sum_congr rfl fun l _ => ?_
  have := idx_div i l
  simp only [finProdFinEquiv_apply_val, this.1, this.2]

/-! ## The densities -/

theorem logNormal_eq (x m : ℝ) {v : ℝ} (hv : 0 < v) :
    logNormal x m v = Util.logpi - (1 / 2) * Real.log v - (x - m) ^ 2 / (2 * v) := by
  have hp : 0 < 2 * Real.pi * v := by positivity
  rw [logNormal, Real.log_mul (by positivity) (Real.exp_pos _).ne', Real.log_exp, one_div, Real.log_inv, Real.log_sqrt hp.le,
    Real.log_mul (by positivity) hv.ne', Util.logpi]
  ring

/-- The two densities used by the estimators return, with and without PyTorch and for any number of observations, one too,
an array of the log densities. -/
theorem C112_density (torch : Bool) {x mu var : Fin n → ℝ} (hv : ∀ i, 0 < var i) {m : ℕ} (mu' sd : Fin m → ℝ) (G : Fin n → Fin m)
    (hs : ∀ k, 0 < sd k) :
    (∃ f, lognormpdf torch (arr x) (arr mu) none (some (arr var)) = .ok (.vec n f) ∧
      ∀ i : Fin n, f i = logNormal (x i) (mu i) (var i)) ∧
    ∃ f, fastLognormpdf torch (arr x) (arr mu') (arr sd) n (ent fun i => (G i).val) = .ok (.vec n f) ∧
      ∀ i : Fin n, f i = logNormal (x i) (mu' (G i)) (sd (G i) ^ 2) := by
  obtain ⟨_, e, f, rfl, h⟩ := density_vec torch (.inl (arr_vec x)) (.inl (arr_vec mu)) (arr_vec var)
  obtain ⟨_, e', f', rfl, h'⟩ := fast_vec torch (.inl (arr_vec x)) mu' sd G
  refine ⟨⟨f, e, fun i => by rw [h, logNormal_eq _ _ (hv i)]⟩, f', e', fun i => ?_⟩
  rw [h', logNormal_eq _ _ (by have := hs (G i); positivity), Real.log_pow]
  push_cast; ring

/-- The general density with standard deviations: the same values, but with PyTorch a number if there is one observation. -/
theorem C112_density_sd (torch : Bool) {x mu sd : Fin n → ℝ} (hs : ∀ i, 0 < sd i) :
    ∃ a, lognormpdf torch (arr x) (arr mu) (some (arr sd)) none = .ok a ∧
      ((∃ f, a = .vec n f ∧ ∀ i : Fin n, f i = logNormal (x i) (mu i) (sd i ^ 2)) ∨
        (n = 1 ∧ ∃ y, a = .scal y ∧ ∀ i, y = logNormal (x i) (mu i) (sd i ^ 2))) := by
  obtain ⟨a, e, h⟩ := density_sd_vec torch (.inl (arr_vec x)) (.inl (arr_vec mu)) (arr_vec sd)
  have key : ∀ i, Util.logpi - Real.log (sd i) - (x i - mu i) ^ 2 / (2 * sd i ^ 2) = logNormal (x i) (mu i) (sd i ^ 2) :=
    fun i => by
      rw [logNormal_eq _ _ (by have := hs i; positivity), Real.log_pow]
      push_cast; ring
  simp only [key] at h
  refine ⟨a, e, h⟩

/-- A standard deviation or variance given as an array with one entry, for several observations: accepted with PyTorch, and
then used for all of them, refused without. -/
theorem C112_density_single (hn : 2 ≤ n) (x mu : Fin n → ℝ) (s : ℝ) (hs : 0 < s) :
    (∃ f, lognormpdf true (arr x) (arr mu) (some (arr fun _ : Fin 1 => s)) none = .ok (.vec n f) ∧
      ∀ i : Fin n, f i = logNormal (x i) (mu i) (s ^ 2)) ∧
    (∃ f, lognormpdf true (arr x) (arr mu) none (some (arr fun _ : Fin 1 => s)) = .ok (.vec n f) ∧
      ∀ i : Fin n, f i = logNormal (x i) (mu i) s) ∧
    lognormpdf false (arr x) (arr mu) (some (arr fun _ : Fin 1 => s)) none = .error "ValueError" ∧
    lognormpdf false (arr x) (arr mu) none (some (arr fun _ : Fin 1 => s)) = .error "ValueError" := by
  have h1 : n ≠ 1 := by omega
  have h1' : ¬ 1 = n := by omega
  have e0 : (ent (fun _ : Fin 1 => s) 0 : ℝ) = s := by simp [ent]
  have dn : dim n 1 = some n := by simp [dim, h1]
  refine ⟨?_, ?_, ?_, ?_⟩
  · refine ⟨fun i => Util.logpi - Real.log s - (ent x i - ent mu i) ^ 2 / (2 * s ^ 2), ?_, fun i => ?_⟩
    · simp only [lognormpdf, log_, square_, helper, toNumpy, arr, Nd.map, unwrap, bin, dim_self, ix, h1, isub, bind,
        Except.bind, if_true, if_false, e0]
    · rw [logNormal_eq _ _ (by positivity), Real.log_pow]
      simp only [ent_val]
      push_cast; ring
  · refine ⟨fun i => Util.logpi - (1 / 2) * Real.log s - (ent x i - ent mu i) ^ 2 / (2 * s), ?_, fun i => ?_⟩
    · simp only [lognormpdf, log_, square_, helper, toNumpy, arr, Nd.map, unwrap, bin, dim_self, dn, ix, h1, isub, bind,
        Except.bind, if_true, if_false, e0]
    · rw [logNormal_eq _ _ hs]
      simp only [ent_val]
  · simp only [lognormpdf, log_, square_, helper, arr, Nd.map, bin, dim, ix, h1, h1', isub, bind,
      Except.bind, if_true, if_false, shape, Bool.false_eq_true, List.cons.injEq, and_true]
  · simp only [lognormpdf, log_, square_, helper, arr, Nd.map, bin, dim, ix, h1, h1', isub, bind,
      Except.bind, if_true, if_false, shape, Bool.false_eq_true, List.cons.injEq, and_true]

/-- Exactly one of standard deviation and variance must be given. -/
theorem C112_density_args (torch : Bool) (x mu : Nd) (sd var : Option Nd) (h : sd.isSome = var.isSome) :
    lognormpdf torch x mu sd var = .error "ValueError" := by
  cases sd <;> cases var <;> simp_all [lognormpdf]

/-! ## Estimation -/

/-- One iteration of the movers' loop from `prev = none`, for a posterior held in any shape. -/
theorem loopM_same (torch : Bool) [NeZero nl] (d : Data ni nk) (o : MoverOpts) (sA sS : Solver)
    (minType : (Fin 2 → Fin nl → Fin nk → ℝ) → ℕ)
    (h : torch = false ∨ nl ≠ 1 ∨ (o.updA = false ∧ o.updS = false)) (fuel : ℕ) : ∀ first prev pm (s : MoverState nl nk),
    loopM torch d o sA sS minType fuel first prev pm s = moversLoop d o sA sS minType fuel first prev pm s := by
  induction fuel with
  | zero => intros; rfl
  | succ fuel ih =>
    intro first prev pm s
    obtain ⟨a, e1, ha⟩ := lpM_mat torch d s.base [] s.pk1
    obtain ⟨z, q, e2, hz, hq1, hq2⟩ := eStep_ok torch ha
    have hq : Holds q (posterior (lpMovers d s.base [] s.pk1)) := by
      by_cases ht : torch = true ∧ nl = 1
      · obtain ⟨f, hf, hf'⟩ := hq2 ht
        obtain ⟨-, rfl⟩ := ht
        exact .inr ⟨rfl, f, hf, fun i l => by rw [hf' i, Subsingleton.elim l 0]⟩
      · exact .inl (hq1 (by cases torch <;> simp_all))
    have hm : mstepT d q s.base o.updA o.updS sA sS = mstep d (posterior (lpMovers d s.base [] s.pk1)) s.base o.updA o.updS sA sS := by
      by_cases ht : torch = true ∧ nl = 1
      · have h3 : o.updA = false ∧ o.updS = false := by rcases h with h | h | h <;> simp_all
        simp [mstepT, mstep, h3.1, h3.2]; rfl
      · exact mstepT_eq d (hq1 (by cases torch <;> simp_all)) _ _ _ _ _
    unfold loopM moversLoop
    simp only [bind, Except.bind, e1, e2, pkM_eq o.updPk d hq, hm, mean_loose hz, ih, likMovers, meanLse]
    rfl

/-- Estimating on movers (without controls) gives the same parameters, likelihoods and errors with and without PyTorch,
from any starting values and for any solvers, when there are at least two worker types. -/
theorem C112_movers_partial [NeZero nl] (hnl : nl ≠ 1) (d : Data ni nk) (o : MoverOpts) (sA sS : Solver)
    (minType : (Fin 2 → Fin nl → Fin nk → ℝ) → ℕ) (fuel : ℕ) (first : Bool) (prev : Option ℝ) (pm : ℕ) (s : MoverState nl nk) :
    loopM true d o sA sS minType fuel first prev pm s = loopM false d o sA sS minType fuel first prev pm s ∧
    loopM true d o sA sS minType fuel first prev pm s = moversLoop d o sA sS minType fuel first prev pm s := by
  have h1 := loopM_same true d o sA sS minType (.inr (.inl hnl)) fuel first prev pm s
  have h2 := loopM_same false d o sA sS minType (.inl rfl) fuel first prev pm s
  exact ⟨h1.trans h2.symm, h1⟩

/-- With one worker type it does so only if neither means nor standard deviations are updated. -/
theorem C112_one_type_pk (d : Data ni nk) (o : MoverOpts) (hA : o.updA = false) (hS : o.updS = false) (sA sS : Solver)
    (minType : (Fin 2 → Fin 1 → Fin nk → ℝ) → ℕ) (fuel : ℕ) (first : Bool) (prev : Option ℝ) (pm : ℕ) (s : MoverState 1 nk) :
    loopM true d o sA sS minType fuel first prev pm s = loopM false d o sA sS minType fuel first prev pm s :=
  (loopM_same true d o sA sS minType (.inr (.inr ⟨hA, hS⟩)) fuel first prev pm s).trans
    (loopM_same false d o sA sS minType (.inl rfl) fuel first prev pm s).symm

/-- Otherwise, with one worker type and PyTorch installed, every run with at least one iteration fails, on all data and from
all starting values: with an `IndexError` unless the update of the proportions fails first. -/
theorem C112_one_type_fails (d : Data ni nk) (o : MoverOpts) (hu : o.updA = true ∨ o.updS = true) (sA sS : Solver)
    (minType : (Fin 2 → Fin 1 → Fin nk → ℝ) → ℕ) (fuel : ℕ) (first : Bool) (pm : ℕ) (s : MoverState 1 nk) :
    ∃ e, loopM true d o sA sS minType (fuel + 1) first none pm s = .error e ∧
      ((o.updPk = false ∨ (AllPairs d ∧ 0 < nk ∧ 1 ≤ o.dprior ∧ ∀ t i, 0 < d.W t i)) → e = "IndexError") := by
  obtain ⟨a, e1, ha⟩ := lpM_mat true d s.base [] s.pk1
  obtain ⟨z, q, e2, hz, -, hq2⟩ := eStep_ok true ha
  obtain ⟨f, rfl, hf⟩ := hq2 ⟨rfl, rfl⟩
  have hm : mstepT d (.vec ni f) s.base o.updA o.updS sA sS = .error "IndexError" := by
    have : (o.updA || o.updS) = true := by simpa using hu
    simp only [mstepT, this, if_true]; rfl
  have hpk := pkM_eq o.updPk d (q := .vec ni f) (Q := posterior (lpMovers d s.base [] s.pk1))
    (.inr ⟨rfl, f, rfl, fun i l => by rw [hf i, Subsingleton.elim l 0]⟩) o.dprior s.pk1
  unfold loopM
  simp only [bind, Except.bind, e1, e2, stop, Bool.false_eq_true, if_false, hm, hpk]
  cases hn : nextPk1 o.updPk d (posterior (lpMovers d s.base [] s.pk1)) o.dprior s.pk1 with
  | ok v => exact ⟨_, rfl, fun _ => rfl⟩
  | error e =>
    refine ⟨e, rfl, fun h => ?_⟩
    exfalso
    rcases h with h | ⟨h1, h2, h3, h4⟩
    · simp [nextPk1, h] at hn
    · unfold nextPk1 at hn
      split at hn
      · obtain ⟨pk, hpk, -⟩ := C32_movers d (posterior (lpMovers d s.base [] s.pk1)) o.dprior h4 h3
          (fun i l => (posterior_pos _ i l).le) (posterior_sum _) h2 h1
        rw [hpk] at hn; cases hn
      · cases hn

/-- The full claim, that estimating on movers never depends on whether PyTorch is installed, is false: on all data with
positive weights in which every pair of firm types occurs, and for any solvers, starting values and positive number of
iterations, updating the standard deviations of one worker type succeeds without PyTorch and fails with it. -/
theorem C112_movers_false (d : Data ni nk) (o : MoverOpts) (hS : o.updS = true) (hnk : 0 < nk) (hall : AllPairs d)
    (hW : ∀ t i, 0 < d.W t i) (hd : 1 ≤ o.dprior) (sA sS : Solver) (minType : (Fin 2 → Fin 1 → Fin nk → ℝ) → ℕ)
    (fuel : ℕ) (first : Bool) (pm : ℕ) (s : MoverState 1 nk) :
    (∃ r, loopM false d o sA sS minType (fuel + 1) first none pm s = .ok r) ∧
    loopM true d o sA sS minType (fuel + 1) first none pm s = .error "IndexError" := by
  refine ⟨?_, ?_⟩
  · rw [loopM_same false d o sA sS minType (.inl rfl)]
    exact C33_movers_returns d o sA sS minType hnk hall hW hd hS _ _ _ _ _
  · obtain ⟨e, he, h⟩ := C112_one_type_fails d o (.inr hS) sA sS minType fuel first pm s
    rw [he, h (.inr ⟨hall, hnk, hd, hW⟩)]

/-- Non-vacuity of the last three statements and of C112_movers_partial: two movers in one firm type. -/
example (sA sS : Solver) (b : Base 1 1) (n : ℕ) :
    let d : Data 2 1 := ⟨fun _ i => i, fun _ _ => 0, fun _ _ => 1⟩
    (∃ r, loopM false d ⟨true, true, true, 2, 0⟩ sA sS (fun _ => 0) (n + 1) true none 0 ⟨b, fun _ _ => 1, []⟩ = .ok r) ∧
    loopM true d ⟨true, true, true, 2, 0⟩ sA sS (fun _ => 0) (n + 1) true none 0 ⟨b, fun _ _ => 1, []⟩ =
      .error "IndexError" :=
  C112_movers_false _ _ rfl one_pos (fun k1 k2 => ⟨0, Subsingleton.elim _ _, Subsingleton.elim _ _⟩)
    (fun _ _ => one_pos) (by norm_num) _ _ _ _ _ _ _

example (sA sS : Solver) (b : Base 2 1) (n : ℕ) :
    ∃ r, loopM true (⟨fun _ i => i, fun _ _ => 0, fun _ _ => 1⟩ : Data 2 1) ⟨true, true, true, 2, 0⟩ sA sS (fun _ => 0) n true
      none 0 ⟨b, fun _ _ => 1 / 2, []⟩ = .ok r := by
  rw [(C112_movers_partial (by norm_num) _ _ _ _ _ _ _ _ _ _).2]
  exact C33_movers_returns _ _ _ _ _ one_pos (fun k1 k2 => ⟨0, Subsingleton.elim _ _, Subsingleton.elim _ _⟩)
    (fun _ _ => one_pos) (by norm_num) rfl n _ _ _ _

example (sA sS : Solver) (b : Base 1 1) :
    ∃ r, loopM true (⟨fun _ i => i, fun _ _ => 0, fun _ _ => 1⟩ : Data 2 1) ⟨false, false, false, 2, 0⟩ sA sS (fun _ => 0) 1
      true none 0 ⟨b, fun _ _ => 1, []⟩ = .ok r := by
  rw [loopM_same _ _ _ _ _ _ (.inr (.inr ⟨rfl, rfl⟩))]
  exact ⟨_, rfl⟩

/-- Estimating on stayers gives the same proportions, likelihoods and errors with and without PyTorch, for any number of
worker types, one too, and with any controls. -/
theorem C112_stayers [NeZero nl] (torch : Bool) (d : Data ni nk) (b : Base nl nk) (cs : List (Ctrl ni nl)) (dprior thr : ℝ)
    (fuel : ℕ) : ∀ first prev pk0 liks,
    loopS torch d b cs dprior thr fuel first prev pk0 liks = stayersLoop d b cs dprior thr fuel first prev pk0 liks := by
  induction fuel with
  | zero => intros; rfl
  | succ fuel ih =>
    intro first prev pk0 liks
    obtain ⟨a, e1, ha⟩ := lpS_mat torch d b cs pk0
    obtain ⟨z, q, e2, hz, hq1, hq2⟩ := eStep_ok torch ha
    have hq : Holds q (posterior (lpStayers d b cs pk0)) := by
      by_cases ht : torch = true ∧ nl = 1
      · obtain ⟨f, hf, hf'⟩ := hq2 ht
        obtain ⟨-, rfl⟩ := ht
        exact .inr ⟨rfl, f, hf, fun i l => by rw [hf' i, Subsingleton.elim l 0]⟩
      · exact .inl (hq1 (by cases torch <;> simp_all))
    unfold loopS stayersLoop
    simp only [bind, Except.bind, e1, e2, pkS_eq d hq, mean_loose hz, ih, likStayers, meanLse]
    rfl

/-- Non-vacuity: with PyTorch the loop on stayers returns for one worker type. -/
example (n : ℕ) (b : Base 1 2) (thr : ℝ) :
    ∃ r, loopS true exData b [] 1 thr n true none (fun _ => some fun _ => 1) [] = .ok r := by
  rw [C112_stayers]
  refine C33_stayers_returns exData b [] 1 thr (by norm_num) (fun k => ?_) n _
  fin_cases k
  · exact ⟨0, by simp [exData]⟩
  · exact ⟨1, by simp [exData]⟩

/-- The posterior probabilities returned by `return_qi` are a matrix of workers by types on both installations, with any
controls, except that with PyTorch and one worker type the result has one dimension. -/
theorem C112_return_qi [NeZero nl] (torch : Bool) (d : Data ni nk) (b : Base nl nk) (cs : List (Ctrl ni nl))
    (pk1 : ℕ → Fin nl → ℝ) : ∃ q, returnQi torch d b cs pk1 = .ok q ∧
      (torch = false ∨ nl ≠ 1 → ∃ f, q = .mat ni nl f ∧ ∀ (i : Fin ni) (l : Fin nl), f i l =
        Real.exp (lpMovers d b cs pk1 i l) / ∑ l', Real.exp (lpMovers d b cs pk1 i l')) ∧
      (torch = true → nl = 1 → ∃ f, q = .vec ni f ∧ ∀ i : Fin ni, f i = 1) := by
  obtain ⟨a, e1, ha⟩ := lpM_mat torch d b cs pk1
  obtain ⟨z, q, e2, hz, hq1, hq2⟩ := eStep_ok torch ha
  refine ⟨q, by simp only [returnQi, bind, Except.bind, e1, e2], fun h => ?_, ?_⟩
  · obtain ⟨f, hf, hf'⟩ := hq1 h
    refine ⟨f, hf, fun i l => ?_⟩
    rw [hf', posterior_eq]
  · rintro rfl rfl
    obtain ⟨f, hf, hf'⟩ := hq2 ⟨rfl, rfl⟩
    refine ⟨f, hf, fun i => ?_⟩
    have := posterior_sum (lpMovers d b cs pk1) i
    rw [hf', ← this]; simp

end Pytwoway.BLM.Torch
