import Verif.BS.Model
import Verif.FE.Noise
import Mathlib.Tactic.FieldSimp
import Mathlib.Tactic.Ring
import Mathlib.Tactic.Linarith
import Mathlib.Tactic.Positivity
import Mathlib.Tactic.FinCases
import Mathlib.Algebra.BigOperators.Group.Finset.Sigma
import Mathlib.Algebra.BigOperators.Field

/-! # C29, C65: the Borovickova-Shimer estimator -/

namespace Pytwoway.BS

open MeasureTheory Pytwoway

variable {n nw nf : ℕ} {κ : Type*} [DecidableEq κ]

/-! ## Helper lemmas -/

theorem sum_keys (key : Fin n → κ) (f : Fin n → ℝ) : ∑ k ∈ keys key, ∑ o ∈ grp key k, f o = ∑ o, f o := by
  unfold keys grp
  exact Finset.sum_fiberwise_of_maps_to (fun o _ => Finset.mem_image_of_mem _ (Finset.mem_univ o)) f

theorem sum_keys_card (key : Fin n → κ) : ∑ k ∈ keys key, ((grp key k).card : ℝ) = (n : ℝ) := by
  have := sum_keys key fun _ => (1 : ℝ)
  simpa using this

theorem mem_keys {key : Fin n → κ} {k : κ} (h : k ∈ keys key) : ∃ o, o ∈ grp key k := by
  obtain ⟨o, _, rfl⟩ := Finset.mem_image.1 h
  exact ⟨o, by simp [grp]⟩

theorem pairSum_eq (G : Finset (Fin n)) (x : Fin n → ℝ) :
    pairSum G x = ((∑ o ∈ G, x o) * (∑ o ∈ G, x o) - ∑ o ∈ G, x o * x o) / 2 := by
  rw [pairSum, Finset.sum_mul_sum]

/-- The pair sum is over unordered pairs of distinct rows. -/
theorem pairSum_distinct (G : Finset (Fin n)) (x : Fin n → ℝ) :
    pairSum G x = (∑ o ∈ G, ∑ o' ∈ G.erase o, x o * x o') / 2 := by
  unfold pairSum
  congr 1
  rw [← Finset.sum_sub_distrib]
  refine Finset.sum_congr rfl fun o ho => ?_
  rw [← Finset.add_sum_erase G _ ho]
  ring

theorem pairSum_pos {G : Finset (Fin n)} {r : Fin n → ℝ} (hr : ∀ o, 0 < r o) (hG : 2 ≤ G.card) : 0 < pairSum G r := by
  rw [pairSum_distinct]
  apply div_pos _ two_pos
  apply Finset.sum_pos
  · intro o ho
    apply Finset.sum_pos fun o' _ => mul_pos (hr o) (hr o')
    rw [← Finset.card_pos, Finset.card_erase_of_mem ho]
    omega
  · rw [← Finset.card_pos]; omega

theorem meanSq_unweighted (key : Fin n → κ) (x : Fin n → ℝ) (k : κ) :
    meanSq key x none k = meanSq key (fun o => Real.sqrt 1 * x o) (some fun _ => Real.sqrt 1) k := by
  simp only [meanSq, Real.sqrt_one, one_mul]
  congr 1
  rw [pairSum_eq]
  simp
  ring

/-- Without weights the standard estimator is the one with unit weights (except for `var(y)`, see C65). -/
theorem fitStdU_eq (f : Frame n nw nf) :
    (fitStdU f).mean_y = (fitStdW f 1).mean_y ∧ (fitStdU f).var_lambda = (fitStdW f 1).var_lambda ∧
    (fitStdU f).var_mu = (fitStdW f 1).var_mu ∧ (fitStdU f).cov = (fitStdW f 1).cov := by
  have hyb : (fitStdU f).mean_y = (fitStdW f 1).mean_y := by simp [fitStdU, fitStdW]
  have hl : ∀ {κ : Type} [DecidableEq κ] (key : Fin n → κ) (o : Fin n),
      looU key f.y o = looW key (fun o => (1 : Fin n → ℝ) o * f.y o) 1 o := by
    intro κ _ key o; simp [looU, looW]
  have hs : ∀ {κ : Type} [DecidableEq κ] (key : Fin n → κ) (yb : ℝ), sigmaU key f.y yb = sigmaW key f.y 1 yb := by
    intro κ _ key yb
    simp only [sigmaU, sigmaW, Pi.one_apply, Finset.sum_const, nsmul_eq_mul, mul_one, meanSq_unweighted]
  refine ⟨hyb, ?_, ?_, ?_⟩
  · show sigmaU f.i f.y (fitStdU f).mean_y = sigmaW f.i f.y 1 (fitStdW f 1).mean_y
    rw [hs, hyb]
  · show sigmaU f.j f.y (fitStdU f).mean_y = sigmaW f.j f.y 1 (fitStdW f 1).mean_y
    rw [hs, hyb]
  · show _ - (fitStdU f).mean_y ^ 2 = _ - (fitStdW f 1).mean_y ^ 2
    rw [hyb]
    simp only [hl]
    simp

theorem mean_y_eq (f : Frame n nw nf) {w : Fin n → ℝ} (hw : ∀ o, 0 < w o) :
    (fitStdW f w).mean_y = (∑ o, w o * f.y o) / ∑ o, w o := by
  simp only [fitStdW]
  rw [sum_keys]
  congr 1
  rw [← sum_keys f.i]
  refine Finset.sum_congr rfl fun k hk => ?_
  obtain ⟨o, ho⟩ := mem_keys hk
  have : (∑ o ∈ grp f.i k, w o) ≠ 0 := (Finset.sum_pos (fun o _ => hw o) ⟨o, ho⟩).ne'
  field_simp

/-! ## C29 -/

/-- Every worker and firm has at least two observations. -/
def Frame.AtLeastTwo (f : Frame n nw nf) : Prop :=
  (∀ o, ∃ o', o' ≠ o ∧ f.i o' = f.i o) ∧ ∀ o, ∃ o', o' ≠ o ∧ f.j o' = f.j o

/-- No two observations are of the same worker at the same firm. -/
def Frame.DistinctMatches (f : Frame n nw nf) : Prop := ∀ o o', f.i o = f.i o' → f.j o = f.j o' → o = o'

/-- The frame with other outcomes. -/
def Frame.withY (f : Frame n nw nf) (y : Fin n → ℝ) : Frame n nw nf := { f with y := y }

variable {Ω : Type*} [MeasurableSpace Ω] {μ : Measure Ω} {eps : Ω → Fin n → ℝ} {s2 : Fin n → ℝ}

/-- Expected product of two affine functions of the noise. -/
theorem affine_mul (h : FE.Noise μ eps s2) {X Y : Ω → ℝ} {a b : ℝ} {A B : Fin n → ℝ}
    (hX : ∀ ω, X ω = a + ∑ o, A o * eps ω o) (hY : ∀ ω, Y ω = b + ∑ o, B o * eps ω o) :
    Integrable (fun ω => X ω * Y ω) μ ∧ ∫ ω, X ω * Y ω ∂μ = a * b + ∑ o, A o * B o * s2 o := by
  simp only [hX, hY]
  exact h.integral_mul a b A B

theorem sum_affine (G : Finset (Fin n)) (r m : Fin n → ℝ) (e : Fin n → ℝ) :
    ∑ o ∈ G, r o * (m o + e o) = (∑ o ∈ G, r o * m o) + ∑ o, (if o ∈ G then r o else 0) * e o := by
  simp only [mul_add, Finset.sum_add_distrib, ite_mul, zero_mul]
  congr 1
  rw [Finset.sum_ite_mem, Finset.univ_inter]

theorem single_affine (r m e : Fin n → ℝ) (o : Fin n) :
    r o * (m o + e o) = r o * m o + ∑ o', (if o' = o then r o else 0) * e o' := by
  simp [mul_add]

/-- C29: pairs of distinct observations carry no noise: for any group of rows, any coefficients and any means, the
expected pair sum is the pair sum of the means. -/
theorem C29_pairs (h : FE.Noise μ eps s2) (G : Finset (Fin n)) (r m : Fin n → ℝ) :
    Integrable (fun ω => pairSum G fun o => r o * (m o + eps ω o)) μ ∧
    ∫ ω, pairSum G (fun o => r o * (m o + eps ω o)) ∂μ = pairSum G fun o => r o * m o := by
  have h1 := affine_mul h (X := fun ω => ∑ o ∈ G, r o * (m o + eps ω o)) (Y := fun ω => ∑ o ∈ G, r o * (m o + eps ω o))
    (fun ω => sum_affine G r m (eps ω)) (fun ω => sum_affine G r m (eps ω))
  have h2 : ∀ o, _ := fun o => affine_mul h (X := fun ω => r o * (m o + eps ω o)) (Y := fun ω => r o * (m o + eps ω o))
    (fun ω => single_affine r m (eps ω) o) (fun ω => single_affine r m (eps ω) o)
  have hi : Integrable (fun ω => ∑ o ∈ G, r o * (m o + eps ω o) * (r o * (m o + eps ω o))) μ :=
    integrable_finsetSum _ fun o _ => (h2 o).1
  simp only [pairSum_eq]
  refine ⟨(h1.1.sub hi).div_const _, ?_⟩
  rw [integral_div, integral_sub h1.1 hi, h1.2, integral_finsetSum _ fun o _ => (h2 o).1]
  simp only [(h2 _).2]
  congr 1
  have e1 : ∑ o, (if o ∈ G then r o else 0) * (if o ∈ G then r o else 0) * s2 o = ∑ o ∈ G, r o * r o * s2 o := by
    simp only [ite_mul, zero_mul, mul_ite, mul_zero]
    rw [Finset.sum_ite_mem, Finset.univ_inter]
    exact Finset.sum_congr rfl fun o ho => by rw [if_pos ho]
  have e2 : ∀ o, ∑ o', (if o' = o then r o else 0) * (if o' = o then r o else 0) * s2 o' = r o * r o * s2 o := by
    intro o
    rw [Finset.sum_eq_single o]
    · simp
    · intro b _ hb; simp [hb]
    · simp
  simp only [e1, e2, Finset.sum_add_distrib]
  ring

/-- C29: the estimate of a worker's (or firm's) squared mean is unbiased: with outcomes of common mean `a` in the
group, plus noise of any variances, its expectation is `a ^ 2`. -/
theorem C29_square (h : FE.Noise μ eps s2) (key : Fin n → κ) {w : Fin n → ℝ} (hw : ∀ o, 0 < w o) (m : Fin n → ℝ) (k : κ)
    (h2 : 2 ≤ (grp key k).card) (a : ℝ) (hm : ∀ o, key o = k → m o = a) :
    ∫ ω, meanSq key (fun o => Real.sqrt (w o) * (m o + eps ω o)) (some fun o => Real.sqrt (w o)) k ∂μ = a ^ 2 := by
  simp only [meanSq]
  rw [integral_div, (C29_pairs h (grp key k) _ m).2]
  have hD : pairSum (grp key k) (fun o => Real.sqrt (w o)) ≠ 0 :=
    (pairSum_pos (fun o => Real.sqrt_pos.2 (hw o)) h2).ne'
  rw [div_eq_iff hD, pairSum_eq, pairSum_eq]
  have e1 : ∑ o ∈ grp key k, Real.sqrt (w o) * m o = (∑ o ∈ grp key k, Real.sqrt (w o)) * a := by
    rw [Finset.sum_mul]
    exact Finset.sum_congr rfl fun o ho => by rw [hm o (by simpa [grp] using ho)]
  have e2 : ∑ o ∈ grp key k, Real.sqrt (w o) * m o * (Real.sqrt (w o) * m o)
      = (∑ o ∈ grp key k, Real.sqrt (w o) * Real.sqrt (w o)) * a ^ 2 := by
    rw [Finset.sum_mul]
    exact Finset.sum_congr rfl fun o ho => by rw [hm o (by simpa [grp] using ho)]; ring
  rw [e1, e2]
  ring

theorem mean_affine {w m : Fin n → ℝ} (e : Fin n → ℝ) :
    (∑ o, w o * (m o + e o)) / (∑ o, w o) = (∑ o, w o * m o) / (∑ o, w o) + ∑ o, w o / (∑ o, w o) * e o := by
  simp only [mul_add, Finset.sum_add_distrib, add_div, Finset.sum_div]
  congr 1
  exact Finset.sum_congr rfl fun o _ => by ring

/-- Variance of the weighted mean outcome. -/
noncomputable def meanVar (w s2 : Fin n → ℝ) : ℝ := (∑ o, w o ^ 2 * s2 o) / (∑ o, w o) ^ 2

theorem mean_sq_expect (h : FE.Noise μ eps s2) (w : Fin n → ℝ) (m : Fin n → ℝ) :
    Integrable (fun ω => ((∑ o, w o * (m o + eps ω o)) / ∑ o, w o) ^ 2) μ ∧
    ∫ ω, ((∑ o, w o * (m o + eps ω o)) / ∑ o, w o) ^ 2 ∂μ = ((∑ o, w o * m o) / ∑ o, w o) ^ 2 + meanVar w s2 := by
  have := affine_mul h (X := fun ω => (∑ o, w o * (m o + eps ω o)) / ∑ o, w o)
    (Y := fun ω => (∑ o, w o * (m o + eps ω o)) / ∑ o, w o) (fun ω => mean_affine _) (fun ω => mean_affine _)
  simp only [← pow_two] at this
  refine ⟨this.1, ?_⟩
  rw [this.2, meanVar]
  congr 1
  rw [Finset.sum_div]
  exact Finset.sum_congr rfl fun o _ => by ring

theorem sigma_expect (h : FE.Noise μ eps s2) (key : Fin n → κ) {w : Fin n → ℝ} (hw : ∀ o, 0 < w o) (hn : 0 < n)
    (m : Fin n → ℝ) :
    Integrable (fun ω => sigmaW key (fun o => m o + eps ω o) w ((∑ o, w o * (m o + eps ω o)) / ∑ o, w o)) μ ∧
    ∫ ω, sigmaW key (fun o => m o + eps ω o) w ((∑ o, w o * (m o + eps ω o)) / ∑ o, w o) ∂μ
      = sigmaW key m w ((∑ o, w o * m o) / ∑ o, w o) - meanVar w s2 := by
  have hW : (∑ o, w o) ≠ 0 := (Finset.sum_pos (fun o _ => hw o) ⟨⟨0, hn⟩, Finset.mem_univ _⟩).ne'
  have hm := mean_sq_expect h w m
  have hsq : ∀ k, Integrable (fun ω => (∑ o ∈ grp key k, w o) *
      meanSq key (fun o => Real.sqrt (w o) * (m o + eps ω o)) (some fun o => Real.sqrt (w o)) k) μ := fun k =>
    ((C29_pairs h (grp key k) _ m).1.div_const _).const_mul _
  have hS : Integrable (fun ω => (∑ k ∈ keys key, (∑ o ∈ grp key k, w o) *
      meanSq key (fun o => Real.sqrt (w o) * (m o + eps ω o)) (some fun o => Real.sqrt (w o)) k)
      / ∑ k ∈ keys key, ∑ o ∈ grp key k, w o) μ := (integrable_finsetSum _ fun k _ => hsq k).div_const _
  unfold sigmaW
  refine ⟨hS.sub hm.1, ?_⟩
  rw [integral_sub hS hm.1, hm.2, integral_div, integral_finsetSum _ fun k _ => hsq k]
  have : ∀ k, ∫ ω, (∑ o ∈ grp key k, w o) *
      meanSq key (fun o => Real.sqrt (w o) * (m o + eps ω o)) (some fun o => Real.sqrt (w o)) k ∂μ
      = (∑ o ∈ grp key k, w o) * meanSq key (fun o => Real.sqrt (w o) * m o) (some fun o => Real.sqrt (w o)) k := by
    intro k
    rw [integral_const_mul]
    simp only [meanSq]
    rw [integral_div, (C29_pairs h (grp key k) _ m).2]
  simp only [this]
  ring

/-- The coefficient of row `o'` in the leave-one-out mean of row `o`. -/
noncomputable def looCoef (key : Fin n → κ) (w : Fin n → ℝ) (o o' : Fin n) : ℝ :=
  if key o' = key o ∧ o' ≠ o then w o' / ((∑ o'' ∈ grp key (key o), w o'') - w o) else 0

theorem looW_eq (key : Fin n → κ) (w y : Fin n → ℝ) (o : Fin n) :
    looW key (fun o => w o * y o) w o = ∑ o', looCoef key w o o' * y o' := by
  unfold looW looCoef
  simp only [ite_mul, zero_mul]
  rw [← Finset.sum_filter]
  have : Finset.univ.filter (fun o' => key o' = key o ∧ o' ≠ o) = (grp key (key o)).erase o := by
    ext x; simp [grp, and_comm]
  rw [this, ← Finset.add_sum_erase (grp key (key o)) (fun o => w o * y o) (a := o) (by simp [grp])]
  rw [add_sub_cancel_left, Finset.sum_div]
  exact Finset.sum_congr rfl fun x _ => by ring

theorem loo_affine (key : Fin n → κ) (w m e : Fin n → ℝ) (o : Fin n) :
    looW key (fun o => w o * (m o + e o)) w o
      = looW key (fun o => w o * m o) w o + ∑ o', looCoef key w o o' * e o' := by
  rw [looW_eq key w fun o => m o + e o, looW_eq key w m]
  simp only [mul_add, Finset.sum_add_distrib]

/-- C29: the expected estimates of the standard estimator with weights.  Whatever the noise variances, each is the
estimate computed from the means, less the variance of the overall mean (the only noise term, from squaring the
overall mean).  For the covariance no two observations may be of the same match. -/
theorem C29_expectation_partial (h : FE.Noise μ eps s2) (f : Frame n nw nf) {w : Fin n → ℝ} (hw : ∀ o, 0 < w o)
    (hn : 0 < n) (m : Fin n → ℝ) :
    ∫ ω, (fitStdW (f.withY fun o => m o + eps ω o) w).var_lambda ∂μ
      = (fitStdW (f.withY m) w).var_lambda - meanVar w s2 ∧
    ∫ ω, (fitStdW (f.withY fun o => m o + eps ω o) w).var_mu ∂μ
      = (fitStdW (f.withY m) w).var_mu - meanVar w s2 ∧
    (f.DistinctMatches → ∫ ω, (fitStdW (f.withY fun o => m o + eps ω o) w).cov ∂μ
      = (fitStdW (f.withY m) w).cov - meanVar w s2) := by
  have hW : (∑ o, w o) ≠ 0 := (Finset.sum_pos (fun o _ => hw o) ⟨⟨0, hn⟩, Finset.mem_univ _⟩).ne'
  have hyb : ∀ y : Fin n → ℝ, (fitStdW (f.withY y) w).mean_y = (∑ o, w o * y o) / ∑ o, w o := fun y => mean_y_eq _ hw
  have hl : ∀ y : Fin n → ℝ, (fitStdW (f.withY y) w).var_lambda = sigmaW f.i y w ((∑ o, w o * y o) / ∑ o, w o) := by
    intro y; rw [← hyb]; rfl
  have hmu : ∀ y : Fin n → ℝ, (fitStdW (f.withY y) w).var_mu = sigmaW f.j y w ((∑ o, w o * y o) / ∑ o, w o) := by
    intro y; rw [← hyb]; rfl
  have hc : ∀ y : Fin n → ℝ, (fitStdW (f.withY y) w).cov = (∑ o, w o * (looW f.i (fun o => w o * y o) w o *
      looW f.j (fun o => w o * y o) w o)) / (∑ o, w o) - ((∑ o, w o * y o) / ∑ o, w o) ^ 2 := by
    intro y; rw [← hyb y]; rfl
  refine ⟨?_, ?_, fun hd => ?_⟩
  · simp only [hl]; exact (sigma_expect h f.i hw hn m).2
  · simp only [hmu]; exact (sigma_expect h f.j hw hn m).2
  · simp only [hc]
    have hm := mean_sq_expect h w m
    have hp : ∀ o, _ := fun o => affine_mul h
      (X := fun ω => looW f.i (fun o => w o * (m o + eps ω o)) w o)
      (Y := fun ω => looW f.j (fun o => w o * (m o + eps ω o)) w o)
      (fun ω => loo_affine f.i w m (eps ω) o) (fun ω => loo_affine f.j w m (eps ω) o)
    have hz : ∀ o, ∑ o', looCoef f.i w o o' * looCoef f.j w o o' * s2 o' = 0 := by
      intro o
      refine Finset.sum_eq_zero fun o' _ => ?_
      unfold looCoef
      by_cases h1 : f.i o' = f.i o ∧ o' ≠ o
      · rw [if_neg (c := f.j o' = f.j o ∧ o' ≠ o) (fun h2 => h1.2 (hd o' o h1.1 h2.1))]
        simp
      · rw [if_neg h1]; simp
    have hi : Integrable (fun ω => (∑ o, w o * (looW f.i (fun o => w o * (m o + eps ω o)) w o *
      looW f.j (fun o => w o * (m o + eps ω o)) w o)) / (∑ o, w o)) μ :=
      (integrable_finsetSum _ fun o _ => (hp o).1.const_mul _).div_const _
    rw [integral_sub hi hm.1, hm.2, integral_div, integral_finsetSum _ fun o _ => (hp o).1.const_mul _]
    simp only [integral_const_mul, (hp _).2, hz, add_zero]
    ring

/-- The same without weights. -/
theorem C29_expectation_unweighted_partial (h : FE.Noise μ eps s2) (f : Frame n nw nf) (hn : 0 < n) (m : Fin n → ℝ) :
    ∫ ω, (fitStdU (f.withY fun o => m o + eps ω o)).var_lambda ∂μ = (fitStdU (f.withY m)).var_lambda - meanVar 1 s2 ∧
    ∫ ω, (fitStdU (f.withY fun o => m o + eps ω o)).var_mu ∂μ = (fitStdU (f.withY m)).var_mu - meanVar 1 s2 ∧
    (f.DistinctMatches → ∫ ω, (fitStdU (f.withY fun o => m o + eps ω o)).cov ∂μ
      = (fitStdU (f.withY m)).cov - meanVar 1 s2) := by
  have := C29_expectation_partial h f (w := 1) (fun o => by simp) hn m
  simp only [(fitStdU_eq _).2.1, (fitStdU_eq _).2.2.1, (fitStdU_eq _).2.2.2]
  exact this

/-- C29: computed from worker means `a`, the worker variance is the variance of `a` across observations (weighted);
likewise the firm variance. -/
theorem C29_truth (f : Frame n nw nf) (h2 : f.AtLeastTwo) {w : Fin n → ℝ} (hw : ∀ o, 0 < w o) (hn : 0 < n) :
    (∀ a : Fin nw → ℝ, (fitStdW (f.withY fun o => a (f.i o)) w).var_lambda
      = (∑ o, w o * (a (f.i o) - (∑ o, w o * a (f.i o)) / ∑ o, w o) ^ 2) / ∑ o, w o) ∧
    ∀ b : Fin nf → ℝ, (fitStdW (f.withY fun o => b (f.j o)) w).var_mu
      = (∑ o, w o * (b (f.j o) - (∑ o, w o * b (f.j o)) / ∑ o, w o) ^ 2) / ∑ o, w o := by
  have hW : (∑ o, w o) ≠ 0 := (Finset.sum_pos (fun o _ => hw o) ⟨⟨0, hn⟩, Finset.mem_univ _⟩).ne'
  have key : ∀ {κ : Type} [DecidableEq κ] (key : Fin n → κ) (a : κ → ℝ), (∀ o, ∃ o', o' ≠ o ∧ key o' = key o) →
      sigmaW key (fun o => a (key o)) w ((∑ o, w o * a (key o)) / ∑ o, w o)
        = (∑ o, w o * (a (key o) - (∑ o, w o * a (key o)) / ∑ o, w o) ^ 2) / ∑ o, w o := by
    intro κ _ key a hk2
    have hsq : ∀ k ∈ keys key, (∑ o ∈ grp key k, w o) *
        meanSq key (fun o => Real.sqrt (w o) * a (key o)) (some fun o => Real.sqrt (w o)) k
        = ∑ o ∈ grp key k, w o * a (key o) ^ 2 := by
      intro k hk
      obtain ⟨o, ho⟩ := mem_keys hk
      have hok : key o = k := by simpa [grp] using ho
      obtain ⟨o', hne, ho'⟩ := hk2 o
      have hcard : 2 ≤ (grp key k).card := by
        exact Finset.one_lt_card_iff_nontrivial.2 ⟨o, by simp [grp, hok], o', by simp [grp, ho', hok], hne.symm⟩
      have hD : pairSum (grp key k) (fun o => Real.sqrt (w o)) ≠ 0 :=
        (pairSum_pos (fun o => Real.sqrt_pos.2 (hw o)) hcard).ne'
      have e : pairSum (grp key k) (fun o => Real.sqrt (w o) * a (key o))
          = a k ^ 2 * pairSum (grp key k) (fun o => Real.sqrt (w o)) := by
        rw [pairSum_eq, pairSum_eq]
        have e1 : ∑ o ∈ grp key k, Real.sqrt (w o) * a (key o) = (∑ o ∈ grp key k, Real.sqrt (w o)) * a k := by
          rw [Finset.sum_mul]
          exact Finset.sum_congr rfl fun o ho => by rw [show key o = k by simpa [grp] using ho]
        have e2 : ∑ o ∈ grp key k, Real.sqrt (w o) * a (key o) * (Real.sqrt (w o) * a (key o))
            = (∑ o ∈ grp key k, Real.sqrt (w o) * Real.sqrt (w o)) * a k ^ 2 := by
          rw [Finset.sum_mul]
          exact Finset.sum_congr rfl fun o ho => by rw [show key o = k by simpa [grp] using ho]; ring
        rw [e1, e2]; ring
      simp only [meanSq]
      rw [e, mul_div_assoc, div_self hD, mul_one, Finset.sum_mul]
      exact Finset.sum_congr rfl fun o ho => by rw [show key o = k by simpa [grp] using ho]
    unfold sigmaW
    rw [Finset.sum_congr rfl hsq, sum_keys, sum_keys]
    set M := (∑ o, w o * a (key o)) / ∑ o, w o with hM
    have hM' : ∑ o, w o * a (key o) = M * ∑ o, w o := by rw [hM]; field_simp
    have : ∑ o, w o * (a (key o) - M) ^ 2 = ∑ o, w o * a (key o) ^ 2 - M ^ 2 * ∑ o, w o := by
      have : ∀ o, w o * (a (key o) - M) ^ 2 = w o * a (key o) ^ 2 - 2 * M * (w o * a (key o)) + M ^ 2 * w o := by
        intro o; ring
      simp only [this, Finset.sum_add_distrib, Finset.sum_sub_distrib, ← Finset.mul_sum, hM']
      ring
    rw [this, sub_div, mul_div_assoc, div_self hW, mul_one]
  constructor
  · intro a
    have := key f.i a h2.1
    rw [← this]
    have hy := mean_y_eq (f.withY fun o => a (f.i o)) hw
    simp only [Frame.withY] at hy ⊢
    rw [← hy]
    rfl
  · intro b
    have := key f.j b h2.2
    rw [← this]
    have hy := mean_y_eq (f.withY fun o => b (f.j o)) hw
    simp only [Frame.withY] at hy ⊢
    rw [← hy]
    rfl

/-- C29: with repeated matches the covariance does carry noise.  Two observations of one worker at one firm: the
average noise variance is added. -/
theorem C29_repeated_match (h : FE.Noise μ eps s2) (hn : n = 2) (f : Frame n 1 1) (m : Fin n → ℝ) :
    ∫ ω, (fitStdU (f.withY fun o => m o + eps ω o)).cov ∂μ
      = (fitStdU (f.withY m)).cov + (∑ o, s2 o) / 2 - meanVar 1 s2 := by
  subst hn
  have hW : (∑ o : Fin 2, (1 : Fin 2 → ℝ) o) ≠ 0 := by norm_num
  simp only [(fitStdU_eq _).2.2.2]
  have hyb : ∀ y : Fin 2 → ℝ, (fitStdW (f.withY y) 1).mean_y = (∑ o, (1 : Fin 2 → ℝ) o * y o) / ∑ o, (1 : Fin 2 → ℝ) o :=
    fun y => mean_y_eq _ (fun o => by simp)
  have hc : ∀ y : Fin 2 → ℝ, (fitStdW (f.withY y) 1).cov = (y 0 * y 0 + y 1 * y 1) / 2
      - ((∑ o, (1 : Fin 2 → ℝ) o * y o) / ∑ o, (1 : Fin 2 → ℝ) o) ^ 2 := by
    intro y
    rw [← hyb y]
    have hl : ∀ (key : Fin 2 → Fin 1), looW key (fun o => (1 : Fin 2 → ℝ) o * y o) 1 0 = y 1 ∧
        looW key (fun o => (1 : Fin 2 → ℝ) o * y o) 1 1 = y 0 := by
      intro key
      have hg : ∀ k, grp key k = Finset.univ := by
        intro k; ext o; simp [grp, eq_iff_true_of_subsingleton]
      constructor <;> simp [looW, hg, Fin.sum_univ_two] <;> norm_num
    show (∑ o : Fin 2, (1 : Fin 2 → ℝ) o * (looW f.i (fun o => (1 : Fin 2 → ℝ) o * y o) 1 o *
      looW f.j (fun o => (1 : Fin 2 → ℝ) o * y o) 1 o)) / (∑ o : Fin 2, (1 : Fin 2 → ℝ) o)
      - (fitStdW (f.withY y) 1).mean_y ^ 2 = _
    generalize (fitStdW (f.withY y) 1).mean_y = M
    rw [Fin.sum_univ_two, (hl f.i).1, (hl f.i).2, (hl f.j).1, (hl f.j).2]
    simp
    ring
  simp only [hc]
  have hm := mean_sq_expect h 1 m
  have hp : ∀ o, _ := fun o => affine_mul h
      (X := fun ω => (1 : Fin 2 → ℝ) o * (m o + eps ω o)) (Y := fun ω => (1 : Fin 2 → ℝ) o * (m o + eps ω o))
      (fun ω => single_affine 1 m (eps ω) o) (fun ω => single_affine 1 m (eps ω) o)
  have p0 := hp 0
  have p1 := hp 1
  simp only [Pi.one_apply, one_mul] at p0 p1
  have hi : Integrable (fun ω => ((m 0 + eps ω 0) * (m 0 + eps ω 0) + (m 1 + eps ω 1) * (m 1 + eps ω 1)) / 2) μ :=
    (p0.1.add p1.1).div_const _
  rw [integral_sub hi hm.1, hm.2, integral_div, integral_add p0.1 p1.1, p0.2, p1.2]
  simp [Fin.sum_univ_two]
  ring

/-! ## C65: the alternative estimator and `var(y)` -/

/-- C65: without weights the alternative estimator returns the same results as the standard one. -/
theorem C65_alternative_unweighted (f : Frame n nw nf) : fitAltU f = fitStdU f := by
  have key : ∀ {κ : Type} [DecidableEq κ] (key : Fin n → κ), (altU key f.y).1 = (∑ o, f.y o) / (n : ℝ) ∧
      (altU key f.y).2 = sigmaU key f.y ((∑ o, f.y o) / (n : ℝ)) := by
    intro κ _ key
    have h1 : (altU key f.y).1 = (∑ o, f.y o) / (n : ℝ) := by
      simp only [altU, mul_one]
      rw [sum_keys_card, ← sum_keys key]
      congr 1
      refine Finset.sum_congr rfl fun k hk => ?_
      obtain ⟨o, ho⟩ := mem_keys hk
      have : ((grp key k).card : ℝ) ≠ 0 := by exact_mod_cast (Finset.card_ne_zero_of_mem ho)
      field_simp
    refine ⟨h1, ?_⟩
    rw [← h1]
    simp [altU, sigmaU]
  have hyb : (fitStdU f).mean_y = (∑ o, f.y o) / (n : ℝ) := by
    rw [(fitStdU_eq f).1, mean_y_eq f (fun o => by simp)]
    simp
  have e1 := key f.i
  have e2 := key f.j
  have : fitStdU f = ⟨(fitStdU f).var_y, (fitStdU f).mean_y, sigmaU f.i f.y (fitStdU f).mean_y,
    sigmaU f.j f.y (fitStdU f).mean_y,
    (∑ o, looU f.i f.y o * looU f.j f.y o) / (n : ℝ) - (fitStdU f).mean_y ^ 2⟩ := rfl
  rw [this, hyb]
  simp only [fitAltU, e1, e2]
  congr 1
  · ring
  · ring

/-- C65 fails with weights: when every wage is the same number `c` there is no variance, but the weighted
alternative estimator returns `-c²/2` for both variances, for every panel and every positive weights. -/
theorem C65_alternative_weighted_wrong (f : Frame n nw nf) (h2 : f.AtLeastTwo) (hn : 0 < n) {w : Fin n → ℝ}
    (hw : ∀ o, 0 < w o) (c : ℝ) (hy : ∀ o, f.y o = c) :
    (fitAltW f w).var_lambda = - c ^ 2 / 2 ∧ (fitAltW f w).var_mu = - c ^ 2 / 2 := by
  have key : ∀ {κ : Type} [DecidableEq κ] (key : Fin n → κ), (∀ o, ∃ o', o' ≠ o ∧ key o' = key o) →
      (altW key (fun o => w o * f.y o) w).2 = - c ^ 2 / 2 := by
    intro κ _ key hk2
    have hcard : ∀ k ∈ keys key, 2 ≤ (grp key k).card := by
      intro k hk
      obtain ⟨o, ho⟩ := mem_keys hk
      have hok : key o = k := by simpa [grp] using ho
      obtain ⟨o', hne, ho'⟩ := hk2 o
      exact Finset.one_lt_card_iff_nontrivial.2 ⟨o, by simp [grp, hok], o', by simp [grp, ho', hok], hne.symm⟩
    have hne : (keys key).Nonempty := ⟨key ⟨0, hn⟩, Finset.mem_image_of_mem _ (Finset.mem_univ _)⟩
    have hws : ∀ k ∈ keys key, 0 < ∑ o ∈ grp key k, w o := fun k hk =>
      Finset.sum_pos (fun o _ => hw o) (Finset.card_pos.1 (by have := hcard k hk; omega))
    have hms : ∀ k ∈ keys key, 0 < meanSq key w none k := by
      intro k hk
      simp only [meanSq]
      apply div_pos (pairSum_pos hw (hcard k hk))
      have : (2 : ℝ) ≤ ((grp key k).card : ℝ) := by exact_mod_cast hcard k hk
      apply div_pos _ two_pos
      nlinarith
    have hsq : ∀ k, meanSq key (fun o => w o * f.y o) none k = c ^ 2 * meanSq key w none k := by
      intro k
      simp only [meanSq, hy]
      rw [← mul_div_assoc]
      congr 1
      rw [pairSum_eq, pairSum_eq, ← Finset.sum_mul]
      have : ∑ o ∈ grp key k, w o * c * (w o * c) = (∑ o ∈ grp key k, w o * w o) * c ^ 2 := by
        rw [Finset.sum_mul]; exact Finset.sum_congr rfl fun o _ => by ring
      rw [this]; ring
    have hsum : ∀ k, ∑ o ∈ grp key k, w o * f.y o = c * ∑ o ∈ grp key k, w o := by
      intro k
      rw [Finset.mul_sum]; exact Finset.sum_congr rfl fun o _ => by rw [hy]; ring
    simp only [altW, hsq, hsum]
    have hA : ∑ k ∈ keys key, (∑ o ∈ grp key k, w o) * (c * (∑ o ∈ grp key k, w o) / ((grp key k).card : ℝ))
        = c * ∑ k ∈ keys key, (∑ o ∈ grp key k, w o) * ((∑ o ∈ grp key k, w o) / ((grp key k).card : ℝ)) := by
      rw [Finset.mul_sum]; exact Finset.sum_congr rfl fun k _ => by ring
    have hB : ∑ k ∈ keys key, (∑ o ∈ grp key k, w o) * (c ^ 2 * meanSq key w none k)
        = c ^ 2 * ∑ k ∈ keys key, (∑ o ∈ grp key k, w o) * meanSq key w none k := by
      rw [Finset.mul_sum]; exact Finset.sum_congr rfl fun k _ => by ring
    have hC : ∑ k ∈ keys key, (∑ o ∈ grp key k, w o) * (2 * meanSq key w none k)
        = 2 * ∑ k ∈ keys key, (∑ o ∈ grp key k, w o) * meanSq key w none k := by
      rw [Finset.mul_sum]; exact Finset.sum_congr rfl fun k _ => by ring
    rw [hA, hB, hC]
    have p1 : 0 < ∑ k ∈ keys key, (∑ o ∈ grp key k, w o) * ((∑ o ∈ grp key k, w o) / ((grp key k).card : ℝ)) := by
      apply Finset.sum_pos _ hne
      intro k hk
      have : 0 < ((grp key k).card : ℝ) := by exact_mod_cast (by have := hcard k hk; omega)
      have := hws k hk
      positivity
    have p2 : 0 < ∑ k ∈ keys key, (∑ o ∈ grp key k, w o) * meanSq key w none k :=
      Finset.sum_pos (fun k hk => mul_pos (hws k hk) (hms k hk)) hne
    generalize (∑ k ∈ keys key, (∑ o ∈ grp key k, w o) * ((∑ o ∈ grp key k, w o) / ((grp key k).card : ℝ))) = P at *
    generalize (∑ k ∈ keys key, (∑ o ∈ grp key k, w o) * meanSq key w none k) = Q at *
    field_simp
    ring
  exact ⟨key f.i h2.1, key f.j h2.2⟩

/-- C65: with constant wages the weighted alternative estimator does get the mean and the covariance right. -/
theorem C65_alternative_weighted_partial (f : Frame n nw nf) (h2 : f.AtLeastTwo) (hn : 0 < n) {w : Fin n → ℝ}
    (hw : ∀ o, 0 < w o) (c : ℝ) (hy : ∀ o, f.y o = c) : (fitAltW f w).mean_y = c ∧ (fitAltW f w).cov = 0 := by
  have key : ∀ {κ : Type} [DecidableEq κ] (key : Fin n → κ), (altW key (fun o => w o * f.y o) w).1 = c := by
    intro κ _ key
    have hne : (keys key).Nonempty := ⟨key ⟨0, hn⟩, Finset.mem_image_of_mem _ (Finset.mem_univ _)⟩
    have hsum : ∀ k, ∑ o ∈ grp key k, w o * f.y o = c * ∑ o ∈ grp key k, w o := by
      intro k
      rw [Finset.mul_sum]; exact Finset.sum_congr rfl fun o _ => by rw [hy]; ring
    simp only [altW, hsum]
    have hA : ∑ k ∈ keys key, (∑ o ∈ grp key k, w o) * (c * (∑ o ∈ grp key k, w o) / ((grp key k).card : ℝ))
        = c * ∑ k ∈ keys key, (∑ o ∈ grp key k, w o) * ((∑ o ∈ grp key k, w o) / ((grp key k).card : ℝ)) := by
      rw [Finset.mul_sum]; exact Finset.sum_congr rfl fun k _ => by ring
    have p1 : 0 < ∑ k ∈ keys key, (∑ o ∈ grp key k, w o) * ((∑ o ∈ grp key k, w o) / ((grp key k).card : ℝ)) := by
      apply Finset.sum_pos _ hne
      intro k hk
      obtain ⟨o, ho⟩ := mem_keys hk
      have h1 : 0 < ((grp key k).card : ℝ) := by exact_mod_cast Finset.card_pos.2 ⟨o, ho⟩
      have h2 : 0 < ∑ o ∈ grp key k, w o := Finset.sum_pos (fun o _ => hw o) ⟨o, ho⟩
      positivity
    rw [hA, mul_div_assoc, div_self p1.ne', mul_one]
  have hloo : ∀ {κ : Type} [DecidableEq κ] (key : Fin n → κ) (o : Fin n),
      looU key (fun o => w o * f.y o) o = c * looU key w o := by
    intro κ _ key o
    simp only [looU, hy, ← Finset.sum_mul]
    ring
  have hpos : ∀ {κ : Type} [DecidableEq κ] (key : Fin n → κ), (∀ o, ∃ o', o' ≠ o ∧ key o' = key o) → ∀ o,
      0 < looU key w o := by
    intro κ _ key hk2 o
    unfold looU
    obtain ⟨o', hne, ho'⟩ := hk2 o
    have hcard : 1 < (grp key (key o)).card :=
      Finset.one_lt_card_iff_nontrivial.2 ⟨o, by simp [grp], o', by simp [grp, ho'], hne.symm⟩
    have hD : (1 : ℝ) < ((grp key (key o)).card : ℝ) := by exact_mod_cast hcard
    apply div_pos _ (by linarith)
    rw [← Finset.add_sum_erase (grp key (key o)) w (a := o) (by simp [grp]), add_sub_cancel_left]
    exact Finset.sum_pos (fun o _ => hw o) ⟨o', by simp [grp, hne, ho']⟩
  constructor
  · simp only [fitAltW, key]; ring
  · simp only [fitAltW, key, hloo]
    have e : ∑ o, w o * (c * looU f.i w o * (c * looU f.j w o)) = c ^ 2 * ∑ o, w o * (looU f.i w o * looU f.j w o) := by
      rw [Finset.mul_sum]; exact Finset.sum_congr rfl fun o _ => by ring
    have p : 0 < ∑ o, w o * (looU f.i w o * looU f.j w o) := Finset.sum_pos (fun o _ =>
      mul_pos (hw o) (mul_pos (hpos f.i h2.1 o) (hpos f.j h2.2 o))) ⟨⟨0, hn⟩, Finset.mem_univ _⟩
    rw [e, mul_div_assoc, div_self p.ne']
    ring

/-- C65: the standard estimator returns zero for both variances and the covariance when every wage is the same. -/
theorem C65_constant_wage (f : Frame n nw nf) (h2 : f.AtLeastTwo) (hn : 0 < n) {w : Fin n → ℝ} (hw : ∀ o, 0 < w o)
    (c : ℝ) (hy : ∀ o, f.y o = c) :
    (fitStdW f w).var_lambda = 0 ∧ (fitStdW f w).var_mu = 0 ∧ (fitStdW f w).cov = 0 ∧ (fitStdW f w).mean_y = c := by
  have hW : (∑ o, w o) ≠ 0 := (Finset.sum_pos (fun o _ => hw o) ⟨⟨0, hn⟩, Finset.mem_univ _⟩).ne'
  have hf : f.withY (fun _ => c) = f := by
    have : f.y = fun _ => c := funext hy
    cases f; simp only [Frame.withY] at *; rw [this]
  have hm : (fitStdW f w).mean_y = c := by
    rw [mean_y_eq f hw]
    simp only [hy, ← Finset.sum_mul]
    field_simp
  have ht := C29_truth f h2 hw hn
  have t1 := ht.1 fun _ => c
  have t2 := ht.2 fun _ => c
  rw [hf] at t1 t2
  have hcm : (∑ o, w o * c) / ∑ o, w o = c := by rw [← Finset.sum_mul]; field_simp
  simp only [hcm, sub_self] at t1 t2
  refine ⟨by rw [t1]; simp, by rw [t2]; simp, ?_, hm⟩
  have hloo : ∀ {κ : Type} [DecidableEq κ] (key : Fin n → κ), (∀ o, ∃ o', o' ≠ o ∧ key o' = key o) → ∀ o,
      looW key (fun o => w o * f.y o) w o = c := by
    intro κ _ key hk2 o
    unfold looW
    have hD : 0 < (∑ o' ∈ grp key (key o), w o') - w o := by
      rw [← Finset.add_sum_erase (grp key (key o)) w (a := o) (by simp [grp]), add_sub_cancel_left]
      obtain ⟨o', hne, ho'⟩ := hk2 o
      exact Finset.sum_pos (fun o _ => hw o) ⟨o', by simp [grp, hne, ho']⟩
    rw [div_eq_iff hD.ne']
    simp only [hy, ← Finset.sum_mul]
    ring
  show (∑ o, w o * (looW f.i (fun o => w o * f.y o) w o * looW f.j (fun o => w o * f.y o) w o)) / (∑ o, w o)
    - (fitStdW f w).mean_y ^ 2 = 0
  simp only [hloo f.i h2.1, hloo f.j h2.2, hm, ← Finset.sum_mul]
  field_simp
  ring

/-- C65 (part): without weights `var(y)` is the variance of the outcomes. -/
theorem C65_var_y_unweighted_partial (f : Frame n nw nf) (alt : Bool) (ret : Bool) {r : Res}
    (h : fit f ret alt false = .ok r) :
    r.var_y = (∑ o, (f.y o - (∑ o, f.y o) / (n : ℝ)) ^ 2) / (n : ℝ) := by
  unfold fit at h
  split at h
  · cases h
  · cases alt <;> (cases h; simp [fitStdU, fitAltU, Util.weightedVar, Util.weightedMean])

/-- C65 fails with weights: `var(y)` is the variance of weight times outcome.  Two observations with the same wage 1
and weights 1 and 2 are reported to have variance `2 / 9` instead of zero. -/
theorem C65_var_y_weighted_wrong :
    let f : Frame 2 1 1 := ⟨fun _ => 0, fun _ => 0, fun _ => 1, some ![1, 2]⟩
    ∃ r, fit f true false true = .ok r ∧ r.var_y = 2 / 9 := by
  refine ⟨_, rfl, ?_⟩
  simp [fitStdW, Util.weightedVar, Util.weightedMean, Fin.sum_univ_two]
  norm_num

/-- C65: data with returns are rejected. -/
theorem C65_returns (f : Frame n nw nf) (alt wt : Bool) : fit f false alt wt = .error "ValueError" := rfl

/-- Two workers, two firms, every match observed once, and unit noise: the hypotheses of the theorems hold. -/
def exF : Frame 4 2 2 := ⟨![0, 0, 1, 1], ![0, 1, 0, 1], ![1, 2, 3, 5], none⟩

example : exF.AtLeastTwo ∧ exF.DistinctMatches := by
  constructor
  · constructor <;> decide
  · unfold Frame.DistinctMatches; decide

/-- Noise of any variances exists, and the estimates from the means of `exF` are not trivial. -/
example (s2 : Fin 4 → ℝ) (h0 : ∀ o, 0 ≤ s2 o) : ∃ (Ω : Type) (_ : MeasurableSpace Ω) (μ : Measure Ω) (eps : Ω → Fin 4 → ℝ),
    FE.Noise μ eps s2 := ⟨_, _, _, _, FE.sign_noise s2 h0⟩

example : ∃ r, fit exF true false false = .ok r ∧ r.mean_y = 11 / 4 := by
  refine ⟨_, rfl, ?_⟩
  simp only [fitStdU_eq]
  rw [mean_y_eq _ (fun o => by simp)]
  simp [exF, Fin.sum_univ_four]
  norm_num

end Pytwoway.BS
