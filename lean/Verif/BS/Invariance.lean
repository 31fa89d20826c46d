import Verif.BS.Props

/-! # C115: names, order of rows, units and sides in the Borovickova-Shimer estimator -/

namespace Pytwoway.BS

open Finset

variable {n nw nf : ℕ} {κ : Type*} [DecidableEq κ]

/-! ## Specification -/

/-- The same observations written down differently: rows in another order, workers and firms under other names,
outcomes measured as `a * y + b` and weights as `c * w`. -/
structure Spec.SameObs (row : Equiv.Perm (Fin n)) (worker : Equiv.Perm (Fin nw)) (firm : Equiv.Perm (Fin nf))
    (a b c : ℝ) (f f' : Frame n nw nf) : Prop where
  worker : ∀ o, f'.i (row o) = worker (f.i o)
  firm : ∀ o, f'.j (row o) = firm (f.j o)
  outcome : ∀ o, f'.y (row o) = a * f.y o + b
  weight : (f.w = none ∧ f'.w = none) ∨ ∃ w w', f.w = some w ∧ f'.w = some w' ∧ ∀ o, w' (row o) = c * w o

/-- The results correspond: the mean in the new unit, variances and covariance in the squared unit, the same
correlation. -/
def Spec.SameRes (a b : ℝ) (r r' : Res) : Prop :=
  r'.mean_y = a * r.mean_y + b ∧ r'.var_lambda = a ^ 2 * r.var_lambda ∧ r'.var_mu = a ^ 2 * r.var_mu ∧
    r'.cov = a ^ 2 * r.cov ∧ (a ≠ 0 → r'.corr = r.corr)

/-- Workers and firms exchanged. -/
def Spec.swap (f : Frame n nw nf) : Frame n nf nw := ⟨f.j, f.i, f.y, f.w⟩

/-! ## Renaming and reordering -/

section relabel

variable {key key' : Fin n → κ} {σ : Equiv.Perm (Fin n)} {π : Equiv.Perm κ}

theorem grp_sum (h : ∀ o, key' (σ o) = π (key o)) (k : κ) (x : Fin n → ℝ) :
    ∑ o ∈ grp key' (π k), x o = ∑ o ∈ grp key k, x (σ o) := by
  unfold grp
  rw [sum_filter, sum_filter, ← Equiv.sum_comp σ]
  simp only [h, π.injective.eq_iff]

theorem grp_card (h : ∀ o, key' (σ o) = π (key o)) (k : κ) : ((grp key' (π k)).card : ℝ) = (grp key k).card := by
  have := grp_sum h k fun _ => (1 : ℝ)
  simpa using this

theorem keys_sum (h : ∀ o, key' (σ o) = π (key o)) (x : κ → ℝ) :
    ∑ k ∈ keys key', x k = ∑ k ∈ keys key, x (π k) := by
  have : keys key' = (keys key).image π := by
    unfold keys
    ext k
    simp only [mem_image, mem_univ, true_and]
    constructor
    · rintro ⟨o, rfl⟩
      refine ⟨_, ⟨σ.symm o, rfl⟩, ?_⟩
      rw [← h, Equiv.apply_symm_apply]
    · rintro ⟨_, ⟨o, rfl⟩, rfl⟩
      exact ⟨σ o, h o⟩
  rw [this, sum_image fun a _ b _ e => π.injective e]

theorem pairSum_relabel (h : ∀ o, key' (σ o) = π (key o)) (k : κ) (x : Fin n → ℝ) :
    pairSum (grp key' (π k)) x = pairSum (grp key k) (x ∘ σ) := by
  rw [pairSum_eq, pairSum_eq, grp_sum h, grp_sum h]
  rfl

theorem meanSq_relabel (h : ∀ o, key' (σ o) = π (key o)) (k : κ) (x : Fin n → ℝ) (w : Option (Fin n → ℝ)) :
    meanSq key' x w (π k) = meanSq key (x ∘ σ) (w.map (· ∘ σ)) k := by
  cases w with
  | none => simp only [meanSq, Option.map_none, pairSum_relabel h, grp_card h]
  | some w => simp only [meanSq, Option.map_some, pairSum_relabel h]

theorem sigmaW_relabel (h : ∀ o, key' (σ o) = π (key o)) (y w : Fin n → ℝ) (m : ℝ) :
    sigmaW key' y w m = sigmaW key (y ∘ σ) (w ∘ σ) m := by
  unfold sigmaW
  rw [keys_sum h, keys_sum h]
  simp only [grp_sum h, meanSq_relabel h, Option.map_some]
  rfl

theorem sigmaU_relabel (h : ∀ o, key' (σ o) = π (key o)) (y : Fin n → ℝ) (m : ℝ) :
    sigmaU key' y m = sigmaU key (y ∘ σ) m := by
  unfold sigmaU
  rw [keys_sum h, keys_sum h]
  simp only [grp_card h, meanSq_relabel h, Option.map_none]

theorem looW_relabel (h : ∀ o, key' (σ o) = π (key o)) (y w : Fin n → ℝ) (o : Fin n) :
    looW key' y w (σ o) = looW key (y ∘ σ) (w ∘ σ) o := by
  unfold looW
  simp only [h, grp_sum h]
  rfl

theorem looU_relabel (h : ∀ o, key' (σ o) = π (key o)) (y : Fin n → ℝ) (o : Fin n) :
    looU key' y (σ o) = looU key (y ∘ σ) o := by
  unfold looU
  simp only [h, grp_sum h, grp_card h]
  rfl

theorem altW_relabel (h : ∀ o, key' (σ o) = π (key o)) (y w : Fin n → ℝ) :
    altW key' y w = altW key (y ∘ σ) (w ∘ σ) := by
  unfold altW
  simp only [keys_sum h, grp_sum h, grp_card h, meanSq_relabel h, Option.map_none]
  rfl

theorem altU_relabel (h : ∀ o, key' (σ o) = π (key o)) (y : Fin n → ℝ) :
    altU key' y = altU key (y ∘ σ) := by
  unfold altU
  simp only [keys_sum h, grp_sum h, grp_card h, meanSq_relabel h, Option.map_none]
  rfl

end relabel

theorem weightedVar_relabel (v : Fin n → ℝ) (σ : Equiv.Perm (Fin n)) (w : Fin n → ℝ) :
    Util.weightedVar v (.vec w) 0 = Util.weightedVar (v ∘ σ) (.vec (w ∘ σ)) 0 ∧
    Util.weightedVar v (.scalar 1) 0 = Util.weightedVar (v ∘ σ) (.scalar 1) 0 := by
  have h1 : Util.weightedMean v (.vec w) = Util.weightedMean (v ∘ σ) (.vec (w ∘ σ)) := by
    unfold Util.weightedMean
    simp only
    rw [← Equiv.sum_comp σ, ← Equiv.sum_comp σ w]
    rfl
  have h2 : Util.weightedMean v (.scalar 1) = Util.weightedMean (v ∘ σ) (.scalar 1) := by
    unfold Util.weightedMean
    simp only
    rw [← Equiv.sum_comp σ]
    rfl
  constructor
  · unfold Util.weightedVar
    simp only
    rw [h1, ← Equiv.sum_comp σ, ← Equiv.sum_comp σ w]
    rfl
  · unfold Util.weightedVar
    simp only
    rw [h2, ← Equiv.sum_comp σ]
    rfl

variable {row : Equiv.Perm (Fin n)} {worker : Equiv.Perm (Fin nw)} {firm : Equiv.Perm (Fin nf)} {f f' : Frame n nw nf}

theorem fit_relabel (hi : ∀ o, f'.i (row o) = worker (f.i o)) (hj : ∀ o, f'.j (row o) = firm (f.j o)) :
    (∀ w', fitStdW f' w' = fitStdW (f.withY (f'.y ∘ row)) (w' ∘ row)) ∧
    fitStdU f' = fitStdU (f.withY (f'.y ∘ row)) ∧
    (∀ w', fitAltW f' w' = fitAltW (f.withY (f'.y ∘ row)) (w' ∘ row)) ∧
    fitAltU f' = fitAltU (f.withY (f'.y ∘ row)) := by
  have hU : ∀ x : Fin n → ℝ, ∑ o, x o = ∑ o, x (row o) := fun x => (Equiv.sum_comp row x).symm
  refine ⟨fun w' => ?_, ?_, fun w' => ?_, ?_⟩
  · unfold fitStdW
    simp only [Frame.withY]
    rw [hU fun o => w' o * (looW f'.i _ w' o * looW f'.j _ w' o), hU w', keys_sum hi, keys_sum hi]
    simp only [grp_sum hi, sigmaW_relabel hi, sigmaW_relabel hj, looW_relabel hi, looW_relabel hj,
      (weightedVar_relabel _ row w').1]
    rfl
  · unfold fitStdU
    simp only [Frame.withY]
    rw [hU fun o => looU f'.i _ o * looU f'.j _ o, keys_sum hi, keys_sum hi]
    simp only [grp_sum hi, grp_card hi, sigmaU_relabel hi, sigmaU_relabel hj, looU_relabel hi, looU_relabel hj,
      (weightedVar_relabel f'.y row 1).2]
    rfl
  · unfold fitAltW
    simp only [Frame.withY]
    rw [hU fun o => w' o * (looU f'.i _ o * looU f'.j _ o), hU fun o => w' o * (looU f'.i w' o * looU f'.j w' o)]
    simp only [altW_relabel hi, altW_relabel hj, looU_relabel hi, looU_relabel hj,
      (weightedVar_relabel _ row w').1]
    rfl
  · unfold fitAltU
    simp only [Frame.withY]
    rw [hU fun o => looU f'.i _ o * looU f'.j _ o]
    simp only [altU_relabel hi, altU_relabel hj, looU_relabel hi, looU_relabel hj,
      (weightedVar_relabel f'.y row 1).2]

/-! ## Units -/

theorem pairSum_scale (G : Finset (Fin n)) (x : Fin n → ℝ) (a : ℝ) :
    pairSum G (fun o => a * x o) = a ^ 2 * pairSum G x := by
  rw [pairSum_eq, pairSum_eq, ← mul_sum]
  have : ∑ o ∈ G, a * x o * (a * x o) = a ^ 2 * ∑ o ∈ G, x o * x o := by
    rw [mul_sum]; exact sum_congr rfl fun o _ => by ring
  rw [this]
  ring

theorem corr_scale {r r' : Res} {a : ℝ} (h1 : r'.var_lambda = a ^ 2 * r.var_lambda) (h2 : r'.var_mu = a ^ 2 * r.var_mu)
    (h3 : r'.cov = a ^ 2 * r.cov) (ha : a ≠ 0) : r'.corr = r.corr := by
  unfold Res.corr
  rw [h1, h2, h3]
  have : a ^ 2 * r.var_lambda * (a ^ 2 * r.var_mu) = (a ^ 2) ^ 2 * (r.var_lambda * r.var_mu) := by ring
  rw [this, Real.sqrt_mul (sq_nonneg _), Real.sqrt_sq (sq_nonneg _), mul_div_mul_left _ _ (pow_ne_zero 2 ha)]

section scale

variable (key : Fin n → κ) (y w : Fin n → ℝ) (a c : ℝ)

theorem sigmaW_scale (hc : 0 < c) (m : ℝ) :
    sigmaW key (fun o => a * y o) (fun o => c * w o) (a * m) = a ^ 2 * sigmaW key y w m := by
  have hs : ∀ o, Real.sqrt (c * w o) = Real.sqrt c * Real.sqrt (w o) := fun o => Real.sqrt_mul hc.le _
  have hc0 : Real.sqrt c ^ 2 ≠ 0 := by rw [Real.sq_sqrt hc.le]; exact hc.ne'
  have hm : ∀ k, meanSq key (fun o => Real.sqrt (c * w o) * (a * y o)) (some fun o => Real.sqrt (c * w o)) k =
      a ^ 2 * meanSq key (fun o => Real.sqrt (w o) * y o) (some fun o => Real.sqrt (w o)) k := by
    intro k
    simp only [meanSq, hs]
    have e : (fun o => Real.sqrt c * Real.sqrt (w o) * (a * y o)) =
        fun o => Real.sqrt c * a * (Real.sqrt (w o) * y o) := by funext o; ring
    rw [e, pairSum_scale, pairSum_scale, mul_pow, mul_assoc, mul_div_mul_left _ _ hc0, mul_div_assoc]
  unfold sigmaW
  simp only [hm, ← mul_sum]
  have e : ∑ k ∈ keys key, c * (∑ o ∈ grp key k, w o) * (a ^ 2 * meanSq key (fun o => Real.sqrt (w o) * y o)
      (some fun o => Real.sqrt (w o)) k) = c * (a ^ 2 * ∑ k ∈ keys key, (∑ o ∈ grp key k, w o) *
        meanSq key (fun o => Real.sqrt (w o) * y o) (some fun o => Real.sqrt (w o)) k) := by
    rw [mul_sum, mul_sum]; exact sum_congr rfl fun k _ => by ring
  rw [e, mul_div_mul_left _ _ hc.ne']
  ring

theorem sigmaU_scale (m : ℝ) : sigmaU key (fun o => a * y o) (a * m) = a ^ 2 * sigmaU key y m := by
  unfold sigmaU
  simp only [meanSq, pairSum_scale]
  have e : ∑ k ∈ keys key, ((grp key k).card : ℝ) * (a ^ 2 * pairSum (grp key k) y /
      (((grp key k).card : ℝ) * (((grp key k).card : ℝ) - 1) / 2)) = a ^ 2 * ∑ k ∈ keys key, ((grp key k).card : ℝ) *
      (pairSum (grp key k) y / (((grp key k).card : ℝ) * (((grp key k).card : ℝ) - 1) / 2)) := by
    rw [mul_sum]; exact sum_congr rfl fun k _ => by ring
  rw [e]
  ring

theorem looW_scale (hc : c ≠ 0) (o : Fin n) :
    looW key (fun o => c * w o * (a * y o)) (fun o => c * w o) o = a * looW key (fun o => w o * y o) w o := by
  unfold looW
  have e : ∑ o' ∈ grp key (key o), c * w o' * (a * y o') = c * (a * ∑ o' ∈ grp key (key o), w o' * y o') := by
    rw [mul_sum, mul_sum]; exact sum_congr rfl fun o _ => by ring
  rw [e, ← mul_sum, ← mul_sub]
  have e2 : c * (a * ∑ o' ∈ grp key (key o), w o' * y o') - c * w o * (a * y o) =
      c * (a * (∑ o' ∈ grp key (key o), w o' * y o' - w o * y o)) := by ring
  rw [e2, mul_div_mul_left _ _ hc, mul_div_assoc]

theorem looU_scale (o : Fin n) : looU key (fun o => a * y o) o = a * looU key y o := by
  unfold looU
  rw [← mul_sum, ← mul_sub, mul_div_assoc]

theorem altW_scale (hc : c ≠ 0) : altW key (fun o => c * w o * (a * y o)) (fun o => c * w o) =
    (a * (altW key (fun o => w o * y o) w).1, a ^ 2 * (altW key (fun o => w o * y o) w).2) := by
  have h1 : ∀ G : Finset (Fin n), ∑ o ∈ G, c * w o * (a * y o) = c * (a * ∑ o ∈ G, w o * y o) := by
    intro G; rw [mul_sum, mul_sum]; exact sum_congr rfl fun o _ => by ring
  have h2 : ∀ k, meanSq key (fun o => c * w o * (a * y o)) none k =
      c ^ 2 * (a ^ 2 * meanSq key (fun o => w o * y o) none k) := by
    intro k
    have e : (fun o => c * w o * (a * y o)) = fun o => c * a * (w o * y o) := by funext o; ring
    simp only [meanSq]
    rw [e, pairSum_scale]
    ring
  have h3 : ∀ k, meanSq key (fun o => c * w o) none k = c ^ 2 * meanSq key w none k := by
    intro k; simp only [meanSq]; rw [pairSum_scale]; ring
  have e1 : ∑ k ∈ keys key, c * (∑ o ∈ grp key k, w o) * (c * (a * ∑ o ∈ grp key k, w o * y o) / ((grp key k).card : ℝ)) =
      c ^ 2 * (a * ∑ k ∈ keys key, (∑ o ∈ grp key k, w o) * ((∑ o ∈ grp key k, w o * y o) / ((grp key k).card : ℝ))) := by
    rw [mul_sum, mul_sum]; exact sum_congr rfl fun k _ => by ring
  have e2 : ∑ k ∈ keys key, c * (∑ o ∈ grp key k, w o) * (c * (∑ o ∈ grp key k, w o) / ((grp key k).card : ℝ)) =
      c ^ 2 * ∑ k ∈ keys key, (∑ o ∈ grp key k, w o) * ((∑ o ∈ grp key k, w o) / ((grp key k).card : ℝ)) := by
    rw [mul_sum]; exact sum_congr rfl fun k _ => by ring
  have e3 : ∑ k ∈ keys key, c * (∑ o ∈ grp key k, w o) * (c ^ 2 * (a ^ 2 * meanSq key (fun o => w o * y o) none k)) =
      c ^ 3 * (a ^ 2 * ∑ k ∈ keys key, (∑ o ∈ grp key k, w o) * meanSq key (fun o => w o * y o) none k) := by
    rw [mul_sum, mul_sum]; exact sum_congr rfl fun k _ => by ring
  have e4 : ∑ k ∈ keys key, c * (∑ o ∈ grp key k, w o) * (2 * (c ^ 2 * meanSq key w none k)) =
      c ^ 3 * ∑ k ∈ keys key, (∑ o ∈ grp key k, w o) * (2 * meanSq key w none k) := by
    rw [mul_sum]; exact sum_congr rfl fun k _ => by ring
  unfold altW
  simp only [h1, h2, h3, ← mul_sum, e1, e2, e3, e4]
  rw [mul_div_mul_left _ _ (pow_ne_zero 2 hc), mul_div_mul_left _ _ (pow_ne_zero 3 hc)]
  ext <;> simp only <;> ring

theorem altU_scale : altU key (fun o => a * y o) = (a * (altU key y).1, a ^ 2 * (altU key y).2) := by
  have h2 : ∀ k, meanSq key (fun o => a * y o) none k = a ^ 2 * meanSq key y none k := by
    intro k; simp only [meanSq]; rw [pairSum_scale]; ring
  have e1 : ∑ k ∈ keys key, ((grp key k).card : ℝ) * (a * (∑ o ∈ grp key k, y o) / ((grp key k).card : ℝ)) =
      a * ∑ k ∈ keys key, ((grp key k).card : ℝ) * ((∑ o ∈ grp key k, y o) / ((grp key k).card : ℝ)) := by
    rw [mul_sum]; exact sum_congr rfl fun k _ => by ring
  have e3 : ∑ k ∈ keys key, ((grp key k).card : ℝ) * (a ^ 2 * meanSq key y none k) =
      a ^ 2 * ∑ k ∈ keys key, ((grp key k).card : ℝ) * meanSq key y none k := by
    rw [mul_sum]; exact sum_congr rfl fun k _ => by ring
  unfold altU
  simp only [h2, ← mul_sum, e1, e3]
  ext <;> simp only <;> ring

end scale

theorem fitStdW_scale (f : Frame n nw nf) (w : Fin n → ℝ) (a c : ℝ) (hc : 0 < c) :
    Spec.SameRes a 0 (fitStdW f w) (fitStdW (f.withY fun o => a * f.y o) fun o => c * w o) := by
  have hm : (fitStdW (f.withY fun o => a * f.y o) fun o => c * w o).mean_y = a * (fitStdW f w).mean_y := by
    simp only [fitStdW, Frame.withY, ← mul_sum]
    have e : ∀ k, ∑ o ∈ grp f.i k, c * w o * (a * f.y o) = c * (a * ∑ o ∈ grp f.i k, w o * f.y o) := by
      intro k; rw [mul_sum, mul_sum]; exact sum_congr rfl fun o _ => by ring
    have e2 : ∑ k ∈ keys f.i, c * (∑ o ∈ grp f.i k, w o) * ((∑ o ∈ grp f.i k, c * w o * (a * f.y o)) /
        (c * ∑ o ∈ grp f.i k, w o)) = c * (a * ∑ k ∈ keys f.i, (∑ o ∈ grp f.i k, w o) *
          ((∑ o ∈ grp f.i k, w o * f.y o) / ∑ o ∈ grp f.i k, w o)) := by
      rw [mul_sum, mul_sum]
      refine sum_congr rfl fun k _ => ?_
      rw [e, mul_div_mul_left _ _ hc.ne']
      ring
    rw [e2, mul_div_mul_left _ _ hc.ne', mul_div_assoc]
  have hl : (fitStdW (f.withY fun o => a * f.y o) fun o => c * w o).var_lambda = a ^ 2 * (fitStdW f w).var_lambda := by
    show sigmaW f.i (fun o => a * f.y o) (fun o => c * w o) (fitStdW _ _).mean_y = a ^ 2 * sigmaW f.i f.y w (fitStdW f w).mean_y
    rw [hm, sigmaW_scale f.i f.y w a c hc]
  have hu : (fitStdW (f.withY fun o => a * f.y o) fun o => c * w o).var_mu = a ^ 2 * (fitStdW f w).var_mu := by
    show sigmaW f.j (fun o => a * f.y o) (fun o => c * w o) (fitStdW _ _).mean_y = a ^ 2 * sigmaW f.j f.y w (fitStdW f w).mean_y
    rw [hm, sigmaW_scale f.j f.y w a c hc]
  have hcv : (fitStdW (f.withY fun o => a * f.y o) fun o => c * w o).cov = a ^ 2 * (fitStdW f w).cov := by
    show (∑ o, c * w o * (looW f.i (fun o => c * w o * (a * f.y o)) (fun o => c * w o) o *
      looW f.j (fun o => c * w o * (a * f.y o)) (fun o => c * w o) o)) / (∑ o, c * w o) - (fitStdW _ _).mean_y ^ 2 =
      a ^ 2 * ((∑ o, w o * (looW f.i (fun o => w o * f.y o) w o * looW f.j (fun o => w o * f.y o) w o)) / (∑ o, w o) -
        (fitStdW f w).mean_y ^ 2)
    rw [hm]
    simp only [looW_scale _ f.y w a c hc.ne', ← mul_sum]
    have e : ∑ o, c * w o * (a * looW f.i (fun o => w o * f.y o) w o * (a * looW f.j (fun o => w o * f.y o) w o)) =
        c * (a ^ 2 * ∑ o, w o * (looW f.i (fun o => w o * f.y o) w o * looW f.j (fun o => w o * f.y o) w o)) := by
      rw [mul_sum, mul_sum]; exact sum_congr rfl fun o _ => by ring
    rw [e, mul_div_mul_left _ _ hc.ne']
    ring
  exact ⟨by rw [hm, add_zero], hl, hu, hcv, corr_scale hl hu hcv⟩

theorem fitAltW_scale (f : Frame n nw nf) (w : Fin n → ℝ) (a c : ℝ) (hc : 0 < c) :
    Spec.SameRes a 0 (fitAltW f w) (fitAltW (f.withY fun o => a * f.y o) fun o => c * w o) := by
  have hA := fun (κ : Type) [DecidableEq κ] (key : Fin n → κ) => altW_scale key f.y w a c hc.ne'
  have hm : (fitAltW (f.withY fun o => a * f.y o) fun o => c * w o).mean_y = a * (fitAltW f w).mean_y := by
    simp only [fitAltW, Frame.withY, hA]; ring
  have hl : (fitAltW (f.withY fun o => a * f.y o) fun o => c * w o).var_lambda = a ^ 2 * (fitAltW f w).var_lambda := by
    simp only [fitAltW, Frame.withY, hA]
  have hu : (fitAltW (f.withY fun o => a * f.y o) fun o => c * w o).var_mu = a ^ 2 * (fitAltW f w).var_mu := by
    simp only [fitAltW, Frame.withY, hA]
  have hcv : (fitAltW (f.withY fun o => a * f.y o) fun o => c * w o).cov = a ^ 2 * (fitAltW f w).cov := by
    simp only [fitAltW, Frame.withY, hA]
    have hL : ∀ (κ : Type) [DecidableEq κ] (key : Fin n → κ) (o : Fin n), looU key (fun o => c * w o * (a * f.y o)) o =
        c * (a * looU key (fun o => w o * f.y o) o) := by
      intro κ _ key o
      have : (fun o => c * w o * (a * f.y o)) = fun o => c * a * (w o * f.y o) := by funext o; ring
      rw [this, looU_scale, mul_assoc]
    have e : ∑ o, c * w o * (c * (a * looU f.i (fun o => w o * f.y o) o) * (c * (a * looU f.j (fun o => w o * f.y o) o))) =
        c ^ 3 * (a ^ 2 * ∑ o, w o * (looU f.i (fun o => w o * f.y o) o * looU f.j (fun o => w o * f.y o) o)) := by
      rw [mul_sum, mul_sum]; exact sum_congr rfl fun o _ => by ring
    have e2 : ∑ o, c * w o * (c * looU f.i w o * (c * looU f.j w o)) = c ^ 3 * ∑ o, w o * (looU f.i w o * looU f.j w o) := by
      rw [mul_sum]; exact sum_congr rfl fun o _ => by ring
    simp only [hL, looU_scale]
    rw [e, e2, mul_div_mul_left _ _ (pow_ne_zero 3 hc.ne')]
    ring
  exact ⟨by rw [hm, add_zero], hl, hu, hcv, corr_scale hl hu hcv⟩

/-! ## Shifting outcomes without weights -/

theorem two_le_card {key : Fin n → κ} (h : ∀ o, ∃ o', o' ≠ o ∧ key o' = key o) {k : κ} (hk : k ∈ keys key) :
    (1 : ℝ) < (grp key k).card := by
  obtain ⟨o, ho⟩ := mem_keys hk
  obtain ⟨o', hne, he⟩ := h o
  have : 1 < (grp key k).card := Finset.one_lt_card.mpr ⟨o, ho, o', by
    simp only [grp, mem_filter, mem_univ, true_and] at ho ⊢
    rw [he, ho], fun e => hne e.symm⟩
  exact_mod_cast this

theorem pairSum_shift (G : Finset (Fin n)) (x : Fin n → ℝ) (b : ℝ) :
    pairSum G (fun o => x o + b) = pairSum G x + (G.card - 1) * (b * ∑ o ∈ G, x o) + G.card * (G.card - 1) / 2 * b ^ 2 := by
  rw [pairSum_eq, pairSum_eq]
  have e : ∑ o ∈ G, (x o + b) * (x o + b) = ∑ o ∈ G, x o * x o + 2 * b * ∑ o ∈ G, x o + G.card * b ^ 2 := by
    rw [mul_sum, ← sum_add_distrib, ← nsmul_eq_mul, ← sum_const, ← sum_add_distrib]
    exact sum_congr rfl fun o _ => by ring
  rw [e, sum_add_distrib, sum_const, nsmul_eq_mul]
  ring

theorem sigmaU_shift (key : Fin n → κ) (h : ∀ o, ∃ o', o' ≠ o ∧ key o' = key o) (hn : 0 < n) (y : Fin n → ℝ) (b : ℝ) :
    sigmaU key (fun o => y o + b) ((∑ o, y o) / n + b) = sigmaU key y ((∑ o, y o) / n) := by
  have hn' : (n : ℝ) ≠ 0 := by exact_mod_cast hn.ne'
  unfold sigmaU
  have e : ∀ k ∈ keys key, ((grp key k).card : ℝ) * meanSq key (fun o => y o + b) none k =
      ((grp key k).card : ℝ) * meanSq key y none k + 2 * b * ∑ o ∈ grp key k, y o + ((grp key k).card : ℝ) * b ^ 2 := by
    intro k hk
    have hc := two_le_card h hk
    have h1 : ((grp key k).card : ℝ) - 1 ≠ 0 := by linarith
    have h0 : ((grp key k).card : ℝ) ≠ 0 := by linarith
    simp only [meanSq, pairSum_shift]
    field_simp
  rw [sum_congr rfl e, sum_add_distrib, sum_add_distrib, ← mul_sum, sum_keys, ← sum_mul, sum_keys_card]
  field_simp
  ring

theorem looU_shift (key : Fin n → κ) (h : ∀ o, ∃ o', o' ≠ o ∧ key o' = key o) (y : Fin n → ℝ) (b : ℝ) (o : Fin n) :
    looU key (fun o => y o + b) o = looU key y o + b := by
  have hc := two_le_card h (k := key o) (by unfold keys; exact mem_image_of_mem _ (mem_univ o))
  have h1 : ((grp key (key o)).card : ℝ) - 1 ≠ 0 := by linarith
  unfold looU
  rw [sum_add_distrib, sum_const, nsmul_eq_mul]
  field_simp
  ring

theorem looU_sum (key : Fin n → κ) (h : ∀ o, ∃ o', o' ≠ o ∧ key o' = key o) (y : Fin n → ℝ) :
    ∑ o, looU key y o = ∑ o, y o := by
  rw [← sum_keys key, ← sum_keys key y]
  refine sum_congr rfl fun k hk => ?_
  have hc := two_le_card h hk
  have h1 : ((grp key k).card : ℝ) - 1 ≠ 0 := by linarith
  have e : ∀ o ∈ grp key k, looU key y o = ((∑ o' ∈ grp key k, y o') - y o) / (((grp key k).card : ℝ) - 1) := by
    intro o ho
    simp only [grp, mem_filter, mem_univ, true_and] at ho
    unfold looU
    rw [ho]
  rw [sum_congr rfl e, ← sum_div, sum_sub_distrib, sum_const, nsmul_eq_mul]
  field_simp

theorem meanU_eq (f : Frame n nw nf) : (fitStdU f).mean_y = (∑ o, f.y o) / (n : ℝ) := by
  rw [(fitStdU_eq f).1, mean_y_eq f (fun o => by simp)]
  simp

theorem fitStdU_affine (f : Frame n nw nf) (a b : ℝ) (hb : b = 0 ∨ (f.AtLeastTwo ∧ 0 < n)) :
    Spec.SameRes a b (fitStdU f) (fitStdU (f.withY fun o => a * f.y o + b)) := by
  have scale : Spec.SameRes a 0 (fitStdU f) (fitStdU (f.withY fun o => a * f.y o)) := by
    have hm : (fitStdU (f.withY fun o => a * f.y o)).mean_y = a * (fitStdU f).mean_y := by
      rw [meanU_eq, meanU_eq]
      simp only [Frame.withY, ← mul_sum]
      ring
    have hl : (fitStdU (f.withY fun o => a * f.y o)).var_lambda = a ^ 2 * (fitStdU f).var_lambda := by
      show sigmaU f.i (fun o => a * f.y o) (fitStdU _).mean_y = a ^ 2 * sigmaU f.i f.y (fitStdU f).mean_y
      rw [hm, sigmaU_scale]
    have hu : (fitStdU (f.withY fun o => a * f.y o)).var_mu = a ^ 2 * (fitStdU f).var_mu := by
      show sigmaU f.j (fun o => a * f.y o) (fitStdU _).mean_y = a ^ 2 * sigmaU f.j f.y (fitStdU f).mean_y
      rw [hm, sigmaU_scale]
    have hcv : (fitStdU (f.withY fun o => a * f.y o)).cov = a ^ 2 * (fitStdU f).cov := by
      show (∑ o, looU f.i (fun o => a * f.y o) o * looU f.j (fun o => a * f.y o) o) / (n : ℝ) - (fitStdU _).mean_y ^ 2 =
        a ^ 2 * ((∑ o, looU f.i f.y o * looU f.j f.y o) / (n : ℝ) - (fitStdU f).mean_y ^ 2)
      rw [hm]
      simp only [looU_scale]
      have e : ∑ o, a * looU f.i f.y o * (a * looU f.j f.y o) = a ^ 2 * ∑ o, looU f.i f.y o * looU f.j f.y o := by
        rw [mul_sum]; exact sum_congr rfl fun o _ => by ring
      rw [e]; ring
    exact ⟨by rw [hm, add_zero], hl, hu, hcv, corr_scale hl hu hcv⟩
  rcases hb with rfl | ⟨h2, hn⟩
  · simpa using scale
  have hn' : (n : ℝ) ≠ 0 := by exact_mod_cast hn.ne'
  obtain ⟨s1, s2, s3, s4, s5⟩ := scale
  set f1 := f.withY fun o => a * f.y o with hf1
  have hf2 : (f.withY fun o => a * f.y o + b) = f1.withY fun o => f1.y o + b := rfl
  have h21 : f1.AtLeastTwo := h2
  rw [hf2]
  have hm : (fitStdU (f1.withY fun o => f1.y o + b)).mean_y = (fitStdU f1).mean_y + b := by
    rw [meanU_eq, meanU_eq]
    simp only [Frame.withY, sum_add_distrib, sum_const, card_univ, Fintype.card_fin, nsmul_eq_mul]
    field_simp
  have hl : (fitStdU (f1.withY fun o => f1.y o + b)).var_lambda = (fitStdU f1).var_lambda := by
    show sigmaU f1.i (fun o => f1.y o + b) (fitStdU _).mean_y = sigmaU f1.i f1.y (fitStdU f1).mean_y
    rw [hm, meanU_eq, sigmaU_shift f1.i h21.1 hn]
  have hu : (fitStdU (f1.withY fun o => f1.y o + b)).var_mu = (fitStdU f1).var_mu := by
    show sigmaU f1.j (fun o => f1.y o + b) (fitStdU _).mean_y = sigmaU f1.j f1.y (fitStdU f1).mean_y
    rw [hm, meanU_eq, sigmaU_shift f1.j h21.2 hn]
  have hcv : (fitStdU (f1.withY fun o => f1.y o + b)).cov = (fitStdU f1).cov := by
    show (∑ o, looU f1.i (fun o => f1.y o + b) o * looU f1.j (fun o => f1.y o + b) o) / (n : ℝ) -
      (fitStdU _).mean_y ^ 2 = (∑ o, looU f1.i f1.y o * looU f1.j f1.y o) / (n : ℝ) - (fitStdU f1).mean_y ^ 2
    rw [hm, meanU_eq]
    simp only [looU_shift _ h21.1, looU_shift _ h21.2]
    have e : ∑ o, (looU f1.i f1.y o + b) * (looU f1.j f1.y o + b) = ∑ o, looU f1.i f1.y o * looU f1.j f1.y o +
        b * ∑ o, looU f1.i f1.y o + b * ∑ o, looU f1.j f1.y o + n * b ^ 2 := by
      have : (n : ℝ) * b ^ 2 = ∑ _o : Fin n, b ^ 2 := by simp
      rw [this, mul_sum, mul_sum, ← sum_add_distrib, ← sum_add_distrib, ← sum_add_distrib]
      exact sum_congr rfl fun o _ => by ring
    rw [e, looU_sum _ h21.1, looU_sum _ h21.2]
    field_simp
    ring
  have hl' := hl.trans s2
  have hu' := hu.trans s3
  have hcv' := hcv.trans s4
  exact ⟨by rw [hm, s1, add_zero], hl', hu', hcv', corr_scale hl' hu' hcv'⟩

/-! ## Groups as sets of rows -/

/-- Groups as sets of rows: whatever the estimator, renaming workers and firms, reordering rows, measuring outcomes in another unit
(`a * y`) and weights in another unit (`c * w`, `c > 0`) does not change the results, which are in the unit (or squared
unit) of the outcome.  Adding a constant `b` to every outcome only moves the mean, provided no weights are used and every
worker and firm has two observations.  `C115_units_partial` carries this over to rows. -/
theorem units_sets (f f' : Frame n nw nf) (a b c : ℝ) (hc : 0 < c)
    (h : Spec.SameObs row worker firm a b c f f') (alternative weighted : Bool)
    (hb : b = 0 ∨ ((weighted = false ∨ f.w = none) ∧ f.AtLeastTwo ∧ 0 < n)) :
    ∃ r r', fit f true alternative weighted = .ok r ∧ fit f' true alternative weighted = .ok r' ∧ Spec.SameRes a b r r' := by
  obtain ⟨r1, r2, r3, r4⟩ := fit_relabel h.worker h.firm
  have hy : f'.y ∘ row = fun o => a * f.y o + b := funext h.outcome
  have hbU : b = 0 ∨ (f.AtLeastTwo ∧ 0 < n) := hb.imp id fun h => h.2
  have hU : Spec.SameRes a b (fitStdU f) (fitStdU f') := by
    rw [r2, hy]; exact fitStdU_affine f a b hbU
  have hAU : Spec.SameRes a b (fitAltU f) (fitAltU f') := by
    rw [C65_alternative_unweighted, C65_alternative_unweighted]; exact hU
  have hW : ∀ w w', f.w = some w → weighted = true → (∀ o, w' (row o) = c * w o) →
      Spec.SameRes a b (fitStdW f w) (fitStdW f' w') ∧ Spec.SameRes a b (fitAltW f w) (fitAltW f' w') := by
    intro w w' hw hwt hww
    have hb0 : b = 0 := by
      rcases hb with hb | ⟨h1 | h1, -⟩
      · exact hb
      · rw [hwt] at h1; cases h1
      · rw [hw] at h1; cases h1
    subst hb0
    have hwc : w' ∘ row = fun o => c * w o := funext hww
    rw [r1, r3, hy, hwc]
    simp only [add_zero]
    exact ⟨fitStdW_scale f w a c hc, fitAltW_scale f w a c hc⟩
  unfold fit
  rcases h.weight with ⟨h1, h2⟩ | ⟨w, w', h1, h2, hww⟩
  · rw [h1, h2]
    cases alternative <;> cases weighted <;> refine ⟨_, _, rfl, rfl, ?_⟩ <;> first | exact hU | exact hAU
  · rw [h1, h2]
    cases alternative <;> cases weighted <;> refine ⟨_, _, rfl, rfl, ?_⟩
    · exact hU
    · exact (hW w w' h1 rfl hww).1
    · exact hAU
    · exact (hW w w' h1 rfl hww).2

/-- Groups as sets of rows: exchanging the roles of workers and firms exchanges the two variances and leaves the mean, the
covariance and the correlation as they are, for every estimator. -/
theorem sides_sets (f : Frame n nw nf) (hw : ∀ w, f.w = some w → ∀ o, 0 < w o) (alternative weighted : Bool) :
    ∃ r r', fit f true alternative weighted = .ok r ∧ fit (Spec.swap f) true alternative weighted = .ok r' ∧
      r'.mean_y = r.mean_y ∧ r'.var_lambda = r.var_mu ∧ r'.var_mu = r.var_lambda ∧ r'.cov = r.cov ∧
      r'.corr = r.corr ∧ r'.var_y = r.var_y := by
  have hcorr : ∀ r r' : Res, r'.var_lambda = r.var_mu → r'.var_mu = r.var_lambda → r'.cov = r.cov → r'.corr = r.corr := by
    intro r r' h1 h2 h3
    unfold Res.corr
    rw [h1, h2, h3, mul_comm]
  have hU : (fitStdU (Spec.swap f)).mean_y = (fitStdU f).mean_y := by rw [meanU_eq, meanU_eq]; rfl
  have stdU : (fitStdU (Spec.swap f)).var_lambda = (fitStdU f).var_mu ∧ (fitStdU (Spec.swap f)).var_mu = (fitStdU f).var_lambda ∧
      (fitStdU (Spec.swap f)).cov = (fitStdU f).cov ∧ (fitStdU (Spec.swap f)).var_y = (fitStdU f).var_y := by
    refine ⟨?_, ?_, ?_, rfl⟩
    · show sigmaU f.j f.y (fitStdU (Spec.swap f)).mean_y = sigmaU f.j f.y (fitStdU f).mean_y
      rw [hU]
    · show sigmaU f.i f.y (fitStdU (Spec.swap f)).mean_y = sigmaU f.i f.y (fitStdU f).mean_y
      rw [hU]
    · show (∑ o, looU f.j f.y o * looU f.i f.y o) / (n : ℝ) - (fitStdU (Spec.swap f)).mean_y ^ 2 =
        (∑ o, looU f.i f.y o * looU f.j f.y o) / (n : ℝ) - (fitStdU f).mean_y ^ 2
      rw [hU]
      simp only [mul_comm]
  have hW : ∀ w, f.w = some w → (fitStdW (Spec.swap f) w).mean_y = (fitStdW f w).mean_y := by
    intro w h; rw [mean_y_eq _ (hw w h), mean_y_eq _ (hw w h)]; rfl
  have stdW : ∀ w, f.w = some w → (fitStdW (Spec.swap f) w).var_lambda = (fitStdW f w).var_mu ∧
      (fitStdW (Spec.swap f) w).var_mu = (fitStdW f w).var_lambda ∧ (fitStdW (Spec.swap f) w).cov = (fitStdW f w).cov ∧
      (fitStdW (Spec.swap f) w).var_y = (fitStdW f w).var_y := by
    intro w h
    refine ⟨?_, ?_, ?_, rfl⟩
    · show sigmaW f.j f.y w (fitStdW (Spec.swap f) w).mean_y = sigmaW f.j f.y w (fitStdW f w).mean_y
      rw [hW w h]
    · show sigmaW f.i f.y w (fitStdW (Spec.swap f) w).mean_y = sigmaW f.i f.y w (fitStdW f w).mean_y
      rw [hW w h]
    · show (∑ o, w o * (looW f.j (fun o => w o * f.y o) w o * looW f.i (fun o => w o * f.y o) w o)) / (∑ o, w o) -
          (fitStdW (Spec.swap f) w).mean_y ^ 2 =
        (∑ o, w o * (looW f.i (fun o => w o * f.y o) w o * looW f.j (fun o => w o * f.y o) w o)) / (∑ o, w o) -
          (fitStdW f w).mean_y ^ 2
      rw [hW w h]
      congr 2
      exact sum_congr rfl fun o _ => by ring
  have altW : ∀ w, (fitAltW (Spec.swap f) w).mean_y = (fitAltW f w).mean_y ∧
      (fitAltW (Spec.swap f) w).var_lambda = (fitAltW f w).var_mu ∧
      (fitAltW (Spec.swap f) w).var_mu = (fitAltW f w).var_lambda ∧ (fitAltW (Spec.swap f) w).cov = (fitAltW f w).cov ∧
      (fitAltW (Spec.swap f) w).var_y = (fitAltW f w).var_y := by
    intro w
    refine ⟨?_, rfl, rfl, ?_, rfl⟩
    · simp only [fitAltW, Spec.swap, add_comm]
    · simp only [fitAltW, Spec.swap]
      congr 1
      · congr 1 <;> exact sum_congr rfl fun o _ => by ring
      · ring
  have fin : ∀ r r' : Res, r'.mean_y = r.mean_y ∧ r'.var_lambda = r.var_mu ∧ r'.var_mu = r.var_lambda ∧ r'.cov = r.cov ∧
      r'.var_y = r.var_y → r'.mean_y = r.mean_y ∧ r'.var_lambda = r.var_mu ∧ r'.var_mu = r.var_lambda ∧ r'.cov = r.cov ∧
      r'.corr = r.corr ∧ r'.var_y = r.var_y := fun r r' h => ⟨h.1, h.2.1, h.2.2.1, h.2.2.2.1, hcorr _ _ h.2.1 h.2.2.1 h.2.2.2.1, h.2.2.2.2⟩
  have fU : ∀ g : Frame n nf nw, g = Spec.swap f → ∃ r r', (Except.ok (fitStdU f) : Except String Res) = .ok r ∧ (Except.ok (fitStdU g) : Except String Res) = .ok r' ∧ r'.mean_y = r.mean_y ∧ r'.var_lambda = r.var_mu ∧ r'.var_mu = r.var_lambda ∧ r'.cov = r.cov ∧
      r'.corr = r.corr ∧ r'.var_y = r.var_y := by
    rintro g rfl
    exact ⟨_, _, rfl, rfl, fin _ _ ⟨hU, stdU⟩⟩
  unfold fit
  have hsw : (Spec.swap f).w = f.w := rfl
  rw [hsw]
  cases hfw : f.w with
  | none =>
    cases alternative <;> cases weighted <;> simp only [C65_alternative_unweighted] <;> exact fU _ rfl
  | some w =>
    cases alternative <;> cases weighted <;> simp only [C65_alternative_unweighted]
    · exact fU _ rfl
    · exact ⟨_, _, rfl, rfl, fin _ _ ⟨hW w hfw, stdW w hfw⟩⟩
    · exact fU _ rfl
    · exact ⟨_, _, rfl, rfl, fin _ _ (altW w)⟩

/-- Two workers at two firms, each match observed once. -/
noncomputable def exShift (b : ℝ) : Frame 4 2 2 :=
  ⟨![0, 0, 1, 1], ![0, 1, 0, 1], fun o => ![0, 2, 0, 0] o + b, some ![1, 4, 1, 1]⟩

/-- The computation behind `C115_weighted_shift_wrong`: adding 1 to every outcome changes the weighted variance of worker types
from `-64/49` to `-106/49` on a panel that meets every condition of the estimator. -/
theorem shift_wrong_sets : (exShift 0).AtLeastTwo ∧ (exShift 0).DistinctMatches ∧
    Spec.SameObs 1 1 1 1 1 1 (exShift 0) (exShift 1) ∧
    ∃ r r', fit (exShift 0) true false true = .ok r ∧ fit (exShift 1) true false true = .ok r' ∧
      r.var_lambda = -64 / 49 ∧ r'.var_lambda = -106 / 49 := by
  have h4 : Real.sqrt 4 = 2 := by
    rw [show (4 : ℝ) = 2 ^ 2 by norm_num]; exact Real.sqrt_sq (by norm_num)
  have hk : keys (exShift 0).i = {0, 1} := by decide
  have g0 : grp (exShift 0).i 0 = {0, 1} := by decide
  have g1 : grp (exShift 0).i 1 = {2, 3} := by decide
  have hv : ∀ b, (fitStdW (exShift b) ![1, 4, 1, 1]).var_lambda = (5 * ((0 + b) * (2 + b)) + 2 * (b * b)) / 7 - ((8 + 7 * b) / 7) ^ 2 := by
    intro b
    have hk : keys (exShift b).i = {0, 1} := hk
    have g0 : grp (exShift b).i 0 = {0, 1} := g0
    have g1 : grp (exShift b).i 1 = {2, 3} := g1
    have hw : ∀ o, (0 : ℝ) < (![1, 4, 1, 1] : Fin 4 → ℝ) o := by intro o; fin_cases o <;> simp
    have hmean : (fitStdW (exShift b) ![1, 4, 1, 1]).mean_y = (8 + 7 * b) / 7 := by
      rw [mean_y_eq _ hw]
      simp [exShift, Fin.sum_univ_four]
      ring
    show sigmaW (exShift b).i (exShift b).y ![1, 4, 1, 1] (fitStdW (exShift b) ![1, 4, 1, 1]).mean_y = _
    rw [hmean]
    unfold sigmaW
    rw [hk, sum_pair (by decide), sum_pair (by decide)]
    simp only [meanSq, pairSum_eq, g0, g1]
    simp [exShift, h4]
    ring
  refine ⟨⟨by decide, by decide⟩, by unfold Frame.DistinctMatches; decide, ⟨fun _ => rfl, fun _ => rfl, fun o => by simp [exShift], .inr ⟨_, _, rfl, rfl, fun o => by simp⟩⟩, _, _, rfl, rfl, ?_, ?_⟩
  · show (fitStdW (exShift 0) ![1, 4, 1, 1]).var_lambda = _
    rw [hv]; norm_num
  · show (fitStdW (exShift 1) ![1, 4, 1, 1]).var_lambda = _
    rw [hv]; norm_num

/-- C115 fails for `var(y)` with weights: multiplying every weight by `c` multiplies it by `c ^ 2`. -/
theorem C115_var_y_weight_units (f : Frame n nw nf) (w : Fin n → ℝ) (c : ℝ) (hc : 0 < c) :
    (fitStdW f fun o => c * w o).var_y = c ^ 2 * (fitStdW f w).var_y ∧
    (fitAltW f fun o => c * w o).var_y = c ^ 2 * (fitAltW f w).var_y := by
  have h : Util.weightedVar (fun o => c * w o * f.y o) (.vec fun o => c * w o) 0 =
      c ^ 2 * Util.weightedVar (fun o => w o * f.y o) (.vec w) 0 := by
    have hm : Util.weightedMean (fun o => c * w o * f.y o) (.vec fun o => c * w o) =
        c * Util.weightedMean (fun o => w o * f.y o) (.vec w) := by
      unfold Util.weightedMean
      simp only [← mul_sum]
      have e : ∑ o, c * w o * (c * w o * f.y o) = c * (c * ∑ o, w o * (w o * f.y o)) := by
        rw [mul_sum, mul_sum]; exact sum_congr rfl fun o _ => by ring
      rw [e, mul_div_mul_left _ _ hc.ne', mul_div_assoc]
    unfold Util.weightedVar
    simp only [hm, ← mul_sum, sub_zero]
    have e : ∑ o, c * w o * (c * w o * f.y o - c * Util.weightedMean (fun o => w o * f.y o) (.vec w)) ^ 2 =
        c * (c ^ 2 * ∑ o, w o * (w o * f.y o - Util.weightedMean (fun o => w o * f.y o) (.vec w)) ^ 2) := by
      rw [mul_sum, mul_sum]; exact sum_congr rfl fun o _ => by ring
    rw [e, mul_div_mul_left _ _ hc.ne', mul_div_assoc]
  exact ⟨h, h⟩

end Pytwoway.BS
