import Mathlib.Data.List.GetD
import Verif.FE.Props
import Verif.Util.Props2

/-!
# C93: the basic statistics reported before estimation

`FEEstimator._prep_vars` and `_compute_early_stats` (fe.py:406-437, 550-584; the same lines are in
fecontrol.py:479-504, 639-661).
-/

namespace Pytwoway.FE

open Pytwoway.Util
open scoped BigOperators

variable {n m nw : ℕ}

namespace Panel

variable (d : Panel n m nw)

/-! ## Model -/

/-- `self.adata.n_workers()` on all rows, fe.py:414, 421: the number of distinct ids in column `i`. -/
def nWorkers : ℕ := (Finset.univ.image d.i).card

/-- `self.res['n_movers']`, fe.py:422: distinct worker ids among the rows whose column `m` is
positive. -/
def nMovers (mv : Fin n → ℕ) : ℕ := ((Finset.univ.filter fun o => 0 < mv o).image d.i).card

/-- `self.res['n_stayers']`, fe.py:423 (Python integers, so the difference can be negative). -/
def nStayers (mv : Fin n → ℕ) : ℤ := d.nWorkers - d.nMovers mv

/-- `self.worker_m = self.adata.get_worker_m(is_sorted=True)`, fe.py:427: for each row, whether its
worker has any row with `m > 0` (bipartitepandas; `True` counts as 1 in the sums below).  `Panel.workerM` of `Verif/FE/Model.lean` is
the same on clean data, where `m` is positive exactly on the rows next to a change of firm. -/
def rowMover (mv : Fin n → ℕ) (o : Fin n) : ℝ := if ∃ o', d.i o' = d.i o ∧ 0 < mv o' then 1 else 0

/-- The groups of `self.adata.groupby('j')`, fe.py:557, 563: the firms that have rows. -/
def firms : Finset (Fin (m + 1)) := Finset.univ.image d.j

/-- `fi`, fe.py:558 (weighted: sum of `w`) and 564 (unweighted: count of `i`). -/
def fi (k : Fin (m + 1)) : ℝ :=
  if d.weighted then ∑ o with d.j o = k, d.w o else ((Finset.univ.filter fun o => d.j o = k).card : ℝ)

/-- `fy`, fe.py:556-559 (weighted: sum of `Dp * Y` over `fi`) and 563-564 (unweighted: mean of
`y`). -/
noncomputable def fy (k : Fin (m + 1)) : ℝ :=
  if d.weighted then (∑ o with d.j o = k, d.Dp o * d.y o) / d.fi k
  else (∑ o with d.j o = k, d.y o) / ((Finset.univ.filter fun o => d.j o = k).card : ℝ)

/-- `fm`, fe.py:555, 558 (weighted: sum of `Dp * worker_m`) and 562-564 (unweighted: sum of
`worker_m`). -/
def fm (mv : Fin n → ℕ) (k : Fin (m + 1)) : ℝ :=
  if d.weighted then ∑ o with d.j o = k, d.Dp o * d.rowMover mv o
  else ∑ o with d.j o = k, d.rowMover mv o

/-- `self.res['between_firm_var'] = weighted_var(fy, fi)`, fe.py:570. -/
noncomputable def betweenFirmVar : ℝ :=
  weightedVar (fun k : d.firms => d.fy k) (.vec fun k : d.firms => d.fi k) 0

/-- `self.res['var(y)'] = weighted_var(self.Y, self.Dp)`, fe.py:571. -/
noncomputable def varY : ℝ := weightedVar d.y d.DpW 0

/-- `ls = np.linspace(0, 1, 11)`, fe.py:566. -/
noncomputable def ls : List ℝ := (List.range 11).map fun k : ℕ => (k : ℝ) / 10

/-- `self.res['mover_quantiles']`, fe.py:567.  `groupby` lists the firms in increasing order. -/
noncomputable def moverQuantiles (sorter : List (ℝ × ℝ) → List (ℝ × ℝ)) (mv : Fin n → ℕ) :
    QuantileResult :=
  weightedQuantile sorter ((d.firms.sort (· ≤ ·)).map fun k => (d.fm mv k, d.fi k)) ls false false

/-- `self.res['size_quantiles']`, fe.py:568. -/
noncomputable def sizeQuantiles (sorter : List (ℝ × ℝ) → List (ℝ × ℝ)) : QuantileResult :=
  weightedQuantile sorter ((d.firms.sort (· ≤ ·)).map fun k => (d.fi k, d.fi k)) ls false false

end Panel

/-! ## Specification -/

/-- The weight of a row: its `w` if the estimator uses weights, otherwise 1. -/
def Spec.weight (d : Panel n m nw) (o : Fin n) : ℝ := if d.weighted then d.w o else 1

/-- Weighted mean of `x` over the rows satisfying `p`. -/
noncomputable def Spec.mean (d : Panel n m nw) (x : Fin n → ℝ) (p : Fin n → Prop) [DecidablePred p] : ℝ :=
  (∑ o with p o, Spec.weight d o * x o) / ∑ o with p o, Spec.weight d o

/-- A worker is a mover if some row of theirs has a positive `m`. -/
def Spec.IsMover (d : Panel n m nw) (mv : Fin n → ℕ) (i : Fin nw) : Prop := ∃ o, d.i o = i ∧ 0 < mv o

/-! ## Lemmas -/

section lemmas

variable {d : Panel n m nw}

theorem weight_eq (d : Panel n m nw) (o : Fin n) : Spec.weight d o = d.Dp o := rfl

theorem fi_eq (d : Panel n m nw) (k : Fin (m + 1)) : d.fi k = ∑ o with d.j o = k, d.Dp o := by
  unfold Panel.fi Panel.Dp
  split <;> simp

theorem fy_eq (d : Panel n m nw) (k : Fin (m + 1)) :
    d.fy k = Spec.mean d d.y (fun o => d.j o = k) := by
  unfold Panel.fy Spec.mean Panel.fi Spec.weight Panel.Dp
  split <;> simp

theorem fm_eq (d : Panel n m nw) (mv : Fin n → ℕ) (k : Fin (m + 1)) :
    d.fm mv k = ∑ o with d.j o = k, d.Dp o * d.rowMover mv o := by
  unfold Panel.fm Panel.Dp
  cases d.weighted <;> simp

theorem varDp_eq (d : Panel n m nw) (x : Fin n → ℝ) :
    weightedVar x d.DpW 0
      = (∑ o, d.Dp o * (x o - Spec.mean d x fun _ => True) ^ 2) / ∑ o, d.Dp o := by
  unfold Spec.mean Spec.weight Panel.DpW Panel.Dp
  cases d.weighted <;> simp [weightedVar, weightedMean]

/-- Sums over firms of firm totals are sums over rows. -/
theorem firms_sum (d : Panel n m nw) (f : Fin n → ℝ) (g : Fin (m + 1) → ℝ) :
    ∑ k : d.firms, (∑ o with d.j o = k, f o) * g k = ∑ o, f o * g (d.j o) := by
  rw [Finset.sum_coe_sort d.firms (fun k => (∑ o with d.j o = k, f o) * g k)]
  rw [← Finset.sum_fiberwise_of_maps_to (t := d.firms) (g := d.j)
    (fun o _ => Finset.mem_image_of_mem _ (Finset.mem_univ o))]
  refine Finset.sum_congr rfl fun k _ => ?_
  rw [Finset.sum_mul]
  refine Finset.sum_congr rfl fun o ho => ?_
  rw [(Finset.mem_filter.mp ho).2]

theorem firm_weight_pos (hv : d.Valid) {k : Fin (m + 1)} (hk : k ∈ d.firms) :
    0 < ∑ o with d.j o = k, d.Dp o := by
  obtain ⟨o, _, ho⟩ := Finset.mem_image.mp hk
  exact Finset.sum_pos (fun o _ => hv.wpos o) ⟨o, by simp [ho]⟩

theorem mean_mul (hv : d.Valid) (x : Fin n → ℝ) (o : Fin n) :
    (∑ o' with d.j o' = d.j o, d.Dp o') * Spec.mean d x (fun o' => d.j o' = d.j o)
      = ∑ o' with d.j o' = d.j o, d.Dp o' * x o' := by
  have := (firm_weight_pos hv (k := d.j o) (Finset.mem_image_of_mem _ (Finset.mem_univ o))).ne'
  unfold Spec.mean
  simp only [weight_eq]
  field_simp

/-- Rows' deviations from their own firm's mean cancel within the firm. -/
theorem within_orth (hv : d.Valid) (x : Fin n → ℝ) (h : Fin (m + 1) → ℝ) :
    ∑ o, d.Dp o * (x o - Spec.mean d x fun o' => d.j o' = d.j o) * h (d.j o) = 0 := by
  rw [← firms_sum d (fun o => d.Dp o * (x o - Spec.mean d x fun o' => d.j o' = d.j o)) h]
  refine Finset.sum_eq_zero fun k _ => ?_
  obtain ⟨k, hk⟩ := k
  obtain ⟨o, _, rfl⟩ := Finset.mem_image.mp hk
  have : ∑ o' with d.j o' = d.j o, d.Dp o' * (x o' - Spec.mean d x fun o'' => d.j o'' = d.j o')
      = ∑ o' with d.j o' = d.j o, (d.Dp o' * x o' - d.Dp o' * Spec.mean d x fun o'' => d.j o'' = d.j o) := by
    refine Finset.sum_congr rfl fun o' ho' => ?_
    rw [(Finset.mem_filter.mp ho').2]; ring
  simp only [this, Finset.sum_sub_distrib, ← Finset.sum_mul, mean_mul hv, sub_self, zero_mul]

/-- Total = between + within, as sums of squares around any point. -/
theorem ss_decomp (hv : d.Valid) (x : Fin n → ℝ) (c : ℝ) :
    ∑ o, d.Dp o * (x o - c) ^ 2
      = ∑ o, d.Dp o * ((Spec.mean d x fun o' => d.j o' = d.j o) - c) ^ 2
        + ∑ o, d.Dp o * (x o - Spec.mean d x fun o' => d.j o' = d.j o) ^ 2 := by
  have h := within_orth hv x (fun k => 2 * ((Spec.mean d x fun o' => d.j o' = k) - c))
  rw [← sub_eq_zero, ← h, ← Finset.sum_add_distrib, ← Finset.sum_sub_distrib]
  refine Finset.sum_congr rfl fun o _ => ?_
  ring

end lemmas

/-! ## Properties -/

section C93

variable {d : Panel n m nw}

/-- C93: `between_firm_var` is the weighted variance over rows of the mean of `y` in each row's
firm. -/
theorem C93_between (hv : d.Valid) :
    d.betweenFirmVar
      = (∑ o, Spec.weight d o *
          (Spec.mean d d.y (fun o' => d.j o' = d.j o) - Spec.mean d d.y fun _ => True) ^ 2)
        / ∑ o, Spec.weight d o := by
  have hden : ∑ k : d.firms, d.fi k = ∑ o, d.Dp o := by
    have := firms_sum d d.Dp (fun _ => 1)
    simpa only [mul_one, ← fi_eq] using this
  have hmean : weightedMean (fun k : d.firms => d.fy k) (.vec fun k : d.firms => d.fi k)
      = Spec.mean d d.y fun _ => True := by
    simp only [weightedMean, hden, Spec.mean, weight_eq, Finset.filter_true]
    congr 1
    have := firms_sum d d.Dp d.fy
    simp only [← fi_eq] at this
    rw [this]
    have h2 := within_orth hv d.y (fun _ => 1)
    simp only [mul_one, mul_sub, Finset.sum_sub_distrib, sub_eq_zero] at h2
    rw [h2]
    exact Finset.sum_congr rfl fun o _ => by rw [fy_eq]
  simp only [Panel.betweenFirmVar, weightedVar, hmean, sub_zero, hden, weight_eq]
  congr 1
  have := firms_sum d d.Dp (fun k => (d.fy k - Spec.mean d d.y fun _ => True) ^ 2)
  simp only [← fi_eq] at this
  rw [this]
  exact Finset.sum_congr rfl fun o _ => by rw [fy_eq]

/-- C93: `var(y)` is `between_firm_var` plus the weighted mean of the squared deviations from the
firm means. -/
theorem C93_decomposition (hv : d.Valid) :
    d.varY = d.betweenFirmVar
      + (∑ o, Spec.weight d o * (d.y o - Spec.mean d d.y fun o' => d.j o' = d.j o) ^ 2)
        / ∑ o, Spec.weight d o := by
  rw [C93_between hv, Panel.varY, varDp_eq, ss_decomp hv, add_div]
  rfl

/-- C93: the reported statistics are ordered.  The variance between firms is at most the variance
that worker and firm effects together explain, which is at most `var(y)`; the last gap is the weighted
mean of the squared residuals. -/
theorem C93_ordering (hv : d.Valid) {solve : (Fin m → ℝ) → (Fin m → ℝ)} (hs : d.GoodSolver solve) :
    0 ≤ d.betweenFirmVar ∧
    d.betweenFirmVar ≤ d.varFe solve d.qPsi + d.varFe solve d.qAlpha + 2 * d.covFe solve d.qPsi d.qAlpha ∧
    d.varY = d.varFe solve d.qPsi + d.varFe solve d.qAlpha + 2 * d.covFe solve d.qPsi d.qAlpha
      + (∑ o, Spec.weight d o * (d.y o - (d.alphaCol solve o + d.psiCol solve o)) ^ 2)
        / ∑ o, Spec.weight d o ∧
    d.varFe solve d.qPsi + d.varFe solve d.qAlpha + 2 * d.covFe solve d.qPsi d.qAlpha ≤ d.varY := by
  have hden : 0 ≤ ∑ o, d.Dp o := Finset.sum_nonneg fun o _ => (hv.wpos o).le
  rw [← (C23_identity solve hv).1, (C23_attached solve).2.2.1]
  obtain ⟨hk, hi⟩ := C15_normal_equations hv hs
  set f : Fin n → ℝ := fun o => d.psiCol solve o + d.alphaCol solve o with hf
  have he : ∀ o, d.y o - (d.alphaCol solve o + d.psiCol solve o) = d.y o - f o := fun o => by
    rw [hf]; ring
  simp only [he] at hk hi ⊢
  -- residuals sum to zero over all rows, hence also within the normalised firm
  have hall : ∑ o, d.Dp o * (d.y o - f o) = 0 := by
    rw [← Finset.sum_fiberwise_of_maps_to (t := Finset.univ) (g := d.i) (fun o _ => Finset.mem_univ _)]
    exact Finset.sum_eq_zero fun i _ => hi i
  have hk' : ∀ k, ∑ o with d.j o = k, d.Dp o * (d.y o - f o) = 0 := by
    intro k
    by_cases h0 : k = 0
    · subst h0
      rw [← Finset.sum_fiberwise_of_maps_to (t := Finset.univ) (g := d.j)
        (fun o _ => Finset.mem_univ _)] at hall
      rw [Finset.sum_eq_single 0 (fun k _ h => hk k h) (by simp)] at hall
      exact hall
    · exact hk k h0
  have hmeans : ∀ k, (∑ o with d.j o = k, d.Dp o * d.y o) = ∑ o with d.j o = k, d.Dp o * f o := by
    intro k
    have := hk' k
    simp only [mul_sub, Finset.sum_sub_distrib, sub_eq_zero] at this
    exact this
  have hfm : ∀ k, Spec.mean d d.y (fun o => d.j o = k) = Spec.mean d f fun o => d.j o = k := by
    intro k
    simp only [Spec.mean, weight_eq, hmeans]
  have htot : (Spec.mean d d.y fun _ => True) = Spec.mean d f fun _ => True := by
    simp only [Spec.mean, weight_eq, Finset.filter_true]
    simp only [mul_sub, Finset.sum_sub_distrib, sub_eq_zero] at hall
    rw [hall]
  set μ := Spec.mean d f fun _ => True with hμ
  -- orthogonality of residuals and fitted values
  have horth : ∑ o, d.Dp o * (d.y o - f o) * (f o - μ) = 0 := by
    have h1 : ∑ o, d.Dp o * (d.y o - f o) * d.psiCol solve o = 0 := by
      have h := firms_sum d (fun o => d.Dp o * (d.y o - f o)) (Panel.withZero (d.ols solve).1)
      simp only [hk', zero_mul, Finset.sum_const_zero] at h
      exact h.symm
    have h2 : ∑ o, d.Dp o * (d.y o - f o) * d.alphaCol solve o = 0 := by
      rw [← Finset.sum_fiberwise_of_maps_to (t := Finset.univ) (g := d.i) (fun o _ => Finset.mem_univ _)]
      refine Finset.sum_eq_zero fun i _ => ?_
      have : ∑ o with d.i o = i, d.Dp o * (d.y o - f o) * d.alphaCol solve o
          = (∑ o with d.i o = i, d.Dp o * (d.y o - f o)) * (d.ols solve).2 i := by
        rw [Finset.sum_mul]
        refine Finset.sum_congr rfl fun o ho => ?_
        rw [Panel.alphaCol, (Finset.mem_filter.mp ho).2]
      rw [this, hi, zero_mul]
    have h3 : ∑ o, d.Dp o * (d.y o - f o) * (f o - μ)
        = ∑ o, d.Dp o * (d.y o - f o) * d.psiCol solve o
          + ∑ o, d.Dp o * (d.y o - f o) * d.alphaCol solve o
          - (∑ o, d.Dp o * (d.y o - f o)) * μ := by
      rw [Finset.sum_mul, ← Finset.sum_add_distrib, ← Finset.sum_sub_distrib]
      refine Finset.sum_congr rfl fun o _ => ?_
      simp only [hf]; ring
    rw [h3, h1, h2, hall]; ring
  have hss : ∑ o, d.Dp o * (d.y o - μ) ^ 2
      = ∑ o, d.Dp o * (f o - μ) ^ 2 + ∑ o, d.Dp o * (d.y o - f o) ^ 2 := by
    rw [← sub_eq_zero, ← mul_zero (2 : ℝ), ← horth, Finset.mul_sum, ← Finset.sum_add_distrib,
      ← Finset.sum_sub_distrib]
    refine Finset.sum_congr rfl fun o _ => ?_
    ring
  have hvarY : d.varY = weightedVar f d.DpW 0
      + (∑ o, Spec.weight d o * (d.y o - f o) ^ 2) / ∑ o, Spec.weight d o := by
    rw [Panel.varY, varDp_eq, varDp_eq, htot, ← hμ, hss, add_div]; rfl
  refine ⟨?_, ?_, hvarY, ?_⟩
  · rw [C93_between hv]
    exact div_nonneg (Finset.sum_nonneg fun o _ => mul_nonneg (hv.wpos o).le (sq_nonneg _)) hden
  · rw [C93_between hv, varDp_eq, htot, ← hμ]
    simp only [hfm, weight_eq]
    refine div_le_div_of_nonneg_right ?_ hden
    rw [ss_decomp hv f μ]
    have : 0 ≤ ∑ o, d.Dp o * (f o - Spec.mean d f fun o' => d.j o' = d.j o) ^ 2 :=
      Finset.sum_nonneg fun o _ => mul_nonneg (hv.wpos o).le (sq_nonneg _)
    linarith
  · rw [hvarY]
    have : 0 ≤ (∑ o, Spec.weight d o * (d.y o - f o) ^ 2) / ∑ o, Spec.weight d o :=
      div_nonneg (Finset.sum_nonneg fun o _ => mul_nonneg (hv.wpos o).le (sq_nonneg _)) hden
    linarith

/-- C93: `n_movers` counts the workers with some row marked as a move, `n_stayers` the workers who
have rows but none marked. -/
theorem C93_counts (d : Panel n m nw) (mv : Fin n → ℕ) :
    d.nMovers mv = Nat.card {i // Spec.IsMover d mv i} ∧
    d.nStayers mv = Nat.card {i // (∃ o, d.i o = i) ∧ ∀ o, d.i o = i → mv o = 0} := by
  classical
  have h1 : d.nMovers mv = Nat.card {i // Spec.IsMover d mv i} := by
    rw [Nat.card_eq_fintype_card, Fintype.card_subtype, Panel.nMovers]
    congr 1
    ext i
    simp [Spec.IsMover, and_comm]
  have h2 : (Finset.univ.image d.i).card
      = ((Finset.univ.filter fun o => 0 < mv o).image d.i).card
        + ((Finset.univ.image d.i).filter fun i => ∀ o, d.i o = i → mv o = 0).card := by
    rw [← Finset.card_union_of_disjoint]
    · congr 1
      ext i
      simp only [Finset.mem_image, Finset.mem_univ, true_and, Finset.mem_union, Finset.mem_filter]
      constructor
      · rintro ⟨o, ho⟩
        by_cases h : ∃ o, 0 < mv o ∧ d.i o = i
        · exact Or.inl h
        · push Not at h
          refine Or.inr ⟨⟨o, ho⟩, fun o' ho' => ?_⟩
          by_contra hc
          exact h o' (Nat.pos_of_ne_zero hc) ho'
      · rintro (⟨o, _, ho⟩ | ⟨h, _⟩)
        · exact ⟨o, ho⟩
        · exact h
    · rw [Finset.disjoint_left]
      intro i hi hi'
      obtain ⟨o, ho, hoi⟩ := Finset.mem_image.mp hi
      have h3 := (Finset.mem_filter.mp hi').2 o hoi
      have h4 := (Finset.mem_filter.mp ho).2
      omega
  refine ⟨h1, ?_⟩
  rw [Nat.card_eq_fintype_card, Fintype.card_subtype, Panel.nStayers, Panel.nWorkers, Panel.nMovers, h2]
  push_cast
  rw [add_sub_cancel_left]
  congr 2
  ext i
  simp

open Classical in
/-- C93: both quantile vectors have eleven entries, never decrease, and go from the smallest to the largest
firm's total.  For `size_quantiles` a firm's total is the weight of its rows, for
`mover_quantiles` the weight of its rows that belong to movers. -/
theorem C93_quantiles (hv : d.Valid) (hn : 0 < n) (mv : Fin n → ℕ)
    {sorter : List (ℝ × ℝ) → List (ℝ × ℝ)} (hs : IsArgsort sorter) :
    ∃ qm qs : List ℝ, d.moverQuantiles sorter mv = .ok qm ∧ d.sizeQuantiles sorter = .ok qs ∧
      qm.length = 11 ∧ qs.length = 11 ∧ qm.Pairwise (· ≤ ·) ∧ qs.Pairwise (· ≤ ·) ∧
      (∀ q ∈ qs, (∃ o, ∑ o' with d.j o' = d.j o, Spec.weight d o' ≤ q) ∧
        ∃ o, q ≤ ∑ o' with d.j o' = d.j o, Spec.weight d o') ∧
      (∀ q ∈ qm, (∃ o, ∑ o' with d.j o' = d.j o ∧ Spec.IsMover d mv (d.i o'), Spec.weight d o' ≤ q) ∧
        ∃ o, q ≤ ∑ o' with d.j o' = d.j o ∧ Spec.IsMover d mv (d.i o'), Spec.weight d o') ∧
      (∀ o, qs.getD 0 0 ≤ ∑ o' with d.j o' = d.j o, Spec.weight d o' ∧
        ∑ o' with d.j o' = d.j o, Spec.weight d o' ≤ qs.getD 10 0) ∧
      (∀ o, qm.getD 0 0 ≤ ∑ o' with d.j o' = d.j o ∧ Spec.IsMover d mv (d.i o'), Spec.weight d o' ∧
        ∑ o' with d.j o' = d.j o ∧ Spec.IsMover d mv (d.i o'), Spec.weight d o' ≤ qm.getD 10 0) := by
  have hls : ∀ q ∈ Panel.ls, (0 : ℝ) ≤ q ∧ q ≤ 1 := by
    intro q hq
    obtain ⟨k, hk, rfl⟩ := List.mem_map.mp hq
    have hk' : k < 11 := List.mem_range.mp hk
    have : (k : ℝ) ≤ 10 := by exact_mod_cast Nat.lt_succ_iff.mp hk'
    constructor
    · positivity
    · linarith
  have hlen : Panel.ls.length = 11 := by simp [Panel.ls]
  have key : ∀ g : Fin (m + 1) → ℝ, ∃ r,
      weightedQuantile sorter ((d.firms.sort (· ≤ ·)).map fun k => (g k, d.fi k)) Panel.ls false false
        = .ok r ∧ r.length = 11 ∧ r.Pairwise (· ≤ ·) ∧
      (∀ q ∈ r, (∃ o, g (d.j o) ≤ q) ∧ ∃ o, q ≤ g (d.j o)) ∧
      ∀ o, r.getD 0 0 ≤ g (d.j o) ∧ g (d.j o) ≤ r.getD 10 0 := by
    intro g
    set data := (d.firms.sort (· ≤ ·)).map fun k => (g k, d.fi k) with hdata
    have hmem : ∀ p ∈ data, ∃ o, p = (g (d.j o), d.fi (d.j o)) := by
      intro p hp
      obtain ⟨k, hk, rfl⟩ := List.mem_map.mp hp
      obtain ⟨o, _, rfl⟩ := Finset.mem_image.mp ((Finset.mem_sort _).mp hk)
      exact ⟨o, rfl⟩
    have hne : data ≠ [] := by
      have : d.j ⟨0, hn⟩ ∈ d.firms := Finset.mem_image_of_mem _ (Finset.mem_univ _)
      rw [← Finset.mem_sort (· ≤ ·)] at this
      intro h
      rw [hdata, List.map_eq_nil_iff] at h
      rw [h] at this; cases this
    have hgood : GoodData data false := by
      refine ⟨fun p hp => ?_, by simp⟩
      obtain ⟨o, rfl⟩ := hmem p hp
      rw [fi_eq]
      exact firm_weight_pos hv (Finset.mem_image_of_mem _ (Finset.mem_univ o))
    obtain ⟨r, hr, hrl⟩ := C03_total (vs := false) (o := false) hs hne hls
    have hr11 : r.length = 11 := by rw [hrl, hlen]
    refine ⟨r, hr, hr11, ?_, ?_, ?_⟩
    · rw [List.pairwise_iff_getElem]
      intro i j hi hj hij
      have hi' : i < Panel.ls.length := by omega
      have hj' : j < Panel.ls.length := by omega
      refine C03_monotone hs hgood hne hr (i := i) (j := j) (q := Panel.ls[i]) (q' := Panel.ls[j])
        (List.getElem?_eq_getElem _) (List.getElem?_eq_getElem _) (List.getElem?_eq_getElem _)
        (List.getElem?_eq_getElem _) ?_
      simp only [Panel.ls, List.getElem_map, List.getElem_range]
      have : (i : ℝ) ≤ j := by exact_mod_cast hij.le
      linarith
    · intro q hq
      obtain ⟨⟨p, hp, h1⟩, ⟨p', hp', h2⟩⟩ := C03_between hs hgood hne hr q hq
      obtain ⟨o, rfl⟩ := hmem p hp
      obtain ⟨o', rfl⟩ := hmem p' hp'
      exact ⟨⟨o, h1⟩, ⟨o', h2⟩⟩
    · intro o
      have hin : ∃ p ∈ data, p.1 = g (d.j o) :=
        ⟨_, List.mem_map_of_mem ((Finset.mem_sort _).mpr (Finset.mem_image_of_mem _ (Finset.mem_univ o))), rfl⟩
      have e0 : r[0]? = some (r.getD 0 0) := by
        rw [List.getElem?_eq_getElem (by omega), List.getD_eq_getElem]
      have e10 : r[10]? = some (r.getD 10 0) := by
        rw [List.getElem?_eq_getElem (by omega), List.getD_eq_getElem]
      exact ⟨((C03_extremes hs hgood hne hr e0).1 (by simp [Panel.ls])).2 hin,
        ((C03_extremes hs hgood hne hr e10).2 (by simp [Panel.ls])).2 hin⟩
  have hfm : ∀ k, d.fm mv k
      = ∑ o' with d.j o' = k ∧ Spec.IsMover d mv (d.i o'), Spec.weight d o' := by
    intro k
    rw [fm_eq, ← Finset.filter_filter, Finset.sum_filter (p := fun o => Spec.IsMover d mv (d.i o))]
    refine Finset.sum_congr rfl fun o _ => ?_
    simp only [Panel.rowMover, Spec.IsMover, weight_eq]
    by_cases h : ∃ o', d.i o' = d.i o ∧ 0 < mv o'
    · rw [if_pos h, mul_one]; exact (if_pos h).symm
    · rw [if_neg h, mul_zero]; exact (if_neg h).symm
  obtain ⟨qm, h1, h2, h3, h4, h4'⟩ := key (d.fm mv)
  obtain ⟨qs, h5, h6, h7, h8, h8'⟩ := key d.fi
  refine ⟨qm, qs, h1, h5, h2, h6, h3, h7, ?_, ?_, ?_, ?_⟩
  · simpa only [fi_eq, ← weight_eq] using h8
  · simpa only [hfm] using h4
  · simpa only [fi_eq, ← weight_eq] using h8'
  · simpa only [hfm] using h4'

/-- Non-vacuity: a weighted panel of five rows, three firms and two workers, with a solver. -/
example : ∃ solve, ex.Valid ∧ ex.GoodSolver solve ∧ (0 < 5) ∧ IsArgsort stableSorter ∧
    Spec.IsMover ex ![1, 1, 1, 1, 1] 0 ∧ ex.nMovers ![1, 1, 0, 0, 0] = 1 ∧
    ex.nStayers ![1, 1, 0, 0, 0] = 1 := by
  obtain ⟨s, h⟩ := exists_goodSolver ex
  exact ⟨s, ex_valid, h, by norm_num, stableSorter_isArgsort, ⟨0, rfl, by norm_num⟩, by decide, by decide⟩

end C93
end Pytwoway.FE
