import Verif.BLM.Prior

/-! # Estimates stay within the data (C137)

After at least one iteration of the movers' EM loop the means lie between the lowest and the highest wage of
their firm type and period, the variances are at most the squared range (a quarter of it for free means),
and the proportions stay away from zero by what the prior adds. -/

namespace Pytwoway.BLM

open Finset

variable {ni nl nk : ℕ}

/-- Moving every mean into its interval. -/
noncomputable def Spec.clip (lo hi : Fin 2 → Fin nk → ℝ) (A : Fin 2 → Fin nl → Fin nk → ℝ) :
    Fin 2 → Fin nl → Fin nk → ℝ :=
  fun t l k => max (lo t k) (min (hi t k) (A t l k))

theorem clip_closer {lo hi y a : ℝ} (h1 : lo ≤ y) (h2 : y ≤ hi) :
    (y - max lo (min hi a)) ^ 2 ≤ (y - a) ^ 2 := by
  rcases le_total a lo with h | h
  · rw [min_eq_right (h.trans (h1.trans h2)), max_eq_left h]
    nlinarith
  · rcases le_total hi a with h' | h'
    · rw [min_eq_left h', max_eq_right (h1.trans h2)]
      nlinarith
    · rw [min_eq_right h', max_eq_right h]

theorem clip_closer_strict {lo hi y a : ℝ} (h1 : lo ≤ y) (h2 : y ≤ hi) (h : ¬ (lo ≤ a ∧ a ≤ hi)) :
    (y - max lo (min hi a)) ^ 2 < (y - a) ^ 2 := by
  rcases lt_or_ge a lo with h' | h'
  · rw [min_eq_right (h'.le.trans (h1.trans h2)), max_eq_left h'.le]
    nlinarith
  · have h'' : hi < a := by
      by_contra hc
      exact h ⟨h', not_lt.mp hc⟩
    rw [min_eq_left h''.le, max_eq_right (h1.trans h2)]
    nlinarith

theorem cellW_pos [NeZero nl] (d : Data ni nk) (lp : Fin ni → Fin nl → ℝ) (hW : ∀ t i, 0 < d.W t i)
    (hobs : ∀ t k, ∃ i, d.G t i = k) (t : Fin 2) (l : Fin nl) (k : Fin nk) :
    0 < cellW d (posterior lp) t l k := by
  obtain ⟨i, hi⟩ := hobs t k
  exact sum_pos (fun i _ => mul_pos (hW t i) (posterior_pos lp i l)) ⟨i, by simp [hi]⟩

/-- Means fitted subject to constraints that survive clipping lie within the wages. -/
theorem means_in_range (d : Data ni nk) (q : Fin ni → Fin nl → ℝ) (S A : Fin 2 → Fin nl → Fin nk → ℝ)
    (F : (Fin 2 → Fin nl → Fin nk → ℝ) → Prop) (lo hi : Fin 2 → Fin nk → ℝ)
    (hclip : ∀ A, F A → F (Spec.clip lo hi A))
    (hY : ∀ t i, lo t (d.G t i) ≤ d.Y t i ∧ d.Y t i ≤ hi t (d.G t i)) (hW : ∀ t i, 0 < d.W t i)
    (hq : ∀ i l, 0 < q i l) (hS : ∀ t l k, 0 < S t l k) (hobs : ∀ t k, ∃ i, d.G t i = k)
    (hA : F A) (hmin : ∀ A', F A' → wsse d q S A ≤ wsse d q S A') (t : Fin 2) (l : Fin nl) (k : Fin nk) :
    lo t k ≤ A t l k ∧ A t l k ≤ hi t k := by
  by_contra hne
  refine absurd (hmin _ (hclip A hA)) (not_le.mpr ?_)
  have hw : ∀ t l i, 0 < d.W t i * q i l / S t l (d.G t i) ^ 2 := fun t l i =>
    div_pos (mul_pos (hW t i) (hq i l)) (pow_pos (hS _ _ _) 2)
  have hle : ∀ t l i, d.W t i * q i l / S t l (d.G t i) ^ 2 *
      (d.Y t i - Spec.clip lo hi A t l (d.G t i)) ^ 2 ≤
      d.W t i * q i l / S t l (d.G t i) ^ 2 * (d.Y t i - A t l (d.G t i)) ^ 2 := fun t l i =>
    mul_le_mul_of_nonneg_left (clip_closer (hY t i).1 (hY t i).2) (hw t l i).le
  obtain ⟨i, hi'⟩ := hobs t k
  unfold wsse
  refine sum_lt_sum (fun t _ => sum_le_sum fun l _ => sum_le_sum fun i _ => hle t l i) ⟨t, mem_univ _, ?_⟩
  refine sum_lt_sum (fun l _ => sum_le_sum fun i _ => hle t l i) ⟨l, mem_univ _, ?_⟩
  refine sum_lt_sum (fun i _ => hle t l i) ⟨i, mem_univ _, ?_⟩
  refine mul_lt_mul_of_pos_left (clip_closer_strict (hY t i).1 (hY t i).2 ?_) (hw t l i)
  rw [hi']
  exact hne

theorem mstep_S_nonneg (d : Data ni nk) (q : Fin ni → Fin nl → ℝ) (b b' : Base nl nk) (updA : Bool)
    (sA sS : Solver) (hS : ∀ t l k, 0 ≤ b.S t l k) (h : mstep d q b updA true sA sS = .ok b')
    (t : Fin 2) (l : Fin nl) (k : Fin nk) : 0 ≤ b'.S t l k := by
  have hsol : ∀ X Z, 0 ≤ solveS sS X Z b.S t l k := by
    intro X Z
    unfold solveS
    rcases sS X (fun p => - Z p) with m | (_ | x)
    · exact hS t l k
    · exact hS t l k
    · exact Real.sqrt_nonneg _
  unfold mstep at h
  simp only [Bool.or_true, if_true, bind, Except.bind, pure, Except.pure] at h
  cases updA
  all_goals
    simp only [if_true, Bool.false_eq_true, if_false] at h
    repeat' split at h
    all_goals first
      | cases h; exact hsol _ _
      | cases h

theorem weighted_sq_le {ι : Type*} (s : Finset ι) (w r : ι → ℝ) (M : ℝ) (hw : ∀ i ∈ s, 0 ≤ w i)
    (hr : ∀ i ∈ s, r i ^ 2 ≤ M) (hp : 0 < ∑ i ∈ s, w i) :
    (∑ i ∈ s, w i * r i ^ 2) / ∑ i ∈ s, w i ≤ M := by
  rw [div_le_iff₀ hp, mul_comm, sum_mul]
  exact sum_le_sum fun i hi => mul_le_mul_of_nonneg_left (hr i hi) (hw i hi)

/-- Popoviciu's inequality with weights. -/
theorem weighted_var_le {ι : Type*} (s : Finset ι) (w y : ι → ℝ) (lo hi : ℝ) (hw : ∀ i ∈ s, 0 ≤ w i)
    (hy : ∀ i ∈ s, lo ≤ y i ∧ y i ≤ hi) (hp : 0 < ∑ i ∈ s, w i) (m : ℝ)
    (hm : m = (∑ i ∈ s, w i * y i) / ∑ i ∈ s, w i) :
    (∑ i ∈ s, w i * (y i - m) ^ 2) / ∑ i ∈ s, w i ≤ (hi - lo) ^ 2 / 4 := by
  have hm' : ∑ i ∈ s, w i * y i = m * ∑ i ∈ s, w i := by
    rw [hm]; field_simp
  have h1 := weighted_sq_le s w (fun i => y i - (lo + hi) / 2) ((hi - lo) ^ 2 / 4) hw
    (fun i hi' => by
      have := hy i hi'
      nlinarith [mul_nonneg (sub_nonneg.mpr this.1) (sub_nonneg.mpr this.2)]) hp
  refine le_trans (div_le_div_of_nonneg_right ?_ hp.le) h1
  have e : ∑ i ∈ s, w i * (y i - (lo + hi) / 2) ^ 2 = ∑ i ∈ s, w i * (y i - m) ^ 2 +
      (m - (lo + hi) / 2) ^ 2 * ∑ i ∈ s, w i := by
    have e1 : ∀ i ∈ s, w i * (y i - (lo + hi) / 2) ^ 2 = w i * (y i - m) ^ 2 +
        (2 * (m - (lo + hi) / 2)) * (w i * y i) +
        ((m - (lo + hi) / 2) ^ 2 - 2 * (m - (lo + hi) / 2) * m) * w i := fun i _ => by ring
    rw [sum_congr rfl e1, sum_add_distrib, sum_add_distrib, ← mul_sum, ← mul_sum, hm']
    ring
  rw [e]
  have := mul_nonneg (sq_nonneg (m - (lo + hi) / 2)) hp.le
  linarith

/-- What one iteration guarantees of its results, with `v` the bound on variances. -/
def Spec.Within (lo hi : Fin 2 → Fin nk → ℝ) (lb dp : ℝ) (v : Fin 2 → Fin nk → ℝ)
    (A S : Fin 2 → Fin nl → Fin nk → ℝ) (pk1 : ℕ → Fin nl → ℝ) : Prop :=
  (∀ t l k, lo t k ≤ A t l k ∧ A t l k ≤ hi t k) ∧
  (∀ t l k, 0 < S t l k ∧ lb ≤ S t l k ^ 2 ∧ S t l k ^ 2 ≤ max lb (v t k)) ∧
  ∀ k1 k2 : Fin nk, ∑ l, pk1 (k1.val + nk * k2.val) l = 1 ∧
    ∀ l, (dp - 1) / (1 + nl * (dp - 1)) ≤ pk1 (k1.val + nk * k2.val) l ∧
      pk1 (k1.val + nk * k2.val) l ≤ dp / (1 + nl * (dp - 1))

theorem share_between {ι : Type*} (s : Finset ι) (w r : ι → ℝ) (dp n : ℝ) (hdp : 1 ≤ dp) (hn : 0 ≤ n)
    (hw : ∀ i ∈ s, 0 ≤ w i) (hr : ∀ i ∈ s, 0 ≤ r i ∧ r i ≤ 1) (hp : 0 < ∑ i ∈ s, w i) :
    (dp - 1) / (1 + n * (dp - 1)) ≤
      (∑ i ∈ s, w i * (r i + (dp - 1))) / ((∑ i ∈ s, w i) * (1 + n * (dp - 1))) ∧
    (∑ i ∈ s, w i * (r i + (dp - 1))) / ((∑ i ∈ s, w i) * (1 + n * (dp - 1))) ≤
      dp / (1 + n * (dp - 1)) := by
  have hD : 0 < 1 + n * (dp - 1) := by
    have := mul_nonneg hn (sub_nonneg.mpr hdp)
    linarith
  constructor
  · rw [div_le_div_iff₀ hD (mul_pos hp hD)]
    have h1 : (dp - 1) * ∑ i ∈ s, w i ≤ ∑ i ∈ s, w i * (r i + (dp - 1)) := by
      rw [mul_sum]
      exact sum_le_sum fun i hi => by nlinarith [hw i hi, (hr i hi).1, mul_nonneg (hw i hi) (hr i hi).1]
    nlinarith
  · rw [div_le_div_iff₀ (mul_pos hp hD) hD]
    have h1 : ∑ i ∈ s, w i * (r i + (dp - 1)) ≤ dp * ∑ i ∈ s, w i := by
      rw [mul_sum]
      exact sum_le_sum fun i hi => by
        nlinarith [hw i hi, (hr i hi).2, mul_nonneg (hw i hi) (sub_nonneg.mpr (hr i hi).2)]
    nlinarith

theorem posterior_le_one [NeZero nl] (lp : Fin ni → Fin nl → ℝ) (i : Fin ni) (l : Fin nl) :
    posterior lp i l ≤ 1 := by
  rw [← posterior_sum lp i]
  exact single_le_sum (f := fun l => posterior lp i l) (fun l _ => (posterior_pos lp i l).le) (mem_univ l)

/-- One iteration. -/
theorem movers_step_range [NeZero nl] (d : Data ni nk) (b b' : Base nl nk) (pk pk' : ℕ → Fin nl → ℝ)
    (sA sS : Solver) (F : (Fin 2 → Fin nl → Fin nk → ℝ) → Prop) (lb dp : ℝ) (hlb : 0 < lb) (hnk : 0 < nk)
    (hdp : 1 ≤ dp) (lo hi : Fin 2 → Fin nk → ℝ) (hF : ∃ A, F A)
    (hclip : ∀ A : Fin 2 → Fin nl → Fin nk → ℝ, F A → F (Spec.clip lo hi A))
    (hY : ∀ t i, lo t (d.G t i) ≤ d.Y t i ∧ d.Y t i ≤ hi t (d.G t i)) (hW : ∀ t i, 0 < d.W t i)
    (hall : AllPairs d)
    (hsA : RightSolver (2 * (nl * nk)) (fun x => F (unflatten nl nk x)) sA)
    (hsS : RightSolver (2 * (nl * nk)) (BoundS nl nk lb) sS) (hS : ∀ t l k, 0 < b.S t l k)
    (hpk : nextPk1 true d (posterior (lpMovers d b [] pk)) dp pk = .ok pk')
    (hm : mstep d (posterior (lpMovers d b [] pk)) b true true sA sS = .ok b') :
    Spec.Within lo hi lb dp (fun t k => (hi t k - lo t k) ^ 2) b'.A b'.S pk' ∧
    ((∀ A, F A) → Spec.Within lo hi lb dp (fun t k => (hi t k - lo t k) ^ 2 / 4) b'.A b'.S pk') := by
  set q := posterior (lpMovers d b [] pk) with hqdef
  have hobs : ∀ t k, ∃ i, d.G t i = k := by
    intro t k
    obtain ⟨i, h0, h1⟩ := hall k k
    refine ⟨i, ?_⟩
    fin_cases t
    · exact h0
    · exact h1
  have htop : TopObserved d := fun t => by
    obtain ⟨i, hi⟩ := hobs t ⟨nk - 1, by omega⟩
    exact ⟨i, by rw [hi]⟩
  have hcell := cellW_pos d (lpMovers d b [] pk) hW hobs
  obtain ⟨hFA, hmin⟩ := C34_means_minimise d q b b' true sA sS F hsA htop hS hF hcell hm
  have hA := means_in_range d q b.S b'.A F lo hi hclip hY hW (posterior_pos _) hS hobs hFA hmin
  have hv := mstep_variances d q b b' lb sA sS true hsS hlb htop hS hcell hm
  have hSp : ∀ t l k, 0 < b'.S t l k := by
    intro t l k
    have h0 := mstep_S_nonneg d q b b' true sA sS (fun t l k => (hS t l k).le) hm t l k
    rcases h0.lt_or_eq with h | h
    · exact h
    · have h1 := hv t l k
      rw [← h] at h1
      have h2 := le_max_left lb ((∑ i with d.G t i = k, d.W t i * q i l * (d.Y t i - b'.A t l k) ^ 2) /
        cellW d q t l k)
      rw [← h1] at h2
      norm_num at h2
      linarith
  have hpkb : ∀ k1 k2 : Fin nk, ∑ l, pk' (k1.val + nk * k2.val) l = 1 ∧
      ∀ l, (dp - 1) / (1 + nl * (dp - 1)) ≤ pk' (k1.val + nk * k2.val) l ∧
        pk' (k1.val + nk * k2.val) l ≤ dp / (1 + nl * (dp - 1)) := by
    obtain ⟨p2, hp2, hp3⟩ := C32_movers d q dp hW hdp (fun i l => (posterior_pos _ i l).le)
      (posterior_sum _) hnk hall
    have hpk' : pk' = p2 := by
      simp only [nextPk1, if_true] at hpk
      rw [hp2] at hpk
      cases hpk
      rfl
    subst hpk'
    intro k1 k2
    obtain ⟨hf, -, hs⟩ := hp3 k1 k2
    refine ⟨hs, fun l => ?_⟩
    rw [hf l]
    obtain ⟨i, hi0, hi1⟩ := hall k1 k2
    exact share_between _ _ _ dp nl hdp (Nat.cast_nonneg _) (fun i _ => Real.sqrt_nonneg _)
      (fun i _ => ⟨(posterior_pos _ i l).le, posterior_le_one _ i l⟩)
      (sum_pos (fun i _ => Real.sqrt_pos.mpr (mul_pos (hW 0 i) (hW 1 i))) ⟨i, by simp [hi0, hi1]⟩)
  refine ⟨⟨hA, fun t l k => ⟨hSp t l k, ?_, ?_⟩, hpkb⟩, fun hFt => ⟨hA, fun t l k => ⟨hSp t l k, ?_, ?_⟩,
    hpkb⟩⟩
  · rw [hv]; exact le_max_left _ _
  · rw [hv]
    refine max_le_max le_rfl ?_
    refine weighted_sq_le _ (fun i => d.W t i * q i l) (fun i => d.Y t i - b'.A t l k) _
      (fun i _ => (mul_pos (hW t i) (posterior_pos _ i l)).le) (fun i hi' => ?_) (hcell t l k)
    have h1 := hY t i
    rw [(mem_filter.mp hi').2] at h1
    have h2 := hA t l k
    refine sq_le_sq.mpr ?_
    rw [abs_of_nonneg (by linarith : 0 ≤ hi t k - lo t k)]
    exact abs_le.mpr ⟨by linarith, by linarith⟩
  · rw [hv]; exact le_max_left _ _
  · rw [hv]
    refine max_le_max le_rfl ?_
    have hsA' : RightSolver (2 * (nl * nk)) (fun _ => True) sA := by
      have : (fun x => F (unflatten nl nk x)) = fun _ => True := by
        funext x; exact eq_true (hFt _)
      rwa [this] at hsA
    obtain ⟨b2, hb2, hb3⟩ := C34_closed_form d q b lb sA sS hnk hsA' hsS hlb.le hS hcell
    have hbb : b' = b2 := by
      rw [hm] at hb2
      cases hb2
      rfl
    subst hbb
    refine weighted_var_le _ (fun i => d.W t i * q i l) (fun i => d.Y t i) _ _
      (fun i _ => (mul_pos (hW t i) (posterior_pos _ i l)).le) (fun i hi' => ?_) (hcell t l k) _
      (hb3 t l k).1
    have h1 := hY t i
    rwa [(mem_filter.mp hi').2] at h1

theorem moversLoop_range [NeZero nl] (d : Data ni nk) (dp thr : ℝ) (sA sS : Solver)
    (minType : (Fin 2 → Fin nl → Fin nk → ℝ) → ℕ)
    (F : (Fin 2 → Fin nl → Fin nk → ℝ) → Prop) (lb : ℝ) (hlb : 0 < lb) (hnk : 0 < nk)
    (hdp : 1 ≤ dp) (lo hi : Fin 2 → Fin nk → ℝ) (hF : ∃ A, F A)
    (hclip : ∀ A : Fin 2 → Fin nl → Fin nk → ℝ, F A → F (Spec.clip lo hi A))
    (hY : ∀ t i, lo t (d.G t i) ≤ d.Y t i ∧ d.Y t i ≤ hi t (d.G t i)) (hW : ∀ t i, 0 < d.W t i)
    (hall : AllPairs d)
    (hsA : RightSolver (2 * (nl * nk)) (fun x => F (unflatten nl nk x)) sA)
    (hsS : RightSolver (2 * (nl * nk)) (BoundS nl nk lb) sS) (v : Fin 2 → Fin nk → ℝ)
    (hv : (v = fun t k => (hi t k - lo t k) ^ 2) ∨
      ((v = fun t k => (hi t k - lo t k) ^ 2 / 4) ∧ ∀ A, F A)) (fuel : ℕ) :
    ∀ (first : Bool) (prev : Option ℝ) (pm : ℕ) (s s' : MoverState nl nk),
      (∀ t l k, 0 < s.base.S t l k) →
      (Spec.Within lo hi lb dp v s.base.A s.base.S s.pk1 ∨ (0 < fuel ∧ prev = none)) →
      moversLoop d ⟨true, true, true, dp, thr⟩ sA sS minType fuel first prev pm s = .ok s' →
      Spec.Within lo hi lb dp v s'.base.A s'.base.S s'.pk1 := by
  induction fuel with
  | zero =>
    intro first prev pm s s' hS hin h
    simp only [moversLoop, Except.ok.injEq] at h
    subst h
    rcases hin with h | h
    · exact h
    · exact absurd h.1 (lt_irrefl 0)
  | succ fuel ih =>
    intro first prev pm s s' hS hin h
    unfold moversLoop at h
    dsimp only at h
    split at h
    · rename_i hs
      cases h
      rcases hin with h | h
      · exact h
      · rw [h.2] at hs
        simp [stop] at hs
    · cases hu : nextPk1 true d (posterior (lpMovers d s.base [] s.pk1)) dp s.pk1 with
      | error m => rw [hu] at h; simp [bind, Except.bind] at h
      | ok pk2 =>
        cases hm : mstep d (posterior (lpMovers d s.base [] s.pk1)) s.base true true sA sS with
        | error m => rw [hu, hm] at h; simp [bind, Except.bind] at h
        | ok b2 =>
          rw [hu, hm] at h
          simp only [bind, Except.bind] at h
          have hstep := movers_step_range d s.base b2 s.pk1 pk2 sA sS F lb dp hlb hnk hdp lo hi hF hclip hY
            hW hall hsA hsS hS hu hm
          have hw : Spec.Within lo hi lb dp v b2.A b2.S pk2 := by
            rcases hv with rfl | ⟨rfl, hFt⟩
            · exact hstep.1
            · exact hstep.2 hFt
          exact ih false _ _ ⟨b2, pk2, _⟩ s' (fun t l k => (hw.2.1 t l k).1) (Or.inl hw) h

/-- C137 for movers, without controls: after at least one iteration, whatever the starting values, every
mean lies between any bounds on the wages of its firm type and period, every variance between its lower bound
and the larger of that and the squared width, and every proportion between what the prior alone would give
and what a sure type would get.  The constraints on the means may be any that clipping respects. -/
theorem C137_movers [NeZero nl] (d : Data ni nk) (dp thr : ℝ) (sA sS : Solver)
    (minType : (Fin 2 → Fin nl → Fin nk → ℝ) → ℕ)
    (F : (Fin 2 → Fin nl → Fin nk → ℝ) → Prop) (lb : ℝ) (hlb : 0 < lb) (hnk : 0 < nk)
    (hdp : 1 ≤ dp) (lo hi : Fin 2 → Fin nk → ℝ) (hF : ∃ A, F A)
    (hclip : ∀ A : Fin 2 → Fin nl → Fin nk → ℝ, F A → F (Spec.clip lo hi A))
    (hY : ∀ t i, lo t (d.G t i) ≤ d.Y t i ∧ d.Y t i ≤ hi t (d.G t i)) (hW : ∀ t i, 0 < d.W t i)
    (hall : AllPairs d)
    (hsA : RightSolver (2 * (nl * nk)) (fun x => F (unflatten nl nk x)) sA)
    (hsS : RightSolver (2 * (nl * nk)) (BoundS nl nk lb) sS) (nIters pm : ℕ) (hn : 0 < nIters)
    (s0 s : MoverState nl nk) (hS : ∀ t l k, 0 < s0.base.S t l k)
    (h : moversLoop d ⟨true, true, true, dp, thr⟩ sA sS minType nIters true none pm s0 = .ok s) :
    (∀ t l k, lo t k ≤ s.base.A t l k ∧ s.base.A t l k ≤ hi t k) ∧
    (∀ t l k, lb ≤ s.base.S t l k ^ 2 ∧ s.base.S t l k ^ 2 ≤ max lb ((hi t k - lo t k) ^ 2)) ∧
    ∀ k1 k2 : Fin nk, ∑ l, s.pk1 (k1.val + nk * k2.val) l = 1 ∧
      ∀ l, (dp - 1) / (1 + nl * (dp - 1)) ≤ s.pk1 (k1.val + nk * k2.val) l ∧
        s.pk1 (k1.val + nk * k2.val) l ≤ dp / (1 + nl * (dp - 1)) := by
  obtain ⟨h1, h2, h3⟩ := moversLoop_range d dp thr sA sS minType F lb hlb hnk hdp lo hi hF hclip hY hW hall
    hsA hsS _ (Or.inl rfl) nIters true none pm s0 s hS (Or.inr ⟨hn, rfl⟩) h
  exact ⟨h1, fun t l k => (h2 t l k).2, h3⟩

/-- C137 for movers with free means: the variances are at most a quarter of the squared width. -/
theorem C137_movers_free [NeZero nl] (d : Data ni nk) (dp thr : ℝ) (sA sS : Solver)
    (minType : (Fin 2 → Fin nl → Fin nk → ℝ) → ℕ) (lb : ℝ) (hlb : 0 < lb) (hnk : 0 < nk)
    (hdp : 1 ≤ dp) (lo hi : Fin 2 → Fin nk → ℝ)
    (hY : ∀ t i, lo t (d.G t i) ≤ d.Y t i ∧ d.Y t i ≤ hi t (d.G t i)) (hW : ∀ t i, 0 < d.W t i)
    (hall : AllPairs d) (hsA : RightSolver (2 * (nl * nk)) (fun _ => True) sA)
    (hsS : RightSolver (2 * (nl * nk)) (BoundS nl nk lb) sS) (nIters pm : ℕ) (hn : 0 < nIters)
    (s0 s : MoverState nl nk) (hS : ∀ t l k, 0 < s0.base.S t l k)
    (h : moversLoop d ⟨true, true, true, dp, thr⟩ sA sS minType nIters true none pm s0 = .ok s)
    (t : Fin 2) (l : Fin nl) (k : Fin nk) :
    lo t k ≤ s.base.A t l k ∧ s.base.A t l k ≤ hi t k ∧
      s.base.S t l k ^ 2 ≤ max lb ((hi t k - lo t k) ^ 2 / 4) := by
  obtain ⟨h1, h2, -⟩ := moversLoop_range d dp thr sA sS minType (fun _ => True) lb hlb hnk hdp lo hi
    ⟨s0.base.A, trivial⟩ (fun _ _ => trivial) hY hW hall hsA hsS _ (Or.inr ⟨rfl, fun _ => trivial⟩) nIters
    true none pm s0 s hS (Or.inr ⟨hn, rfl⟩) h
  exact ⟨(h1 t l k).1, (h1 t l k).2, (h2 t l k).2.2⟩

/-- Constraints that clipping respects: means that rise with the worker type, whatever the bounds; means
that are the same in both periods, for bounds that are. -/
theorem C137_constraints (lo hi : Fin 2 → Fin nk → ℝ) :
    (∀ A : Fin 2 → Fin nl → Fin nk → ℝ, (∀ t k, Monotone fun l => A t l k) →
      ∀ t k, Monotone fun l => Spec.clip lo hi A t l k) ∧
    (lo 0 = lo 1 → hi 0 = hi 1 → ∀ A : Fin 2 → Fin nl → Fin nk → ℝ, A 0 = A 1 →
      Spec.clip lo hi A 0 = Spec.clip lo hi A 1) := by
  refine ⟨fun A hA t k l l' hl => max_le_max le_rfl (min_le_min le_rfl (hA t k hl)), ?_⟩
  intro h1 h2 A hA
  funext l k
  simp only [Spec.clip, h1, h2, hA]

theorem stayersLoop_range [NeZero nl] (d : Data ni nk) (b : Base nl nk) (cs : List (Ctrl ni nl))
    (dp thr : ℝ) (hdp : 1 ≤ dp) (hW : ∀ i, 0 < d.W 0 i) (fuel : ℕ) :
    ∀ (first : Bool) (prev : Option ℝ) (pk : Fin nk → Option (Fin nl → ℝ)) (acc : List (Option ℝ))
      (pk' : Fin nk → Option (Fin nl → ℝ)) (liks : List (Option ℝ)) (k : Fin nk),
      (∃ i, d.G 0 i = k) →
      ((∃ row, pk k = some row ∧ ∑ l, row l = 1 ∧ ∀ l, (dp - 1) / (1 + nl * (dp - 1)) ≤ row l ∧
        row l ≤ dp / (1 + nl * (dp - 1))) ∨ (0 < fuel ∧ prev = none)) →
      stayersLoop d b cs dp thr fuel first prev pk acc = .ok (pk', liks) →
      ∃ row, pk' k = some row ∧ ∑ l, row l = 1 ∧ ∀ l, (dp - 1) / (1 + nl * (dp - 1)) ≤ row l ∧
        row l ≤ dp / (1 + nl * (dp - 1)) := by
  induction fuel with
  | zero =>
    intro first prev pk acc pk' liks k hk hin h
    simp only [stayersLoop, Except.ok.injEq, Prod.mk.injEq] at h
    obtain ⟨rfl, rfl⟩ := h
    rcases hin with h | h
    · exact h
    · exact absurd h.1 (lt_irrefl 0)
  | succ fuel ih =>
    intro first prev pk acc pk' liks k hk hin h
    unfold stayersLoop at h
    dsimp only at h
    split at h
    · rename_i hs
      simp only [Except.ok.injEq, Prod.mk.injEq] at h
      obtain ⟨rfl, rfl⟩ := h
      rcases hin with h | h
      · exact h
      · rw [h.2] at hs
        simp [stopStayers] at hs
    · cases hu : updatePk0 d (posterior (lpStayers d b cs pk)) dp with
      | error m => rw [hu] at h; cases h
      | ok pk2 =>
        rw [hu] at h
        simp only [bind, Except.bind] at h
        refine ih false _ pk2 _ pk' liks k hk (Or.inl ?_) h
        obtain ⟨row, hrow, hf, -, hs⟩ := C32_stayers d _ dp hW hdp (fun i l => (posterior_pos _ i l).le)
          (posterior_sum _) pk2 hu k hk
        refine ⟨row, hrow, hs, fun l => ?_⟩
        rw [hf l]
        obtain ⟨i, hi⟩ := hk
        exact share_between _ _ _ dp nl hdp (Nat.cast_nonneg _) (fun i _ => (hW i).le)
          (fun i _ => ⟨(posterior_pos _ i l).le, posterior_le_one _ i l⟩)
          (sum_pos (fun i _ => hW i) ⟨i, by simp [hi]⟩)

/-- C137 for stayers, with any controls and weights: after at least one iteration the proportions of every
observed firm type sum to one and lie within the bounds set by the prior, whatever the starting values. -/
theorem C137_stayers [NeZero nl] (d : Data ni nk) (b : Base nl nk) (cs : List (Ctrl ni nl))
    (dp thr : ℝ) (hdp : 1 ≤ dp) (hW : ∀ i, 0 < d.W 0 i) (nIters : ℕ) (hn : 0 < nIters)
    (pk0 : Fin nk → Fin nl → ℝ) (pk' : Fin nk → Option (Fin nl → ℝ)) (liks : List (Option ℝ))
    (h : fitStayers d b cs dp thr nIters pk0 = .ok (pk', liks)) (k : Fin nk) (hk : ∃ i, d.G 0 i = k) :
    ∃ row, pk' k = some row ∧ ∑ l, row l = 1 ∧ ∀ l, (dp - 1) / (1 + nl * (dp - 1)) ≤ row l ∧
      row l ≤ dp / (1 + nl * (dp - 1)) :=
  stayersLoop_range d b cs dp thr hdp hW nIters true none _ [] pk' liks k hk (Or.inr ⟨hn, rfl⟩) h

/-- Non-vacuity: four movers and all pairs of two firm types with wages between -1 and 1, the default prior,
free means and bounded variances, from standard deviations of one. -/
theorem C137_case (thr : ℝ) (Y : Fin 2 → Fin 4 → ℝ) (hY : ∀ t i, -1 ≤ Y t i ∧ Y t i ≤ 1) (n : ℕ)
    (hn : 0 < n) :
    ∃ sA sS, ∃ s : MoverState 2 2, moversLoop (exPairs Y) ⟨true, true, true, 1 + 1 / 10000000, thr⟩ sA sS
      (fun _ => 0) n true none 0 ⟨⟨fun _ _ _ => 0, fun _ _ _ => 1⟩, fun _ _ => 1 / 2, []⟩ = .ok s ∧
      ∀ t l k, -1 ≤ s.base.A t l k ∧ s.base.A t l k ≤ 1 ∧ s.base.S t l k ^ 2 ≤ 1 := by
  obtain ⟨sA, hA⟩ := rightSolver_free (2 * (2 * 2))
  obtain ⟨sS, hS⟩ := rightSolver_box (2 * (2 * 2)) (1 / 10000000)
  obtain ⟨s, hs⟩ := C33_movers_returns (exPairs Y) ⟨true, true, true, 1 + 1 / 10000000, thr⟩ sA sS
    (fun _ => 0) (by norm_num) (exPairs_all Y) (fun _ _ => one_pos) (by norm_num) rfl n true none 0
    (⟨⟨fun _ _ _ => 0, fun _ _ _ => 1⟩, fun _ _ => 1 / 2, []⟩ : MoverState 2 2)
  refine ⟨sA, sS, s, hs, fun t l k => ?_⟩
  obtain ⟨h1, h2, h3⟩ := C137_movers_free (exPairs Y) (1 + 1 / 10000000) thr sA sS (fun _ => 0)
    (1 / 10000000) (by norm_num) (by norm_num) (by norm_num) (fun _ _ => -1) (fun _ _ => 1)
    (fun t i => hY t i) (fun _ _ => one_pos) (exPairs_all Y) hA hS n 0 hn
    (⟨⟨fun _ _ _ => 0, fun _ _ _ => 1⟩, fun _ _ => 1 / 2, []⟩ : MoverState 2 2) s (fun _ _ _ => one_pos)
    hs t l k
  refine ⟨h1, h2, h3.trans ?_⟩
  norm_num

end Pytwoway.BLM
