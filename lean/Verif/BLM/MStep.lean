import Verif.BLM.Props

/-! # The M-step without controls (C34) -/

namespace Pytwoway.BLM

open Finset

variable {ni nl nk : ℕ}

/-! ## What is assumed of the quadratic-program solver -/

/-- The objective handed to `qpsolvers.solve_qp` for a diagonal matrix: `1/2 x'Px + q'x`. -/
noncomputable def qpObj (n : ℕ) (P q x : ℕ → ℝ) : ℝ :=
  ∑ p ∈ range n, (P p * x p ^ 2 / 2 + q p * x p)

/-- A right solver for `n` variables and the constraint set `feas`: what it returns is feasible and
optimal, and it does return something when the matrix is positive definite and the constraints are
consistent. -/
structure RightSolver (n : ℕ) (feas : (ℕ → ℝ) → Prop) (solve : Solver) : Prop where
  sound : ∀ P q x, solve P q = .ok (some x) → feas x ∧ ∀ y, feas y → qpObj n P q x ≤ qpObj n P q y
  complete : ∀ P q, (∀ p < n, 0 < P p) → (∃ x, feas x) → ∃ x, solve P q = .ok (some x)

/-- A right solver for lower bounds exists (so the assumption can be met). -/
theorem rightSolver_box (n : ℕ) (lb : ℝ) :
    ∃ solve : Solver, RightSolver n (fun x => ∀ p < n, lb ≤ x p) solve := by
  classical
  refine ⟨fun P q => if ∀ p < n, 0 < P p then .ok (some fun p => max lb (- q p / P p))
    else .error "ValueError", ?_, ?_⟩
  · intro P q x h
    split at h
    · rename_i hP
      simp only [Except.ok.injEq, Option.some.injEq] at h
      subst h
      refine ⟨fun p _ => le_max_left _ _, fun y hy => sum_le_sum fun p hp => ?_⟩
      have hp := mem_range.mp hp
      have hPp := hP p hp
      have hyp := hy p hp
      beta_reduce
      rcases le_total lb (- q p / P p) with hm | hm
      · rw [max_eq_right hm]
        have h0 : P p * (- q p / P p) = - q p := by field_simp
        nlinarith [mul_nonneg hPp.le (sq_nonneg (y p - - q p / P p))]
      · rw [max_eq_left hm]
        have h0 : P p * (- q p / P p) = - q p := by field_simp
        have h1 : 0 ≤ (y p - lb) * (lb - - q p / P p) := mul_nonneg (by linarith) (by linarith)
        nlinarith [mul_nonneg hPp.le h1, mul_nonneg hPp.le (sq_nonneg (y p - lb))]
    · exact absurd h (by simp)
  · intro P q hP _
    exact ⟨_, by simp only [if_pos hP]; rfl⟩

/-- A right solver without constraints exists. -/
theorem rightSolver_free (n : ℕ) : ∃ solve : Solver, RightSolver n (fun _ => True) solve := by
  classical
  refine ⟨fun P q => if ∀ p < n, 0 < P p then .ok (some fun p => - q p / P p)
    else .error "ValueError", ?_, ?_⟩
  · intro P q x h
    split at h
    · rename_i hP
      simp only [Except.ok.injEq, Option.some.injEq] at h
      subst h
      refine ⟨trivial, fun y _ => sum_le_sum fun p hp => ?_⟩
      have hPp := hP p (mem_range.mp hp)
      beta_reduce
      have h0 : P p * (- q p / P p) = - q p := by field_simp
      generalize - q p / P p = m at h0 ⊢
      have h1 : q p = - (P p * m) := by linarith
      rw [h1]
      nlinarith [mul_nonneg hPp.le (sq_nonneg (y p - m))]
    · exact absurd h (by simp)
  · intro P q hP _
    exact ⟨_, by simp only [if_pos hP]; rfl⟩

/-! ## Positions -/

theorem sum_range_mul (a b : ℕ) (g : ℕ → ℝ) :
    ∑ p ∈ range (a * b), g p = ∑ l : Fin a, ∑ k : Fin b, g (l.val * b + k.val) := by
  induction a with
  | zero => simp
  | succ a ih =>
    rw [show (a + 1) * b = a * b + b by ring, sum_range_add, ih, Fin.sum_univ_castSucc]
    simp [Fin.sum_univ_eq_sum_range (fun k => g (a * b + k)) b]

theorem sum_positions (g : ℕ → ℝ) :
    ∑ p ∈ range (2 * (nl * nk)), g p =
      ∑ t : Fin 2, ∑ l : Fin nl, ∑ k : Fin nk, g (t.val * (nl * nk) + l.val * nk + k.val) := by
  rw [two_mul, sum_range_add, sum_range_mul,
    sum_range_mul nl nk (fun p => g (nl * nk + p)), Fin.sum_univ_two]
  simp [add_assoc]

theorem pos_lt (t : Fin 2) (l : Fin nl) (k : Fin nk) :
    t.val * (nl * nk) + l.val * nk + k.val < 2 * (nl * nk) := by
  have h1 : (l.val + 1) * nk ≤ nl * nk := Nat.mul_le_mul_right nk l.isLt
  have h2 : (l.val + 1) * nk = l.val * nk + nk := by ring
  have h3 := k.isLt
  have h4 : t.val * (nl * nk) ≤ 1 * (nl * nk) := Nat.mul_le_mul_right _ (by omega)
  omega

/-- Every position of the flattened vector is the position of some cell. -/
theorem exists_pos {p : ℕ} (hp : p < 2 * (nl * nk)) :
    ∃ (t : Fin 2) (l : Fin nl) (k : Fin nk), p = t.val * (nl * nk) + l.val * nk + k.val := by
  have hk : 0 < nk := by
    rcases Nat.eq_zero_or_pos nk with h | h
    · subst h; simp at hp
    · exact h
  have key : ∀ r < nl * nk, ∃ (l : Fin nl) (k : Fin nk), r = l.val * nk + k.val := by
    intro r hr
    refine ⟨⟨r / nk, Nat.div_lt_of_lt_mul (by rwa [Nat.mul_comm])⟩, ⟨r % nk, Nat.mod_lt _ hk⟩, ?_⟩
    exact (Nat.div_add_mod' r nk).symm
  by_cases h : p < nl * nk
  · obtain ⟨l, k, h⟩ := key p h
    exact ⟨0, l, k, by simpa using h⟩
  · obtain ⟨l, k, h'⟩ := key (p - nl * nk) (by omega)
    exact ⟨1, l, k, by simp; omega⟩

theorem pos_inj (t t' : Fin 2) (l l' : Fin nl) (k k' : Fin nk)
    (hs : t.val * (nl * nk) + l.val * nk + k.val = t'.val * (nl * nk) + l'.val * nk + k'.val) :
    t = t' ∧ l = l' ∧ k = k' := by
  have hb : ∀ (l : Fin nl) (k : Fin nk), l.val * nk + k.val < nl * nk := by
    intro l k
    have h1 : (l.val + 1) * nk ≤ nl * nk := Nat.mul_le_mul_right nk l.isLt
    have h2 : (l.val + 1) * nk = l.val * nk + nk := by ring
    have h3 := k.isLt
    omega
  have ht : t = t' := by
    have h1 := hb l k; have h2 := hb l' k'
    fin_cases t <;> fin_cases t' <;> simp at hs ⊢ <;> omega
  subst ht
  have h1 : k.val + nk * l.val = l'.val * nk + k'.val := by
    have : nk * l.val = l.val * nk := Nat.mul_comm _ _
    omega
  obtain ⟨h2, h3⟩ := (digits_eq k.isLt k'.isLt).mp h1
  exact ⟨rfl, Fin.ext h3, Fin.ext h2⟩

/-- A flattened vector with prescribed cells. -/
theorem exists_flat (A : Fin 2 → Fin nl → Fin nk → ℝ) : ∃ x, unflatten nl nk x = A := by
  classical
  let f : Fin 2 × Fin nl × Fin nk → ℕ := fun c => c.1.val * (nl * nk) + c.2.1.val * nk + c.2.2.val
  have hf : Function.Injective f := by
    rintro ⟨t, l, k⟩ ⟨t', l', k'⟩ h
    obtain ⟨rfl, rfl, rfl⟩ := pos_inj t t' l l' k k' h
    rfl
  refine ⟨Function.extend f (fun c => A c.1 c.2.1 c.2.2) 0, ?_⟩
  funext t l k
  exact hf.extend_apply _ _ (t, l, k)

/-! ## Assembling the normal equations -/

/-- The highest firm type occurs in both periods. -/
def TopObserved (d : Data ni nk) : Prop := ∀ t, ∃ i, (d.G t i).val = nk - 1

theorem len_top (d : Data ni nk) (h : TopObserved d) (hnk : 0 < nk) (t : Fin 2) (w : Fin ni → ℝ) :
    (bincount (fun i => (d.G t i).val) w).len = nk :=
  (bincount_len_eq _ _ _ hnk fun i => (d.G t i).isLt).mpr (h t)

/-- With the highest type observed, the vector assembled holds the cell sums at the cells'
positions. -/
theorem assemble_ok (d : Data ni nk) (h : TopObserved d) (f : Fin 2 → Fin nl → Fin ni → ℝ) :
    ∃ X, assemble d f = .ok X ∧ ∀ (t : Fin 2) (l : Fin nl) (k : Fin nk),
      X (t.val * (nl * nk) + l.val * nk + k.val) = ∑ i with d.G t i = k, f t l i := by
  classical
  by_cases hnk : 0 < nk
  · refine ⟨_, if_pos fun t l => Or.inl (len_top d h hnk t _), ?_⟩
    intro t l k
    have hb : l.val * nk + k.val < nl * nk := by
      have h1 : (l.val + 1) * nk ≤ nl * nk := Nat.mul_le_mul_right nk l.isLt
      have h2 : (l.val + 1) * nk = l.val * nk + nk := by ring
      have h3 := k.isLt
      omega
    have hdiv : (l.val * nk + k.val) / nk = l.val := by
      rw [Nat.add_comm, Nat.add_mul_div_right _ _ hnk, Nat.div_eq_of_lt k.isLt, Nat.zero_add]
    have hmod : (l.val * nk + k.val) % nk = k.val := by
      rw [Nat.add_comm, Nat.add_mul_mod_self_right, Nat.mod_eq_of_lt k.isLt]
    have hval : ∀ t, assigned nk (bincount (fun i => (d.G t i).val) (f t l)) k.val =
        ∑ i with d.G t i = k, f t l i := by
      intro t
      unfold assigned
      rw [if_pos (len_top d h hnk t _)]
      simp only [bincount]
      rw [sum_filter]
      simp only [← Fin.ext_iff]
    have ht : t = 0 ∨ t = 1 := by fin_cases t <;> simp
    rcases ht with rfl | rfl
    · simp only [Fin.val_zero, zero_mul, zero_add]
      rw [dif_pos hb, ← hval]
      congr 1
      simp only [hdiv]
    · simp only [Fin.val_one, one_mul]
      rw [dif_neg (by omega), dif_pos (by omega)]
      have he : nl * nk + l.val * nk + k.val - nl * nk = l.val * nk + k.val := by omega
      rw [← hval]
      simp only [he, hdiv, hmod]
  · have h0 : nk = 0 := by omega
    subst h0
    have : IsEmpty (Fin ni) := ⟨fun i => (d.G 0 i).elim0⟩
    obtain ⟨i, _⟩ := h 0
    exact isEmptyElim i

/-- Cell weight: total (weighted) posterior of worker type `l` at firm type `k` in period `t`. -/
noncomputable def cellW (d : Data ni nk) (q : Fin ni → Fin nl → ℝ) (t : Fin 2) (l : Fin nl)
    (k : Fin nk) : ℝ := ∑ i with d.G t i = k, d.W t i * q i l

/-- Weighted sum of squared deviations of wages from `A`, each period and cell with precision
`1 / S ^ 2`: the objective of the constrained regression. -/
noncomputable def wsse (d : Data ni nk) (q : Fin ni → Fin nl → ℝ) (S A : Fin 2 → Fin nl → Fin nk → ℝ) :
    ℝ :=
  ∑ t, ∑ l, ∑ i, d.W t i * q i l / S t l (d.G t i) ^ 2 * (d.Y t i - A t l (d.G t i)) ^ 2

theorem sum_cells (d : Data ni nk) (t : Fin 2) (f : Fin ni → Fin nk → ℝ) :
    ∑ i, f i (d.G t i) = ∑ k, ∑ i with d.G t i = k, f i k := by
  rw [← sum_fiberwise_of_maps_to (s := univ) (t := univ) (g := d.G t) (fun i _ => mem_univ _)]
  refine sum_congr rfl fun k _ => sum_congr rfl fun i hi => ?_
  rw [(mem_filter.mp hi).2]

/-- The quadratic objective of any solve over the cells: `Σ_cells (P A² / 2 - b A)`. -/
theorem qpObj_cells (P q x : ℕ → ℝ) :
    qpObj (2 * (nl * nk)) P q x = ∑ t : Fin 2, ∑ l : Fin nl, ∑ k : Fin nk,
      (P (t.val * (nl * nk) + l.val * nk + k.val) * unflatten nl nk x t l k ^ 2 / 2 +
        q (t.val * (nl * nk) + l.val * nk + k.val) * unflatten nl nk x t l k) := by
  unfold qpObj
  rw [sum_positions]
  rfl

/-- The objective built from the assembled normal equations is half the weighted sum of squares, up
to a constant. -/
theorem obj_eq_wsse (d : Data ni nk) (q : Fin ni → Fin nl → ℝ) (S : Fin 2 → Fin nl → Fin nk → ℝ)
    (X Yv x : ℕ → ℝ)
    (hX : ∀ (t : Fin 2) (l : Fin nl) (k : Fin nk), X (t.val * (nl * nk) + l.val * nk + k.val) =
      ∑ i with d.G t i = k, wts d S q t l i)
    (hY : ∀ (t : Fin 2) (l : Fin nl) (k : Fin nk), Yv (t.val * (nl * nk) + l.val * nk + k.val) =
      ∑ i with d.G t i = k, wts d S q t l i * d.Y t i) :
    qpObj (2 * (nl * nk)) X (fun p => - Yv p) x =
      wsse d q S (unflatten nl nk x) / 2 - wsse d q S (fun _ _ _ => 0) / 2 := by
  rw [qpObj_cells]
  unfold wsse
  simp only [sub_zero]
  rw [← sub_div, ← sum_sub_distrib, sum_div]
  refine sum_congr rfl fun t _ => ?_
  rw [← sum_sub_distrib, sum_div]
  refine sum_congr rfl fun l _ => ?_
  rw [← sum_sub_distrib, sum_div]
  rw [sum_cells d t (fun i k => (d.W t i * q i l / S t l k ^ 2 *
    (d.Y t i - unflatten nl nk x t l k) ^ 2 - d.W t i * q i l / S t l k ^ 2 * d.Y t i ^ 2) / 2)]
  refine sum_congr rfl fun k _ => ?_
  rw [hX, hY, sum_mul, sum_div, ← sum_neg_distrib, sum_mul, ← sum_add_distrib]
  refine sum_congr rfl fun i hi => ?_
  unfold wts
  rw [(mem_filter.mp hi).2]
  ring

/-! ## C34 -/

/-- The constraint set of the variances: a lower bound on every squared standard deviation. -/
def BoundS (nl nk : ℕ) (lb : ℝ) (x : ℕ → ℝ) : Prop := ∀ p < 2 * (nl * nk), lb ≤ x p

/-- C34, effects: whatever the constraint set `F` on the means (constraint objects are properties of
the flattened vector), the updated means satisfy it and no admissible means have a smaller weighted
sum of squared residuals. -/
theorem C34_means_minimise (d : Data ni nk) (q : Fin ni → Fin nl → ℝ) (b b' : Base nl nk)
    (updS : Bool) (sA sS : Solver) (F : (Fin 2 → Fin nl → Fin nk → ℝ) → Prop)
    (hsA : RightSolver (2 * (nl * nk)) (fun x => F (unflatten nl nk x)) sA)
    (htop : TopObserved d) (hS : ∀ t l k, 0 < b.S t l k) (hF : ∃ A, F A)
    (hpos : ∀ t l k, 0 < cellW d q t l k)
    (h : mstep d q b true updS sA sS = .ok b') :
    F b'.A ∧ ∀ A, F A → wsse d q b.S b'.A ≤ wsse d q b.S A := by
  obtain ⟨X, hX, hXv⟩ := assemble_ok d htop fun t l i => wts d b.S q t l i
  obtain ⟨Yv, hY, hYv⟩ := assemble_ok d htop fun t l i => wts d b.S q t l i * d.Y t i
  have hP : ∀ p < 2 * (nl * nk), 0 < X p := by
    intro p hp
    obtain ⟨t, l, k, rfl⟩ := exists_pos hp
    rw [hXv]
    have : ∑ i with d.G t i = k, wts d b.S q t l i = cellW d q t l k / b.S t l k ^ 2 := by
      unfold cellW wts
      rw [sum_div]
      exact sum_congr rfl fun i hi => by rw [(mem_filter.mp hi).2]
    rw [this]
    exact div_pos (hpos t l k) (by have := hS t l k; positivity)
  obtain ⟨A0, hA0⟩ := hF
  obtain ⟨x0, hx0⟩ := exists_flat A0
  obtain ⟨x, hx⟩ := hsA.complete X (fun p => - Yv p) hP ⟨x0, by rw [hx0]; exact hA0⟩
  obtain ⟨hfx, hmin⟩ := hsA.sound _ _ _ hx
  have hA' : b'.A = unflatten nl nk x := by
    unfold mstep at h
    simp only [Bool.true_or, if_true, hX, hY, bind, Except.bind, pure, Except.pure] at h
    have hs : solveA sA X Yv b.A = unflatten nl nk x := by unfold solveA; rw [hx]
    rw [hs] at h
    cases updS with
    | false => simp at h
    | true =>
      obtain ⟨Z, hZ, -⟩ := assemble_ok d htop fun t l i => wts d b.S q t l i *
        (d.Y t i - unflatten nl nk x t l (d.G t i)) ^ 2
      simp only [if_true, hZ, Except.ok.injEq] at h
      rw [← h]
  rw [hA']
  refine ⟨hfx, fun A hA => ?_⟩
  obtain ⟨y, hy⟩ := exists_flat A
  have := hmin y (by rw [hy]; exact hA)
  rw [obj_eq_wsse d q b.S X Yv x hXv hYv, obj_eq_wsse d q b.S X Yv y hXv hYv, hy] at this
  linarith

theorem box_coord {n : ℕ} {lb : ℝ} {sS : Solver} (hs : RightSolver n (fun x => ∀ p < n, lb ≤ x p) sS)
    {P r x : ℕ → ℝ} (hx : sS P (fun p => - r p) = .ok (some x)) {p : ℕ} (hp : p < n)
    (hP : 0 < P p) : x p = max lb (r p / P p) := by
  obtain ⟨hf, hmin⟩ := hs.sound _ _ _ hx
  classical
  have h1 := hmin (Function.update x p (max lb (r p / P p))) (by
    intro p' hp'
    by_cases h : p' = p
    · subst h; simp
    · rw [Function.update_of_ne h]; exact hf p' hp')
  unfold qpObj at h1
  rw [← add_sum_erase _ _ (mem_range.mpr hp), ← add_sum_erase (range n) _ (mem_range.mpr hp)] at h1
  have h2 : ∑ p' ∈ (range n).erase p, (P p' * Function.update x p (max lb (r p / P p)) p' ^ 2 / 2 +
      -r p' * Function.update x p (max lb (r p / P p)) p') =
      ∑ p' ∈ (range n).erase p, (P p' * x p' ^ 2 / 2 + -r p' * x p') :=
    sum_congr rfl fun p' hp' => by rw [Function.update_of_ne (ne_of_mem_erase hp')]
  rw [h2] at h1
  simp only [Function.update_self] at h1
  have hxl := hf p hp
  have h0 : P p * (r p / P p) = r p := by field_simp
  set m := r p / P p with hm
  have h3 : P p * (x p - m) ^ 2 ≤ P p * (max lb m - m) ^ 2 := by
    have e : ∀ z, P p * (z - m) ^ 2 = 2 * (P p * z ^ 2 / 2 + -r p * z) + P p * m ^ 2 := by
      intro z; rw [← h0]; ring
    rw [e, e]; linarith
  have h4 : (x p - m) ^ 2 ≤ (max lb m - m) ^ 2 := le_of_mul_le_mul_left h3 hP
  rcases le_total lb m with hc | hc
  · rw [max_eq_right hc] at h4 ⊢
    have : (x p - m) ^ 2 ≤ 0 := by simpa using h4
    have := pow_eq_zero_iff (n := 2) (by norm_num) |>.mp (le_antisymm this (sq_nonneg _))
    linarith
  · rw [max_eq_left hc] at h4 ⊢
    have := abs_le.mp (abs_le_of_sq_le_sq h4 (by linarith))
    linarith [this.2]

/-- C34, closed form: without constraints on the means and with the lower bound `lb` on squared
standard deviations, in every cell with positive weight the M-step sets the mean to the
posterior-weighted mean wage and the squared standard deviation to the posterior-weighted mean squared
residual, but at least `lb`. -/
theorem C34_closed_form [NeZero nl] (d : Data ni nk) (q : Fin ni → Fin nl → ℝ) (b : Base nl nk)
    (lb : ℝ) (sA sS : Solver) (hnk : 0 < nk)
    (hsA : RightSolver (2 * (nl * nk)) (fun _ => True) sA)
    (hsS : RightSolver (2 * (nl * nk)) (BoundS nl nk lb) sS) (hlb : 0 ≤ lb)
    (hS : ∀ t l k, 0 < b.S t l k) (hpos : ∀ t l k, 0 < cellW d q t l k) :
    ∃ b', mstep d q b true true sA sS = .ok b' ∧ ∀ (t : Fin 2) (l : Fin nl) (k : Fin nk),
      b'.A t l k = (∑ i with d.G t i = k, d.W t i * q i l * d.Y t i) / cellW d q t l k ∧
      0 ≤ b'.S t l k ∧
      b'.S t l k ^ 2 = max lb
        ((∑ i with d.G t i = k, d.W t i * q i l * (d.Y t i - b'.A t l k) ^ 2) / cellW d q t l k) := by
  have htop : TopObserved d := by
    intro t
    have h1 := hpos t ⟨0, Nat.pos_of_neZero nl⟩ ⟨nk - 1, by omega⟩
    by_contra hne
    push Not at hne
    unfold cellW at h1
    rw [filter_false_of_mem (fun i _ => fun h => hne i (by rw [h])), sum_empty] at h1
    exact lt_irrefl _ h1
  obtain ⟨X, hX, hXv⟩ := assemble_ok d htop fun t l i => wts d b.S q t l i
  obtain ⟨Yv, hY, hYv⟩ := assemble_ok d htop fun t l i => wts d b.S q t l i * d.Y t i
  have hXc : ∀ (t : Fin 2) (l : Fin nl) (k : Fin nk), X (t.val * (nl * nk) + l.val * nk + k.val) =
      cellW d q t l k / b.S t l k ^ 2 := by
    intro t l k
    rw [hXv]
    unfold cellW wts
    rw [sum_div]
    exact sum_congr rfl fun i hi => by rw [(mem_filter.mp hi).2]
  have hS2 : ∀ t l k, 0 < b.S t l k ^ 2 := fun t l k => by have := hS t l k; positivity
  have hP : ∀ p < 2 * (nl * nk), 0 < X p := by
    intro p hp
    obtain ⟨t, l, k, rfl⟩ := exists_pos hp
    rw [hXc]
    exact div_pos (hpos t l k) (hS2 t l k)
  obtain ⟨x, hx⟩ := hsA.complete X (fun p => - Yv p) hP ⟨fun _ => 0, trivial⟩
  have hA : ∀ (t : Fin 2) (l : Fin nl) (k : Fin nk), unflatten nl nk x t l k =
      (∑ i with d.G t i = k, d.W t i * q i l * d.Y t i) / cellW d q t l k := by
    intro t l k
    -- an unconstrained optimum solves each coordinate: compare with the one-coordinate change
    obtain ⟨-, hmin⟩ := hsA.sound _ _ _ hx
    classical
    set p := t.val * (nl * nk) + l.val * nk + k.val with hpdef
    have hp : p < 2 * (nl * nk) := pos_lt t l k
    have h1 := hmin (Function.update x p (Yv p / X p)) trivial
    unfold qpObj at h1
    rw [← add_sum_erase _ _ (mem_range.mpr hp),
      ← add_sum_erase (range (2 * (nl * nk))) _ (mem_range.mpr hp)] at h1
    have h2 : ∑ p' ∈ (range (2 * (nl * nk))).erase p,
        (X p' * Function.update x p (Yv p / X p) p' ^ 2 / 2 +
          -Yv p' * Function.update x p (Yv p / X p) p') =
        ∑ p' ∈ (range (2 * (nl * nk))).erase p, (X p' * x p' ^ 2 / 2 + -Yv p' * x p') :=
      sum_congr rfl fun p' hp' => by rw [Function.update_of_ne (ne_of_mem_erase hp')]
    rw [h2] at h1
    simp only [Function.update_self] at h1
    have hPp := hP p hp
    have h0 : X p * (Yv p / X p) = Yv p := by field_simp
    have h3 : X p * (x p - Yv p / X p) ^ 2 ≤ 0 := by
      have e : X p * (x p - Yv p / X p) ^ 2 = 2 * (X p * x p ^ 2 / 2 + -Yv p * x p) -
          2 * (X p * (Yv p / X p) ^ 2 / 2 + -Yv p * (Yv p / X p)) := by
        linear_combination (-2 * x p + 2 * (Yv p / X p)) * h0
      rw [e]; linarith
    have h4 : (x p - Yv p / X p) ^ 2 = 0 := by
      have := sq_nonneg (x p - Yv p / X p)
      by_contra hne
      have : 0 < (x p - Yv p / X p) ^ 2 := lt_of_le_of_ne this (Ne.symm hne)
      nlinarith
    have h5 : x p = Yv p / X p := by
      have := pow_eq_zero_iff (n := 2) (by norm_num) |>.mp h4
      linarith
    unfold unflatten
    rw [← hpdef, h5, hpdef, hYv, hXc]
    have hYc : ∑ i with d.G t i = k, wts d b.S q t l i * d.Y t i =
        (∑ i with d.G t i = k, d.W t i * q i l * d.Y t i) / b.S t l k ^ 2 := by
      unfold wts
      rw [sum_div]
      refine sum_congr rfl fun i hi => ?_
      rw [(mem_filter.mp hi).2]; ring
    rw [hYc, div_div_div_cancel_right₀ (hS2 t l k).ne']
  obtain ⟨Z, hZ, hZv⟩ := assemble_ok d htop fun t l i => wts d b.S q t l i *
    (d.Y t i - unflatten nl nk x t l (d.G t i)) ^ 2
  obtain ⟨z, hz⟩ := hsS.complete X (fun p => - Z p) hP ⟨fun _ => lb, fun _ _ => le_refl _⟩
  refine ⟨⟨unflatten nl nk x, fun t l k => √(unflatten nl nk z t l k)⟩, ?_, ?_⟩
  · unfold mstep
    have hs : solveA sA X Yv b.A = unflatten nl nk x := by unfold solveA; rw [hx]
    have hs2 : solveS sS X Z b.S = fun t l k => √(unflatten nl nk z t l k) := by
      unfold solveS; rw [hz]
    simp only [Bool.true_or, if_true, hX, hY, bind, Except.bind, pure, Except.pure, hs, hZ, hs2]
  · intro t l k
    refine ⟨hA t l k, Real.sqrt_nonneg _, ?_⟩
    have hzc := box_coord hsS hz (pos_lt t l k) (hP _ (pos_lt t l k))
    have hzu : unflatten nl nk z t l k = max lb
        ((∑ i with d.G t i = k, d.W t i * q i l * (d.Y t i - unflatten nl nk x t l k) ^ 2) /
          cellW d q t l k) := by
      unfold unflatten at hzc ⊢
      rw [hzc, hZv, hXc]
      congr 1
      have hZc : ∑ i with d.G t i = k, wts d b.S q t l i *
          (d.Y t i - unflatten nl nk x t l (d.G t i)) ^ 2 =
          (∑ i with d.G t i = k, d.W t i * q i l * (d.Y t i - unflatten nl nk x t l k) ^ 2) /
            b.S t l k ^ 2 := by
        unfold wts
        rw [sum_div]
        refine sum_congr rfl fun i hi => ?_
        rw [(mem_filter.mp hi).2]; ring
      rw [hZc, div_div_div_cancel_right₀ (hS2 t l k).ne']
      rfl
    simp only
    rw [Real.sq_sqrt (by rw [hzu]; exact le_trans hlb (le_max_left _ _)), hzu]

/-- Outside the happy path: if the highest firm type does not occur in some period (and that period
has a type other than the lowest), the M-step raises instead of updating. -/
theorem C34_raises [NeZero nl] (d : Data ni nk) (q : Fin ni → Fin nl → ℝ) (b : Base nl nk)
    (updA updS : Bool) (hupd : (updA || updS) = true) (sA sS : Solver) (t : Fin 2)
    (hmiss : ∀ i, (d.G t i).val ≠ nk - 1) (hsome : ∃ i, 0 < (d.G t i).val) :
    mstep d q b updA updS sA sS = .error "ValueError" := by
  classical
  have hasm : ∀ f : Fin 2 → Fin nl → Fin ni → ℝ, assemble d f = .error "ValueError" := by
    intro f
    unfold assemble
    simp only
    rw [if_neg]
    intro hall
    have hnk : 0 < nk := by
      obtain ⟨i, _⟩ := hsome
      have := (d.G t i).isLt
      omega
    rcases hall t ⟨0, Nat.pos_of_neZero nl⟩ with h | h
    · obtain ⟨i, hi⟩ := (bincount_len_eq _ _ _ hnk fun i => (d.G t i).isLt).mp h
      exact hmiss i hi
    · obtain ⟨i, hi⟩ := hsome
      have : (d.G t i).val + 1 ≤
          (bincount (fun i => (d.G t i).val) (f t ⟨0, Nat.pos_of_neZero nl⟩)).len :=
        Finset.le_sup (f := fun i => (d.G t i).val + 1) (mem_univ i)
      omega
  unfold mstep
  simp only [hupd, if_true, hasm, bind, Except.bind]

/-- Non-vacuity of C34: two movers between two firm types and two worker types with even posteriors
have positive weight in every cell, and right solvers exist. -/
example : (∀ t l k, 0 < cellW exData (fun _ (_ : Fin 2) => 1 / 2) t l k) ∧
    (∃ sA, RightSolver (2 * (2 * 2)) (fun _ => True) sA) ∧
    ∃ sS, RightSolver (2 * (2 * 2)) (BoundS 2 2 (1 / 10000000)) sS := by
  refine ⟨fun t l k => ?_, rightSolver_free _, rightSolver_box _ _⟩
  apply sum_pos
  · intro i _; simp [exData]
  · fin_cases t <;> fin_cases k
    · exact ⟨0, by simp [exData]⟩
    · exact ⟨1, by simp [exData]⟩
    · exact ⟨1, by simp [exData]⟩
    · exact ⟨0, by simp [exData]⟩

end Pytwoway.BLM
