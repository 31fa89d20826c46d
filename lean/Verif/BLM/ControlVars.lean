import Verif.BLM.ControlLoop

/-! # Variances with control variables (C88) -/

namespace Pytwoway.BLM

open Finset

variable {ni nl nk : ℕ}

/-! ## The M-step taken apart -/

/-- Squared residuals at the effects found in the first pass. -/
noncomputable def resid2 (d : Data ni nk) (A' : Fin 2 → Fin nl → Fin nk → ℝ)
    (z : List (Col ni nl) × (Fin 2 → Fin ni → ℝ)) (t : Fin 2) (l : Fin nl) (i : Fin ni) : ℝ :=
  (z.2 t i - sumByA (z.1.map (·.c)) l t i - A' t l (d.G t i)) ^ 2

theorem mstepRest_inv (d : Data ni nk) (q : Fin ni → Fin nl → ℝ) (b : Base nl nk) (ks : List (Col ni nl))
    (Yadj : Fin 2 → Fin ni → ℝ) (updA : Bool) (sS : Solver) (X : ℕ → ℝ) (A' : Fin 2 → Fin nl → Fin nk → ℝ)
    {r : Base nl nk × List (Col ni nl) × (Fin 2 → Fin ni → ℝ)}
    (h : mstepRest d q b ks Yadj updA true sS X A' = .ok r) :
    ∃ z Z, colsA d q A' updA [] ks Yadj = .ok z ∧
      assemble d (fun t l i => wts d b.S q t l i * resid2 d A' z t l i) = .ok Z ∧
      z.1.mapM (colS d q (resid2 d A' z)) = .ok r.2.1 ∧ r.1 = ⟨A', solveS sS X Z b.S⟩ ∧ r.2.2 = z.2 := by
  unfold mstepRest at h
  cases h2 : colsA d q A' updA [] ks Yadj with
  | error e => simp [h2, bind, Except.bind] at h
  | ok z =>
    simp only [h2, bind, Except.bind, pure, Except.pure, if_true] at h
    cases h3 : assemble d (fun t l i => wts d b.S q t l i * resid2 d A' z t l i) with
    | error e => simp only [resid2] at h3; simp [h3] at h
    | ok Z =>
      cases h4 : z.1.mapM (colS d q (resid2 d A' z)) with
      | error e =>
        have h3' : assemble d (fun t l i => wts d b.S q t l i *
          (z.2 t i - sumByA (z.1.map (·.c)) l t i - A' t l (d.G t i)) ^ 2) = .ok Z := h3
        have h4' : z.1.mapM (colS d q fun t l i => (z.2 t i - sumByA (z.1.map (·.c)) l t i - A' t l (d.G t i)) ^ 2) =
          .error e := h4
        simp [h3', h4'] at h
      | ok ks' =>
        have h3' : assemble d (fun t l i => wts d b.S q t l i *
          (z.2 t i - sumByA (z.1.map (·.c)) l t i - A' t l (d.G t i)) ^ 2) = .ok Z := h3
        have h4' : z.1.mapM (colS d q fun t l i => (z.2 t i - sumByA (z.1.map (·.c)) l t i - A' t l (d.G t i)) ^ 2) =
          .ok ks' := h4
        simp only [h3', h4', Except.ok.injEq] at h
        subst h
        exact ⟨z, Z, rfl, h3, h4, rfl, rfl⟩

theorem mstepC_inv (d : Data ni nk) (q : Fin ni → Fin nl → ℝ) (b : Base nl nk) (ks : List (Col ni nl))
    (Yadj : Fin 2 → Fin ni → ℝ) (updA : Bool) (sA sS : Solver)
    {r : Base nl nk × List (Col ni nl) × (Fin 2 → Fin ni → ℝ)}
    (h : mstepC d q b ks Yadj updA true sA sS = .ok r) :
    ∃ A' X z Z, assemble d (fun t l i => wts d b.S q t l i) = .ok X ∧ colsA d q A' updA [] ks Yadj = .ok z ∧
      assemble d (fun t l i => wts d b.S q t l i * resid2 d A' z t l i) = .ok Z ∧
      z.1.mapM (colS d q (resid2 d A' z)) = .ok r.2.1 ∧ r.1 = ⟨A', solveS sS X Z b.S⟩ ∧ r.2.2 = z.2 := by
  unfold mstepC at h
  simp only [Bool.or_true, if_true, bind, Except.bind] at h
  cases h1 : assemble d fun t l i => wts d b.S q t l i with
  | error e => simp [h1] at h
  | ok X =>
    simp only [h1] at h
    by_cases hA : updA = true
    · rw [if_pos hA] at h
      split at h
      · cases h
      · obtain ⟨z, Z, h⟩ := mstepRest_inv _ _ _ _ _ _ _ _ _ h
        exact ⟨_, X, z, Z, rfl, h⟩
    · rw [if_neg hA] at h
      obtain ⟨z, Z, h⟩ := mstepRest_inv _ _ _ _ _ _ _ _ _ h
      exact ⟨_, X, z, Z, rfl, h⟩

/-- The first pass changes effects only. -/
structure Alike (k k' : Col ni nl) : Prop where
  n : k'.n = k.n
  sS : k'.sS = k.sS
  shape : ∃ x, k'.c = k.c ∨ k'.c = k.c.setA k.n x

theorem colA_alike (d : Data ni nk) (q : Fin ni → Fin nl → ℝ) (A : Fin 2 → Fin nl → Fin nk → ℝ) (updA : Bool)
    (done todo : List (Col ni nl)) (k : Col ni nl) (Yadj : Fin 2 → Fin ni → ℝ) {r : Col ni nl × (Fin 2 → Fin ni → ℝ)}
    (h : colA d q A updA done k todo Yadj = .ok r) : Alike k r.1 := by
  unfold colA at h
  cases hX : colXwX d q k with
  | error e => simp [hX, bind, Except.bind] at h
  | ok X =>
    simp only [hX, bind, Except.bind, pure, Except.pure] at h
    cases updA with
    | false =>
      simp only [Bool.false_eq_true, if_false, Except.ok.injEq] at h
      subst h
      exact ⟨rfl, rfl, fun _ => 0, .inl rfl⟩
    | true =>
      simp only [if_true] at h
      generalize assembleCol k _ = z at h
      cases z with
      | error e => simp at h
      | ok Y =>
        simp only [Except.ok.injEq] at h
        subst h
        simp only
        unfold Col.solveA
        split
        · exact ⟨rfl, rfl, _, .inr rfl⟩
        · exact ⟨rfl, rfl, fun _ => 0, .inl rfl⟩
        · exact ⟨rfl, rfl, fun _ => 0, .inl rfl⟩

theorem colsA_alike (d : Data ni nk) (q : Fin ni → Fin nl → ℝ) (A : Fin 2 → Fin nl → Fin nk → ℝ) (updA : Bool)
    (todo : List (Col ni nl)) : ∀ (done : List (Col ni nl)) (Yadj : Fin 2 → Fin ni → ℝ)
    {r : List (Col ni nl) × (Fin 2 → Fin ni → ℝ)},
    colsA d q A updA done todo Yadj = .ok r → ∃ new, r.1 = done ++ new ∧ List.Forall₂ Alike todo new := by
  induction todo with
  | nil =>
    intro done Yadj r h
    simp only [colsA, Except.ok.injEq] at h
    subst h
    exact ⟨[], by simp, .nil⟩
  | cons k todo ih =>
    intro done Yadj r h
    rw [colsA] at h
    cases hc : colA d q A updA done k todo Yadj with
    | error e => simp [hc, bind, Except.bind] at h
    | ok z =>
      simp only [hc, bind, Except.bind] at h
      obtain ⟨new, h1, h2⟩ := ih _ _ h
      exact ⟨z.1 :: new, by simp [h1], .cons (colA_alike d q A updA done todo k Yadj hc) h2⟩

/-! ## Variances of a column -/

/-- The right-hand side of a column's second regression. -/
noncomputable def rhsS (c : Ctrl ni nl) (x : ℝ) : ℝ :=
  match c with
  | .catW .. | .catN .. => x
  | .ctsW .. | .ctsN .. => |x|

theorem colS_box (d : Data ni nk) (q : Fin ni → Fin nl → ℝ) (eps : Fin 2 → Fin nl → Fin ni → ℝ)
    (k : Col ni nl) (lb : ℝ) (hok : ColOk k)
    (hmass : ∀ (t : Fin 2) (l : Fin nl) (c : ℕ), c < k.n → 0 < Spec.mass d q k t l c)
    (hs : RightSolver (2 * (nl * k.n)) (fun x => ∀ p < 2 * (nl * k.n), lb ≤ x p) k.sS) :
    ∃ z : ℕ → ℝ, colS d q eps k = .ok { k with c := k.c.setS k.n z } ∧
      ∀ (t : Fin 2) (l : Fin nl) (c : ℕ), c < k.n → z (t.val * (nl * k.n) + l.val * k.n + c) =
        max lb (rhsS k.c (∑ i with k.c.pos t i = c, k.c.load t i * (colWts d q k.c t l i * eps t l i)) /
          Spec.mass d q k t l c) := by
  obtain ⟨X, hX, hXv⟩ := assembleCol_ok k hok fun t l i => colWts d q k.c t l i * k.c.load t i
  obtain ⟨Z, hZ, hZv⟩ := assembleCol_ok k hok fun t l i => colWts d q k.c t l i * eps t l i
  have hXm : ∀ (t : Fin 2) (l : Fin nl) (c : ℕ), c < k.n → X (t.val * (nl * k.n) + l.val * k.n + c) =
      Spec.mass d q k t l c := by
    intro t l c hc
    rw [hXv t l c hc]
    unfold Spec.mass colWts
    exact sum_congr rfl fun i _ => by ring
  have hP : ∀ p < 2 * (nl * k.n), 0 < X p := by
    intro p hp
    obtain ⟨t, l, c, rfl⟩ := exists_pos hp
    rw [hXm t l c c.isLt]
    exact hmass t l c c.isLt
  obtain ⟨z, hz⟩ := hs.complete X (fun p => - rhsS k.c (Z p)) hP ⟨fun _ => lb, fun _ _ => le_rfl⟩
  refine ⟨z, ?_, fun t l c hc => ?_⟩
  · have e : (match k.c with
      | .catW .. | .catN .. => Z
      | .ctsW .. | .ctsN .. => fun p => |Z p|) = fun p => rhsS k.c (Z p) := by
      unfold rhsS
      cases k.c <;> rfl
    have e2 : k.solveS X (fun p => rhsS k.c (Z p)) = { k with c := k.c.setS k.n z } := by
      unfold Col.solveS
      rw [hz]
    unfold colS
    simp only [colXwX, hX, bind, Except.bind, pure, Except.pure, hZ]
    rw [← e2]
    congr 2
  · have hp := pos_lt t l (⟨c, hc⟩ : Fin k.n)
    rw [box_coord hs hz hp (hP _ hp)]
    simp only
    rw [hXm t l c hc, hZv t l c hc]

/-- C88, closed form: under a lower bound `lb`, the new variance of a category of an interacted column, for a worker
type, is the posterior-weighted mean of the whole squared residual over the category's observations. -/
theorem C88_category_variance (d : Data ni nk) (q : Fin ni → Fin nl → ℝ) (eps : Fin 2 → Fin nl → Fin ni → ℝ)
    (k : Col ni nl) (lb : ℝ) (hlb : 0 ≤ lb) (hok : ColOk k) (C : Fin 2 → Fin ni → ℕ) (A S : Fin 2 → Fin nl → ℕ → ℝ)
    (hc : k.c = .catW C A S)
    (hmass : ∀ (t : Fin 2) (l : Fin nl) (c : ℕ), c < k.n → 0 < Spec.mass d q k t l c)
    (hs : RightSolver (2 * (nl * k.n)) (fun x => ∀ p < 2 * (nl * k.n), lb ≤ x p) k.sS) :
    ∃ S', colS d q eps k = .ok { k with c := .catW C A S' } ∧
      ∀ (t : Fin 2) (l : Fin nl) (c : ℕ), c < k.n → 0 ≤ S' t l c ∧ 0 < ∑ i with C t i = c, d.W t i * q i l / S t l c ^ 2 ∧
        S' t l c ^ 2 = max lb ((∑ i with C t i = c, d.W t i * q i l * eps t l i) / ∑ i with C t i = c, d.W t i * q i l) := by
  obtain ⟨z, h1, h2⟩ := colS_box d q eps k lb hok hmass hs
  refine ⟨fun t l c => √(z (t.val * (nl * k.n) + l.val * k.n + c)), by rw [h1, hc]; rfl, fun t l c hcn => ?_⟩
  have hm := hmass t l c hcn
  have hm' : Spec.mass d q k t l c = (∑ i with C t i = c, d.W t i * q i l) / S t l c ^ 2 := by
    unfold Spec.mass
    rw [hc, sum_div]
    refine sum_congr rfl fun i hi => ?_
    have : C t i = c := (mem_filter.mp hi).2
    simp [Ctrl.load, Ctrl.var, this]
  have hr : ∑ i with k.c.pos t i = c, k.c.load t i * (colWts d q k.c t l i * eps t l i) =
      (∑ i with C t i = c, d.W t i * q i l * eps t l i) / S t l c ^ 2 := by
    rw [hc, sum_div]
    refine sum_congr rfl fun i hi => ?_
    have : C t i = c := (mem_filter.mp hi).2
    simp only [Ctrl.load, colWts, Ctrl.var, this]
    ring
  have hS : S t l c ^ 2 ≠ 0 := by
    intro h0
    rw [hm', h0, div_zero] at hm
    exact lt_irrefl _ hm
  have hz := h2 t l c hcn
  rw [hr, hm', hc] at hz
  simp only [rhsS] at hz
  rw [div_div_div_cancel_right₀ hS] at hz
  refine ⟨Real.sqrt_nonneg _, ?_, ?_⟩
  · rw [hm', sum_div] at hm
    exact hm
  · rw [Real.sq_sqrt (by rw [hz]; exact le_trans hlb (le_max_left _ _)), hz]

/-- C88, closed form: the new variance of a continuous interacted column is the absolute value of the coefficient of a
regression without constant of the squared residuals on the column.  It depends on the units of the column. -/
theorem C88_slope_variance (d : Data ni nk) (q : Fin ni → Fin nl → ℝ) (eps : Fin 2 → Fin nl → Fin ni → ℝ)
    (k : Col ni nl) (lb : ℝ) (hlb : 0 ≤ lb) (hok : ColOk k) (C : Fin 2 → Fin ni → ℝ) (A S : Fin 2 → Fin nl → ℝ)
    (hc : k.c = .ctsW C A S)
    (hmass : ∀ (t : Fin 2) (l : Fin nl) (c : ℕ), c < k.n → 0 < Spec.mass d q k t l c)
    (hs : RightSolver (2 * (nl * k.n)) (fun x => ∀ p < 2 * (nl * k.n), lb ≤ x p) k.sS) :
    ∃ S', colS d q eps k = .ok { k with c := .ctsW C A S' } ∧
      ∀ (t : Fin 2) (l : Fin nl), 0 ≤ S' t l ∧
        S' t l ^ 2 = max lb (|∑ i, C t i * (d.W t i * q i l * eps t l i)| / ∑ i, C t i ^ 2 * (d.W t i * q i l)) := by
  obtain ⟨z, h1, h2⟩ := colS_box d q eps k lb hok hmass hs
  have hn : k.n = 1 := by
    unfold ColOk at hok
    rw [hc] at hok
    exact hok
  refine ⟨fun t l => √(z (t.val * nl + l.val)), by rw [h1, hc]; rfl, fun t l => ?_⟩
  have hm := hmass t l 0 (by omega)
  have hm' : Spec.mass d q k t l 0 = (∑ i, C t i ^ 2 * (d.W t i * q i l)) / S t l ^ 2 := by
    unfold Spec.mass
    rw [hc, sum_div]
    refine sum_congr (by simp [Ctrl.pos]) fun i hi => ?_
    simp only [Ctrl.load, Ctrl.var]
    ring
  have hr : ∑ i with k.c.pos t i = 0, k.c.load t i * (colWts d q k.c t l i * eps t l i) =
      (∑ i, C t i * (d.W t i * q i l * eps t l i)) / S t l ^ 2 := by
    rw [hc, sum_div]
    refine sum_congr (by simp [Ctrl.pos]) fun i hi => ?_
    simp only [Ctrl.load, colWts, Ctrl.var]
    ring
  have hS : S t l ^ 2 ≠ 0 := by
    intro h0
    rw [hm', h0, div_zero] at hm
    exact lt_irrefl _ hm
  have hz := h2 t l 0 (by omega)
  rw [hr, hm', hc] at hz
  simp only [rhsS] at hz
  rw [abs_div, abs_of_nonneg (sq_nonneg (S t l)), div_div_div_cancel_right₀ hS, hn] at hz
  simp only [mul_one, add_zero] at hz
  refine ⟨Real.sqrt_nonneg _, ?_⟩
  rw [Real.sq_sqrt (by rw [hz]; exact le_trans hlb (le_max_left _ _)), hz]

/-! ## Every column gets the whole residual -/

theorem cells_ge (n : ℕ) (C : Fin ni → ℕ) (hC : ∀ i, C i < n) (w e : Fin ni → ℝ) (v : ℕ → ℝ)
    (hw : ∀ c < n, 0 < ∑ i with C i = c, w i)
    (hv : ∀ c < n, (∑ i with C i = c, w i * e i) / (∑ i with C i = c, w i) ≤ v c) :
    ∑ i, w i * e i ≤ ∑ i, w i * v (C i) := by
  have hf : ∀ f : Fin ni → ℝ, ∑ i, f i = ∑ c ∈ range n, ∑ i with C i = c, f i := fun f =>
    (sum_fiberwise_of_maps_to (fun i _ => mem_range.mpr (hC i)) f).symm
  rw [hf, hf]
  refine sum_le_sum fun c hc => ?_
  have h1 := hv c (mem_range.mp hc)
  have h2 := hw c (mem_range.mp hc)
  rw [div_le_iff₀ h2] at h1
  refine le_of_le_of_eq h1 ?_
  rw [mul_sum]
  refine sum_congr rfl fun i hi => ?_
  rw [(mem_filter.mp hi).2]; ring

/-- Posterior-weighted squared residuals of one worker type in one period, at given effects. -/
noncomputable def Spec.rss (d : Data ni nk) (q : Fin ni → Fin nl → ℝ) (A : Fin 2 → Fin nl → Fin nk → ℝ)
    (cs : List (Ctrl ni nl)) (t : Fin 2) (l : Fin nl) : ℝ :=
  ∑ i, d.W t i * q i l * (d.Y t i - A t l (d.G t i) - (cs.map fun c => Spec.eff c l t i).sum) ^ 2

/-- Posterior-weighted sum of the variances the model gives to the wages. -/
noncomputable def Spec.tvar (d : Data ni nk) (q : Fin ni → Fin nl → ℝ) (S : Fin 2 → Fin nl → Fin nk → ℝ)
    (cs : List (Ctrl ni nl)) (t : Fin 2) (l : Fin nl) : ℝ :=
  ∑ i, d.W t i * q i l * (S t l (d.G t i) ^ 2 + (cs.map fun c => c.var l t i).sum)

/-- A categorical interacted column with enough data, its variances bounded below by `lb` only. -/
structure CatCol (d : Data ni nk) (q : Fin ni → Fin nl → ℝ) (lb : ℝ) (k : Col ni nl) : Prop where
  cat : ∃ C A S, k.c = .catW C A S
  ok : ColOk k
  mass : ∀ (t : Fin 2) (l : Fin nl) (c : ℕ), c < k.n → 0 < Spec.mass d q k t l c
  right : RightSolver (2 * (nl * k.n)) (fun x => ∀ p < 2 * (nl * k.n), lb ≤ x p) k.sS

theorem CatCol.of_alike {d : Data ni nk} {q : Fin ni → Fin nl → ℝ} {lb : ℝ} {k k' : Col ni nl} (h : CatCol d q lb k)
    (ha : Alike k k') : CatCol d q lb k' := by
  obtain ⟨C, A, S, hc⟩ := h.cat
  obtain ⟨x, hx⟩ := ha.shape
  obtain ⟨A', h1⟩ : ∃ A', k'.c = .catW C A' S := by
    rcases hx with hx | hx
    · exact ⟨A, hx.trans hc⟩
    · exact ⟨_, by rw [hx, hc]; rfl⟩
  refine ⟨⟨C, A', S, h1⟩, ?_, fun t l c hcn => ?_, ?_⟩
  · have := h.ok
    unfold ColOk at this ⊢
    rw [hc] at this
    rw [h1, ha.n]
    exact this
  · have := h.mass t l c (ha.n ▸ hcn)
    unfold Spec.mass at this ⊢
    rw [hc] at this
    rw [h1]
    exact this
  · rw [ha.n, ha.sS]
    exact h.right

theorem catCol_var_ge {d : Data ni nk} {q : Fin ni → Fin nl → ℝ} {lb : ℝ} (hlb : 0 ≤ lb) {k k' : Col ni nl}
    (h : CatCol d q lb k) (eps : Fin 2 → Fin nl → Fin ni → ℝ) (hS : colS d q eps k = .ok k') (t : Fin 2) (l : Fin nl) :
    ∑ i, d.W t i * q i l * eps t l i ≤ ∑ i, d.W t i * q i l * k'.c.var l t i := by
  obtain ⟨C, A, S, hc⟩ := h.cat
  obtain ⟨S', h1, h2⟩ := C88_category_variance d q eps k lb hlb h.ok C A S hc h.mass h.right
  rw [h1] at hS
  cases hS
  have hC : ∀ i, C t i < k.n := fun i => by
    have := h.ok.pos_lt t i
    rw [hc] at this
    exact this
  refine cells_ge k.n (C t) hC (fun i => d.W t i * q i l) (fun i => eps t l i) (fun c => S' t l c ^ 2) (fun c hcn => ?_)
    (fun c hcn => ?_)
  · have h3 := (h2 t l c hcn).2.1
    rw [← sum_div] at h3
    by_contra hn
    push Not at hn
    exact absurd h3 (not_lt.mpr (div_nonpos_of_nonpos_of_nonneg hn (sq_nonneg _)))
  · rw [(h2 t l c hcn).2.2]
    exact le_max_right _ _

theorem mapM_sum_ge {d : Data ni nk} {q : Fin ni → Fin nl → ℝ} {lb : ℝ} (hlb : 0 ≤ lb)
    (eps : Fin 2 → Fin nl → Fin ni → ℝ) (t : Fin 2) (l : Fin nl) (ks : List (Col ni nl)) : ∀ {ks' : List (Col ni nl)},
    (∀ k ∈ ks, CatCol d q lb k) → ks.mapM (colS d q eps) = .ok ks' →
    ks.length * ∑ i, d.W t i * q i l * eps t l i ≤
      ∑ i, d.W t i * q i l * ((ks'.map (·.c)).map fun c => c.var l t i).sum := by
  induction ks with
  | nil =>
    intro ks' _ h
    cases h
    simp
  | cons k ks ih =>
    intro ks' hk h
    rw [List.mapM_cons] at h
    cases h1 : colS d q eps k with
    | error e => simp [h1, bind, Except.bind] at h
    | ok k' =>
      cases h2 : ks.mapM (colS d q eps) with
      | error e => simp [h1, h2, bind, Except.bind] at h
      | ok ks2 =>
        simp only [h1, h2, bind, Except.bind, pure, Except.pure, Except.ok.injEq] at h
        subst h
        have h3 := ih (fun k hk' => hk k (by simp [hk'])) h2
        have h4 := catCol_var_ge hlb (hk k (by simp)) eps h1 t l
        simp only [List.map_cons, List.sum_cons, mul_add, sum_add_distrib, List.length_cons, Nat.cast_add, Nat.cast_one,
          add_mul, one_mul]
        linarith

theorem forall₂_mem {α β : Type} {R : α → β → Prop} {xs : List α} {ys : List β} (h : List.Forall₂ R xs ys) :
    ∀ y ∈ ys, ∃ x ∈ xs, R x y := by
  induction h with
  | nil => simp
  | cons hr _ ih =>
    intro y hy
    rcases List.mem_cons.mp hy with rfl | hy
    · exact ⟨_, by simp, hr⟩
    · obtain ⟨x, hx, h⟩ := ih y hy
      exact ⟨x, by simp [hx], h⟩

theorem sameMeans_mapM (d : Data ni nk) (q : Fin ni → Fin nl → ℝ) (eps : Fin 2 → Fin nl → Fin ni → ℝ)
    (ks : List (Col ni nl)) : ∀ {ks' : List (Col ni nl)}, ks.mapM (colS d q eps) = .ok ks' → SameMeans ks' ks := by
  induction ks with
  | nil => intro ks' h; cases h; rfl
  | cons k ks ih =>
    intro ks' h
    rw [List.mapM_cons] at h
    cases h1 : colS d q eps k with
    | error e => simp [h1, bind, Except.bind] at h
    | ok k' =>
      cases h2 : ks.mapM (colS d q eps) with
      | error e => simp [h1, h2, bind, Except.bind] at h
      | ok ks2 =>
        simp only [h1, h2, bind, Except.bind, pure, Except.pure, Except.ok.injEq] at h
        subst h
        have h3 := ih h2
        have h4 : (fun l t i => Spec.eff k'.c l t i) = fun l t i => Spec.eff k.c l t i := by
          unfold colS at h1
          cases hX : colXwX d q k with
          | error e => simp [hX, bind, Except.bind] at h1
          | ok X =>
            simp only [hX, bind, Except.bind, pure, Except.pure] at h1
            generalize assembleCol k _ = z at h1
            cases z with
            | error e => simp at h1
            | ok Y =>
              simp only [Except.ok.injEq] at h1
              subst h1
              exact solveS_means _ _ _
        unfold SameMeans at h3 ⊢
        rw [List.map_cons, List.map_cons, h3, h4]

/-- C88 fails: with `m` categorical interacted control variables, every M-step that returns leaves, for every worker
type and period, a sum of fitted variances of at least `m + 1` times the sum of squared residuals: the base and every
column are each given the whole of it. -/
theorem C88_double_count (d : Data ni nk) (q : Fin ni → Fin nl → ℝ) (b : Base nl nk) (ks : List (Col ni nl))
    (Yadj : Fin 2 → Fin ni → ℝ) (updA : Bool) (sA sS : Solver) (lb : ℝ) (hlb : 0 ≤ lb)
    (hsS : RightSolver (2 * (nl * nk)) (BoundS nl nk lb) sS) (htop : TopObserved d)
    (hS : ∀ t l k, 0 < b.S t l k) (hpos : ∀ t l k, 0 < cellW d q t l k) (hks : ∀ k ∈ ks, CatCol d q lb k)
    (hadj : Adj d (ks.map (·.c)) Yadj) {b' : Base nl nk} {ks' : List (Col ni nl)} {Y' : Fin 2 → Fin ni → ℝ}
    (h : mstepC d q b ks Yadj updA true sA sS = .ok (b', ks', Y')) (t : Fin 2) (l : Fin nl) :
    (ks.length + 1) * Spec.rss d q b'.A (ks'.map (·.c)) t l ≤ Spec.tvar d q b'.S (ks'.map (·.c)) t l := by
  obtain ⟨A', X, z, Z, hX, hz, hZ, hm, hb, hy⟩ := mstepC_inv d q b ks Yadj updA sA sS h
  simp only at hm hb hy
  obtain ⟨new, hn, hal⟩ := colsA_alike d q A' updA ks [] Yadj hz
  rw [List.nil_append] at hn
  obtain ⟨-, hadj2⟩ := colsA_keeps d q A' updA ks [] Yadj hz (by simpa using hadj)
  have hcat : ∀ k ∈ z.1, CatCol d q lb k := by
    intro k hk
    rw [hn] at hk
    obtain ⟨k0, hk0, ha⟩ := forall₂_mem hal k hk
    exact (hks k0 hk0).of_alike ha
  have hlen : z.1.length = ks.length := by rw [hn, hal.length_eq]
  have hres : ∀ t l i, resid2 d A' z t l i =
      (d.Y t i - A' t l (d.G t i) - ((ks'.map (·.c)).map fun c => Spec.eff c l t i).sum) ^ 2 := by
    intro t l i
    have h1 : (ks'.map (·.c)).map (fun c => Spec.eff c l t i) = (z.1.map (·.c)).map fun c => Spec.eff c l t i := by
      have hsame := sameMeans_mapM d q _ z.1 hm
      unfold SameMeans at hsame
      have := congrArg (List.map fun f : Fin nl → Fin 2 → Fin ni → ℝ => f l t i) hsame
      simpa [List.map_map, Function.comp_def] using this
    rw [h1, eff_sum]
    unfold resid2
    rw [hadj2 t i]
    congr 1; ring
  have hrss : ∑ i, d.W t i * q i l * resid2 d A' z t l i = Spec.rss d q b'.A (ks'.map (·.c)) t l := by
    unfold Spec.rss
    rw [hb]
    exact sum_congr rfl fun i _ => by rw [hres]
  -- the columns
  have hcols := mapM_sum_ge hlb (resid2 d A' z) t l z.1 hcat hm
  -- the base
  obtain ⟨X', hX', hXv⟩ := assemble_ok d htop fun t l i => wts d b.S q t l i
  obtain ⟨Z', hZ', hZv⟩ := assemble_ok d htop fun t l i => wts d b.S q t l i * resid2 d A' z t l i
  have e1 : X' = X := by rw [hX] at hX'; exact (Except.ok.inj hX').symm
  have e2 : Z' = Z := by rw [hZ] at hZ'; exact (Except.ok.inj hZ').symm
  subst e1 e2
  have hS2 : ∀ t l k, 0 < b.S t l k ^ 2 := fun t l k => by have := hS t l k; positivity
  have hXc : ∀ (t : Fin 2) (l : Fin nl) (k : Fin nk), X' (t.val * (nl * nk) + l.val * nk + k.val) =
      cellW d q t l k / b.S t l k ^ 2 := by
    intro t l k
    rw [hXv]
    unfold cellW wts
    rw [sum_div]
    exact sum_congr rfl fun i hi => by rw [(mem_filter.mp hi).2]
  have hP : ∀ p < 2 * (nl * nk), 0 < X' p := by
    intro p hp
    obtain ⟨t, l, k, rfl⟩ := exists_pos hp
    rw [hXc]
    exact div_pos (hpos t l k) (hS2 t l k)
  obtain ⟨x, hx⟩ := hsS.complete X' (fun p => - Z' p) hP ⟨fun _ => lb, fun _ _ => le_refl _⟩
  have hbS : ∀ k, b'.S t l k ^ 2 = max lb
      ((∑ i with d.G t i = k, d.W t i * q i l * resid2 d A' z t l i) / cellW d q t l k) := by
    intro k
    have hp := pos_lt t l k
    have hzc := box_coord hsS hx hp (hP _ hp)
    have hZc : ∑ i with d.G t i = k, wts d b.S q t l i * resid2 d A' z t l i =
        (∑ i with d.G t i = k, d.W t i * q i l * resid2 d A' z t l i) / b.S t l k ^ 2 := by
      unfold wts
      rw [sum_div]
      refine sum_congr rfl fun i hi => ?_
      rw [(mem_filter.mp hi).2]; ring
    rw [hZv, hXc, hZc, div_div_div_cancel_right₀ (hS2 t l k).ne'] at hzc
    rw [hb]
    simp only [solveS, hx, unflatten]
    rw [Real.sq_sqrt (by rw [hzc]; exact le_trans hlb (le_max_left _ _)), hzc]
  have hbase : ∑ i, d.W t i * q i l * resid2 d A' z t l i ≤ ∑ i, d.W t i * q i l * b'.S t l (d.G t i) ^ 2 := by
    rw [sum_cells d t (fun i k => d.W t i * q i l * b'.S t l k ^ 2),
      sum_cells d t (fun i _ => d.W t i * q i l * resid2 d A' z t l i)]
    refine sum_le_sum fun k _ => ?_
    rw [← sum_mul]
    have h1 : (∑ i with d.G t i = k, d.W t i * q i l * resid2 d A' z t l i) / cellW d q t l k ≤ b'.S t l k ^ 2 := by
      rw [hbS k]; exact le_max_right _ _
    rw [div_le_iff₀ (hpos t l k)] at h1
    unfold cellW at h1
    rw [mul_comm] at h1
    exact h1
  rw [hlen, hrss] at hcols
  rw [hrss] at hbase
  unfold Spec.tvar
  simp only [mul_add, sum_add_distrib]
  linarith

end Pytwoway.BLM
