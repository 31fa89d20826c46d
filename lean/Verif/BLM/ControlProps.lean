import Verif.BLM.Controls

/-! # Effects of control variables in the M-step (C87) -/

namespace Pytwoway.BLM

open Finset

variable {ni nl nk : ℕ}

/-! ## Specification -/

/-- What a control column adds to the mean wage of a row for worker type `l`. -/
def Spec.eff (c : Ctrl ni nl) (l : Fin nl) (t : Fin 2) (i : Fin ni) : ℝ :=
  match c with
  | .catW C A _ => A t l (C t i)
  | .catN C A _ => A t (C t i)
  | .ctsW C A _ => A t l * C t i
  | .ctsN C A _ => A t * C t i

/-- Posterior-weighted squared residuals of the wages, row weights divided by `v`. -/
noncomputable def Spec.sse (d : Data ni nk) (q : Fin ni → Fin nl → ℝ) (v : Fin nl → Fin 2 → Fin ni → ℝ)
    (A : Fin 2 → Fin nl → Fin nk → ℝ) (cs : List (Ctrl ni nl)) : ℝ :=
  ∑ t, ∑ l, ∑ i, d.W t i * q i l / v l t i *
    (d.Y t i - A t l (d.G t i) - (cs.map fun c => Spec.eff c l t i).sum) ^ 2

/-! ## Sums over columns -/

theorem foldl_add_gen {γ : Type} (f : ℝ → γ → ℝ) (g : γ → ℝ) (hf : ∀ a c, f a c = a + g c) (cs : List γ) (a : ℝ) :
    cs.foldl f a = a + (cs.map g).sum := by
  induction cs generalizing a with
  | nil => simp
  | cons c cs ih => rw [List.foldl_cons, ih, hf, List.map_cons, List.sum_cons, add_assoc]

theorem sumNonA_eq (cs : List (Ctrl ni nl)) (t : Fin 2) (i : Fin ni) :
    sumNonA cs t i = (cs.map (Ctrl.nonA t i)).sum := by
  unfold sumNonA
  rw [foldl_add_gen _ (Ctrl.nonA t i), zero_add]
  intro a c
  cases c <;> simp [Ctrl.nonA]

theorem sumByA_eq (cs : List (Ctrl ni nl)) (l : Fin nl) (t : Fin 2) (i : Fin ni) :
    sumByA cs l t i = (cs.map (Ctrl.byA l t i)).sum := by
  unfold sumByA
  rw [foldl_add_gen _ (Ctrl.byA l t i), zero_add]
  intro a c
  cases c <;> simp [Ctrl.byA]

theorem var_sum_eq (cs : List (Ctrl ni nl)) (l : Fin nl) (t : Fin 2) (i : Fin ni) :
    sumNonS cs t i + sumByS cs l t i = (cs.map (Ctrl.var l t i)).sum := by
  have e1 : sumNonS cs t i = (cs.map fun c => if c.wi then 0 else c.var l t i).sum := by
    unfold sumNonS
    rw [foldl_add_gen _ (fun c => if c.wi then 0 else c.var l t i), zero_add]
    intro a c
    cases c <;> simp [Ctrl.wi, Ctrl.var]
  have e2 : sumByS cs l t i = (cs.map fun c => if c.wi then c.var l t i else 0).sum := by
    unfold sumByS
    rw [foldl_add_gen _ (fun c => if c.wi then c.var l t i else 0), zero_add]
    intro a c
    cases c <;> simp [Ctrl.wi, Ctrl.var]
  rw [e1, e2, ← List.sum_map_add]
  congr 1
  refine List.map_congr_left fun c _ => ?_
  cases c <;> simp [Ctrl.wi]

theorem eff_split (c : Ctrl ni nl) (l : Fin nl) (t : Fin 2) (i : Fin ni) :
    Spec.eff c l t i = c.nonA t i + c.byA l t i := by
  cases c <;> simp [Spec.eff, Ctrl.nonA, Ctrl.byA]

theorem eff_sum (cs : List (Ctrl ni nl)) (l : Fin nl) (t : Fin 2) (i : Fin ni) :
    (cs.map fun c => Spec.eff c l t i).sum = sumNonA cs t i + sumByA cs l t i := by
  rw [sumNonA_eq, sumByA_eq, ← List.sum_map_add]
  congr 1
  exact List.map_congr_left fun c _ => eff_split c l t i

/-! ## Assembling a column's normal equations -/

/-- The category of a row; the one slot of a continuous column. -/
def Ctrl.pos (t : Fin 2) (i : Fin ni) : Ctrl ni nl → ℕ
  | .catW C _ _ | .catN C _ _ => C t i
  | .ctsW .. | .ctsN .. => 0

/-- A categorical column has codes below its number of categories, the highest occurring in both periods (otherwise
`np.bincount` is too short for its slice); a continuous column has one slot. -/
def ColOk (k : Col ni nl) : Prop :=
  match k.c with
  | .catW C _ _ | .catN C _ _ => 0 < k.n ∧ (∀ t i, C t i < k.n) ∧ ∀ t, ∃ i, C t i = k.n - 1
  | .ctsW .. | .ctsN .. => k.n = 1

theorem ColOk.n_pos {k : Col ni nl} (h : ColOk k) : 0 < k.n := by
  unfold ColOk at h
  split at h
  · exact h.1
  · exact h.1
  · omega
  · omega

theorem ColOk.pos_lt {k : Col ni nl} (h : ColOk k) (t : Fin 2) (i : Fin ni) : k.c.pos t i < k.n := by
  have hn := h.n_pos
  unfold ColOk at h
  cases hc : k.c with
  | catW C A S => rw [hc] at h; exact h.2.1 t i
  | catN C A S => rw [hc] at h; exact h.2.1 t i
  | ctsW C A S => exact hn
  | ctsN C A S => exact hn

theorem cat_assemble (n : ℕ) (C : Fin 2 → Fin ni → ℕ) (hn : 0 < n) (hlt : ∀ t i, C t i < n)
    (htop : ∀ t, ∃ i, C t i = n - 1) (f : Fin 2 → Fin nl → Fin ni → ℝ) :
    (∀ t l, Assignable n (bincount (C t) (f t l))) ∧ ∀ t l (c : ℕ),
      assigned n (bincount (C t) (f t l)) c = ∑ i with C t i = c, f t l i := by
  have hl : ∀ t l, (bincount (C t) (f t l)).len = n := fun t l =>
    (bincount_len_eq _ _ _ hn fun i => hlt t i).mpr (htop t)
  refine ⟨fun t l => Or.inl (hl t l), fun t l c => ?_⟩
  unfold assigned
  rw [if_pos (hl t l)]
  simp only [bincount, sum_filter]

theorem slot_div {n : ℕ} (l : Fin nl) {c : ℕ} (hc : c < n) : (l.val * n + c) / n = l.val := by
  rw [Nat.add_comm, Nat.add_mul_div_right _ _ (by omega), Nat.div_eq_of_lt hc, Nat.zero_add]

theorem slot_mod {n : ℕ} (l : Fin nl) {c : ℕ} (hc : c < n) : (l.val * n + c) % n = c := by
  rw [Nat.add_comm, Nat.add_mul_mod_self_right, Nat.mod_eq_of_lt hc]

theorem slot_lt {n : ℕ} (l : Fin nl) {c : ℕ} (hc : c < n) : l.val * n + c < nl * n := by
  have h1 : (l.val + 1) * n ≤ nl * n := Nat.mul_le_mul_right n l.isLt
  have h2 : (l.val + 1) * n = l.val * n + n := by ring
  omega

theorem fin2_cases (t : Fin 2) : t = 0 ∨ t = 1 := by fin_cases t <;> simp

theorem assembleCol_ok (k : Col ni nl) (h : ColOk k) (f : Fin 2 → Fin nl → Fin ni → ℝ) :
    ∃ X, assembleCol k f = .ok X ∧ ∀ (t : Fin 2) (l : Fin nl) (c : ℕ), c < k.n →
      X (t.val * (nl * k.n) + l.val * k.n + c) = ∑ i with k.c.pos t i = c, k.c.load t i * f t l i := by
  have hn := h.n_pos
  have key : ∀ C : Fin 2 → Fin ni → ℕ, (∀ t i, C t i < k.n) → (∀ t, ∃ i, C t i = k.n - 1) →
      ∃ X, (open scoped Classical in
      if ∀ t l, Assignable k.n (bincount (C t) (f t l)) then
      (.ok fun p =>
        if hp : p < nl * k.n then
          assigned k.n (bincount (C 0) (f 0 ⟨p / k.n, Nat.div_lt_of_lt_mul (by rwa [Nat.mul_comm] at hp)⟩)) (p % k.n)
        else if hp : p - nl * k.n < nl * k.n then
          assigned k.n (bincount (C 1) (f 1 ⟨(p - nl * k.n) / k.n, Nat.div_lt_of_lt_mul (by rwa [Nat.mul_comm k.n])⟩))
            ((p - nl * k.n) % k.n)
        else 0 : Py (ℕ → ℝ))
      else .error "ValueError") = .ok X ∧ ∀ (t : Fin 2) (l : Fin nl) (c : ℕ), c < k.n →
        X (t.val * (nl * k.n) + l.val * k.n + c) = ∑ i with C t i = c, f t l i := by
    intro C hlt htop
    obtain ⟨ha, hv⟩ := cat_assemble k.n C hn hlt htop f
    refine ⟨_, if_pos ha, fun t l c hc => ?_⟩
    have hb := slot_lt l hc
    rcases fin2_cases t with rfl | rfl
    · simp only [Fin.val_zero, zero_mul, zero_add]
      rw [dif_pos hb, ← hv 0 l c]
      simp only [slot_div l hc, slot_mod l hc]
    · simp only [Fin.val_one, one_mul]
      rw [dif_neg (by omega), dif_pos (by omega)]
      have he : nl * k.n + l.val * k.n + c - nl * k.n = l.val * k.n + c := by omega
      rw [← hv 1 l c]
      simp only [he, slot_div l hc, slot_mod l hc]
  have key2 : ∀ C : Fin 2 → Fin ni → ℝ, k.n = 1 → ∀ (t : Fin 2) (l : Fin nl) (c : ℕ), c < k.n →
      (fun p => if hp : p < nl then ∑ i, C 0 i * f 0 ⟨p, hp⟩ i
        else if hp : p - nl < nl then ∑ i, C 1 i * f 1 ⟨p - nl, hp⟩ i else 0)
        (t.val * (nl * k.n) + l.val * k.n + c) = ∑ i with 0 = c, C t i * f t l i := by
    intro C h1 t l c hc
    have hc0 : c = 0 := by omega
    subst hc0
    rw [h1]
    have hl := l.isLt
    rcases fin2_cases t with rfl | rfl
    · simp
    · simp
  unfold assembleCol
  unfold ColOk at h
  cases hc : k.c with
  | catW C A S =>
    rw [hc] at h
    obtain ⟨X, h1, h2⟩ := key C h.2.1 h.2.2
    exact ⟨X, h1, fun t l c hcl => by rw [h2 t l c hcl]; simp [Ctrl.pos, Ctrl.load]; rfl⟩
  | catN C A S =>
    rw [hc] at h
    obtain ⟨X, h1, h2⟩ := key C h.2.1 h.2.2
    exact ⟨X, h1, fun t l c hcl => by rw [h2 t l c hcl]; simp [Ctrl.pos, Ctrl.load]; rfl⟩
  | ctsW C A S =>
    rw [hc] at h
    exact ⟨_, rfl, fun t l c hcl => key2 C h t l c hcl⟩
  | ctsN C A S =>
    rw [hc] at h
    exact ⟨_, rfl, fun t l c hcl => key2 C h t l c hcl⟩

/-! ## The regression of one column -/

theorem sum_pos (k : Col ni nl) (h : ColOk k) (t : Fin 2) (f : Fin ni → ℕ → ℝ) :
    ∑ c : Fin k.n, ∑ i with k.c.pos t i = c.val, f i c.val = ∑ i, f i (k.c.pos t i) := by
  rw [← sum_fiberwise_of_maps_to (s := univ) (t := (univ : Finset (Fin k.n)))
    (g := fun i => (⟨k.c.pos t i, h.pos_lt t i⟩ : Fin k.n)) (fun i _ => mem_univ _)]
  refine sum_congr rfl fun c _ => ?_
  refine sum_congr ?_ fun i hi => ?_
  · ext i
    simp only [mem_filter, mem_univ, true_and]
    exact ⟨fun h => Fin.ext h, fun h => congrArg Fin.val h⟩
  · have := congrArg Fin.val (mem_filter.mp hi).2
    simp only at this
    rw [this]

/-- The objective built from a column's normal equations is half the weighted sum of squared residuals, up to a
constant. -/
theorem col_obj (k : Col ni nl) (h : ColOk k) (w R : Fin 2 → Fin nl → Fin ni → ℝ) (X Yv x : ℕ → ℝ)
    (hX : ∀ (t : Fin 2) (l : Fin nl) (c : ℕ), c < k.n → X (t.val * (nl * k.n) + l.val * k.n + c) =
      ∑ i with k.c.pos t i = c, k.c.load t i * (w t l i * k.c.load t i))
    (hY : ∀ (t : Fin 2) (l : Fin nl) (c : ℕ), c < k.n → Yv (t.val * (nl * k.n) + l.val * k.n + c) =
      ∑ i with k.c.pos t i = c, k.c.load t i * (w t l i * R t l i)) :
    qpObj (2 * (nl * k.n)) X (fun p => - Yv p) x =
      (∑ t, ∑ l, ∑ i, w t l i *
        (R t l i - k.c.load t i * x (t.val * (nl * k.n) + l.val * k.n + k.c.pos t i)) ^ 2) / 2 -
      (∑ t, ∑ l, ∑ i, w t l i * R t l i ^ 2) / 2 := by
  unfold qpObj
  rw [sum_positions, ← sub_div, ← sum_sub_distrib, sum_div]
  refine sum_congr rfl fun t _ => ?_
  rw [← sum_sub_distrib, sum_div]
  refine sum_congr rfl fun l _ => ?_
  rw [← sum_sub_distrib, sum_div]
  rw [← sum_pos k h t (fun i c => (w t l i * (R t l i - k.c.load t i * x (t.val * (nl * k.n) + l.val * k.n + c)) ^ 2 -
    w t l i * R t l i ^ 2) / 2)]
  refine sum_congr rfl fun c _ => ?_
  beta_reduce
  rw [hX t l c c.isLt, hY t l c c.isLt, sum_mul, sum_div, ← sum_neg_distrib, sum_mul, ← sum_add_distrib]
  refine sum_congr rfl fun i hi => ?_
  ring

theorem eff_setA (k : Col ni nl) (h : ColOk k) (x : ℕ → ℝ)
    (hx : k.c.wi = false → ∀ (t : Fin 2) (l : Fin nl) (c : ℕ), c < k.n →
      x (t.val * (nl * k.n) + l.val * k.n + c) = x (t.val * (nl * k.n) + c))
    (l : Fin nl) (t : Fin 2) (i : Fin ni) :
    Spec.eff (k.c.setA k.n x) l t i =
      k.c.load t i * x (t.val * (nl * k.n) + l.val * k.n + k.c.pos t i) := by
  have hlt := h.pos_lt t i
  unfold ColOk at h
  cases hc : k.c with
  | catW C A S => simp [Spec.eff, Ctrl.setA, Ctrl.load, Ctrl.pos]
  | catN C A S =>
    rw [hc] at hlt hx
    have := hx rfl t l _ hlt
    simp only [Spec.eff, Ctrl.setA, Ctrl.load, one_mul, this]
    rfl
  | ctsW C A S =>
    rw [hc] at h
    simp only [Spec.eff, Ctrl.setA, Ctrl.load, Ctrl.pos]
    rw [h]; simp [mul_comm]
  | ctsN C A S =>
    rw [hc] at hlt hx h
    have := hx rfl t l 0 (by omega)
    simp only [Spec.eff, Ctrl.setA, Ctrl.load, Ctrl.pos, this]
    rw [h]; simp [mul_comm]

theorem setA_wi (c : Ctrl ni nl) (n : ℕ) (x : ℕ → ℝ) : (c.setA n x).wi = c.wi := by cases c <;> rfl

theorem nonA_of_wi {c : Ctrl ni nl} (h : c.wi = true) (t : Fin 2) (i : Fin ni) : c.nonA t i = 0 := by
  cases c <;> simp [Ctrl.wi] at h <;> rfl

theorem byA_of_not_wi {c : Ctrl ni nl} (h : c.wi = false) (l : Fin nl) (t : Fin 2) (i : Fin ni) : c.byA l t i = 0 := by
  cases c <;> simp [Ctrl.wi] at h <;> rfl

/-- Weight that the data give to a coefficient of a column. -/
noncomputable def Spec.mass (d : Data ni nk) (q : Fin ni → Fin nl → ℝ) (k : Col ni nl) (t : Fin 2) (l : Fin nl) (c : ℕ) :
    ℝ := ∑ i with k.c.pos t i = c, d.W t i * q i l / k.c.var l t i * k.c.load t i ^ 2

/-- A column whose regression is well posed: codes in range and the highest one observed, every coefficient given
positive weight, a right solver for a consistent constraint set `feas`, which for a column without worker-type
interaction makes the coefficients equal across worker types (`NoWorkerTypeInteraction`, blm.py:757, 770). -/
structure GoodCol (d : Data ni nk) (q : Fin ni → Fin nl → ℝ) (k : Col ni nl) (feas : (ℕ → ℝ) → Prop) : Prop where
  ok : ColOk k
  mass : ∀ (t : Fin 2) (l : Fin nl) (c : ℕ), c < k.n → 0 < Spec.mass d q k t l c
  right : RightSolver (2 * (nl * k.n)) feas k.sA
  cons : ∃ x, feas x
  same : k.c.wi = false → ∀ x, feas x → ∀ (t : Fin 2) (l : Fin nl) (c : ℕ), c < k.n →
    x (t.val * (nl * k.n) + l.val * k.n + c) = x (t.val * (nl * k.n) + c)

/-- The cached adjusted outcome is the wage less the effects of the columns without interaction. -/
def Adj (d : Data ni nk) (cs : List (Ctrl ni nl)) (Yadj : Fin 2 → Fin ni → ℝ) : Prop :=
  ∀ t i, Yadj t i = d.Y t i - sumNonA cs t i

theorem sumNonA_mid (xs ys : List (Ctrl ni nl)) (c : Ctrl ni nl) (t : Fin 2) (i : Fin ni) :
    sumNonA (xs ++ c :: ys) t i = sumNonA (xs ++ ys) t i + c.nonA t i := by
  simp only [sumNonA_eq, List.map_append, List.sum_append, List.map_cons, List.sum_cons]; ring

theorem sumByA_mid (xs ys : List (Ctrl ni nl)) (c : Ctrl ni nl) (l : Fin nl) (t : Fin 2) (i : Fin ni) :
    sumByA (xs ++ c :: ys) l t i = sumByA (xs ++ ys) l t i + c.byA l t i := by
  simp only [sumByA_eq, List.map_append, List.sum_append, List.map_cons, List.sum_cons]; ring

theorem eff_mid (xs ys : List (Ctrl ni nl)) (c : Ctrl ni nl) (l : Fin nl) (t : Fin 2) (i : Fin ni) :
    ((xs ++ c :: ys).map fun c => Spec.eff c l t i).sum =
      ((xs ++ ys).map fun c => Spec.eff c l t i).sum + Spec.eff c l t i := by
  simp only [List.map_append, List.sum_append, List.map_cons, List.sum_cons]; ring

/-- Solved column. -/
def Col.withA (k : Col ni nl) (x : ℕ → ℝ) : Col ni nl := { k with c := k.c.setA k.n x }

theorem colA_spec (d : Data ni nk) (q : Fin ni → Fin nl → ℝ) (A : Fin 2 → Fin nl → Fin nk → ℝ)
    (done todo : List (Col ni nl)) (k : Col ni nl) (feas : (ℕ → ℝ) → Prop) (hk : GoodCol d q k feas)
    (Yadj : Fin 2 → Fin ni → ℝ) (hadj : Adj d ((done ++ k :: todo).map (·.c)) Yadj) :
    ∃ x Y', colA d q A true done k todo Yadj = .ok (k.withA x, Y') ∧ feas x ∧
      (∀ y, feas y →
        Spec.sse d q (fun l t i => k.c.var l t i) A ((done ++ k.withA x :: todo).map (·.c)) ≤
        Spec.sse d q (fun l t i => k.c.var l t i) A ((done ++ k.withA y :: todo).map (·.c))) ∧
      Adj d ((done ++ k.withA x :: todo).map (·.c)) Y' := by
  obtain ⟨X, hX, hXv⟩ := assembleCol_ok k hk.ok fun t l i => colWts d q k.c t l i * k.c.load t i
  set others := done.map (·.c) ++ todo.map (·.c) with ho
  set R : Fin 2 → Fin nl → Fin ni → ℝ := fun t l i =>
    d.Y t i - A t l (d.G t i) - (others.map fun c => Spec.eff c l t i).sum with hR
  have hRe : ∀ t l i, (if k.c.wi then Yadj t i else Yadj t i + k.c.nonA t i) -
      (sumByA ((done ++ k :: todo).map (·.c)) l t i - if k.c.wi then k.c.byA l t i else 0) - A t l (d.G t i) =
      R t l i := by
    intro t l i
    have h1 := hadj t i
    rw [List.map_append, List.map_cons, sumNonA_mid] at h1
    rw [List.map_append, List.map_cons, sumByA_mid, hR]
    simp only [eff_sum]
    rw [h1]
    obtain c | c := Bool.eq_false_or_eq_true k.c.wi
    · simp only [c, if_true, nonA_of_wi c]; ring
    · simp only [c, Bool.false_eq_true, if_false, byA_of_not_wi c]; ring
  obtain ⟨Yv, hY, hYv⟩ := assembleCol_ok k hk.ok fun t l i => colWts d q k.c t l i * R t l i
  have hP : ∀ p < 2 * (nl * k.n), 0 < X p := by
    intro p hp
    obtain ⟨t, l, c, rfl⟩ := exists_pos hp
    rw [hXv t l c c.isLt]
    have := hk.mass t l c c.isLt
    unfold Spec.mass at this
    refine lt_of_lt_of_eq this (sum_congr rfl fun i _ => ?_)
    unfold colWts; ring
  obtain ⟨x, hx⟩ := hk.right.complete X (fun p => - Yv p) hP hk.cons
  obtain ⟨hfx, hmin⟩ := hk.right.sound _ _ _ hx
  have hs : k.solveA X Yv = k.withA x := by unfold Col.solveA; rw [hx]; rfl
  have hcol : colA d q A true done k todo Yadj = .ok (k.withA x, fun t i =>
      if k.c.wi then (if k.c.wi then Yadj t i else Yadj t i + k.c.nonA t i)
      else (if k.c.wi then Yadj t i else Yadj t i + k.c.nonA t i) - (k.withA x).c.nonA t i) := by
    unfold colA
    simp only [colXwX, hX, bind, Except.bind, pure, Except.pure, if_true, hRe, hY, hs]
  refine ⟨x, _, hcol, hfx, fun y hy => ?_, ?_⟩
  · have hsse : ∀ z, feas z → Spec.sse d q (fun l t i => k.c.var l t i) A ((done ++ k.withA z :: todo).map (·.c)) =
        ∑ t, ∑ l, ∑ i, colWts d q k.c t l i *
        (R t l i - k.c.load t i * z (t.val * (nl * k.n) + l.val * k.n + k.c.pos t i)) ^ 2 := by
      intro z hz
      unfold Spec.sse
      refine sum_congr rfl fun t _ => sum_congr rfl fun l _ => sum_congr rfl fun i _ => ?_
      rw [List.map_append, List.map_cons, eff_mid]
      have he := eff_setA k hk.ok z (fun h => hk.same h z hz) l t i
      rw [show (k.withA z).c = k.c.setA k.n z from rfl, he, hR]
      unfold colWts
      ring
    have h1 := hmin y hy
    rw [col_obj k hk.ok (fun t l i => colWts d q k.c t l i) R X Yv x hXv hYv,
      col_obj k hk.ok (fun t l i => colWts d q k.c t l i) R X Yv y hXv hYv] at h1
    rw [hsse x hfx, hsse y hy]
    linarith
  · intro t i
    have h1 := hadj t i
    rw [List.map_append, List.map_cons, sumNonA_mid] at h1 ⊢
    have hw : (k.withA x).c.wi = k.c.wi := setA_wi _ _ _
    obtain c | c := Bool.eq_false_or_eq_true k.c.wi
    · rw [nonA_of_wi (hw.trans c)]
      rw [nonA_of_wi c] at h1
      simp only [c, if_true, h1]
    · simp only [c, Bool.false_eq_true, if_false, h1]; ring

/-- Block by block: `new` is `old` with each column in turn replaced by the best coefficients in its constraint set,
given the base effects `A`, the columns before it already replaced and the columns after it not yet. -/
inductive Spec.Updated (d : Data ni nk) (q : Fin ni → Fin nl → ℝ) (A : Fin 2 → Fin nl → Fin nk → ℝ)
    (F : Col ni nl → (ℕ → ℝ) → Prop) : (done old new : List (Col ni nl)) → Prop
  | nil (done) : Spec.Updated d q A F done [] []
  | cons (done k todo new) (x : ℕ → ℝ) (hx : F k x)
    (best : ∀ y, F k y →
      Spec.sse d q (fun l t i => k.c.var l t i) A ((done ++ k.withA x :: todo).map (·.c)) ≤
      Spec.sse d q (fun l t i => k.c.var l t i) A ((done ++ k.withA y :: todo).map (·.c)))
    (rest : Spec.Updated d q A F (done ++ [k.withA x]) todo new) :
    Spec.Updated d q A F done (k :: todo) (k.withA x :: new)

theorem colsA_spec (d : Data ni nk) (q : Fin ni → Fin nl → ℝ) (A : Fin 2 → Fin nl → Fin nk → ℝ)
    (F : Col ni nl → (ℕ → ℝ) → Prop) (todo : List (Col ni nl)) : ∀ (done : List (Col ni nl))
    (Yadj : Fin 2 → Fin ni → ℝ), (∀ k ∈ todo, GoodCol d q k (F k)) → Adj d ((done ++ todo).map (·.c)) Yadj →
    ∃ new Y', colsA d q A true done todo Yadj = .ok (done ++ new, Y') ∧ Spec.Updated d q A F done todo new ∧
      Adj d ((done ++ new).map (·.c)) Y' := by
  induction todo with
  | nil =>
    intro done Yadj _ h
    exact ⟨[], Yadj, by simp [colsA], .nil _, h⟩
  | cons k todo ih =>
    intro done Yadj hg h
    obtain ⟨x, Y1, h1, hf, hb, ha⟩ := colA_spec d q A done todo k (F k) (hg k (by simp)) Yadj h
    obtain ⟨new, Y2, h2, hu, ha2⟩ := ih (done ++ [k.withA x]) Y1 (fun k' hk' => hg k' (by simp [hk'])) (by simpa using ha)
    refine ⟨k.withA x :: new, Y2, ?_, .cons _ _ _ _ x hf hb hu, by simpa using ha2⟩
    rw [colsA, h1]
    simp only [bind, Except.bind, h2]
    simp

/-! ## The whole M-step -/

/-- Mean effects of the columns, whatever their standard deviations. -/
def SameMeans (ks ks' : List (Col ni nl)) : Prop :=
  ks.map (fun k l t i => Spec.eff k.c l t i) = ks'.map (fun k l t i => Spec.eff k.c l t i)

theorem mapM_col_ok {α β : Type} (f : α → Py β) (g : α → β) (xs : List α) (h : ∀ x ∈ xs, f x = .ok (g x)) :
    xs.mapM f = .ok (xs.map g) := by
  induction xs with
  | nil => rfl
  | cons x xs ih =>
    rw [List.mapM_cons, h x (by simp), ih fun y hy => h y (by simp [hy])]
    rfl

theorem solveS_means (k : Col ni nl) (X Y : ℕ → ℝ) :
    (fun l t i => Spec.eff (k.solveS X Y).c l t i) = fun l t i => Spec.eff k.c l t i := by
  unfold Col.solveS
  split <;> try rfl
  funext l t i
  cases k.c <;> rfl

theorem solveS_nonA (k : Col ni nl) (X Y : ℕ → ℝ) (t : Fin 2) (i : Fin ni) :
    (k.solveS X Y).c.nonA t i = k.c.nonA t i := by
  unfold Col.solveS
  split <;> try rfl
  cases k.c <;> rfl

theorem solveS_n (k : Col ni nl) (X Y : ℕ → ℝ) : (k.solveS X Y).n = k.n := by
  unfold Col.solveS
  split <;> rfl

theorem colOk_withA {k : Col ni nl} (h : ColOk k) (x : ℕ → ℝ) : ColOk (k.withA x) := by
  unfold ColOk at h ⊢
  unfold Col.withA
  cases hc : k.c <;> rw [hc] at h <;> exact h

theorem colS_ok (d : Data ni nk) (q : Fin ni → Fin nl → ℝ) (eps : Fin 2 → Fin nl → Fin ni → ℝ) (k : Col ni nl)
    (h : ColOk k) : ∃ X Z, colS d q eps k = .ok (k.solveS X Z) := by
  obtain ⟨X, hX, -⟩ := assembleCol_ok k h fun t l i => colWts d q k.c t l i * k.c.load t i
  obtain ⟨Z, hZ, -⟩ := assembleCol_ok k h fun t l i => colWts d q k.c t l i * eps t l i
  unfold colS
  simp only [colXwX, hX, bind, Except.bind, pure, Except.pure, hZ]
  exact ⟨_, _, rfl⟩

theorem colsS_ok (d : Data ni nk) (q : Fin ni → Fin nl → ℝ) (eps : Fin 2 → Fin nl → Fin ni → ℝ) (ks : List (Col ni nl))
    (h : ∀ k ∈ ks, ColOk k) : ∃ ks', ks.mapM (colS d q eps) = .ok ks' ∧ SameMeans ks' ks ∧
      (∀ t i, sumNonA (ks'.map (·.c)) t i = sumNonA (ks.map (·.c)) t i) := by
  classical
  have hg : ∀ k : Col ni nl, ∃ k', (ColOk k → colS d q eps k = .ok k') ∧
      ((fun l t i => Spec.eff k'.c l t i) = fun l t i => Spec.eff k.c l t i) ∧ ∀ t i, k'.c.nonA t i = k.c.nonA t i := by
    intro k
    by_cases hk : ColOk k
    · obtain ⟨X, Z, h1⟩ := colS_ok d q eps k hk
      exact ⟨_, fun _ => h1, solveS_means _ _ _, solveS_nonA _ _ _⟩
    · exact ⟨k, fun h => absurd h hk, rfl, fun _ _ => rfl⟩
  choose g hg1 hg2 hg3 using hg
  refine ⟨ks.map g, mapM_col_ok _ g ks fun k hk => hg1 k (h k hk), ?_, ?_⟩
  · unfold SameMeans
    rw [List.map_map]
    exact List.map_congr_left fun k _ => hg2 k
  · intro t i
    rw [sumNonA_eq, sumNonA_eq, List.map_map, List.map_map, List.map_map]
    congr 1
    exact List.map_congr_left fun k _ => hg3 k t i

theorem updated_ok {d : Data ni nk} {q : Fin ni → Fin nl → ℝ} {A : Fin 2 → Fin nl → Fin nk → ℝ}
    {F : Col ni nl → (ℕ → ℝ) → Prop} {done old new : List (Col ni nl)} (h : Spec.Updated d q A F done old new)
    (hok : ∀ k ∈ old, ColOk k) : ∀ k ∈ new, ColOk k := by
  induction h with
  | nil => simp
  | cons done k todo new x hx best rest ih =>
    intro k' hk'
    rcases List.mem_cons.mp hk' with rfl | hk'
    · exact colOk_withA (hok k (by simp)) x
    · exact ih (fun k hk => hok k (by simp [hk])) k' hk'

/-- C87.  One M-step with control variables, `update_a` and `update_s` set.  It returns, and

* the base effects satisfy their constraints `FA` and no admissible ones have a smaller sum of squared residuals,
  given the current effects of the control variables;
* then every control column in turn gets the best effects in its constraint set `F k`, given the new base effects,
  the new effects of the columns before it and the current effects of the columns after it;
* the update of the standard deviations leaves these effects alone, and the adjusted outcome kept for the next
  iteration is the wage less the new effects of the columns without interaction. -/
theorem C87_mstep (d : Data ni nk) (q : Fin ni → Fin nl → ℝ) (b : Base nl nk) (ks : List (Col ni nl))
    (Yadj : Fin 2 → Fin ni → ℝ) (sA sS : Solver) (FA : (Fin 2 → Fin nl → Fin nk → ℝ) → Prop)
    (F : Col ni nl → (ℕ → ℝ) → Prop)
    (hsA : RightSolver (2 * (nl * nk)) (fun x => FA (unflatten nl nk x)) sA) (hFA : ∃ A, FA A)
    (htop : TopObserved d) (hS : ∀ t l k, 0 < b.S t l k) (hpos : ∀ t l k, 0 < cellW d q t l k)
    (hgood : ∀ k ∈ ks, GoodCol d q k (F k)) (hadj : Adj d (ks.map (·.c)) Yadj) :
    ∃ b' mid ks' Y', mstepC d q b ks Yadj true true sA sS = .ok (b', ks', Y') ∧
      (FA b'.A ∧ ∀ A, FA A →
        Spec.sse d q (fun l t i => b.S t l (d.G t i) ^ 2) b'.A (ks.map (·.c)) ≤
        Spec.sse d q (fun l t i => b.S t l (d.G t i) ^ 2) A (ks.map (·.c))) ∧
      Spec.Updated d q b'.A F [] ks mid ∧ SameMeans ks' mid ∧ Adj d (ks'.map (·.c)) Y' := by
  obtain ⟨X, hX, hXv⟩ := assemble_ok d htop fun t l i => wts d b.S q t l i
  set R : Fin 2 → Fin nl → Fin ni → ℝ := fun t l i => Yadj t i - sumByA (ks.map (·.c)) l t i with hR
  have hRe : ∀ t l i, R t l i = d.Y t i - ((ks.map (·.c)).map fun c => Spec.eff c l t i).sum := by
    intro t l i
    rw [hR]
    simp only [eff_sum]
    rw [hadj t i]; ring
  obtain ⟨Yv, hY, hYv⟩ := assemble_ok d htop fun t l i => wts d b.S q t l i * R t l i
  have hP : ∀ p < 2 * (nl * nk), 0 < X p := by
    intro p hp
    obtain ⟨t, l, k, rfl⟩ := exists_pos hp
    rw [hXv]
    have : ∑ i with d.G t i = k, wts d b.S q t l i = cellW d q t l k / b.S t l k ^ 2 := by
      unfold cellW wts
      rw [sum_div]
      exact sum_congr rfl fun i hi => by rw [(mem_filter.mp hi).2]
    rw [this]
    exact div_pos (hpos t l k) (by have := hS t l k; positivity)
  obtain ⟨A0, hA0⟩ := hFA
  obtain ⟨x0, hx0⟩ := exists_flat A0
  obtain ⟨x, hx⟩ := hsA.complete X (fun p => - Yv p) hP ⟨x0, by rw [hx0]; exact hA0⟩
  obtain ⟨hfx, hmin⟩ := hsA.sound _ _ _ hx
  have hs : solveA sA X Yv b.A = unflatten nl nk x := by unfold solveA; rw [hx]
  obtain ⟨new, Y', hcols, hup, hadj'⟩ := colsA_spec d q (unflatten nl nk x) F ks [] Yadj hgood (by simpa using hadj)
  rw [List.nil_append] at hcols hadj'
  have hok := updated_ok hup fun k hk => (hgood k hk).ok
  set eps : Fin 2 → Fin nl → Fin ni → ℝ := fun t l i =>
    (Y' t i - sumByA (new.map (·.c)) l t i - unflatten nl nk x t l (d.G t i)) ^ 2 with heps
  obtain ⟨Z, hZ, -⟩ := assemble_ok d htop fun t l i => wts d b.S q t l i * eps t l i
  obtain ⟨ks', hks', hsame, hnon⟩ := colsS_ok d q eps new hok
  refine ⟨⟨unflatten nl nk x, solveS sS X Z b.S⟩, new, ks', Y', ?_, ⟨hfx, fun A hA => ?_⟩, hup, hsame, ?_⟩
  · unfold mstepC
    simp only [Bool.true_or, if_true, bind, Except.bind, pure, Except.pure, hX]
    rw [hR] at hY
    simp only [hY, hs, mstepRest, hcols, bind, Except.bind, pure, Except.pure, if_true]
    rw [heps] at hZ hks'
    simp only [hZ, hks']
  · obtain ⟨y, hy⟩ := exists_flat A
    have h1 := hmin y (by rw [hy]; exact hA)
    have hobj : ∀ z, qpObj (2 * (nl * nk)) X (fun p => - Yv p) z =
        Spec.sse d q (fun l t i => b.S t l (d.G t i) ^ 2) (unflatten nl nk z) (ks.map (·.c)) / 2 -
        (∑ t, ∑ l, ∑ i, wts d b.S q t l i * R t l i ^ 2) / 2 := by
      intro z
      rw [qpObj_cells]
      unfold Spec.sse
      rw [← sub_div, ← sum_sub_distrib, sum_div]
      refine sum_congr rfl fun t _ => ?_
      rw [← sum_sub_distrib, sum_div]
      refine sum_congr rfl fun l _ => ?_
      rw [← sum_sub_distrib, sum_div]
      rw [sum_cells d t (fun i k => (d.W t i * q i l / b.S t l (d.G t i) ^ 2 *
        (d.Y t i - unflatten nl nk z t l k - ((ks.map (·.c)).map fun c => Spec.eff c l t i).sum) ^ 2 -
          wts d b.S q t l i * R t l i ^ 2) / 2)]
      refine sum_congr rfl fun k _ => ?_
      rw [hXv, hYv, sum_mul, sum_div, ← sum_neg_distrib, sum_mul, ← sum_add_distrib]
      refine sum_congr rfl fun i hi => ?_
      rw [hRe]
      unfold wts
      ring
    rw [hobj x, hobj y, hy] at h1
    simp only
    linarith
  · intro t i
    rw [hadj' t i, hnon]

/-- C87, in terms of one column: the M-step's new effects of the column at any place of the list are optimal given
the new effects before it and the old effects after it. -/
theorem C87_each_column {d : Data ni nk} {q : Fin ni → Fin nl → ℝ} {A : Fin 2 → Fin nl → Fin nk → ℝ}
    {F : Col ni nl → (ℕ → ℝ) → Prop} {done old new : List (Col ni nl)} (h : Spec.Updated d q A F done old new)
    (j : ℕ) (hj : j < old.length) : new.length = old.length ∧ ∃ x, F old[j] x ∧ new[j]? = some (old[j].withA x) ∧
      ∀ y, F old[j] y →
        Spec.sse d q (fun l t i => old[j].c.var l t i) A
          ((done ++ new.take j ++ old[j].withA x :: old.drop (j + 1)).map (·.c)) ≤
        Spec.sse d q (fun l t i => old[j].c.var l t i) A
          ((done ++ new.take j ++ old[j].withA y :: old.drop (j + 1)).map (·.c)) := by
  induction h generalizing j with
  | nil => simp at hj
  | cons done k todo new x hx best rest ih =>
    have hlen : new.length = todo.length := by
      cases todo with
      | nil => cases rest; rfl
      | cons k' todo' => exact (ih 0 (by simp)).1
    refine ⟨by simp [hlen], ?_⟩
    cases j with
    | zero => exact ⟨x, hx, by simp, by simpa using best⟩
    | succ j =>
      obtain ⟨-, x', h1, h2, h3⟩ := ih j (by simpa using hj)
      exact ⟨x', by simpa using h1, by simpa using h2, by simpa using h3⟩

/-! ## Closed forms -/

theorem first_order (a b : ℝ) (h : ∀ s : ℝ, 0 ≤ s ^ 2 * a - 2 * s * b) : b = 0 := by
  by_contra hb
  have hb2 : 0 < b ^ 2 := by positivity
  by_cases ha : a ≤ 0
  · have := h b
    nlinarith [mul_nonneg (neg_nonneg.mpr ha) (sq_nonneg b)]
  · push Not at ha
    have h1 := h (b / a)
    have e : (b / a) ^ 2 * a - 2 * (b / a) * b = - (b ^ 2 / a) := by field_simp; ring
    rw [e] at h1
    have : 0 < b ^ 2 / a := by positivity
    linarith

/-- What the wages leave for a column to explain: wage less base effect and effects of the other columns. -/
noncomputable def Spec.left (d : Data ni nk) (A : Fin 2 → Fin nl → Fin nk → ℝ) (others : List (Ctrl ni nl)) (t : Fin 2)
    (l : Fin nl) (i : Fin ni) : ℝ :=
  d.Y t i - A t l (d.G t i) - (others.map fun c => Spec.eff c l t i).sum

theorem sse_col (d : Data ni nk) (q : Fin ni → Fin nl → ℝ) (A : Fin 2 → Fin nl → Fin nk → ℝ)
    (done todo : List (Col ni nl)) (k : Col ni nl) (hok : ColOk k) (z : ℕ → ℝ)
    (hz : k.c.wi = false → ∀ (t : Fin 2) (l : Fin nl) (c : ℕ), c < k.n →
      z (t.val * (nl * k.n) + l.val * k.n + c) = z (t.val * (nl * k.n) + c)) :
    Spec.sse d q (fun l t i => k.c.var l t i) A ((done ++ k.withA z :: todo).map (·.c)) =
      ∑ t, ∑ l, ∑ i, colWts d q k.c t l i *
        (Spec.left d A ((done ++ todo).map (·.c)) t l i -
          k.c.load t i * z (t.val * (nl * k.n) + l.val * k.n + k.c.pos t i)) ^ 2 := by
  unfold Spec.sse
  refine sum_congr rfl fun t _ => sum_congr rfl fun l _ => sum_congr rfl fun i _ => ?_
  rw [List.map_append, List.map_cons, eff_mid]
  have he := eff_setA k hok z hz l t i
  rw [show (k.withA z).c = k.c.setA k.n z from rfl, he]
  unfold colWts Spec.left
  rw [show (done ++ todo).map (·.c) = done.map (·.c) ++ todo.map (·.c) from List.map_append]
  ring

/-- Moving along a direction in the constraint set. -/
theorem direction (d : Data ni nk) (q : Fin ni → Fin nl → ℝ) (A : Fin 2 → Fin nl → Fin nk → ℝ)
    (done todo : List (Col ni nl)) (k : Col ni nl) (hok : ColOk k) (feas : (ℕ → ℝ) → Prop) (x v : ℕ → ℝ)
    (hsame : k.c.wi = false → ∀ x, feas x → ∀ (t : Fin 2) (l : Fin nl) (c : ℕ), c < k.n →
      x (t.val * (nl * k.n) + l.val * k.n + c) = x (t.val * (nl * k.n) + c))
    (hx : feas x) (hv : ∀ s : ℝ, feas fun p => x p + s * v p)
    (best : ∀ y, feas y →
      Spec.sse d q (fun l t i => k.c.var l t i) A ((done ++ k.withA x :: todo).map (·.c)) ≤
      Spec.sse d q (fun l t i => k.c.var l t i) A ((done ++ k.withA y :: todo).map (·.c))) :
    ∑ t, ∑ l, ∑ i, colWts d q k.c t l i * (k.c.load t i * v (t.val * (nl * k.n) + l.val * k.n + k.c.pos t i)) *
      (Spec.left d A ((done ++ todo).map (·.c)) t l i -
        k.c.load t i * x (t.val * (nl * k.n) + l.val * k.n + k.c.pos t i)) = 0 := by
  refine first_order (∑ t, ∑ l, ∑ i, colWts d q k.c t l i *
    (k.c.load t i * v (t.val * (nl * k.n) + l.val * k.n + k.c.pos t i)) ^ 2) _ fun s => ?_
  have h := best _ (hv s)
  rw [sse_col d q A done todo k hok x (fun h => hsame h x hx),
    sse_col d q A done todo k hok _ (fun h => hsame h _ (hv s))] at h
  rw [← sub_nonneg] at h
  refine le_of_le_of_eq h ?_
  simp only [mul_sum]
  rw [← sum_sub_distrib, ← sum_sub_distrib]
  refine sum_congr rfl fun t _ => ?_
  rw [← sum_sub_distrib, ← sum_sub_distrib]
  refine sum_congr rfl fun l _ => ?_
  rw [← sum_sub_distrib, ← sum_sub_distrib]
  exact sum_congr rfl fun i _ => by ring

theorem pos_eq {n : ℕ} {t t' : Fin 2} {l l' : Fin nl} {c c' : ℕ} (hc : c < n) (hc' : c' < n)
    (h : t.val * (nl * n) + l.val * n + c = t'.val * (nl * n) + l'.val * n + c') : t = t' ∧ l = l' ∧ c = c' := by
  have := pos_inj t t' l l' (⟨c, hc⟩ : Fin n) ⟨c', hc'⟩ h
  exact ⟨this.1, this.2.1, congrArg Fin.val this.2.2⟩

/-- C87, closed form, interacted column without further constraints: the effect of a category (the slope of a
continuous column) for a worker type is the posterior-weighted mean (regression coefficient) of what the other
effects leave. -/
theorem C87_interacted_closed_form (d : Data ni nk) (q : Fin ni → Fin nl → ℝ) (A : Fin 2 → Fin nl → Fin nk → ℝ)
    (done todo : List (Col ni nl)) (k : Col ni nl) (hk : GoodCol d q k fun _ => True) (hwi : k.c.wi = true) (x : ℕ → ℝ)
    (best : ∀ y : ℕ → ℝ,
      Spec.sse d q (fun l t i => k.c.var l t i) A ((done ++ k.withA x :: todo).map (·.c)) ≤
      Spec.sse d q (fun l t i => k.c.var l t i) A ((done ++ k.withA y :: todo).map (·.c)))
    (t : Fin 2) (l : Fin nl) (c : ℕ) (hc : c < k.n) :
    x (t.val * (nl * k.n) + l.val * k.n + c) =
      (∑ i with k.c.pos t i = c, d.W t i * q i l / k.c.var l t i * k.c.load t i *
        Spec.left d A ((done ++ todo).map (·.c)) t l i) / Spec.mass d q k t l c := by
  classical
  have h := direction d q A done todo k hk.ok (fun _ => True) x
    (fun p => if p = t.val * (nl * k.n) + l.val * k.n + c then 1 else 0)
    (fun h => absurd h (by rw [hwi]; simp)) trivial (fun _ => trivial) (fun y _ => best y)
  have hiff : ∀ (t' : Fin 2) (l' : Fin nl) (i : Fin ni),
      t'.val * (nl * k.n) + l'.val * k.n + k.c.pos t' i = t.val * (nl * k.n) + l.val * k.n + c ↔
      t' = t ∧ l' = l ∧ k.c.pos t' i = c := fun t' l' i =>
    ⟨pos_eq (hk.ok.pos_lt t' i) hc, by rintro ⟨h1, h2, h3⟩; rw [h1, h2, ← h1, h3]⟩
  simp only [hiff] at h
  rw [sum_eq_single t (fun t' _ ht => by simp [ht]) (by simp),
    sum_eq_single l (fun l' _ hl => by simp [hl]) (by simp)] at h
  simp only [true_and, mul_ite, mul_one, mul_zero, ite_mul, zero_mul] at h
  rw [← sum_filter] at h
  rw [eq_div_iff (hk.mass t l c hc).ne']
  unfold Spec.mass
  rw [mul_sum, ← sub_eq_zero, ← sum_sub_distrib, ← neg_eq_zero, ← sum_neg_distrib]
  refine Eq.trans (sum_congr rfl fun i hi => ?_) h
  rw [(mem_filter.mp hi).2]
  unfold colWts
  ring

/-- Coefficients equal across worker types. -/
def SameAcross (nl n : ℕ) (x : ℕ → ℝ) : Prop :=
  ∀ (t : Fin 2) (l : Fin nl) (c : ℕ), c < n → x (t.val * (nl * n) + l.val * n + c) = x (t.val * (nl * n) + c)

/-- C87, closed form, column without interaction and without further constraints: the common effect is the mean
(regression coefficient) over all worker types, weighted by the posteriors, of what the other effects leave. -/
theorem C87_pooled_closed_form [NeZero nl] (d : Data ni nk) (q : Fin ni → Fin nl → ℝ) (A : Fin 2 → Fin nl → Fin nk → ℝ)
    (done todo : List (Col ni nl)) (k : Col ni nl) (hk : GoodCol d q k (SameAcross nl k.n)) (x : ℕ → ℝ)
    (hx : SameAcross nl k.n x)
    (best : ∀ y, SameAcross nl k.n y →
      Spec.sse d q (fun l t i => k.c.var l t i) A ((done ++ k.withA x :: todo).map (·.c)) ≤
      Spec.sse d q (fun l t i => k.c.var l t i) A ((done ++ k.withA y :: todo).map (·.c)))
    (t : Fin 2) (c : ℕ) (hc : c < k.n) :
    x (t.val * (nl * k.n) + c) =
      (∑ l, ∑ i with k.c.pos t i = c, d.W t i * q i l / k.c.var l t i * k.c.load t i *
        Spec.left d A ((done ++ todo).map (·.c)) t l i) / ∑ l, Spec.mass d q k t l c := by
  classical
  set v : ℕ → ℝ := fun p => if ∃ l : Fin nl, p = t.val * (nl * k.n) + l.val * k.n + c then 1 else 0 with hv
  have hvv : ∀ (t' : Fin 2) (l' : Fin nl) (c' : ℕ), c' < k.n →
      v (t'.val * (nl * k.n) + l'.val * k.n + c') = if t' = t ∧ c' = c then 1 else 0 := by
    intro t' l' c' hc'
    rw [hv]
    refine if_congr ⟨?_, ?_⟩ rfl rfl
    · rintro ⟨l, h⟩
      obtain ⟨h1, -, h2⟩ := pos_eq hc' hc h
      exact ⟨h1, h2⟩
    · rintro ⟨rfl, rfl⟩
      exact ⟨l', rfl⟩
  have hv0 : SameAcross nl k.n v := by
    intro t' l' c' hc'
    have h0 := hvv t' 0 c' hc'
    simp only [Fin.val_zero, zero_mul, add_zero] at h0
    rw [hvv t' l' c' hc', h0]
  have h := direction d q A done todo k hk.ok (SameAcross nl k.n) x v hk.same hx
    (fun s t' l' c' hc' => by simp only [hx t' l' c' hc', hv0 t' l' c' hc']) best
  simp only [fun t' l' i => hvv t' l' _ (hk.ok.pos_lt t' i)] at h
  rw [sum_eq_single t (fun t' _ ht => by simp [ht]) (by simp)] at h
  simp only [true_and, mul_ite, mul_one, mul_zero, ite_mul, zero_mul, ← sum_filter] at h
  have hpos : 0 < ∑ l, Spec.mass d q k t l c := sum_pos' (fun l _ => (hk.mass t l c hc).le) ⟨0, mem_univ _, hk.mass t 0 c hc⟩
  rw [eq_div_iff hpos.ne']
  unfold Spec.mass
  rw [mul_sum, ← sub_eq_zero, ← sum_sub_distrib, ← neg_eq_zero, ← sum_neg_distrib]
  refine Eq.trans (sum_congr rfl fun l _ => ?_) h
  rw [mul_sum, ← sum_sub_distrib, ← sum_neg_distrib]
  refine sum_congr rfl fun i hi => ?_
  rw [(mem_filter.mp hi).2, hx t l c hc]
  unfold colWts
  ring

/-! ## Errors -/

theorem assembleCol_error (k : Col ni nl) (f : Fin 2 → Fin nl → Fin ni → ℝ) {e : String}
    (h : assembleCol k f = .error e) : e = "ValueError" := by
  unfold assembleCol at h
  cases hc : k.c <;> rw [hc] at h <;> simp only at h
  · split at h
    · cases h
    · cases h; rfl
  · split at h
    · cases h
    · cases h; rfl
  · cases h
  · cases h

theorem assemble_error (d : Data ni nk) (f : Fin 2 → Fin nl → Fin ni → ℝ) {e : String}
    (h : assemble d f = .error e) : e = "ValueError" := by
  unfold assemble at h
  simp only at h
  split at h
  · cases h
  · cases h; rfl

/-- A categorical column whose highest category does not occur in some period, though another than the lowest does. -/
def TopMissing (k : Col ni nl) : Prop :=
  match k.c with
  | .catW C _ _ | .catN C _ _ => ∃ t, (∀ i, C t i < k.n - 1) ∧ ∃ i, 0 < C t i
  | _ => False

theorem not_assignable {n : ℕ} {g : Fin ni → ℕ} (w : Fin ni → ℝ) (h : ∀ i, g i < n - 1) (h0 : ∃ i, 0 < g i) :
    ¬ Assignable n (bincount g w) := by
  obtain ⟨i, hi⟩ := h0
  have hlen : (bincount g w).len ≤ n - 1 := by
    unfold bincount
    simp only
    refine Finset.sup_le fun i _ => ?_
    have := h i
    omega
  have hlen2 : 2 ≤ (bincount g w).len := by
    unfold bincount
    simp only
    exact le_trans (by omega) (Finset.le_sup (f := fun i => g i + 1) (mem_univ i))
  have := h i
  unfold Assignable
  omega

theorem assembleCol_missing [NeZero nl] (k : Col ni nl) (h : TopMissing k) (f : Fin 2 → Fin nl → Fin ni → ℝ) :
    assembleCol k f = .error "ValueError" := by
  unfold TopMissing at h
  unfold assembleCol
  cases hc : k.c <;> rw [hc] at h <;> simp only at h ⊢
  · obtain ⟨t, h1, h2⟩ := h
    rw [if_neg fun h => not_assignable _ h1 h2 (h t 0)]
  · obtain ⟨t, h1, h2⟩ := h
    rw [if_neg fun h => not_assignable _ h1 h2 (h t 0)]

theorem colA_error (d : Data ni nk) (q : Fin ni → Fin nl → ℝ) (A : Fin 2 → Fin nl → Fin nk → ℝ) (updA : Bool)
    (done todo : List (Col ni nl)) (k : Col ni nl) (Yadj : Fin 2 → Fin ni → ℝ) {e : String}
    (h : colA d q A updA done k todo Yadj = .error e) : e = "ValueError" := by
  unfold colA at h
  cases hX : colXwX d q k with
  | error e' =>
    simp only [hX, bind, Except.bind] at h
    cases h
    exact assembleCol_error _ _ hX
  | ok X =>
    simp only [hX, bind, Except.bind, pure, Except.pure] at h
    cases updA with
    | false => simp at h
    | true =>
      simp only [if_true] at h
      generalize hg : assembleCol k _ = r at h
      cases r with
      | error e' =>
        simp only at h
        cases h
        exact assembleCol_error _ _ hg
      | ok Y => simp at h

theorem colsA_missing [NeZero nl] (d : Data ni nk) (q : Fin ni → Fin nl → ℝ) (A : Fin 2 → Fin nl → Fin nk → ℝ)
    (updA : Bool) (todo : List (Col ni nl)) : ∀ (done : List (Col ni nl)) (Yadj : Fin 2 → Fin ni → ℝ),
    (∃ k ∈ todo, TopMissing k) → colsA d q A updA done todo Yadj = .error "ValueError" := by
  induction todo with
  | nil => simp
  | cons k todo ih =>
    intro done Yadj h
    rw [colsA]
    cases hc : colA d q A updA done k todo Yadj with
    | error e => rw [colA_error _ _ _ _ _ _ _ _ hc]; rfl
    | ok r =>
      simp only [bind, Except.bind]
      refine ih _ _ ?_
      obtain ⟨k', hk', hm⟩ := h
      rcases List.mem_cons.mp hk' with rfl | hk'
      · exfalso
        unfold colA at hc
        simp [bind, Except.bind, colXwX, assembleCol_missing k' hm] at hc
      · exact ⟨k', hk', hm⟩

/-- C87, outside the happy path: if the highest category of a categorical control variable does not occur in one of
the periods (and that period has another than the lowest), the M-step raises `ValueError`. -/
theorem C87_missing_category [NeZero nl] (d : Data ni nk) (q : Fin ni → Fin nl → ℝ) (b : Base nl nk)
    (ks : List (Col ni nl)) (Yadj : Fin 2 → Fin ni → ℝ) (updA updS : Bool) (hupd : (updA || updS) = true) (sA sS : Solver)
    (h : ∃ k ∈ ks, TopMissing k) : mstepC d q b ks Yadj updA updS sA sS = .error "ValueError" := by
  unfold mstepC
  simp only [hupd, if_true, bind, Except.bind, pure, Except.pure]
  cases h1 : assemble d fun t l i => wts d b.S q t l i with
  | error e => rw [assemble_error _ _ h1]
  | ok X =>
    simp only
    have hr : ∀ A', mstepRest d q b ks Yadj updA updS sS X A' = .error "ValueError" := fun A' => by
      unfold mstepRest
      rw [colsA_missing d q A' updA ks [] Yadj h]
      rfl
    simp only [hr]
    split
    · cases h2 : assemble d fun t l i => wts d b.S q t l i * (Yadj t i - sumByA (ks.map (·.c)) l t i) with
      | error e => rw [assemble_error _ _ h2]
      | ok Yv => rfl
    · rfl

/-- C87, outside the happy path: `update_a` without `update_s` never returns from the M-step. -/
theorem C87_update_a_alone (d : Data ni nk) (q : Fin ni → Fin nl → ℝ) (b : Base nl nk)
    (ks : List (Col ni nl)) (Yadj : Fin 2 → Fin ni → ℝ) (sA sS : Solver) :
    ∃ e, mstepC d q b ks Yadj true false sA sS = .error e := by
  have hr : ∀ X A', ∃ e, mstepRest d q b ks Yadj true false sS X A' = .error e := fun X A' => by
    unfold mstepRest
    cases colsA d q A' true [] ks Yadj with
    | error e => exact ⟨e, rfl⟩
    | ok r => exact ⟨_, rfl⟩
  unfold mstepC
  simp only [Bool.true_or, if_true, bind, Except.bind]
  split
  · exact ⟨_, rfl⟩
  · split
    · exact ⟨_, rfl⟩
    · exact hr _ _

end Pytwoway.BLM
