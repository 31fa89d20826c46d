import Verif.BLM.Invariance
import Verif.BLM.ControlLoop
import Verif.BLM.ControlFalls

/-!
# BLM estimates with control variables do not depend on names, order, the direction of time or units (C114)

As in `BLM.Invariance`, with control columns: besides movers, firm types, worker types and periods, the categories of
every categorical column may be numbered in another way.  Continuous columns keep their values (their unit matters,
`C114_control_units`), and the columns keep their order (they are updated one after the other).
-/

namespace Pytwoway.BLM

open Finset

variable {ni nl nk : ℕ}

/-! ## Specification -/

/-- Where the coefficient of period `t`, worker type `l` and category `j` of a column of `n` categories is kept. -/
def Spec.slot {n : ℕ} (t : Fin 2) (l : Fin nl) (j : Fin n) : ℕ := t.val * (nl * n) + l.val * n + j.val

namespace Spec.Renaming

variable (g : Spec.Renaming ni nl nk)

/-- The coefficients `x'` are `c * x + b`, with periods, worker types and categories renamed. -/
def SameCoefs {n : ℕ} (κ : Equiv.Perm (Fin n)) (c b : ℝ) (x x' : ℕ → ℝ) : Prop :=
  ∀ t l j, x' (Spec.slot (g.period t) (g.worker l) (κ j)) = c * x (Spec.slot t l j) + b

/-- Right solvers of the same constraints written in the two ways: a convex, consistent set of coefficients. -/
structure SameCons {n : ℕ} (κ : Equiv.Perm (Fin n)) (c b : ℝ) (F F' : (ℕ → ℝ) → Prop) (s s' : Solver) : Prop where
  right : RightSolver (2 * (nl * n)) F s
  right' : RightSolver (2 * (nl * n)) F' s'
  convex : ∀ x y, F x → F y → F fun p => (x p + y p) / 2
  consistent : ∃ x, F x
  same : ∀ x x', g.SameCoefs κ c b x x' → (F' x' ↔ F x)

/-- The same control column in the new way: categories renamed, effects and standard deviations in the new unit of
wages; the values of a continuous column do not change. -/
def SameCtrl {n : ℕ} (κ : Equiv.Perm (Fin n)) : Ctrl ni nl → Ctrl ni nl → Prop
  | .catW C A S, .catW C' A' S' =>
    (∀ t i, ∃ j : Fin n, C t i = j ∧ C' (g.period t) (g.row i) = κ j) ∧
    (∀ t l (j : Fin n), A' (g.period t) (g.worker l) (κ j) = g.scale * A t l j) ∧
    ∀ t l (j : Fin n), S' (g.period t) (g.worker l) (κ j) = g.scale * S t l j
  | .catN C A S, .catN C' A' S' =>
    (∀ t i, ∃ j : Fin n, C t i = j ∧ C' (g.period t) (g.row i) = κ j) ∧
    (∀ t (j : Fin n), A' (g.period t) (κ j) = g.scale * A t j) ∧
    ∀ t (j : Fin n), S' (g.period t) (κ j) = g.scale * S t j
  | .ctsW C A S, .ctsW C' A' S' =>
    n = 1 ∧ (∀ t i, C' (g.period t) (g.row i) = C t i) ∧
    (∀ t l, A' (g.period t) (g.worker l) = g.scale * A t l) ∧
    ∀ t l, S' (g.period t) (g.worker l) = g.scale * S t l
  | .ctsN C A S, .ctsN C' A' S' =>
    n = 1 ∧ (∀ t i, C' (g.period t) (g.row i) = C t i) ∧
    (∀ t, A' (g.period t) = g.scale * A t) ∧
    ∀ t, S' (g.period t) = g.scale * S t
  | _, _ => False

/-- The same column with its constraints: every category observed in both periods (a continuous column has a value
other than 0), positive standard deviations, the same constraints in the two ways, variances bounded away from 0, and
the coefficients of a column without interaction equal across worker types. -/
structure SameColBy (k k' : Col ni nl) (κ : Equiv.Perm (Fin k.n)) (FA FA' FS FS' : (ℕ → ℝ) → Prop) : Prop where
  n_pos : 0 < k.n
  n_eq : k'.n = k.n
  ctrl : g.SameCtrl κ k.c k'.c
  obs : ∀ t (j : Fin k.n), ∃ i, k.c.pos t i = j ∧ k.c.load t i ≠ 0
  var_pos : ∀ l t i, 0 < k.c.var l t i
  consA : g.SameCons κ g.scale 0 FA FA' k.sA k'.sA
  consS : g.SameCons κ (g.scale ^ 2) 0 FS FS' k.sS k'.sS
  lower : ∀ x, FS x → ∀ t l (j : Fin k.n), 0 < x (Spec.slot (nl := nl) t l j)
  flatA : k.c.wi = false → ∀ x, FA x → ∀ t (l l' : Fin nl) (j : Fin k.n), x (Spec.slot t l j) = x (Spec.slot t l' j)
  flatS : k.c.wi = false → ∀ x, FS x → ∀ t (l l' : Fin nl) (j : Fin k.n), x (Spec.slot t l j) = x (Spec.slot t l' j)

/-- The same column under some renaming of its categories. -/
def SameCol (k k' : Col ni nl) : Prop := ∃ κ FA FA' FS FS', g.SameColBy k k' κ FA FA' FS FS'

/-- Two states of the estimation with controls that are the same up to the renaming. -/
structure SameStateC (d : Data ni nk) (s s' : Spec.St ni nl nk) : Prop where
  means : g.SameMeans s.base.A s'.base.A
  sds : g.SameSds s.base.S s'.base.S
  cols : List.Forall₂ g.SameCol s.cols s'.cols
  props : g.SameProps s.pk1 s'.pk1
  liks : s'.liks = s.liks.map (· - g.likShift d)

/-- Both raise the same error, or both return states that are the same up to the renaming. -/
def SameOutcomeC (d : Data ni nk) : Py (Spec.St ni nl nk) → Py (Spec.St ni nl nk) → Prop
  | .ok s, .ok s' => g.SameStateC d s s'
  | .error e, .error e' => e = e'
  | _, _ => False

/-! ## The quadratic program -/

variable {g} {d d' : Data ni nk}

theorem slot_lt' {n : ℕ} (t : Fin 2) (l : Fin nl) (j : Fin n) : Spec.slot t l j < 2 * (nl * n) := pos_lt t l j

theorem exists_coefs {n : ℕ} (A : Fin 2 → Fin nl → Fin n → ℝ) : ∃ x : ℕ → ℝ, ∀ t l j, x (Spec.slot t l j) = A t l j := by
  obtain ⟨x, hx⟩ := exists_flat A
  exact ⟨x, fun t l j => congrFun (congrFun (congrFun hx t) l) j⟩

theorem qpObj_slots {n : ℕ} (P q x : ℕ → ℝ) : qpObj (2 * (nl * n)) P q x = ∑ t : Fin 2, ∑ l : Fin nl, ∑ j : Fin n,
    (P (Spec.slot t l j) * x (Spec.slot t l j) ^ 2 / 2 + q (Spec.slot t l j) * x (Spec.slot t l j)) :=
  qpObj_cells P q x

theorem qpObj_ren {n : ℕ} {κ : Equiv.Perm (Fin n)} {c b m : ℝ} {X X' Y Y' : ℕ → ℝ}
    (hX : g.SameCoefs κ m 0 X X')
    (hY : ∀ t l j, Y' (Spec.slot (g.period t) (g.worker l) (κ j)) =
      m * (c * Y (Spec.slot t l j) + b * X (Spec.slot t l j))) :
    ∃ K, ∀ x x', g.SameCoefs κ c b x x' → qpObj (2 * (nl * n)) X' (fun p => - Y' p) x' =
      m * c ^ 2 * qpObj (2 * (nl * n)) X (fun p => - Y p) x + K := by
  refine ⟨∑ t : Fin 2, ∑ l : Fin nl, ∑ j : Fin n, (m * X (Spec.slot t l j) * b ^ 2 / 2 -
    m * (c * Y (Spec.slot t l j) + b * X (Spec.slot t l j)) * b), fun x x' hx => ?_⟩
  rw [qpObj_slots, qpObj_slots, ← Equiv.sum_comp g.period, mul_sum, ← sum_add_distrib]
  refine sum_congr rfl fun t _ => ?_
  rw [← Equiv.sum_comp g.worker, mul_sum, ← sum_add_distrib]
  refine sum_congr rfl fun l _ => ?_
  rw [← Equiv.sum_comp κ, mul_sum, ← sum_add_distrib]
  refine sum_congr rfl fun j _ => ?_
  have h := hX t l j
  rw [add_zero] at h
  rw [h, hY, hx]
  ring

/-- A diagonal strictly convex quadratic has at most one minimiser over a convex set. -/
theorem qp_unique {N : ℕ} {F : (ℕ → ℝ) → Prop} (hF : ∀ x y, F x → F y → F fun p => (x p + y p) / 2) {P r x y : ℕ → ℝ}
    (hP : ∀ p < N, 0 < P p) (hx : F x) (hy : F y) (hxm : ∀ z, F z → qpObj N P r x ≤ qpObj N P r z)
    (hym : ∀ z, F z → qpObj N P r y ≤ qpObj N P r z) : ∀ p < N, x p = y p := by
  have e : qpObj N P r x / 2 + qpObj N P r y / 2 - qpObj N P r (fun p => (x p + y p) / 2) =
      ∑ p ∈ range N, P p * ((x p - y p) ^ 2 / 8) := by
    unfold qpObj
    rw [sum_div, sum_div, ← sum_add_distrib, ← sum_sub_distrib]
    exact sum_congr rfl fun p _ => by ring
  have h1 := hxm _ (hF x y hx hy)
  have h2 := hym _ (hF x y hx hy)
  have hn : ∀ p ∈ range N, 0 ≤ P p * ((x p - y p) ^ 2 / 8) := fun p hp =>
    mul_nonneg (hP p (mem_range.mp hp)).le (by positivity)
  have h0 : ∑ p ∈ range N, P p * ((x p - y p) ^ 2 / 8) = 0 :=
    le_antisymm (by linarith) (sum_nonneg hn)
  rw [sum_eq_zero_iff_of_nonneg hn] at h0
  intro p hp
  rcases mul_eq_zero.mp (h0 p (mem_range.mpr hp)) with h | h
  · exact absurd h (hP p hp).ne'
  · have h3 : (x p - y p) ^ 2 = 0 := by linarith
    linarith [pow_eq_zero_iff (n := 2) (by norm_num) |>.mp h3]

/-- The two right solvers answer the two quadratic programs with the same coefficients. -/
theorem qp_ren {n : ℕ} {κ : Equiv.Perm (Fin n)} {c b m : ℝ} (hc : 0 < c) (hm : 0 < m) {F F' : (ℕ → ℝ) → Prop}
    {s s' : Solver} (hs : g.SameCons κ c b F F' s s') {X X' Y Y' : ℕ → ℝ}
    (hpos : ∀ t (l : Fin nl) (j : Fin n), 0 < X (Spec.slot t l j)) (hX : g.SameCoefs κ m 0 X X')
    (hY : ∀ t l j, Y' (Spec.slot (g.period t) (g.worker l) (κ j)) =
      m * (c * Y (Spec.slot t l j) + b * X (Spec.slot t l j))) :
    ∃ x x', s X (fun p => - Y p) = .ok (some x) ∧ s' X' (fun p => - Y' p) = .ok (some x') ∧ F x ∧ F' x' ∧
      g.SameCoefs κ c b x x' := by
  have hP : ∀ p < 2 * (nl * n), 0 < X p := by
    intro p hp
    obtain ⟨t, l, j, rfl⟩ := exists_pos hp
    exact hpos t l j
  have hP' : ∀ p < 2 * (nl * n), 0 < X' p := by
    intro p hp
    obtain ⟨t, l, j, rfl⟩ := exists_pos hp
    have h := hX (g.period.symm t) (g.worker.symm l) (κ.symm j)
    simp only [Equiv.apply_symm_apply, add_zero] at h
    exact lt_of_lt_of_eq (mul_pos hm (hpos _ _ _)) h.symm
  have toNew : ∀ x, ∃ x', g.SameCoefs κ c b x x' := by
    intro x
    obtain ⟨x', hx'⟩ := exists_coefs (nl := nl) fun t l (j : Fin n) =>
      c * x (Spec.slot (g.period.symm t) (g.worker.symm l) (κ.symm j)) + b
    exact ⟨x', fun t l j => by simp [hx']⟩
  have toOld : ∀ x', ∃ x, g.SameCoefs κ c b x x' := by
    intro x'
    obtain ⟨x, hx⟩ := exists_coefs (nl := nl) fun t l (j : Fin n) =>
      (x' (Spec.slot (g.period t) (g.worker l) (κ j)) - b) / c
    exact ⟨x, fun t l j => by rw [hx]; field_simp; ring⟩
  obtain ⟨x0, hx0⟩ := hs.consistent
  obtain ⟨x0', hx0'⟩ := toNew x0
  obtain ⟨x, hx⟩ := hs.right.complete X (fun p => - Y p) hP ⟨x0, hx0⟩
  obtain ⟨x', hx'⟩ := hs.right'.complete X' (fun p => - Y' p) hP' ⟨x0', (hs.same _ _ hx0').mpr hx0⟩
  obtain ⟨hf, hmin⟩ := hs.right.sound _ _ _ hx
  obtain ⟨hf', hmin'⟩ := hs.right'.sound _ _ _ hx'
  refine ⟨x, x', hx, hx', hf, hf', ?_⟩
  obtain ⟨y, hy⟩ := toOld x'
  obtain ⟨K, hK⟩ := qpObj_ren (g := g) (b := b) hX hY
  have huniq := qp_unique hs.convex hP hf ((hs.same _ _ hy).mp hf') hmin (by
    intro z hz
    obtain ⟨z', hz'⟩ := toNew z
    have h := hmin' z' ((hs.same _ _ hz').mpr hz)
    rw [hK _ _ hy, hK _ _ hz'] at h
    exact le_of_mul_le_mul_left (by linarith) (mul_pos hm (pow_pos hc 2)))
  intro t l j
  rw [hy, huniq _ (slot_lt' t l j)]

/-! ## Columns -/

section columns

variable {n : ℕ} {κ : Equiv.Perm (Fin n)} {c c' : Ctrl ni nl}

theorem ctrl_wi (h : g.SameCtrl κ c c') : c'.wi = c.wi := by
  cases c <;> cases c' <;> first | rfl | exact h.elim

theorem ctrl_pos (h : g.SameCtrl κ c c') (hn : 0 < n) (t : Fin 2) (i : Fin ni) :
    ∃ j : Fin n, c.pos t i = j ∧ c'.pos (g.period t) (g.row i) = κ j := by
  have one : n = 1 → ∃ j : Fin n, 0 = j.val ∧ 0 = (κ j).val := fun h1 =>
    ⟨⟨0, hn⟩, rfl, by have := (κ ⟨0, hn⟩).isLt; omega⟩
  cases c <;> cases c' <;> first | exact h.elim | exact h.1 t i | exact one h.1

theorem ctrl_load (h : g.SameCtrl κ c c') (t : Fin 2) (i : Fin ni) :
    c'.load (g.period t) (g.row i) = c.load t i := by
  cases c <;> cases c' <;> first | exact h.elim | rfl | exact h.2.1 t i

theorem ctrl_nonA (h : g.SameCtrl κ c c') (t : Fin 2) (i : Fin ni) :
    c'.nonA (g.period t) (g.row i) = g.scale * c.nonA t i := by
  cases c <;> cases c' <;> first | exact h.elim | simp only [Ctrl.nonA, mul_zero]
  · obtain ⟨j, h1, h2⟩ := h.1 t i
    rw [h1, h2, h.2.1]
  · rw [h.2.1, h.2.2.1, mul_assoc]

theorem ctrl_byA (h : g.SameCtrl κ c c') (l : Fin nl) (t : Fin 2) (i : Fin ni) :
    c'.byA (g.worker l) (g.period t) (g.row i) = g.scale * c.byA l t i := by
  cases c <;> cases c' <;> first | exact h.elim | simp only [Ctrl.byA, mul_zero]
  · obtain ⟨j, h1, h2⟩ := h.1 t i
    rw [h1, h2, h.2.1]
  · rw [h.2.1, h.2.2.1, mul_assoc]

theorem ctrl_var (h : g.SameCtrl κ c c') (l : Fin nl) (t : Fin 2) (i : Fin ni) :
    c'.var (g.worker l) (g.period t) (g.row i) = g.scale ^ 2 * c.var l t i := by
  cases c <;> cases c' <;> first | exact h.elim | simp only [Ctrl.var]
  · obtain ⟨j, h1, h2⟩ := h.1 t i
    rw [h1, h2, h.2.2, mul_pow]
  · obtain ⟨j, h1, h2⟩ := h.1 t i
    rw [h1, h2, h.2.2, mul_pow]
  · rw [h.2.2.2, mul_pow]
  · rw [h.2.2.2, mul_pow]

theorem slot_zero [NeZero nl] (t : Fin 2) (j : Fin n) : Spec.slot (nl := nl) t 0 j = t.val * (nl * n) + j.val := by
  simp [Spec.slot]

theorem slot_one (h : n = 1) (t : Fin 2) (l : Fin nl) (j : Fin n) : Spec.slot t l j = t.val * nl + l.val := by
  subst h
  have := j.isLt
  unfold Spec.slot
  rw [mul_one, mul_one]
  omega

/-- A vector that is the same for all worker types, read in the two ways. -/
theorem flat_coefs [NeZero nl] {a b : ℝ} {x x' : ℕ → ℝ} (hx : g.SameCoefs κ a b x x')
    (hf : ∀ t (l l' : Fin nl) (j : Fin n), x (Spec.slot t l j) = x (Spec.slot t l' j)) (t : Fin 2) (j : Fin n) :
    x' (Spec.slot (nl := nl) (g.period t) 0 (κ j)) = a * x (Spec.slot (nl := nl) t 0 j) + b := by
  have h := hx t (g.worker.symm 0) j
  rw [Equiv.apply_symm_apply] at h
  rw [h, hf t _ 0 j]

theorem setA_ren [NeZero nl] (h : g.SameCtrl κ c c') (hn : 0 < n) {x x' : ℕ → ℝ} (hx : g.SameCoefs κ g.scale 0 x x')
    (hf : c.wi = false → ∀ t (l l' : Fin nl) (j : Fin n), x (Spec.slot t l j) = x (Spec.slot t l' j)) :
    g.SameCtrl κ (c.setA n x) (c'.setA n x') := by
  have hx0 : ∀ t l j, x' (Spec.slot (g.period t) (g.worker l) (κ j)) = g.scale * x (Spec.slot t l j) := by
    intro t l j
    rw [hx t l j, add_zero]
  cases c <;> cases c' <;> try exact h.elim
  · exact ⟨h.1, fun t l j => hx0 t l j, h.2.2⟩
  · have hf := flat_coefs hx (hf rfl)
    refine ⟨h.1, fun t j => ?_, h.2.2⟩
    have := hf t j
    rw [slot_zero, slot_zero, add_zero] at this
    exact this
  · refine ⟨h.1, h.2.1, fun t l => ?_, h.2.2.2⟩
    have := hx0 t l ⟨0, hn⟩
    rw [slot_one h.1, slot_one h.1] at this
    exact this
  · have hf := flat_coefs hx (hf rfl)
    refine ⟨h.1, h.2.1, fun t => ?_, h.2.2.2⟩
    have := hf t ⟨0, hn⟩
    rw [slot_one h.1, slot_one h.1, add_zero, Fin.val_zero, add_zero, add_zero] at this
    exact this

theorem setS_ren [NeZero nl] (h : g.SameCtrl κ c c') (hn : 0 < n) {x x' : ℕ → ℝ}
    (hx : g.SameCoefs κ (g.scale ^ 2) 0 x x')
    (hf : c.wi = false → ∀ t (l l' : Fin nl) (j : Fin n), x (Spec.slot t l j) = x (Spec.slot t l' j)) :
    g.SameCtrl κ (c.setS n x) (c'.setS n x') := by
  have hsq : ∀ y, √(g.scale ^ 2 * y) = g.scale * √y := fun y => by
    rw [Real.sqrt_mul (sq_nonneg _), Real.sqrt_sq g.scale_pos.le]
  have hx0 : ∀ t l j, √(x' (Spec.slot (g.period t) (g.worker l) (κ j))) = g.scale * √(x (Spec.slot t l j)) := by
    intro t l j
    rw [hx t l j, add_zero, hsq]
  cases c <;> cases c' <;> try exact h.elim
  · exact ⟨h.1, h.2.1, fun t l j => hx0 t l j⟩
  · have hf := flat_coefs hx (hf rfl)
    refine ⟨h.1, h.2.1, fun t j => ?_⟩
    have := hf t j
    rw [slot_zero, slot_zero, add_zero] at this
    exact (congrArg Real.sqrt this).trans (hsq _)
  · refine ⟨h.1, h.2.1, h.2.2.1, fun t l => ?_⟩
    have := hx0 t l ⟨0, hn⟩
    rw [slot_one h.1, slot_one h.1] at this
    exact this
  · have hf := flat_coefs hx (hf rfl)
    refine ⟨h.1, h.2.1, h.2.2.1, fun t => ?_⟩
    have := hf t ⟨0, hn⟩
    rw [slot_one h.1, slot_one h.1, add_zero, Fin.val_zero, add_zero, add_zero] at this
    exact (congrArg Real.sqrt this).trans (hsq _)

end columns

/-- Sums over corresponding columns. -/
theorem sum_cols {ks ks' : List (Col ni nl)} (h : List.Forall₂ g.SameCol ks ks') {f f' : Ctrl ni nl → ℝ} (r : ℝ)
    (hf : ∀ (n : ℕ) (κ : Equiv.Perm (Fin n)) (c c' : Ctrl ni nl), g.SameCtrl κ c c' → f' c' = r * f c) :
    ((ks'.map (·.c)).map f').sum = r * ((ks.map (·.c)).map f).sum := by
  induction h with
  | nil => simp
  | cons hk _ ih =>
    obtain ⟨κ, FA, FA', FS, FS', hk⟩ := hk
    simp only [List.map_cons, List.sum_cons, ih, hf _ κ _ _ hk.ctrl]
    ring

theorem sumByA_ren {ks ks' : List (Col ni nl)} (h : List.Forall₂ g.SameCol ks ks') (l : Fin nl) (t : Fin 2)
    (i : Fin ni) : sumByA (ks'.map (·.c)) (g.worker l) (g.period t) (g.row i) =
      g.scale * sumByA (ks.map (·.c)) l t i := by
  rw [sumByA_eq, sumByA_eq]
  exact sum_cols h _ fun n κ c c' hc => ctrl_byA hc l t i

theorem sumNonA_ren {ks ks' : List (Col ni nl)} (h : List.Forall₂ g.SameCol ks ks') (t : Fin 2)
    (i : Fin ni) : sumNonA (ks'.map (·.c)) (g.period t) (g.row i) = g.scale * sumNonA (ks.map (·.c)) t i := by
  rw [sumNonA_eq, sumNonA_eq]
  exact sum_cols h _ fun n κ c c' hc => ctrl_nonA hc t i

theorem var_ren {ks ks' : List (Col ni nl)} (h : List.Forall₂ g.SameCol ks ks') (l : Fin nl) (t : Fin 2)
    (i : Fin ni) : sumNonS (ks'.map (·.c)) (g.period t) (g.row i) +
        sumByS (ks'.map (·.c)) (g.worker l) (g.period t) (g.row i) =
      g.scale ^ 2 * (sumNonS (ks.map (·.c)) t i + sumByS (ks.map (·.c)) l t i) := by
  rw [var_sum_eq, var_sum_eq]
  exact sum_cols h _ fun n κ c c' hc => ctrl_var hc l t i

theorem var_nonneg (ks : List (Col ni nl)) (l : Fin nl) (t : Fin 2) (i : Fin ni) :
    0 ≤ sumNonS (ks.map (·.c)) t i + sumByS (ks.map (·.c)) l t i := by
  rw [var_sum_eq]
  refine List.sum_nonneg fun x hx => ?_
  obtain ⟨c, -, rfl⟩ := List.mem_map.mp hx
  cases c <;> exact sq_nonneg _

/-! ## The regressions of a column -/

section column

variable {k k' : Col ni nl} {κ : Equiv.Perm (Fin k.n)} {FA FA' FS FS' : (ℕ → ℝ) → Prop}

theorem col_ok (hk : g.SameColBy k k' κ FA FA' FS FS') : ColOk k := by
  have hn := hk.n_pos
  have hp := ctrl_pos hk.ctrl hn
  have ho := fun t => hk.obs t ⟨k.n - 1, by omega⟩
  have hc := hk.ctrl
  unfold ColOk
  cases hc1 : k.c <;> cases hc2 : k'.c <;> rw [hc1, hc2] at hc <;> try exact hc.elim
  · rw [hc1] at hp ho
    exact ⟨hn, fun t i => by obtain ⟨j, e, -⟩ := hp t i; exact lt_of_eq_of_lt e j.isLt,
      fun t => by obtain ⟨i, e, -⟩ := ho t; exact ⟨i, e⟩⟩
  · rw [hc1] at hp ho
    exact ⟨hn, fun t i => by obtain ⟨j, e, -⟩ := hp t i; exact lt_of_eq_of_lt e j.isLt,
      fun t => by obtain ⟨i, e, -⟩ := ho t; exact ⟨i, e⟩⟩
  · exact hc.1
  · exact hc.1

theorem col_obs' (hk : g.SameColBy k k' κ FA FA' FS FS') (t : Fin 2) (j : Fin k.n) :
    ∃ i, k'.c.pos t i = j := by
  obtain ⟨i, e, -⟩ := hk.obs (g.period.symm t) (κ.symm j)
  obtain ⟨j', e1, e2⟩ := ctrl_pos hk.ctrl hk.n_pos (g.period.symm t) i
  have : j' = κ.symm j := Fin.ext (e1.symm.trans e)
  rw [this, Equiv.apply_symm_apply, Equiv.apply_symm_apply] at e2
  exact ⟨_, e2⟩

theorem col_lt' (hk : g.SameColBy k k' κ FA FA' FS FS') (t : Fin 2) (i : Fin ni) : k'.c.pos t i < k.n := by
  obtain ⟨j, -, e⟩ := ctrl_pos hk.ctrl hk.n_pos (g.period.symm t) (g.row.symm i)
  rw [Equiv.apply_symm_apply, Equiv.apply_symm_apply] at e
  rw [e]
  exact (κ j).isLt

theorem col_ok' (hk : g.SameColBy k k' κ FA FA' FS FS') : ColOk k' := by
  have hn := hk.n_pos
  have hp := col_lt' hk
  have ho := fun t => col_obs' hk t ⟨k.n - 1, by omega⟩
  have hc := hk.ctrl
  unfold ColOk
  rw [hk.n_eq]
  cases hc1 : k.c <;> cases hc2 : k'.c <;> rw [hc1, hc2] at hc <;> try exact hc.elim
  · rw [hc2] at hp ho; exact ⟨hn, hp, ho⟩
  · rw [hc2] at hp ho; exact ⟨hn, hp, ho⟩
  · exact hc.1
  · exact hc.1

/-- Corresponding normal equations of a column. -/
theorem assembleCol_ren (hk : g.SameColBy k k' κ FA FA' FS FS') {f f' : Fin 2 → Fin nl → Fin ni → ℝ} (r : ℝ)
    (hf : ∀ t l i, f' (g.period t) (g.worker l) (g.row i) = r * f t l i) :
    ∃ X X', assembleCol k f = .ok X ∧ assembleCol k' f' = .ok X' ∧ g.SameCoefs κ r 0 X X' ∧
      ∀ t l (j : Fin k.n), X (Spec.slot (nl := nl) t l j) = ∑ i with k.c.pos t i = j, k.c.load t i * f t l i := by
  obtain ⟨X, h1, h2⟩ := assembleCol_ok k (col_ok hk) f
  obtain ⟨X', h1', h2'⟩ := assembleCol_ok k' (col_ok' hk) f'
  rw [hk.n_eq] at h2'
  have hX : ∀ t l (j : Fin k.n), X (Spec.slot (nl := nl) t l j) =
      ∑ i with k.c.pos t i = j, k.c.load t i * f t l i := fun t l j => h2 t l j j.isLt
  refine ⟨X, X', h1, h1', fun t l j => ?_, hX⟩
  have hX' := h2' (g.period t) (g.worker l) (κ j) (κ j).isLt
  rw [hX, add_zero, Spec.slot, hX', sum_filter, sum_filter, ← Equiv.sum_comp g.row, mul_sum]
  refine sum_congr rfl fun i _ => ?_
  obtain ⟨j', e1, e2⟩ := ctrl_pos hk.ctrl hk.n_pos t i
  rw [e1, e2, ctrl_load hk.ctrl, hf]
  have : ((κ j').val = (κ j).val) ↔ (j'.val = j.val) := by
    rw [← Fin.ext_iff, ← Fin.ext_iff, κ.injective.eq_iff]
  simp only [this]
  split
  · ring
  · simp

/-- Weights of a column. -/
theorem colWts_ren (hd : g.SameData d d') {q q' : Fin ni → Fin nl → ℝ}
    (hqq : ∀ i l, q' (g.row i) (g.worker l) = q i l) (hk : g.SameColBy k k' κ FA FA' FS FS') (t : Fin 2) (l : Fin nl)
    (i : Fin ni) : colWts d' q' k'.c (g.period t) (g.worker l) (g.row i) = (g.scale ^ 2)⁻¹ * colWts d q k.c t l i := by
  have ha := g.scale_pos.ne'
  have hv := (hk.var_pos l t i).ne'
  unfold colWts
  rw [hd.weight, hqq, ctrl_var hk.ctrl]
  field_simp

theorem colXwX_ren (hd : g.SameData d d') {q q' : Fin ni → Fin nl → ℝ}
    (hqq : ∀ i l, q' (g.row i) (g.worker l) = q i l) (hW : ∀ t i, 0 < d.W t i) (hq : ∀ i l, 0 < q i l)
    (hk : g.SameColBy k k' κ FA FA' FS FS') :
    ∃ X X', colXwX d q k = .ok X ∧ colXwX d' q' k' = .ok X' ∧ g.SameCoefs κ (g.scale ^ 2)⁻¹ 0 X X' ∧
      ∀ t (l : Fin nl) (j : Fin k.n), 0 < X (Spec.slot t l j) := by
  obtain ⟨X, X', h1, h2, h3, h4⟩ := assembleCol_ren hk (f := fun t l i => colWts d q k.c t l i * k.c.load t i)
    (f' := fun t l i => colWts d' q' k'.c t l i * k'.c.load t i) (g.scale ^ 2)⁻¹ (fun t l i => by
      rw [colWts_ren hd hqq hk, ctrl_load hk.ctrl, mul_assoc])
  refine ⟨X, X', h1, h2, h3, fun t l j => ?_⟩
  rw [h4]
  have hw : ∀ i, 0 < colWts d q k.c t l i := fun i => div_pos (mul_pos (hW t i) (hq i l)) (hk.var_pos l t i)
  obtain ⟨i, e, hl⟩ := hk.obs t j
  have hnn : ∀ i, k.c.load t i * (colWts d q k.c t l i * k.c.load t i) =
      colWts d q k.c t l i * k.c.load t i ^ 2 := fun i => by ring
  simp only [hnn]
  refine lt_of_lt_of_le (mul_pos (hw i) (pow_pos (abs_pos.mpr hl) 2)) ?_
  rw [sq_abs]
  exact single_le_sum (f := fun i => colWts d q k.c t l i * k.c.load t i ^ 2)
    (fun i _ => mul_nonneg (hw i).le (sq_nonneg _)) (by simp [e])

/-- Corresponding effects of a column after its regression. -/
theorem colA_ren [NeZero nl] (hd : g.SameData d d') {q q' : Fin ni → Fin nl → ℝ}
    (hqq : ∀ i l, q' (g.row i) (g.worker l) = q i l) (hW : ∀ t i, 0 < d.W t i) (hq : ∀ i l, 0 < q i l)
    {A A' : Fin 2 → Fin nl → Fin nk → ℝ} (hA : g.SameMeans A A') (updA : Bool) {done done' todo todo' : List (Col ni nl)}
    (hdone : List.Forall₂ g.SameCol done done') (htodo : List.Forall₂ g.SameCol todo todo')
    (hk : g.SameCol k k') {Y Y' : Fin 2 → Fin ni → ℝ}
    (hY : ∀ t i, Y' (g.period t) (g.row i) = g.scale * Y t i + g.shift) :
    ∃ r r', colA d q A updA done k todo Y = .ok r ∧ colA d' q' A' updA done' k' todo' Y' = .ok r' ∧
      g.SameCol r.1 r'.1 ∧ ∀ t i, r'.2 (g.period t) (g.row i) = g.scale * r.2 t i + g.shift := by
  have hall : List.Forall₂ g.SameCol (done ++ k :: todo) (done' ++ k' :: todo') :=
    List.rel_append hdone (.cons hk htodo)
  obtain ⟨κ, FA, FA', FS, FS', hk⟩ := hk
  have ha := g.scale_pos
  obtain ⟨X, X', h1, h2, h3, h4⟩ := colXwX_ren hd hqq hW hq hk
  have hwi := ctrl_wi hk.ctrl
  have hY1 : ∀ t i, (if k'.c.wi then Y' (g.period t) (g.row i) else Y' (g.period t) (g.row i) +
      k'.c.nonA (g.period t) (g.row i)) = g.scale * (if k.c.wi then Y t i else Y t i + k.c.nonA t i) + g.shift := by
    intro t i
    rw [hwi, hY, ctrl_nonA hk.ctrl]
    split <;> ring
  have hfin : ∀ (c c' : Ctrl ni nl), g.SameCtrl κ c c' → ∀ t i,
      (if k'.c.wi then (if k'.c.wi then Y' (g.period t) (g.row i) else Y' (g.period t) (g.row i) +
        k'.c.nonA (g.period t) (g.row i)) else (if k'.c.wi then Y' (g.period t) (g.row i) else
        Y' (g.period t) (g.row i) + k'.c.nonA (g.period t) (g.row i)) - c'.nonA (g.period t) (g.row i)) =
      g.scale * (if k.c.wi then (if k.c.wi then Y t i else Y t i + k.c.nonA t i) else
        (if k.c.wi then Y t i else Y t i + k.c.nonA t i) - c.nonA t i) + g.shift := by
    intro c c' hc t i
    rw [hY1, hwi, ctrl_nonA hc]
    split <;> ring
  unfold colA
  simp only [h1, h2, bind, Except.bind, pure, Except.pure]
  cases updA with
  | false =>
    simp only [Bool.false_eq_true, if_false]
    exact ⟨_, _, rfl, rfl, ⟨κ, FA, FA', FS, FS', hk⟩, hfin _ _ hk.ctrl⟩
  | true =>
    simp only [if_true]
    obtain ⟨Z, Z', e1, e2, e3, -⟩ := assembleCol_ren hk
      (f := fun t l i => colWts d q k.c t l i * ((if k.c.wi then Y t i else Y t i + k.c.nonA t i) -
        (sumByA ((done ++ k :: todo).map (·.c)) l t i - if k.c.wi then k.c.byA l t i else 0) - A t l (d.G t i)))
      (f' := fun t l i => colWts d' q' k'.c t l i * ((if k'.c.wi then Y' t i else Y' t i + k'.c.nonA t i) -
        (sumByA ((done' ++ k' :: todo').map (·.c)) l t i - if k'.c.wi then k'.c.byA l t i else 0) - A' t l (d'.G t i)))
      ((g.scale ^ 2)⁻¹ * g.scale) (fun t l i => by
        rw [hY1, colWts_ren hd hqq hk, sumByA_ren hall, ctrl_byA hk.ctrl, hd.type, hA, hwi]
        split <;> ring)
    rw [e1, e2]
    simp only
    obtain ⟨x, x', s1, s2, s3, -, s5⟩ := qp_ren ha (inv_pos.mpr (pow_pos ha 2)) hk.consA h4 h3 (Y := Z) (Y' := Z')
      (fun t l j => by rw [e3 t l j]; ring)
    have hc := setA_ren hk.ctrl hk.n_pos s5 (fun hw => hk.flatA hw x s3)
    have g1 : k.solveA X Z = { k with c := k.c.setA k.n x } := by unfold Col.solveA; rw [s1]
    have g2 : k'.solveA X' Z' = { k' with c := k'.c.setA k.n x' } := by
      unfold Col.solveA; rw [s2]; simp only [hk.n_eq]
    rw [g1, g2]
    refine ⟨_, _, rfl, rfl, ⟨κ, FA, FA', FS, FS', ?_⟩, hfin _ _ hc⟩
    have hpos : ∀ t i, (k.c.setA k.n x).pos t i = k.c.pos t i := fun t i => by cases k.c <;> rfl
    have hload : ∀ t i, (k.c.setA k.n x).load t i = k.c.load t i := fun t i => by cases k.c <;> rfl
    have hvar : ∀ l t i, (k.c.setA k.n x).var l t i = k.c.var l t i := fun l t i => by cases k.c <;> rfl
    exact {
      n_pos := hk.n_pos
      n_eq := hk.n_eq
      ctrl := hc
      obs := fun t j => by
        obtain ⟨i, u, v⟩ := hk.obs t j
        exact ⟨i, (hpos t i).trans u, by simpa only [hload] using v⟩
      var_pos := fun l t i => by simpa only [hvar] using hk.var_pos l t i
      consA := hk.consA
      consS := hk.consS
      lower := hk.lower
      flatA := fun hw => hk.flatA (by rw [← setA_wi k.c k.n x]; exact hw)
      flatS := fun hw => hk.flatS (by rw [← setA_wi k.c k.n x]; exact hw) }

/-- Corresponding standard deviations of a column after their regression. -/
theorem colS_ren [NeZero nl] (hd : g.SameData d d') {q q' : Fin ni → Fin nl → ℝ}
    (hqq : ∀ i l, q' (g.row i) (g.worker l) = q i l) (hW : ∀ t i, 0 < d.W t i) (hq : ∀ i l, 0 < q i l)
    {e e' : Fin 2 → Fin nl → Fin ni → ℝ} (he : ∀ t l i, e' (g.period t) (g.worker l) (g.row i) = g.scale ^ 2 * e t l i)
    (hk : g.SameCol k k') :
    ∃ r r', colS d q e k = .ok r ∧ colS d' q' e' k' = .ok r' ∧ g.SameCol r r' := by
  obtain ⟨κ, FA, FA', FS, FS', hk⟩ := hk
  have ha := g.scale_pos
  obtain ⟨X, X', h1, h2, h3, h4⟩ := colXwX_ren hd hqq hW hq hk
  obtain ⟨Z, Z', e1, e2, e3, -⟩ := assembleCol_ren hk (f := fun t l i => colWts d q k.c t l i * e t l i)
    (f' := fun t l i => colWts d' q' k'.c t l i * e' t l i) ((g.scale ^ 2)⁻¹ * g.scale ^ 2) (fun t l i => by
      rw [colWts_ren hd hqq hk, he]; ring)
  unfold colS
  simp only [h1, h2, e1, e2, bind, Except.bind, pure, Except.pure]
  set R := (match k.c with
    | .catW .. | .catN .. => Z
    | .ctsW .. | .ctsN .. => fun p => |Z p|) with hR
  set R' := (match k'.c with
    | .catW .. | .catN .. => Z'
    | .ctsW .. | .ctsN .. => fun p => |Z' p|) with hR'
  have hone : (g.scale ^ 2)⁻¹ * g.scale ^ 2 = 1 := inv_mul_cancel₀ (pow_pos ha 2).ne'
  have hRR : g.SameCoefs κ 1 0 R R' := by
    intro t l j
    have := e3 t l j
    rw [hone] at this
    have hc := hk.ctrl
    rw [hR, hR']
    cases hc1 : k.c <;> cases hc2 : k'.c <;> rw [hc1, hc2] at hc <;> try exact hc.elim
    · exact this
    · exact this
    · simp only [this]; simp
    · simp only [this]; simp
  obtain ⟨x, x', s1, s2, s3, -, s5⟩ := qp_ren (pow_pos ha 2) (inv_pos.mpr (pow_pos ha 2)) hk.consS h4 h3 (Y := R)
    (Y' := R') (fun t l j => by rw [hRR t l j]; rw [zero_mul, add_zero, add_zero, ← mul_assoc, hone])
  have hc := setS_ren hk.ctrl hk.n_pos s5 (fun hw => hk.flatS hw x s3)
  have g1 : k.solveS X R = { k with c := k.c.setS k.n x } := by unfold Col.solveS; rw [s1]
  have g2 : k'.solveS X' R' = { k' with c := k'.c.setS k.n x' } := by
    unfold Col.solveS; rw [s2]; simp only [hk.n_eq]
  change ∃ r r', Except.ok (k.solveS X R) = .ok r ∧ Except.ok (k'.solveS X' R') = .ok r' ∧ g.SameCol r r'
  rw [g1, g2]
  refine ⟨_, _, rfl, rfl, ⟨κ, FA, FA', FS, FS', ?_⟩⟩
  have hpos : ∀ t i, (k.c.setS k.n x).pos t i = k.c.pos t i := fun t i => by cases k.c <;> rfl
  have hload : ∀ t i, (k.c.setS k.n x).load t i = k.c.load t i := fun t i => by cases k.c <;> rfl
  have hwi : (k.c.setS k.n x).wi = k.c.wi := by cases k.c <;> rfl
  exact {
    n_pos := hk.n_pos
    n_eq := hk.n_eq
    ctrl := hc
    obs := fun t j => by
      obtain ⟨i, u, v⟩ := hk.obs t j
      exact ⟨i, (hpos t i).trans u, by simpa only [hload] using v⟩
    var_pos := fun l t i => by
      have hlow := hk.lower x s3
      obtain ⟨j, hj, -⟩ := ctrl_pos hk.ctrl hk.n_pos t i
      have hn := hk.n_pos
      have hc0 := hk.ctrl
      show 0 < (k.c.setS k.n x).var l t i
      cases hc1 : k.c <;> cases hc2 : k'.c <;> rw [hc1, hc2] at hc0 <;> try exact hc0.elim
      · rw [hc1] at hj
        simp only [Ctrl.setS, Ctrl.var]
        refine pow_pos (Real.sqrt_pos.mpr ?_) 2
        have := hlow t l j
        rw [Spec.slot, ← hj] at this
        exact this
      · rw [hc1] at hj
        simp only [Ctrl.setS, Ctrl.var]
        refine pow_pos (Real.sqrt_pos.mpr ?_) 2
        have := hlow t 0 j
        rw [slot_zero, ← hj] at this
        exact this
      · refine pow_pos (Real.sqrt_pos.mpr ?_) 2
        have := hlow t l ⟨0, hn⟩
        rw [slot_one hc0.1] at this
        exact this
      · refine pow_pos (Real.sqrt_pos.mpr ?_) 2
        have := hlow t 0 ⟨0, hn⟩
        rw [slot_one hc0.1, Fin.val_zero, add_zero] at this
        exact this
    consA := hk.consA
    consS := hk.consS
    lower := hk.lower
    flatA := fun hw => hk.flatA (by rw [← hwi]; exact hw)
    flatS := fun hw => hk.flatS (by rw [← hwi]; exact hw) }

end column

/-! ## M-step -/

theorem colsA_ren [NeZero nl] (hd : g.SameData d d') {q q' : Fin ni → Fin nl → ℝ}
    (hqq : ∀ i l, q' (g.row i) (g.worker l) = q i l) (hW : ∀ t i, 0 < d.W t i) (hq : ∀ i l, 0 < q i l)
    {A A' : Fin 2 → Fin nl → Fin nk → ℝ} (hA : g.SameMeans A A') (updA : Bool) {todo todo' : List (Col ni nl)}
    (htodo : List.Forall₂ g.SameCol todo todo') : ∀ {done done' : List (Col ni nl)},
    List.Forall₂ g.SameCol done done' → ∀ {Y Y' : Fin 2 → Fin ni → ℝ},
    (∀ t i, Y' (g.period t) (g.row i) = g.scale * Y t i + g.shift) →
    ∃ r r', colsA d q A updA done todo Y = .ok r ∧ colsA d' q' A' updA done' todo' Y' = .ok r' ∧
      List.Forall₂ g.SameCol r.1 r'.1 ∧ ∀ t i, r'.2 (g.period t) (g.row i) = g.scale * r.2 t i + g.shift := by
  induction htodo with
  | nil => intro done done' hdone Y Y' hY; exact ⟨_, _, rfl, rfl, hdone, hY⟩
  | cons hk htodo ih =>
    intro done done' hdone Y Y' hY
    obtain ⟨r, r', h1, h2, h3, h4⟩ := colA_ren hd hqq hW hq hA updA hdone htodo hk hY
    rw [colsA, colsA, h1, h2]
    exact ih (List.rel_append hdone (.cons h3 .nil)) h4

theorem colsS_ren [NeZero nl] (hd : g.SameData d d') {q q' : Fin ni → Fin nl → ℝ}
    (hqq : ∀ i l, q' (g.row i) (g.worker l) = q i l) (hW : ∀ t i, 0 < d.W t i) (hq : ∀ i l, 0 < q i l)
    {e e' : Fin 2 → Fin nl → Fin ni → ℝ} (he : ∀ t l i, e' (g.period t) (g.worker l) (g.row i) = g.scale ^ 2 * e t l i)
    {ks ks' : List (Col ni nl)} (h : List.Forall₂ g.SameCol ks ks') :
    ∃ rs rs', ks.mapM (colS d q e) = .ok rs ∧ ks'.mapM (colS d' q' e') = .ok rs' ∧ List.Forall₂ g.SameCol rs rs' := by
  induction h with
  | nil => exact ⟨[], [], rfl, rfl, .nil⟩
  | cons hk _ ih =>
    obtain ⟨rs, rs', h1, h2, h3⟩ := ih
    obtain ⟨r, r', e1, e2, e3⟩ := colS_ren hd hqq hW hq he hk
    refine ⟨r :: rs, r' :: rs', ?_, ?_, .cons e3 h3⟩
    · rw [List.mapM_cons, e1, h1]; rfl
    · rw [List.mapM_cons, e2, h2]; rfl

theorem top_observed (hnk : 0 < nk) (hobs : ∀ t k, ∃ i, d.G t i = k) : TopObserved d := by
  intro t
  obtain ⟨i, hi⟩ := hobs t ⟨nk - 1, by omega⟩
  exact ⟨i, by rw [hi]⟩

theorem obs_ren (hd : g.SameData d d') (hobs : ∀ t k, ∃ i, d.G t i = k) (t : Fin 2) (k : Fin nk) :
    ∃ i, d'.G t i = k := by
  obtain ⟨i, hi⟩ := hobs (g.period.symm t) (g.firm.symm k)
  refine ⟨g.row i, ?_⟩
  rw [← g.period.apply_symm_apply t, hd.type, hi, Equiv.apply_symm_apply]

/-- Corresponding normal equations of the base effects. -/
theorem assemble_ren (hd : g.SameData d d') (hnk : 0 < nk) (hobs : ∀ t k, ∃ i, d.G t i = k)
    {f f' : Fin 2 → Fin nl → Fin ni → ℝ} (F : ℝ → ℝ → ℝ) (x : Fin 2 → Fin nl → Fin ni → ℝ)
    (hF : ∀ (s : Finset (Fin ni)) t l, ∑ i ∈ s, F (f t l i) (x t l i) = F (∑ i ∈ s, f t l i) (∑ i ∈ s, x t l i))
    (hf : ∀ t l i, f' (g.period t) (g.worker l) (g.row i) = F (f t l i) (x t l i)) :
    ∃ X X', assemble d f = .ok X ∧ assemble d' f' = .ok X' ∧
      (∀ t l k, X (Spec.slot t l k) = ∑ i with d.G t i = k, f t l i) ∧
      ∀ t l k, X' (Spec.slot (g.period t) (g.worker l) (g.firm k)) =
        F (X (Spec.slot t l k)) (∑ i with d.G t i = k, x t l i) := by
  obtain ⟨X, h1, h2⟩ := assemble_ok d (top_observed hnk hobs) f
  obtain ⟨X', h1', h2'⟩ := assemble_ok d' (top_observed hnk (obs_ren hd hobs)) f'
  have h2 : ∀ t l k, X (Spec.slot t l k) = ∑ i with d.G t i = k, f t l i := h2
  refine ⟨X, X', h1, h1', h2, fun t l k => ?_⟩
  have e := h2' (g.period t) (g.worker l) (g.firm k)
  rw [Spec.slot, e, h2, ← hF, sum_filter, sum_filter, ← Equiv.sum_comp g.row]
  refine sum_congr rfl fun i _ => ?_
  rw [hd.type, hf]
  simp only [g.firm.injective.eq_iff]

theorem wts_ren (hd : g.SameData d d') {q q' : Fin ni → Fin nl → ℝ}
    (hqq : ∀ i l, q' (g.row i) (g.worker l) = q i l) {S S' : Fin 2 → Fin nl → Fin nk → ℝ} (hS : g.SameSds S S')
    (hpos : ∀ t l k, 0 < S t l k) (t : Fin 2) (l : Fin nl) (i : Fin ni) :
    wts d' S' q' (g.period t) (g.worker l) (g.row i) = (g.scale ^ 2)⁻¹ * wts d S q t l i := by
  have ha := g.scale_pos.ne'
  have hs := (hpos t l (d.G t i)).ne'
  unfold wts
  rw [hd.weight, hqq, hd.type, hS]
  field_simp

/-- What the two M-steps leave: corresponding parameters, or the same error. -/
def SameM (g : Spec.Renaming ni nl nk)
    (r r' : Py (Base nl nk × List (Col ni nl) × (Fin 2 → Fin ni → ℝ))) : Prop :=
  (∃ c c', r = .ok c ∧ r' = .ok c' ∧ g.SameMeans c.1.A c'.1.A ∧ g.SameSds c.1.S c'.1.S ∧ (∀ t l k, 0 < c.1.S t l k) ∧
    List.Forall₂ g.SameCol c.2.1 c'.2.1) ∨ ∃ e, r = .error e ∧ r' = .error e

section mstep

variable {q q' : Fin ni → Fin nl → ℝ} {b b' : Base nl nk} {ks ks' : List (Col ni nl)} {Y Y' : Fin 2 → Fin ni → ℝ}
  {sA sA' sS sS' : Solver} {FA FA' FS FS' : (ℕ → ℝ) → Prop}

theorem mstepRest_ren [NeZero nl] (hd : g.SameData d d')
    (hqq : ∀ i l, q' (g.row i) (g.worker l) = q i l) (hW : ∀ t i, 0 < d.W t i) (hq : ∀ i l, 0 < q i l) (hnk : 0 < nk)
    (hobs : ∀ t k, ∃ i, d.G t i = k) (hS : g.SameSds b.S b'.S) (hpos : ∀ t l k, 0 < b.S t l k)
    (hks : List.Forall₂ g.SameCol ks ks') (hY : ∀ t i, Y' (g.period t) (g.row i) = g.scale * Y t i + g.shift)
    (updA updS : Bool) (hsS : g.SameCons g.firm (g.scale ^ 2) 0 FS FS' sS sS')
    (hlow : ∀ x, FS x → ∀ t (l : Fin nl) (k : Fin nk), 0 < x (Spec.slot t l k)) {X X' : ℕ → ℝ}
    (hX : g.SameCoefs g.firm (g.scale ^ 2)⁻¹ 0 X X') (hXp : ∀ t (l : Fin nl) (k : Fin nk), 0 < X (Spec.slot t l k))
    {A A' : Fin 2 → Fin nl → Fin nk → ℝ} (hA : g.SameMeans A A') :
    SameM g (mstepRest d q b ks Y updA updS sS X A) (mstepRest d' q' b' ks' Y' updA updS sS' X' A') := by
  have ha := g.scale_pos
  obtain ⟨r, r', h1, h2, h3, h4⟩ := colsA_ren hd hqq hW hq hA updA hks (.nil) hY
  unfold mstepRest
  rw [h1, h2]
  simp only [bind, Except.bind, pure, Except.pure]
  cases updS with
  | false => exact .inr ⟨_, rfl, rfl⟩
  | true =>
    simp only [if_true]
    set e : Fin 2 → Fin nl → Fin ni → ℝ := fun t l i => (r.2 t i - sumByA (r.1.map (·.c)) l t i - A t l (d.G t i)) ^ 2
    set e' : Fin 2 → Fin nl → Fin ni → ℝ := fun t l i =>
      (r'.2 t i - sumByA (r'.1.map (·.c)) l t i - A' t l (d'.G t i)) ^ 2
    have he : ∀ t l i, e' (g.period t) (g.worker l) (g.row i) = g.scale ^ 2 * e t l i := by
      intro t l i
      simp only [e, e']
      rw [h4, sumByA_ren h3, hd.type, hA]
      ring
    have hone : (g.scale ^ 2)⁻¹ * g.scale ^ 2 = 1 := inv_mul_cancel₀ (pow_pos ha 2).ne'
    obtain ⟨Z, Z', z1, z2, -, z4⟩ := assemble_ren hd hnk hobs (f := fun t l i => wts d b.S q t l i * e t l i)
      (f' := fun t l i => wts d' b'.S q' t l i * e' t l i) (fun y _ => y) (fun _ _ _ => 0) (fun _ _ _ => rfl)
      (fun t l i => by
        rw [wts_ren hd hqq hS hpos, he, mul_mul_mul_comm, hone, one_mul])
    obtain ⟨x, x', s1, s2, s3, -, s5⟩ := qp_ren (pow_pos ha 2) (inv_pos.mpr (pow_pos ha 2)) hsS hXp hX (Y := Z)
      (Y' := Z') (fun t l k => by rw [z4, zero_mul, add_zero, ← mul_assoc, hone, one_mul])
    obtain ⟨rs, rs', m1, m2, m3⟩ := colsS_ren hd hqq hW hq he h3
    have g1 : solveS sS X Z b.S = fun t l k => √(unflatten nl nk x t l k) := by unfold solveS; rw [s1]
    have g2 : solveS sS' X' Z' b'.S = fun t l k => √(unflatten nl nk x' t l k) := by unfold solveS; rw [s2]
    rw [z1, z2]
    simp only
    rw [m1, m2]
    simp only [g1, g2]
    refine .inl ⟨_, _, rfl, rfl, hA, fun t l k => ?_, fun t l k => Real.sqrt_pos.mpr (hlow x s3 t l k), m3⟩
    have := s5 t l k
    rw [add_zero] at this
    show √(x' (Spec.slot (g.period t) (g.worker l) (g.firm k))) = g.scale * √(x (Spec.slot t l k))
    rw [this, Real.sqrt_mul (sq_nonneg _), Real.sqrt_sq ha.le]

theorem mstepC_ren [NeZero nl] (hd : g.SameData d d')
    (hqq : ∀ i l, q' (g.row i) (g.worker l) = q i l) (hW : ∀ t i, 0 < d.W t i) (hq : ∀ i l, 0 < q i l) (hnk : 0 < nk)
    (hobs : ∀ t k, ∃ i, d.G t i = k) (hA : g.SameMeans b.A b'.A) (hS : g.SameSds b.S b'.S)
    (hpos : ∀ t l k, 0 < b.S t l k) (hks : List.Forall₂ g.SameCol ks ks')
    (hY : ∀ t i, Y' (g.period t) (g.row i) = g.scale * Y t i + g.shift)
    (updA updS : Bool) (hsA : g.SameCons g.firm g.scale g.shift FA FA' sA sA')
    (hsS : g.SameCons g.firm (g.scale ^ 2) 0 FS FS' sS sS')
    (hlow : ∀ x, FS x → ∀ t (l : Fin nl) (k : Fin nk), 0 < x (Spec.slot t l k)) :
    SameM g (mstepC d q b ks Y updA updS sA sS) (mstepC d' q' b' ks' Y' updA updS sA' sS') := by
  have ha := g.scale_pos
  obtain ⟨X, X', x1, x2, x3, x4⟩ := assemble_ren hd hnk hobs (f := fun t l i => wts d b.S q t l i)
    (f' := fun t l i => wts d' b'.S q' t l i) (fun y _ => (g.scale ^ 2)⁻¹ * y) (fun _ _ _ => 0)
    (fun s t l => by rw [mul_sum]) (fun t l i => wts_ren hd hqq hS hpos t l i)
  have hX : g.SameCoefs g.firm (g.scale ^ 2)⁻¹ 0 X X' := fun t l k => by rw [x4, add_zero]
  have hXp : ∀ t (l : Fin nl) (k : Fin nk), 0 < X (Spec.slot t l k) := by
    intro t l k
    obtain ⟨i, hi⟩ := hobs t k
    rw [x3]
    exact Finset.sum_pos (fun i _ => div_pos (mul_pos (hW t i) (hq i l)) (pow_pos (hpos _ _ _) 2)) ⟨i, by simp [hi]⟩
  unfold mstepC
  by_cases hu : (updA || updS) = true
  · simp only [hu, if_true, bind, Except.bind, x1, x2]
    cases updA with
    | false =>
      simp only [Bool.false_eq_true, if_false]
      exact mstepRest_ren hd hqq hW hq hnk hobs hS hpos hks hY false updS hsS hlow hX hXp hA
    | true =>
      simp only [if_true]
      obtain ⟨Z, Z', z1, z2, -, z4⟩ := assemble_ren hd hnk hobs
        (f := fun t l i => wts d b.S q t l i * (Y t i - sumByA (ks.map (·.c)) l t i))
        (f' := fun t l i => wts d' b'.S q' t l i * (Y' t i - sumByA (ks'.map (·.c)) l t i))
        (fun y w => (g.scale ^ 2)⁻¹ * (g.scale * y + g.shift * w)) (fun t l i => wts d b.S q t l i)
        (fun s t l => by rw [← mul_sum, sum_add_distrib, ← mul_sum, ← mul_sum]) (fun t l i => by
          rw [wts_ren hd hqq hS hpos, hY, sumByA_ren hks]; ring)
      obtain ⟨x, x', s1, s2, -, -, s5⟩ := qp_ren ha (inv_pos.mpr (pow_pos ha 2)) hsA hXp hX (Y := Z) (Y' := Z')
        (fun t l k => by rw [z4, x3 t l k])
      have g1 : solveA sA X Z b.A = unflatten nl nk x := by unfold solveA; rw [s1]
      have g2 : solveA sA' X' Z' b'.A = unflatten nl nk x' := by unfold solveA; rw [s2]
      simp only [z1, z2, g1, g2]
      exact mstepRest_ren hd hqq hW hq hnk hobs hS hpos hks hY true updS hsS hlow hX hXp fun t l k => s5 t l k
  · simp only [hu, Bool.false_eq_true, if_false]
    exact .inl ⟨_, _, rfl, rfl, hA, hS, hpos, hks⟩

end mstep

/-! ## E-step -/

theorem lnvar_formula (x mu v : ℝ) :
    lnvar x mu v = Util.logpi - (1 / 2) * Real.log v - (x - mu) ^ 2 / (2 * v) := rfl

theorem lpMoversC_ren (hd : g.SameData d d') {b b' : Base nl nk} (hA : g.SameMeans b.A b'.A)
    (hS : g.SameSds b.S b'.S) (hpos : ∀ t l k, 0 < b.S t l k) {ks ks' : List (Col ni nl)}
    (hks : List.Forall₂ g.SameCol ks ks') (hne : ks ≠ []) {pk pk' : ℕ → Fin nl → ℝ} (hp : g.SameProps pk pk')
    (i : Fin ni) (l : Fin nl) : lpMovers d' b' (ks'.map (·.c)) pk' (g.row i) (g.worker l) =
      lpMovers d b (ks.map (·.c)) pk i l - Real.log g.scale * (d.W 0 i + d.W 1 i) := by
  have ha := g.scale_pos
  have hne' : ks' ≠ [] := by
    intro h
    rw [h] at hks
    cases hks
    exact hne rfl
  have hw : ∀ t, lpWage d' b' (ks'.map (·.c)) (g.period t) (g.worker l) (g.row i) =
      lpWage d b (ks.map (·.c)) t l i - Real.log g.scale := by
    intro t
    have hv : 0 < b.S t l (d.G t i) ^ 2 + (sumNonS (ks.map (·.c)) t i + sumByS (ks.map (·.c)) l t i) :=
      add_pos_of_pos_of_nonneg (pow_pos (hpos _ _ _) 2) (var_nonneg ks l t i)
    unfold lpWage
    rw [if_neg (by simpa using hne'), if_neg (by simpa using hne)]
    rw [hd.wage, hd.type, hA, hS, sumNonA_ren hks, sumByA_ren hks, add_assoc (_ ^ 2), add_assoc (_ ^ 2), var_ren hks,
      mul_pow, ← mul_add]
    set v := b.S t l (d.G t i) ^ 2 + (sumNonS (ks.map (·.c)) t i + sumByS (ks.map (·.c)) l t i)
    rw [lnvar_formula, lnvar_formula, Real.log_mul (pow_pos ha 2).ne' hv.ne', Real.log_pow]
    have : (g.scale * d.Y t i + g.shift - (g.scale * b.A t l (d.G t i) + g.shift +
        g.scale * sumNonA (ks.map (·.c)) t i + g.scale * sumByA (ks.map (·.c)) l t i)) ^ 2 / (2 * (g.scale ^ 2 * v)) =
        (d.Y t i - (b.A t l (d.G t i) + sumNonA (ks.map (·.c)) t i + sumByA (ks.map (·.c)) l t i)) ^ 2 / (2 * v) := by
      field_simp
      ring
    rw [this]
    push_cast
    ring
  have e := sum_period g.period fun t => d'.W t (g.row i) * lpWage d' b' (ks'.map (·.c)) t (g.worker l) (g.row i)
  simp only [hd.weight, hw] at e
  unfold lpMovers
  rw [pk_ren hd hp, add_assoc, ← e]
  ring

/-- Log densities that differ by a constant of the row give the same posteriors. -/
theorem posterior_shift [NeZero nl] {lp lp' : Fin ni → Fin nl → ℝ} {K : Fin ni → ℝ}
    (h : ∀ i l, lp' (g.row i) (g.worker l) = lp i l - K i) :
    (∀ i, Util.logsumexp (lp' (g.row i)) = Util.logsumexp (lp i) - K i) ∧
      ∀ i l, posterior lp' (g.row i) (g.worker l) = posterior lp i l := by
  have h1 : ∀ i, Util.logsumexp (lp' (g.row i)) = Util.logsumexp (lp i) - K i := by
    intro i
    rw [lse_eq, lse_eq, ← Equiv.sum_comp g.worker]
    simp only [h, Real.exp_sub]
    rw [← sum_div, Real.log_div (sum_exp_pos _).ne' (Real.exp_pos _).ne', Real.log_exp]
  refine ⟨h1, fun i l => ?_⟩
  unfold posterior
  rw [h, h1]
  congr 1
  ring

end Spec.Renaming

/-! ## The loop -/

open Spec.Renaming in
theorem loop_ren [NeZero nl] (g : Spec.Renaming ni nl nk) (d d' : Data ni nk) (o : MoverOpts)
    (sA sA' : ℕ → Solver) (sS sS' : Solver) (minType minType' : (Fin 2 → Fin nl → Fin nk → ℝ) → ℕ) (φ : ℕ → ℕ)
    (FA FA' : ℕ → (ℕ → ℝ) → Prop) (FS FS' : (ℕ → ℝ) → Prop)
    (hd : g.SameData d d') (hnk : 0 < nk) (hdp : 1 ≤ o.dprior)
    (hsA : ∀ m, g.SameCons g.firm g.scale g.shift (FA m) (FA' m) (sA m) (sA' (φ m)))
    (hsS : g.SameCons g.firm (g.scale ^ 2) 0 FS FS' sS sS')
    (hlow : ∀ x, FS x → ∀ t (l : Fin nl) (k : Fin nk), 0 < x (Spec.slot t l k))
    (hφ : Function.Injective φ) (hmin : ∀ A A', g.SameMeans A A' → minType' A' = φ (minType A))
    (hobs : ∀ t k, ∃ i, d.G t i = k) (hW : ∀ t i, 0 < d.W t i) (fuel : ℕ) :
    ∀ (first : Bool) (prev : Option ℝ) (pm : ℕ) (s s' : Spec.St ni nl nk), s.cols ≠ [] →
      (∀ t l k, 0 < s.base.S t l k) → g.SameStateC d s s' →
      g.SameOutcomeC d (Spec.loop d o sA sS minType fuel first prev pm s)
        (Spec.loop d' o sA' sS' minType' fuel first (prev.map (· - g.likShift d)) (φ pm) s') := by
  induction fuel with
  | zero => intro first prev pm s s' _ _ hs; exact hs
  | succ fuel ih =>
    intro first prev pm s s' hne hpos hs
    unfold Spec.loop
    simp only
    obtain ⟨hlse, hq⟩ := posterior_shift (g := g) fun i l =>
      lpMoversC_ren hd hs.means hs.sds hpos hs.cols hne hs.props i l
    have hlik : likMovers d' s'.base (s'.cols.map (·.c)) s'.pk1 first o.updPk o.dprior =
        likMovers d s.base (s.cols.map (·.c)) s.pk1 first o.updPk o.dprior - g.likShift d := by
      unfold likMovers
      have : meanLse (lpMovers d' s'.base (s'.cols.map (·.c)) s'.pk1) =
          meanLse (lpMovers d s.base (s.cols.map (·.c)) s.pk1) - g.likShift d := by
        unfold meanLse likShift
        rw [← Equiv.sum_comp g.row]
        simp only [hlse]
        rw [sum_sub_distrib, ← mul_sum, sub_div]
      rw [this, logProps_ren hs.props]
      ring
    rw [hlik, hmin _ _ hs.means]
    set lik := likMovers d s.base (s.cols.map (·.c)) s.pk1 first o.updPk o.dprior
    have hstop : stop (lik - g.likShift d) (prev.map (· - g.likShift d)) o.threshold (φ (minType s.base.A) == φ pm) =
        stop lik prev o.threshold (minType s.base.A == pm) := by
      have e : (φ (minType s.base.A) == φ pm) = (minType s.base.A == pm) := by
        rw [Bool.eq_iff_iff, beq_iff_eq, beq_iff_eq]
        exact hφ.eq_iff
      rw [e]
      unfold stop
      cases prev with
      | none => rfl
      | some p => simp
    rw [hstop]
    split
    · exact ⟨hs.means, hs.sds, hs.cols, hs.props, by simp [hs.liks]⟩
    · set q := posterior (lpMovers d s.base (s.cols.map (·.c)) s.pk1)
      set q' := posterior (lpMovers d' s'.base (s'.cols.map (·.c)) s'.pk1)
      have hq0 : ∀ i l, 0 < q i l := posterior_pos _
      have hnext : (∃ pk pk', nextPk1 o.updPk d q o.dprior s.pk1 = .ok pk ∧
          nextPk1 o.updPk d' q' o.dprior s'.pk1 = .ok pk' ∧ g.SameProps pk pk') ∨
          (nextPk1 o.updPk d q o.dprior s.pk1 = .error "ValueError" ∧
            nextPk1 o.updPk d' q' o.dprior s'.pk1 = .error "ValueError") := by
        unfold nextPk1
        cases o.updPk with
        | false => exact .inl ⟨_, _, rfl, rfl, hs.props⟩
        | true => exact updatePk1_ren hd o.dprior hnk hW hdp (fun i l => (hq0 i l).le) (posterior_sum _) hq
      rcases hnext with ⟨pk, pk', e1, e1', hpk⟩ | ⟨e1, e1'⟩
      · rw [e1, e1']
        simp only [bind, Except.bind]
        rcases mstepC_ren hd hq hW hq0 hnk hobs hs.means hs.sds hpos hs.cols
            (Y := fun t i => d.Y t i - sumNonA (s.cols.map (·.c)) t i)
            (Y' := fun t i => d'.Y t i - sumNonA (s'.cols.map (·.c)) t i)
            (fun t i => by rw [hd.wage, sumNonA_ren hs.cols]; ring) o.updA o.updS (hsA (minType s.base.A)) hsS hlow
          with ⟨c, c', e2, e2', hA, hS, hp, hc⟩ | ⟨e, e2, e2'⟩
        · rw [e2, e2']
          simp only
          refine ih false (some lik) (minType s.base.A) ⟨c.1, c.2.1, pk, s.liks ++ [lik]⟩
            ⟨c'.1, c'.2.1, pk', s'.liks ++ [lik - g.likShift d]⟩ ?_ hp ⟨hA, hS, hc, hpk, by simp [hs.liks]⟩
          intro h0
          have h1 := (mstepC_keeps d _ s.base s.cols _ o.updA o.updS _ _ e2 fun t i => rfl).1
          simp only at h0
          rw [h0] at h1
          exact hne (by simpa using h1.symm)
        · rw [e2, e2']
          exact rfl
      · rw [e1, e1']
        exact rfl

/-- C114 for movers with control variables: the whole run of the loop with its caches, on the renamed data from the
renamed starting values, is the renamed run, for any number of iterations, any threshold, any combination of update
flags and any convex constraints that correspond under the renaming.  Besides movers, worker types, firm types, periods
and the unit of wages, the categories of every control column may be renamed: mean wages are `a * A + b`, effects of
controls and all standard deviations `a` times the earlier ones, every recorded likelihood is lower by the same
constant, and if one run raises so does the other. -/
theorem C114_movers_controls [NeZero nl] (g : Spec.Renaming ni nl nk) (d d' : Data ni nk) (o : MoverOpts)
    (sA sA' : ℕ → Solver) (sS sS' : Solver) (minType minType' : (Fin 2 → Fin nl → Fin nk → ℝ) → ℕ) (φ : ℕ → ℕ)
    (FA FA' : ℕ → (ℕ → ℝ) → Prop) (FS FS' : (ℕ → ℝ) → Prop)
    (hd : g.SameData d d') (hnk : 0 < nk) (hdp : 1 ≤ o.dprior)
    (hsA : ∀ m, g.SameCons g.firm g.scale g.shift (FA m) (FA' m) (sA m) (sA' (φ m)))
    (hsS : g.SameCons g.firm (g.scale ^ 2) 0 FS FS' sS sS')
    (hlow : ∀ x, FS x → ∀ t (l : Fin nl) (k : Fin nk), 0 < x (Spec.slot t l k))
    (hφ : Function.Injective φ) (hmin : ∀ A A', g.SameMeans A A' → minType' A' = φ (minType A))
    (hobs : ∀ t k, ∃ i, d.G t i = k) (hW : ∀ t i, 0 < d.W t i) (fuel pm : ℕ) (s s' : StateC ni nl nk)
    (hne : s.cols ≠ []) (hY : s.Yadj = none) (hY' : s'.Yadj = none) (hpos : ∀ t l k, 0 < s.base.S t l k)
    (hs : g.SameStateC d s.proj s'.proj) :
    g.SameOutcomeC d ((loopC d o sA sS minType fuel true none pm s).map StateC.proj)
      ((loopC d' o sA' sS' minType' fuel true none (φ pm) s').map StateC.proj) := by
  have hne' : s'.cols ≠ [] := by
    intro h
    have hc := hs.cols
    simp only [StateC.proj, h] at hc
    exact hne (List.forall₂_nil_right_iff.mp hc)
  rw [C87_no_stale_values d o sA sS minType fuel true none pm s ⟨hne, fun h => by simp at h, fun Y h => by simp [hY] at h⟩,
    C87_no_stale_values d' o sA' sS' minType' fuel true none (φ pm) s'
      ⟨hne', fun h => by simp at h, fun Y h => by simp [hY'] at h⟩]
  exact loop_ren g d d' o sA sA' sS sS' minType minType' φ FA FA' FS FS' hd hnk hdp hsA hsS hlow hφ hmin hobs hW fuel true
    none pm s.proj s'.proj hne hpos hs

/-- C114 for movers with controls and the lowest firm type as the source computes it.  Missing: other numberings of
firm types, which matter when two types are tied for the lowest. -/
theorem C114_movers_controls_lowest_partial [NeZero nl] (g : Spec.Renaming ni nl nk) (hfirm : g.firm = 1)
    (d d' : Data ni nk) (o : MoverOpts) (sA sA' : ℕ → Solver) (sS sS' : Solver) (a : Argsort) (ha : Spec.ByComparison a)
    (pp : Primary) (k0 : Fin nk) (FA FA' : ℕ → (ℕ → ℝ) → Prop) (FS FS' : (ℕ → ℝ) → Prop)
    (hd : g.SameData d d') (hdp : 1 ≤ o.dprior)
    (hsA : ∀ m, g.SameCons g.firm g.scale g.shift (FA m) (FA' m) (sA m) (sA' m))
    (hsS : g.SameCons g.firm (g.scale ^ 2) 0 FS FS' sS sS')
    (hlow : ∀ x, FS x → ∀ t (l : Fin nl) (k : Fin nk), 0 < x (Spec.slot t l k))
    (hobs : ∀ t k, ∃ i, d.G t i = k) (hW : ∀ t i, 0 < d.W t i) (fuel pm : ℕ) (s s' : StateC ni nl nk)
    (hne : s.cols ≠ []) (hY : s.Yadj = none) (hY' : s'.Yadj = none) (hpos : ∀ t l k, 0 < s.base.S t l k)
    (hs : g.SameStateC d s.proj s'.proj) :
    g.SameOutcomeC d ((loopC d o sA sS (fun A => (a.order (firmMean (primaryMean pp A)) k0).val) fuel true none pm
        s).map StateC.proj)
      ((loopC d' o sA' sS' (fun A => (a.order (firmMean (primaryMean (g.newPrimary pp) A)) k0).val) fuel true none pm
        s').map StateC.proj) :=
  C114_movers_controls g d d' o sA sA' sS sS' _ _ id FA FA' FS FS' hd k0.pos hdp hsA hsS hlow Function.injective_id
    (fun A A' h => by simp only [C114_lowest_firm_type_ties g hfirm a ha pp A A' h, id]) hobs hW fuel pm s s' hne hY hY'
    hpos hs

/-! ## Stayers -/

/-- C114 for stayers with control variables (whose effects `fit_stayers` takes as given): the whole run on renamed data
with renamed estimates is the renamed run, provided the highest-numbered firm type has a stayer in both numberings.
Stayers are seen in period 1 only, so the direction of time is not renamed. -/
theorem C114_stayers_controls [NeZero nl] (g : Spec.Renaming ni nl nk) (hper : g.period = 1) (d d' : Data ni nk)
    (b b' : Base nl nk) (cs cs' : List (Ctrl ni nl)) (dp thr : ℝ) (hd : g.SameStayers d d') (hb : g.SameBase0 b b')
    (hcs : List.Forall₂ (fun c c' => ∃ (n : ℕ) (κ : Equiv.Perm (Fin n)), g.SameCtrl κ c c') cs cs') (hnk : 0 < nk)
    (hpos : ∀ l k, 0 < b.S 0 l k) (htop : ∃ i, (d.G 0 i).val = nk - 1) (htop' : ∃ i, (d'.G 0 i).val = nk - 1)
    (nIters : ℕ) (pk0 pk0' : Fin nk → Fin nl → ℝ) (hp : ∀ k l, pk0' (g.firm k) (g.worker l) = pk0 k l) :
    g.SameStayersOutcome d (fitStayers d b cs dp thr nIters pk0) (fitStayers d' b' cs' dp thr nIters pk0') := by
  have ha := g.scale_pos
  have hper0 : ∀ t, g.period t = t := fun t => by rw [hper]; rfl
  have hsum : ∀ (r : ℝ) (f f' : Ctrl ni nl → ℝ),
      (∀ (n : ℕ) (κ : Equiv.Perm (Fin n)) (c c' : Ctrl ni nl), g.SameCtrl κ c c' → f' c' = r * f c) →
      (cs'.map f').sum = r * (cs.map f).sum := by
    intro r f f' hf
    induction hcs with
    | nil => simp
    | cons hk _ ih =>
      obtain ⟨n, κ, hk⟩ := hk
      simp only [List.map_cons, List.sum_cons, ih, hf _ κ _ _ hk]
      ring
  refine stayers_ren g d d' b b' cs cs' dp thr hd (fun i l => ?_) hnk htop htop' nIters pk0 pk0' hp
  by_cases hne : cs = []
  · subst hne
    cases hcs
    exact Spec.Renaming.lpWage0_ren hd hb hpos i l
  have hne' : cs' ≠ [] := fun h => by
    rw [h] at hcs
    exact hne (List.forall₂_nil_right_iff.mp hcs)
  have e1 : sumNonA cs' 0 (g.row i) = g.scale * sumNonA cs 0 i := by
    rw [sumNonA_eq, sumNonA_eq]
    exact hsum _ _ _ fun n κ c c' hc => by simpa only [hper0] using Spec.Renaming.ctrl_nonA hc 0 i
  have e2 : sumByA cs' (g.worker l) 0 (g.row i) = g.scale * sumByA cs l 0 i := by
    rw [sumByA_eq, sumByA_eq]
    exact hsum _ _ _ fun n κ c c' hc => by simpa only [hper0] using Spec.Renaming.ctrl_byA hc l 0 i
  have e3 : sumNonS cs' 0 (g.row i) + sumByS cs' (g.worker l) 0 (g.row i) =
      g.scale ^ 2 * (sumNonS cs 0 i + sumByS cs l 0 i) := by
    rw [var_sum_eq, var_sum_eq]
    exact hsum _ _ _ fun n κ c c' hc => by simpa only [hper0] using Spec.Renaming.ctrl_var hc l 0 i
  have hnn : 0 ≤ sumNonS cs 0 i + sumByS cs l 0 i := by
    rw [var_sum_eq]
    refine List.sum_nonneg fun x hx => ?_
    obtain ⟨c, -, rfl⟩ := List.mem_map.mp hx
    cases c <;> exact sq_nonneg _
  have hv := add_pos_of_pos_of_nonneg (pow_pos (hpos l (d.G 0 i)) 2) hnn
  unfold lpWage
  rw [if_neg (by simpa using hne'), if_neg (by simpa using hne), hd.wage, hd.type, hb.means, hb.sds, e1, e2,
    add_assoc (_ ^ 2), add_assoc (_ ^ 2), e3, mul_pow, ← mul_add]
  set v := b.S 0 l (d.G 0 i) ^ 2 + (sumNonS cs 0 i + sumByS cs l 0 i)
  rw [Spec.Renaming.lnvar_formula, Spec.Renaming.lnvar_formula, Real.log_mul (pow_pos ha 2).ne' hv.ne', Real.log_pow]
  have : (g.scale * d.Y 0 i + g.shift - (g.scale * b.A 0 l (d.G 0 i) + g.shift +
      g.scale * sumNonA cs 0 i + g.scale * sumByA cs l 0 i)) ^ 2 / (2 * (g.scale ^ 2 * v)) =
      (d.Y 0 i - (b.A 0 l (d.G 0 i) + sumNonA cs 0 i + sumByA cs l 0 i)) ^ 2 / (2 * v) := by
    field_simp
    ring
  rw [this]
  push_cast
  ring

/-! ## What does matter: the unit of a continuous column, and the names of the columns -/

/-- C114 does not extend to the unit of a continuous control column.  Measure the column in a smaller unit (values `r`
times as large, `r > 1`, slopes `1 / r` times, so that the same wages are predicted): its regression of squared residuals
then gives a smaller standard deviation, unless the lower bound `lb` binds, and that standard deviation enters the
likelihood as it is, without the column's values. -/
theorem C114_control_units (d : Data ni nk) (q : Fin ni → Fin nl → ℝ) (eps : Fin 2 → Fin nl → Fin ni → ℝ)
    (k k' : Col ni nl) (lb r : ℝ) (hr : 1 < r) (hlb : 0 ≤ lb) (C : Fin 2 → Fin ni → ℝ) (A S : Fin 2 → Fin nl → ℝ)
    (hc : k.c = .ctsW C A S) (hc' : k'.c = .ctsW (fun t i => r * C t i) (fun t l => A t l / r) S) (hn : k.n = 1)
    (hn' : k'.n = 1) (hS : ∀ t l, 0 < S t l) (hW : ∀ t i, 0 < d.W t i) (hq : ∀ i l, 0 < q i l)
    (hC : ∀ t, ∃ i, C t i ≠ 0)
    (hs : RightSolver (2 * (nl * k.n)) (fun x => ∀ p < 2 * (nl * k.n), lb ≤ x p) k.sS)
    (hs' : RightSolver (2 * (nl * k'.n)) (fun x => ∀ p < 2 * (nl * k'.n), lb ≤ x p) k'.sS) :
    ∃ S1 S1', colS d q eps k = .ok { k with c := .ctsW C A S1 } ∧
      colS d q eps k' = .ok { k' with c := .ctsW (fun t i => r * C t i) (fun t l => A t l / r) S1' } ∧
      ∀ t l, lb < |∑ i, C t i * (d.W t i * q i l * eps t l i)| / ∑ i, C t i ^ 2 * (d.W t i * q i l) → S1' t l < S1 t l := by
  have hr0 : 0 < r := by linarith
  have mass : ∀ (k : Col ni nl) (D B : _), k.c = .ctsW D B S → (∀ t, ∃ i, D t i ≠ 0) → k.n = 1 →
      ∀ (t : Fin 2) (l : Fin nl) (c : ℕ), c < k.n → 0 < Spec.mass d q k t l c := by
    intro k D B hk hD hn t l c hcn
    have hc0 : c = 0 := by omega
    subst hc0
    obtain ⟨i, hi⟩ := hD t
    unfold Spec.mass
    rw [hk]
    refine Finset.sum_pos' (fun i _ => mul_nonneg (div_pos (mul_pos (hW t i) (hq i l)) (pow_pos (hS t l) 2)).le
      (sq_nonneg _)) ⟨i, by simp [Ctrl.pos], mul_pos (div_pos (mul_pos (hW t i) (hq i l)) (pow_pos (hS t l) 2)) ?_⟩
    exact lt_of_le_of_ne (sq_nonneg _) (pow_ne_zero 2 hi).symm
  have hok : ColOk k := by unfold ColOk; rw [hc]; exact hn
  have hok' : ColOk k' := by unfold ColOk; rw [hc']; exact hn'
  obtain ⟨S1, h1, h2⟩ := C88_slope_variance d q eps k lb hlb hok C A S hc (mass k C A hc hC hn) hs
  obtain ⟨S1', h1', h2'⟩ := C88_slope_variance d q eps k' lb hlb hok' _ _ S hc' (mass k' _ _ hc' (fun t => by
    obtain ⟨i, hi⟩ := hC t
    exact ⟨i, mul_ne_zero hr0.ne' hi⟩) hn') hs'
  refine ⟨S1, S1', h1, h1', fun t l hlt => ?_⟩
  set v := |∑ i, C t i * (d.W t i * q i l * eps t l i)| / ∑ i, C t i ^ 2 * (d.W t i * q i l)
  have hv' : |∑ i, r * C t i * (d.W t i * q i l * eps t l i)| / ∑ i, (r * C t i) ^ 2 * (d.W t i * q i l) = v / r := by
    simp only [mul_assoc r, mul_pow, mul_assoc (r ^ 2), ← mul_sum]
    rw [abs_mul, abs_of_pos hr0]
    simp only [v]
    rw [sq, mul_assoc, mul_div_mul_left _ _ hr0.ne', div_div, mul_comm r]
  have hv0 : 0 < v := lt_of_le_of_lt hlb hlt
  have hvr : v / r < v := div_lt_self hv0 hr
  have e := (h2 t l).2
  have e' := (h2' t l).2
  rw [hv'] at e'
  refine lt_of_pow_lt_pow_left₀ 2 (h2 t l).1 ?_
  rw [e, e', max_eq_right hlt.le]
  exact max_lt hlt hvr

/-- blm.py:575-587: categorical columns sorted by name, then continuous columns sorted by name. -/
def orderCols {ν : Type} [LinearOrder ν] (ks : List (ν × Col ni nl)) : List (Col ni nl) :=
  let isCat := fun k : ν × Col ni nl => match k.2.c with
    | .catW .. | .catN .. => true
    | .ctsW .. | .ctsN .. => false
  (((ks.filter isCat).insertionSort fun a b => a.1 ≤ b.1) ++
    ((ks.filter fun k => !isCat k).insertionSort fun a b => a.1 ≤ b.1)).map (·.2)

theorem sorted_perm {ν β : Type} [LinearOrder ν] {ks ks' : List (ν × β)} (h : ks.Perm ks')
    (hd : (ks.map (·.1)).Nodup) :
    ks.insertionSort (fun a b => a.1 ≤ b.1) = ks'.insertionSort (fun a b => a.1 ≤ b.1) := by
  have hT : IsTrans (ν × β) (fun a b => a.1 ≤ b.1) := ⟨fun _ _ _ => le_trans⟩
  have hO : Std.Total (fun a b : ν × β => a.1 ≤ b.1) := ⟨fun a b => le_total a.1 b.1⟩
  have s1 := List.pairwise_insertionSort (fun a b : ν × β => a.1 ≤ b.1) ks
  have s2 := List.pairwise_insertionSort (fun a b : ν × β => a.1 ≤ b.1) ks'
  have hp : (ks.insertionSort fun a b => a.1 ≤ b.1).Perm (ks'.insertionSort fun a b => a.1 ≤ b.1) :=
    (List.perm_insertionSort _ ks).trans (h.trans (List.perm_insertionSort _ ks').symm)
  refine hp.eq_of_pairwise (fun a b ha hb hab hba => ?_) s1 s2
  have ha' : a ∈ ks := (List.perm_insertionSort _ ks).mem_iff.mp ha
  have hb' : b ∈ ks := h.mem_iff.mpr ((List.perm_insertionSort _ ks').mem_iff.mp hb)
  exact List.inj_on_of_nodup_map hd ha' hb' (le_antisymm hab hba)

/-- The order in which control columns are listed in the parameters does not matter: only their names do. -/
theorem C114_control_order {ν : Type} [LinearOrder ν] {ks ks' : List (ν × Col ni nl)} (h : ks.Perm ks')
    (hd : (ks.map (·.1)).Nodup) : orderCols ks = orderCols ks' := by
  unfold orderCols
  simp only
  rw [sorted_perm (h.filter _) (hd.sublist (List.filter_sublist.map _)),
    sorted_perm (h.filter _) (hd.sublist (List.filter_sublist.map _))]

/-- Non-vacuity of `C114_control_order`: two columns with different names listed in either order. -/
example (k k' : Col ni nl) : ([("b", k), ("a", k')].map (·.1)).Nodup ∧ [("b", k), ("a", k')].Perm [("a", k'), ("b", k)] :=
  ⟨by simp, .swap _ _ _⟩

/-- Two wages, in both periods. -/
def twoWages : Data 2 1 := ⟨fun _ i => if i = 0 then 2 else 4, fun _ _ => 0, fun _ _ => 1⟩

/-- Least squares without constraints. -/
noncomputable def freeSolve : Solver := fun P q => .ok (some fun p => - q p / P p)

/-- A constant column. -/
noncomputable def constCol : Col 2 1 := ⟨.ctsW (fun _ _ => 1) (fun _ _ => 0) (fun _ _ => 1), 1, freeSolve, freeSolve⟩

/-- A column that is 1 for the first row. -/
noncomputable def firstCol : Col 2 1 :=
  ⟨.ctsW (fun _ i => if i = 0 then 1 else 0) (fun _ _ => 0) (fun _ _ => 1), 1, freeSolve, freeSolve⟩

/-- The slope of a continuous interacted column in period 1 for the first worker type. -/
def Spec.slope {n : ℕ} [NeZero nl] (k : Col n nl) : ℝ :=
  match k.c with
  | .ctsW _ A _ => A 0 0
  | _ => 0

/-- The column with slope `a`. -/
def Col.with (k : Col ni nl) (a : ℝ) : Col ni nl :=
  { k with c := match k.c with
    | .ctsW C _ S => .ctsW C (fun _ _ => a) S
    | c => c }

/-- One column of `twoWages` in the first pass: its least-squares slope `a`. -/
theorem onePass (done todo : List (Col 2 1)) (C : Fin 2 → Fin 2 → ℝ) (a : ℝ)
    (ha : ∀ t, (∑ i, C t i * (twoWages.Y t i - sumByA ((done ++ (⟨.ctsW C (fun _ _ => 0) (fun _ _ => 1), 1, freeSolve,
      freeSolve⟩ : Col 2 1) :: todo).map (·.c)) 0 t i)) = a * ∑ i, C t i * C t i)
    (hC : ∀ t, ∑ i, C t i * C t i ≠ 0) :
    colA twoWages (fun _ _ => 1) (fun _ _ _ => 0) true done ⟨.ctsW C (fun _ _ => 0) (fun _ _ => 1), 1, freeSolve, freeSolve⟩
      todo twoWages.Y = .ok (⟨.ctsW C (fun _ _ => a) (fun _ _ => 1), 1, freeSolve, freeSolve⟩, twoWages.Y) := by
  have hW : ∀ t i, twoWages.W t i = 1 := fun _ _ => rfl
  have e : ∀ t, (∑ i, C t i * (twoWages.Y t i - sumByA ((done ++ (⟨.ctsW C (fun _ _ => 0) (fun _ _ => 1), 1, freeSolve,
      freeSolve⟩ : Col 2 1) :: todo).map (·.c)) 0 t i)) / ∑ i, C t i * C t i = a := fun t => by
    rw [ha, mul_div_assoc, div_self (hC t), mul_one]
  unfold colA colXwX assembleCol colWts
  simp only [bind, Except.bind, pure, Except.pure, Ctrl.wi, if_true, Col.solveA, freeSolve, Ctrl.setA, Ctrl.var, Ctrl.load,
    Ctrl.byA, hW]
  congr 3
  congr 1
  funext t l
  have hl : l = 0 := Subsingleton.elim _ _
  subst hl
  rcases fin2_cases t with rfl | rfl
  · simpa using e 0
  · simpa using e 1

/-- C114 does not extend to the names of the control columns.  Columns are sorted by name and their effects updated one
after the other, so exchanging the names of two columns changes the effects the M-step returns. -/
theorem C114_control_names {ν : Type} [LinearOrder ν] (x y : ν) (hxy : x < y) : ∃ (d : Data 2 1) (q : Fin 2 → Fin 1 → ℝ)
    (A : Fin 2 → Fin 1 → Fin 1 → ℝ) (k1 k2 j1 j2 m1 m2 : Col 2 1) (Y Y' : Fin 2 → Fin 2 → ℝ),
    (∀ i l, q i l = 1) ∧ colsA d q A true [] (orderCols [(x, k1), (y, k2)]) d.Y = .ok ([j1, j2], Y) ∧
    colsA d q A true [] (orderCols [(y, k1), (x, k2)]) d.Y = .ok ([m2, m1], Y') ∧
    Spec.slope j1 = 3 ∧ Spec.slope m1 = 2 ∧ Spec.slope j2 = -1 ∧ Spec.slope m2 = 2 := by
  have o1 : orderCols [(x, constCol), (y, firstCol)] = [constCol, firstCol] := by
    simp [orderCols, constCol, firstCol, hxy.le]
  have o2 : orderCols [(y, constCol), (x, firstCol)] = [firstCol, constCol] := by
    simp [orderCols, constCol, firstCol, not_le.mpr hxy]
  have s1 := onePass [] [firstCol] (fun _ _ => 1) 3 (by norm_num [sumByA, constCol, firstCol, twoWages])
    (by norm_num)
  have s2 := onePass [constCol.with 3] [] (fun _ i => if i = 0 then 1 else 0) (-1)
    (by norm_num [sumByA, constCol, Col.with, twoWages]) (by norm_num)
  have s3 := onePass [] [constCol] (fun _ i => if i = 0 then 1 else 0) 2
    (by norm_num [sumByA, constCol, firstCol, twoWages]) (by norm_num)
  have s4 := onePass [firstCol.with 2] [] (fun _ _ => 1) 2
    (by norm_num [sumByA, firstCol, Col.with, twoWages]) (by norm_num)
  refine ⟨twoWages, fun _ _ => 1, fun _ _ _ => 0, constCol, firstCol, constCol.with 3, firstCol.with (-1), constCol.with 2,
    firstCol.with 2, twoWages.Y, twoWages.Y, fun _ _ => rfl, ?_, ?_, rfl, rfl, rfl, rfl⟩
  · rw [o1, colsA]
    have : colA twoWages (fun _ _ => 1) (fun _ _ _ => 0) true [] constCol [firstCol] twoWages.Y =
      .ok (constCol.with 3, twoWages.Y) := s1
    rw [this]
    simp only [bind, Except.bind, List.nil_append]
    rw [colsA]
    have : colA twoWages (fun _ _ => 1) (fun _ _ _ => 0) true [constCol.with 3] firstCol [] twoWages.Y =
      .ok (firstCol.with (-1), twoWages.Y) := s2
    rw [this]
    rfl
  · rw [o2, colsA]
    have : colA twoWages (fun _ _ => 1) (fun _ _ _ => 0) true [] firstCol [constCol] twoWages.Y =
      .ok (firstCol.with 2, twoWages.Y) := s3
    rw [this]
    simp only [bind, Except.bind, List.nil_append]
    rw [colsA]
    have : colA twoWages (fun _ _ => 1) (fun _ _ _ => 0) true [firstCol.with 2] constCol [] twoWages.Y =
      .ok (constCol.with 2, twoWages.Y) := s4
    rw [this]
    rfl

/-! ## Non-vacuity -/

/-- A right solver for variances common to all worker types and at least `lb` exists. -/
theorem rightSolver_same_box (nl n : ℕ) [NeZero nl] (lb : ℝ) : ∃ solve : Solver,
    RightSolver (2 * (nl * n)) (fun x => SameAcross nl n x ∧ ∀ p < 2 * (nl * n), lb ≤ x p) solve := by
  classical
  have hobj : ∀ (P q x : ℕ → ℝ), SameAcross nl n x → qpObj (2 * (nl * n)) P q x = ∑ t : Fin 2, ∑ c : Fin n,
        ((∑ l : Fin nl, P (t.val * (nl * n) + l.val * n + c.val)) * x (t.val * (nl * n) + c.val) ^ 2 / 2 +
          (∑ l : Fin nl, q (t.val * (nl * n) + l.val * n + c.val)) * x (t.val * (nl * n) + c.val)) := by
    intro P q x hx
    unfold qpObj
    rw [sum_positions]
    refine sum_congr rfl fun t _ => ?_
    rw [sum_comm]
    refine sum_congr rfl fun c _ => ?_
    simp only [fun l => hx t l c.val c.isLt]
    rw [sum_add_distrib, ← sum_div, ← sum_mul, ← sum_mul]
  refine ⟨fun P q => if ∀ p < 2 * (nl * n), 0 < P p then .ok (some fun p =>
      let s := if p < nl * n then 0 else nl * n
      let c := (p - s) % n
      max lb ((-∑ l : Fin nl, q (s + l.val * n + c)) / ∑ l : Fin nl, P (s + l.val * n + c))) else .error "ValueError",
    ?_, ?_⟩
  · intro P q x h
    split at h
    · rename_i hP
      simp only [Except.ok.injEq, Option.some.injEq] at h
      have hval : ∀ (t : Fin 2) (l : Fin nl) (c : ℕ), c < n → x (t.val * (nl * n) + l.val * n + c) =
          max lb ((-∑ l : Fin nl, q (t.val * (nl * n) + l.val * n + c)) /
            ∑ l : Fin nl, P (t.val * (nl * n) + l.val * n + c)) := by
        intro t l c hc
        have hb := slot_lt l hc
        rw [← h]
        rcases fin2_cases t with rfl | rfl
        · simp only [Fin.val_zero, zero_mul, zero_add, hb, if_true, Nat.sub_zero, slot_mod l hc]
        · simp only [Fin.val_one, one_mul]
          rw [if_neg (by omega)]
          have he : nl * n + l.val * n + c - nl * n = l.val * n + c := by omega
          simp only [he, slot_mod l hc]
      have hval0 : ∀ (t : Fin 2) (c : ℕ), c < n → x (t.val * (nl * n) + c) =
          max lb ((-∑ l : Fin nl, q (t.val * (nl * n) + l.val * n + c)) /
            ∑ l : Fin nl, P (t.val * (nl * n) + l.val * n + c)) := by
        intro t c hc
        have h0 := hval t 0 c hc
        simp only [Fin.val_zero, zero_mul, add_zero] at h0
        exact h0
      have hsame : SameAcross nl n x := fun t l c hc => by rw [hval t l c hc, hval0 t c hc]
      refine ⟨⟨hsame, fun p hp => ?_⟩, fun y hy => ?_⟩
      · obtain ⟨t, l, c, rfl⟩ := exists_pos hp
        rw [hval t l c c.isLt]
        exact le_max_left _ _
      rw [hobj P q x hsame, hobj P q y hy.1]
      refine sum_le_sum fun t _ => sum_le_sum fun c _ => ?_
      rw [hval0 t c c.isLt]
      have hpos : 0 < ∑ l : Fin nl, P (t.val * (nl * n) + l.val * n + c.val) :=
        sum_pos' (fun l _ => (hP _ (pos_lt t l c)).le) ⟨0, mem_univ _, hP _ (pos_lt t 0 c)⟩
      have hyl : lb ≤ y (t.val * (nl * n) + c.val) := by
        have h0 := hy.2 _ (pos_lt t (0 : Fin nl) c)
        simpa using h0
      set PP := ∑ l : Fin nl, P (t.val * (nl * n) + l.val * n + c.val)
      set qq := ∑ l : Fin nl, q (t.val * (nl * n) + l.val * n + c.val)
      set yy := y (t.val * (nl * n) + c.val)
      have h0 : PP * (-qq / PP) = -qq := by field_simp
      rcases le_total lb (-qq / PP) with hm | hm
      · rw [max_eq_right hm]
        nlinarith [mul_nonneg hpos.le (sq_nonneg (yy - -qq / PP))]
      · rw [max_eq_left hm]
        have h1 : 0 ≤ (yy - lb) * (lb - -qq / PP) := mul_nonneg (by linarith) (by linarith)
        nlinarith [mul_nonneg hpos.le h1, mul_nonneg hpos.le (sq_nonneg (yy - lb))]
    · exact absurd h (by simp)
  · intro P q hP _
    exact ⟨_, by simp only [if_pos hP]; rfl⟩

namespace Spec.Renaming

/-- New number of a category. -/
def code {n : ℕ} (κ : Equiv.Perm (Fin n)) (c : ℕ) : ℕ := if h : c < n then (κ ⟨c, h⟩).val else c

theorem code_val {n : ℕ} (κ : Equiv.Perm (Fin n)) (j : Fin n) : code κ j.val = (κ j).val := by simp [code]

/-- A control column written in the new way. -/
def ctrl (g : Spec.Renaming ni nl nk) {n : ℕ} (κ : Equiv.Perm (Fin n)) : Ctrl ni nl → Ctrl ni nl
  | .catW C A S => .catW (fun t i => code κ (C (g.period.symm t) (g.row.symm i)))
    (fun t l c => g.scale * A (g.period.symm t) (g.worker.symm l) (code κ.symm c))
    (fun t l c => g.scale * S (g.period.symm t) (g.worker.symm l) (code κ.symm c))
  | .catN C A S => .catN (fun t i => code κ (C (g.period.symm t) (g.row.symm i)))
    (fun t c => g.scale * A (g.period.symm t) (code κ.symm c)) (fun t c => g.scale * S (g.period.symm t) (code κ.symm c))
  | .ctsW C A S => .ctsW (fun t i => C (g.period.symm t) (g.row.symm i))
    (fun t l => g.scale * A (g.period.symm t) (g.worker.symm l))
    (fun t l => g.scale * S (g.period.symm t) (g.worker.symm l))
  | .ctsN C A S => .ctsN (fun t i => C (g.period.symm t) (g.row.symm i)) (fun t => g.scale * A (g.period.symm t))
    (fun t => g.scale * S (g.period.symm t))

/-- Every control column can be written down in every new way. -/
theorem ctrl_same (g : Spec.Renaming ni nl nk) {k : Col ni nl} (hk : ColOk k) (κ : Equiv.Perm (Fin k.n)) :
    g.SameCtrl κ k.c (g.ctrl κ k.c) := by
  have hp := hk.pos_lt
  unfold ColOk at hk
  cases hc : k.c with
  | catW C A S =>
    rw [hc] at hp
    exact ⟨fun t i => ⟨⟨C t i, hp t i⟩, rfl, by simp [code, show C t i < k.n from hp t i]⟩,
      fun t l j => by simp [code_val], fun t l j => by simp [code_val]⟩
  | catN C A S =>
    rw [hc] at hp
    exact ⟨fun t i => ⟨⟨C t i, hp t i⟩, rfl, by simp [code, show C t i < k.n from hp t i]⟩,
      fun t j => by simp [code_val], fun t j => by simp [code_val]⟩
  | ctsW C A S =>
    rw [hc] at hk
    exact ⟨hk, fun t i => by simp, fun t l => by simp, fun t l => by simp⟩
  | ctsN C A S =>
    rw [hc] at hk
    exact ⟨hk, fun t i => by simp, fun t => by simp, fun t => by simp⟩

theorem sameAcross_iff [NeZero nl] {n : ℕ} {x : ℕ → ℝ} : SameAcross nl n x ↔
    ∀ t (l l' : Fin nl) (j : Fin n), x (Spec.slot t l j) = x (Spec.slot t l' j) := by
  constructor
  · intro h t l l' j
    unfold Spec.slot
    rw [h t l j j.isLt, h t l' j j.isLt]
  · intro h t l c hc
    have := h t l 0 ⟨c, hc⟩
    rw [slot_zero] at this
    exact this

/-- Constraints: nothing, or effects common to all worker types. -/
theorem cons_effects [NeZero nl] (g : Spec.Renaming ni nl nk) {n : ℕ} (κ : Equiv.Perm (Fin n)) (c b : ℝ) (hc : 0 < c)
    (wi : Bool) : ∃ s, g.SameCons κ c b (fun x => wi = true ∨ SameAcross nl n x) (fun x => wi = true ∨ SameAcross nl n x)
      s s := by
  have hr : ∃ s, RightSolver (2 * (nl * n)) (fun x => wi = true ∨ SameAcross nl n x) s := by
    cases wi with
    | true => simpa using rightSolver_free (2 * (nl * n))
    | false => simpa using rightSolver_same nl n
  obtain ⟨s, hs⟩ := hr
  refine ⟨s, hs, hs, fun x y hx hy => ?_, ⟨fun _ => 0, .inr fun _ _ _ _ => rfl⟩, fun x x' h => or_congr_right ?_⟩
  · rcases hx with hx | hx
    · exact .inl hx
    rcases hy with hy | hy
    · exact .inl hy
    exact .inr fun t l j hj => by simp only [hx t l j hj, hy t l j hj]
  · rw [sameAcross_iff, sameAcross_iff]
    constructor
    · intro h' t l l' j
      have := h' (g.period t) (g.worker l) (g.worker l') (κ j)
      rw [h, h] at this
      exact mul_left_cancel₀ hc.ne' (by linarith)
    · intro h' t l l' j
      have e := h (g.period.symm t) (g.worker.symm l) (κ.symm j)
      have e' := h (g.period.symm t) (g.worker.symm l') (κ.symm j)
      simp only [Equiv.apply_symm_apply] at e e'
      rw [e, e', h' _ (g.worker.symm l) (g.worker.symm l')]

/-- Constraints on variances: a lower bound in the two units, and variances common to all worker types or not. -/
theorem cons_vars [NeZero nl] (g : Spec.Renaming ni nl nk) {n : ℕ} (κ : Equiv.Perm (Fin n)) (c lb : ℝ) (hc : 0 < c)
    (wi : Bool) : ∃ s s', g.SameCons κ c 0
      (fun x => (wi = true ∨ SameAcross nl n x) ∧ ∀ p < 2 * (nl * n), lb ≤ x p)
      (fun x => (wi = true ∨ SameAcross nl n x) ∧ ∀ p < 2 * (nl * n), c * lb ≤ x p) s s' := by
  have hr : ∀ lb : ℝ, ∃ s, RightSolver (2 * (nl * n))
      (fun x => (wi = true ∨ SameAcross nl n x) ∧ ∀ p < 2 * (nl * n), lb ≤ x p) s := by
    intro lb
    cases wi with
    | true => simpa using rightSolver_box (2 * (nl * n)) lb
    | false => simpa using rightSolver_same_box nl n lb
  obtain ⟨s, hs⟩ := hr lb
  obtain ⟨s', hs'⟩ := hr (c * lb)
  obtain ⟨_, hE⟩ := cons_effects g κ c 0 hc wi
  refine ⟨s, s', hs, hs', fun x y hx hy => ⟨hE.convex x y hx.1 hy.1, fun p hp => ?_⟩,
    ⟨fun _ => lb, .inr fun _ _ _ _ => rfl, fun _ _ => le_rfl⟩, fun x x' h => and_congr (hE.same x x' h) ?_⟩
  · have h1 := hx.2 p hp
    have h2 := hy.2 p hp
    show lb ≤ (x p + y p) / 2
    linarith
  · constructor
    · intro h' p hp
      obtain ⟨t, l, j, rfl⟩ := exists_pos hp
      have := h' _ (slot_lt' (g.period t) (g.worker l) (κ j))
      rw [h, add_zero] at this
      exact le_of_mul_le_mul_left this hc
    · intro h' p hp
      obtain ⟨t, l, j, rfl⟩ := exists_pos hp
      have e := h (g.period.symm t) (g.worker.symm l) (κ.symm j)
      simp only [Equiv.apply_symm_apply, add_zero] at e
      show c * lb ≤ x' (Spec.slot t l j)
      rw [e]
      exact mul_le_mul_of_nonneg_left (h' _ (slot_lt' _ _ _)) hc.le

/-- Every column (of any kind) in which every category is observed in both periods gives corresponding columns: the
hypotheses of `C114_movers_controls` on columns can be met for every renaming of its categories. -/
theorem exists_col [NeZero nl] (g : Spec.Renaming ni nl nk) (k0 : Col ni nl) (hk : ColOk k0)
    (κ : Equiv.Perm (Fin k0.n)) (hobs : ∀ t (j : Fin k0.n), ∃ i, k0.c.pos t i = j ∧ k0.c.load t i ≠ 0)
    (hvar : ∀ l t i, 0 < k0.c.var l t i) :
    ∃ k k' : Col ni nl, k.c = k0.c ∧ k'.c = g.ctrl κ k0.c ∧ k.n = k0.n ∧ g.SameCol k k' := by
  obtain ⟨sA, hA⟩ := cons_effects g κ g.scale 0 g.scale_pos k0.c.wi
  obtain ⟨sS, sS', hS⟩ := cons_vars g κ (g.scale ^ 2) 1 (pow_pos g.scale_pos 2) k0.c.wi
  refine ⟨⟨k0.c, k0.n, sA, sS⟩, ⟨g.ctrl κ k0.c, k0.n, sA, sS'⟩, rfl, rfl, rfl, κ, _, _, _, _, {
    n_pos := hk.n_pos
    n_eq := rfl
    ctrl := g.ctrl_same hk κ
    obs := hobs
    var_pos := hvar
    consA := hA
    consS := hS
    lower := fun x hx t l j => lt_of_lt_of_le one_pos (hx.2 _ (slot_lt' t l j))
    flatA := fun hw x hx => sameAcross_iff.mp (hx.resolve_left (by simp only at hw; simp [hw]))
    flatS := fun hw x hx => sameAcross_iff.mp (hx.1.resolve_left (by simp only at hw; simp [hw])) }⟩

end Spec.Renaming

/-- Non-vacuity of `C114_movers_controls`: `fourMovers` renamed by `allChanged`, with a categorical column of two
categories exchanged that does not interact with worker type and a continuous one that does. -/
example : ∃ (sA : Solver) (sS sS' : Solver) (FS FS' : (ℕ → ℝ) → Prop) (s s' : StateC 4 2 2),
    allChanged.SameData fourMovers (allChanged.data fourMovers) ∧
    allChanged.SameCons allChanged.firm allChanged.scale allChanged.shift (fun x => true = true ∨ SameAcross 2 2 x)
      (fun x => true = true ∨ SameAcross 2 2 x) sA sA ∧
    allChanged.SameCons allChanged.firm (allChanged.scale ^ 2) 0 FS FS' sS sS' ∧
    (∀ x, FS x → ∀ t (l : Fin 2) (k : Fin 2), 0 < x (Spec.slot t l k)) ∧ s.cols.length = 2 ∧ s.Yadj = none ∧
    s'.Yadj = none ∧ (∀ t l k, 0 < s.base.S t l k) ∧ allChanged.SameStateC fourMovers s.proj s'.proj ∧
    (∃ C A S, (s.cols.map (·.c)).head? = some (.catN C A S)) := by
  obtain ⟨sA, hA⟩ := Spec.Renaming.cons_effects allChanged allChanged.firm allChanged.scale allChanged.shift two_pos true
  obtain ⟨sS, sS', hS⟩ := Spec.Renaming.cons_vars allChanged allChanged.firm (allChanged.scale ^ 2) 1
    (pow_pos allChanged.scale_pos 2) true
  obtain ⟨m', hm⟩ := allChanged.exists_state fourMovers two_pos
    ⟨⟨fun _ l _ => l.val, fun _ _ _ => 1⟩, fun _ _ => 1 / 2, []⟩
  obtain ⟨k1, k1', e1, -, -, h1⟩ := Spec.Renaming.exists_col allChanged
    ⟨.catN (fun _ i => i.val % 2) (fun _ c => c) (fun _ _ => 1), 2, sA, sA⟩
    ⟨by norm_num, fun t i => Nat.mod_lt _ two_pos, fun t => ⟨1, rfl⟩⟩ (Equiv.swap 0 1)
    (fun t j => ⟨⟨j.val, lt_trans (show j.val < 2 from j.isLt) (by norm_num)⟩, Nat.mod_eq_of_lt j.isLt, by simp [Ctrl.load]⟩) (fun l t i => by simp [Ctrl.var])
  obtain ⟨k2, k2', e2, -, -, h2⟩ := Spec.Renaming.exists_col allChanged
    ⟨.ctsW (fun _ i => i.val + 1) (fun _ l => l.val) (fun _ _ => 1), 1, sA, sA⟩ rfl (Equiv.refl _)
    (fun t j => ⟨0, by have := j.isLt; simp only [Ctrl.pos]; simp only at this; omega, by norm_num [Ctrl.load]⟩)
    (fun l t i => by simp [Ctrl.var])
  refine ⟨sA, sS, sS', _, _, ⟨⟨fun _ l _ => l.val, fun _ _ _ => 1⟩, [k1, k2], fun _ _ => 1 / 2, fun _ _ => 0, none, []⟩,
    ⟨m'.base, [k1', k2'], m'.pk1, fun _ _ => 0, none, m'.liks⟩, allChanged.data_same _, hA, hS, fun x hx t l k =>
      lt_of_lt_of_le one_pos (hx.2 _ (Spec.Renaming.slot_lt' t l k)), rfl, rfl, rfl, fun _ _ _ => one_pos,
    ⟨hm.means, hm.sds, .cons h1 (.cons h2 .nil), hm.props, hm.liks⟩, ?_⟩
  simp only [List.map_cons, e1]
  exact ⟨_, _, _, rfl⟩

/-- Non-vacuity of `C114_control_units`: a column with values 1 and 2 measured in a unit half as large; the bound does
not bind. -/
example : ∃ (k k' : Col 2 1) (C : Fin 2 → Fin 2 → ℝ), k.c = .ctsW C (fun _ _ => 0) (fun _ _ => 1) ∧
    k'.c = .ctsW (fun t i => 2 * C t i) (fun _ _ => 0 / 2) (fun _ _ => 1) ∧ k.n = 1 ∧ k'.n = 1 ∧ (∀ t, ∃ i, C t i ≠ 0) ∧
    RightSolver (2 * (1 * 1)) (fun x => ∀ p < 2 * (1 * 1), (0 : ℝ) ≤ x p) k.sS ∧
    RightSolver (2 * (1 * 1)) (fun x => ∀ p < 2 * (1 * 1), (0 : ℝ) ≤ x p) k'.sS ∧
    ∀ t, (0 : ℝ) < |∑ i, C t i * (twoWages.W t i * 1 * 1)| / ∑ i, C t i ^ 2 * (twoWages.W t i * 1) := by
  obtain ⟨sS, hS⟩ := rightSolver_box (2 * (1 * 1)) 0
  refine ⟨⟨.ctsW (fun _ i => i.val + 1) (fun _ _ => 0) (fun _ _ => 1), 1, sS, sS⟩,
    ⟨.ctsW (fun _ i => 2 * (i.val + 1)) (fun _ _ => 0 / 2) (fun _ _ => 1), 1, sS, sS⟩, _, rfl, rfl, rfl, rfl, fun t =>
    ⟨0, by norm_num⟩, hS, hS, fun t => by norm_num [twoWages]⟩

/-- Non-vacuity of `C114_stayers_controls`: firm types, worker types, rows and categories exchanged. -/
example : ∃ (g : Spec.Renaming 4 2 2) (d d' : Data 4 2) (b b' : Base 2 2) (cs cs' : List (Ctrl 4 2)),
    g.period = 1 ∧ g.firm ≠ 1 ∧ g.SameStayers d d' ∧ g.SameBase0 b b' ∧ cs ≠ [] ∧
    List.Forall₂ (fun c c' => ∃ (n : ℕ) (κ : Equiv.Perm (Fin n)), g.SameCtrl κ c c') cs cs' ∧
    (∀ l k, 0 < b.S 0 l k) ∧ (∃ i, (d.G 0 i).val = 2 - 1) ∧ ∃ i, (d'.G 0 i).val = 2 - 1 := by
  let g : Spec.Renaming 4 2 2 := ⟨Equiv.swap 0 3, Equiv.swap 0 1, Equiv.swap 0 1, 1, 2, 5, two_pos⟩
  have hd := g.data_same fourMovers
  let b : Base 2 2 := ⟨fun _ l _ => l.val, fun _ _ _ => 1⟩
  have hc := g.ctrl_same (k := ⟨.catN (fun _ i => i.val % 2) (fun _ c => c) (fun _ _ => 1), 2, freeSolve, freeSolve⟩)
    ⟨by norm_num, fun t i => Nat.mod_lt _ two_pos, fun t => ⟨1, rfl⟩⟩ (Equiv.swap 0 1)
  refine ⟨g, fourMovers, g.data fourMovers, b, ⟨g.new b.A, fun _ _ _ => 2⟩, [_], [_], rfl, ?_,
    ⟨fun i => hd.wage 0 i, fun i => hd.type 0 i, fun i => hd.weight 0 i⟩,
    ⟨fun l k => Spec.Renaming.same_new b.A 0 l k, fun l k => by simp [g, b]⟩, by simp, .cons ⟨2, Equiv.swap 0 1, hc⟩ .nil,
    fun _ _ => one_pos, ⟨1, rfl⟩, ⟨3, ?_⟩⟩
  · intro h
    have := congrArg (fun e : Equiv.Perm (Fin 2) => e 0) h
    simp [g] at this
  · have h0 : g.row.symm 3 = 0 := by simp [g]
    show (g.firm (fourMovers.G (g.period.symm 0) (g.row.symm 3))).val = 1
    rw [h0]
    simp [g, fourMovers]

end Pytwoway.BLM
