import Verif.BLM.Repeat
import Verif.BLM.InvarianceControls

/-!
# Repeating every observation leaves BLM estimates with controls unchanged (C130)

As in `BLM.Repeat`, for the loop with control columns.  The quadratic programs of the repeated data are those of the
data multiplied by the number of repetitions; a solver is assumed to answer them alike.
-/

namespace Pytwoway.BLM

open Finset

variable {ni ni' nl nk : ℕ}

/-! ## Specification -/

/-- The solver's answer does not change when the whole objective is multiplied by a positive number. -/
def Spec.ScaleFree (s : Solver) : Prop :=
  ∀ (c : ℝ), 0 < c → ∀ P q : ℕ → ℝ, s (fun p => c * P p) (fun p => c * q p) = s P q

/-- A control column with its rows repeated; coefficients and constraints are the same. -/
def Spec.repeatCol (origin : Fin ni' → Fin ni) (k : Col ni nl) : Col ni' nl :=
  ⟨Spec.repeatCtrl origin k.c, k.n, k.sA, k.sS⟩

/-- The result of the estimation on repeated data: the same parameters and likelihoods; what is kept per row (the
values of the columns, the cached sums and adjusted wages) is repeated. -/
def Spec.repeatState (origin : Fin ni' → Fin ni) (s : StateC ni nl nk) : StateC ni' nl nk :=
  ⟨s.base, s.cols.map (Spec.repeatCol origin), s.pk1, fun t i => s.Asum t (origin i),
    s.Yadj.map fun Y t i => Y t (origin i), s.liks⟩

namespace Spec.Repeats

variable {c : ℕ} {ρ : Fin ni' → Fin ni} {d : Data ni nk} {d' : Data ni' nk}

theorem data_eq (h : Spec.Repeats c ρ d d') :
    d' = ⟨fun t s => d.Y t (ρ s), fun t s => d.G t (ρ s), fun t s => d.W t (ρ s)⟩ := by
  obtain ⟨Y, G, W⟩ := d'
  have h1 := h.wage; have h2 := h.type; have h3 := h.weight
  simp only at h1 h2 h3
  congr 1 <;> funext t s
  · exact h1 t s
  · exact h2 t s
  · exact h3 t s

theorem solveA_scaled {sA : Solver} (hs : Spec.ScaleFree sA) (h : Spec.Repeats c ρ d d') (X Y : ℕ → ℝ)
    (A : Fin 2 → Fin nl → Fin nk → ℝ) : solveA sA (fun p => c * X p) (fun p => c * Y p) A = solveA sA X Y A := by
  unfold solveA
  have := hs c h.cast_pos X fun p => - Y p
  simp only [mul_neg] at this
  rw [this]

theorem solveS_scaled {sS : Solver} (hs : Spec.ScaleFree sS) (h : Spec.Repeats c ρ d d') (X Y : ℕ → ℝ)
    (S : Fin 2 → Fin nl → Fin nk → ℝ) : solveS sS (fun p => c * X p) (fun p => c * Y p) S = solveS sS X Y S := by
  unfold solveS
  have := hs c h.cast_pos X fun p => - Y p
  simp only [mul_neg] at this
  rw [this]

theorem colSolveA_scaled (h : Spec.Repeats c ρ d d') (k : Col ni nl) (hs : Spec.ScaleFree k.sA) (X Y : ℕ → ℝ) :
    (Spec.repeatCol ρ k).solveA (fun p => c * X p) (fun p => c * Y p) = Spec.repeatCol ρ (k.solveA X Y) := by
  unfold Col.solveA
  have := hs c h.cast_pos X fun p => - Y p
  simp only [mul_neg] at this
  simp only [Spec.repeatCol, this]
  split
  · cases k.c <;> rfl
  · rfl
  · rfl

theorem colSolveS_scaled (h : Spec.Repeats c ρ d d') (k : Col ni nl) (hs : Spec.ScaleFree k.sS) (X Y : ℕ → ℝ) :
    (Spec.repeatCol ρ k).solveS (fun p => c * X p) (fun p => c * Y p) = Spec.repeatCol ρ (k.solveS X Y) := by
  unfold Col.solveS
  have := hs c h.cast_pos X fun p => - Y p
  simp only [mul_neg] at this
  simp only [Spec.repeatCol, this]
  split
  · cases k.c <;> rfl
  · rfl
  · rfl

theorem bincount1_rep (h : Spec.Repeats c ρ d d') (idx : Fin ni → ℕ) (w : Fin ni → ℝ) :
    bincount (fun s => idx (ρ s)) (fun s => w (ρ s)) = ⟨(bincount idx w).len, fun v => (c : ℝ) * (bincount idx w).val v⟩ := by
  have hlen : (univ.sup fun s => idx (ρ s) + 1) = univ.sup fun i => idx i + 1 := by
    apply le_antisymm
    · refine Finset.sup_le fun s _ => ?_
      exact Finset.le_sup (f := fun i => idx i + 1) (mem_univ (ρ s))
    · refine Finset.sup_le fun i _ => ?_
      obtain ⟨s, rfl⟩ := h.surj i
      exact Finset.le_sup (f := fun s => idx (ρ s) + 1) (mem_univ s)
  unfold bincount
  rw [hlen]
  congr 1
  funext v
  exact h.sum_origin fun i => if idx i = v then w i else 0

theorem assigned_scaled (n : ℕ) (a : Arr) (r : ℝ) (p : ℕ) : assigned n ⟨a.len, fun v => r * a.val v⟩ p = r * assigned n a p := by
  unfold assigned
  split <;> rfl

theorem assemble_rep (h : Spec.Repeats c ρ d d') (f : Fin 2 → Fin nl → Fin ni → ℝ) :
    assemble d' (fun t l s => f t l (ρ s)) = (assemble d f).map fun X p => (c : ℝ) * X p := by
  have hb : ∀ t l, bincount (fun s => (d'.G t s).val) (fun s => f t l (ρ s)) =
      ⟨(bincount (fun i => (d.G t i).val) (f t l)).len, fun v => (c : ℝ) * (bincount (fun i => (d.G t i).val) (f t l)).val v⟩ := by
    intro t l
    rw [← h.bincount1_rep]
    simp only [h.type]
  unfold assemble
  simp only [hb, assigned_scaled, Assignable]
  split
  · simp only [Except.map]
    congr 1
    funext p
    split
    · rfl
    · split
      · rfl
      · rw [mul_zero]
  · rfl

theorem assembleCol_rep (h : Spec.Repeats c ρ d d') (k : Col ni nl) (f : Fin 2 → Fin nl → Fin ni → ℝ) :
    assembleCol (Spec.repeatCol ρ k) (fun t l s => f t l (ρ s)) = (assembleCol k f).map fun X p => (c : ℝ) * X p := by
  have hcat : ∀ (C : Fin 2 → Fin ni → ℕ), (open scoped Classical in
      if ∀ t l, Assignable k.n (bincount (fun s => C t (ρ s)) (fun s => f t l (ρ s))) then
      (.ok fun p =>
        if hp : p < nl * k.n then
          assigned k.n (bincount (fun s => C 0 (ρ s)) (fun s => f 0 ⟨p / k.n, Nat.div_lt_of_lt_mul (by rwa [Nat.mul_comm] at hp)⟩ (ρ s))) (p % k.n)
        else if hp : p - nl * k.n < nl * k.n then
          assigned k.n (bincount (fun s => C 1 (ρ s)) (fun s => f 1 ⟨(p - nl * k.n) / k.n, Nat.div_lt_of_lt_mul (by rwa [Nat.mul_comm k.n])⟩ (ρ s)))
            ((p - nl * k.n) % k.n)
        else 0 : Py (ℕ → ℝ))
      else .error "ValueError") =
      (open scoped Classical in
      if ∀ t l, Assignable k.n (bincount (C t) (f t l)) then
      (.ok fun p =>
        if hp : p < nl * k.n then
          assigned k.n (bincount (C 0) (f 0 ⟨p / k.n, Nat.div_lt_of_lt_mul (by rwa [Nat.mul_comm] at hp)⟩)) (p % k.n)
        else if hp : p - nl * k.n < nl * k.n then
          assigned k.n (bincount (C 1) (f 1 ⟨(p - nl * k.n) / k.n, Nat.div_lt_of_lt_mul (by rwa [Nat.mul_comm k.n])⟩))
            ((p - nl * k.n) % k.n)
        else 0 : Py (ℕ → ℝ))
      else .error "ValueError").map fun X p => (c : ℝ) * X p := by
    intro C
    by_cases hA : ∀ t l, Assignable k.n (bincount (C t) (f t l))
    · have hA' : ∀ t l, Assignable k.n (bincount (fun s => C t (ρ s)) (fun s => f t l (ρ s))) := by
        intro t l; rw [h.bincount1_rep]; exact hA t l
      rw [if_pos hA, if_pos hA']
      simp only [h.bincount1_rep, assigned_scaled, Except.map]
      congr 1
      funext p
      split
      · rfl
      · split
        · rfl
        · rw [mul_zero]
    · have hA' : ¬ ∀ t l, Assignable k.n (bincount (fun s => C t (ρ s)) (fun s => f t l (ρ s))) := by
        intro H; apply hA; intro t l
        have := H t l
        rw [h.bincount1_rep] at this; exact this
      rw [if_neg hA, if_neg hA']
      rfl
  have hcts : ∀ (C : Fin 2 → Fin ni → ℝ), (.ok fun p =>
      if hp : p < nl then ∑ s, C 0 (ρ s) * f 0 ⟨p, hp⟩ (ρ s)
      else if hp : p - nl < nl then ∑ s, C 1 (ρ s) * f 1 ⟨p - nl, hp⟩ (ρ s)
      else 0 : Py (ℕ → ℝ)) = (.ok fun p =>
      if hp : p < nl then ∑ i, C 0 i * f 0 ⟨p, hp⟩ i
      else if hp : p - nl < nl then ∑ i, C 1 i * f 1 ⟨p - nl, hp⟩ i
      else 0 : Py (ℕ → ℝ)).map fun X p => (c : ℝ) * X p := by
    intro C
    simp only [Except.map]
    congr 1
    funext p
    split
    · exact h.sum_origin fun i => C 0 i * f 0 ⟨p, _⟩ i
    · split
      · exact h.sum_origin fun i => C 1 i * f 1 ⟨p - nl, _⟩ i
      · rw [mul_zero]
  obtain ⟨kc, n, sA, sS⟩ := k
  cases kc with
  | catW C A S => exact hcat C
  | catN C A S => exact hcat C
  | ctsW C A S => exact hcts C
  | ctsN C A S => exact hcts C

theorem ctrl_facts (ρ : Fin ni' → Fin ni) (x : Ctrl ni nl) : (Spec.repeatCtrl ρ x).wi = x.wi ∧
    (∀ t s, (Spec.repeatCtrl ρ x).nonA t s = x.nonA t (ρ s)) ∧ (∀ l t s, (Spec.repeatCtrl ρ x).byA l t s = x.byA l t (ρ s)) ∧
    (∀ l t s, (Spec.repeatCtrl ρ x).var l t s = x.var l t (ρ s)) ∧ ∀ t s, (Spec.repeatCtrl ρ x).load t s = x.load t (ρ s) := by
  cases x <;> exact ⟨rfl, fun _ _ => rfl, fun _ _ _ => rfl, fun _ _ _ => rfl, fun _ _ => rfl⟩

theorem map_c (ρ : Fin ni' → Fin ni) (ks : List (Col ni nl)) :
    (ks.map (Spec.repeatCol ρ)).map (·.c) = (ks.map (·.c)).map (Spec.repeatCtrl ρ) := by
  rw [List.map_map, List.map_map]; rfl

theorem sumByA_rep (ρ : Fin ni' → Fin ni) (ks : List (Col ni nl)) (l : Fin nl) (t : Fin 2) (s : Fin ni') :
    sumByA ((ks.map (Spec.repeatCol ρ)).map (·.c)) l t s = sumByA (ks.map (·.c)) l t (ρ s) := by
  rw [map_c]; exact (sums_rep ρ _ t s).2.2.1 l

theorem sumNonA_rep (ρ : Fin ni' → Fin ni) (ks : List (Col ni nl)) (t : Fin 2) (s : Fin ni') :
    sumNonA ((ks.map (Spec.repeatCol ρ)).map (·.c)) t s = sumNonA (ks.map (·.c)) t (ρ s) := by
  rw [map_c]; exact (sums_rep ρ _ t s).1

variable {q : Fin ni → Fin nl → ℝ} {q' : Fin ni' → Fin nl → ℝ}

theorem colWts_rep (h : Spec.Repeats c ρ d d') (hq : ∀ s l, q' s l = q (ρ s) l) (x : Ctrl ni nl) (t : Fin 2) (l : Fin nl)
    (s : Fin ni') : colWts d' q' (Spec.repeatCtrl ρ x) t l s = colWts d q x t l (ρ s) := by
  unfold colWts
  rw [h.weight, hq, (ctrl_facts ρ x).2.2.2.1]

theorem wts_rep (h : Spec.Repeats c ρ d d') (hq : ∀ s l, q' s l = q (ρ s) l) (S : Fin 2 → Fin nl → Fin nk → ℝ) (t : Fin 2)
    (l : Fin nl) (s : Fin ni') : wts d' S q' t l s = wts d S q t l (ρ s) := by
  unfold wts
  rw [h.weight, hq, h.type]

theorem colXwX_rep (h : Spec.Repeats c ρ d d') (hq : ∀ s l, q' s l = q (ρ s) l) (k : Col ni nl) :
    colXwX d' q' (Spec.repeatCol ρ k) = (colXwX d q k).map fun X p => (c : ℝ) * X p := by
  unfold colXwX
  rw [← h.assembleCol_rep]
  congr 1
  funext t l s
  show colWts d' q' (Spec.repeatCtrl ρ k.c) t l s * (Spec.repeatCtrl ρ k.c).load t s = _
  rw [h.colWts_rep hq, (ctrl_facts ρ k.c).2.2.2.2]

theorem colA_rep (h : Spec.Repeats c ρ d d') (hq : ∀ s l, q' s l = q (ρ s) l) (A : Fin 2 → Fin nl → Fin nk → ℝ) (u : Bool)
    (done todo : List (Col ni nl)) (k : Col ni nl) (hs : Spec.ScaleFree k.sA) (Y : Fin 2 → Fin ni → ℝ) :
    colA d' q' A u (done.map (Spec.repeatCol ρ)) (Spec.repeatCol ρ k) (todo.map (Spec.repeatCol ρ)) (fun t s => Y t (ρ s)) =
      (colA d q A u done k todo Y).map fun r => (Spec.repeatCol ρ r.1, fun t s => r.2 t (ρ s)) := by
  obtain ⟨f1, f2, f3, f4, f5⟩ := ctrl_facts ρ k.c
  have hlist : done.map (Spec.repeatCol ρ) ++ Spec.repeatCol ρ k :: todo.map (Spec.repeatCol ρ) =
      (done ++ k :: todo).map (Spec.repeatCol ρ) := by simp
  have hc : (Spec.repeatCol ρ k).c = Spec.repeatCtrl ρ k.c := rfl
  unfold colA
  simp only [h.colXwX_rep hq, hlist, sumByA_rep, hc, f1, f2, f3, h.colWts_rep hq, h.type]
  cases colXwX d q k with
  | error e => rfl
  | ok X =>
    have fin : ∀ (k1 : Col ni nl) t s, (Spec.repeatCol ρ k1).c.nonA t s = k1.c.nonA t (ρ s) :=
      fun k1 t s => (ctrl_facts ρ k1.c).2.1 t s
    cases u with
    | false =>
      simp only [Except.map, bind, Except.bind, pure, Except.pure, Bool.false_eq_true, if_false, fin]
    | true =>
      simp only [Except.map, bind, Except.bind, pure, Except.pure, if_true]
      rw [h.assembleCol_rep k fun t l i => colWts d q k.c t l i * ((if k.c.wi then Y t i else Y t i + k.c.nonA t i) -
        (sumByA ((done ++ k :: todo).map (·.c)) l t i - if k.c.wi then k.c.byA l t i else 0) - A t l (d.G t i))]
      cases assembleCol k _ with
      | error e => rfl
      | ok Z =>
        simp only [Except.map, h.colSolveA_scaled k hs, fin]

theorem solveA_keeps (k : Col ni nl) (X Y : ℕ → ℝ) : (k.solveA X Y).sA = k.sA ∧ (k.solveA X Y).sS = k.sS := by
  unfold Col.solveA
  split <;> exact ⟨rfl, rfl⟩

theorem solveS_keeps (k : Col ni nl) (X Y : ℕ → ℝ) : (k.solveS X Y).sA = k.sA ∧ (k.solveS X Y).sS = k.sS := by
  unfold Col.solveS
  split <;> exact ⟨rfl, rfl⟩

/-- Both solvers of a column are scale free. -/
def ColFree (k : Col ni nl) : Prop := Spec.ScaleFree k.sA ∧ Spec.ScaleFree k.sS

theorem colA_free (A : Fin 2 → Fin nl → Fin nk → ℝ) (u : Bool) (done todo : List (Col ni nl)) (k : Col ni nl)
    (Y : Fin 2 → Fin ni → ℝ) {r} (hr : colA d q A u done k todo Y = .ok r) (hk : ColFree k) : ColFree r.1 := by
  unfold colA at hr
  cases hX : colXwX d q k with
  | error e => simp [hX, bind, Except.bind] at hr
  | ok X =>
    simp only [hX, bind, Except.bind, pure, Except.pure] at hr
    cases u with
    | false =>
      simp only [Bool.false_eq_true, if_false, Except.ok.injEq] at hr
      subst hr; exact hk
    | true =>
      simp only [if_true] at hr
      generalize assembleCol k _ = z at hr
      cases z with
      | error e => simp at hr
      | ok Z =>
        simp only [Except.ok.injEq] at hr
        subst hr
        unfold ColFree
        rw [(solveA_keeps k X Z).1, (solveA_keeps k X Z).2]; exact hk

theorem colS_free (eps : Fin 2 → Fin nl → Fin ni → ℝ) (k : Col ni nl) {r} (hr : colS d q eps k = .ok r) (hk : ColFree k) :
    ColFree r := by
  unfold colS at hr
  cases hX : colXwX d q k with
  | error e => simp [hX, bind, Except.bind] at hr
  | ok X =>
    simp only [hX, bind, Except.bind, pure, Except.pure] at hr
    generalize assembleCol k _ = z at hr
    cases z with
    | error e => simp at hr
    | ok Z =>
      simp only [Except.ok.injEq] at hr
      subst hr
      unfold ColFree
      rw [(solveS_keeps k X _).1, (solveS_keeps k X _).2]; exact hk

theorem colsA_rep (h : Spec.Repeats c ρ d d') (hq : ∀ s l, q' s l = q (ρ s) l) (A : Fin 2 → Fin nl → Fin nk → ℝ) (u : Bool)
    (todo : List (Col ni nl)) : ∀ (done : List (Col ni nl)) (Y : Fin 2 → Fin ni → ℝ), (∀ k ∈ todo, ColFree k) →
    (∀ k ∈ done, ColFree k) →
    colsA d' q' A u (done.map (Spec.repeatCol ρ)) (todo.map (Spec.repeatCol ρ)) (fun t s => Y t (ρ s)) =
      (colsA d q A u done todo Y).map (fun r => (r.1.map (Spec.repeatCol ρ), fun t s => r.2 t (ρ s))) ∧
    ∀ r, colsA d q A u done todo Y = .ok r → ∀ k ∈ r.1, ColFree k := by
  induction todo with
  | nil =>
    intro done Y _ hd
    exact ⟨rfl, fun r hr => by cases hr; exact hd⟩
  | cons k todo ih =>
    intro done Y ht hd
    rw [List.map_cons, colsA, colsA, h.colA_rep hq A u done todo k (ht k (by simp)).1]
    cases hk : colA d q A u done k todo Y with
    | error e => exact ⟨rfl, fun r hr => by cases hr⟩
    | ok z =>
      have := ih (done ++ [z.1]) z.2 (fun k' hk' => ht k' (by simp [hk'])) (by
        intro k' hk'
        rcases List.mem_append.mp hk' with h1 | h1
        · exact hd k' h1
        · rw [List.mem_singleton.mp h1]; exact colA_free A u done todo k Y hk (ht k (by simp)))
      simp only [List.map_append, List.map_cons, List.map_nil] at this
      exact this

theorem colS_rep (h : Spec.Repeats c ρ d d') (hq : ∀ s l, q' s l = q (ρ s) l) (eps : Fin 2 → Fin nl → Fin ni → ℝ)
    (k : Col ni nl) (hk : ColFree k) : colS d' q' (fun t l s => eps t l (ρ s)) (Spec.repeatCol ρ k) =
      (colS d q eps k).map (Spec.repeatCol ρ) := by
  have hc : (Spec.repeatCol ρ k).c = Spec.repeatCtrl ρ k.c := rfl
  unfold colS
  simp only [h.colXwX_rep hq, hc, h.colWts_rep hq]
  rw [h.assembleCol_rep k fun t l i => colWts d q k.c t l i * eps t l i]
  cases colXwX d q k with
  | error e => rfl
  | ok X =>
    cases assembleCol k _ with
    | error e => rfl
    | ok Z =>
      simp only [Except.map, bind, Except.bind, pure, Except.pure]
      congr 1
      have hab : ∀ p, |(c : ℝ) * Z p| = c * |Z p| := fun p => by rw [abs_mul, abs_of_pos h.cast_pos]
      rw [← h.colSolveS_scaled k hk.2]
      congr 1
      cases k.c <;> simp only [Spec.repeatCtrl, hab]

theorem colsS_rep (h : Spec.Repeats c ρ d d') (hq : ∀ s l, q' s l = q (ρ s) l) (eps : Fin 2 → Fin nl → Fin ni → ℝ)
    (ks : List (Col ni nl)) (hk : ∀ k ∈ ks, ColFree k) :
    (ks.map (Spec.repeatCol ρ)).mapM (colS d' q' fun t l s => eps t l (ρ s)) =
      (ks.mapM (colS d q eps)).map (List.map (Spec.repeatCol ρ)) ∧
    ∀ r, ks.mapM (colS d q eps) = .ok r → ∀ k ∈ r, ColFree k := by
  induction ks with
  | nil => exact ⟨rfl, fun r hr => by cases hr; simp⟩
  | cons k ks ih =>
    obtain ⟨i1, i2⟩ := ih fun k' hk' => hk k' (by simp [hk'])
    rw [List.map_cons, List.mapM_cons, List.mapM_cons, h.colS_rep hq eps k (hk k (by simp)), i1]
    cases h1 : colS d q eps k with
    | error e => exact ⟨rfl, fun r hr => by cases hr⟩
    | ok k1 =>
      cases h2 : ks.mapM (colS d q eps) with
      | error e => exact ⟨rfl, fun r hr => by cases hr⟩
      | ok ks1 =>
        refine ⟨rfl, fun r hr k' hk' => ?_⟩
        simp only [bind, Except.bind, pure, Except.pure, Except.ok.injEq] at hr
        subst hr
        rcases List.mem_cons.mp hk' with e | e
        · rw [e]; exact colS_free eps k h1 (hk k (by simp))
        · exact i2 _ h2 k' e

theorem mstepRest_rep (h : Spec.Repeats c ρ d d') (hq : ∀ s l, q' s l = q (ρ s) l) (b : Base nl nk) (ks : List (Col ni nl))
    (hk : ∀ k ∈ ks, ColFree k) (Y : Fin 2 → Fin ni → ℝ) (uA uS : Bool) {sS : Solver} (hsS : Spec.ScaleFree sS) (X : ℕ → ℝ)
    (A : Fin 2 → Fin nl → Fin nk → ℝ) :
    mstepRest d' q' b (ks.map (Spec.repeatCol ρ)) (fun t s => Y t (ρ s)) uA uS sS (fun p => c * X p) A =
      (mstepRest d q b ks Y uA uS sS X A).map
        (fun r => (r.1, r.2.1.map (Spec.repeatCol ρ), fun t s => r.2.2 t (ρ s))) ∧
    ∀ r, mstepRest d q b ks Y uA uS sS X A = .ok r → ∀ k ∈ r.2.1, ColFree k := by
  obtain ⟨e1, e2⟩ := h.colsA_rep hq A uA ks [] Y hk (by simp)
  rw [List.map_nil] at e1
  unfold mstepRest
  rw [e1]
  cases hc : colsA d q A uA [] ks Y with
  | error e => exact ⟨rfl, fun r hr => by cases hr⟩
  | ok z =>
    have hz := e2 z hc
    cases uS with
    | false => exact ⟨rfl, fun r hr => by cases hr⟩
    | true =>
      simp only [Except.map, bind, Except.bind, pure, Except.pure, if_true, sumByA_rep, h.wts_rep hq, h.type]
      rw [h.assemble_rep fun t l i => wts d b.S q t l i * (z.2 t i - sumByA (z.1.map (·.c)) l t i - A t l (d.G t i)) ^ 2]
      cases assemble d _ with
      | error e => exact ⟨rfl, fun r hr => by cases hr⟩
      | ok Z =>
        obtain ⟨e3, e4⟩ := h.colsS_rep hq (fun t l i => (z.2 t i - sumByA (z.1.map (·.c)) l t i - A t l (d.G t i)) ^ 2) z.1 hz
        simp only [Except.map] at e3 ⊢
        rw [e3]
        cases hm : z.1.mapM (colS d q fun t l i => (z.2 t i - sumByA (z.1.map (·.c)) l t i - A t l (d.G t i)) ^ 2) with
        | error e => exact ⟨rfl, fun r hr => by cases hr⟩
        | ok ks1 =>
          simp only [h.solveS_scaled hsS, Except.ok.injEq]
          exact ⟨trivial, fun r hr => by subst hr; exact e4 _ hm⟩

theorem mstepC_rep (h : Spec.Repeats c ρ d d') (hq : ∀ s l, q' s l = q (ρ s) l) (b : Base nl nk) (ks : List (Col ni nl))
    (hk : ∀ k ∈ ks, ColFree k) (Y : Fin 2 → Fin ni → ℝ) (uA uS : Bool) {sA sS : Solver} (hsA : Spec.ScaleFree sA)
    (hsS : Spec.ScaleFree sS) :
    mstepC d' q' b (ks.map (Spec.repeatCol ρ)) (fun t s => Y t (ρ s)) uA uS sA sS =
      (mstepC d q b ks Y uA uS sA sS).map
        (fun r => (r.1, r.2.1.map (Spec.repeatCol ρ), fun t s => r.2.2 t (ρ s))) ∧
    ∀ r, mstepC d q b ks Y uA uS sA sS = .ok r → ∀ k ∈ r.2.1, ColFree k := by
  unfold mstepC
  by_cases hu : (uA || uS) = true
  · simp only [hu, if_true, h.wts_rep hq, sumByA_rep]
    rw [h.assemble_rep fun t l i => wts d b.S q t l i]
    cases assemble d fun t l i => wts d b.S q t l i with
    | error e => exact ⟨rfl, fun r hr => by cases hr⟩
    | ok X =>
      simp only [Except.map, bind, Except.bind]
      by_cases hA : uA = true
      · simp only [hA, if_true]
        rw [h.assemble_rep fun t l i => wts d b.S q t l i * (Y t i - sumByA (ks.map (·.c)) l t i)]
        cases assemble d fun t l i => wts d b.S q t l i * (Y t i - sumByA (ks.map (·.c)) l t i) with
        | error e => exact ⟨rfl, fun r hr => by cases hr⟩
        | ok Z =>
          simp only [Except.map, h.solveA_scaled hsA]
          exact h.mstepRest_rep hq b ks hk Y true uS hsS X _
      · simp only [hA]
        exact h.mstepRest_rep hq b ks hk Y _ uS hsS X _
  · simp only [hu, if_false, Bool.false_eq_true]
    exact ⟨rfl, fun r hr => by cases hr; exact hk⟩

theorem lpMoversC_rep (h : Spec.Repeats c ρ d d') (b : Base nl nk) (ks : List (Col ni nl)) (As : Fin 2 → Fin ni → ℝ)
    (pk : ℕ → Fin nl → ℝ) (s : Fin ni') :
    lpMoversC d' b ((ks.map (Spec.repeatCol ρ)).map (·.c)) (fun t s => As t (ρ s)) pk s =
      lpMoversC d b (ks.map (·.c)) As pk (ρ s) := by
  funext l
  unfold lpMoversC lpWageC
  rw [map_c]
  obtain ⟨-, f2, f3, f4⟩ := sums_rep ρ (ks.map (·.c)) 0 s
  obtain ⟨-, g2, g3, g4⟩ := sums_rep ρ (ks.map (·.c)) 1 s
  simp only [f2, f3, f4, g2, g3, g4, h.KK_rep, h.wage, h.type, h.weight]

end Spec.Repeats

/-- C130 for movers with controls: with every mover repeated the same number of times, in any order, the run returns
the same parameters, proportions and path of likelihoods, and the same coefficients and standard deviations of every
control column (what is kept per row is repeated), or raises the same error; for any threshold, prior, update flags,
constraints and starting values, whether or not every category is observed, when multiplying a quadratic program by
a positive number does not change the solver's answer. -/
theorem C130_movers_controls [NeZero nl] (c : ℕ) (origin : Fin ni' → Fin ni) (d : Data ni nk) (d' : Data ni' nk) (o : MoverOpts)
    (sA : ℕ → Solver) (sS : Solver) (minType : (Fin 2 → Fin nl → Fin nk → ℝ) → ℕ) (h : Spec.Repeats c origin d d')
    (hsA : ∀ m, Spec.ScaleFree (sA m)) (hsS : Spec.ScaleFree sS) (nIters : ℕ) :
    ∀ (first : Bool) (prev : Option ℝ) (pm : ℕ) (s : StateC ni nl nk),
      (∀ k ∈ s.cols, Spec.ScaleFree k.sA ∧ Spec.ScaleFree k.sS) →
      loopC d' o sA sS minType nIters first prev pm (Spec.repeatState origin s) =
        (loopC d o sA sS minType nIters first prev pm s).map (Spec.repeatState origin) := by
  induction nIters with
  | zero => intro first prev pm s _; rfl
  | succ fuel ih =>
    intro first prev pm s hk
    obtain ⟨As, hAs⟩ : ∃ As : Fin 2 → Fin ni → ℝ, As = if first then sumNonA (s.cols.map (·.c)) else s.Asum := ⟨_, rfl⟩
    have hAs' : (if first then sumNonA ((Spec.repeatState origin s).cols.map (·.c)) else (Spec.repeatState origin s).Asum) =
        fun t i => As t (origin i) := by
      rw [hAs]
      cases first
      · rfl
      · funext t i
        exact Spec.Repeats.sumNonA_rep origin s.cols t i
    have hl := h.lpMoversC_rep s.base s.cols As s.pk1
    have hq := Spec.Repeats.posterior_rep hl
    have hany : ((Spec.repeatState origin s).cols.any fun k => !k.c.wi) = s.cols.any fun k => !k.c.wi := by
      show ((s.cols.map (Spec.repeatCol origin)).any fun k => !k.c.wi) = _
      rw [List.any_map]
      congr 1
      funext k
      simp only [Function.comp, Spec.repeatCol, (Spec.Repeats.ctrl_facts origin k.c).1]
    unfold loopC
    simp only [hAs', hany, ← hAs]
    rw [show (Spec.repeatState origin s).cols = s.cols.map (Spec.repeatCol origin) from rfl,
      show (Spec.repeatState origin s).base = s.base from rfl, show (Spec.repeatState origin s).pk1 = s.pk1 from rfl,
      show (Spec.repeatState origin s).liks = s.liks from rfl, h.meanLse_rep hl, h.nextPk1_rep hq]
    generalize meanLse (lpMoversC d s.base (s.cols.map (·.c)) As s.pk1) + _ = L
    cases stop L prev o.threshold (minType s.base.A == pm) with
    | true => rfl
    | false =>
      simp only [Bool.false_eq_true, if_false]
      cases nextPk1 o.updPk d (posterior (lpMoversC d s.base (s.cols.map (·.c)) As s.pk1)) o.dprior s.pk1 with
      | error e => rfl
      | ok pk =>
        obtain ⟨Y, hY⟩ : ∃ Y, Y = s.Yadj.getD (if s.cols.any fun k => !k.c.wi then fun t i => d.Y t i - As t i else d.Y) :=
          ⟨_, rfl⟩
        have hY' : (Spec.repeatState origin s).Yadj.getD (if s.cols.any fun k => !k.c.wi then
            fun t i => d'.Y t i - As t (origin i) else d'.Y) = fun t i => Y t (origin i) := by
          rw [hY]
          show (s.Yadj.map _).getD _ = _
          cases s.Yadj with
          | some Y0 => rfl
          | none =>
            simp only [Option.map_none, Option.getD_none]
            split
            · funext t i; rw [h.wage]
            · funext t i; rw [h.wage]
        simp only [bind, Except.bind, hY', ← hY]
        obtain ⟨e1, e2⟩ := h.mstepC_rep hq s.base s.cols hk Y o.updA o.updS (hsA (minType s.base.A)) hsS
        rw [e1]
        cases hm : mstepC d (posterior (lpMoversC d s.base (s.cols.map (·.c)) As s.pk1)) s.base s.cols Y o.updA o.updS
            (sA (minType s.base.A)) sS with
        | error e => rfl
        | ok r =>
          refine Eq.trans ?_ (ih _ _ _ _ (e2 r hm))
          show loopC d' o sA sS minType fuel false _ _ _ = _
          congr 1
          unfold Spec.repeatState
          simp only
          congr 1
          · split
            · funext t i; rw [h.wage]
            · rfl
          · split <;> rfl

/-! ## Non-vacuity -/

/-- Why being scale free is asked of solvers only for programs without a unique answer: a right solver of convex,
consistent constraints gives a strictly convex program and its multiples the same answer (in the coordinates that are
read). -/
theorem C130_right_solvers {N : ℕ} {F : (ℕ → ℝ) → Prop} {s : Solver} (hs : RightSolver N F s)
    (hF : ∀ x y, F x → F y → F fun p => (x p + y p) / 2) (hc : ∃ x, F x) (c : ℝ) (hcpos : 0 < c) (P q : ℕ → ℝ)
    (hP : ∀ p < N, 0 < P p) : ∃ x y, s P q = .ok (some x) ∧ s (fun p => c * P p) (fun p => c * q p) = .ok (some y) ∧
      ∀ p < N, x p = y p := by
  obtain ⟨x, hx⟩ := hs.complete P q hP hc
  obtain ⟨y, hy⟩ := hs.complete (fun p => c * P p) (fun p => c * q p) (fun p hp => mul_pos hcpos (hP p hp)) hc
  obtain ⟨fx, mx⟩ := hs.sound _ _ _ hx
  obtain ⟨fy, my⟩ := hs.sound _ _ _ hy
  have e : ∀ z, qpObj N (fun p => c * P p) (fun p => c * q p) z = c * qpObj N P q z := by
    intro z
    unfold qpObj
    rw [mul_sum]
    exact sum_congr rfl fun p _ => by ring
  refine ⟨x, y, hx, hy, Spec.Renaming.qp_unique hF hP fx fy mx fun z hz => ?_⟩
  have := my z hz
  rw [e, e] at this
  exact le_of_mul_le_mul_left this hcpos

/-- A solver that returns the unconstrained minimum is scale free. -/
theorem scaleFree_free : Spec.ScaleFree freeSolve := by
  intro c hc P q
  unfold freeSolve
  congr 2
  funext p
  rw [← mul_neg, mul_div_mul_left _ _ hc.ne']

/-- One categorical and one continuous column for `fourMovers`. -/
noncomputable def fourCols : List (Col 4 2) :=
  [⟨.catN (fun _ i => i.val % 2) (fun _ _ => 0) (fun _ _ => 1), 2, freeSolve, freeSolve⟩,
   ⟨.ctsW (fun t i => i.val + t.val) (fun _ _ => 1) (fun _ _ => 1), 1, freeSolve, freeSolve⟩]

example : Spec.Repeats 3 (fun s : Fin 12 => (⟨s.val % 4, Nat.mod_lt _ (by norm_num)⟩ : Fin 4)) fourMovers twelveMovers ∧
    ∀ k ∈ fourCols, Spec.ScaleFree k.sA ∧ Spec.ScaleFree k.sS :=
  ⟨twelveMovers_repeats, fun k hk => by
    simp only [fourCols, List.mem_cons, List.not_mem_nil, or_false] at hk
    rcases hk with rfl | rfl <;> exact ⟨scaleFree_free, scaleFree_free⟩⟩

end Pytwoway.BLM
