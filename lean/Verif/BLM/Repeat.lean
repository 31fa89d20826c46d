import Verif.BLM.Invariance

/-!
# Repeating every observation leaves BLM estimates unchanged (C130)

`d'` holds every row of `d` the same number of times, in any order.  The specification is a map from the
rows of `d'` to the rows of `d`, each of which is met `c` times.
-/

namespace Pytwoway.BLM

open Finset

variable {ni ni' nl nk : ℕ}

/-! ## Specification -/

/-- Every row of `d` occurs exactly `c` times in `d'`: row `s` of `d'` is a copy of row `origin s` of `d`. -/
structure Spec.Repeats (c : ℕ) (origin : Fin ni' → Fin ni) (d : Data ni nk) (d' : Data ni' nk) : Prop where
  pos : 0 < c
  times : ∀ i, #{s | origin s = i} = c
  wage : ∀ t s, d'.Y t s = d.Y t (origin s)
  type : ∀ t s, d'.G t s = d.G t (origin s)
  weight : ∀ t s, d'.W t s = d.W t (origin s)

/-- A control variable with its rows repeated; the coefficients are the same. -/
def Spec.repeatCtrl (origin : Fin ni' → Fin ni) : Ctrl ni nl → Ctrl ni' nl
  | .catW C A S => .catW (fun t s => C t (origin s)) A S
  | .catN C A S => .catN (fun t s => C t (origin s)) A S
  | .ctsW C A S => .ctsW (fun t s => C t (origin s)) A S
  | .ctsN C A S => .ctsN (fun t s => C t (origin s)) A S

namespace Spec.Repeats

variable {c : ℕ} {ρ : Fin ni' → Fin ni} {d : Data ni nk} {d' : Data ni' nk}

theorem sum_origin (h : Spec.Repeats c ρ d d') (f : Fin ni → ℝ) : ∑ s, f (ρ s) = c * ∑ i, f i := by
  rw [← sum_fiberwise univ ρ, mul_sum]
  refine sum_congr rfl fun i _ => ?_
  rw [sum_congr rfl fun s hs => by rw [(mem_filter.mp hs).2], sum_const, h.times, nsmul_eq_mul]

theorem card_eq (h : Spec.Repeats c ρ d d') : (ni' : ℝ) = c * ni := by
  simpa using h.sum_origin fun _ => 1

theorem cast_pos (h : Spec.Repeats c ρ d d') : (0 : ℝ) < c := Nat.cast_pos.mpr h.pos

theorem surj (h : Spec.Repeats c ρ d d') (i : Fin ni) : ∃ s, ρ s = i := by
  have : 0 < #{s | ρ s = i} := by rw [h.times]; exact h.pos
  obtain ⟨s, hs⟩ := card_pos.mp this
  exact ⟨s, (mem_filter.mp hs).2⟩

/-! ## E-step -/

theorem KK_rep (h : Spec.Repeats c ρ d d') (s : Fin ni') : KK d' s = KK d (ρ s) := by
  unfold KK; rw [h.type, h.type]

theorem jointW_rep (h : Spec.Repeats c ρ d d') (s : Fin ni') : jointW d' s = jointW d (ρ s) := by
  unfold jointW; rw [h.weight, h.weight]

theorem lpMovers_rep (h : Spec.Repeats c ρ d d') (b : Base nl nk) (pk : ℕ → Fin nl → ℝ) (s : Fin ni') :
    lpMovers d' b [] pk s = lpMovers d b [] pk (ρ s) := by
  funext l
  unfold lpMovers
  rw [h.KK_rep, lpWage_nil, lpWage_nil, lpWage_nil, lpWage_nil]
  simp only [h.wage, h.type, h.weight]

theorem posterior_rep [NeZero nl] {lp : Fin ni → Fin nl → ℝ} {lp' : Fin ni' → Fin nl → ℝ}
    (hl : ∀ s, lp' s = lp (ρ s)) (s : Fin ni') (l : Fin nl) : posterior lp' s l = posterior lp (ρ s) l := by
  unfold posterior; rw [hl]

theorem meanLse_rep [NeZero nl] (h : Spec.Repeats c ρ d d') {lp : Fin ni → Fin nl → ℝ} {lp' : Fin ni' → Fin nl → ℝ}
    (hl : ∀ s, lp' s = lp (ρ s)) : meanLse lp' = meanLse lp := by
  unfold meanLse
  simp only [hl]
  rw [h.sum_origin fun i => Util.logsumexp (lp i), h.card_eq, mul_div_mul_left _ _ h.cast_pos.ne']

theorem likMovers_rep [NeZero nl] (h : Spec.Repeats c ρ d d') (b : Base nl nk) (pk : ℕ → Fin nl → ℝ)
    (first updPk : Bool) (dp : ℝ) : likMovers d' b [] pk first updPk dp = likMovers d b [] pk first updPk dp := by
  unfold likMovers
  rw [h.meanLse_rep (h.lpMovers_rep b pk)]

/-! ## M-step: proportions -/

theorem bincount_rep (h : Spec.Repeats c ρ d d') (idx : Fin ni × Fin nl → ℕ) (w : Fin ni × Fin nl → ℝ)
    (idx' : Fin ni' × Fin nl → ℕ) (w' : Fin ni' × Fin nl → ℝ) (hi : ∀ s l, idx' (s, l) = idx (ρ s, l))
    (hw : ∀ s l, w' (s, l) = w (ρ s, l)) :
    (bincount idx' w').len = (bincount idx w).len ∧ ∀ v, (bincount idx' w').val v = c * (bincount idx w).val v := by
  constructor
  · apply le_antisymm
    · refine Finset.sup_le fun x _ => ?_
      have := hi x.1 x.2
      rw [show idx' x = idx (ρ x.1, x.2) from this]
      exact Finset.le_sup (f := fun x => idx x + 1) (mem_univ (ρ x.1, x.2))
    · refine Finset.sup_le fun x _ => ?_
      obtain ⟨s, hs⟩ := h.surj x.1
      have e : idx' (s, x.2) = idx x := by rw [hi, hs]
      rw [← e]
      exact Finset.le_sup (f := fun x => idx' x + 1) (mem_univ (s, x.2))
  · intro v
    simp only [bincount, Fintype.sum_prod_type_right, mul_sum]
    refine sum_congr rfl fun l _ => ?_
    rw [← mul_sum, ← h.sum_origin fun i => if idx (i, l) = v then w (i, l) else 0]
    simp only [hi, hw]

theorem updatePk1_rep [NeZero nl] (h : Spec.Repeats c ρ d d') {q : Fin ni → Fin nl → ℝ} {q' : Fin ni' → Fin nl → ℝ}
    (hq : ∀ s l, q' s l = q (ρ s) l) (dp : ℝ) : updatePk1 d' q' dp = updatePk1 d q dp := by
  obtain ⟨h1, h2⟩ := h.bincount_rep (fun x : Fin ni × Fin nl => KK d x.1 + nk ^ 2 * x.2.val)
    (fun x => jointW d x.1 * (q x.1 x.2 + dp - 1)) (fun x : Fin ni' × Fin nl => KK d' x.1 + nk ^ 2 * x.2.val)
    (fun x => jointW d' x.1 * (q' x.1 x.2 + dp - 1)) (fun s l => by simp only [h.KK_rep])
    (fun s l => by simp only [h.jointW_rep, hq])
  have hc := h.cast_pos.ne'
  unfold updatePk1 sumPk1
  simp only [h1]
  split
  · simp only [bind, Except.bind, h2, ← mul_sum, mul_eq_zero, hc, false_or]
    split
    · rfl
    · congr 1
      funext p l
      rw [one_div, one_div, mul_inv]
      field_simp
  · rfl

theorem nextPk1_rep [NeZero nl] (h : Spec.Repeats c ρ d d') {q : Fin ni → Fin nl → ℝ} {q' : Fin ni' → Fin nl → ℝ}
    (hq : ∀ s l, q' s l = q (ρ s) l) (u : Bool) (dp : ℝ) (pk : ℕ → Fin nl → ℝ) :
    nextPk1 u d' q' dp pk = nextPk1 u d q dp pk := by
  unfold nextPk1
  rw [h.updatePk1_rep hq]

/-! ## M-step: means and standard deviations -/

theorem wsse_rep (h : Spec.Repeats c ρ d d') {q : Fin ni → Fin nl → ℝ} {q' : Fin ni' → Fin nl → ℝ}
    (hq : ∀ s l, q' s l = q (ρ s) l) (S A : Fin 2 → Fin nl → Fin nk → ℝ) :
    wsse d' q' S A = c * wsse d q S A := by
  unfold wsse
  simp only [mul_sum]
  refine sum_congr rfl fun t _ => sum_congr rfl fun l _ => ?_
  rw [← mul_sum, ← h.sum_origin]
  simp only [h.wage, h.type, h.weight, hq]

theorem cell_rep (h : Spec.Repeats c ρ d d') (t : Fin 2) (k : Fin nk) (f : Fin ni → ℝ) :
    ∑ s with d'.G t s = k, f (ρ s) = c * ∑ i with d.G t i = k, f i := by
  rw [sum_filter, sum_filter, ← h.sum_origin fun i => if d.G t i = k then f i else 0]
  simp only [h.type]

theorem mstep_rep (h : Spec.Repeats c ρ d d') {q : Fin ni → Fin nl → ℝ} {q' : Fin ni' → Fin nl → ℝ}
    (hqq : ∀ s l, q' s l = q (ρ s) l) (b : Base nl nk) (uA uS : Bool) (sA sS : Solver)
    (F : (Fin 2 → Fin nl → Fin nk → ℝ) → Prop) (lb : ℝ) (hlb : 0 < lb) (hnk : 0 < nk)
    (hsA : RightSolver (2 * (nl * nk)) (fun x => F (unflatten nl nk x)) sA)
    (hsS : RightSolver (2 * (nl * nk)) (BoundS nl nk lb) sS) (hFc : Spec.Midconvex F) (hF : ∃ A, F A)
    (hobs : ∀ t k, ∃ i, d.G t i = k) (hW : ∀ t i, 0 < d.W t i) (hq : ∀ i l, 0 < q i l)
    (hpos : ∀ t l k, 0 < b.S t l k) :
    mstep d' q' b uA uS sA sS = mstep d q b uA uS sA sS ∧
    ∀ b1, mstep d q b uA uS sA sS = .ok b1 → ∀ t l k, 0 < b1.S t l k := by
  have hc := h.cast_pos
  have hobs' : ∀ t k, ∃ s, d'.G t s = k := by
    intro t k
    obtain ⟨i, hi⟩ := hobs t k
    obtain ⟨s, hs⟩ := h.surj i
    exact ⟨s, by rw [h.type, hs, hi]⟩
  obtain ⟨A1, S1, h1, h2, h3, h4⟩ := Spec.Renaming.mstep_spec q b uA uS sA sS F lb hnk hsA hsS hobs hW hq hF hpos
  obtain ⟨A1', S1', h1', h2', h3', h4'⟩ := Spec.Renaming.mstep_spec q' b uA uS sA sS F lb hnk hsA hsS hobs'
    (fun t s => by rw [h.weight]; exact hW _ _) (fun s l => by rw [hqq]; exact hq _ _) hF hpos
  have hA : A1' = A1 := by
    cases uA with
    | false => rw [h1 rfl, h1' rfl]
    | true =>
      obtain ⟨f, hm⟩ := h2 rfl
      obtain ⟨f', hm'⟩ := h2' rfl
      refine Spec.Renaming.wsse_unique hFc hobs hW hq hpos f' f (fun C hC => ?_) hm
      have := hm' C hC
      rw [h.wsse_rep hqq, h.wsse_rep hqq] at this
      exact le_of_mul_le_mul_left this hc
  have hS : S1' = S1 := by
    funext t l k
    rw [h3, h3', hA]
    have e1 : cellW d' q' t l k = c * cellW d q t l k := by
      unfold cellW
      rw [← h.cell_rep]
      simp only [h.weight, hqq]
    have e2 : ∑ s with d'.G t s = k, d'.W t s * q' s l * (d'.Y t s - A1 t l k) ^ 2 =
        c * ∑ i with d.G t i = k, d.W t i * q i l * (d.Y t i - A1 t l k) ^ 2 := by
      rw [← h.cell_rep]
      simp only [h.weight, h.wage, hqq]
    rw [e1, e2, mul_div_mul_left _ _ hc.ne']
  refine ⟨by rw [h4, h4', hA, hS], fun b1 hb t l k => ?_⟩
  rw [h4] at hb
  cases uA <;> cases uS <;> simp only [Bool.or_self, Bool.or_true, Bool.or_false, Bool.false_eq_true, if_true,
      if_false] at hb
  · cases hb; exact hpos t l k
  · cases hb
    show 0 < S1 t l k
    rw [h3]; exact Real.sqrt_pos.mpr (hlb.trans_le (le_max_left _ _))
  · cases hb
  · cases hb
    show 0 < S1 t l k
    rw [h3]; exact Real.sqrt_pos.mpr (hlb.trans_le (le_max_left _ _))

end Spec.Repeats

/-! ## Movers -/

/-- C130 for movers: with every mover repeated the same number of times, in any order, the whole run is the
same — the same means, standard deviations, proportions and path of likelihoods after any number of
iterations, and the same error if it raises — for any threshold, Dirichlet prior, combination of update flags
and convex constraints.  (Without controls.) -/
theorem C130_movers [NeZero nl] (c : ℕ) (origin : Fin ni' → Fin ni) (d : Data ni nk) (d' : Data ni' nk) (o : MoverOpts)
    (sA sS : Solver) (minType : (Fin 2 → Fin nl → Fin nk → ℝ) → ℕ)
    (F : (Fin 2 → Fin nl → Fin nk → ℝ) → Prop) (lb : ℝ) (h : Spec.Repeats c origin d d') (hlb : 0 < lb) (hnk : 0 < nk)
    (hsA : RightSolver (2 * (nl * nk)) (fun x => F (unflatten nl nk x)) sA)
    (hsS : RightSolver (2 * (nl * nk)) (BoundS nl nk lb) sS) (hFc : Spec.Midconvex F) (hF : ∃ A, F A)
    (hobs : ∀ t k, ∃ i, d.G t i = k) (hW : ∀ t i, 0 < d.W t i) (nIters : ℕ) :
    ∀ (first : Bool) (prev : Option ℝ) (pm : ℕ) (s : MoverState nl nk), (∀ t l k, 0 < s.base.S t l k) →
      moversLoop d' o sA sS minType nIters first prev pm s = moversLoop d o sA sS minType nIters first prev pm s := by
  induction nIters with
  | zero => intro first prev pm s _; rfl
  | succ fuel ih =>
    intro first prev pm s hpos
    unfold moversLoop
    simp only [h.likMovers_rep]
    split
    · rfl
    · have hq := Spec.Repeats.posterior_rep (h.lpMovers_rep s.base s.pk1)
      rw [h.nextPk1_rep hq]
      cases nextPk1 o.updPk d (posterior (lpMovers d s.base [] s.pk1)) o.dprior s.pk1 with
      | error e => rfl
      | ok pk =>
        simp only [bind, Except.bind]
        obtain ⟨e1, e2⟩ := h.mstep_rep hq s.base o.updA o.updS sA sS F lb hlb hnk hsA hsS hFc hF hobs hW
          (posterior_pos _) hpos
        rw [e1]
        cases hm : mstep d (posterior (lpMovers d s.base [] s.pk1)) s.base o.updA o.updS sA sS with
        | error e => rfl
        | ok b1 => exact ih _ _ _ _ (e2 b1 hm)

/-! ## Stayers -/

namespace Spec.Repeats

variable {c : ℕ} {ρ : Fin ni' → Fin ni} {d : Data ni nk} {d' : Data ni' nk}

theorem sums_rep (ρ : Fin ni' → Fin ni) (cs : List (Ctrl ni nl)) (t : Fin 2) (s : Fin ni') :
    sumNonA (cs.map (Spec.repeatCtrl ρ)) t s = sumNonA cs t (ρ s) ∧
    sumNonS (cs.map (Spec.repeatCtrl ρ)) t s = sumNonS cs t (ρ s) ∧
    (∀ l, sumByA (cs.map (Spec.repeatCtrl ρ)) l t s = sumByA cs l t (ρ s)) ∧
    ∀ l, sumByS (cs.map (Spec.repeatCtrl ρ)) l t s = sumByS cs l t (ρ s) := by
  unfold sumNonA sumNonS sumByA sumByS
  refine ⟨?_, ?_, fun l => ?_, fun l => ?_⟩ <;> rw [List.foldl_map] <;> congr 1 <;> funext acc x <;> cases x <;> rfl

theorem lpWage_rep (h : Spec.Repeats c ρ d d') (b : Base nl nk) (cs : List (Ctrl ni nl)) (t : Fin 2) (l : Fin nl)
    (s : Fin ni') : lpWage d' b (cs.map (Spec.repeatCtrl ρ)) t l s = lpWage d b cs t l (ρ s) := by
  cases cs with
  | nil => rw [List.map_nil, lpWage_nil, lpWage_nil, h.wage, h.type]
  | cons x xs =>
    obtain ⟨e1, e2, e3, e4⟩ := sums_rep ρ (x :: xs) t s
    unfold lpWage
    rw [e1, e2, e3, e4, h.wage, h.type]
    rfl

theorem lpStayers_rep (h : Spec.Repeats c ρ d d') (b : Base nl nk) (cs : List (Ctrl ni nl))
    (pk : Fin nk → Option (Fin nl → ℝ)) (s : Fin ni') :
    lpStayers d' b (cs.map (Spec.repeatCtrl ρ)) pk s = lpStayers d b cs pk (ρ s) := by
  funext l
  unfold lpStayers
  rw [h.lpWage_rep, h.weight, h.type]

theorem updatePk0_rep [NeZero nl] (h : Spec.Repeats c ρ d d') {q : Fin ni → Fin nl → ℝ} {q' : Fin ni' → Fin nl → ℝ}
    (hq : ∀ s l, q' s l = q (ρ s) l) (dp : ℝ) : updatePk0 d' q' dp = updatePk0 d q dp := by
  obtain ⟨h1, h2⟩ := h.bincount_rep (fun x : Fin ni × Fin nl => (d.G 0 x.1).val + nk * x.2.val)
    (fun x => d.W 0 x.1 * (q x.1 x.2 + dp - 1)) (fun x : Fin ni' × Fin nl => (d'.G 0 x.1).val + nk * x.2.val)
    (fun x => d'.W 0 x.1 * (q' x.1 x.2 + dp - 1)) (fun s l => by simp only [h.type])
    (fun s l => by simp only [h.weight, hq])
  have hc := h.cast_pos.ne'
  unfold updatePk0 sumPk0
  simp only [h1]
  split
  · simp only [bind, Except.bind, h2, ← mul_sum, mul_eq_zero, hc, false_or]
    congr 1
    funext k
    split
    · rfl
    · congr 1
      funext l
      rw [one_div, one_div, mul_inv]
      field_simp
  · rfl

end Spec.Repeats

/-- C130 for stayers: with every stayer repeated the same number of times, in any order, the estimated
proportions and the path of likelihoods are the same, with or without controls; and one run raises exactly
when the other does. -/
theorem C130_stayers [NeZero nl] (c : ℕ) (origin : Fin ni' → Fin ni) (d : Data ni nk) (d' : Data ni' nk)
    (h : Spec.Repeats c origin d d') (b : Base nl nk) (cs : List (Ctrl ni nl)) (dp thr : ℝ) (nIters : ℕ)
    (pk0 : Fin nk → Fin nl → ℝ) :
    fitStayers d' b (cs.map (Spec.repeatCtrl origin)) dp thr nIters pk0 = fitStayers d b cs dp thr nIters pk0 := by
  have loop : ∀ (fuel : ℕ) (first : Bool) (prev : Option ℝ) (pk : Fin nk → Option (Fin nl → ℝ)) (acc : List (Option ℝ)),
      stayersLoop d' b (cs.map (Spec.repeatCtrl origin)) dp thr fuel first prev pk acc =
        stayersLoop d b cs dp thr fuel first prev pk acc := by
    intro fuel
    induction fuel with
    | zero => intro first prev pk acc; rfl
    | succ fuel ih =>
      intro first prev pk acc
      have hl := h.lpStayers_rep b cs pk
      have hlik : likStayers d' b (cs.map (Spec.repeatCtrl origin)) pk first dp = likStayers d b cs pk first dp := by
        unfold likStayers
        rw [h.meanLse_rep hl]
      unfold stayersLoop
      simp only [hlik, h.updatePk0_rep (Spec.Repeats.posterior_rep hl), ih]
  exact loop nIters true none _ []

/-! ## Non-vacuity -/

/-- `fourMovers` written down three times. -/
def twelveMovers : Data 12 2 := ⟨fun t s => fourMovers.Y t ⟨s.val % 4, Nat.mod_lt _ (by norm_num)⟩,
  fun t s => fourMovers.G t ⟨s.val % 4, Nat.mod_lt _ (by norm_num)⟩,
  fun t s => fourMovers.W t ⟨s.val % 4, Nat.mod_lt _ (by norm_num)⟩⟩

theorem twelveMovers_repeats : Spec.Repeats 3 (fun s : Fin 12 => (⟨s.val % 4, Nat.mod_lt _ (by norm_num)⟩ : Fin 4))
    fourMovers twelveMovers :=
  ⟨by norm_num, by decide, fun _ _ => rfl, fun _ _ => rfl, fun _ _ => rfl⟩

/-- Non-vacuity of C130: the hypotheses hold together. -/
example : ∃ (sA sS : Solver), RightSolver (2 * (2 * 2)) (fun _ => True) sA ∧ RightSolver (2 * (2 * 2)) (BoundS 2 2 1) sS ∧
    Spec.Midconvex (nl := 2) (nk := 2) (fun _ => True) ∧ (∀ t k, ∃ i, fourMovers.G t i = k) ∧
    (∀ t i, 0 < fourMovers.W t i) ∧ ∃ origin, Spec.Repeats 3 origin fourMovers twelveMovers := by
  obtain ⟨sA, hA⟩ := rightSolver_free (2 * (2 * 2))
  obtain ⟨sS, hS⟩ := rightSolver_box (2 * (2 * 2)) 1
  refine ⟨sA, sS, hA, hS, fun _ _ _ _ => trivial, ?_, ?_, _, twelveMovers_repeats⟩
  · intro t k
    fin_cases t
    · exact ⟨⟨k.val, by omega⟩, Fin.ext (by simp [fourMovers]; omega)⟩
    · exact ⟨⟨2 * k.val, by omega⟩, Fin.ext (by simp [fourMovers])⟩
  · intro t i
    simp only [fourMovers]
    split <;> norm_num

/-! ## Weights are not counts -/

/-- One mover with weight `w`. -/
def weightedMover (w : ℝ) : Data 1 1 := ⟨fun _ _ => 0, fun _ _ => 0, fun _ _ => w⟩

/-- Two rows for the same mover, each with weight one. -/
def moverTwice : Data 2 1 := ⟨fun _ _ => 0, fun _ _ => 0, fun _ _ => 1⟩

/-- Two worker types whose mean wages are `0` and `1`, equally likely to start with. -/
noncomputable def twoTypesStart : MoverState 2 1 := ⟨⟨fun _ l _ => l.val, fun _ _ _ => 1⟩, fun _ _ => 1 / 2, []⟩

theorem weightedMover_posterior (w : ℝ) : posterior (lpMovers (weightedMover w) twoTypesStart.base [] twoTypesStart.pk1) 0 0 =
    1 / (1 + Real.exp (-w)) := by
  have e0 : lpMovers (weightedMover w) twoTypesStart.base [] twoTypesStart.pk1 0 1 =
      lpMovers (weightedMover w) twoTypesStart.base [] twoTypesStart.pk1 0 0 - w := by
    unfold lpMovers
    rw [lpWage_nil, lpWage_nil, lpWage_nil, lpWage_nil]
    simp [weightedMover, twoTypesStart]
    ring
  unfold posterior
  rw [lse_eq, Fin.sum_univ_two, e0, Real.exp_sub, Real.exp_log (by positivity), sub_eq_add_neg, Real.exp_add]
  have := (Real.exp_pos (lpMovers (weightedMover w) twoTypesStart.base [] twoTypesStart.pk1 0 0)).ne'
  have h2 : (1 + Real.exp (-w)) ≠ 0 := by positivity
  field_simp

/-- A weight is not a count: a mover with weight 2 and the same mover written down twice with weight 1 give
different estimates, after one iteration that only updates the proportions.  (Weights multiply the log
density of a worker's wages but not the log proportion of their type, blm.py:1406-1411, so they change how
surely a worker is assigned to a type.)  For the same reason multiplying every weight by the same number
changes the estimates. -/
theorem C130_weight_is_not_count : ∃ (sA sS : Solver) (r r' : MoverState 2 1),
    Spec.Repeats 2 (fun _ => 0) (weightedMover 1) moverTwice ∧
    moversLoop (weightedMover 2) ⟨false, false, true, 1, 0⟩ sA sS (fun _ => 0) 1 true none 0 twoTypesStart = .ok r ∧
    moversLoop moverTwice ⟨false, false, true, 1, 0⟩ sA sS (fun _ => 0) 1 true none 0 twoTypesStart = .ok r' ∧
    r.pk1 0 0 ≠ r'.pk1 0 0 := by
  have hrep : Spec.Repeats 2 (fun _ => 0) (weightedMover 1) moverTwice :=
    ⟨by norm_num, by decide, fun _ _ => rfl, fun _ _ => rfl, fun _ _ => rfl⟩
  have key : ∀ w : ℝ, 0 < w → ∃ r, moversLoop (weightedMover w) ⟨false, false, true, 1, 0⟩ (fun _ _ => .ok none)
      (fun _ _ => .ok none) (fun _ => 0) 1 true none 0 twoTypesStart = .ok r ∧ r.pk1 0 0 = 1 / (1 + Real.exp (-w)) := by
    intro w hw
    obtain ⟨pk, h1, h2⟩ := C32_movers (weightedMover w)
      (posterior (lpMovers (weightedMover w) twoTypesStart.base [] twoTypesStart.pk1)) 1 (fun _ _ => hw) le_rfl
      (fun i l => (posterior_pos _ i l).le) (posterior_sum _) one_pos
      (fun k1 k2 => ⟨0, Subsingleton.elim _ _, Subsingleton.elim _ _⟩)
    refine ⟨_, by
      unfold moversLoop moversLoop
      simp only [nextPk1, mstep, stop, h1, bind, Except.bind, pure, Except.pure, Bool.or_self, Bool.false_eq_true, if_false, if_true]; rfl, ?_⟩
    have := (h2 0 0).1 0
    simp only [Fin.val_zero, mul_zero, add_zero] at this
    show pk 0 0 = _
    rw [this, ← weightedMover_posterior]
    have hs : √(w * w) ≠ 0 := by rw [Real.sqrt_mul_self hw.le]; exact hw.ne'
    simp [weightedMover] at hs ⊢
    field_simp
  obtain ⟨r, e, hr⟩ := key 2 two_pos
  obtain ⟨r', e', hr'⟩ := key 1 one_pos
  refine ⟨_, _, r, r', hrep, e, ?_, ?_⟩
  · rw [← e']
    unfold moversLoop moversLoop
    simp only [hrep.likMovers_rep, hrep.nextPk1_rep (Spec.Repeats.posterior_rep (hrep.lpMovers_rep _ _)), mstep, stop]
    rfl
  · rw [hr, hr']
    intro h
    have := congrArg (fun x => 1 / x) h
    simp at this

end Pytwoway.BLM
