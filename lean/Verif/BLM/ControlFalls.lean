import Verif.BLM.ControlVars
import Mathlib.Analysis.Complex.ExponentialBounds

/-! # C87, C88: the likelihood may fall; what holds; non-vacuity -/

namespace Pytwoway.BLM

open Finset

variable {ni nl nk : ℕ}

/-! ## A right solver for effects common to all worker types -/

theorem rightSolver_same (nl n : ℕ) [NeZero nl] :
    ∃ solve : Solver, RightSolver (2 * (nl * n)) (SameAcross nl n) solve := by
  classical
  have hobj : ∀ (P q x : ℕ → ℝ), SameAcross nl n x → (∀ p < 2 * (nl * n), 0 < P p) →
      qpObj (2 * (nl * n)) P q x = ∑ t : Fin 2, ∑ c : Fin n,
        ((∑ l : Fin nl, P (t.val * (nl * n) + l.val * n + c.val)) / 2 * (x (t.val * (nl * n) + c.val) -
          (-∑ l : Fin nl, q (t.val * (nl * n) + l.val * n + c.val)) /
            ∑ l : Fin nl, P (t.val * (nl * n) + l.val * n + c.val)) ^ 2 -
          (∑ l : Fin nl, q (t.val * (nl * n) + l.val * n + c.val)) ^ 2 /
            (2 * ∑ l : Fin nl, P (t.val * (nl * n) + l.val * n + c.val))) := by
    intro P q x hx hP
    unfold qpObj
    rw [sum_positions]
    refine sum_congr rfl fun t _ => ?_
    rw [sum_comm]
    refine sum_congr rfl fun c _ => ?_
    have hpos : 0 < ∑ l : Fin nl, P (t.val * (nl * n) + l.val * n + c.val) :=
      sum_pos' (fun l _ => (hP _ (pos_lt t l c)).le) ⟨0, mem_univ _, hP _ (pos_lt t 0 c)⟩
    simp only [fun l => hx t l c.val c.isLt]
    rw [sum_add_distrib, ← sum_div, ← sum_mul, ← sum_mul]
    field_simp
    ring
  refine ⟨fun P q => if ∀ p < 2 * (nl * n), 0 < P p then .ok (some fun p =>
      let s := if p < nl * n then 0 else nl * n
      let c := (p - s) % n
      (-∑ l : Fin nl, q (s + l.val * n + c)) / ∑ l : Fin nl, P (s + l.val * n + c)) else .error "ValueError", ?_, ?_⟩
  · intro P q x h
    split at h
    · rename_i hP
      simp only [Except.ok.injEq, Option.some.injEq] at h
      have hval : ∀ (t : Fin 2) (l : Fin nl) (c : ℕ), c < n → x (t.val * (nl * n) + l.val * n + c) =
          (-∑ l : Fin nl, q (t.val * (nl * n) + l.val * n + c)) /
            ∑ l : Fin nl, P (t.val * (nl * n) + l.val * n + c) := by
        intro t l c hc
        have hb := slot_lt l hc
        rw [← h]
        rcases fin2_cases t with rfl | rfl
        · simp only [Fin.val_zero, zero_mul, zero_add, hb, if_true, Nat.sub_zero, slot_mod l hc]
        · simp only [Fin.val_one, one_mul]
          rw [if_neg (by omega)]
          have he : nl * n + l.val * n + c - nl * n = l.val * n + c := by omega
          simp only [he, slot_mod l hc]
      have hsame : SameAcross nl n x := by
        intro t l c hc
        have h0 := hval t 0 c hc
        simp only [Fin.val_zero, zero_mul, add_zero] at h0
        rw [hval t l c hc, h0]
      refine ⟨hsame, fun y hy => ?_⟩
      rw [hobj P q x hsame hP, hobj P q y hy hP]
      refine sum_le_sum fun t _ => sum_le_sum fun c _ => ?_
      have h0 := hval t 0 c.val c.isLt
      simp only [Fin.val_zero, zero_mul, add_zero] at h0
      rw [h0, sub_self]
      have hpos : 0 < ∑ l : Fin nl, P (t.val * (nl * n) + l.val * n + c.val) :=
        sum_pos' (fun l _ => (hP _ (pos_lt t l c)).le) ⟨0, mem_univ _, hP _ (pos_lt t 0 c)⟩
      have : 0 ≤ (∑ l : Fin nl, P (t.val * (nl * n) + l.val * n + c.val)) / 2 * (y (t.val * (nl * n) + c.val) -
          (-∑ l : Fin nl, q (t.val * (nl * n) + l.val * n + c.val)) /
            ∑ l : Fin nl, P (t.val * (nl * n) + l.val * n + c.val)) ^ 2 := by positivity
      simp only [ne_eq, OfNat.ofNat_ne_zero, not_false_eq_true, zero_pow, mul_zero]
      linarith
    · exact absurd h (by simp)
  · intro P q hP _
    exact ⟨_, by simp only [if_pos hP]; rfl⟩

/-! ## Non-vacuity of C87 -/

/-- Two movers, two worker types, one firm type; a control with two categories common to worker types. -/
def exD : Data 2 1 := ⟨fun t i => t.val + 2 * i.val, fun _ _ => 0, fun _ _ => 1⟩

noncomputable def exQ : Fin 2 → Fin 2 → ℝ := fun _ _ => 1 / 2

def exCol (s : Solver) : Col 2 2 := ⟨.catN (fun _ i => i.val) (fun _ _ => 0) (fun _ _ => 1), 2, s, s⟩

theorem exCol_good (s : Solver) (hs : RightSolver (2 * (2 * 2)) (SameAcross 2 2) s) :
    GoodCol exD exQ (exCol s) (SameAcross 2 2) where
  ok := ⟨by simp [exCol], fun t i => i.isLt, fun t => ⟨1, rfl⟩⟩
  mass := by
    intro t l c hc
    have hc : c < 2 := hc
    unfold Spec.mass
    refine sum_pos' (fun i _ => ?_) ⟨⟨c, hc⟩, mem_filter.mpr ⟨mem_univ _, rfl⟩, ?_⟩ <;>
      simp [exD, exQ, exCol, Ctrl.var, Ctrl.load]
  right := hs
  cons := ⟨fun _ => 0, fun _ _ _ _ => rfl⟩
  same := fun _ x hx => hx

/-- The hypotheses of `C87_mstep` can be met with an interesting column, and its conclusion then holds. -/
example : ∃ (sA s sS : Solver) (b : Base 2 1),
    RightSolver (2 * (2 * 1)) (fun _ => True) sA ∧ RightSolver (2 * (2 * 2)) (SameAcross 2 2) s ∧
    TopObserved exD ∧ (∀ t l k, 0 < b.S t l k) ∧ (∀ t l k, 0 < cellW exD exQ t l k) ∧
    (∀ k ∈ [exCol s], GoodCol exD exQ k (SameAcross 2 2)) ∧ Adj exD ([exCol s].map (·.c)) exD.Y ∧
    ∃ r, mstepC exD exQ b [exCol s] exD.Y true true sA sS = .ok r := by
  obtain ⟨sA, hsA⟩ := rightSolver_free (2 * (2 * 1))
  obtain ⟨s, hs⟩ := rightSolver_same 2 2
  have htop : TopObserved exD := fun t => ⟨0, rfl⟩
  have hcell : ∀ t l k, 0 < cellW exD exQ t l k := by
    intro t l k
    unfold cellW
    exact sum_pos' (fun i _ => by simp [exD, exQ]) ⟨0, mem_filter.mpr ⟨mem_univ _, Subsingleton.elim _ _⟩, by simp [exD, exQ]⟩
  have hgood : ∀ k ∈ [exCol s], GoodCol exD exQ k (SameAcross 2 2) := by
    intro k hk
    rw [List.mem_singleton] at hk
    rw [hk]
    exact exCol_good s hs
  have hadj : Adj exD ([exCol s].map (·.c)) exD.Y := by
    intro t i
    simp [sumNonA_eq, exCol, Ctrl.nonA]
  refine ⟨sA, s, sA, ⟨fun _ _ _ => 0, fun _ _ _ => 1⟩, hsA, hs, htop, fun _ _ _ => one_pos, hcell, hgood, hadj, ?_⟩
  obtain ⟨b', mid, ks', Y', h, -⟩ := C87_mstep exD exQ ⟨fun _ _ _ => 0, fun _ _ _ => 1⟩ [exCol s] exD.Y sA sA
    (fun _ => True) (fun _ => SameAcross 2 2) hsA ⟨fun _ _ _ => 0, trivial⟩ htop (fun _ _ _ => one_pos) hcell hgood hadj
  exact ⟨_, h⟩

/-- A column with a missing highest category exists, so `C87_missing_category` applies: three categories, the highest
observed in neither period. -/
example (s : Solver) : TopMissing (⟨.catN (fun _ i => i.val) (fun _ _ => 0) (fun _ _ => 1), 3, s, s⟩ : Col 2 2) :=
  ⟨0, fun i => i.isLt, 1, by simp⟩

/-- The state at the start of the loop meets `Fresh`. -/
example (s : Solver) : Fresh exD true (⟨⟨fun _ _ _ => 0, fun _ _ _ => 1⟩, [exCol s], fun _ _ => 1 / 2, fun _ _ => 0, none,
    []⟩ : StateC 2 2 1) :=
  ⟨by simp, by simp, by simp⟩

/-! ## What holds: the pass over the effects -/

theorem sse_scale (d : Data ni nk) (q : Fin ni → Fin nl → ℝ) (v u : Fin nl → Fin 2 → Fin ni → ℝ) (c : ℝ)
    (hu : ∀ l t i, u l t i = c * v l t i) (A : Fin 2 → Fin nl → Fin nk → ℝ) (cs : List (Ctrl ni nl)) :
    Spec.sse d q u A cs = c⁻¹ * Spec.sse d q v A cs := by
  unfold Spec.sse
  simp only [mul_sum]
  refine sum_congr rfl fun t _ => sum_congr rfl fun l _ => sum_congr rfl fun i _ => ?_
  rw [hu, div_mul_eq_div_div_swap, div_eq_mul_inv _ c]
  ring

theorem sse_congr (d : Data ni nk) (q : Fin ni → Fin nl → ℝ) (v : Fin nl → Fin 2 → Fin ni → ℝ)
    (A : Fin 2 → Fin nl → Fin nk → ℝ) (cs cs' : List (Ctrl ni nl))
    (h : ∀ l t i, (cs.map fun c => Spec.eff c l t i).sum = (cs'.map fun c => Spec.eff c l t i).sum) :
    Spec.sse d q v A cs = Spec.sse d q v A cs' := by
  unfold Spec.sse
  exact sum_congr rfl fun t _ => sum_congr rfl fun l _ => sum_congr rfl fun i _ => by rw [h]

theorem updated_sse {d : Data ni nk} {q : Fin ni → Fin nl → ℝ} {A : Fin 2 → Fin nl → Fin nk → ℝ}
    {F : Col ni nl → (ℕ → ℝ) → Prop} {done old new : List (Col ni nl)} (h : Spec.Updated d q A F done old new)
    (v : Fin nl → Fin 2 → Fin ni → ℝ) (hv : ∀ k ∈ old, ∃ c > 0, ∀ l t i, k.c.var l t i = c * v l t i)
    (hF : ∀ k ∈ old, ∃ y, F k y ∧ ∀ l t i, Spec.eff (k.withA y).c l t i = Spec.eff k.c l t i) :
    Spec.sse d q v A ((done ++ new).map (·.c)) ≤ Spec.sse d q v A ((done ++ old).map (·.c)) := by
  induction h with
  | nil => exact le_rfl
  | cons done k todo new x hx best rest ih =>
    obtain ⟨c, hc, hvc⟩ := hv k (by simp)
    obtain ⟨y, hy, hye⟩ := hF k (by simp)
    have h1 := ih (fun k hk => hv k (by simp [hk])) fun k hk => hF k (by simp [hk])
    have h2 := best y hy
    rw [sse_scale d q v _ c hvc, sse_scale d q v _ c hvc] at h2
    have h3 := le_of_mul_le_mul_left h2 (inv_pos.mpr hc)
    rw [sse_congr d q v A ((done ++ k.withA y :: todo).map (·.c)) ((done ++ k :: todo).map (·.c)) (by
      intro l t i
      simp only [List.map_append, List.map_cons, hye])] at h3
    simp only [List.append_assoc, List.singleton_append] at h1
    exact h1.trans h3

/-- C88, the part that holds: if the base and every column have a constant share of the total variance and the current
effects are admissible, the pass over the effects does not raise the sum of squared residuals weighted by posterior
over total variance, which is (up to constants) minus twice the expected complete-data log likelihood at the current
variances.  Missing: the shares need not be constant, and the update of the variances that follows may lower the
likelihood (`C88_likelihood_falls`). -/
theorem C88_effects_partial (d : Data ni nk) (q : Fin ni → Fin nl → ℝ) (b b' : Base nl nk) (ks ks' : List (Col ni nl))
    (Yadj Y' : Fin 2 → Fin ni → ℝ) (sA sS : Solver) (FA : (Fin 2 → Fin nl → Fin nk → ℝ) → Prop)
    (F : Col ni nl → (ℕ → ℝ) → Prop)
    (hsA : RightSolver (2 * (nl * nk)) (fun x => FA (unflatten nl nk x)) sA)
    (htop : TopObserved d) (hS : ∀ t l k, 0 < b.S t l k) (hpos : ∀ t l k, 0 < cellW d q t l k)
    (hgood : ∀ k ∈ ks, GoodCol d q k (F k)) (hadj : Adj d (ks.map (·.c)) Yadj)
    (v : Fin nl → Fin 2 → Fin ni → ℝ)
    (hv0 : ∃ c > 0, ∀ l t i, b.S t l (d.G t i) ^ 2 = c * v l t i)
    (hv : ∀ k ∈ ks, ∃ c > 0, ∀ l t i, k.c.var l t i = c * v l t i)
    (hFA : FA b.A) (hF : ∀ k ∈ ks, ∃ y, F k y ∧ ∀ l t i, Spec.eff (k.withA y).c l t i = Spec.eff k.c l t i)
    (h : mstepC d q b ks Yadj true true sA sS = .ok (b', ks', Y')) :
    Spec.sse d q v b'.A (ks'.map (·.c)) ≤ Spec.sse d q v b.A (ks.map (·.c)) := by
  obtain ⟨b1, mid, ks1, Y1, h1, ⟨-, hbest⟩, hup, hsame, -⟩ := C87_mstep d q b ks Yadj sA sS FA F hsA ⟨_, hFA⟩ htop hS hpos
    hgood hadj
  rw [h] at h1
  cases h1
  obtain ⟨c, hc, hvc⟩ := hv0
  have h2 := hbest b.A hFA
  rw [sse_scale d q v _ c hvc, sse_scale d q v _ c hvc] at h2
  have h3 := le_of_mul_le_mul_left h2 (inv_pos.mpr hc)
  have h4 := updated_sse hup v hv hF
  rw [List.nil_append, List.nil_append] at h4
  refine le_trans (le_of_eq ?_) (h4.trans h3)
  refine sse_congr d q v b'.A _ _ fun l t i => ?_
  unfold SameMeans at hsame
  have := congrArg (List.map fun f : Fin nl → Fin 2 → Fin ni → ℝ => f l t i) hsame
  simp only [List.map_map, Function.comp_def] at this ⊢
  rw [this]

/-- The hypotheses on shares and admissibility of `C88_effects_partial` at `exCol`: base and column have half of the
variance each. -/
example (s : Solver) : (∃ c > 0, ∀ (l : Fin 2) (t : Fin 2) (i : Fin 2), (1 : ℝ) ^ 2 = c * (fun _ _ _ => 2) l t i) ∧
    (∀ k ∈ [exCol s], ∃ c > 0, ∀ l t i, k.c.var l t i = c * (fun _ _ _ => 2) l t i) ∧
    ∀ k ∈ [exCol s], ∃ y, SameAcross 2 2 y ∧ ∀ l t i, Spec.eff (k.withA y).c l t i = Spec.eff k.c l t i := by
  refine ⟨⟨1 / 2, by norm_num, fun _ _ _ => by norm_num⟩, fun k hk => ⟨1 / 2, by norm_num, fun l t i => ?_⟩,
    fun k hk => ⟨fun _ => 0, fun _ _ _ _ => rfl, fun l t i => ?_⟩⟩ <;> rw [List.mem_singleton] at hk <;> rw [hk]
  · simp [exCol, Ctrl.var]
  · simp [exCol, Col.withA, Ctrl.setA, Spec.eff]

/-! ## The likelihood may fall -/

/-- With controls, the log density of a wage is normal with mean the sum of effects and variance the sum of
variances. -/
theorem lpWage_normal (d : Data ni nk) (b : Base nl nk) (cs : List (Ctrl ni nl)) (hcs : cs ≠ []) (t : Fin 2) (l : Fin nl)
    (i : Fin ni) : lpWage d b cs t l i =
      Util.logpi - 1 / 2 * Real.log (b.S t l (d.G t i) ^ 2 + (cs.map fun c => c.var l t i).sum) -
        (d.Y t i - (b.A t l (d.G t i) + (cs.map fun c => Spec.eff c l t i).sum)) ^ 2 /
          (2 * (b.S t l (d.G t i) ^ 2 + (cs.map fun c => c.var l t i).sum)) := by
  unfold lpWage
  rw [if_neg (by simpa using hcs), eff_sum, ← var_sum_eq]
  simp only [lnvar, Util.lognormpdf]
  rw [add_assoc, add_assoc]

/-- Two movers earning 1 and -1 in both periods; one worker type, one firm type. -/
def faD : Data 2 1 := ⟨fun _ i => 1 - 2 * i.val, fun _ _ => 0, fun _ _ => 1⟩

/-- A control variable with a single category, interacted with worker type. -/
noncomputable def faCol (sA sS : Solver) : Col 2 1 :=
  ⟨.catW (fun _ _ => 0) (fun _ _ _ => 0) (fun _ _ _ => √(1 / 2)), 1, sA, sS⟩

noncomputable def faB : Base 1 1 := ⟨fun _ _ _ => 0, fun _ _ _ => √(1 / 2)⟩

noncomputable def faS (sA sS : Solver) : StateC 2 1 1 := ⟨faB, [faCol sA sS], fun _ _ => 1, fun _ _ => 0, none, []⟩

theorem fa_half : √(1 / 2 : ℝ) ^ 2 = 1 / 2 := Real.sq_sqrt (by norm_num)

theorem fa_lse (f : Fin 1 → ℝ) : Util.logsumexp f = f 0 := by
  rw [Util.C04_exact]
  simp

theorem fa_lik (b : Base 1 1) (c : Ctrl 2 1) (pk1 : ℕ → Fin 1 → ℝ) (hpk : ∀ p l, pk1 p l = 1) (v : Fin 2 → ℝ)
    (hv : ∀ t i, b.S t 0 0 ^ 2 + c.var 0 t i = v t) (hm : ∀ t i, b.A t 0 0 + Spec.eff c 0 t i = 0) (first : Bool) :
    likMovers faD b [c] pk1 first false 1 = ∑ t, (Util.logpi - 1 / 2 * Real.log (v t) - 1 / (2 * v t)) := by
  have hw : ∀ t l i, lpWage faD b [c] t l i = Util.logpi - 1 / 2 * Real.log (v t) - 1 / (2 * v t) := by
    intro t l i
    have hl : l = 0 := Subsingleton.elim _ _
    subst hl
    rw [lpWage_normal _ _ _ (by simp)]
    have hG : faD.G t i = 0 := rfl
    simp only [List.map_cons, List.map_nil, List.sum_cons, List.sum_nil, add_zero, hG, hv, hm, sub_zero]
    congr 2
    unfold faD
    fin_cases i <;> norm_num
  unfold likMovers meanLse
  simp only [Bool.and_false, Bool.false_eq_true, if_false, add_zero, fa_lse]
  unfold lpMovers
  simp only [hw, hpk, Real.log_one, zero_add]
  simp only [faD, Fin.sum_univ_two, one_mul]
  push_cast
  ring

theorem fa_decrease (v : ℝ) (hv : 2 ≤ v) :
    Util.logpi - 1 / 2 * Real.log v - 1 / (2 * v) < Util.logpi - 1 / 2 * Real.log 1 - 1 / (2 * 1) := by
  have h1 : Real.log v = Real.log 2 + Real.log (v / 2) := by
    rw [← Real.log_mul (by norm_num) (by positivity)]
    congr 1; ring
  have h2 : 1 - (v / 2)⁻¹ ≤ Real.log (v / 2) := Real.one_sub_inv_le_log_of_pos (by positivity)
  have h3 := Real.log_two_gt_d9
  have h4 : (v / 2)⁻¹ = 2 / v := by rw [inv_div]
  have h5 : 1 / v ≤ 1 / 2 := one_div_le_one_div_of_le (by norm_num) hv
  have h6 : 1 / (2 * v) = 1 / v / 2 := by rw [div_div]; ring
  have h7 : 2 / v = 2 * (1 / v) := by ring
  rw [h6, h1, Real.log_one]
  rw [h4, h7] at h2
  linarith

/-- C88 fails: the data and starting values `faD`, `faS` (current effects optimal, total variance equal to the variance
of the wages, one control variable with a single category) make one iteration of EM, with any right solvers and any
lower bound on variances, lower the likelihood. -/
theorem C88_likelihood_falls (lb : ℝ) (hlb : 0 ≤ lb) (sA sS kA kS : Solver)
    (hsA : RightSolver (2 * (1 * 1)) (fun _ => True) sA) (hkA : RightSolver (2 * (1 * 1)) (fun _ => True) kA)
    (hsS : RightSolver (2 * (1 * 1)) (BoundS 1 1 lb) sS)
    (hkS : RightSolver (2 * (1 * 1)) (fun x => ∀ p < 2 * (1 * 1), lb ≤ x p) kS)
    (minType : (Fin 2 → Fin 1 → Fin 1 → ℝ) → ℕ) (thr : ℝ) :
    ∃ s, loopC faD ⟨true, true, false, 1, thr⟩ (fun _ => sA) sS minType 1 true none 0 (faS kA kS) = .ok s ∧
      likMovers faD s.base (s.cols.map (·.c)) s.pk1 false false 1 <
      likMovers faD (faS kA kS).base ((faS kA kS).cols.map (·.c)) (faS kA kS).pk1 true false 1 := by
  set q : Fin 2 → Fin 1 → ℝ := posterior (lpMoversC faD faB [(faCol kA kS).c] (sumNonA [(faCol kA kS).c]) fun _ _ => 1)
    with hq
  have hq1 : ∀ i l, q i l = 1 := by
    intro i l
    have h := posterior_sum (lpMoversC faD faB [(faCol kA kS).c] (sumNonA [(faCol kA kS).c]) fun _ _ => 1) i
    rw [Fin.sum_univ_one] at h
    have hl : l = 0 := Subsingleton.elim _ _
    rw [hl, hq]
    exact h
  have htop : TopObserved faD := fun t => ⟨0, rfl⟩
  have hS : ∀ t l k, 0 < faB.S t l k := fun t l k => Real.sqrt_pos.mpr (by norm_num)
  have hfil : ∀ t k, (univ.filter fun i => faD.G t i = k) = univ := fun t k => by
    ext i; simp only [mem_filter, mem_univ, true_and, iff_true]; exact Subsingleton.elim _ _
  have hW : ∀ t i, faD.W t i = 1 := fun _ _ => rfl
  have hcell : ∀ t l k, 0 < cellW faD q t l k := by
    intro t l k
    unfold cellW
    rw [hfil]
    simp [hq1, hW]
  have hok : ColOk (faCol kA kS) := ⟨by simp [faCol], fun t i => by simp [faCol], fun t => ⟨0, by simp [faCol]⟩⟩
  have hmass : ∀ (t : Fin 2) (l : Fin 1) (c : ℕ), c < (faCol kA kS).n → 0 < Spec.mass faD q (faCol kA kS) t l c := by
    intro t l c hc
    have hc : c < 1 := hc
    have hc0 : c = 0 := by omega
    subst hc0
    unfold Spec.mass
    refine sum_pos' (fun i _ => ?_) ⟨0, mem_filter.mpr ⟨mem_univ _, rfl⟩, ?_⟩ <;>
      simp [hq1, hW, faCol, Ctrl.var, Ctrl.load]
  have hgood : ∀ k ∈ [faCol kA kS], GoodCol faD q k fun _ => True := by
    intro k hk
    rw [List.mem_singleton] at hk
    subst hk
    exact ⟨hok, hmass, hkA, ⟨fun _ => 0, trivial⟩, fun h => by simp [faCol, Ctrl.wi] at h⟩
  have hnon : sumNonA ([faCol kA kS].map (·.c)) = fun _ _ => 0 := sumNonA_zero (by simp [faCol, Ctrl.wi])
  have hadj : Adj faD ([faCol kA kS].map (·.c)) faD.Y := by
    intro t i
    rw [hnon]; ring
  have hcat : ∀ k ∈ [faCol kA kS], CatCol faD q lb k := by
    intro k hk
    rw [List.mem_singleton] at hk
    subst hk
    exact ⟨⟨_, _, _, rfl⟩, hok, hmass, hkS⟩
  obtain ⟨b', mid, ks', Y', hm, ⟨-, hbest⟩, hup, hsame, -⟩ := C87_mstep faD q faB [faCol kA kS] faD.Y sA sS (fun _ => True)
    (fun _ _ => True) hsA ⟨fun _ _ _ => 0, trivial⟩ htop hS hcell hgood hadj
  have hdc := C88_double_count faD q faB [faCol kA kS] faD.Y true sA sS lb hlb hsS htop hS hcell hcat hadj hm
  -- the effects stay at zero
  have hA0 : ∀ t, b'.A t 0 0 = 0 := by
    have h := hbest (fun _ _ _ => 0) trivial
    unfold Spec.sse at h
    simp only [Fin.sum_univ_two, Fin.sum_univ_one, hq1, faD, faCol, faB, Spec.eff, List.map_cons, List.map_nil,
      List.sum_cons, List.sum_nil, fa_half] at h
    norm_num at h
    intro t
    fin_cases t
    · show b'.A 0 0 0 = 0
      nlinarith [sq_nonneg (b'.A 0 0 0), sq_nonneg (b'.A 1 0 0)]
    · show b'.A 1 0 0 = 0
      nlinarith [sq_nonneg (b'.A 0 0 0), sq_nonneg (b'.A 1 0 0)]
  obtain ⟨x, rfl, hx⟩ : ∃ x, mid = [(faCol kA kS).withA x] ∧ ∀ y,
      Spec.sse faD q (fun l t i => (faCol kA kS).c.var l t i) b'.A ([(faCol kA kS).withA x].map (·.c)) ≤
      Spec.sse faD q (fun l t i => (faCol kA kS).c.var l t i) b'.A ([(faCol kA kS).withA y].map (·.c)) := by
    cases hup with
    | cons _ _ _ new x _ best rest =>
      cases rest
      exact ⟨x, rfl, fun y => best y trivial⟩
  have hx0 : ∀ t : Fin 2, x t.val = 0 := by
    have h := hx fun _ => 0
    unfold Spec.sse at h
    simp only [Fin.sum_univ_two, Fin.sum_univ_one, hq1, faD, faCol, Col.withA, Ctrl.setA, Ctrl.var, Spec.eff,
      List.map_cons, List.map_nil, List.sum_cons, List.sum_nil, fa_half, hA0] at h
    norm_num at h
    intro t
    fin_cases t
    · show x 0 = 0
      nlinarith [sq_nonneg (x 0), sq_nonneg (x 1)]
    · show x 1 = 0
      nlinarith [sq_nonneg (x 0), sq_nonneg (x 1)]
  -- the column keeps its shape
  obtain ⟨k', A2, S2, rfl, hk'⟩ : ∃ (k' : Col 2 1) (A2 S2 : Fin 2 → Fin 1 → ℕ → ℝ), ks' = [k'] ∧
      k'.c = .catW (fun _ _ => 0) A2 S2 := by
    obtain ⟨A', X, z, Z, -, hz, -, hmap, -, -⟩ := mstepC_inv _ _ _ _ _ _ _ _ hm
    obtain ⟨new, hn, hal⟩ := colsA_alike _ _ _ _ _ _ _ hz
    cases hal with
    | cons ha hal =>
      rename_i k1 _
      cases hal
      rw [hn] at hmap
      have hc1 := (hcat _ (List.mem_singleton.mpr rfl)).of_alike ha
      obtain ⟨y, hy⟩ := ha.shape
      obtain ⟨A2, h2⟩ : ∃ A2, k1.c = .catW (fun _ _ => 0) A2 (fun _ _ _ => √(1 / 2)) := by
        rcases hy with hy | hy
        · exact ⟨_, hy⟩
        · exact ⟨_, hy⟩
      obtain ⟨S', h3, -⟩ := C88_category_variance faD q (resid2 faD A' z) k1 lb hlb hc1.ok _ _ _ h2 hc1.mass hc1.right
      simp only [List.nil_append, List.mapM_cons, List.mapM_nil, h3, bind, Except.bind, pure, Except.pure,
        Except.ok.injEq] at hmap
      exact ⟨_, _, _, hmap.symm, rfl⟩
  have heff : ∀ t i, Spec.eff k'.c 0 t i = 0 := by
    intro t i
    unfold SameMeans at hsame
    simp only [List.map_cons, List.map_nil, List.cons.injEq, and_true] at hsame
    have h := congrFun (congrFun (congrFun hsame 0) t) i
    rw [h]
    simpa [faCol, Col.withA, Ctrl.setA, Spec.eff] using hx0 t
  -- variances
  have hvar : ∀ t i, k'.c.var 0 t i = S2 t 0 0 ^ 2 := fun t i => by rw [hk']; rfl
  have hv : ∀ t, 2 ≤ b'.S t 0 0 ^ 2 + S2 t 0 0 ^ 2 := by
    intro t
    have h := hdc t 0
    unfold Spec.rss Spec.tvar at h
    simp only [List.map_cons, List.map_nil, List.sum_cons, List.sum_nil, heff, hvar, hq1, Fin.sum_univ_two,
      List.length_singleton] at h
    simp only [hA0, faD] at h
    norm_num at h
    linarith
  obtain ⟨s, hs, hb, hc, hp⟩ : ∃ s, loopC faD ⟨true, true, false, 1, thr⟩ (fun _ => sA) sS minType 1 true none 0
      (faS kA kS) = .ok s ∧ s.base = b' ∧ s.cols = [k'] ∧ s.pk1 = fun _ _ => 1 := by
    have hany : ([faCol kA kS].any fun k => !k.c.wi) = false := by simp [faCol, Ctrl.wi]
    have hq' : posterior (lpMoversC faD faB ([faCol kA kS].map (·.c)) (sumNonA ([faCol kA kS].map (·.c))) fun _ _ => 1) =
        q := rfl
    simp only [loopC, faS, stop, nextPk1, bind, Except.bind, if_true, Bool.false_eq_true, if_false, Option.getD_none,
      hany, hq', hm]
    exact ⟨_, rfl, rfl, rfl, rfl⟩
  refine ⟨s, hs, ?_⟩
  rw [hb, hc, hp]
  have h1 := fa_lik faB (faCol kA kS).c (fun _ _ => 1) (fun _ _ => rfl) (fun _ => 1)
    (fun t i => by simp only [faB, faCol, Ctrl.var, fa_half]; norm_num) (fun t i => by simp [faB, faCol, Spec.eff]) true
  have h2 := fa_lik b' k'.c (fun _ _ => 1) (fun _ _ => rfl) (fun t => b'.S t 0 0 ^ 2 + S2 t 0 0 ^ 2)
    (fun t i => by rw [hvar]) (fun t i => by rw [hA0, heff, add_zero]) false
  refine lt_of_eq_of_lt h2 (lt_of_lt_of_eq ?_ h1.symm)
  exact sum_lt_sum_of_nonempty univ_nonempty fun t _ => fa_decrease _ (hv t)

/-- Solvers as assumed exist. -/
example : ∃ sA sS : Solver, RightSolver (2 * (1 * 1)) (fun _ => True) sA ∧
    RightSolver (2 * (1 * 1)) (fun x => ∀ p < 2 * (1 * 1), (1 / 10000000 : ℝ) ≤ x p) sS ∧
    RightSolver (2 * (1 * 1)) (BoundS 1 1 (1 / 10000000)) sS := by
  obtain ⟨sA, hA⟩ := rightSolver_free (2 * (1 * 1))
  obtain ⟨sS, hS⟩ := rightSolver_box (2 * (1 * 1)) (1 / 10000000)
  exact ⟨sA, sS, hA, hS, hS⟩

end Pytwoway.BLM
