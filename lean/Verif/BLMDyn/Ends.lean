import Verif.BLMDyn.EMBad
import Verif.BLMDyn.Solver
import Verif.BLM.Ends

/-! # Fits of the dynamic model that end by themselves (C143) -/

namespace Pytwoway.Dynamic

open Finset BLM

variable {ni nl nk : ℕ}

/-- The highest value of the average log likelihood of four wages when no variance is below `lb`. -/
noncomputable def Spec.topWages (ni : ℕ) (lb : ℝ) : ℝ := (∑ _i : Fin ni, 4 * BLM.Spec.topLogDensity lb) / ni

/-! ## Recorded likelihoods -/

/-- A list that never falls and gains the threshold at every step but the last. -/
theorem gain_list {thr T : ℝ} (hthr : 0 < thr) : ∀ (L : List ℝ) (x : ℝ), (x :: L).Pairwise (· ≤ ·) →
    (∀ l0 a b l1, x :: L = l0 ++ a :: b :: l1 → l1 ≠ [] → thr ≤ |b - a|) → (∀ z ∈ x :: L, z ≤ T) →
    (((x :: L).length : ℝ) - 2) * thr ≤ T - x := by
  intro L
  induction L with
  | nil =>
    intro x _ _ hT
    have := hT x (by simp)
    simp only [List.length_cons, List.length_nil]
    push_cast
    nlinarith
  | cons y L ih =>
    intro x hp hg hT
    rw [List.pairwise_cons] at hp
    have hxy := hp.1 y (by simp)
    cases L with
    | nil =>
      have := hT x (by simp)
      simp only [List.length_cons, List.length_nil]
      push_cast
      nlinarith
    | cons z L =>
      have h1 := ih y hp.2 (fun l0 a b l1 h hl => hg (x :: l0) a b l1 (by rw [h]; rfl) hl)
        fun w hw => hT w (List.mem_cons_of_mem _ hw)
      have h2 := hg [] x y (z :: L) rfl (by simp)
      rw [abs_of_nonneg (by linarith)] at h2
      simp only [List.length_cons] at h1 ⊢
      push_cast at h1 ⊢
      nlinarith

/-! ## Bounds -/

theorem lnsd_le {x mu s lb : ℝ} (hlb : 0 < lb) (hs : 0 < s) (hv : lb ≤ s ^ 2) :
    lnsd x mu s ≤ BLM.Spec.topLogDensity lb := by
  have hl : Real.log lb ≤ Real.log (s ^ 2) := Real.log_le_log hlb hv
  rw [Real.log_pow] at hl
  have hp : (2 * Real.pi) ≠ 0 := by positivity
  have : 0 ≤ (x - mu) ^ 2 / (2 * s ^ 2) := by positivity
  simp only [lnsd, Util.lognormpdf, Util.logpi, BLM.Spec.topLogDensity]
  rw [Real.log_mul hp hlb.ne']
  norm_num at *
  linarith

/-- No standard deviation of a period is below the root of `lb`. -/
def Floor (lb : ℝ) (b : DBase nl nk) : Prop := ∀ p l k, lb ≤ b.Sw p l k ^ 2

theorem lpSt_le (b : DBase nl nk) (hb : PosS b) {lb : ℝ} (hlb : 0 < lb) (hf : Floor lb b) (r : Rhos) (l : Fin nl)
    (g : Fin nk) (y : Wages) : lpStayersPlain b r l g y ≤ 4 * BLM.Spec.topLogDensity lb := by
  have h1 : lnsd y.y2 (b.Aw .p2s l g) (b.Sw .p2s l g) ≤ _ := lnsd_le hlb (hb.1 _ _ _) (hf .p2s l g)
  have h2 : lnvar (y.y3 - r.R32 * (y.y2 - b.Aw .p2s l g)) (b.Aw .p3s l g)
      (b.Sw .p3s l g ^ 2 + (r.R32 * b.Sw .p2s l g) ^ 2) ≤ _ :=
    lnvar_le hlb ((hf .p3s l g).trans (le_add_of_nonneg_right (sq_nonneg _)))
  have h3 : lnvar (y.y1 - r.R12 * (y.y2 - b.Aw .p2ma l g)) (b.Aw .p12 l g)
      (b.Sw .p12 l g ^ 2 + (r.R12 * b.Sw .p2ma l g) ^ 2) ≤ _ :=
    lnvar_le hlb ((hf .p12 l g).trans (le_add_of_nonneg_right (sq_nonneg _)))
  have h4 : lnvar (y.y4 - r.R43 * (y.y3 - b.Aw .p3ma l g)) (b.Aw .p43 l g)
      (b.Sw .p43 l g ^ 2 + (r.R43 * b.Sw .p3ma l g) ^ 2) ≤ _ :=
    lnvar_le hlb ((hf .p43 l g).trans (le_add_of_nonneg_right (sq_nonneg _)))
  unfold lpStayersPlain
  linarith

theorem lpMv_le (b : DBase nl nk) {lb : ℝ} (hlb : 0 < lb) (hf : Floor lb b) (r : Rhos) (l : Fin nl)
    (G : Fin 2 → Fin nk) (y : Wages) : lpMoversPlain b r l G y ≤ 4 * BLM.Spec.topLogDensity lb := by
  have h1 : lnvar (y.y1 - r.R12 * (y.y2 - b.Aw .p2ma l (G 0))) (b.Aw .p12 l (G 0))
      (b.Sw .p12 l (G 0) ^ 2 + (r.R12 * b.Sw .p2ma l (G 0)) ^ 2) ≤ _ :=
    lnvar_le hlb ((hf .p12 l (G 0)).trans (le_add_of_nonneg_right (sq_nonneg _)))
  have h2 : lnvar y.y2 (b.Aw .p2ma l (G 0) + b.Ab .p2mb (G 1)) (b.Sw .p2ma l (G 0) ^ 2 + b.Sb .p2mb (G 1) ^ 2) ≤ _ :=
    lnvar_le hlb ((hf .p2ma l (G 0)).trans (le_add_of_nonneg_right (sq_nonneg _)))
  have h3 : lnvar (y.y3 - r.R32 * (y.y2 - b.Aw .p2ma l (G 0) - b.Ab .p2mb (G 1)))
      (b.Aw .p3ma l (G 1) + b.Ab .p3mb (G 0))
      (b.Sw .p3ma l (G 1) ^ 2 + b.Sb .p3mb (G 0) ^ 2 +
        r.R32 ^ 2 * (b.Sw .p2ma l (G 0) ^ 2 + b.Sb .p2mb (G 1) ^ 2)) ≤ _ :=
    lnvar_le hlb (by
      have h0 := hf .p3ma l (G 1)
      have : 0 ≤ b.Sb .p3mb (G 0) ^ 2 + r.R32 ^ 2 * (b.Sw .p2ma l (G 0) ^ 2 + b.Sb .p2mb (G 1) ^ 2) := by positivity
      linarith)
  have h4 : lnvar (y.y4 - r.R43 * (y.y3 - b.Aw .p3ma l (G 1))) (b.Aw .p43 l (G 1))
      (b.Sw .p43 l (G 1) ^ 2 + (r.R43 * b.Sw .p3ma l (G 1)) ^ 2) ≤ _ :=
    lnvar_le hlb ((hf .p43 l (G 1)).trans (le_add_of_nonneg_right (sq_nonneg _)))
  unfold lpMoversPlain
  linarith

theorem stayers_top' [NeZero nl] (d : DData ni nk) (b : DBase nl nk) (hb : PosS b) {lb : ℝ} (hlb : 0 < lb)
    (hf : Floor lb b) (r : Rhos) (pk : ℕ → Fin nl → ℝ) (hpk : GoodPk nk pk) :
    meanLse (lpSt d b r pk) ≤ Spec.topWages ni lb := by
  unfold meanLse Spec.topWages
  refine div_le_div_of_nonneg_right (sum_le_sum fun i _ => ?_) (Nat.cast_nonneg _)
  have hk := hpk _ (d.G 0 i).isLt
  exact lse_le _ _ _ hk.1 hk.2 fun l => lpSt_le b hb hlb hf r l _ _

theorem movers_top' [NeZero nl] (d : DData ni nk) (b : DBase nl nk) {lb : ℝ} (hlb : 0 < lb)
    (hf : Floor lb b) (r : Rhos) (pk : ℕ → Fin nl → ℝ) (hpk : GoodPk (nk ^ 2) pk) :
    meanLse (lpMv d b r pk) ≤ Spec.topWages ni lb := by
  unfold meanLse Spec.topWages
  refine div_le_div_of_nonneg_right (sum_le_sum fun i _ => ?_) (Nat.cast_nonneg _)
  have hk := hpk _ (C75_flow d i i).1
  exact lse_le _ _ _ hk.1 hk.2 fun l => lpMv_le b hlb hf r l _ _

/-! ## Stayers -/

theorem stepSt_sds [NeZero nl] (d : DData ni nk) (o : StOpts) (sA sS : QP (Fin nl × JS nk))
    (hS : o.updS = false) (hR : o.updRho = false) (iter : ℕ)
    (q : Fin ni → Fin nl → ℝ) (s s' : StState nl nk) (h : stepSt d o sA sS iter q s = .ok s') :
    s'.base.Sw = s.base.Sw := by
  unfold stepSt at h
  cases hu : nextPk o.updPk nk (fun i => (d.G 0 i).val) q o.dprior s.pk0 with
  | error m => rw [hu] at h; cases h
  | ok pk' =>
    rw [hu] at h
    simp only [bind, Except.bind, hR, Bool.false_and, Bool.false_eq_true, if_false, hS, Bool.or_false] at h
    split at h
    · rename_i hupd
      simp only [Except.ok.injEq] at h
      subst h
      simp only [mstepSt, hupd, if_true, Bool.false_eq_true, if_false, solveASt]
      split <;> rfl
    · simp only [Except.ok.injEq] at h
      subst h
      rfl

theorem loopSt_top [NeZero nl] (d : DData ni nk) (o : StOpts) (sA sS : QP (Fin nl × JS nk))
    (hs : ∀ P q x, sA P q = .ok (some x) → ∀ y, qpVal P q x ≤ qpVal P q y)
    (hS : o.updS = false) (hR : o.updRho = false) (hd : o.dprior = 1) (hδ : o.δ = 0) {lb : ℝ} (hlb : 0 < lb)
    (fuel : ℕ) :
    ∀ (iter : ℕ) (prev : Option ℝ) (s s' : StState nl nk), PosS s.base → GoodPk nk s.pk0 → Floor lb s.base →
      loopSt d o sA sS fuel iter prev s = .ok s' →
      ∃ new, s'.liks = s.liks ++ new ∧ (∀ z ∈ new, z ≤ Spec.topWages ni lb) ∧
        (fuel = 0 ∧ new = [] ∨ ∃ rest, new = meanLse (lpSt d s.base s.r s.pk0) :: rest) := by
  induction fuel with
  | zero =>
    intro iter prev s s' _ _ _ h
    simp only [loopSt, Except.ok.injEq] at h
    exact ⟨[], by simp [h], by simp, .inl ⟨rfl, rfl⟩⟩
  | succ fuel ih =>
    intro iter prev s s' hb hpk hf h
    have htop := stayers_top' d s.base hb hlb hf s.r s.pk0 hpk
    unfold loopSt at h
    simp only [hd, likOf_plain] at h
    split at h
    · simp only [Except.ok.injEq] at h
      exact ⟨[meanLse (lpSt d s.base s.r s.pk0)], by rw [← h], by simpa using htop, .inr ⟨_, rfl⟩⟩
    · cases hst : stepSt d o sA sS iter (posterior (lpSt d s.base s.r s.pk0))
          { s with liks := s.liks ++ [meanLse (lpSt d s.base s.r s.pk0)] } with
      | error m => rw [hst] at h; cases h
      | ok s2 =>
        rw [hst] at h
        simp only [bind, Except.bind] at h
        obtain ⟨h1, h2, h3, -⟩ := stepSt_improves d o sA sS hs hS hR hd hδ iter
          { s with liks := s.liks ++ [meanLse (lpSt d s.base s.r s.pk0)] } s2 hb hpk hst
        have hf2 : Floor lb s2.base := by
          have := stepSt_sds d o sA sS hS hR iter _ _ _ hst
          unfold Floor
          rw [this]
          exact hf
        obtain ⟨new, e1, e2, -⟩ := ih _ _ s2 s' h1 h2 hf2 h
        refine ⟨meanLse (lpSt d s.base s.r s.pk0) :: new, ?_, ?_, .inr ⟨_, rfl⟩⟩
        · rw [e1, h3]; simp
        · intro z hz
          rcases List.mem_cons.1 hz with rfl | hz
          · exact htop
          · exact e2 z hz

theorem loopSt_more [NeZero nl] (d : DData ni nk) (o : StOpts) (sA sS : QP (Fin nl × JS nk)) (fuel k : ℕ) :
    ∀ (iter : ℕ) (prev : Option ℝ) (s s' : StState nl nk), loopSt d o sA sS fuel iter prev s = .ok s' →
      s'.liks.length < s.liks.length + fuel → loopSt d o sA sS (fuel + k) iter prev s = .ok s' := by
  induction fuel with
  | zero =>
    intro iter prev s s' h hl
    simp only [loopSt, Except.ok.injEq] at h
    subst h
    omega
  | succ fuel ih =>
    intro iter prev s s' h hl
    rw [show fuel + 1 + k = fuel + k + 1 by ring]
    unfold loopSt at h ⊢
    dsimp only at h ⊢
    split at h
    · rename_i hs
      rw [if_pos hs]
      exact h
    · rename_i hs
      rw [if_neg hs]
      revert h
      cases hst : stepSt d o sA sS iter (posterior (lpSt d s.base s.r s.pk0))
          { s with liks := s.liks ++ [likOf (lpSt d s.base s.r s.pk0) nk s.pk0 (iter == 0) o.updPk o.dprior] } with
      | error m => intro h; cases h
      | ok s2 =>
        intro h
        simp only [bind, Except.bind] at h ⊢
        refine ih _ _ s2 s' h ?_
        have : s2.liks.length = s.liks.length + 1 := by
          unfold stepSt at hst
          revert hst
          cases nextPk o.updPk nk (fun i => (d.G 0 i).val) (posterior (lpSt d s.base s.r s.pk0)) o.dprior s.pk0 with
          | error m => intro hst; cases hst
          | ok pk =>
            intro hst
            simp only [bind, Except.bind] at hst
            split at hst
            · simp only [Except.ok.injEq] at hst; subst hst; simp
            · split at hst <;> (simp only [Except.ok.injEq] at hst; subst hst; simp)
        omega

/-- C143 for stayers: with a positive threshold, when only proportions and means are estimated (no prior, no ridge
term, no constraints on the means), the number of recorded likelihoods is at most two plus the distance from the
starting likelihood to its highest possible value, measured in thresholds; once `n_iters` exceeds that number the last
two likelihoods are closer than the threshold, and allowing more iterations returns the same.  The threshold is
`threshold_movers` (see C78). -/
theorem C143_stayers [NeZero nl] (d : DData ni nk) (o : StOpts) (sA sS : QP (Fin nl × JS nk))
    (hs : RightQP (fun _ => True) sA) (hS : o.updS = false) (hR : o.updRho = false) (hd : o.dprior = 1)
    (hδ : o.δ = 0) (hthr : 0 < o.thresholdMovers) (lb : ℝ) (hlb : 0 < lb) (nIters : ℕ) (b : DBase nl nk) (hb : PosS b)
    (hf : ∀ p l k, lb ≤ b.Sw p l k ^ 2) (r : Rhos) (pk0 : ℕ → Fin nl → ℝ) (hpk : GoodPk nk pk0)
    (s' : StState nl nk) (h : loopSt d o sA sS nIters 0 none ⟨b, r, pk0, []⟩ = .ok s') :
    let N := 2 + (Spec.topWages ni lb - Spec.logLik (fun i l => pk0 (d.G 0 i).val l)
      fun i l => Spec.stayerDensity (b.a l fun _ => d.G 0 i) (b.s2 l fun _ => d.G 0 i) r (d.y i)) / o.thresholdMovers
    (s'.liks.length : ℝ) ≤ N ∧ (N < nIters →
      (∃ pre x y, s'.liks = pre ++ [x, y] ∧ |y - x| < o.thresholdMovers) ∧
      ∀ more, loopSt d o sA sS (nIters + more) 0 none ⟨b, r, pk0, []⟩ = .ok s') := by
  intro N
  have hrec := C77_stayers_recorded d b hb r pk0 (fun i l => (hpk _ (d.G 0 i).isLt).1 l) true true
  rw [likOf_plain] at hrec
  have htop := stayers_top' d b hb hlb hf r pk0 hpk
  obtain ⟨new, e1, e2, e3⟩ := loopSt_top d o sA sS (fun P q x hx y => (hs.sound P q x hx).2 y trivial) hS hR hd hδ hlb
    nIters 0 none ⟨b, r, pk0, []⟩ s' hb hpk hf h
  obtain ⟨-, hstop, hgap⟩ := C78_stayers_partial d o sA sS nIters b r pk0 s' h
  have hmono := C77_stayers_partial d o sA sS hs hS hR hd hδ nIters b hb r pk0 hpk s' h
  simp only [List.nil_append] at e1
  have key : ((s'.liks.length : ℝ) - 2) * o.thresholdMovers ≤ Spec.topWages ni lb - meanLse (lpSt d b r pk0) := by
    rcases e3 with ⟨-, rfl⟩ | ⟨rest, rfl⟩
    · rw [e1]
      simp only [List.length_nil]
      push_cast
      nlinarith
    · rw [e1] at hmono hgap ⊢
      exact gain_list hthr _ _ hmono hgap e2
  have hN : (s'.liks.length : ℝ) ≤ N := by
    have : (s'.liks.length : ℝ) - 2 ≤ (Spec.topWages ni lb - meanLse (lpSt d b r pk0)) / o.thresholdMovers :=
      (le_div_iff₀ hthr).mpr key
    rw [hrec] at this
    simp only [N]
    linarith
  refine ⟨hN, fun hn => ?_⟩
  have hl : s'.liks.length < nIters := by exact_mod_cast hN.trans_lt hn
  exact ⟨hstop hl, fun k => loopSt_more d o sA sS nIters k _ _ _ s' h (by simpa using hl)⟩

/-! ## Movers -/

theorem stepMv_base [NeZero nl] {endo state : Bool} (d : DData ni nk) (o : MvOpts)
    (sA sS : QP (Fin nl × JM endo state nk)) (hA : o.updA = false) (hS : o.updS = false)
    (h12 : o.upd12 = false) (h43 : o.upd43 = false) (h32 : o.upd32 = false) (iter : ℕ) (q : Fin ni → Fin nl → ℝ)
    (s s' : MvState nl nk) (h : stepMv d o sA sS iter q s = .ok s') : s'.base = s.base := by
  unfold stepMv at h
  cases hu : nextPk o.updPk (nk ^ 2) (flow d) q o.dprior s.pk1 with
  | error m => rw [hu] at h; cases h
  | ok pk' =>
    rw [hu] at h
    simp only [bind, Except.bind, h12, h43, h32, hA, hS, Bool.or_false, Bool.false_and, Bool.false_eq_true,
      if_false, Except.ok.injEq] at h
    subst h
    rfl

/-- With only proportions updated the lowest firm type does not change. -/
theorem loopMv_fixed [NeZero nl] {endo state : Bool} (d : DData ni nk) (o : MvOpts)
    (sA sS : QP (Fin nl × JM endo state nk)) (minType : DBase nl nk → ℕ) (hA : o.updA = false) (hS : o.updS = false)
    (h12 : o.upd12 = false) (h43 : o.upd43 = false) (h32 : o.upd32 = false) (m : ℕ) (fuel : ℕ) :
    ∀ (iter : ℕ) (prev : Option ℝ) (pm : ℕ) (s : MvState nl nk), minType s.base = m →
      loopMv d o sA sS minType fuel iter prev pm s = loopMv d o sA sS (fun _ => m) fuel iter prev pm s := by
  induction fuel with
  | zero => intro iter prev pm s _; rfl
  | succ fuel ih =>
    intro iter prev pm s hm
    unfold loopMv
    simp only [hm]
    split
    · rfl
    · cases hst : stepMv d o sA sS iter (posterior (lpMv d s.base s.r s.pk1))
          { s with liks := s.liks ++ [likOf (lpMv d s.base s.r s.pk1) (nk ^ 2) s.pk1 (iter == 0) o.updPk o.dprior] } with
      | error m => rfl
      | ok s2 =>
        simp only [bind, Except.bind]
        exact ih _ _ _ s2 (by rw [stepMv_base d o sA sS hA hS h12 h43 h32 iter _ _ _ hst]; exact hm)

theorem loopMv_top [NeZero nl] {endo state : Bool} (d : DData ni nk) (o : MvOpts)
    (sA sS : QP (Fin nl × JM endo state nk)) (minType : DBase nl nk → ℕ) (hA : o.updA = false) (hS : o.updS = false)
    (h12 : o.upd12 = false) (h43 : o.upd43 = false) (h32 : o.upd32 = false) (hd : o.dprior = 1) {lb : ℝ}
    (hlb : 0 < lb) (fuel : ℕ) :
    ∀ (iter : ℕ) (prev : Option ℝ) (pm : ℕ) (s s' : MvState nl nk), GoodPk (nk ^ 2) s.pk1 → Floor lb s.base →
      loopMv d o sA sS minType fuel iter prev pm s = .ok s' →
      ∃ new, s'.liks = s.liks ++ new ∧ (∀ z ∈ new, z ≤ Spec.topWages ni lb) ∧
        (fuel = 0 ∧ new = [] ∨ ∃ rest, new = meanLse (lpMv d s.base s.r s.pk1) :: rest) := by
  induction fuel with
  | zero =>
    intro iter prev pm s s' _ _ h
    simp only [loopMv, Except.ok.injEq] at h
    exact ⟨[], by simp [h], by simp, .inl ⟨rfl, rfl⟩⟩
  | succ fuel ih =>
    intro iter prev pm s s' hpk hf h
    have htop := movers_top' d s.base hlb hf s.r s.pk1 hpk
    unfold loopMv at h
    simp only [hd, likOf_plain] at h
    split at h
    · simp only [Except.ok.injEq] at h
      exact ⟨[meanLse (lpMv d s.base s.r s.pk1)], by rw [← h], by simpa using htop, .inr ⟨_, rfl⟩⟩
    · cases hst : stepMv d o sA sS iter (posterior (lpMv d s.base s.r s.pk1))
          { s with liks := s.liks ++ [meanLse (lpMv d s.base s.r s.pk1)] } with
      | error m => rw [hst] at h; cases h
      | ok s2 =>
        rw [hst] at h
        simp only [bind, Except.bind] at h
        obtain ⟨h2, h3, -⟩ := stepMv_improves d o sA sS hA hS h12 h43 h32 hd iter
          { s with liks := s.liks ++ [meanLse (lpMv d s.base s.r s.pk1)] } s2 hpk hst
        have hf2 : Floor lb s2.base := by
          rw [stepMv_base d o sA sS hA hS h12 h43 h32 iter _ _ _ hst]
          exact hf
        obtain ⟨new, e1, e2, -⟩ := ih _ _ _ s2 s' h2 hf2 h
        refine ⟨meanLse (lpMv d s.base s.r s.pk1) :: new, ?_, ?_, .inr ⟨_, rfl⟩⟩
        · rw [e1, h3]; simp
        · intro z hz
          rcases List.mem_cons.1 hz with rfl | hz
          · exact htop
          · exact e2 z hz

theorem loopMv_more [NeZero nl] {endo state : Bool} (d : DData ni nk) (o : MvOpts)
    (sA sS : QP (Fin nl × JM endo state nk)) (minType : DBase nl nk → ℕ) (fuel k : ℕ) :
    ∀ (iter : ℕ) (prev : Option ℝ) (pm : ℕ) (s s' : MvState nl nk),
      loopMv d o sA sS minType fuel iter prev pm s = .ok s' →
      s'.liks.length < s.liks.length + fuel → loopMv d o sA sS minType (fuel + k) iter prev pm s = .ok s' := by
  induction fuel with
  | zero =>
    intro iter prev pm s s' h hl
    simp only [loopMv, Except.ok.injEq] at h
    subst h
    omega
  | succ fuel ih =>
    intro iter prev pm s s' h hl
    rw [show fuel + 1 + k = fuel + k + 1 by ring]
    unfold loopMv at h ⊢
    dsimp only at h ⊢
    split at h
    · rename_i hs
      rw [if_pos hs]
      exact h
    · rename_i hs
      rw [if_neg hs]
      revert h
      cases hst : stepMv d o sA sS iter (posterior (lpMv d s.base s.r s.pk1))
          { s with liks := s.liks ++ [likOf (lpMv d s.base s.r s.pk1) (nk ^ 2) s.pk1 (iter == 0) o.updPk o.dprior] } with
      | error m => intro h; cases h
      | ok s2 =>
        intro h
        simp only [bind, Except.bind] at h ⊢
        refine ih _ _ _ s2 s' h ?_
        have : s2.liks.length = s.liks.length + 1 := by
          unfold stepMv at hst
          revert hst
          cases nextPk o.updPk (nk ^ 2) (flow d) (posterior (lpMv d s.base s.r s.pk1)) o.dprior s.pk1 with
          | error m => intro hst; cases hst
          | ok pk =>
            intro hst
            simp only [bind, Except.bind] at hst
            split at hst
            · simp only [Except.ok.injEq] at hst; subst hst; simp
            · split at hst <;> (simp only [Except.ok.injEq] at hst; subst hst; simp)
        omega

/-- C143 for movers: the same when only proportions are estimated, whatever the other settings. -/
theorem C143_movers [NeZero nl] {endo state : Bool} (d : DData ni nk) (o : MvOpts)
    (sA sS : QP (Fin nl × JM endo state nk)) (minType : DBase nl nk → ℕ) (hA : o.updA = false) (hS : o.updS = false)
    (h12 : o.upd12 = false) (h43 : o.upd43 = false) (h32 : o.upd32 = false) (hd : o.dprior = 1)
    (hthr : 0 < o.thresholdMovers) (lb : ℝ) (hlb : 0 < lb) (nIters pm : ℕ) (b : DBase nl nk) (hb : PosS b)
    (hf : ∀ p l k, lb ≤ b.Sw p l k ^ 2) (r : Rhos) (pk1 : ℕ → Fin nl → ℝ) (hpk : GoodPk (nk ^ 2) pk1)
    (s' : MvState nl nk) (h : loopMv d o sA sS minType nIters 0 none pm ⟨b, r, pk1, []⟩ = .ok s') :
    let N := 2 + (Spec.topWages ni lb - Spec.logLik (fun i l => pk1 (flow d i) l)
      fun i l => Spec.moverDensity (b.a l fun t => d.G t i) (b.s2 l fun t => d.G t i) r (d.y i)) / o.thresholdMovers
    (s'.liks.length : ℝ) ≤ N ∧ (N < nIters →
      (∃ pre x y, s'.liks = pre ++ [x, y] ∧ |y - x| < o.thresholdMovers) ∧
      ∀ more, loopMv d o sA sS minType (nIters + more) 0 none pm ⟨b, r, pk1, []⟩ = .ok s') := by
  intro N
  have hrec := C77_movers_recorded d b hb r pk1 (fun i l => (hpk _ (C75_flow d i i).1).1 l) true true
  rw [likOf_plain] at hrec
  have htop := movers_top' d b hlb hf r pk1 hpk
  obtain ⟨new, e1, e2, e3⟩ := loopMv_top d o sA sS minType hA hS h12 h43 h32 hd hlb nIters 0 none pm
    ⟨b, r, pk1, []⟩ s' hpk hf h
  have h' := h
  rw [loopMv_fixed d o sA sS minType hA hS h12 h43 h32 (minType b) nIters 0 none pm _ rfl] at h'
  obtain ⟨-, hstop, hgap⟩ := C78_movers_stop d o sA sS (minType b) pm nIters b r pk1 s' h'
  have hmono := C77_movers_partial d o sA sS minType hA hS h12 h43 h32 hd nIters pm b r pk1 hpk s' h
  simp only [List.nil_append] at e1
  have key : ((s'.liks.length : ℝ) - 2) * o.thresholdMovers ≤ Spec.topWages ni lb - meanLse (lpMv d b r pk1) := by
    rcases e3 with ⟨-, rfl⟩ | ⟨rest, rfl⟩
    · rw [e1]
      simp only [List.length_nil]
      push_cast
      nlinarith
    · rw [e1] at hmono hgap ⊢
      exact gain_list hthr _ _ hmono hgap e2
  have hN : (s'.liks.length : ℝ) ≤ N := by
    have : (s'.liks.length : ℝ) - 2 ≤ (Spec.topWages ni lb - meanLse (lpMv d b r pk1)) / o.thresholdMovers :=
      (le_div_iff₀ hthr).mpr key
    rw [hrec] at this
    simp only [N]
    linarith
  refine ⟨hN, fun hn => ?_⟩
  have hl : s'.liks.length < nIters := by exact_mod_cast hN.trans_lt hn
  exact ⟨hstop hl, fun k => loopMv_more d o sA sS minType nIters k _ _ _ _ s' h (by simpa using hl)⟩

/-- Settings that update proportions only. -/
def exOnlyPk (thr : ℝ) : MvOpts where
  updA := false
  updS := false
  upd12 := false
  upd43 := false
  upd32 := false
  updPk := true
  dprior := 1
  thresholdMovers := thr
  δ := 0

/-- Non-vacuity: four workers covering all pairs of two firm types, two worker types, any wages and any positive
threshold: from some number of iterations on, stayers' fits (means and proportions) and movers' fits (proportions)
return the same answer for ever. -/
theorem C143_case (thr : ℝ) (hthr : 0 < thr) (y : Fin 4 → Wages) :
    ∃ (d : DData 4 2) (sA sS : QP (Fin 2 × JS 2)) (b : DBase 2 2) (n : ℕ), d.y = y ∧
      (∃ s', ∀ more, loopSt d ⟨true, false, false, true, 1, thr, 0, 0⟩ sA sS (n + more) 0 none
        ⟨b, ⟨1 / 2, 1 / 3, 1⟩, fun _ _ => 1 / 2, []⟩ = .ok s') ∧
      ∃ (sA' sS' : QP (Fin 2 × JM true true 2)) (s' : MvState 2 2), ∀ more,
        loopMv d (exOnlyPk thr) sA' sS' (fun _ => 0) (n + more) 0 none 0
          ⟨b, ⟨1 / 2, 1 / 3, 1⟩, fun _ _ => 1 / 2, []⟩ = .ok s' := by
  obtain ⟨sA, hsA⟩ := rightQP_free (Fin 2 × JS 2)
  obtain ⟨sA', hsA'⟩ := rightQP_free (Fin 2 × JM true true 2)
  let d : DData 4 2 := ⟨y, fun t i => if t = 0 then ⟨i.val % 2, by omega⟩ else ⟨i.val / 2, by omega⟩⟩
  let b : DBase 2 2 := ⟨fun _ l k => l + k, fun _ _ => 0, fun _ _ _ => 1, fun _ _ => 1⟩
  have hall : ∀ k k', ∃ i, d.G 0 i = k ∧ d.G 1 i = k' := by
    intro k k'
    refine ⟨⟨k.val + 2 * k'.val, by omega⟩, ?_, ?_⟩
    · ext; simp [d]; omega
    · ext; simp [d]; omega
  have hb : PosS b := ⟨fun _ _ _ => one_pos, fun _ _ => zero_le_one⟩
  have hf : ∀ p l k, (1 : ℝ) ≤ b.Sw p l k ^ 2 := fun _ _ _ => by simp [b]
  have hpk : ∀ n, GoodPk n (fun _ _ => 1 / 2 : ℕ → Fin 2 → ℝ) := fun n p _ => ⟨fun _ => by norm_num, by norm_num⟩
  let r : Rhos := ⟨1 / 2, 1 / 3, 1⟩
  obtain ⟨n, hn⟩ := exists_nat_gt (max
    (2 + (Spec.topWages 4 1 - Spec.logLik (fun i l => (fun _ _ => 1 / 2 : ℕ → Fin 2 → ℝ) (d.G 0 i).val l)
      fun i l => Spec.stayerDensity (b.a l fun _ => d.G 0 i) (b.s2 l fun _ => d.G 0 i) r (d.y i)) / thr)
    (2 + (Spec.topWages 4 1 - Spec.logLik (fun i l => (fun _ _ => 1 / 2 : ℕ → Fin 2 → ℝ) (flow d i) l)
      fun i l => Spec.moverDensity (b.a l fun t => d.G t i) (b.s2 l fun t => d.G t i) r (d.y i)) / thr))
  obtain ⟨s', hs'⟩ := C77_stayers_returns d ⟨true, false, false, true, 1, thr, 0, 0⟩ sA sA le_rfl
    (fun _ k => (hall k 0).imp fun _ h => h.1) n 0 none ⟨b, r, fun _ _ => 1 / 2, []⟩
  obtain ⟨t', ht'⟩ := C77_movers_returns d (exOnlyPk thr) sA' sA' (fun _ => 0) le_rfl (fun _ => hall) n 0 none 0
    ⟨b, r, fun _ _ => 1 / 2, []⟩
  refine ⟨d, sA, sA, b, n, rfl, ⟨s', ?_⟩, sA', sA', t', ?_⟩
  · exact ((C143_stayers d ⟨true, false, false, true, 1, thr, 0, 0⟩ sA sA hsA rfl rfl rfl rfl hthr 1 one_pos n b hb hf r _
      (hpk _) s' hs').2 ((le_max_left _ _).trans_lt hn)).2
  · exact ((C143_movers d (exOnlyPk thr) sA' sA' (fun _ => 0) rfl rfl rfl rfl rfl rfl hthr 1 one_pos n 0 b hb hf r _
      (hpk _) t' ht').2 ((le_max_right _ _).trans_lt hn)).2

end Pytwoway.Dynamic
