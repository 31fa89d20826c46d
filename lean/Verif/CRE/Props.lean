import Verif.CRE.Model
import Mathlib.Tactic.FieldSimp
import Mathlib.Tactic.Ring
import Mathlib.Tactic.Linarith
import Mathlib.Tactic.FinCases
import Mathlib.Algebra.BigOperators.Group.Finset.Sigma
import Mathlib.Algebra.BigOperators.Field
import Mathlib.Analysis.InnerProductSpace.Basic
import Mathlib.Analysis.InnerProductSpace.PiL2

/-! # C26, C27, C28: leave-out means, within-cluster parameters and totals of the CRE estimator -/

namespace Pytwoway.CRE

open Matrix

variable {nf K mn ns : ℕ}

/-! ## Helper lemmas -/

theorem agg_some {n : ℕ} {S : Finset (Fin n)} {f1 f2 : Fin n → ℝ} {a : Agg} (h : agg S f1 f2 = some a) :
    a.cnt = S.card ∧ 0 < S.card ∧ a.m1 = gmean S f1 ∧ a.m2 = gmean S f2 := by
  unfold agg at h
  split at h
  · cases h
  · cases h
    exact ⟨rfl, Nat.pos_of_ne_zero (by assumption), rfl, rfl⟩

theorem agg_eq {n : ℕ} {S : Finset (Fin n)} (f1 f2 : Fin n → ℝ) {r : Fin n} (h : r ∈ S) :
    agg S f1 f2 = some { m1 := gmean S f1, m2 := gmean S f2, cnt := S.card } := by
  unfold agg
  rw [if_neg (Finset.card_ne_zero_of_mem h)]

theorem agg_isSome {n : ℕ} {S : Finset (Fin n)} {f1 f2 : Fin n → ℝ} : (agg S f1 f2).isSome ↔ S.Nonempty := by
  unfold agg
  split
  · rename_i h
    rw [Finset.card_eq_zero] at h
    simp [h]
  · rename_i h
    simpa [Finset.card_eq_zero, Finset.nonempty_iff_ne_empty] using h

theorem card_mul_gmean {n : ℕ} (S : Finset (Fin n)) (f : Fin n → ℝ) : (S.card : ℝ) * gmean S f = ∑ k ∈ S, f k := by
  unfold gmean
  by_cases h : S.card = 0
  · rw [Finset.card_eq_zero] at h; simp [h]
  · have : (S.card : ℝ) ≠ 0 := by exact_mod_cast h
    field_simp

/-- Taking a subset out of the mean of a set leaves the mean of the difference. -/
theorem leaveOut_gmean {n : ℕ} {S T : Finset (Fin n)} (h : T ⊆ S) (f : Fin n → ℝ) :
    leaveOut S.card T.card (gmean S f) (gmean T f) = gmean (S \ T) f := by
  classical
  unfold leaveOut
  rw [card_mul_gmean, card_mul_gmean, gmean, Finset.card_sdiff_of_subset h, Nat.cast_sub (Finset.card_le_card h),
    ← Finset.sum_sdiff h]
  congr 1
  ring

/-! ## C26: leave-out means

The specification: the average of `f` over the rows with property `P`. -/

/-- The average of an outcome over all rows with a property. -/
noncomputable def averageOver {n : ℕ} (f : Fin n → ℝ) (P : Fin n → Prop) : ℝ := by
  classical exact (∑ r with P r, f r) / ((Finset.univ.filter P).card : ℝ)

theorem gmean_eq_averageOver {n : ℕ} {S : Finset (Fin n)} {f : Fin n → ℝ} {P : Fin n → Prop}
    (h : ∀ r, r ∈ S ↔ P r) : gmean S f = averageOver f P := by
  classical
  have : S = Finset.univ.filter P := by ext r; simp [h]
  unfold gmean averageOver
  subst this
  congr!

variable (dm : Fin mn → NMRow nf K) (ds : Fin ns → NSRow nf K)

/-- C26, stayers: the leave-one-out mean attached to a stayer row is the mean net outcome of the other stayers
of its firm, and the rows used in the moment (`nsj > 1`) are those whose firm has another stayer. -/
theorem C26_stayers {r : Fin ns} {e : SExt} (h : sExt dm ds r = some e) :
    (1 < e.nsj ↔ ∃ r', r' ≠ r ∧ (ds r').j1 = (ds r).j1) ∧
    (1 < e.nsj → e.y1s_lo = averageOver (fun r' => (ds r').y1n) fun r' => r' ≠ r ∧ (ds r').j1 = (ds r).j1) := by
  classical
  unfold sExt at h
  set S := Finset.univ.filter fun r' => (ds r').j1 = (ds r).j1 with hS
  have hr : r ∈ S := by simp [hS]
  have hf : dsf ds (ds r).j1 = some _ := agg_eq _ _ hr
  rw [hf] at h
  cases h1 : dm1f dm (ds r).j1 with
  | none => simp [h1] at h
  | some m1 =>
    cases h2 : dm2f dm (ds r).j1 with
    | none => simp [h1, h2] at h
    | some m2 =>
      simp only [h1, h2, Option.bind_eq_bind, Option.bind_some, Option.some.injEq] at h
      subst h
      refine ⟨?_, fun hlt => ?_⟩
      · simp only
        rw [Finset.one_lt_card]
        constructor
        · rintro ⟨a, ha, b, hb, hab⟩
          simp only [Finset.mem_filter, Finset.mem_univ, true_and] at ha hb
          by_cases hra : a = r
          · exact ⟨b, fun hb' => hab (hra.trans hb'.symm), hb⟩
          · exact ⟨a, hra, ha⟩
        · rintro ⟨r', hne, hj⟩
          exact ⟨r', by simp [hj], r, hr, hne⟩
      · have := leaveOut_gmean (Finset.singleton_subset_iff.2 hr) fun r' => (ds r').y1n
        rw [gmean_eq_averageOver (S := S \ {r}) (P := fun r' => r' ≠ r ∧ (ds r').j1 = (ds r).j1)
          (fun r' => by simp [hS, and_comm])] at this
        rw [← this]
        simp only [leaveOut, gmean, Finset.card_singleton, Finset.sum_singleton, Nat.cast_one, div_one, one_mul]
        rfl

/-- C26: a stayer row is kept by the merges exactly when some mover leaves its firm and some mover joins it. -/
theorem C26_stayers_kept (r : Fin ns) :
    (sExt dm ds r).isSome ↔ (∃ k, (dm k).j1 = (ds r).j1) ∧ ∃ k, (dm k).j2 = (ds r).j1 := by
  have hf : (dsf ds (ds r).j1).isSome := agg_isSome.2 ⟨r, by simp⟩
  have h1 : (dm1f dm (ds r).j1).isSome ↔ ∃ k, (dm k).j1 = (ds r).j1 := by
    unfold dm1f; rw [agg_isSome]; simp [Finset.Nonempty]
  have h2 : (dm2f dm (ds r).j1).isSome ↔ ∃ k, (dm k).j2 = (ds r).j1 := by
    unfold dm2f; rw [agg_isSome]; simp [Finset.Nonempty]
  rw [← h1, ← h2]
  unfold sExt
  cases hA : dsf ds (ds r).j1 with
  | none => rw [hA] at hf; simp at hf
  | some a =>
    cases dm1f dm (ds r).j1 with
    | none => simp
    | some b => cases dm2f dm (ds r).j1 <;> simp

/-- C26: no mover row is dropped by the merges. -/
theorem C26_movers_kept (r : Fin mn) : ∃ e, mExt dm r = some e := by
  unfold mExt
  rw [show dm1f dm (dm r).j1 = some _ from agg_eq _ _ (r := r) (by simp),
    show dm2f dm (dm r).j2 = some _ from agg_eq _ _ (r := r) (by simp),
    show dm1c dm (dm r).j1 (dm r).g2 = some _ from agg_eq _ _ (r := r) (by simp),
    show dm2c dm (dm r).j2 (dm r).g1 = some _ from agg_eq _ _ (r := r) (by simp)]
  exact ⟨_, rfl⟩

theorem card_lt_iff {S T : Finset (Fin mn)} (h : T ⊆ S) : T.card < S.card ↔ ∃ k, k ∈ S ∧ k ∉ T := by
  constructor
  · intro hlt
    by_contra hc
    push Not at hc
    exact absurd (Finset.card_le_card (fun k hk => hc k hk)) (by omega)
  · rintro ⟨k, hk, hk'⟩
    exact Finset.card_lt_card ⟨h, fun hc => hk' (hc hk)⟩

/-- C26, movers: the leave-cluster-out means attached to a mover row are the means over the movers leaving
(joining) the same firm whose other cluster differs, and the rows used in the moments are those for which such
a mover exists. -/
theorem C26_movers {r : Fin mn} {e : MExt} (h : mExt dm r = some e) :
    ((e.nm1c < e.nm1j ↔ ∃ k, (dm k).j1 = (dm r).j1 ∧ (dm k).g2 ≠ (dm r).g2) ∧
      (e.nm1c < e.nm1j → e.y1m1j_lo = averageOver (fun k => (dm k).y1n)
        fun k => (dm k).j1 = (dm r).j1 ∧ (dm k).g2 ≠ (dm r).g2) ∧
      (e.nm1c < e.nm1j → e.y2m1j_lo = averageOver (fun k => (dm k).y2n)
        fun k => (dm k).j1 = (dm r).j1 ∧ (dm k).g2 ≠ (dm r).g2)) ∧
    ((e.nm2c < e.nm2j ↔ ∃ k, (dm k).j2 = (dm r).j2 ∧ (dm k).g1 ≠ (dm r).g1) ∧
      (e.nm2c < e.nm2j → e.y1m2j_lo = averageOver (fun k => (dm k).y1n)
        fun k => (dm k).j2 = (dm r).j2 ∧ (dm k).g1 ≠ (dm r).g1) ∧
      (e.nm2c < e.nm2j → e.y2m2j_lo = averageOver (fun k => (dm k).y2n)
        fun k => (dm k).j2 = (dm r).j2 ∧ (dm k).g1 ≠ (dm r).g1)) := by
  classical
  unfold mExt at h
  rw [show dm1f dm (dm r).j1 = some _ from agg_eq _ _ (r := r) (by simp),
    show dm2f dm (dm r).j2 = some _ from agg_eq _ _ (r := r) (by simp),
    show dm1c dm (dm r).j1 (dm r).g2 = some _ from agg_eq _ _ (r := r) (by simp),
    show dm2c dm (dm r).j2 (dm r).g1 = some _ from agg_eq _ _ (r := r) (by simp)] at h
  simp only [Option.bind_eq_bind, Option.bind_some, Option.some.injEq] at h
  subst h
  have hs1 : (Finset.univ.filter fun k => (dm k).j1 = (dm r).j1 ∧ (dm k).g2 = (dm r).g2)
      ⊆ Finset.univ.filter fun k => (dm k).j1 = (dm r).j1 := fun k => by simp; tauto
  have hs2 : (Finset.univ.filter fun k => (dm k).j2 = (dm r).j2 ∧ (dm k).g1 = (dm r).g1)
      ⊆ Finset.univ.filter fun k => (dm k).j2 = (dm r).j2 := fun k => by simp; tauto
  refine ⟨⟨?_, ?_, ?_⟩, ?_, ?_, ?_⟩
  · simp only; rw [card_lt_iff hs1]
    refine exists_congr fun k => ?_; simp; tauto
  · exact fun _ => (leaveOut_gmean hs1 _).trans (gmean_eq_averageOver fun k => by simp; tauto)
  · exact fun _ => (leaveOut_gmean hs1 _).trans (gmean_eq_averageOver fun k => by simp; tauto)
  · simp only; rw [card_lt_iff hs2]
    refine exists_congr fun k => ?_; simp; tauto
  · exact fun _ => (leaveOut_gmean hs2 _).trans (gmean_eq_averageOver fun k => by simp; tauto)
  · exact fun _ => (leaveOut_gmean hs2 _).trans (gmean_eq_averageOver fun k => by simp; tauto)

/-- The sample covariance (divisor one less than the number of rows) over the rows with a property. -/
noncomputable def sampleCov {n : ℕ} (P : Fin n → Prop) (u v : Fin n → ℝ) : ℝ := by
  classical exact (∑ r with P r, (u r - averageOver u P) * (v r - averageOver v P)) /
    (((Finset.univ.filter P).card : ℝ) - 1)

theorem qcov_eq {n : ℕ} {S : Finset (Fin n)} {P : Fin n → Prop} (hS : ∀ r, r ∈ S ↔ P r) {u v v' : Fin n → ℝ}
    (hv : ∀ r, P r → v r = v' r) : qcov S u v = sampleCov P u v' := by
  classical
  have hSP : S = Finset.univ.filter P := by ext r; simp [hS]
  have hu : gmean S u = averageOver u P := gmean_eq_averageOver hS
  have hv' : gmean S v = averageOver v' P := by
    rw [← gmean_eq_averageOver hS]
    unfold gmean
    congr 1
    exact Finset.sum_congr rfl fun r hr => hv r ((hS r).1 hr)
  unfold qcov sampleCov
  rw [hu, hv']
  have : ∑ k ∈ S, (u k - averageOver u P) * (v k - averageOver v' P)
      = ∑ k ∈ S, (u k - averageOver u P) * (v' k - averageOver v' P) :=
    Finset.sum_congr rfl fun r hr => by rw [hv r ((hS r).1 hr)]
  rw [this]
  subst hSP
  congr!

theorem mem_query {n : ℕ} {α : Type} (e : Fin n → Option α) (p : Fin n → α → Prop) (r : Fin n) :
    r ∈ query e p ↔ ∃ a, e r = some a ∧ p r a := by
  simp [query]

/-- C26: the moments built from the leave-out means.  Each pairs a mover's own net outcome with the mean outcome
of the movers of the firm whose other cluster differs, over the movers for whom there is one; the stayer moment
pairs a stayer's outcome with the mean of the other stayers, over the stayers of firms with movers in both
directions and a second stayer. -/
theorem C26_moments :
    let m := momentsWithin dm ds
    let P1 := fun r => ∃ k, (dm k).j1 = (dm r).j1 ∧ (dm k).g2 ≠ (dm r).g2
    let P2 := fun r => ∃ k, (dm k).j2 = (dm r).j2 ∧ (dm k).g1 ≠ (dm r).g1
    let lo1 := fun (y : NMRow nf K → ℝ) r =>
      averageOver (fun k => y (dm k)) fun k => (dm k).j1 = (dm r).j1 ∧ (dm k).g2 ≠ (dm r).g2
    let lo2 := fun (y : NMRow nf K → ℝ) r =>
      averageOver (fun k => y (dm k)) fun k => (dm k).j2 = (dm r).j2 ∧ (dm k).g1 ≠ (dm r).g1
    m.y1m1_y1m1 = sampleCov P1 (fun r => (dm r).y1n) (lo1 NMRow.y1n) ∧
    m.y2m1_y1m1 = sampleCov P1 (fun r => (dm r).y2n) (lo1 NMRow.y1n) ∧
    m.y2m1_y2m1 = sampleCov P1 (fun r => (dm r).y2n) (lo1 NMRow.y2n) ∧
    m.y1m2_y1m2 = sampleCov P2 (fun r => (dm r).y1n) (lo2 NMRow.y1n) ∧
    m.y2m2_y1m2 = sampleCov P2 (fun r => (dm r).y2n) (lo2 NMRow.y1n) ∧
    m.y2m2_y2m2 = sampleCov P2 (fun r => (dm r).y2n) (lo2 NMRow.y2n) ∧
    m.y1s_y1s = sampleCov
      (fun r => ((∃ k, (dm k).j1 = (ds r).j1) ∧ ∃ k, (dm k).j2 = (ds r).j1) ∧ ∃ r', r' ≠ r ∧ (ds r').j1 = (ds r).j1)
      (fun r => (ds r).y1n)
      fun r => averageOver (fun r' => (ds r').y1n) fun r' => r' ≠ r ∧ (ds r').j1 = (ds r).j1 := by
  intro m P1 P2 lo1 lo2
  have q1 : ∀ r, r ∈ query (mExt dm) (fun _ e => e.nm1c < e.nm1j) ↔ P1 r := by
    intro r
    rw [mem_query]
    obtain ⟨e, he⟩ := C26_movers_kept dm r
    simp only [he, Option.some.injEq, exists_eq_left']
    exact (C26_movers dm he).1.1
  have q2 : ∀ r, r ∈ query (mExt dm) (fun _ e => e.nm2c < e.nm2j) ↔ P2 r := by
    intro r
    rw [mem_query]
    obtain ⟨e, he⟩ := C26_movers_kept dm r
    simp only [he, Option.some.injEq, exists_eq_left']
    exact (C26_movers dm he).2.1
  have c : ∀ r, P1 r → col (mExt dm) MExt.y1m1j_lo r = lo1 NMRow.y1n r ∧ col (mExt dm) MExt.y2m1j_lo r = lo1 NMRow.y2n r := by
    intro r hr
    obtain ⟨e, he⟩ := C26_movers_kept dm r
    have := (C26_movers dm he).1
    simp only [col, he, Option.elim]
    exact ⟨this.2.1 (this.1.2 hr), this.2.2 (this.1.2 hr)⟩
  have c' : ∀ r, P2 r → col (mExt dm) MExt.y1m2j_lo r = lo2 NMRow.y1n r ∧ col (mExt dm) MExt.y2m2j_lo r = lo2 NMRow.y2n r := by
    intro r hr
    obtain ⟨e, he⟩ := C26_movers_kept dm r
    have := (C26_movers dm he).2
    simp only [col, he, Option.elim]
    exact ⟨this.2.1 (this.1.2 hr), this.2.2 (this.1.2 hr)⟩
  refine ⟨qcov_eq q1 fun r h => (c r h).1, qcov_eq q1 fun r h => (c r h).1, qcov_eq q1 fun r h => (c r h).2,
    qcov_eq q2 fun r h => (c' r h).1, qcov_eq q2 fun r h => (c' r h).1, qcov_eq q2 fun r h => (c' r h).2, ?_⟩
  refine qcov_eq (fun r => ?_) fun r h => ?_
  · rw [mem_query, ← C26_stayers_kept dm ds r]
    cases he : sExt dm ds r with
    | none => simp
    | some e => simpa using (C26_stayers dm ds he).1
  · rw [← C26_stayers_kept dm ds r] at h
    obtain ⟨e, he⟩ := Option.isSome_iff_exists.1 h.1
    simp only [col, he, Option.elim]
    exact (C26_stayers dm ds he).2 ((C26_stayers dm ds he).1.2 h.2)

/-- C26: the moments of stayers with movers of the same firm.  Each pairs a stayer's net outcome with the mean
outcome, before or after the move, of the movers leaving or joining the stayer's firm, over the stayers of firms
with movers in both directions. -/
theorem C26_stayer_mover_moments :
    let m := momentsWithin dm ds
    let P := fun r => (∃ k, (dm k).j1 = (ds r).j1) ∧ ∃ k, (dm k).j2 = (ds r).j1
    let y := fun r => (ds r).y1n
    m.y1s_y1m1 = sampleCov P y (fun r => averageOver (fun k => (dm k).y1n) fun k => (dm k).j1 = (ds r).j1) ∧
    m.y1s_y2m1 = sampleCov P y (fun r => averageOver (fun k => (dm k).y2n) fun k => (dm k).j1 = (ds r).j1) ∧
    m.y1s_y1m2 = sampleCov P y (fun r => averageOver (fun k => (dm k).y1n) fun k => (dm k).j2 = (ds r).j1) ∧
    m.y1s_y2m2 = sampleCov P y (fun r => averageOver (fun k => (dm k).y2n) fun k => (dm k).j2 = (ds r).j1) := by
  intro m P y
  have key : ∀ {r e}, sExt dm ds r = some e → 0 < e.nm1j ∧ 0 < e.nm2j ∧
      e.y1m1j = averageOver (fun k => (dm k).y1n) (fun k => (dm k).j1 = (ds r).j1) ∧
      e.y2m1j = averageOver (fun k => (dm k).y2n) (fun k => (dm k).j1 = (ds r).j1) ∧
      e.y1m2j = averageOver (fun k => (dm k).y1n) (fun k => (dm k).j2 = (ds r).j1) ∧
      e.y2m2j = averageOver (fun k => (dm k).y2n) (fun k => (dm k).j2 = (ds r).j1) := by
    intro r e h
    unfold sExt at h
    cases h0 : dsf ds (ds r).j1 with
    | none => simp [h0] at h
    | some f =>
    cases h1 : dm1f dm (ds r).j1 with
    | none => simp [h0, h1] at h
    | some a =>
    cases h2 : dm2f dm (ds r).j1 with
    | none => simp [h0, h1, h2] at h
    | some b =>
      simp only [h0, h1, h2, Option.bind_eq_bind, Option.bind_some, Option.some.injEq] at h
      subst h
      obtain ⟨x1, x2, x3, x4⟩ := agg_some h1
      obtain ⟨z1, z2, z3, z4⟩ := agg_some h2
      refine ⟨by simp only; omega, by simp only; omega, x3.trans ?_, x4.trans ?_, z3.trans ?_, z4.trans ?_⟩ <;>
        exact gmean_eq_averageOver fun k => by simp
  have q1 : ∀ r, r ∈ query (sExt dm ds) (fun _ e => 0 < e.nm1j) ↔ P r := by
    intro r
    rw [mem_query, show P r ↔ _ from (C26_stayers_kept dm ds r).symm, Option.isSome_iff_exists]
    exact exists_congr fun e => ⟨fun h => h.1, fun h => ⟨h, (key h).1⟩⟩
  have q2 : ∀ r, r ∈ query (sExt dm ds) (fun _ e => 0 < e.nm2j) ↔ P r := by
    intro r
    rw [mem_query, show P r ↔ _ from (C26_stayers_kept dm ds r).symm, Option.isSome_iff_exists]
    exact exists_congr fun e => ⟨fun h => h.1, fun h => ⟨h, (key h).2.1⟩⟩
  refine ⟨qcov_eq q1 fun r h => ?_, qcov_eq q1 fun r h => ?_, qcov_eq q2 fun r h => ?_, qcov_eq q2 fun r h => ?_⟩ <;>
    (obtain ⟨e, he⟩ := Option.isSome_iff_exists.1 ((C26_stayers_kept dm ds r).2 h)
     simp only [col, he, Option.elim]
     first | exact (key he).2.2.1 | exact (key he).2.2.2.1 | exact (key he).2.2.2.2.1 | exact (key he).2.2.2.2.2)

/-- C26: the moment of wage changes is the sample variance of the net wage change over the movers who change cluster. -/
theorem C26_change_moment :
    (momentsWithin dm ds).dym_dym = sampleCov (fun r => (dm r).g1 ≠ (dm r).g2)
      (fun r => (dm r).y2n - (dm r).y1n) fun r => (dm r).y2n - (dm r).y1n := by
  refine qcov_eq (fun r => ?_) fun r _ => rfl
  rw [mem_query]
  obtain ⟨e, he⟩ := C26_movers_kept dm r
  simp [he]

/-- Three movers leaving firm 0 to firms in clusters 1, 1 and 0; the third joins firm 3, and a stayer pair sits
in firm 0, which mover 3 joins. -/
def exM : Fin 4 → NMRow 4 1 := ![⟨0, 1, 0, 1, 1, 2⟩, ⟨0, 2, 0, 1, 3, 5⟩, ⟨0, 3, 0, 0, 7, 4⟩, ⟨1, 0, 1, 0, 6, 8⟩]
def exS : Fin 2 → NSRow 4 1 := ![⟨0, 0, 3⟩, ⟨0, 0, 5⟩]

/-- Hypotheses of `C26_movers` and `C26_stayers` met, with both leave-out sets non-empty. -/
example : (∃ e, mExt exM 0 = some e ∧ e.nm1c < e.nm1j) ∧ ∃ e, sExt exM exS 0 = some e ∧ 1 < e.nsj := by
  constructor
  · obtain ⟨e, he⟩ := C26_movers_kept exM 0
    exact ⟨e, he, (C26_movers exM he).1.1.2 ⟨2, by simp [exM]⟩⟩
  · obtain ⟨e, he⟩ := Option.isSome_iff_exists.1
      ((C26_stayers_kept exM exS 0).2 ⟨⟨0, by simp [exM, exS]⟩, ⟨3, by simp [exM, exS]⟩⟩)
    exact ⟨e, he, (C26_stayers exM exS he).1.2 ⟨1, by simp, by simp [exS]⟩⟩

/-! ## C27: the within-cluster parameters

Specification: a population.  Centred random variables are vectors of a real inner product space and their
covariance is the inner product.  A focal firm has effect `psi`; `s`, `s'` are two of its stayers, `a`, `a'` two
movers who leave it for firms in different clusters with effects `d`, `d'`, and `b`, `b'` two movers who join it
from firms in different clusters with effects `o`, `o'`. -/

variable {H : Type*} [NormedAddCommGroup H] [InnerProductSpace ℝ H]

/-- The population: worker effects, firm effects and period errors of the six workers around a firm, and the
two firms and errors of a mover between clusters (`v1`, `v2`, `c1`, `c2`). -/
structure Population (H : Type*) where
  psi : H
  As : H
  As' : H
  Aa : H
  Aa' : H
  Ab : H
  Ab' : H
  /-- destination firms of the leavers, origin firms of the joiners -/
  d : H
  d' : H
  o : H
  o' : H
  /-- errors: stayers, leavers in both periods, joiners in both periods -/
  es : H
  es' : H
  ea1 : H
  ea2 : H
  ea1' : H
  ea2' : H
  eb1 : H
  eb2 : H
  eb1' : H
  eb2' : H
  /-- the mover between clusters: origin and destination firm effect, and the two errors -/
  v1 : H
  v2 : H
  c1 : H
  c2 : H

/-- Covariance. -/
noncomputable abbrev cv (x y : H) : ℝ := inner ℝ x y

namespace Population

variable (P : Population H)

/-- All errors of the workers around the focal firm. -/
def errs : List H := [P.es, P.es', P.ea1, P.ea2, P.ea1', P.ea2', P.eb1, P.eb2, P.eb1', P.eb2']

/-- All effects around the focal firm. -/
def effs : List H := [P.psi, P.As, P.As', P.Aa, P.Aa', P.Ab, P.Ab', P.d, P.d', P.o, P.o']

/-- The correlated random effects model: errors are uncorrelated with effects and with other workers' errors;
the effect of the other firm of a mover is uncorrelated with everything at the focal firm except that mover; two
workers with the same role have the same covariances; firm effects have a common variance. -/
structure Model : Prop where
  err_eff : ∀ x ∈ P.errs, ∀ y ∈ P.effs, cv x y = 0
  err_err : cv P.es P.es' = 0 ∧ (∀ x ∈ [P.ea1, P.ea2, P.ea1', P.ea2', P.eb1, P.eb2, P.eb1', P.eb2'], cv P.es x = 0) ∧
    (∀ x ∈ [P.ea1, P.ea2], ∀ y ∈ [P.ea1', P.ea2'], cv x y = 0) ∧
    ∀ x ∈ [P.eb1, P.eb2], ∀ y ∈ [P.eb1', P.eb2'], cv x y = 0
  other : ∀ x ∈ [P.d, P.d', P.o, P.o'], cv x P.psi = 0 ∧ cv x P.As = 0
  other_pair : cv P.d P.d' = 0 ∧ cv P.d P.Aa' = 0 ∧ cv P.d' P.Aa = 0 ∧
    cv P.o P.o' = 0 ∧ cv P.o P.Ab' = 0 ∧ cv P.o' P.Ab = 0
  same_s : cv P.As' P.psi = cv P.As P.psi
  same_a : cv P.Aa' P.psi = cv P.Aa P.psi
  same_b : cv P.Ab' P.psi = cv P.Ab P.psi
  firms : cv P.v1 P.v1 = cv P.psi P.psi ∧ cv P.v2 P.v2 = cv P.psi P.psi ∧ cv P.v1 P.v2 = 0
  move_err : ∀ x ∈ [P.c1, P.c2], ∀ y ∈ [P.v1, P.v2], cv x y = 0

/-- Net outcomes: stayers, leavers (before and after the move), joiners (before and after). -/
def ys : H := P.As + P.psi + P.es
def ys' : H := P.As' + P.psi + P.es'
def ya1 : H := P.Aa + P.psi + P.ea1
def ya2 : H := P.Aa + P.d + P.ea2
def ya1' : H := P.Aa' + P.psi + P.ea1'
def ya2' : H := P.Aa' + P.d' + P.ea2'
def yb1 : H := P.Ab + P.o + P.eb1
def yb2 : H := P.Ab + P.psi + P.eb2
def yb1' : H := P.Ab' + P.o' + P.eb1'
def yb2' : H := P.Ab' + P.psi + P.eb2'

/-- The population value of each moment: the covariance of a worker's outcome with the outcome of another worker
of the firm (`yS_yT` in the code pairs own outcome `S` with the leave-out mean of `T`); the worker effect cancels
from a mover's change in outcome. -/
noncomputable def moments : Moments where
  y1s_y1s := cv P.ys P.ys'
  y1s_y1m1 := cv P.ys P.ya1
  y1s_y2m1 := cv P.ys P.ya2
  y1m1_y1m1 := cv P.ya1 P.ya1'
  y2m1_y1m1 := cv P.ya2 P.ya1'
  y2m1_y2m1 := cv P.ya2 P.ya2'
  y1s_y1m2 := cv P.ys P.yb1
  y1s_y2m2 := cv P.ys P.yb2
  y1m2_y1m2 := cv P.yb1 P.yb1'
  y2m2_y1m2 := cv P.yb2 P.yb1'
  y2m2_y2m2 := cv P.yb2 P.yb2'
  dym_dym := cv ((P.v2 + P.c2) - (P.v1 + P.c1)) ((P.v2 + P.c2) - (P.v1 + P.c1))

end Population

open Population in
theorem moments_eq {P : Population H} (h : P.Model) :
    P.moments.y1s_y1s = cv P.As P.As' + 2 * cv P.As P.psi + cv P.psi P.psi ∧
    P.moments.y1s_y1m1 = cv P.As P.Aa + cv P.As P.psi + cv P.Aa P.psi + cv P.psi P.psi ∧
    P.moments.y1s_y2m1 = cv P.As P.Aa + cv P.Aa P.psi ∧
    P.moments.y1m1_y1m1 = cv P.Aa P.Aa' + 2 * cv P.Aa P.psi + cv P.psi P.psi ∧
    P.moments.y2m1_y1m1 = cv P.Aa P.Aa' + cv P.Aa P.psi ∧
    P.moments.y2m1_y2m1 = cv P.Aa P.Aa' ∧
    P.moments.y1s_y1m2 = cv P.As P.Ab + cv P.Ab P.psi ∧
    P.moments.y1s_y2m2 = cv P.As P.Ab + cv P.As P.psi + cv P.Ab P.psi + cv P.psi P.psi ∧
    P.moments.y1m2_y1m2 = cv P.Ab P.Ab' ∧
    P.moments.y2m2_y1m2 = cv P.Ab P.Ab' + cv P.Ab P.psi ∧
    P.moments.y2m2_y2m2 = cv P.Ab P.Ab' + 2 * cv P.Ab P.psi + cv P.psi P.psi ∧
    P.moments.dym_dym = 2 * cv P.psi P.psi + cv (P.c2 - P.c1) (P.c2 - P.c1) := by
  obtain ⟨hee, ⟨e1, e2, e3, e4⟩, ho, ⟨p1, p2, p3, p4, p5, p6⟩, s1, s2, s3, ⟨f1, f2, f3⟩, hm⟩ := h
  simp only [Population.errs, Population.effs, List.forall_mem_cons, List.not_mem_nil, IsEmpty.forall_iff,
    implies_true, and_true] at hee e2 e3 e4 ho hm
  simp only [cv] at *
  have c : ∀ x y : H, inner ℝ x y = inner ℝ y x := fun x y => real_inner_comm y x
  refine ⟨?_, ?_, ?_, ?_, ?_, ?_, ?_, ?_, ?_, ?_, ?_, ?_⟩ <;>
    simp only [Population.moments, cv, ys, ys', ya1, ya2, ya1', ya2', yb1, yb2, yb1', yb2', inner_add_left,
      inner_add_right, inner_sub_left, inner_sub_right] <;>
    simp only [c P.psi, c P.As P.es', c P.As P.ea1, c P.As P.ea2, c P.As P.eb1, c P.As P.eb2, c P.Aa P.ea1',
      c P.Aa P.ea2', c P.Ab P.eb1', c P.Ab P.eb2', c P.d P.ea1', c P.d P.ea2', c P.o P.eb1', c P.As P.d, c P.As P.o,
      c P.Aa P.d', c P.Ab P.o', c P.v1 P.c1, c P.v1 P.c2, c P.v2 P.c1, c P.v2 P.c2, c P.v2 P.v1] <;>
    simp only [hee, e1, e2, e3, e4, ho, p1, p2, p3, p4, p5, p6, s1, s2, s3, f1, f2, f3, hm] <;> ring

/-- C27 (part): with moments generated by the model, the reported variance of the firm effects, the mover
covariances, the stayer-mover covariances and the error variance of a wage change are the true ones.  Missing:
`cov_AsPsi1` and `cov_AsAs`, which the code gets wrong (`C27_stayer_cov_wrong`). -/
theorem C27_movers_partial {P : Population H} (h : P.Model) :
    let pw := withinParams P.moments
    pw.var_psi = cv P.psi P.psi ∧ pw.var_psi_m1 = cv P.psi P.psi ∧ pw.var_psi_m2 = cv P.psi P.psi ∧
    pw.cov_Am1Am1 = cv P.Aa P.Aa' ∧ pw.cov_Am1Psi1 = cv P.Aa P.psi ∧
    pw.cov_Am2Am2 = cv P.Ab P.Ab' ∧ pw.cov_Am2Psi2 = cv P.Ab P.psi ∧
    pw.cov_AsAm1 = cv P.As P.Aa ∧ pw.cov_AsAm2 = cv P.As P.Ab ∧
    pw.var_eps = cv (P.c2 - P.c1) (P.c2 - P.c1) := by
  obtain ⟨h1, h2, h3, h4, h5, h6, h7, h8, h9, h10, h11, h12⟩ := moments_eq h
  simp only [withinParams, h1, h2, h3, h4, h5, h6, h7, h8, h9, h10, h11, h12]
  refine ⟨by ring, by ring, by ring, trivial, by ring, trivial, by ring, by ring, by ring, ?_⟩
  have : 0 ≤ cv (P.c2 - P.c1) (P.c2 - P.c1) := real_inner_self_nonneg
  generalize cv (P.c2 - P.c1) (P.c2 - P.c1) = x at *
  rw [max_eq_right] <;> linarith

/-- C27: what the code reports for the stayers' covariance with the firm effect and for the covariance of two
stayers' effects (cre.py:426-427): the sum of two estimates of `cov + var` is not halved. -/
theorem C27_stayer_reported {P : Population H} (h : P.Model) :
    let pw := withinParams P.moments
    pw.cov_AsPsi1 = 2 * cv P.As P.psi + cv P.psi P.psi ∧
    pw.cov_AsAs = cv P.As P.As' - 2 * cv P.As P.psi - 2 * cv P.psi P.psi := by
  obtain ⟨h1, h2, h3, h4, h5, h6, h7, h8, h9, h10, h11, h12⟩ := moments_eq h
  simp only [withinParams, h1, h2, h3, h4, h5, h6, h7, h8, h9, h10, h11, h12]
  constructor <;> ring

/-- C27: the reported stayer covariance is right only if it equals minus the variance of the firm effects, so
whenever the covariance exceeds that value the report is too large. -/
theorem C27_stayer_right_iff {P : Population H} (h : P.Model) :
    (withinParams P.moments).cov_AsPsi1 = cv P.As P.psi ↔ cv P.As P.psi = - cv P.psi P.psi := by
  rw [(C27_stayer_reported h).1]
  constructor <;> intro h <;> linarith

/-- A population with no sorting: independent firm effect of variance one, no worker effects, no errors. -/
noncomputable def exP : Population (EuclideanSpace ℝ (Fin 3)) where
  psi := EuclideanSpace.single 0 1
  As := 0
  As' := 0
  Aa := EuclideanSpace.single 0 2
  Aa' := EuclideanSpace.single 0 2
  Ab := 0
  Ab' := 0
  d := 0
  d' := 0
  o := 0
  o' := 0
  es := 0
  es' := 0
  ea1 := 0
  ea2 := 0
  ea1' := 0
  ea2' := 0
  eb1 := 0
  eb2 := EuclideanSpace.single 2 1
  eb1' := 0
  eb2' := 0
  v1 := EuclideanSpace.single 0 1
  v2 := EuclideanSpace.single 1 1
  c1 := EuclideanSpace.single 2 1
  c2 := 0

theorem exP_model : exP.Model := by
  constructor <;> simp [exP, Population.errs, Population.effs, cv, EuclideanSpace.inner_single_left]

/-- C27: the full claim fails.  In this population stayers are not sorted at all (true covariance zero), yet the
code reports a covariance of one, the variance of the firm effects. -/
theorem C27_stayer_cov_wrong : exP.Model ∧ cv exP.As exP.psi = 0 ∧ (withinParams exP.moments).cov_AsPsi1 = 1 := by
  refine ⟨exP_model, by simp [exP], ?_⟩
  rw [(C27_stayer_reported exP_model).1]
  simp [exP, cv]

/-! ## C28: totals -/

variable (d : Data nf K mn ns) (solve : Matrix (Fin K) (Fin K) ℝ → (Fin K → ℝ) → (Fin K → ℝ))

/-- C28: each total is its between part plus its within part, and the summary repeats the totals. -/
theorem C28_additive (wo : Bool) :
    let r := d.fit solve wo
    r.tot_var = r.var_bw + r.var_wt ∧ r.tot_cov = r.cov_bw + r.cov_wt ∧
    r.s_var_tot = r.tot_var ∧ r.s_cov_tot = r.tot_cov ∧ r.s_var_bw = r.var_bw ∧ r.s_cov_bw = r.cov_bw ∧
    r.s_var_y = r.var_y := by
  simp [Data.fit, collectRes]

/-- C28: the reported variance of the outcome is the population variance over the cross-section rows. -/
theorem C28_var_y (wo : Bool) :
    let y := Fin.append (fun r => (d.st r).y1) fun r => (d.mv r).y1
    let ybar := (∑ r, y r) / ((ns + mn : ℕ) : ℝ)
    (d.fit solve wo).var_y = (∑ r, (y r - ybar) ^ 2) / ((ns + mn : ℕ) : ℝ) := by
  simp [Data.fit, collectRes, gmean, cat]

theorem gmean_const {n : ℕ} (c : ℝ) (f : Fin n → ℝ) (hf : ∀ r, f r = c) (r : Fin n) :
    f r - gmean Finset.univ f = 0 := by
  have hn : (n : ℝ) ≠ 0 := by
    have := r.isLt
    exact_mod_cast (by omega : n ≠ 0)
  simp [gmean, hf, hn]

theorem cat_const (c : ℝ) {s : Fin ns → ℝ} {m : Fin mn → ℝ} (hs : ∀ r, s r = c) (hm : ∀ r, m r = c) (r) :
    cat s m r = c := by
  unfold cat
  refine Fin.addCases (fun i => ?_) (fun i => ?_) r
  · rw [Fin.append_left, hs]
  · rw [Fin.append_right, hm]

theorem afill_wo (A : Fin K → ℝ) (g : Fin (K + 1)) : afill true A g = 0 := by
  refine Fin.lastCases ?_ (fun i => ?_) g <;> simp [afill]

/-- C28: with `wo_btw=True` the between parts vanish, so the totals are the within parts, and the outcomes
entering the within moments are the raw outcomes. -/
theorem C28_without_between :
    let r := d.fit solve true
    r.var_bw = 0 ∧ r.cov_bw = 0 ∧ r.tot_var = r.var_wt ∧ r.tot_cov = r.cov_wt ∧
    (∀ k, (d.dm true (afill true (d.A solve)) k).y1n = (d.mv k).y1 ∧
      (d.dm true (afill true (d.A solve)) k).y2n = (d.mv k).y2) ∧
    ∀ k, (d.ds true (afill true (d.A solve)) k).y1n = (d.st k).y1 := by
  have hp : ∀ r, cat (d.psiS (afill true (d.A solve))) (d.psi1 (afill true (d.A solve))) r = 0 :=
    cat_const 0 (fun r => afill_wo _ _) fun r => afill_wo _ _
  have hv : ∀ v : Fin (ns + mn) → ℝ,
      qcov Finset.univ (cat (d.psiS (afill true (d.A solve))) (d.psi1 (afill true (d.A solve)))) v = 0 := by
    intro v
    unfold qcov
    simp [gmean_const 0 _ hp]
  refine ⟨?_, ?_, ?_, ?_, fun k => ⟨?_, ?_⟩, fun k => ?_⟩
  · simp [Data.fit, collectRes, hv]
  · simp [Data.fit, collectRes, hv]
  · simp [Data.fit, collectRes, hv]
  · simp [Data.fit, collectRes, hv]
  · simp [Data.dm, Data.psi1, Data.mxM, afill_wo]
  · simp [Data.dm, Data.psi2, Data.mxM, afill_wo]
  · simp [Data.ds, Data.psiS, Data.mxS, afill_wo]

/-- C28: the within covariance is the average of the stayers' and the movers' covariance, weighted by the number
of stayers and movers in the cross section. -/
theorem C28_within (wo : Bool) :
    let pw := withinParams (momentsWithin (d.dm wo (afill wo (d.A solve))) (d.ds wo (afill wo (d.A solve))))
    (d.fit solve wo).var_wt = pw.var_psi ∧
    (d.fit solve wo).cov_wt * ((ns : ℝ) + mn) = (if ns + mn = 0 then 0 else ns * pw.cov_AsPsi1 + mn * pw.cov_Am1Psi1) := by
  refine ⟨rfl, ?_⟩
  simp only [Data.fit, collectRes]
  split
  · rename_i h
    have : ((ns : ℝ) + mn) = 0 := by exact_mod_cast h
    simp [this]
  · rename_i h
    have : ((ns : ℝ) + mn) ≠ 0 := by exact_mod_cast h
    rw [div_mul_cancel₀ _ this]

end Pytwoway.CRE
