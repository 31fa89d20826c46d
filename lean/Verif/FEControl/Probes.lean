import Verif.FE.Probes
import Verif.FE.Props7
import Verif.FEControl.Traces3

/-! # Approximate leverages: refusal, spread and consistency (C111) -/

/-! ## Model -/

namespace Pytwoway.FE

open Probes

variable {n m nw : ℕ}

namespace Panel

variable (d : Panel n m nw) (solve : (Fin m → ℝ) → (Fin m → ℝ))

/-- What the leverage step sees of the data.  Used for fe.py:1527-1618 and fecontrol.py:1435-1526. -/
def setting (st : Stayers) : Setting n := ⟨d.weighted, st, fun o => decide (d.workerM o), fun o => (d.i o).val, d.Dp⟩

/-- Specification: some stayer has one observation only, or with weights total weight one. -/
def LoneStayer : Prop := ∃ o, ¬ d.workerM o ∧
  if d.weighted then ∑ b with d.i b = d.i o, d.Dp b = 1 else ∀ b, d.i b = d.i o → b = o

/-- `_estimate_approximate_leverages`, fe.py:1527-1618, on the probes of each core. -/
noncomputable def approxLev (st : Stayers) (ndraw : ℕ) : List (List (Fin n → ℝ)) → Except LevErr (LevOut n)
  | [b] => (d.setting st).finish ndraw (d.leverageApprox solve b)
  | bs => (d.setting st).finish ndraw (combineCores (bs.map (d.leverageApprox solve)))

end Panel

end Pytwoway.FE

namespace Pytwoway.FEControl

open FE FE.Probes
open FE.Panel (Stayers)

variable {n m nw : ℕ}

namespace CData

variable (d : CData n m nw) (solve : List ℝ → List ℝ)

/-- What the leverage step sees of the data.  Used for fecontrol.py:1435-1526. -/
def setting (st : Stayers) : Setting n := ⟨d.weighted, st, fun o => decide (d.workerM o), fun o => (d.i o).val, d.Dp⟩

/-- Specification: some stayer has one observation only, or with weights total weight one. -/
def LoneStayer : Prop := ∃ o, ¬ d.workerM o ∧
  if d.weighted then ∑ b with d.i b = d.i o, d.Dp b = 1 else ∀ b, d.i b = d.i o → b = o

/-- `_estimate_approximate_leverages`, fecontrol.py:1435-1526, on the probes of each core. -/
noncomputable def approxLev (st : Stayers) (ndraw : ℕ) : List (List (Fin n → ℝ)) → Except LevErr (LevOut n)
  | [b] => (d.setting st).finish ndraw (d.leverageApprox solve b)
  | bs => (d.setting st).finish ndraw (FE.Panel.combineCores (bs.map (d.leverageApprox solve)))

end CData

end Pytwoway.FEControl

/-! ## Lemmas -/

namespace Pytwoway.FE.Probes

open scoped BigOperators
open FE.Panel (Stayers LevAvg)

variable {n : ℕ}

theorem rows_iff (s : Setting n) (o : Fin n) :
    o ∈ s.rows ↔ (s.weighted = false ∧ s.st = .upperBound) ∨ s.mover o = true := by
  unfold Setting.rows
  cases hw : s.weighted <;> cases hs : s.st <;> simp

theorem combine_levAvg (q : (Fin n → ℝ) → Fin n → ℝ) (b : ℕ) (bs : List (List (Fin n → ℝ)))
    (hb : ∀ l ∈ bs, l.length = b) : FE.Panel.combineCores (bs.map (levAvg q)) = levAvg q bs.flatten := by
  have f := fun draws => levAvg_eq (q := q) draws
  rw [FE.Panel.combineCores]
  have ext5 : ∀ v w : LevAvg n, v.Pii = w.Pii → v.PiiSq = w.PiiSq → v.Mii = w.Mii → v.MiiSq = w.MiiSq →
      v.PiiMii = w.PiiMii → v = w := by
    rintro ⟨⟩ ⟨⟩ rfl rfl rfl rfl rfl; rfl
  apply ext5 <;> ext o <;> simp only [List.map_map, List.length_map, Function.comp_def]
  · simp only [(f _).1, FE.avg_batches _ b bs hb]
  · simp only [(f _).2.2.1, FE.avg_batches _ b bs hb]
  · simp only [(f _).2.1, FE.avg_batches _ b bs hb]
  · simp only [(f _).2.2.2.1, FE.avg_batches _ b bs hb]
  · simp only [(f _).2.2.2.2, FE.avg_batches _ b bs hb]

open Spec Filter Topology

theorem Proj.accuracy_all {q : (Fin n → ℝ) → Fin n → ℝ} {lev : Fin n → ℝ} {s : Setting n} (hq : Proj q lev) {N : ℕ}
    (hN : 0 < N) (nd : ℕ) {ε : ℝ} (hε : 0 < ε) :
    (share fun ω : Flips N n => ∃ out, s.finish nd (levAvg q (probes ω)) = .ok out ∧
      ∃ o ∈ s.rows, ε ≤ |out.Pii o - lev o|) ≤ s.rows.card * (2 * (1 + 2 * ε) ^ 2 / (N * ε ^ 2)) := by
  refine le_trans (share_mono (q := fun ω : Flips N n => ∃ o ∈ s.rows, ε ≤ |s.norm (levAvg q (probes ω)) o - lev o|) ?_)
    ((share_exists s.rows _).trans ?_)
  · rintro ω ⟨out, h, o, ho, hle⟩
    exact ⟨o, ho, by rw [← (finish_ok h).1]; exact hle⟩
  · rw [← nsmul_eq_mul]
    exact Finset.sum_le_card_nsmul _ _ _ fun o ho => hq.accuracy_row hN ho hε

/-- Two rows fitted by their mean, both needed: the probability of refusal. -/
theorem two_rows {q : (Fin 2 → ℝ) → Fin 2 → ℝ} (hq : ∀ z o, q z o = (z 0 + z 1) / 2) {s : Setting 2} (hr : ∀ o, o ∈ s.rows)
    (hsg : s.single = false) {N : ℕ} (hN : 0 < N) (nd : ℕ) :
    (share fun ω : Flips N 2 => s.finish nd (levAvg q (probes ω)) = .error .leverageOne) = 1 / 2 ^ N := by
  classical
  have key : ∀ ω : Flips N 2, (s.finish nd (levAvg q (probes ω)) = .error .leverageOne) ↔ ∀ k, ω k 0 = ω k 1 := by
    intro ω
    have hne : probes ω ≠ [] := by
      intro h; have := congrArg List.length h; simp [probes] at this; omega
    have hsgn : ∀ z ∈ probes ω, ∀ o, z o = 1 ∨ z o = -1 := by
      intro z hz o
      obtain ⟨k, rfl⟩ := List.mem_ofFn.1 hz
      show sign _ = 1 ∨ sign _ = -1
      unfold sign; split <;> simp
    have hz : (∃ o ∈ s.rows, ∀ z ∈ probes ω, q z o = z o) ↔ ∀ k, ω k 0 = ω k 1 := by
      have hm : ∀ k, (fun o => sign (ω k o)) ∈ probes ω := fun k => List.mem_ofFn.2 ⟨k, rfl⟩
      constructor
      · rintro ⟨o, -, h⟩ k
        have h1 := h _ (hm k)
        rw [hq] at h1
        have h2 : sign (ω k 0) = sign (ω k 1) := by
          fin_cases o <;> simp at h1 <;> linarith
        revert h2
        cases ω k 0 <;> cases ω k 1 <;> simp [sign] <;> norm_num
      · intro h
        refine ⟨0, hr 0, fun z hz => ?_⟩
        obtain ⟨k, rfl⟩ := List.mem_ofFn.1 hz
        rw [hq]; simp only [h k]; ring
    have hro : s.rows ≠ ∅ := Finset.ne_empty_of_mem (hr 0)
    rw [← hz, finish_error hne hsgn nd, hsg]
    simp [hro]
  have hc : (Finset.univ.filter fun ω : Flips N 2 => ∀ k, ω k 0 = ω k 1)
      = Finset.univ.image fun (f : Fin N → Bool) k _ => f k := by
    ext ω
    simp only [Finset.mem_filter, Finset.mem_univ, true_and, Finset.mem_image]
    constructor
    · intro h
      refine ⟨fun k => ω k 0, ?_⟩
      funext k o; fin_cases o
      · rfl
      · exact h k
    · rintro ⟨f, rfl⟩ k; rfl
  have hi : Function.Injective fun (f : Fin N → Bool) (k : Fin N) (_ : Fin 2) => f k :=
    fun f g h => funext fun k => congrFun (congrFun h k) 0
  simp only [key]
  rw [share_eq, hc, Finset.card_image_of_injective _ hi]
  simp only [Finset.card_univ, Fintype.card_fun, Fintype.card_bool, Fintype.card_fin]
  push_cast
  rw [show (2 : ℝ) ^ N / _ = 2 ^ N / (2 ^ N * 2 ^ N) by rw [← mul_pow]; norm_num]
  field_simp

theorem share_tendsto {p q : ∀ N, Flips N n → Prop} (h : ∀ N ω, p N ω → q N ω)
    (hq : Tendsto (fun N => share (q N)) atTop (𝓝 0)) : Tendsto (fun N => share (p N)) atTop (𝓝 0) :=
  squeeze_zero (fun N => by unfold share; positivity) (fun N => share_mono (h N)) hq

/-- As `Proj.consistent`, for ratios times fixed numbers. -/
theorem Proj.consistent_scaled {q : (Fin n → ℝ) → Fin n → ℝ} {lev : Fin n → ℝ} {s : Setting n} (hq : Proj q lev)
    (hl : ∀ o ∈ s.rows, lev o ≠ 1) (hr : s.rows.Nonempty) (r : Fin n → ℝ) {ε : ℝ} (hε : 0 < ε) :
    Tendsto (fun N : ℕ => share fun ω : Flips N n => ¬ ∃ out, s.finish N (levAvg q (probes ω)) = .ok out ∧
      ∀ o ∈ s.rows, |out.Pii o - lev o| < ε ∧
        ∃ f, out.factor o = some f ∧ |r o * (f / (1 - out.Pii o)) - r o * (1 / (1 - lev o))| < ε) atTop (𝓝 0) := by
  set K := 1 + ∑ o, |r o| with hK
  have hK1 : 1 ≤ K := by
    have : 0 ≤ ∑ o, |r o| := Finset.sum_nonneg fun o _ => abs_nonneg _
    linarith
  have hrK : ∀ o, |r o| ≤ K := fun o => by
    have := Finset.single_le_sum (f := fun o => |r o|) (fun o _ => abs_nonneg _) (Finset.mem_univ o)
    linarith
  have hK0 : 0 < K := by linarith
  refine squeeze_zero (fun N => by unfold share; positivity) (fun N => ?_)
    (hq.consistent hl hr (show 0 < ε / K by positivity))
  refine share_mono fun ω h h' => h ?_
  obtain ⟨out, h1, h2⟩ := h'
  refine ⟨out, h1, fun o ho => ?_⟩
  obtain ⟨h3, f, h4, h5⟩ := h2 o ho
  refine ⟨h3.trans_le (div_le_self hε.le hK1), f, h4, ?_⟩
  rw [← mul_sub, abs_mul]
  calc |r o| * |f / (1 - out.Pii o) - 1 / (1 - lev o)| ≤ K * |f / (1 - out.Pii o) - 1 / (1 - lev o)| := by
        gcongr; exact hrK o
    _ < K * (ε / K) := mul_lt_mul_of_pos_left h5 hK0
    _ = ε := by field_simp

end Pytwoway.FE.Probes

/-! ## C111 without controls -/

namespace Pytwoway.FE

open Probes Probes.Spec Filter Topology
open scoped BigOperators

variable {n m nw N : ℕ} {d : Panel n m nw} {solve : (Fin m → ℝ) → (Fin m → ℝ)}

theorem panel_proj (hv : d.Valid) (hc : d.Connected) (hs : d.GoodSolver solve) :
    Proj (fun z => d.proj solve z .sqrt .sqrt) (d.computePii d.blocksFull) :=
  ⟨fun a b => smat d a b, fun z o => by simp only [proj_sqrt hv hc hs]; rfl,
    fun o => (smat_diag hv o).trans (d.computePii_eq hv (d.nmat_unit hv hc) o).symm,
    fun o => (smat_sq hv hc o).trans (d.computePii_eq hv (d.nmat_unit hv hc) o).symm⟩

theorem panel_one (st : Panel.Stayers) (nd : ℕ) (b : List (Fin n → ℝ)) : d.approxLev solve st nd [b]
    = (d.setting st).finish nd (levAvg (fun z => d.proj solve z .sqrt .sqrt) b) := rfl

theorem panel_rows (st : Panel.Stayers) (o : Fin n) : o ∈ (d.setting st).rows ↔ d.UsesLeverage st o := by
  rw [rows_iff]; simp [Panel.setting, Panel.UsesLeverage]

/-- C111, cores: however many cores share the probes equally, the step ends as on one core. -/
theorem C111_fe_cores (st : Panel.Stayers) (nd b : ℕ) (bs : List (List (Fin n → ℝ))) (hb : ∀ l ∈ bs, l.length = b) :
    d.approxLev solve st nd bs = d.approxLev solve st nd [bs.flatten] := by
  have h := combine_levAvg (fun z => d.proj solve z .sqrt .sqrt) b bs hb
  match bs, h with
  | [l], _ => simp
  | [], h => simp only [Panel.approxLev]; exact congrArg _ h
  | l :: l' :: t, h => simp only [Panel.approxLev]; exact congrArg _ h

theorem panel_card (st : Panel.Stayers) : (d.setting st).rows.card = Nat.card {o // d.UsesLeverage st o} := by
  classical
  rw [Nat.card_eq_fintype_card, Fintype.card_subtype]
  congr 1; ext o; rw [panel_rows]; simp

theorem panel_single (st : Panel.Stayers) : (d.setting st).single = true ↔ st = .upperBound ∧ d.LoneStayer := by
  have hm : ∀ o, ¬ d.workerM o → ∀ b, (¬ d.workerM b ∧ (d.i b).val = (d.i o).val) ↔ d.i b = d.i o := fun o ho b =>
    ⟨fun h => Fin.ext h.2, fun h => ⟨fun ⟨c, h1, h2⟩ => ho (by
      by_cases hb : d.j b = d.j o
      · exact ⟨c, h1.trans h, fun h3 => h2 (h3.trans hb.symm)⟩
      · exact ⟨b, h, hb⟩), congrArg _ h⟩⟩
  unfold Setting.single Panel.LoneStayer
  cases st
  · simp [Panel.setting]
  · cases hw : d.weighted
    · simp only [Panel.setting, hw, decide_eq_false_iff_not, Bool.false_eq_true, if_false, decide_eq_true_eq, true_and]
      refine exists_congr fun o => and_congr_right fun ho => ?_
      simp only [hm o ho, Finset.card_eq_one]
      constructor
      · rintro ⟨a, ha⟩ b hb
        have h1 : b = a := by simpa using (Finset.ext_iff.1 ha b).1 (by simpa using hb)
        have h2 : o = a := by simpa using (Finset.ext_iff.1 ha o).1 (by simp)
        rw [h1, h2]
      · intro h
        exact ⟨o, by ext b; simpa using ⟨fun hb => h b hb, fun hb => by rw [hb]⟩⟩
    · simp only [Panel.setting, hw, decide_eq_false_iff_not, if_true, decide_eq_true_eq, true_and]
      refine exists_congr fun o => and_congr_right fun ho => ?_
      simp only [hm o ho, one_div, inv_eq_one]

/-- C111, refusal: the step fails exactly if no row's leverage is needed, or some row whose leverage is needed was fitted
without residual in every probe; and which error is raised. -/
theorem C111_fe_refused (st : Panel.Stayers) (nd : ℕ) (draws : List (Fin n → ℝ)) (hne : draws ≠ [])
    (hsgn : ∀ z ∈ draws, ∀ o, z o = 1 ∨ z o = -1) (e : LevErr) :
    d.approxLev solve st nd [draws] = .error e ↔
      ((∀ o, ¬ d.UsesLeverage st o) ∧ e = .noRows) ∨
      ((∃ o, d.UsesLeverage st o ∧ ∀ z ∈ draws, d.proj solve z .sqrt .sqrt o = z o) ∧
        (st = .upperBound ∧ d.LoneStayer → e = .singleStayer) ∧
        (¬ (st = .upperBound ∧ d.LoneStayer) → e = .leverageOne)) := by
  rw [panel_one, finish_error hne hsgn nd e]
  have hr : ∀ P : Fin n → Prop, (∃ o ∈ (d.setting st).rows, P o) ↔ ∃ o, d.UsesLeverage st o ∧ P o := fun P =>
    exists_congr fun o => and_congr_left fun _ => panel_rows st o
  rw [hr]
  simp only [Finset.eq_empty_iff_forall_notMem, panel_rows]
  have hs := panel_single (d := d) st
  by_cases h : st = .upperBound ∧ d.LoneStayer
  · rw [if_pos (hs.2 h)]
    simp only [h, and_self, not_true_eq_false, forall_const, false_imp_iff, and_true]
  · rw [if_neg fun h' => h (hs.1 h')]
    simp only [h, not_false_eq_true, forall_const, false_imp_iff, true_and]

/-- C111: a needed row of leverage one makes the step fail whatever the probes. -/
theorem C111_fe_leverage_one (hv : d.Valid) (hc : d.Connected) (hs : d.GoodSolver solve) (st : Panel.Stayers) (nd : ℕ)
    (draws : List (Fin n → ℝ)) (hne : draws ≠ []) (hsgn : ∀ z ∈ draws, ∀ o, z o = 1 ∨ z o = -1) {o : Fin n}
    (ho : d.UsesLeverage st o) (h1 : d.computePii d.blocksFull o = 1) :
    ∃ e, d.approxLev solve st nd [draws] = .error e := by
  rw [panel_one]
  exact ⟨_, (finish_error hne hsgn nd _).2
    (.inr ⟨⟨o, (panel_rows st o).2 ho, fun z _ => (panel_proj hv hc hs).one h1 z⟩, rfl⟩)⟩

/-- C111: if no needed leverage is one, the probability of refusal is at most the number of such rows over two to the
number of probes. -/
theorem C111_fe_false_refusal (hv : d.Valid) (hc : d.Connected) (hs : d.GoodSolver solve) (st : Panel.Stayers) (nd : ℕ)
    (hN : 0 < N) (hr : ∃ o, d.UsesLeverage st o)
    (hl : ∀ o, d.UsesLeverage st o → d.computePii d.blocksFull o ≠ 1) :
    (share fun ω : Flips N n => ∃ e, d.approxLev solve st nd [probes ω] = .error e)
      ≤ (Nat.card {o // d.UsesLeverage st o} : ℝ) / 2 ^ N := by
  rw [← panel_card]
  exact (panel_proj hv hc hs).refusal (fun o ho => hl o ((panel_rows st o).1 ho))
    (hr.imp fun o ho => (panel_rows st o).2 ho) hN nd

/-- C111, result: the reported minimum and maximum are those of the returned leverages of the needed rows; all of these lie
in `[0, 1)`. -/
theorem C111_fe_reported (st : Panel.Stayers) (nd : ℕ) (draws : List (Fin n → ℝ)) (hne : draws ≠ [])
    (hsgn : ∀ z ∈ draws, ∀ o, z o = 1 ∨ z o = -1) {out : LevOut n} (h : d.approxLev solve st nd [draws] = .ok out) :
    (∀ o, d.UsesLeverage st o → 0 ≤ out.Pii o ∧ out.minLev ≤ out.Pii o ∧ out.Pii o ≤ out.maxLev ∧ out.Pii o < 1) ∧
    (∃ o, d.UsesLeverage st o ∧ out.Pii o = out.minLev) ∧ (∃ o, d.UsesLeverage st o ∧ out.Pii o = out.maxLev) ∧
    ∀ o, out.factor o ≠ none ↔ d.UsesLeverage st o := by
  obtain ⟨hP, h1, ⟨a, ha, ha'⟩, ⟨b, hb, hb'⟩, h4, h5⟩ :=
    finish_ok (v := levAvg (fun z => d.proj solve z .sqrt .sqrt) draws) (s := d.setting st) h
  refine ⟨fun o ho => ?_, ⟨a, (panel_rows st a).1 ha, ha'⟩, ⟨b, (panel_rows st b).1 hb, hb'⟩, fun o => ?_⟩
  · have ho' := (panel_rows st o).2 ho
    obtain ⟨l1, l2⟩ := h1 o ho'
    refine ⟨?_, l1, l2, by linarith⟩
    rw [hP]; exact (norm_range hne hsgn ho').1
  · rw [h5, ← panel_rows st o]; split <;> simp [*]

/-- C111, spread: mean-square error of the averages. -/
theorem C111_fe_spread (hv : d.Valid) (hc : d.Connected) (hs : d.GoodSolver solve) (hN : 0 < N) (o : Fin n) :
    (mean fun ω : Flips N n => ((d.leverageApprox solve (probes ω)).Pii o - d.computePii d.blocksFull o) ^ 2)
      ≤ 2 * d.computePii d.blocksFull o ^ 2 / N ∧
    (mean fun ω : Flips N n => ((d.leverageApprox solve (probes ω)).Mii o - (1 - d.computePii d.blocksFull o)) ^ 2)
      ≤ 2 * (1 - d.computePii d.blocksFull o) ^ 2 / N :=
  (panel_proj hv hc hs).spread hN o

/-- C111, accuracy: probability that the step succeeds but some needed leverage is off by `ε` or more. -/
theorem C111_fe_accuracy (hv : d.Valid) (hc : d.Connected) (hs : d.GoodSolver solve) (st : Panel.Stayers) (hN : 0 < N)
    (nd : ℕ) {ε : ℝ} (hε : 0 < ε) :
    (share fun ω : Flips N n => ∃ out, d.approxLev solve st nd [probes ω] = .ok out ∧
      ∃ o, d.UsesLeverage st o ∧ ε ≤ |out.Pii o - d.computePii d.blocksFull o|)
      ≤ Nat.card {o // d.UsesLeverage st o} * (2 * (1 + 2 * ε) ^ 2 / (N * ε ^ 2)) := by
  rw [← panel_card]
  simp only [panel_one, ← panel_rows]
  exact (panel_proj hv hc hs).accuracy_all hN nd hε

/-- C111, consistency: if no needed leverage is one, then with more and more probes the probability goes to one that the
step succeeds with all needed leverages, and the variance estimates of these rows after the correction factor, within `ε`
of those with exact leverages. -/
theorem C111_fe_consistent (hv : d.Valid) (hc : d.Connected) (hs : d.GoodSolver solve) (st : Panel.Stayers)
    (hr : ∃ o, d.UsesLeverage st o) (hl : ∀ o, d.UsesLeverage st o → d.computePii d.blocksFull o ≠ 1) {ε : ℝ}
    (hε : 0 < ε) :
    Tendsto (fun N : ℕ => share fun ω : Flips N n => ¬ ∃ out, d.approxLev solve st N [probes ω] = .ok out ∧
      ∀ o, d.UsesLeverage st o → |out.Pii o - d.computePii d.blocksFull o| < ε ∧
        ∃ f, out.factor o = some f ∧
          |d.looSii solve out.Pii o * f - d.looSii solve (d.computePii d.blocksFull) o| < ε) atTop (𝓝 0) := by
  have h := (panel_proj hv hc hs).consistent_scaled (s := d.setting st) (fun o ho => hl o ((panel_rows st o).1 ho))
    (hr.imp fun o ho => (panel_rows st o).2 ho)
    (fun o => (d.y o - Util.weightedMean d.y (.vec d.Dp)) * d.E solve o) hε
  refine share_tendsto ?_ h
  intro N ω h1 h2
  refine h1 ?_
  obtain ⟨out, h3, h4⟩ := h2
  refine ⟨out, (panel_one st N _).trans h3, fun o ho => ?_⟩
  obtain ⟨h5, f, h6, h7⟩ := h4 o ((panel_rows st o).2 ho)
  refine ⟨h5, f, h6, ?_⟩
  have e : d.looSii solve out.Pii o * f - d.looSii solve (d.computePii d.blocksFull) o
      = (d.y o - Util.weightedMean d.y (.vec d.Dp)) * d.E solve o * (f / (1 - out.Pii o))
        - (d.y o - Util.weightedMean d.y (.vec d.Dp)) * d.E solve o * (1 / (1 - d.computePii d.blocksFull o)) := by
    unfold Panel.looSii; ring
  rw [e]; exact h7

/-- One worker twice at one firm. -/
def exTwo : Panel 2 0 1 := ⟨![0, 0], ![0, 0], ![1, 3], false, ![1, 1]⟩

theorem exTwo_proj (solve : (Fin 0 → ℝ) → (Fin 0 → ℝ)) (z : Fin 2 → ℝ) (o : Fin 2) :
    exTwo.proj solve z .sqrt .sqrt o = (z 0 + z 1) / 2 := by
  have hD : ∀ o, exTwo.Dp o = 1 := fun _ => rfl
  have hi : ∀ o, exTwo.i o = 0 := fun _ => Subsingleton.elim _ _
  have h : ∀ i, exTwo.Dwinv i = 1 / 2 := fun i => by
    rw [Panel.Dwinv_eq, Subsingleton.elim i 0]
    simp [Panel.Dw, hD, hi]
  simp [Panel.proj, Panel.solveLS, Panel.multAAinv, Panel.multAT, Panel.multA, h, Panel.W, Panel.sqrtDpW, hD, hi,
    Matrix.mulVec, dotProduct, Fin.sum_univ_succ]
  ring

theorem exTwo_valid : exTwo.Valid where
  wpos := by intro o; simp [Panel.Dp, exTwo]
  seen := by intro i; exact ⟨0, Subsingleton.elim _ _⟩

theorem exTwo_connected : exTwo.Connected := by
  intro a b
  rw [show a = b from Fin.ext (by omega)]

/-- C111: refusal by bad luck does happen: all leverages are 1/2, no stayer is seen once only, and the step fails, blaming
the connectedness of the data, with probability one over two to the number of probes. -/
theorem C111_fe_bad_luck : exTwo.Valid ∧ exTwo.Connected ∧ (∀ o, exTwo.computePii exTwo.blocksFull o = 1 / 2) ∧
    ¬ exTwo.LoneStayer ∧ ∀ solve nd N, 0 < N →
      (share fun ω : Flips N 2 => exTwo.approxLev solve .upperBound nd [probes ω] = .error .leverageOne) = 1 / 2 ^ N := by
  have hl : ¬ exTwo.LoneStayer := by
    rintro ⟨o, -, h⟩
    have h' : ∀ b, b = o := fun b => (show ∀ b, exTwo.i b = exTwo.i o → b = o from h) b (Subsingleton.elim _ _)
    exact absurd ((h' 0).trans (h' 1).symm) (by decide)
  refine ⟨exTwo_valid, exTwo_connected, fun o => ?_, hl, fun solve nd N hN => ?_⟩
  · obtain ⟨s, hs⟩ := exists_goodSolver exTwo
    obtain ⟨S, h1, h2, -⟩ := (panel_proj exTwo_valid exTwo_connected hs).ex
    have := h1 (Pi.single o 1) o
    rw [exTwo_proj] at this
    rw [← h2 o]
    fin_cases o <;> simp [Fin.sum_univ_succ] at this ⊢ <;> linarith
  · have hsg : (exTwo.setting .upperBound).single = false := by
      rw [← Bool.not_eq_true, panel_single]; exact fun h => hl h.2
    exact two_rows (exTwo_proj solve) (fun o => (panel_rows _ o).2 (.inl ⟨rfl, rfl⟩)) hsg hN nd

/-- A worker seen once: leverage one, and the step always fails with the message about single stayers. -/
example : ∃ d : Panel 1 0 1, ∃ solve, d.Valid ∧ d.Connected ∧ d.GoodSolver solve ∧ d.UsesLeverage .upperBound 0 ∧
    d.computePii d.blocksFull 0 = 1 ∧ ∀ nd N, 0 < N → ∀ ω : Flips N 1,
      d.approxLev solve .upperBound nd [probes ω] = .error .singleStayer := by
  let d : Panel 1 0 1 := ⟨![0], ![0], ![1], false, ![1]⟩
  obtain ⟨s, hs⟩ := exists_goodSolver d
  have hv : d.Valid := ⟨fun o => by simp [Panel.Dp, d], fun i => ⟨0, Subsingleton.elim _ _⟩⟩
  have hc : d.Connected := fun a b => by rw [show a = b from Fin.ext (by omega)]
  have hu : d.UsesLeverage .upperBound 0 := .inl ⟨rfl, rfl⟩
  have hD : ∀ o, d.Dp o = 1 := fun _ => rfl
  have h : ∀ i, d.Dwinv i = 1 := fun i => by
    rw [Panel.Dwinv_eq]
    simp [Panel.Dw, hD, Subsingleton.elim (d.i _) i]
  have hi : ∀ o, d.i o = 0 := fun _ => Subsingleton.elim _ _
  have hp : ∀ z o, d.proj s z .sqrt .sqrt o = z o := fun z o => by
    rw [Subsingleton.elim o 0]
    simp [Panel.proj, Panel.solveLS, Panel.multAAinv, Panel.multAT, Panel.multA, h, Panel.sqrtDpW, Panel.W, hD, hi,
      Matrix.mulVec, dotProduct]
  refine ⟨d, s, hv, hc, hs, hu, ?_, fun nd N hN ω => ?_⟩
  · obtain ⟨S, h1, h2, -⟩ := (panel_proj hv hc hs).ex
    have := h1 (fun _ => 1) 0
    rw [hp] at this
    rw [← h2 0]; simpa using this.symm
  · refine (C111_fe_refused _ _ _ ?_ ?_ _).2 (.inr ⟨⟨0, hu, fun z _ => hp z 0⟩, fun _ => rfl, fun h => (h ⟨rfl, 0, ?_, ?_⟩).elim⟩)
    · intro h; have := congrArg List.length h; simp [probes] at this; omega
    · intro z hz o
      obtain ⟨k, rfl⟩ := List.mem_ofFn.1 hz
      show sign _ = 1 ∨ sign _ = -1
      unfold sign; split <;> simp
    · rintro ⟨o, -, h⟩; exact h (Fin.ext (by omega))
    · exact fun b _ => Subsingleton.elim _ _

/-- The hypotheses above can be met, and here refusal has probability at most 5/2^N. -/
example : ∃ solve, ex20.Valid ∧ ex20.Connected ∧ ex20.GoodSolver solve ∧ (∀ o, ex20.UsesLeverage .firmMean o) ∧
    ∀ o, ex20.computePii ex20.blocksFull o ≠ 1 := by
  obtain ⟨s, hs⟩ := exists_goodSolver ex20
  refine ⟨s, ex20_valid, ex20_connected, hs, fun o => .inr (ex20_movers o), fun o => ?_⟩
  rw [ex20.computePii_eq ex20_valid (ex20.nmat_unit ex20_valid ex20_connected), ex20_hat]
  fin_cases o <;> simp <;> norm_num

end Pytwoway.FE

/-! ## C111 with controls -/

namespace Pytwoway.FEControl

open FE FE.Probes FE.Probes.Spec Filter Topology
open scoped BigOperators
open FE.Panel (Stayers)

variable {n m nw N : ℕ} {d : CData n m nw} {solve : List ℝ → List ℝ}

theorem cdata_proj (hd : d.Ok) (hs : d.GoodSolver solve) :
    Proj (fun z => d.proj solve z .sqrt .sqrt) (d.leverage solve) :=
  ⟨fun a b => sgen d.amat d.Dp a b, fun z o => by simp only [proj_sqrt hd hs]; rfl,
    fun o => (sgen_diag hd.pos o).trans (leverage_eq hd hs o).symm,
    fun o => (sgen_sq hd.pos hd.unit o).trans (leverage_eq hd hs o).symm⟩

theorem cdata_one (st : Stayers) (nd : ℕ) (b : List (Fin n → ℝ)) : d.approxLev solve st nd [b]
    = (d.setting st).finish nd (levAvg (fun z => d.proj solve z .sqrt .sqrt) b) := rfl

theorem cdata_rows (st : Stayers) (o : Fin n) : o ∈ (d.setting st).rows ↔ d.UsesLeverage st o := by
  rw [rows_iff]; simp [CData.setting, CData.UsesLeverage]

/-- C111, cores: however many cores share the probes equally, the step ends as on one core. -/
theorem C111_cores (st : Stayers) (nd b : ℕ) (bs : List (List (Fin n → ℝ))) (hb : ∀ l ∈ bs, l.length = b) :
    d.approxLev solve st nd bs = d.approxLev solve st nd [bs.flatten] := by
  have h := combine_levAvg (fun z => d.proj solve z .sqrt .sqrt) b bs hb
  match bs, h with
  | [l], _ => simp
  | [], h => simp only [CData.approxLev]; exact congrArg _ h
  | l :: l' :: t, h => simp only [CData.approxLev]; exact congrArg _ h

theorem cdata_card (st : Stayers) : (d.setting st).rows.card = Nat.card {o // d.UsesLeverage st o} := by
  classical
  rw [Nat.card_eq_fintype_card, Fintype.card_subtype]
  congr 1; ext o; rw [cdata_rows]; simp

theorem cdata_single (st : Stayers) : (d.setting st).single = true ↔ st = .upperBound ∧ d.LoneStayer := by
  have hm : ∀ o, ¬ d.workerM o → ∀ b, (¬ d.workerM b ∧ (d.i b).val = (d.i o).val) ↔ d.i b = d.i o := fun o ho b =>
    ⟨fun h => Fin.ext h.2, fun h => ⟨fun ⟨c, h1, h2⟩ => ho (by
      by_cases hb : d.j b = d.j o
      · exact ⟨c, h1.trans h, fun h3 => h2 (h3.trans hb.symm)⟩
      · exact ⟨b, h, hb⟩), congrArg _ h⟩⟩
  unfold Setting.single CData.LoneStayer
  cases st
  · simp [CData.setting]
  · cases hw : d.weighted
    · simp only [CData.setting, hw, decide_eq_false_iff_not, Bool.false_eq_true, if_false, decide_eq_true_eq, true_and]
      refine exists_congr fun o => and_congr_right fun ho => ?_
      simp only [hm o ho, Finset.card_eq_one]
      constructor
      · rintro ⟨a, ha⟩ b hb
        have h1 : b = a := by simpa using (Finset.ext_iff.1 ha b).1 (by simpa using hb)
        have h2 : o = a := by simpa using (Finset.ext_iff.1 ha o).1 (by simp)
        rw [h1, h2]
      · intro h
        exact ⟨o, by ext b; simpa using ⟨fun hb => h b hb, fun hb => by rw [hb]⟩⟩
    · simp only [CData.setting, hw, decide_eq_false_iff_not, if_true, decide_eq_true_eq, true_and]
      refine exists_congr fun o => and_congr_right fun ho => ?_
      simp only [hm o ho, one_div, inv_eq_one]

/-- C111, refusal: the step fails exactly if no row's leverage is needed, or some row whose leverage is needed was fitted
without residual in every probe; and which error is raised. -/
theorem C111_refused (st : Stayers) (nd : ℕ) (draws : List (Fin n → ℝ)) (hne : draws ≠ [])
    (hsgn : ∀ z ∈ draws, ∀ o, z o = 1 ∨ z o = -1) (e : LevErr) :
    d.approxLev solve st nd [draws] = .error e ↔
      ((∀ o, ¬ d.UsesLeverage st o) ∧ e = .noRows) ∨
      ((∃ o, d.UsesLeverage st o ∧ ∀ z ∈ draws, d.proj solve z .sqrt .sqrt o = z o) ∧
        (st = .upperBound ∧ d.LoneStayer → e = .singleStayer) ∧
        (¬ (st = .upperBound ∧ d.LoneStayer) → e = .leverageOne)) := by
  rw [cdata_one, finish_error hne hsgn nd e]
  have hr : ∀ P : Fin n → Prop, (∃ o ∈ (d.setting st).rows, P o) ↔ ∃ o, d.UsesLeverage st o ∧ P o := fun P =>
    exists_congr fun o => and_congr_left fun _ => cdata_rows st o
  rw [hr]
  simp only [Finset.eq_empty_iff_forall_notMem, cdata_rows]
  have hs := cdata_single (d := d) st
  by_cases h : st = .upperBound ∧ d.LoneStayer
  · rw [if_pos (hs.2 h)]
    simp only [h, and_self, not_true_eq_false, forall_const, false_imp_iff, and_true]
  · rw [if_neg fun h' => h (hs.1 h')]
    simp only [h, not_false_eq_true, forall_const, false_imp_iff, true_and]

/-- C111: a needed row of leverage one makes the step fail whatever the probes. -/
theorem C111_leverage_one (hd : d.Ok) (hs : d.GoodSolver solve) (st : Stayers) (nd : ℕ)
    (draws : List (Fin n → ℝ)) (hne : draws ≠ []) (hsgn : ∀ z ∈ draws, ∀ o, z o = 1 ∨ z o = -1) {o : Fin n}
    (ho : d.UsesLeverage st o) (h1 : d.leverage solve o = 1) :
    ∃ e, d.approxLev solve st nd [draws] = .error e := by
  rw [cdata_one]
  exact ⟨_, (finish_error hne hsgn nd _).2
    (.inr ⟨⟨o, (cdata_rows st o).2 ho, fun z _ => (cdata_proj hd hs).one h1 z⟩, rfl⟩)⟩

/-- C111: if no needed leverage is one, the probability of refusal is at most the number of such rows over two to the
number of probes. -/
theorem C111_false_refusal (hd : d.Ok) (hs : d.GoodSolver solve) (st : Stayers) (nd : ℕ) (hN : 0 < N)
    (hr : ∃ o, d.UsesLeverage st o) (hl : ∀ o, d.UsesLeverage st o → d.leverage solve o ≠ 1) :
    (share fun ω : Flips N n => ∃ e, d.approxLev solve st nd [probes ω] = .error e)
      ≤ (Nat.card {o // d.UsesLeverage st o} : ℝ) / 2 ^ N := by
  rw [← cdata_card]
  exact (cdata_proj hd hs).refusal (fun o ho => hl o ((cdata_rows st o).1 ho))
    (hr.imp fun o ho => (cdata_rows st o).2 ho) hN nd

/-- C111, result: the reported minimum and maximum are those of the returned leverages of the needed rows; all of these lie
in `[0, 1)`. -/
theorem C111_reported (st : Stayers) (nd : ℕ) (draws : List (Fin n → ℝ)) (hne : draws ≠ [])
    (hsgn : ∀ z ∈ draws, ∀ o, z o = 1 ∨ z o = -1) {out : LevOut n} (h : d.approxLev solve st nd [draws] = .ok out) :
    (∀ o, d.UsesLeverage st o → 0 ≤ out.Pii o ∧ out.minLev ≤ out.Pii o ∧ out.Pii o ≤ out.maxLev ∧ out.Pii o < 1) ∧
    (∃ o, d.UsesLeverage st o ∧ out.Pii o = out.minLev) ∧ (∃ o, d.UsesLeverage st o ∧ out.Pii o = out.maxLev) ∧
    ∀ o, out.factor o ≠ none ↔ d.UsesLeverage st o := by
  obtain ⟨hP, h1, ⟨a, ha, ha'⟩, ⟨b, hb, hb'⟩, h4, h5⟩ :=
    finish_ok (v := levAvg (fun z => d.proj solve z .sqrt .sqrt) draws) (s := d.setting st) h
  refine ⟨fun o ho => ?_, ⟨a, (cdata_rows st a).1 ha, ha'⟩, ⟨b, (cdata_rows st b).1 hb, hb'⟩, fun o => ?_⟩
  · have ho' := (cdata_rows st o).2 ho
    obtain ⟨l1, l2⟩ := h1 o ho'
    refine ⟨?_, l1, l2, by linarith⟩
    rw [hP]; exact (norm_range hne hsgn ho').1
  · rw [h5, ← cdata_rows st o]; split <;> simp [*]

/-- C111, spread: mean-square error of the averages. -/
theorem C111_spread (hd : d.Ok) (hs : d.GoodSolver solve) (hN : 0 < N) (o : Fin n) :
    (mean fun ω : Flips N n => ((d.leverageApprox solve (probes ω)).Pii o - d.leverage solve o) ^ 2)
      ≤ 2 * d.leverage solve o ^ 2 / N ∧
    (mean fun ω : Flips N n => ((d.leverageApprox solve (probes ω)).Mii o - (1 - d.leverage solve o)) ^ 2)
      ≤ 2 * (1 - d.leverage solve o) ^ 2 / N :=
  (cdata_proj hd hs).spread hN o

/-- C111, accuracy: probability that the step succeeds but some needed leverage is off by `ε` or more. -/
theorem C111_accuracy (hd : d.Ok) (hs : d.GoodSolver solve) (st : Stayers) (hN : 0 < N)
    (nd : ℕ) {ε : ℝ} (hε : 0 < ε) :
    (share fun ω : Flips N n => ∃ out, d.approxLev solve st nd [probes ω] = .ok out ∧
      ∃ o, d.UsesLeverage st o ∧ ε ≤ |out.Pii o - d.leverage solve o|)
      ≤ Nat.card {o // d.UsesLeverage st o} * (2 * (1 + 2 * ε) ^ 2 / (N * ε ^ 2)) := by
  rw [← cdata_card]
  simp only [cdata_one, ← cdata_rows]
  exact (cdata_proj hd hs).accuracy_all hN nd hε

/-- C111, consistency: if no needed leverage is one, then with more and more probes the probability goes to one that the
step succeeds with all needed leverages, and the variance estimates of these rows after the correction factor, within `ε`
of those with exact leverages. -/
theorem C111_consistent (hd : d.Ok) (hs : d.GoodSolver solve) (st : Stayers)
    (hr : ∃ o, d.UsesLeverage st o) (hl : ∀ o, d.UsesLeverage st o → d.leverage solve o ≠ 1) {ε : ℝ} (hε : 0 < ε) :
    Tendsto (fun N : ℕ => share fun ω : Flips N n => ¬ ∃ out, d.approxLev solve st N [probes ω] = .ok out ∧
      ∀ o, d.UsesLeverage st o → |out.Pii o - d.leverage solve o| < ε ∧
        ∃ f, out.factor o = some f ∧ |d.looSii solve out.Pii o * f - d.looSii solve (d.leverage solve) o| < ε)
      atTop (𝓝 0) := by
  have h := (cdata_proj hd hs).consistent_scaled (s := d.setting st) (fun o ho => hl o ((cdata_rows st o).1 ho))
    (hr.imp fun o ho => (cdata_rows st o).2 ho)
    (fun o => (d.y o - Util.weightedMean d.y (.vec d.Dp)) * d.E solve o) hε
  refine share_tendsto ?_ h
  intro N ω h1 h2
  refine h1 ?_
  obtain ⟨out, h3, h4⟩ := h2
  refine ⟨out, (cdata_one st N _).trans h3, fun o ho => ?_⟩
  obtain ⟨h5, f, h6, h7⟩ := h4 o ((cdata_rows st o).2 ho)
  refine ⟨h5, f, h6, ?_⟩
  have e : d.looSii solve out.Pii o * f - d.looSii solve (d.leverage solve) o
      = (d.y o - Util.weightedMean d.y (.vec d.Dp)) * d.E solve o * (f / (1 - out.Pii o))
        - (d.y o - Util.weightedMean d.y (.vec d.Dp)) * d.E solve o * (1 / (1 - d.leverage solve o)) := by
    unfold CData.looSii; ring
  rw [e]; exact h7

/-- One worker twice at one firm, no controls. -/
def exTwoC : CData 2 0 1 where
  j := ![0, 0]
  i := ![0, 0]
  y := ![1, 3]
  weighted := false
  w := ![1, 1]
  cats := []
  cts := []

theorem exTwoC_A : exTwoC.A = [fun _ => 1] := by
  have : indicators exTwoC.j = [fun _ => 1] := by
    simp [indicators]; funext o; fin_cases o <;> simp [exTwoC]
  have h2 : indicators exTwoC.i = [fun _ => 1] := by
    simp [indicators]; funext o; fin_cases o <;> simp [exTwoC]
  simp [CData.A, this, h2]
  simp [exTwoC]

theorem exTwoC_ok : exTwoC.Ok where
  names := by decide
  pos := by intro o; norm_num [CData.Dp, exTwoC]
  ident := by
    intro x y hx hy h
    have hn : exTwoC.nCov = 1 := by decide
    rw [hn] at hx hy
    match x, y, hx, hy with
    | [a], [b], _, _ => simpa [CData.multA, exTwoC_A] using h 0

theorem exTwoC_proj (hs : exTwoC.GoodSolver solve) (z : Fin 2 → ℝ) (o : Fin 2) :
    exTwoC.proj solve z .sqrt .sqrt o = (z 0 + z 1) / 2 := by
  have hD : ∀ o, exTwoC.Dp o = 1 := fun _ => rfl
  have hn : exTwoC.nCov = 1 := by decide
  have hA : ∀ x : ℝ, exTwoC.AtDpA [x] = [2 * x] := fun x => by
    simp [CData.AtDpA, CData.multAT, CData.multA, exTwoC_A, hD, Fin.sum_univ_succ]; ring
  have hb : exTwoC.multATw .sqrt z = [z 0 + z 1] := by
    simp [CData.multATw, exTwoC_A, CData.wt, hD, Fin.sum_univ_succ]
  obtain ⟨h1, h2⟩ := hs [z 0 + z 1] ⟨[(z 0 + z 1) / 2], by simp [hn], by rw [hA]; congr 1; ring⟩
  rw [hn] at h1
  obtain ⟨x, hx⟩ := List.length_eq_one_iff.1 h1
  rw [hx, hA] at h2
  have h3 : 2 * x = z 0 + z 1 := by simpa using h2
  rw [CData.proj, CData.solveLS, hb, hx]
  simp [CData.multAw, exTwoC_A, CData.wt, hD]
  linarith

/-- C111: refusal by bad luck does happen: all leverages are 1/2, no stayer is seen once only, and the step fails, blaming
the connectedness of the data, with probability one over two to the number of probes. -/
theorem C111_bad_luck : exTwoC.Ok ∧ ¬ exTwoC.LoneStayer ∧ ∀ solve, exTwoC.GoodSolver solve →
    (∀ o, exTwoC.leverage solve o = 1 / 2) ∧ ∀ nd N, 0 < N →
      (share fun ω : Flips N 2 => exTwoC.approxLev solve .upperBound nd [probes ω] = .error .leverageOne) = 1 / 2 ^ N := by
  have hl : ¬ exTwoC.LoneStayer := by
    rintro ⟨o, -, h⟩
    have h' : ∀ b, b = o := fun b => (show ∀ b, exTwoC.i b = exTwoC.i o → b = o from h) b (Subsingleton.elim _ _)
    exact absurd ((h' 0).trans (h' 1).symm) (by decide)
  refine ⟨exTwoC_ok, hl, fun solve hs => ⟨fun o => ?_, fun nd N hN => ?_⟩⟩
  · obtain ⟨S, h1, h2, -⟩ := (cdata_proj exTwoC_ok hs).ex
    have := h1 (Pi.single o 1) o
    rw [exTwoC_proj hs] at this
    rw [← h2 o]
    fin_cases o <;> simp [Fin.sum_univ_succ] at this ⊢ <;> linarith
  · have hsg : (exTwoC.setting .upperBound).single = false := by
      rw [← Bool.not_eq_true, cdata_single]; exact fun h => hl h.2
    exact two_rows (exTwoC_proj hs) (fun o => (cdata_rows _ o).2 (.inl ⟨rfl, rfl⟩)) hsg hN nd

/-- The hypotheses above can be met. -/
example : ∃ solve, exT.Ok ∧ exT.GoodSolver solve ∧ (∀ o, exT.UsesLeverage .firmMean o) ∧
    ∀ o, exT.leverage solve o ≠ 1 := by
  obtain ⟨s, hs⟩ := exists_goodSolver exT
  exact ⟨s, exT_ok, hs, fun o => .inr (exT_movers o), exT_leverage hs⟩

end Pytwoway.FEControl
