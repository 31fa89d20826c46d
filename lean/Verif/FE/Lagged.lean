import Verif.FE.Props4

/-!
# C89: `Q.CovPsiPrevPsiNext`, the covariance between a worker's consecutive firm effects
-/

namespace Pytwoway.FE

open Matrix Pytwoway.Util MeasureTheory
open scoped BigOperators

variable {n m nw : ℕ}

namespace Panel

variable (d : Panel n m nw)

/-- `fast_shift(i_col, -1, fill_value=-2)` at row `o`, Q/Q.py:264 (bipartitepandas: the value `k` rows further down,
the fill value where there is none). -/
def iNext (o : Fin n) : ℤ := if h : o.val + 1 < n then ((d.i ⟨o.val + 1, h⟩).val : ℤ) else -2

/-- `fast_shift(i_col, 1, fill_value=-2)` at row `o`, Q/Q.py:297. -/
def iPrev (o : Fin n) : ℤ := if 0 < o.val then ((d.i ⟨o.val - 1, by omega⟩).val : ℤ) else -2

/-- The rows of `_get_Ql`, Q/Q.py:266: all but the last of each run of a worker. -/
def rowsL : List (Fin n) := (List.finRange n).filter fun o => decide (((d.i o).val : ℤ) = d.iNext o)

/-- The rows of `_get_Qr`, Q/Q.py:299. -/
def rowsR : List (Fin n) := (List.finRange n).filter fun o => decide (((d.i o).val : ℤ) = d.iPrev o)

/-- The half built from a list of rows, Q/Q.py:267-278 and 300-311: firm indicators without the first column, and the
rows' weights (a scalar weight is passed on). -/
def qRows (rows : List (Fin n)) : QHalf rows.length m nw :=
  .psi (of fun a k => if d.j (rows.get a) = k.succ then 1 else 0)
    (if d.weighted then .vec fun a => d.w (rows.get a) else .scalar 1)

/-- A half on as many rows as another; NumPy raises if the lengths differ (util.py:45-68 multiplies the two vectors). -/
def QHalf.cast {r r' : ℕ} (h : r = r') (q : QHalf r m nw) : QHalf r' m nw := h ▸ q

/-- `(_get_Ql(...), _get_Qr(...))` of `CovPsiPrevPsiNext`, Q/Q.py:247-339. -/
def qLagged : Except String (QHalf d.rowsL.length m nw × QHalf d.rowsL.length m nw) :=
  if h : d.rowsR.length = d.rowsL.length then .ok (d.qRows d.rowsL, QHalf.cast h (d.qRows d.rowsR)) else .error "ValueError"

end Panel

/-! ## Specification -/

/-- Two observations of the same worker with none of theirs in between. -/
def Spec.Consecutive (d : Panel n m nw) (o o' : Fin n) : Prop :=
  o < o' ∧ d.i o = d.i o' ∧ ∀ o'', o < o'' → o'' < o' → d.i o'' ≠ d.i o

open scoped Classical in
/-- Pairs of consecutive observations. -/
abbrev Spec.Pair (d : Panel n m nw) : Type := {p : Fin n × Fin n // Spec.Consecutive d p.1 p.2}

noncomputable instance (d : Panel n m nw) : Fintype (Spec.Pair d) := Fintype.ofFinite _

/-- Weights of the first (second) observation of each pair. -/
def Spec.pairW (d : Panel n m nw) (f : Spec.Pair d → Fin n) : Weight (Spec.Pair d) :=
  if d.weighted then .vec fun p => d.w (f p) else .scalar 1

/-- Covariance between the firm effect of an observation and that of the worker's next observation. -/
noncomputable def Spec.laggedCov (d : Panel n m nw) (psi : Fin (m + 1) → ℝ) : ℝ :=
  weightedCov (fun p : Spec.Pair d => psi (d.j p.1.1)) (fun p => psi (d.j p.1.2)) (Spec.pairW d fun p => p.1.1)
    (Spec.pairW d fun p => p.1.2) 0

/-- A worker's observations are contiguous, as in sorted data. -/
def Grouped (d : Panel n m nw) : Prop := ∀ o o' o'' : Fin n, o < o' → o' < o'' → d.i o = d.i o'' → d.i o' = d.i o

/-! ## The rows of the two halves -/

variable {d : Panel n m nw}

theorem rows_shift (d : Panel n m nw) : d.rowsR.map Fin.val = d.rowsL.map fun o => o.val + 1 := by
  cases n with
  | zero => rfl
  | succ k =>
    have hL : d.rowsL = ((List.finRange k).filter fun a => decide (d.i a.castSucc = d.i a.succ)).map Fin.castSucc := by
      unfold Panel.rowsL
      rw [List.finRange_succ_last, List.filter_append, List.filter_map]
      have h0 : ([Fin.last k].filter fun o => decide (((d.i o).val : ℤ) = d.iNext o)) = [] := by
        rw [List.filter_eq_nil_iff]
        intro a ha
        rw [List.mem_singleton] at ha
        subst ha
        simp [Panel.iNext]
      rw [h0, List.append_nil]
      congr 1
      refine List.filter_congr fun a _ => ?_
      have : d.iNext a.castSucc = ((d.i a.succ).val : ℤ) := by
        unfold Panel.iNext
        rw [dif_pos (by simp)]
        rfl
      simp only [Function.comp, this, decide_eq_decide]
      rw [Int.natCast_inj, Fin.val_inj]
    have hR : d.rowsR = ((List.finRange k).filter fun a => decide (d.i a.castSucc = d.i a.succ)).map Fin.succ := by
      unfold Panel.rowsR
      rw [List.finRange_succ, List.filter_cons_of_neg, List.filter_map]
      · congr 1
        refine List.filter_congr fun a _ => ?_
        have : d.iPrev a.succ = ((d.i a.castSucc).val : ℤ) := by
          unfold Panel.iPrev
          rw [if_pos (by simp)]
          rfl
        simp only [Function.comp, this, decide_eq_decide]
        rw [Int.natCast_inj, Fin.val_inj, eq_comm]
      · simp [Panel.iPrev]
    rw [hL, hR, List.map_map, List.map_map]
    exact List.map_congr_left fun a _ => by simp

theorem rows_length (d : Panel n m nw) : d.rowsR.length = d.rowsL.length := by
  have := congrArg List.length (rows_shift d)
  simpa using this

theorem rows_get (d : Panel n m nw) (a : Fin d.rowsL.length) :
    (d.rowsR.get (a.cast (rows_length d).symm)).val = (d.rowsL.get a).val + 1 := by
  have h : (d.rowsR.map Fin.val)[a.val]? = (d.rowsL.map fun o => o.val + 1)[a.val]? := by rw [rows_shift]
  have ha : a.val < d.rowsR.length := by rw [rows_length]; exact a.isLt
  rw [List.getElem?_map, List.getElem?_map, List.getElem?_eq_getElem ha, List.getElem?_eq_getElem a.isLt] at h
  simpa using h

theorem mem_rowsL (o : Fin n) : o ∈ d.rowsL ↔ ∃ h : o.val + 1 < n, d.i o = d.i ⟨o.val + 1, h⟩ := by
  unfold Panel.rowsL Panel.iNext
  rw [List.mem_filter]
  simp only [List.mem_finRange, true_and, decide_eq_true_eq]
  by_cases h : o.val + 1 < n
  · rw [dif_pos h, Int.natCast_inj, Fin.val_inj]
    exact ⟨fun e => ⟨h, e⟩, fun e => e.2⟩
  · rw [dif_neg h]
    constructor
    · intro e; omega
    · rintro ⟨e, -⟩; exact absurd e h

theorem consecutive_iff (hg : Grouped d) (o o' : Fin n) :
    Spec.Consecutive d o o' ↔ o'.val = o.val + 1 ∧ d.i o = d.i o' := by
  constructor
  · rintro ⟨h1, h2, h3⟩
    refine ⟨?_, h2⟩
    by_contra hne
    have hlt : o.val + 1 < o'.val := by have : o.val < o'.val := h1; omega
    have hm : o < (⟨o.val + 1, by omega⟩ : Fin n) := Fin.lt_def.mpr (by simp)
    exact h3 ⟨o.val + 1, by omega⟩ hm (Fin.lt_def.mpr hlt) (hg o _ o' hm (Fin.lt_def.mpr hlt) h2)
  · rintro ⟨h1, h2⟩
    refine ⟨Fin.lt_def.mpr (by omega), h2, fun o'' ha hb => ?_⟩
    have : o.val < o''.val := ha
    have : o''.val < o'.val := hb
    omega

/-- Rows of the halves and pairs of consecutive observations. -/
theorem exists_pairs (hg : Grouped d) : ∃ e : Fin d.rowsL.length ≃ Spec.Pair d, ∀ a,
    (e a).1.1 = d.rowsL.get a ∧ (e a).1.2 = d.rowsR.get (a.cast (rows_length d).symm) := by
  have hc : ∀ a, Spec.Consecutive d (d.rowsL.get a) (d.rowsR.get (a.cast (rows_length d).symm)) := by
    intro a
    rw [consecutive_iff hg]
    refine ⟨rows_get d a, ?_⟩
    obtain ⟨h1, h2⟩ := (mem_rowsL (d.rowsL.get a)).mp (List.get_mem _ _)
    rw [h2]
    congr 1
    exact Fin.ext (rows_get d a).symm
  let f : Fin d.rowsL.length → Spec.Pair d := fun a => ⟨(_, _), hc a⟩
  have hinj : Function.Injective f := by
    intro a b h
    have h1 : d.rowsL.get a = d.rowsL.get b := congrArg (fun p : Spec.Pair d => p.1.1) h
    exact ((List.nodup_finRange n).filter _).injective_get h1
  have hsurj : Function.Surjective f := by
    rintro ⟨⟨o, o'⟩, hp⟩
    obtain ⟨h1, h2⟩ := (consecutive_iff hg o o').mp hp
    have hlt : o.val + 1 < n := by rw [← h1]; exact o'.isLt
    have hm : o ∈ d.rowsL := (mem_rowsL o).mpr ⟨hlt, by rw [h2]; congr 1; exact Fin.ext h1⟩
    obtain ⟨a, ha⟩ := List.get_of_mem hm
    refine ⟨a, Subtype.ext (Prod.ext ha (Fin.ext ?_))⟩
    show (d.rowsR.get (a.cast (rows_length d).symm)).val = o'.val
    rw [rows_get, ha, h1]
  exact ⟨Equiv.ofBijective f ⟨hinj, hsurj⟩, fun a => ⟨rfl, rfl⟩⟩

theorem weightedCov_reindex {ι κ : Type} [Fintype ι] [Fintype κ] (e : ι ≃ κ) (x y : κ → ℝ) (b : Bool) (w w' : κ → ℝ) :
    weightedCov (fun a => x (e a)) (fun a => y (e a)) (if b then .vec fun a => w (e a) else .scalar 1)
      (if b then .vec fun a => w' (e a) else .scalar 1) 0 =
    weightedCov x y (if b then .vec w else .scalar 1) (if b then .vec w' else .scalar 1) 0 := by
  have hs : ∀ f : κ → ℝ, ∑ a, f (e a) = ∑ p, f p := fun f => Equiv.sum_comp e f
  cases b
  · simp only [Bool.false_eq_true, if_false, weightedCov, weightedMean, hs, Fintype.card_congr e]
    rw [hs fun p => (x p - (∑ p, x p) / (Fintype.card κ : ℝ)) * (y p - (∑ p, y p) / (Fintype.card κ : ℝ))]
  · simp only [if_true, weightedCov, weightedMean, Weight.at]
    rw [hs fun p => w p * x p, hs w, hs fun p => w' p * y p, hs w']
    simp only [hs fun p => √(w p * w' p)]
    rw [hs fun p => √(w p * w' p) * (x p - (∑ p, w p * x p) / ∑ p, w p) * (y p - (∑ p, w' p * y p) / ∑ p, w' p)]

/-! ## C89 -/

theorem cast_qRows (d : Panel n m nw) (rows : List (Fin n)) {r : ℕ} (h : rows.length = r) :
    Panel.QHalf.cast h (d.qRows rows) = .psi (of fun a k => if d.j (rows.get (a.cast h.symm)) = k.succ then 1 else 0)
      (if d.weighted then .vec fun a => d.w (rows.get (a.cast h.symm)) else .scalar 1) := by
  subst h
  rfl

/-- Multiplying a half built from rows: each row's firm effect, the first firm's being zero. -/
theorem indicator_mult {r : ℕ} (g : Fin r → Fin (m + 1)) (w : Weight (Fin r)) (p : Fin m → ℝ) (a : Fin nw → ℝ) :
    (Panel.QHalf.psi (nw := nw) (of fun a k => if g a = k.succ then (1 : ℝ) else 0) w).mult p a =
      fun b => Panel.withZero p (g b) := by
  funext b
  show (∑ k, (if g b = k.succ then (1 : ℝ) else 0) * p k) = _
  generalize g b = x
  refine Fin.cases ?_ (fun k => ?_) x
  · simp [Panel.withZero, Fin.succ_ne_zero, eq_comm]
  · simp [Panel.withZero]

/-- C89: the two halves always fit together. -/
theorem C89_aligned (d : Panel n m nw) : ∃ ql qr, d.qLagged = .ok (ql, qr) ∧ ∀ a, ∃ o o' : Fin n, o'.val = o.val + 1 ∧
    d.i o = d.i o' ∧ ∀ p al, ql.mult p al a = Panel.withZero p (d.j o) ∧ qr.mult p al a = Panel.withZero p (d.j o') := by
  refine ⟨_, _, dif_pos (rows_length d), fun a => ?_⟩
  obtain ⟨h1, h2⟩ := (mem_rowsL (d.rowsL.get a)).mp (List.get_mem _ _)
  refine ⟨d.rowsL.get a, d.rowsR.get (a.cast (rows_length d).symm), rows_get d a, ?_, fun p al => ?_⟩
  · rw [h2]; congr 1; exact Fin.ext (rows_get d a).symm
  · rw [cast_qRows, Panel.qRows, indicator_mult, indicator_mult]
    exact ⟨rfl, rfl⟩

theorem lagged_std (hv : d.Valid) {ql qr : Panel.QHalf d.rowsL.length m nw} (h : d.qLagged = .ok (ql, qr)) :
    StdWeight ql.wt ∧ StdWeight qr.wt := by
  unfold Panel.qLagged at h
  rw [dif_pos (rows_length d), cast_qRows] at h
  cases h
  have := hv.wpos
  unfold Panel.Dp at this
  unfold Panel.qRows
  cases hw : d.weighted
  · exact ⟨rfl, rfl⟩
  · simp only [hw, if_true] at this
    exact ⟨fun a => (this _).le, fun a => (this _).le⟩

/-- C89: whatever vectors the two halves multiply, the result is the covariance between the firm effects of consecutive
observations of the same worker. -/
theorem C89_component (hg : Grouped d) {ql qr : Panel.QHalf d.rowsL.length m nw} (h : d.qLagged = .ok (ql, qr))
    (p : Fin m → ℝ) (al : Fin nw → ℝ) :
    weightedCov (ql.mult p al) (qr.mult p al) ql.wt qr.wt 0 = Spec.laggedCov d (Panel.withZero p) := by
  unfold Panel.qLagged at h
  rw [dif_pos (rows_length d), cast_qRows] at h
  cases h
  obtain ⟨e, he⟩ := exists_pairs hg
  rw [Panel.qRows, indicator_mult, indicator_mult]
  unfold Spec.laggedCov Spec.pairW
  rw [← weightedCov_reindex e]
  simp only [fun a => (he a).1, fun a => (he a).2]
  rfl

/-- C89: the reported plug-in value is the covariance of the attached firm effects over consecutive observations. -/
theorem C89_plug_in (hg : Grouped d) (solve : (Fin m → ℝ) → (Fin m → ℝ)) {ql qr : Panel.QHalf d.rowsL.length m nw}
    (h : d.qLagged = .ok (ql, qr)) : d.covFe solve ql qr = Spec.laggedCov d (Panel.withZero (d.ols solve).1) :=
  C89_component hg h _ _

/-- Which firm is normalised to zero does not matter. -/
theorem C89_normalisation (hv : d.Valid) (hne : Nonempty (Spec.Pair d)) (psi : Fin (m + 1) → ℝ) :
    Spec.laggedCov d (Panel.withZero (relPsi psi)) = Spec.laggedCov d psi := by
  unfold Spec.laggedCov
  simp only [show ∀ k, Panel.withZero (relPsi psi) k = psi k + -psi 0 from withZero_shift psi]
  have hu : ∀ f : Spec.Pair d → Fin n, (Spec.pairW d f).Usable := by
    intro f
    have := hv.wpos
    unfold Panel.Dp at this
    unfold Spec.pairW
    cases hw : d.weighted
    · exact Fintype.card_pos
    · simp only [hw, if_true] at this ⊢
      exact (Finset.sum_pos (fun p _ => this _) ⟨hne.some, Finset.mem_univ _⟩).ne'
  exact C02_cov_shift _ _ _ _ _ _ _ (hu _) (hu _)

section
variable {Ω Ω' : Type} [MeasurableSpace Ω] [MeasurableSpace Ω'] {μ : Measure Ω} {ν : Measure Ω'} {eps : Ω → Fin n → ℝ}
  {solve : (Fin m → ℝ) → (Fin m → ℝ)} {ql qr : Panel.QHalf d.rowsL.length m nw} {R : ℕ}

/-- C89: with the exact trace the homoskedastic correction is unbiased for this component. -/
theorem C89_ho_unbiased (hv : d.Valid) (hc : d.Connected) (hg : Grouped d) (hne : Nonempty (Spec.Pair d))
    (hs : d.GoodSolver solve) {σ2 : ℝ} (h : Noise μ eps fun o => σ2 / d.Dp o) (psi : Fin (m + 1) → ℝ) (alpha : Fin nw → ℝ)
    (hdf : ∃ o, d.computePii d.blocksFull o < 1) (hq : d.qLagged = .ok (ql, qr)) :
    ∃ tr, Panel.exactTraceCovHo d.blocksFull ql qr = .ok tr ∧
      ∫ ω, (d.obs psi alpha (eps ω)).covHo solve ql qr (d.exactTraceSigma2 d.blocksFull) tr ∂μ = Spec.laggedCov d psi := by
  obtain ⟨hl, hr⟩ := lagged_std hv hq
  have hpsi : ∃ Ml wl Mr wr, ql = .psi Ml wl ∧ qr = .psi Mr wr := by
    have h := hq
    unfold Panel.qLagged at h
    rw [dif_pos (rows_length d), cast_qRows] at h
    cases h
    exact ⟨_, _, _, _, rfl, rfl⟩
  obtain ⟨Ml, wl, Mr, wr, rfl, rfl⟩ := hpsi
  refine ⟨_, rfl, ?_⟩
  rw [← C89_normalisation hv hne psi, ← C89_component hg hq (relPsi psi) (relAlpha psi alpha)]
  exact C19_cov_unbiased_partial hv hc hs h psi alpha hdf _ _ hl hr rfl (by rintro ⟨⟨M, w, h⟩, -⟩; cases h)

/-- C89: so it is with the trace approximated by any number of probes. -/
theorem C89_ho_probes (hv : d.Valid) (hc : d.Connected) (hg : Grouped d) (hne : Nonempty (Spec.Pair d))
    (hs : d.GoodSolver solve) {σ2 : ℝ} (h : Noise μ eps fun o => σ2 / d.Dp o) (psi : Fin (m + 1) → ℝ) (alpha : Fin nw → ℝ)
    (hdf : ∃ o, d.computePii d.blocksFull o < 1) (hq : d.qLagged = .ok (ql, qr)) (hR : 0 < R)
    (z : Fin R → Ω' → Fin m ⊕ Fin nw → ℝ) (hz : ∀ k, Noise ν (z k) fun _ => 1) :
    ∫ ω, (∫ ω', (d.obs psi alpha (eps ω)).covHo solve ql qr (d.exactTraceSigma2 d.blocksFull)
        (Panel.meanDraws fun k => d.drawTraceHo solve ql qr (halves (z k ω'))) ∂ν) ∂μ = Spec.laggedCov d psi := by
  obtain ⟨hl, hr⟩ := lagged_std hv hq
  rw [C21_ho_corrected hv hc hs h psi alpha hdf ql qr hl hr hR z hz, C89_component hg hq, C89_normalisation hv hne]

/-- C89: the heteroskedastic correction with probes removes the noise when variances are inversely proportional to
weights and everyone moves (for other cases see C20). -/
theorem C89_he_probes_partial (hv : d.Valid) (hc : d.Connected) (hg : Grouped d) (hne : Nonempty (Spec.Pair d))
    (hs : d.GoodSolver solve) {σ2 : ℝ} (h : Noise μ eps fun o => σ2 / d.Dp o) (psi : Fin (m + 1) → ℝ) (alpha : Fin nw → ℝ)
    (hP : ∀ o, d.computePii d.blocksFull o ≠ 1) (st : Panel.Stayers) (hm : ∀ o, d.workerM o) (Sii : Ω → Fin n → ℝ)
    (hS : ∀ ω o, (d.obs psi alpha (eps ω)).siiHe solve st d.exactPii o = some (Sii ω o)) (hq : d.qLagged = .ok (ql, qr))
    (hR : 0 < R) (z : Fin R → Ω' → Fin m ⊕ Fin nw → ℝ) (hz : ∀ k, Noise ν (z k) fun _ => 1) :
    ∫ ω, (∫ ω', (d.obs psi alpha (eps ω)).covHe solve ql qr
        (Panel.meanDraws fun k => d.drawTraceHe solve (Sii ω) ql qr (halves (z k ω'))) ∂ν) ∂μ = Spec.laggedCov d psi := by
  obtain ⟨hl, hr⟩ := lagged_std hv hq
  rw [C20_probe_partial hv hc hs h psi alpha hP st hm Sii hS ql qr hl hr hR z hz, C89_component hg hq,
    C89_normalisation hv hne]

end

/-- Data that is not grouped by worker: the pair (0, 2) is consecutive but not found. -/
def scattered : Panel 3 1 2 := ⟨![0, 1, 1], ![0, 1, 0], ![0, 0, 0], false, fun _ => 1⟩

/-- C89 needs sorted data: here worker 0's two observations are consecutive and the component has no rows. -/
theorem C89_needs_grouped : Spec.Consecutive scattered 0 2 ∧ scattered.rowsL = [] := by
  refine ⟨⟨by decide, rfl, fun o h1 h2 => ?_⟩, by decide⟩
  have : o = 1 := by omega
  subst this
  decide

/-- The panel of the C19 and C20 examples (where validity, connectedness, solver and noise are shown) is grouped and has
three pairs. -/
example : Grouped ex ∧ Nonempty (Spec.Pair ex) ∧ ex.rowsL = [0, 2, 3] ∧ ex.rowsR = [1, 3, 4] := by
  have hg : Grouped ex := by unfold Grouped ex; decide
  exact ⟨hg, ⟨⟨(0, 1), (consecutive_iff hg 0 1).mpr ⟨rfl, rfl⟩⟩⟩, by decide, by decide⟩

end Pytwoway.FE
