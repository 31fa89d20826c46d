import Verif.FEControl.Traces2

/-! # C85 and C86: where the corrections fail, refused names, non-vacuity -/

namespace Pytwoway.FEControl

open Matrix Pytwoway.Util MeasureTheory FE
open scoped BigOperators
open FE.Panel (WOpt Stayers LevAvg)

variable {n m nw R : ℕ} {d : CData n m nw} {solve : List ℝ → List ℝ}

/-- The fit of explicit coefficients that solve the normal equations. -/
theorem fit_eq (hd : d.Ok) (y : Fin n → ℝ) (x : List ℝ) (hx : x.length = d.nCov)
    (h : d.AtDpA x = d.multAT y) (o : Fin n) : (hat d.amat d.Dp *ᵥ y) o = d.multA x o := by
  obtain ⟨t, rfl⟩ : ∃ t : Fin d.nCov → ℝ, x = List.ofFn t :=
    ⟨fun c => x[c]'(by rw [hx]; exact c.2), by
      apply List.ext_getElem
      · simp [hx]
      · intro k h1 h2; simp⟩
  rw [AtDpA_ofFn hd.names, multAT_eq_yes, multATw_eq hd.names] at h
  have h1 := List.ofFn_injective h
  have h2 : (fun o => d.wt .yes o * y o) = diagonal d.Dp *ᵥ y := by
    ext o; rw [mulVec_diagonal]; rfl
  rw [h2] at h1
  have h3 : t = lgen d.amat d.Dp *ᵥ y := by
    rw [lgen, ← mulVec_mulVec, ← mulVec_mulVec, ← h1, mulVec_mulVec, nonsing_inv_mul _ hd.unit, one_mulVec]
  rw [multA_ofFn hd.names, h3, mulVec_mulVec, X_mul_lgen]

theorem exS_A (b : Bool) : (exS b).A = [fun _ => 1, ![0, 1, 2]] := by
  simp [CData.A, exS, indicators]

theorem exS_Dp (b : Bool) (o : Fin 3) : (exS b).Dp o = if b then 2 else 1 := by
  cases b <;> simp [CData.Dp, exS]

theorem exS_nCov (b : Bool) : (exS b).nCov = 2 := by simp [CData.nCov, CData.nDict, exS, dset]

theorem exS_ok (b : Bool) : (exS b).Ok where
  names := by simp [CData.names, exS]
  pos := by intro o; rw [exS_Dp]; split <;> norm_num
  ident := by
    intro x y hx hy h
    rw [exS_nCov] at hx hy
    match x, y, hx, hy with
    | [x0, x1], [y0, y1], _, _ =>
      have h0 := h 0
      have h1 := h 1
      simp [CData.multA, exS_A] at h0 h1
      simp [h0]; linarith

/-- Fitted values of the middle row, and leverages of all rows. -/
theorem exS_hat (b : Bool) : (∀ c, hat (exS b).amat (exS b).Dp 1 c = 1 / 3) ∧
    hat (exS b).amat (exS b).Dp 0 0 = 5 / 6 ∧ hat (exS b).amat (exS b).Dp 2 2 = 5 / 6 ∧
    hat (exS b).amat (exS b).Dp 0 1 = 1 / 3 ∧ hat (exS b).amat (exS b).Dp 2 1 = 1 / 3 := by
  have key : ∀ (c : Fin 3) (u v : ℝ), (exS b).AtDpA [u, v] = (exS b).multAT (Pi.single c 1) →
      ∀ o, hat (exS b).amat (exS b).Dp o c = u + ![0, 1, 2] o * v := by
    intro c u v h o
    have := fit_eq (exS_ok b) (Pi.single c 1) [u, v] (by rw [exS_nCov]; rfl) h o
    rw [mulVec_single_one] at this
    refine Eq.trans this ?_
    simp [CData.multA, exS_A]
  have hN : ∀ (u v : ℝ) c, (exS b).AtDpA [u, v] = (exS b).multAT (Pi.single c 1) ↔
      (3 * u + 3 * v = 1 ∧ 3 * u + 5 * v = ![0, 1, 2] c) := by
    intro u v c
    cases b <;> fin_cases c <;>
      simp [CData.AtDpA, CData.multAT, CData.multA, exS_A, exS_Dp, Fin.sum_univ_three] <;>
      constructor <;> rintro ⟨h1, h2⟩ <;> constructor <;> linarith
  have k0 := key 0 (5 / 6) (-1 / 2) ((hN _ _ _).2 (by simp; norm_num))
  have k1 := key 1 (1 / 3) 0 ((hN _ _ _).2 (by norm_num))
  have k2 := key 2 (-1 / 6) (1 / 2) ((hN _ _ _).2 ⟨by norm_num, by simp; norm_num⟩)
  refine ⟨fun c => ?_, ?_, ?_, ?_, ?_⟩
  · fin_cases c
    · simpa using (k0 1).trans (by norm_num)
    · simpa using (k1 1).trans (by norm_num)
    · simpa using (k2 1).trans (by norm_num)
  · rw [k0]; norm_num
  · rw [k2]; simp; norm_num
  · rw [k1]; norm_num
  · rw [k1]; norm_num

theorem exS_noMover (b : Bool) (t : Truth 0 1) (e : Fin 3 → ℝ) (o : Fin 3) : ¬ ((exS b).obs t e).workerM o := by
  rintro ⟨o', -, h⟩; exact h rfl

theorem exS_same (b : Bool) (t : Truth 0 1) (e : Fin 3 → ℝ) (s : Fin 3) :
    (Finset.univ.filter fun o' => ¬ ((exS b).obs t e).workerM o' ∧ ((exS b).obs t e).i o' = ((exS b).obs t e).i s)
      = Finset.univ := by
  ext o'
  simp only [Finset.mem_filter, Finset.mem_univ, true_and, exS_noMover, not_false_eq_true]
  exact ⟨fun _ => trivial, fun _ => rfl⟩

theorem exS_sii (t : Truth 0 1) (e : Fin 3 → ℝ) (P : Fin 3 → ℝ) (o : Fin 3) :
    ((exS false).obs t e).siiHe solve .upperBound P o = some (((exS false).obs t e).looSii solve P o) := by
  have hw : ((exS false).obs t e).weighted = false := rfl
  simp only [CData.siiHe, hw, Bool.false_eq_true, if_false, exS_same]
  rw [if_neg]
  rintro ⟨s, -, h⟩
  simp at h

theorem exS_sii_weighted (t : Truth 0 1) (e : Fin 3 → ℝ) (P : Fin 3 → ℝ) (o : Fin 3) :
    ∃ v, ((exS true).obs t e).siiHe solve .upperBound P o = some v := by
  have hw : ((exS true).obs t e).weighted = true := rfl
  have hD : ∀ o, ((exS true).obs t e).Dp o = 2 := fun o => exS_Dp true o
  simp only [CData.siiHe, hw, if_true, exS_same]
  simp only [exS_noMover, if_false, hD]
  rw [if_neg]
  · exact ⟨_, rfl⟩
  rintro ⟨s, -, h⟩
  norm_num at h

theorem exS_leverage (b : Bool) (hs : (exS b).GoodSolver solve) (o : Fin 3) :
    (exS b).leverage solve o = ![5 / 6, 1 / 3, 5 / 6] o := by
  obtain ⟨r1, r00, r22, r01, r21⟩ := exS_hat b
  rw [leverage_eq (exS_ok b) hs]
  fin_cases o
  · exact r00
  · exact r1 1
  · exact r22

/-- C86 is false of the code with unequal error variances: one worker at one firm with a
regressor 0, 1, 2 and an error only in the middle row.  The variance estimate of the first row averages 2/3,
its true error variance is 0; the middle row's averages 2/3 instead of 1. -/
theorem C86_heteroskedastic_biased : ∃ (s2 : Fin 3 → ℝ) (μ : Measure (Fin 3 → Bool))
    (eps : (Fin 3 → Bool) → Fin 3 → ℝ) (solve : List ℝ → List ℝ), (exS false).Ok ∧
    (exS false).GoodSolver solve ∧ Noise μ eps s2 ∧ (∀ o, (exS false).leverage solve o ≠ 1) ∧
    ∀ (t : Truth 0 1), ∃ S : (Fin 3 → Bool) → Fin 3 → ℝ,
      (∀ ω o, ((exS false).obs t (eps ω)).siiHe solve .upperBound ((exS false).leverage solve) o = some (S ω o)) ∧
      ∫ ω, S ω 0 ∂μ = 2 / 3 ∧ s2 0 = 0 ∧ ∫ ω, S ω 1 ∂μ = 2 / 3 ∧ s2 1 = 1 := by
  obtain ⟨s, hs⟩ := exists_goodSolver (exS false)
  have hd := exS_ok false
  obtain ⟨μ, eps, hnoise⟩ : ∃ (μ : Measure (Fin 3 → Bool)) (eps : (Fin 3 → Bool) → Fin 3 → ℝ),
      Noise μ eps ![0, 1, 0] := ⟨_, _, sign_noise (κ := Fin 3) ![0, 1, 0] (by intro o; fin_cases o <;> simp)⟩
  obtain ⟨r1, r00, r22, r01, r21⟩ := exS_hat false
  have hlev : ∀ o, (exS false).leverage s o ≠ 1 := by
    intro o
    rw [exS_leverage false hs]
    fin_cases o <;> simp <;> norm_num
  refine ⟨![0, 1, 0], μ, eps, s, hd, hs, hnoise, hlev, fun t =>
    ⟨fun ω o => ((exS false).obs t (eps ω)).looSii s ((exS false).leverage s) o, fun ω o => exS_sii _ _ _ _,
      ?_, rfl, ?_, rfl⟩⟩
  · rw [(C86_variance_expectation hd hs hnoise t 0 _ rfl (hlev 0)).2]
    simp only [influence_eq hd hs, leverage_eq hd hs, r00, exS_Dp, Fin.sum_univ_three, r01]
    simp; norm_num
  · rw [(C86_variance_expectation hd hs hnoise t 1 _ rfl (hlev 1)).2]
    simp only [influence_eq hd hs, leverage_eq hd hs, r1, exS_Dp, Fin.sum_univ_three]
    simp; norm_num

/-- C86 is false of the code for stayers under weighted `upper_bound` even with error variances inversely
proportional to the weights: on the same data with weights 2 the estimate for the first row averages a tenth of
the true error variance, so it is no upper bound either.  The leverage of a stayer is computed without the
controls. -/
theorem C86_not_upper_bound : ∃ (μ : Measure (Fin 3 → Bool)) (eps : (Fin 3 → Bool) → Fin 3 → ℝ)
    (solve : List ℝ → List ℝ), (exS true).Ok ∧ (exS true).GoodSolver solve ∧
    Noise μ eps (fun o => 1 / (exS true).Dp o) ∧ 1 / (exS true).Dp 0 = 1 / 2 ∧
    ∀ (t : Truth 0 1), ∃ S : (Fin 3 → Bool) → ℝ,
      (∀ ω, ((exS true).obs t (eps ω)).siiHe solve .upperBound ((exS true).leverage solve) 0 = some (S ω)) ∧
      ∫ ω, S ω ∂μ = 1 / 20 := by
  obtain ⟨s, hs⟩ := exists_goodSolver (exS true)
  have hd := exS_ok true
  obtain ⟨μ, eps, hnoise⟩ : ∃ (μ : Measure (Fin 3 → Bool)) (eps : (Fin 3 → Bool) → Fin 3 → ℝ),
      Noise μ eps (fun o => 1 / (exS true).Dp o) :=
    ⟨_, _, sign_noise (κ := Fin 3) _ fun o => by have := hd.pos o; positivity⟩
  refine ⟨μ, eps, s, hd, hs, hnoise, by rw [exS_Dp]; simp, fun t => ?_⟩
  choose S hS using fun ω => exS_sii_weighted (solve := s) t (eps ω) ((exS true).leverage s) 0
  refine ⟨S, hS, ?_⟩
  have hm : ∀ o, ¬ (exS true).workerM o := fun o => by rintro ⟨o', -, h⟩; exact h rfl
  rw [C86_stayers_upper_bound hd hs rfl hnoise t _ 0 (hm 0) S hS, exS_leverage true hs]
  have : (Finset.univ.filter fun b => ¬ (exS true).workerM b ∧ (exS true).i b = (exS true).i 0) = Finset.univ :=
    exS_same true t 0 0
  rw [this]
  simp only [exS_Dp, Fin.sum_univ_three]
  simp; norm_num

/-! ## Refused names -/

/-- C85: a component that uses a name which is not a covariate is refused (`KeyError`), in every stage. -/
theorem C85_unknown_name (hd : d.Ok) (l1 l2 : List String) (s : String) (hs : s ∉ d.names) (h : s ∈ l1 ∨ s ∈ l2)
    (tr : ℝ) (S : Fin n → ℝ) (Z : Fin R → List ℝ) :
    d.covFe solve l1 l2 = none ∧ d.covHo solve l1 l2 tr Z = none ∧ d.covHe solve l1 l2 S Z = none := by
  have hq : ∀ (l : List String) gh x, s ∈ l → d.qCol (d.unpack gh) l x = none := by
    intro l gh x hl
    have hidx := (unpack_eq d gh (by rw [covs_names]; exact hd.names)).2.1
    have hnames : (ranges 0 (sizes d)).map (·.1) = d.names := by
      rw [ranges_names, sizes, List.map_map, ← covs_names]; rfl
    have hg : dget (d.unpack gh).idx s = none := by
      rw [hidx]
      rcases hv : dget (ranges 0 (sizes d)) s with _ | v
      · rfl
      · rw [dget_iff_mem (by rw [hnames]; exact hd.names)] at hv
        exact absurd (hnames ▸ List.mem_map_of_mem (f := (·.1)) hv) hs
    have hmap : ∀ l : List String, s ∈ l →
        (l.mapM fun s => do let r ← dget (d.unpack gh).idx s; return slice d.A r.1 r.2) = none := by
      intro l
      induction l with
      | nil => intro h; cases h
      | cons a l ih =>
        intro h
        rw [List.mapM_cons]
        rcases List.mem_cons.1 h with rfl | h
        · rw [hg]; rfl
        · rw [ih h]
          cases dget (d.unpack gh).idx a <;> rfl
    have : d.subA (d.unpack gh) l = none := by
      rw [CData.subA, hmap l hl]; rfl
    simp [CData.qCol, this]
  have hc : d.covFe solve l1 l2 = none := by
    rw [CData.covFe]
    rcases h with h | h
    · simp [hq l1 _ _ h]
    · simp only [hq l2 _ _ h]
      cases d.qCol (d.unpack (d.gammaHat solve)) l1 (d.gammaHat solve) <;> rfl
  exact ⟨hc, by rw [CData.covHo, hc]; rfl, by rw [CData.covHe, hc]; rfl⟩

/-! ## Non-vacuity -/

/-- Two workers at two firms in two regions, with age; weighted. -/
def exT : CData 8 1 2 where
  j := ![0, 0, 1, 1, 0, 0, 1, 1]
  i := ![0, 0, 0, 0, 1, 1, 1, 1]
  y := ![1, 2, 4, 3, 5, 3, 2, 8]
  weighted := true
  w := ![1, 2, 1, 1, 2, 1, 1, 1]
  cats := [⟨"region", 1, ![0, 1, 0, 1, 0, 1, 0, 1]⟩]
  cts := [⟨"age", ![0, 1, 2, 5, 1, 3, 7, 4]⟩]

theorem exT_fit (a b c e f : ℝ) (o : Fin 8) : exT.multA [a, b, c, e, f] o
    = ![b, b + e + f, a + b + 2 * f, a + b + e + 5 * f, c + f, c + e + 3 * f, a + c + 7 * f, a + c + e + 4 * f] o := by
  fin_cases o <;> simp [CData.multA, CData.A, exT, indicators, List.finRange_succ] <;> ring

theorem exT_nCov : exT.nCov = 5 := by decide

theorem exT_ok : exT.Ok where
  names := by decide
  pos := by intro o; fin_cases o <;> norm_num [CData.Dp, exT]
  ident := by
    intro x y hx hy h
    rw [exT_nCov] at hx hy
    match x, y, hx, hy with
    | [a, b, c, e, f], [a', b', c', e', f'], _, _ =>
      simp only [exT_fit] at h
      have h0 := h 0; have h1 := h 1; have h2 := h 2; have h3 := h 3; have h4 := h 4
      have h5 := h 5; have h6 := h 6; have h7 := h 7
      simp at h0 h1 h2 h3 h4 h5 h6 h7
      simp only [List.cons.injEq, and_true]
      refine ⟨?_, ?_, ?_, ?_, ?_⟩ <;> linarith

theorem exT_movers (o : Fin 8) : exT.workerM o := by
  fin_cases o
  · exact ⟨2, rfl, by decide⟩
  · exact ⟨2, rfl, by decide⟩
  · exact ⟨0, rfl, by decide⟩
  · exact ⟨0, rfl, by decide⟩
  · exact ⟨6, rfl, by decide⟩
  · exact ⟨6, rfl, by decide⟩
  · exact ⟨4, rfl, by decide⟩
  · exact ⟨4, rfl, by decide⟩

theorem exT_leverage (hs : exT.GoodSolver solve) (o : Fin 8) : exT.leverage solve o ≠ 1 := by
  intro h
  rw [leverage_eq exT_ok hs] at h
  obtain ⟨t, ht⟩ := fit_of_hat_one exT_ok.pos exT_ok.unit o h
  have h1 : ∀ b, exT.multA (List.ofFn t) b = (Pi.single o 1 : Fin 8 → ℝ) b := fun b => by
    rw [multA_ofFn exT_ok.names, ht]
  have hl : (List.ofFn t).length = 5 := by rw [List.length_ofFn, exT_nCov]
  revert h1
  generalize List.ofFn t = x at hl
  match x, hl with
  | [a, b, c, e, f], _ =>
    intro h1
    simp only [exT_fit] at h1
    have h0 := h1 0; have h1' := h1 1; have h2 := h1 2; have h3 := h1 3; have h4 := h1 4
    have h5 := h1 5; have h6 := h1 6; have h7 := h1 7
    fin_cases o <;> simp at h0 h1' h2 h3 h4 h5 h6 h7 <;> linarith

/-- The hypotheses of the C85 and C86 theorems can be met, with weights, a categorical and a continuous
control, for every number of probes. -/
example (R : ℕ) : exT.Ok ∧ exT.nCov < 8 ∧ ∃ solve, exT.GoodSolver solve ∧
    (∀ o, exT.leverage solve o ≠ 1) ∧
    (∀ s ∈ ["psi", "region"], s ∈ exT.names) ∧ (∀ s ∈ ["alpha", "age"], s ∈ exT.names) ∧
    (∃ (μ : Measure (Fin 8 → Bool)) (eps : (Fin 8 → Bool) → Fin 8 → ℝ), Noise μ eps fun o => 3 / exT.Dp o) ∧
    (∃ (ν : Measure (Fin exT.nCov → Bool)) (z : Fin R → (Fin exT.nCov → Bool) → Fin exT.nCov → ℝ),
      ∀ k, Noise ν (z k) fun _ => 1) ∧
    ∀ t e o, ∃ v, (exT.obs t e).siiHe solve .firmMean (exT.leverage solve) o = some v := by
  obtain ⟨s, hs⟩ := exists_goodSolver exT
  refine ⟨exT_ok, by decide, s, hs, exT_leverage hs, by decide, by decide, ⟨_, _, sign_noise _ fun o => ?_⟩,
    ⟨_, fun _ => _, fun _ => sign_probe _⟩, fun t e o => ?_⟩
  · have := exT_ok.pos o; positivity
  · rw [CData.siiHe, if_pos (show (exT.obs t e).workerM o from exT_movers o)]
    exact ⟨_, rfl⟩

/-- A leave-one-out fit exists, so `C86_leave_one_out` applies. -/
theorem exists_leave_one_out_fit (hd : d.Ok) (o : Fin n) : ∃ x : List ℝ, x.length = d.nCov ∧
    ∀ x' : List ℝ, x'.length = d.nCov → ∑ b with b ≠ o, d.Dp b * (d.y b - d.multA x b) ^ 2
        ≤ ∑ b with b ≠ o, d.Dp b * (d.y b - d.multA x' b) ^ 2 := by
  set w : Fin n → ℝ := fun b => if b ≠ o then d.Dp b else 0 with hw
  have hw0 : ∀ b, 0 ≤ w b := fun b => by
    simp only [hw]; split
    · exact (hd.pos b).le
    · exact le_rfl
  obtain ⟨t, ht⟩ := normal_consistent d.amat w hw0 d.y
  refine ⟨List.ofFn t, by simp, fun x' hx' => ?_⟩
  obtain ⟨t', rfl⟩ : ∃ t : Fin d.nCov → ℝ, x' = List.ofFn t :=
    ⟨fun c => x'[c]'(by rw [hx']; exact c.2), by
      apply List.ext_getElem
      · simp [hx']
      · intro k h1 h2; simp⟩
  have h := normal_optimal d.amat w d.y hw0 t t' ht
  have hconv : ∀ g : Fin n → ℝ, ∑ b, w b * g b = ∑ b with b ≠ o, d.Dp b * g b := fun g => by
    rw [Finset.sum_filter]
    refine Finset.sum_congr rfl fun b _ => ?_
    simp only [hw]; split <;> simp
  rw [hconv fun b => (d.y b - (d.amat *ᵥ t) b) ^ 2, hconv fun b => (d.y b - (d.amat *ᵥ t') b) ^ 2] at h
  simpa only [multA_ofFn hd.names] using h

/-- C86, refusal: under `upper_bound` no variances are estimated exactly when some stayer cannot be left out.  Without
weights that is a stayer with a single observation, with weights one of total weight 1. -/
theorem C86_lone_stayer_refused (d : CData n m nw) (solve : List ℝ → List ℝ) (P : Fin n → ℝ) (o : Fin n) :
    d.siiHe solve .upperBound P o = none ↔
      if d.weighted then ∃ s, ¬ d.workerM s ∧ ∑ b with ¬ d.workerM b ∧ d.i b = d.i s, d.Dp b = 1
      else ∃ s, ¬ d.workerM s ∧ ∀ b, ¬ d.workerM b → d.i b = d.i s → b = s := by
  have hinv : ∀ x : ℝ, 1 / x = 1 ↔ x = 1 := fun x => by rw [one_div, inv_eq_one]
  have hone : ∀ s, ¬ d.workerM s →
      ((Finset.univ.filter fun b => ¬ d.workerM b ∧ d.i b = d.i s).card = 1 ↔
        ∀ b, ¬ d.workerM b → d.i b = d.i s → b = s) := by
    intro s hs
    constructor
    · intro h b hb hi
      obtain ⟨a, ha⟩ := Finset.card_eq_one.mp h
      have h1 : s ∈ ({a} : Finset (Fin n)) := ha ▸ by simp [hs]
      have h2 : b ∈ ({a} : Finset (Fin n)) := ha ▸ by simp [hb, hi]
      rw [Finset.mem_singleton] at h1 h2
      rw [h1, h2]
    · intro h
      refine Finset.card_eq_one.mpr ⟨s, ?_⟩
      ext b
      simp only [Finset.mem_filter, Finset.mem_univ, true_and, Finset.mem_singleton]
      exact ⟨fun hb => h b hb.1 hb.2, fun hb => by subst hb; exact ⟨hs, rfl⟩⟩
  obtain c | c := Bool.eq_false_or_eq_true d.weighted
  · simp only [CData.siiHe, c, if_true, hinv]
    constructor
    · intro h
      by_contra hn
      rw [if_neg hn] at h
      split at h <;> simp at h
    · intro h
      rw [if_pos h]
  · simp only [CData.siiHe, c, Bool.false_eq_true, if_false]
    constructor
    · intro h
      by_contra hn
      rw [if_neg] at h
      · simp at h
      · rintro ⟨s, hs, h1⟩
        exact hn ⟨s, hs, (hone s hs).mp h1⟩
    · rintro ⟨s, hs, h1⟩
      rw [if_pos ⟨s, hs, (hone s hs).mpr h1⟩]

end Pytwoway.FEControl
