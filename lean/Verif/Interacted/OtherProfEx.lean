import Verif.Interacted.OtherProf

/-! # C100: profiling, examples -/

namespace Pytwoway.Interacted

open Finset

variable {ni nf n m : ℕ}

/-! ## When profiling returns -/

theorem limlOne_run (e : EigVec) (he : e.Right) (X : Fin ni → ℕ → ℝ) (D : Fin ni → ℝ) (z : Instr ni) (tik : ℝ) (norm : ℕ)
    (hn : norm < n) (hpos : PosDef (cross n n D X X)) : ∃ p : ℝ × (Fin n → ℝ), p.2 ≠ 0 ∧
      (crossZ n n z D tik D D X X).mulVec p.2 = p.1 • (cross n n D X X).mulVec p.2 ∧
      limlOne e n X D z tik norm = .ok fun c => ext n p.2 c / p.2 ⟨norm, hn⟩ := by
  have hu : IsUnit (cross n n D X X).det := isUnit_iff_ne_zero.mpr hpos.det_ne
  obtain ⟨t0, u0, hu0, heq0, -⟩ := exists_min_ratio _ _ (crossZ_symm z D tik D X) (cross_symm D X) hpos (by omega)
  obtain ⟨p, hps⟩ := smallest_ok e he ((cross n n D X X)⁻¹ * crossZ n n z D tik D D X X) t0 u0 hu0
    (by rw [← Matrix.mulVec_mulVec, heq0, Matrix.mulVec_smul, Matrix.mulVec_mulVec, Matrix.nonsing_inv_mul _ hu, Matrix.one_mulVec])
  obtain ⟨hv, hveq, -⟩ := smallest_left e he _ _ (crossZ_symm z D tik D X) (cross_symm D X) hpos hps
  refine ⟨p, hv, hveq, ?_⟩
  unfold limlOne
  simp only [bind, Except.bind]
  rw [invOf_eq hpos.det_ne]
  dsimp only
  rw [hps]
  simp only [pickNorm, dif_pos hn]

/-- What is partialled out and what is kept are jointly independent. -/
def Spec.Independent (d : Data ni nf) : Prop := ∀ b g : ℕ → ℝ,
  (∀ i, (d.Y2 i * b (d.J2 i).val - if (d.J2 i).val = 0 then 0 else b (nf + ((d.J2 i).val - 1))) -
    (d.Y1 i * g (d.J1 i).val - g (nf + (d.J1 i).val)) = 0) →
  (∀ c < nf + (nf - 1), b c = 0) ∧ ∀ c < nf + nf, g c = 0

theorem cross_posDef {D : Fin ni → ℝ} (hD : ∀ i, 0 < D i) {X : Fin ni → ℕ → ℝ}
    (h : ∀ v : Fin n → ℝ, (∀ i, lin n X v i = 0) → v = 0) : PosDef (cross n n D X X) := by
  intro v hv
  change 0 < quad _ v
  rw [cross_quad]
  have : ∃ i, lin n X v i ≠ 0 := by
    by_contra hc
    push Not at hc
    exact hv (h v hc)
  obtain ⟨i, hi⟩ := this
  exact sum_pos' (fun i _ => mul_nonneg (hD i).le (sq_nonneg _)) ⟨i, mem_univ i, mul_pos (hD i) (sq_pos_of_ne_zero hi)⟩

theorem prof_run (e : EigVec) (he : e.Right) (rss : Data ni nf → (Fin ni → ℝ) → ℕ → ℝ) (d : Data ni nf)
    (o : Opts) (weighted : Bool) (C : ℝ) (W : Fin ni → ℕ) (nw : ℕ) (hm : o.method = .liml1) (hp : o.profiling = true)
    (hA : o.statA = true) (hB : o.statB = false) (hi : o.instrument = .firmPairs) (hD : ∀ i, 0 < d.D i) (hn : o.normFid < nf)
    (hind : Spec.Independent d) :
    (cross (wOut nf true) (wOut nf true) d.D (profOut d true) (profOut d true)).det ≠ 0 ∧
    ∃ (X : Fin ni → ℕ → ℝ) (p : ℝ × (Fin (wIn nf true) → ℝ)) (hn' : o.normFid < wIn nf true),
      X = partialled (wOut nf true) (profOut d true) d.D
        (cross (wOut nf true) (wOut nf true) d.D (profOut d true) (profOut d true))⁻¹ (profIn d true) ∧
      (crossZ (wIn nf true) (wIn nf true) (.one (pairKey d)) d.D o.tik d.D d.D X X).mulVec p.2 =
        p.1 • (cross (wIn nf true) (wIn nf true) d.D X X).mulVec p.2 ∧
      fitAll e rss d o weighted C W nw true = .ok (extract nf o fun c => ext _ p.2 c / p.2 ⟨o.normFid, hn'⟩) := by
  have hdet : (cross (wOut nf true) (wOut nf true) d.D (profOut d true) (profOut d true)).det ≠ 0 := by
    refine PosDef.det_ne (cross_posDef hD fun v h0 => ?_)
    have := (hind (fun _ => 0) (fun c => ext _ v c) fun i => by
      have := h0 i
      rw [lin_profOut, sum_profOut] at this
      simp only [mul_zero, ite_self]
      linarith).2
    funext c
    rw [← ext_lt v c]
    exact this c.val c.isLt
  refine ⟨hdet, ?_⟩
  have hn' : o.normFid < wIn nf true := by unfold wIn; simp only [if_true]; omega
  set X := partialled (wOut nf true) (profOut d true) d.D
        (cross (wOut nf true) (wOut nf true) d.D (profOut d true) (profOut d true))⁻¹ (profIn d true) with hX
  have hpos : PosDef (cross (wIn nf true) (wIn nf true) d.D X X) := by
    refine cross_posDef hD fun v h0 => ?_
    set f : Fin ni → ℝ := fun i => ∑ c ∈ range (wIn nf true), profIn d true i c * ext _ v c with hf
    set g := (cross (wOut nf true) (wOut nf true) d.D (profOut d true) (profOut d true))⁻¹.mulVec
      fun b => ∑ i', d.D i' * profOut d true i' b.val * f i' with hg
    have := (hind (ext _ v) (fun c => - ext _ g c) fun i => by
      have h1 := h0 i
      rw [lin_ext, hX, partialled_lin, resW, ← hg, lin_profOut, sum_profOut, sum_profIn] at h1
      linarith).1
    funext c
    rw [← ext_lt v c]
    exact this c.val c.isLt
  obtain ⟨p, -, hpe, hrun⟩ := limlOne_run e he X d.D (.one (pairKey d)) o.tik o.normFid hn' hpos
  refine ⟨X, p, hn', rfl, hpe, ?_⟩
  refine fitAll_run (by rw [hm]; decide) (by unfold validate; simp [hp, hB, hm, hi]) (z := .one (pairKey d))
    (by unfold instrOf; rw [if_pos rfl, hi]) ?_
  unfold coefficients
  rw [if_pos hp, hA]
  have hprof : profiled d true = .ok X := by
    unfold profiled
    rw [invOf_eq hdet]
    rfl
  simp only [bind, Except.bind, hprof, onDesign, if_pos hm, hrun, if_true]

/-! ## Data -/

/-- Firms of the first period: five movers out of each of four firms. -/
def tJ1 (i : Fin 20) : Fin 4 := ⟨i.val / 5, by omega⟩

/-- Firms of the second period. -/
def tJ2 : Fin 20 → Fin 4 := ![1, 1, 1, 2, 3, 2, 2, 2, 3, 0, 3, 3, 3, 0, 1, 0, 0, 0, 1, 2]

/-- First wages, of which those of the movers out of firm 0 are given. -/
def tY (y : Fin 5 → ℝ) : Fin 20 → ℝ := ![y 0, y 1, y 2, y 3, y 4, 0, 1, 2, 3, 3, 1, 2, 3, 3, 1, 0, 1, 2, 3, 0]

/-- Noise, averaging out in each firm pair. -/
def tR : Fin 20 → ℝ := ![1, -2, 1, 0, 0, 1, -2, 1, 0, 0, 1, -2, 1, 0, 0, 1, -2, 1, 0, 0]

/-- Twenty movers among four firms. -/
def twenty (y : Fin 5 → ℝ) : Data 20 4 where
  Y1 := tY y
  Y2 := fun i => tY y i + tR i
  J1 := tJ1
  J2 := tJ2
  D := fun _ => 1

/-- Slopes one, intercepts zero. -/
def unit4 : Effects 4 := ⟨fun _ => 0, fun _ => 0, fun _ => 1, fun _ => 1⟩

/-- Options: `liml_1` with profiling, stationary intercepts, normalised at firm 0. -/
def profOpts : Opts := ⟨.liml1, 0, true, false, true, .firmPairs, 0, 0⟩

theorem unit4_admissible : Spec.Admissible profOpts unit4 :=
  ⟨fun _ => one_ne_zero, fun _ => one_ne_zero, fun _ _ => rfl, fun _ => rfl, fun _ _ => rfl⟩

theorem twenty_moment (y : Fin 5 → ℝ) : Spec.moment (twenty y) unit4 = tR := by
  funext i
  simp [Spec.moment, twenty, unit4]

theorem tsum {f : Fin 20 → ℝ} {j1 j2 : Fin 4} (S : Finset (Fin 20)) (h : (univ.filter fun i => tJ1 i = j1 ∧ tJ2 i = j2) = S) :
    ∑ i with tJ1 i = j1 ∧ tJ2 i = j2, f i = ∑ i ∈ S, f i := by rw [h]

theorem twenty_pairs (f : Fin 20 → ℝ) : (∀ j1 j2, ∑ i with tJ1 i = j1 ∧ tJ2 i = j2, f i = 0) ↔
    (f 0 + f 1 + f 2 = 0 ∧ f 3 = 0 ∧ f 4 = 0) ∧ (f 5 + f 6 + f 7 = 0 ∧ f 8 = 0 ∧ f 9 = 0) ∧
    (f 10 + f 11 + f 12 = 0 ∧ f 13 = 0 ∧ f 14 = 0) ∧ (f 15 + f 16 + f 17 = 0 ∧ f 18 = 0 ∧ f 19 = 0) := by
  have e3 : ∀ a b c : Fin 20, a ≠ b → a ≠ c → b ≠ c → ∑ i ∈ ({a, b, c} : Finset (Fin 20)), f i = f a + f b + f c := by
    intro a b c h1 h2 h3
    rw [sum_insert (by simp [h1, h2]), sum_pair h3, add_assoc]
  have a01 := tsum (f := f) (j1 := 0) (j2 := 1) {0, 1, 2} (by decide)
  have a02 := tsum (f := f) (j1 := 0) (j2 := 2) {3} (by decide)
  have a03 := tsum (f := f) (j1 := 0) (j2 := 3) {4} (by decide)
  have a12 := tsum (f := f) (j1 := 1) (j2 := 2) {5, 6, 7} (by decide)
  have a13 := tsum (f := f) (j1 := 1) (j2 := 3) {8} (by decide)
  have a10 := tsum (f := f) (j1 := 1) (j2 := 0) {9} (by decide)
  have a23 := tsum (f := f) (j1 := 2) (j2 := 3) {10, 11, 12} (by decide)
  have a20 := tsum (f := f) (j1 := 2) (j2 := 0) {13} (by decide)
  have a21 := tsum (f := f) (j1 := 2) (j2 := 1) {14} (by decide)
  have a30 := tsum (f := f) (j1 := 3) (j2 := 0) {15, 16, 17} (by decide)
  have a31 := tsum (f := f) (j1 := 3) (j2 := 1) {18} (by decide)
  have a32 := tsum (f := f) (j1 := 3) (j2 := 2) {19} (by decide)
  have a00 := tsum (f := f) (j1 := 0) (j2 := 0) ∅ (by decide)
  have a11 := tsum (f := f) (j1 := 1) (j2 := 1) ∅ (by decide)
  have a22 := tsum (f := f) (j1 := 2) (j2 := 2) ∅ (by decide)
  have a33 := tsum (f := f) (j1 := 3) (j2 := 3) ∅ (by decide)
  rw [e3 _ _ _ (by decide) (by decide) (by decide)] at a01 a12 a23 a30
  rw [sum_singleton] at a02 a03 a13 a10 a20 a21 a31 a32
  rw [sum_empty] at a00 a11 a22 a33
  constructor
  · intro h
    exact ⟨⟨a01 ▸ h 0 1, a02 ▸ h 0 2, a03 ▸ h 0 3⟩, ⟨a12 ▸ h 1 2, a13 ▸ h 1 3, a10 ▸ h 1 0⟩,
      ⟨a23 ▸ h 2 3, a20 ▸ h 2 0, a21 ▸ h 2 1⟩, ⟨a30 ▸ h 3 0, a31 ▸ h 3 1, a32 ▸ h 3 2⟩⟩
  · rintro ⟨⟨h01, h02, h03⟩, ⟨h12, h13, h10⟩, ⟨h23, h20, h21⟩, ⟨h30, h31, h32⟩⟩ j1 j2
    fin_cases j1 <;> fin_cases j2
    · exact a00
    · exact a01.trans h01
    · exact a02.trans h02
    · exact a03.trans h03
    · exact a10.trans h10
    · exact a11
    · exact a12.trans h12
    · exact a13.trans h13
    · exact a20.trans h20
    · exact a21.trans h21
    · exact a22
    · exact a23.trans h23
    · exact a30.trans h30
    · exact a31.trans h31
    · exact a32.trans h32
    · exact a33

theorem twenty_firms (f : Fin 20 → ℝ) :
    (∑ i with tJ1 i = 0, f i = f 0 + f 1 + f 2 + f 3 + f 4) ∧ (∑ i with tJ1 i = 1, f i = f 5 + f 6 + f 7 + f 8 + f 9) ∧
    (∑ i with tJ1 i = 2, f i = f 10 + f 11 + f 12 + f 13 + f 14) ∧
    (∑ i with tJ1 i = 3, f i = f 15 + f 16 + f 17 + f 18 + f 19) := by
  have e5 : ∀ a b c d e : Fin 20, [a, b, c, d, e].Nodup → ∑ i ∈ ({a, b, c, d, e} : Finset (Fin 20)), f i =
      f a + f b + f c + f d + f e := by
    intro a b c d e h
    have : ({a, b, c, d, e} : Finset (Fin 20)) = [a, b, c, d, e].toFinset := by ext; simp
    rw [this, List.sum_toFinset f h]
    simp [add_assoc]
  refine ⟨?_, ?_, ?_, ?_⟩
  · rw [show (univ.filter fun i => tJ1 i = 0) = {0, 1, 2, 3, 4} by decide, e5 _ _ _ _ _ (by decide)]
  · rw [show (univ.filter fun i => tJ1 i = 1) = {5, 6, 7, 8, 9} by decide, e5 _ _ _ _ _ (by decide)]
  · rw [show (univ.filter fun i => tJ1 i = 2) = {10, 11, 12, 13, 14} by decide, e5 _ _ _ _ _ (by decide)]
  · rw [show (univ.filter fun i => tJ1 i = 3) = {15, 16, 17, 18, 19} by decide, e5 _ _ _ _ _ (by decide)]

/-- First wages not correlated with the noise. -/
def goodY : Fin 5 → ℝ := ![0, 1, 2, 0, 2]

/-- First wages of the movers out of firm 0 correlated with the noise. -/
def badY : Fin 5 → ℝ := ![1, -1, 1, 3, 1]

theorem tJ1_val (i : Fin 20) : (tJ1 i).val = i.val / 5 := rfl

theorem twenty_rows (y : Fin 5 → ℝ) (b g : ℕ → ℝ)
    (h : ∀ i, ((twenty y).Y2 i * b ((twenty y).J2 i).val -
      if ((twenty y).J2 i).val = 0 then 0 else b (4 + (((twenty y).J2 i).val - 1))) -
      ((twenty y).Y1 i * g ((twenty y).J1 i).val - g (4 + ((twenty y).J1 i).val)) = 0) :
    ((y 0 + 1) * b 1 - b 4 - (y 0 * g 0 - g 4) = 0 ∧ (y 1 - 2) * b 1 - b 4 - (y 1 * g 0 - g 4) = 0 ∧
      (y 2 + 1) * b 1 - b 4 - (y 2 * g 0 - g 4) = 0 ∧ y 3 * b 2 - b 5 - (y 3 * g 0 - g 4) = 0 ∧
      y 4 * b 3 - b 6 - (y 4 * g 0 - g 4) = 0) ∧
    (b 2 - b 5 + g 5 = 0 ∧ - b 2 - b 5 - (g 1 - g 5) = 0 ∧ 3 * b 2 - b 5 - (2 * g 1 - g 5) = 0 ∧
      3 * b 3 - b 6 - (3 * g 1 - g 5) = 0 ∧ 3 * b 0 - (3 * g 1 - g 5) = 0) ∧
    (2 * b 3 - b 6 - (g 2 - g 6) = 0 ∧ - b 6 - (2 * g 2 - g 6) = 0 ∧ 4 * b 3 - b 6 - (3 * g 2 - g 6) = 0 ∧
      3 * b 0 - (3 * g 2 - g 6) = 0 ∧ b 1 - b 4 - (g 2 - g 6) = 0) ∧
    (b 0 + g 7 = 0 ∧ - b 0 - (g 3 - g 7) = 0 ∧ 3 * b 0 - (2 * g 3 - g 7) = 0 ∧ 3 * b 1 - b 4 - (3 * g 3 - g 7) = 0 ∧
      - b 5 + g 7 = 0) := by
  have k : ∀ i : Fin 20, ((tY y i + tR i) * b (tJ2 i).val - if (tJ2 i).val = 0 then 0 else b (4 + ((tJ2 i).val - 1))) -
      (tY y i * g (i.val / 5) - g (4 + i.val / 5)) = 0 := h
  refine ⟨⟨?_, ?_, ?_, ?_, ?_⟩, ⟨?_, ?_, ?_, ?_, ?_⟩, ⟨?_, ?_, ?_, ?_, ?_⟩, ⟨?_, ?_, ?_, ?_, ?_⟩⟩
  · have := k 0; simp [tY, tR, tJ2] at this; linarith
  · have := k 1; simp [tY, tR, tJ2] at this; linarith
  · have := k 2; simp [tY, tR, tJ2] at this; linarith
  · have := k 3; simp [tY, tR, tJ2] at this; linarith
  · have := k 4; simp [tY, tR, tJ2] at this; linarith
  · have := k 5; simp [tY, tR, tJ2] at this; linarith
  · have := k 6; simp [tY, tR, tJ2] at this; linarith
  · have := k 7; simp [tY, tR, tJ2] at this; linarith
  · have := k 8; simp [tY, tR, tJ2] at this; linarith
  · have := k 9; simp [tY, tR, tJ2] at this; linarith
  · have := k 10; simp [tY, tR, tJ2] at this; linarith
  · have := k 11; simp [tY, tR, tJ2] at this; linarith
  · have := k 12; simp [tY, tR, tJ2] at this; linarith
  · have := k 13; simp [tY, tR, tJ2] at this; linarith
  · have := k 14; simp [tY, tR, tJ2] at this; linarith
  · have := k 15; simp [tY, tR, tJ2] at this; linarith
  · have := k 16; simp [tY, tR, tJ2] at this; linarith
  · have := k 17; simp [tY, tR, tJ2] at this; linarith
  · have := k 18; simp [tY, tR, tJ2] at this; linarith
  · have := k 19; simp [tY, tR, tJ2] at this; linarith

theorem good_independent : Spec.Independent (twenty goodY) := by
  intro b g h
  obtain ⟨⟨h0, h1, h2, h3, h4⟩, ⟨h5, h6, h7, h8, h9⟩, ⟨h10, h11, h12, h13, h14⟩, ⟨h15, h16, h17, h18, h19⟩⟩ :=
    twenty_rows _ b g h
  simp [goodY] at h0 h1 h2 h3 h4
  constructor
  · intro c hc
    have : c = 0 ∨ c = 1 ∨ c = 2 ∨ c = 3 ∨ c = 4 ∨ c = 5 ∨ c = 6 := by omega
    rcases this with rfl | rfl | rfl | rfl | rfl | rfl | rfl <;> linarith
  · intro c hc
    have : c = 0 ∨ c = 1 ∨ c = 2 ∨ c = 3 ∨ c = 4 ∨ c = 5 ∨ c = 6 ∨ c = 7 := by omega
    rcases this with rfl | rfl | rfl | rfl | rfl | rfl | rfl | rfl <;> linarith

theorem bad_independent : Spec.Independent (twenty badY) := by
  intro b g h
  obtain ⟨⟨h0, h1, h2, h3, h4⟩, ⟨h5, h6, h7, h8, h9⟩, ⟨h10, h11, h12, h13, h14⟩, ⟨h15, h16, h17, h18, h19⟩⟩ :=
    twenty_rows _ b g h
  simp [badY] at h0 h1 h2 h3 h4
  constructor
  · intro c hc
    have : c = 0 ∨ c = 1 ∨ c = 2 ∨ c = 3 ∨ c = 4 ∨ c = 5 ∨ c = 6 := by omega
    rcases this with rfl | rfl | rfl | rfl | rfl | rfl | rfl <;> linarith
  · intro c hc
    have : c = 0 ∨ c = 1 ∨ c = 2 ∨ c = 3 ∨ c = 4 ∨ c = 5 ∨ c = 6 ∨ c = 7 := by omega
    rcases this with rfl | rfl | rfl | rfl | rfl | rfl | rfl | rfl <;> linarith

theorem twenty_moments (y : Fin 5 → ℝ) (j1 j2 : Fin 4) :
    ∑ i with (twenty y).J1 i = j1 ∧ (twenty y).J2 i = j2, (twenty y).D i * Spec.moment (twenty y) unit4 i = 0 := by
  rw [twenty_moment]
  refine (twenty_pairs fun i => 1 * tR i).mpr ?_ j1 j2
  simp [tR]
  norm_num

/-- Non-vacuity of `C100_profiling_recovers_partial` and `C100_profiling_one_slope`: profiling returns, and returns the
truth. -/
theorem twenty_good (e : EigVec) (he : e.Right) (rss : Data 20 4 → (Fin 20 → ℝ) → ℕ → ℝ) (weighted : Bool) (C : ℝ)
    (W : Fin 20 → ℕ) (nw : ℕ) : fitAll e rss (twenty goodY) profOpts weighted C W nw true = .ok unit4 := by
  obtain ⟨-, X, p, hn', -, -, hrun⟩ := prof_run e he rss (twenty goodY) profOpts weighted C W nw rfl rfl rfl rfl rfl
    (fun _ => one_pos) (by decide) good_independent
  rw [hrun]
  congr 1
  refine C100_profiling_recovers_partial e he rss (twenty goodY) profOpts weighted C W nw rfl rfl rfl rfl le_rfl
    (fun _ => one_pos) (by decide) unit4 unit4_admissible rfl (fun _ _ => rfl) (twenty_moments _) (fun j => ?_) ?_ _ hrun
  · rw [twenty_moment]
    obtain ⟨e0, e1, e2, e3⟩ := twenty_firms fun i => 1 * (tY goodY i * tR i)
    fin_cases j
    · exact e0.trans (by simp [tY, tR, goodY])
    · exact e1.trans (by simp [tY, tR, goodY])
    · exact e2.trans (by simp [tY, tR, goodY]; norm_num)
    · exact e3.trans (by simp [tY, tR, goodY])
  · intro b1 a1 b2 a2 ha hpair hw
    have h0 := (twenty_pairs _).mp hpair
    have w0 := hw 0
    have w1 := hw 1
    have w2 := hw 2
    have w3 := hw 3
    have a0 := ha 0 rfl
    rw [show (univ.filter fun i => (twenty goodY).J1 i = 0) = univ.filter fun i => tJ1 i = 0 from rfl, (twenty_firms _).1] at w0
    rw [show (univ.filter fun i => (twenty goodY).J1 i = 1) = univ.filter fun i => tJ1 i = 1 from rfl, (twenty_firms _).2.1] at w1
    rw [show (univ.filter fun i => (twenty goodY).J1 i = 2) = univ.filter fun i => tJ1 i = 2 from rfl, (twenty_firms _).2.2.1] at w2
    rw [show (univ.filter fun i => (twenty goodY).J1 i = 3) = univ.filter fun i => tJ1 i = 3 from rfl, (twenty_firms _).2.2.2] at w3
    have j1 : ∀ (j : Fin 4) (i : Fin 20), i.val / 5 = j.val → tJ1 i = j := fun j i h => Fin.ext h
    simp [twenty, tY, tR, tJ2, goodY, j1 0 0, j1 0 1, j1 0 2, j1 0 3, j1 0 4, j1 1 5, j1 1 6, j1 1 7, j1 1 8, j1 1 9,
      j1 2 10, j1 2 11, j1 2 12, j1 2 13, j1 2 14, j1 3 15, j1 3 16, j1 3 17, j1 3 18, j1 3 19, a0] at h0 w0 w1 w2 w3
    obtain ⟨⟨h0, h1, h2⟩, ⟨h3, h4, h5⟩, ⟨h6, h7, h8⟩, ⟨h9, h10, h11⟩⟩ := h0
    refine ⟨b2 0, fun j => ?_⟩
    simp only [unit4]
    fin_cases j
    · constructor <;> simp [a0]
    · constructor <;> simp <;> linarith
    · constructor <;> simp <;> linarith
    · constructor <;> simp <;> linarith

/-- What profiling would have to satisfy to return the truth: with `f`, the residuals of the kept columns at the truth, and
`u`, those of the averages of `f` by firm pair, the columns kept have proportional products with `u` and `f`. -/
theorem prof_eigen {d : Data ni nf} {o : Opts} (hD : d.D = fun _ => 1) (htik : o.tik = 0)
    (hdet : (cross (wOut nf true) (wOut nf true) d.D (profOut d true) (profOut d true)).det ≠ 0)
    {X : Fin ni → ℕ → ℝ} (hX : X = partialled (wOut nf true) (profOut d true) d.D
        (cross (wOut nf true) (wOut nf true) d.D (profOut d true) (profOut d true))⁻¹ (profIn d true))
    (v : Fin (wIn nf true) → ℝ) (lam : ℝ)
    (heig : (crossZ (wIn nf true) (wIn nf true) (.one (pairKey d)) d.D o.tik d.D d.D X X).mulVec v =
        lam • (cross (wIn nf true) (wIn nf true) d.D X X).mulVec v)
    (s u : Fin ni → ℝ) (g g' : Fin (wOut nf true) → ℝ)
    (hs : ∀ i, ∑ c ∈ range (wIn nf true), profIn d true i c * ext _ v c = s i + lin _ (profOut d true) g i)
    (hso : ∀ a : Fin (wOut nf true), ∑ i, d.D i * profOut d true i a.val * s i = 0)
    (hu : ∀ i, Spec.avg d s i = u i + lin _ (profOut d true) g' i)
    (huo : ∀ a : Fin (wOut nf true), ∑ i, d.D i * profOut d true i a.val * u i = 0) (c : Fin (wIn nf true)) :
    ∑ i, profIn d true i c.val * u i = lam * ∑ i, profIn d true i c.val * s i := by
  have h := congrFun heig c
  have hlin : lin (wIn nf true) X v = s := by
    funext i
    rw [lin_ext, hX, partialled_lin]
    exact resW_of hdet hs hso i
  rw [Pi.smul_apply, smul_eq_mul, cross_mulVec, hlin, hD, htik, crossP_mulVec, hlin] at h
  have hX' : ∀ i, X i c.val = resW (wOut nf true) (profOut d true) d.D
      (cross (wOut nf true) (wOut nf true) d.D (profOut d true) (profOut d true))⁻¹ (fun i => profIn d true i c.val) i := by
    intro i
    rw [hX, partialled_eq]
  have e1 : ∑ i, 1 * X i c.val * s i = ∑ i, profIn d true i c.val * s i := by
    simp only [hX']
    have := sum_resW (W := profOut d true) (D := d.D)
      (inv := (cross (wOut nf true) (wOut nf true) d.D (profOut d true) (profOut d true))⁻¹)
      (f := fun i => profIn d true i c.val) hso
    simp only [hD, one_mul] at this ⊢
    exact this
  have e2 : ∑ i, X i c.val * Spec.avg d s i = ∑ i, profIn d true i c.val * u i := by
    have := sum_resW (W := profOut d true) (D := d.D)
      (inv := (cross (wOut nf true) (wOut nf true) d.D (profOut d true) (profOut d true))⁻¹)
      (f := fun i => profIn d true i c.val) huo
    have hz : ∑ i, X i c.val * lin (wOut nf true) (profOut d true) g' i = 0 := by
      simp only [hX', lin, mul_sum]
      rw [sum_comm]
      refine sum_eq_zero fun a _ => ?_
      have := resW_orth hdet (fun i => profIn d true i c.val) a
      rw [← mul_zero (g' a), ← this, mul_sum]
      refine sum_congr rfl fun i _ => ?_
      simp only [hD]
      ring
    simp only [hu, mul_add, sum_add_distrib]
    rw [hz, add_zero]
    simp only [hX']
    simp only [hD, one_mul] at this ⊢
    exact this
  rw [e2] at h
  rw [h, e1]

theorem twenty_avg (y : Fin 5 → ℝ) (f : Fin 20 → ℝ) (i : Fin 20) : Spec.avg (twenty y) f i =
    ![(f 0 + f 1 + f 2) / 3, (f 0 + f 1 + f 2) / 3, (f 0 + f 1 + f 2) / 3, f 3, f 4,
      (f 5 + f 6 + f 7) / 3, (f 5 + f 6 + f 7) / 3, (f 5 + f 6 + f 7) / 3, f 8, f 9,
      (f 10 + f 11 + f 12) / 3, (f 10 + f 11 + f 12) / 3, (f 10 + f 11 + f 12) / 3, f 13, f 14,
      (f 15 + f 16 + f 17) / 3, (f 15 + f 16 + f 17) / 3, (f 15 + f 16 + f 17) / 3, f 18, f 19] i := by
  have e3 : ∀ a b c : Fin 20, ∀ i, (univ.filter fun i' => tJ1 i' = tJ1 i ∧ tJ2 i' = tJ2 i) = {a, b, c} → a ≠ b → a ≠ c →
      b ≠ c → Spec.avg (twenty y) f i = (f a + f b + f c) / 3 := by
    intro a b c i h h1 h2 h3
    change (∑ i ∈ univ.filter fun i' => tJ1 i' = tJ1 i ∧ tJ2 i' = tJ2 i, f i) /
      ((univ.filter fun i' => tJ1 i' = tJ1 i ∧ tJ2 i' = tJ2 i).card : ℝ) = _
    rw [h, sum_insert (by simp [h1, h2]), sum_pair h3, add_assoc, card_insert_of_notMem (by simp [h1, h2]), card_pair h3]
    norm_num
  have e1 : ∀ i, (univ.filter fun i' => tJ1 i' = tJ1 i ∧ tJ2 i' = tJ2 i) = {i} → Spec.avg (twenty y) f i = f i := by
    intro i h
    change (∑ i ∈ univ.filter fun i' => tJ1 i' = tJ1 i ∧ tJ2 i' = tJ2 i, f i) /
      ((univ.filter fun i' => tJ1 i' = tJ1 i ∧ tJ2 i' = tJ2 i).card : ℝ) = _
    rw [h, sum_singleton, card_singleton, Nat.cast_one, div_one]
  fin_cases i
  · exact e3 0 1 2 _ (by decide) (by decide) (by decide) (by decide)
  · exact e3 0 1 2 _ (by decide) (by decide) (by decide) (by decide)
  · exact e3 0 1 2 _ (by decide) (by decide) (by decide) (by decide)
  · exact e1 _ (by decide)
  · exact e1 _ (by decide)
  · exact e3 5 6 7 _ (by decide) (by decide) (by decide) (by decide)
  · exact e3 5 6 7 _ (by decide) (by decide) (by decide) (by decide)
  · exact e3 5 6 7 _ (by decide) (by decide) (by decide) (by decide)
  · exact e1 _ (by decide)
  · exact e1 _ (by decide)
  · exact e3 10 11 12 _ (by decide) (by decide) (by decide) (by decide)
  · exact e3 10 11 12 _ (by decide) (by decide) (by decide) (by decide)
  · exact e3 10 11 12 _ (by decide) (by decide) (by decide) (by decide)
  · exact e1 _ (by decide)
  · exact e1 _ (by decide)
  · exact e3 15 16 17 _ (by decide) (by decide) (by decide) (by decide)
  · exact e3 15 16 17 _ (by decide) (by decide) (by decide) (by decide)
  · exact e3 15 16 17 _ (by decide) (by decide) (by decide) (by decide)
  · exact e1 _ (by decide)
  · exact e1 _ (by decide)

/-- Noise of `twenty badY` after partialling out. -/
def tS : Fin 20 → ℝ := ![1, -1, 1, -1, 0, 1, -2, 1, 0, 0, 1, -2, 1, 0, 0, 1, -2, 1, 0, 0]

/-- Its averages by firm pair, after partialling out. -/
noncomputable def tU : Fin 20 → ℝ := ![1/3, -1/3, 1/3, -1/3, 0, 0, 0, 0, 0, 0, 0, 0, 0, 0, 0, 0, 0, 0, 0, 0]

theorem lin_out4 (d : Data 20 4) (γ : ℕ → ℝ) (i : Fin 20) : lin (wOut 4 true) (profOut d true) (fun c => γ c.val) i =
    - (d.Y1 i * γ (d.J1 i).val) + γ (4 + (d.J1 i).val) := by
  have h := (d.J1 i).isLt
  rw [lin_profOut, sum_profOut]
  have e : ∀ c < 8, ext (wOut 4 true) (fun c : Fin (wOut 4 true) => γ c.val) c = γ c := fun c hc => by
    rw [ext, dif_pos (show c < wOut 4 true from hc)]
  rw [e _ (by omega), e _ (by omega)]

theorem twenty_orth {s : Fin 20 → ℝ} (q : ℝ) (hs : s = tS ∨ s = tU) (a : Fin (wOut 4 true)) :
    ∑ i, (twenty badY).D i * profOut (twenty badY) true i a.val * (q * s i) = 0 := by
  refine orth_profOut (twenty badY) _ (fun j => ?_) a
  have e1 : ∀ j, ∑ i with tJ1 i = j, 1 * (q * s i) = 0 := by
    intro j
    obtain ⟨e0, e1, e2, e3⟩ := twenty_firms fun i => 1 * (q * s i)
    rcases hs with rfl | rfl <;> fin_cases j
    · exact e0.trans (by simp [tS])
    · exact e1.trans (by simp [tS]; ring)
    · exact e2.trans (by simp [tS]; ring)
    · exact e3.trans (by simp [tS]; ring)
    · exact e0.trans (by simp [tU]; ring)
    · exact e1.trans (by simp [tU])
    · exact e2.trans (by simp [tU])
    · exact e3.trans (by simp [tU])
  have e2 : ∀ j, ∑ i with tJ1 i = j, 1 * (tY badY i * (q * s i)) = 0 := by
    intro j
    obtain ⟨e0, e1, e2, e3⟩ := twenty_firms fun i => 1 * (tY badY i * (q * s i))
    rcases hs with rfl | rfl <;> fin_cases j
    · exact e0.trans (by simp [tS, tY, badY]; ring)
    · exact e1.trans (by simp [tS, tY]; ring)
    · exact e2.trans (by simp [tS, tY]; ring)
    · exact e3.trans (by simp [tS, tY]; ring)
    · exact e0.trans (by simp [tU, tY, badY]; ring)
    · exact e1.trans (by simp [tU, tY])
    · exact e2.trans (by simp [tU, tY])
    · exact e3.trans (by simp [tU, tY])
  exact ⟨e1 j, e2 j⟩

/-- Profiling is wrong: in `twenty badY` the weighted moments of every firm pair vanish at the unit effects, which are the
only admissible effects with that property, yet `liml_1` with profiling returns others.  (The instruments are uncorrelated
with the noise, but the first wages, which are partialled out, need not be.) -/
theorem C100_profiling_wrong (e : EigVec) (he : e.Right) (rss : Data 20 4 → (Fin 20 → ℝ) → ℕ → ℝ) (weighted : Bool) (C : ℝ)
    (W : Fin 20 → ℕ) (nw : ℕ) :
    (∀ j1 j2, ∑ i with (twenty badY).J1 i = j1 ∧ (twenty badY).J2 i = j2,
      (twenty badY).D i * Spec.moment (twenty badY) unit4 i = 0) ∧
    (∀ x, Spec.Admissible profOpts x → Spec.Normalised profOpts x → x.B2 = x.B1 →
      (∀ j1 j2, ∑ i with (twenty badY).J1 i = j1 ∧ (twenty badY).J2 i = j2,
        (twenty badY).D i * Spec.moment (twenty badY) x i = 0) → x = unit4) ∧
    ∃ x, fitAll e rss (twenty badY) profOpts weighted C W nw true = .ok x ∧ x ≠ unit4 := by
  refine ⟨twenty_moments _, ?_, ?_⟩
  · intro x hx hn hB hm
    have hA : ∀ j, x.A2 j = x.A1 j := fun j => by
      have := hx.statA rfl j
      rw [hB] at this
      exact (div_left_inj' (hx.b1 j)).mp this
    have h0 := (twenty_pairs _).mp hm
    have j1 : ∀ (j : Fin 4) (i : Fin 20), i.val / 5 = j.val → tJ1 i = j := fun j i h => Fin.ext h
    have b0 : x.B1 0 = 1 := hn 0 rfl
    have a0 : x.A1 0 = 0 := hx.a0 0 rfl
    simp [twenty, Spec.moment, tY, tR, tJ2, badY, j1 0 0, j1 0 1, j1 0 2, j1 0 3, j1 0 4, j1 1 5, j1 1 6, j1 1 7, j1 1 8, j1 1 9,
      j1 2 10, j1 2 11, j1 2 12, j1 2 13, j1 2 14, j1 3 15, j1 3 16, j1 3 17, j1 3 18, j1 3 19, a0, b0, hB, hA,
      div_eq_mul_inv, add_mul, sub_mul] at h0
    obtain ⟨⟨h0, h1, h2⟩, ⟨h3, h4, h5⟩, ⟨h6, h7, h8⟩, ⟨h9, h10, h11⟩⟩ := h0
    have hb : ∀ j, (x.B1 j)⁻¹ = 1 := by
      intro j
      fin_cases j
      · simp [b0]
      · change (x.B1 1)⁻¹ = 1; linarith
      · change (x.B1 2)⁻¹ = 1; linarith
      · change (x.B1 3)⁻¹ = 1; linarith
    have ha : ∀ j, x.A1 j * (x.B1 j)⁻¹ = 0 := by
      intro j
      fin_cases j
      · simp [a0]
      · change x.A1 1 * (x.B1 1)⁻¹ = 0; linarith
      · change x.A1 2 * (x.B1 2)⁻¹ = 0; linarith
      · change x.A1 3 * (x.B1 3)⁻¹ = 0; linarith
    have hb' : ∀ j, x.B1 j = 1 := fun j => by rw [← inv_inv (x.B1 j), hb, inv_one]
    have ha' : ∀ j, x.A1 j = 0 := fun j => by have := ha j; rwa [hb, mul_one] at this
    ext j
    · exact ha' j
    · rw [hA]; exact ha' j
    · exact hb' j
    · rw [hB]; exact hb' j
  · obtain ⟨hdet, X, p, hn', hX, heig, hrun⟩ := prof_run e he rss (twenty badY) profOpts weighted C W nw rfl rfl rfl rfl rfl
      (fun _ => one_pos) (by decide) bad_independent
    refine ⟨_, hrun, fun hc => ?_⟩
    set q := p.2 ⟨profOpts.normFid, hn'⟩ with hq
    have hB : ∀ j : Fin 4, ext (wIn 4 true) p.2 j.val = q := by
      intro j
      have h1 : 1 / (ext (wIn 4 true) p.2 j.val / q) = 1 := congrFun (congrArg Effects.B1 hc) j
      have h2 : ext (wIn 4 true) p.2 j.val / q = 1 := by
        rw [← one_div_one_div (ext (wIn 4 true) p.2 j.val / q), h1, one_div_one]
      have hq0 : q ≠ 0 := by rintro h; rw [h, div_zero] at h2; exact zero_ne_one h2
      exact (div_eq_one_iff_eq hq0).mp h2
    have hq0 : q ≠ 0 := by
      intro h
      have h1 : 1 / (ext (wIn 4 true) p.2 0 / q) = 1 := congrFun (congrArg Effects.B1 hc) 0
      rw [h, div_zero, div_zero] at h1
      exact zero_ne_one h1
    have hA : ∀ c, 4 ≤ c → c < 7 → ext (wIn 4 true) p.2 c = 0 := by
      intro c h4 h7
      have h1 : (if c - 3 = 0 then 0 else ext (wIn 4 true) p.2 (4 + (c - 3 - 1)) / q) *
        (1 / (ext (wIn 4 true) p.2 (c - 3) / q)) = 0 := congrFun (congrArg Effects.A1 hc) ⟨c - 3, by omega⟩
      rw [if_neg (by omega), show 4 + (c - 3 - 1) = c by omega, hB ⟨c - 3, by omega⟩, div_self hq0, div_one, mul_one] at h1
      exact (div_eq_zero_iff.mp h1).resolve_right hq0
    have key := prof_eigen (d := twenty badY) (o := profOpts) rfl rfl hdet hX p.2 p.1 heig (fun i => q * tS i) (fun i => q * tU i)
      (fun c => q * if c.val = 0 then -3/2 else if c.val < 4 then -1 else if c.val = 4 then -1/2 else 0)
      (fun c => q * if c.val = 0 then 1/3 else if c.val = 4 then 1/3 else 0)
      (fun i => by
        rw [sum_profIn, hB, lin_out4 (twenty badY) fun c => q * if c = 0 then -3/2 else if c < 4 then -1 else if c = 4 then -1/2 else 0]
        have : (if ((twenty badY).J2 i).val = 0 then 0 else ext (wIn 4 true) p.2 (4 + (((twenty badY).J2 i).val - 1))) = 0 := by
          have := ((twenty badY).J2 i).isLt
          split_ifs with h0
          · rfl
          · exact hA _ (by omega) (by omega)
        rw [this]
        change (tY badY i + tR i) * q - 0 = q * tS i + (- (tY badY i * (q * if i.val / 5 = 0 then _ else _)) + q * _)
        fin_cases i <;> simp [tY, tR, tS, badY, twenty, tJ1_val] <;> ring)
      (twenty_orth q (Or.inl rfl))
      (fun i => by
        rw [twenty_avg, lin_out4 (twenty badY) fun c => q * if c = 0 then 1/3 else if c = 4 then 1/3 else 0]
        fin_cases i <;> simp [tY, tU, tS, badY, twenty, tJ1_val] <;> ring)
      (twenty_orth q (Or.inr rfl))
    have k0 := key ⟨0, by decide⟩
    have k4 := key ⟨4, by decide⟩
    have p0 : ∀ i, profIn (twenty badY) true i 0 = if tJ2 i = 0 then tY badY i + tR i else 0 := by
      intro i
      simp only [profIn, hcat, if_true, YY]
      rw [if_pos (by norm_num)]
      exact if_congr ⟨fun h => Fin.ext h.symm, fun h => (congrArg Fin.val h).symm⟩ rfl rfl
    have p4 : ∀ i, profIn (twenty badY) true i 4 = if tJ2 i = 1 then -1 else 0 := by
      intro i
      simp only [profIn, hcat, if_true, drop1, JJ]
      rw [if_neg (by norm_num)]
      by_cases h : tJ2 i = 1
      · rw [if_pos h, if_pos (by change _ = (tJ2 i).val; rw [h]; rfl)]
      · rw [if_neg h, if_neg fun h' => h (Fin.ext h'.symm), neg_zero]
    simp only [p0] at k0
    simp only [p4] at k4
    simp [Fin.sum_univ_succ, tJ2, tY, tR, tS, tU] at k0 k4
    rcases k0 with k0 | k0
    · rw [k0] at k4
      exact hq0 (by linarith)
    · exact hq0 (by linarith)

end Pytwoway.Interacted
