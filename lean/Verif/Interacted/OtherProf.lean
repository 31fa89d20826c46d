import Verif.Interacted.OtherReturns
import Verif.Interacted.OtherCoarse

/-! # C100: profiling -/

namespace Pytwoway.Interacted

open Finset

variable {ni nf n m : ℕ}

/-! ## Partialling out -/

/-- What is left of `f` after partialling out. -/
noncomputable def resW (m : ℕ) (W : Fin ni → ℕ → ℝ) (D : Fin ni → ℝ) (inv : Matrix (Fin m) (Fin m) ℝ) (f : Fin ni → ℝ)
    (i : Fin ni) : ℝ := f i - lin m W (inv.mulVec fun b => ∑ i', D i' * W i' b.val * f i') i

theorem partialled_eq (W : Fin ni → ℕ → ℝ) (D : Fin ni → ℝ) (inv : Matrix (Fin m) (Fin m) ℝ) (X : Fin ni → ℕ → ℝ)
    (i : Fin ni) (c : ℕ) : partialled m W D inv X i c = resW m W D inv (fun i => X i c) i := rfl

theorem partialled_lin (W : Fin ni → ℕ → ℝ) (D : Fin ni → ℝ) (inv : Matrix (Fin m) (Fin m) ℝ) (X : Fin ni → ℕ → ℝ)
    (b : ℕ → ℝ) (i : Fin ni) : ∑ c ∈ range n, partialled m W D inv X i c * b c =
      resW m W D inv (fun i => ∑ c ∈ range n, X i c * b c) i := by
  simp only [partialled, resW, sub_mul, sum_sub_distrib, lin, Matrix.mulVec, dotProduct]
  congr 1
  simp only [sum_mul, mul_sum]
  rw [sum_comm]
  refine sum_congr rfl fun a _ => ?_
  rw [sum_comm]
  refine sum_congr rfl fun a' _ => ?_
  rw [sum_comm]
  refine sum_congr rfl fun i' _ => ?_
  exact sum_congr rfl fun c _ => by ring

theorem sum_W_lin (W : Fin ni → ℕ → ℝ) (D : Fin ni → ℝ) (g : Fin m → ℝ) (a : Fin m) :
    ∑ i, D i * W i a.val * lin m W g i = (cross m m D W W).mulVec g a := (cross_mulVec D W W g a).symm

/-- If `f = s + W g` and `s` is orthogonal to `W`, what is left is `s`. -/
theorem resW_of {W : Fin ni → ℕ → ℝ} {D : Fin ni → ℝ} (hd : (cross m m D W W).det ≠ 0) {f s : Fin ni → ℝ} {g : Fin m → ℝ}
    (hf : ∀ i, f i = s i + lin m W g i) (hs : ∀ a : Fin m, ∑ i, D i * W i a.val * s i = 0) (i : Fin ni) :
    resW m W D (cross m m D W W)⁻¹ f i = s i := by
  have h1 : (fun b : Fin m => ∑ i', D i' * W i' b.val * f i') = (cross m m D W W).mulVec g := by
    funext b
    rw [← sum_W_lin]
    simp only [hf, mul_add, sum_add_distrib]
    rw [hs b, zero_add]
  rw [resW, h1, Matrix.mulVec_mulVec, Matrix.nonsing_inv_mul _ (isUnit_iff_ne_zero.mpr hd), Matrix.one_mulVec, hf]
  ring

theorem resW_orth {W : Fin ni → ℕ → ℝ} {D : Fin ni → ℝ} (hd : (cross m m D W W).det ≠ 0) (f : Fin ni → ℝ) (a : Fin m) :
    ∑ i, D i * W i a.val * resW m W D (cross m m D W W)⁻¹ f i = 0 := by
  simp only [resW, mul_sub, sum_sub_distrib]
  rw [sum_W_lin, Matrix.mulVec_mulVec, Matrix.mul_nonsing_inv _ (isUnit_iff_ne_zero.mpr hd), Matrix.one_mulVec, sub_self]

/-- The part along `W` of one factor does not count when the other is orthogonal to `W`. -/
theorem sum_resW {W : Fin ni → ℕ → ℝ} {D : Fin ni → ℝ} {inv : Matrix (Fin m) (Fin m) ℝ} {f s : Fin ni → ℝ}
    (hs : ∀ a : Fin m, ∑ i, D i * W i a.val * s i = 0) :
    ∑ i, D i * resW m W D inv f i * s i = ∑ i, D i * f i * s i := by
  simp only [resW, mul_sub, sub_mul, sum_sub_distrib]
  rw [sub_eq_self]
  simp only [lin, mul_sum, sum_mul]
  rw [sum_comm]
  refine sum_eq_zero fun a _ => ?_
  rw [← mul_zero (inv.mulVec (fun b => ∑ i', D i' * W i' b.val * f i') a), ← hs a, mul_sum]
  exact sum_congr rfl fun i _ => by ring

/-! ## The profiled design -/

theorem sum_profIn (d : Data ni nf) (β : ℕ → ℝ) (i : Fin ni) :
    ∑ c ∈ range (wIn nf true), profIn d true i c * β c =
      d.Y2 i * β (d.J2 i).val - if (d.J2 i).val = 0 then 0 else β (nf + ((d.J2 i).val - 1)) := by
  unfold profIn wIn
  simp only [if_true]
  rw [sum_hcat, sum_YY]
  simp only [neg_mul, sum_neg_distrib]
  rw [sum_drop1_JJ d.J2 i fun c => β (nf + c)]
  ring

theorem sum_profIn_false (d : Data ni nf) (β : ℕ → ℝ) (i : Fin ni) :
    ∑ c ∈ range (wIn nf false), profIn d false i c * β c = d.Y2 i * β (d.J2 i).val := by
  unfold profIn wIn
  simp only [Bool.false_eq_true, if_false]
  rw [sum_YY]

theorem sum_profOut (d : Data ni nf) (β : ℕ → ℝ) (i : Fin ni) :
    ∑ c ∈ range (wOut nf true), profOut d true i c * β c = - (d.Y1 i * β (d.J1 i).val) + β (nf + (d.J1 i).val) := by
  unfold profOut wOut
  simp only [if_true]
  rw [sum_hcat, sum_JJ d.J1 i fun c => β (nf + c)]
  simp only [neg_mul, sum_neg_distrib]
  rw [sum_YY]

theorem sum_profOut_false (d : Data ni nf) (β : ℕ → ℝ) (i : Fin ni) :
    ∑ c ∈ range (wOut nf false), profOut d false i c * β c = - (d.Y1 i * β (d.J1 i).val) +
      ((if (d.J1 i).val = 0 then 0 else β (nf + ((d.J1 i).val - 1))) - β (nf + (nf - 1 + (d.J2 i).val))) := by
  unfold profOut wOut
  simp only [Bool.false_eq_true, if_false]
  rw [sum_hcat, sum_X2 d false i fun c => β (nf + c)]
  simp only [neg_mul, sum_neg_distrib, Bool.false_eq_true, if_false]
  rw [sum_YY]

theorem lin_profOut (d : Data ni nf) (statA : Bool) (g : Fin (wOut nf statA) → ℝ) (i : Fin ni) :
    lin (wOut nf statA) (profOut d statA) g i = ∑ c ∈ range (wOut nf statA), profOut d statA i c * ext _ g c :=
  lin_ext _ g i

theorem profOut_fst (d : Data ni nf) (i : Fin ni) (j : Fin nf) :
    profOut d true i j.val = if d.J1 i = j then - d.Y1 i else 0 := by
  simp only [profOut, hcat, if_true, YY, if_pos j.isLt]
  by_cases hi : d.J1 i = j
  · rw [if_pos hi, if_pos (by rw [hi])]
  · rw [if_neg hi, if_neg fun h => hi (Fin.ext h.symm), neg_zero]

theorem profOut_snd (d : Data ni nf) (i : Fin ni) (j : Fin nf) :
    profOut d true i (nf + j.val) = if d.J1 i = j then 1 else 0 := by
  simp only [profOut, hcat, if_true, JJ]
  have : ¬ nf + j.val < nf := by omega
  rw [if_neg this, Nat.add_sub_cancel_left]
  by_cases hi : d.J1 i = j
  · rw [if_pos hi, if_pos (by rw [hi])]
  · rw [if_neg hi, if_neg fun h => hi (Fin.ext h.symm)]

theorem sum_profOut_fst (d : Data ni nf) (s : Fin ni → ℝ) (j : Fin nf) :
    ∑ i, d.D i * profOut d true i j.val * s i = - ∑ i with d.J1 i = j, d.D i * (d.Y1 i * s i) := by
  rw [sum_filter, ← sum_neg_distrib]
  refine sum_congr rfl fun i _ => ?_
  rw [profOut_fst]
  split_ifs <;> ring

theorem sum_profOut_snd (d : Data ni nf) (s : Fin ni → ℝ) (j : Fin nf) :
    ∑ i, d.D i * profOut d true i (nf + j.val) * s i = ∑ i with d.J1 i = j, d.D i * s i := by
  rw [sum_filter]
  refine sum_congr rfl fun i _ => ?_
  rw [profOut_snd]
  split_ifs <;> ring

/-- Being orthogonal to what is partialled out: within every firm of the first period, the sum and the sum times the
first wage vanish. -/
theorem profOut_orth (d : Data ni nf) (s : Fin ni → ℝ)
    (h : ∀ a : Fin (wOut nf true), ∑ i, d.D i * profOut d true i a.val * s i = 0) (j : Fin nf) :
    ∑ i with d.J1 i = j, d.D i * s i = 0 ∧ ∑ i with d.J1 i = j, d.D i * (d.Y1 i * s i) = 0 := by
  have hj := j.isLt
  constructor
  · rw [← sum_profOut_snd]
    exact h ⟨nf + j.val, by unfold wOut; simp only [if_true]; omega⟩
  · rw [← neg_eq_zero, ← sum_profOut_fst]
    exact h ⟨j.val, by unfold wOut; simp only [if_true]; omega⟩

theorem orth_profOut (d : Data ni nf) (s : Fin ni → ℝ)
    (h : ∀ j : Fin nf, ∑ i with d.J1 i = j, d.D i * s i = 0 ∧ ∑ i with d.J1 i = j, d.D i * (d.Y1 i * s i) = 0)
    (a : Fin (wOut nf true)) : ∑ i, d.D i * profOut d true i a.val * s i = 0 := by
  have ha : a.val < nf + nf := a.isLt
  by_cases hlt : a.val < nf
  · have := sum_profOut_fst d s ⟨a.val, hlt⟩
    simp only at this
    rw [this, (h _).2, neg_zero]
  · have := sum_profOut_snd d s ⟨a.val - nf, by omega⟩
    simp only [show nf + (a.val - nf) = a.val by omega] at this
    rw [this, (h _).1]

theorem sum_by_pairs (d : Data ni nf) (f : Fin ni → ℝ) (h : ∀ j1 j2, ∑ i with d.J1 i = j1 ∧ d.J2 i = j2, f i = 0) (j : Fin nf) :
    ∑ i with d.J1 i = j, f i = 0 := by
  rw [← sum_fiberwise_of_maps_to (t := univ) (g := d.J2) fun _ _ => mem_univ _]
  refine sum_eq_zero fun j2 _ => ?_
  rw [filter_filter]
  exact h j j2

theorem pair_sums (d : Data ni nf) (u f : Fin ni → ℝ) :
    (∀ c ∈ (Instr.one (pairKey d)).cols, (Instr.one (pairKey d)).sum u f c = 0) ↔
      ∀ j1 j2, ∑ i with d.J1 i = j1 ∧ d.J2 i = j2, u i * f i = 0 := by
  have hs : ∀ i, (Instr.one (pairKey d)).sum u f (0, pairKey d i) = ∑ i' with d.J1 i' = d.J1 i ∧ d.J2 i' = d.J2 i, u i' * f i' := by
    intro i
    rw [one_sum, zsum, filter_pairKey]
    rfl
  constructor
  · intro h j1 j2
    rcases (univ.filter fun i => d.J1 i = j1 ∧ d.J2 i = j2).eq_empty_or_nonempty with he | ⟨i0, hi0⟩
    · rw [he, sum_empty]
    · simp only [mem_filter, mem_univ, true_and] at hi0
      obtain ⟨rfl, rfl⟩ := hi0
      rw [← hs]
      exact h _ (mem_image.mpr ⟨(0, i0), mem_product.mpr ⟨mem_range.mpr Nat.one_pos, mem_univ _⟩, rfl⟩)
  · intro h c hc
    obtain ⟨⟨k, i0⟩, hk, rfl⟩ := mem_image.mp hc
    have hk : k = 0 := Nat.lt_one_iff.mp (mem_range.mp (mem_product.mp hk).1)
    subst hk
    exact (hs i0).trans (h _ _)

theorem profiled_ok {d : Data ni nf} {statA : Bool} {X : Fin ni → ℕ → ℝ} (h : profiled d statA = .ok X) :
    (cross (wOut nf statA) (wOut nf statA) d.D (profOut d statA) (profOut d statA)).det ≠ 0 ∧
      X = partialled (wOut nf statA) (profOut d statA) d.D
        (cross (wOut nf statA) (wOut nf statA) d.D (profOut d statA) (profOut d statA))⁻¹ (profIn d statA) := by
  unfold profiled at h
  simp only [bind, Except.bind] at h
  rcases h2 : invOf (cross (wOut nf statA) (wOut nf statA) d.D (profOut d statA) (profOut d statA)) with err | I
  · rw [h2] at h; cases h
  rw [h2] at h
  obtain ⟨hd, rfl⟩ := invOf_ok h2
  exact ⟨hd, (Except.ok.inj h).symm⟩

/-- What `liml_1` with profiling and stationary intercepts runs. -/
theorem fitAll_prof {e : EigVec} {rss : Data ni nf → (Fin ni → ℝ) → ℕ → ℝ} {d : Data ni nf} {o : Opts} {weighted : Bool}
    {C : ℝ} {W : Fin ni → ℕ} {nw : ℕ} (hm : o.method = .liml1) (hi : o.instrument = .firmPairs) (hp : o.profiling = true)
    (hA : o.statA = true) {x : Effects nf} (h : fitAll e rss d o weighted C W nw true = .ok x) :
    o.statB = false ∧ ∃ X β, profiled d true = .ok X ∧
      limlOne e (wIn nf true) X d.D (.one (pairKey d)) o.tik o.normFid = .ok β ∧ x = extract nf o β := by
  obtain ⟨hv, z, β, hz, hc, rfl⟩ := fitAll_ok (by rw [hm]; decide) h
  have hz' : z = .one (pairKey d) := by
    unfold instrOf at hz
    rw [if_pos rfl, hi] at hz
    exact (Except.ok.inj hz).symm
  subst hz'
  unfold coefficients at hc
  rw [if_pos hp, hA] at hc
  simp only [bind, Except.bind] at hc
  rcases hX : profiled d true with err | X
  · rw [hX] at hc; cases hc
  rw [hX] at hc
  simp only [onDesign, if_pos hm] at hc
  rcases hβ : limlOne e (wIn nf true) X d.D (.one (pairKey d)) o.tik o.normFid with err | β'
  · rw [hβ] at hc; cases hc
  rw [hβ] at hc
  refine ⟨(validate_prof hv hp).1, X, β', rfl, hβ, ?_⟩
  cases hc
  rfl

theorem extract_prof (o : Opts) (hA : o.statA = true) (hp : o.profiling = true) (β : ℕ → ℝ) (x : Effects nf)
    (hx : Spec.Admissible o x) (hB : x.B2 = x.B1) (h1 : ∀ j : Fin nf, β j.val = 1 / x.B2 j)
    (h2 : ∀ j : Fin nf, j.val ≠ 0 → β (nf + (j.val - 1)) = x.A2 j / x.B2 j) : extract nf o β = x := by
  have hA2 : ∀ j, x.A2 j = x.A1 j := fun j => by
    have := hx.statA hA j
    rw [hB] at this
    exact (div_left_inj' (hx.b1 j)).mp this
  unfold extract
  simp only [hp, hA, Bool.or_true, if_true, w1]
  have hb : (fun j : Fin nf => 1 / β j.val) = x.B1 := by
    funext j
    rw [h1, hB, one_div_one_div]
  have ha : ∀ j : Fin nf, (if j.val = 0 then 0 else β (nf + (j.val - 1))) * (1 / β j.val) = x.A1 j := by
    intro j
    by_cases hj : j.val = 0
    · rw [if_pos hj, zero_mul, hx.a0 j hj]
    · rw [if_neg hj, h2 j hj, h1, one_div_one_div, div_mul_cancel₀ _ (hx.b2 j), hA2]
  ext j
  · exact ha j
  · dsimp only
    rw [ha j, hA2, div_self, mul_one]
    exact one_div_ne_zero (by rw [h1]; exact one_div_ne_zero (hx.b2 j))
  · exact congrFun hb j
  · rw [hB]; exact congrFun hb j

/-- C100, profiling with `liml_1` and stationary intercepts: suppose the slopes and intercepts of `x` are the same in both
periods, the weighted moments at `x` sum to zero in every firm pair, and also, multiplied by the first wage, over the movers
out of every firm, and that the second-period slopes and intercepts of `x` are identified when those of the first period are
free.  If profiling returns, it returns `x`.  Missing: moments correlated with the first wage, for which
`C100_profiling_wrong` shows the claim to be false. -/
theorem C100_profiling_recovers_partial (e : EigVec) (he : e.Right) (rss : Data ni nf → (Fin ni → ℝ) → ℕ → ℝ) (d : Data ni nf)
    (o : Opts) (weighted : Bool) (C : ℝ) (W : Fin ni → ℕ) (nw : ℕ) (hm : o.method = .liml1) (hp : o.profiling = true)
    (hA : o.statA = true) (hi : o.instrument = .firmPairs) (htik : 0 ≤ o.tik) (hD : ∀ i, 0 < d.D i) (hn : o.normFid < nf)
    (x : Effects nf) (hx : Spec.Admissible o x) (hB : x.B2 = x.B1) (hnorm : Spec.Normalised o x)
    (hmom : ∀ j1 j2, ∑ i with d.J1 i = j1 ∧ d.J2 i = j2, d.D i * Spec.moment d x i = 0)
    (hwage : ∀ j, ∑ i with d.J1 i = j, d.D i * (d.Y1 i * Spec.moment d x i) = 0)
    (hid : ∀ b1 a1 b2 a2 : Fin nf → ℝ, (∀ j : Fin nf, j.val = 0 → a2 j = 0) →
      (∀ j1 j2, ∑ i with d.J1 i = j1 ∧ d.J2 i = j2,
        d.D i * ((d.Y2 i * b2 (d.J2 i) - a2 (d.J2 i)) - (d.Y1 i * b1 (d.J1 i) - a1 (d.J1 i))) = 0) →
      (∀ j, ∑ i with d.J1 i = j,
        d.D i * (d.Y1 i * ((d.Y2 i * b2 (d.J2 i) - a2 (d.J2 i)) - (d.Y1 i * b1 (d.J1 i) - a1 (d.J1 i)))) = 0) →
      ∃ r : ℝ, ∀ j, b2 j = r * (1 / x.B2 j) ∧ a2 j = r * (x.A2 j / x.B2 j))
    (x' : Effects nf) (h : fitAll e rss d o weighted C W nw true = .ok x') : x' = x := by
  obtain ⟨-, X, β, hX, hβ, rfl⟩ := fitAll_prof hm hi hp hA h
  obtain ⟨hdet, rfl⟩ := profiled_ok hX
  have ha20 : ∀ j : Fin nf, j.val = 0 → x.A2 j / x.B2 j = 0 := fun j hj => by
    rw [hx.statA hA j, hx.a0 j hj, zero_div]
  set b : ℕ → ℝ := fun c => if c < nf then ext nf (fun j => 1 / x.B2 j) c else ext nf (fun j => x.A2 j / x.B2 j) (c - nf + 1) with hb
  have hb1 : ∀ j : Fin nf, b j.val = 1 / x.B2 j := fun j => by simp only [hb]; rw [if_pos j.isLt, ext_lt]
  have hb2 : ∀ j : Fin nf, j.val ≠ 0 → b (nf + (j.val - 1)) = x.A2 j / x.B2 j := fun j hj => by
    simp only [hb]
    rw [if_neg (by omega), Nat.add_sub_cancel_left, Nat.sub_add_cancel (Nat.pos_of_ne_zero hj), ext_lt]
  -- the profiled design at `b` is the moment
  have hXb : ∀ i, ∑ c ∈ range (wIn nf true), partialled (wOut nf true) (profOut d true) d.D
      (cross (wOut nf true) (wOut nf true) d.D (profOut d true) (profOut d true))⁻¹ (profIn d true) i c * b c =
      Spec.moment d x i := by
    intro i
    rw [partialled_lin]
    set g : Fin (wOut nf true) → ℝ := fun c => if c.val < nf then - ext nf (fun j => 1 / x.B1 j) c.val else
      - ext nf (fun j => x.A1 j / x.B1 j) (c.val - nf) with hg
    refine resW_of hdet (g := g) (fun i => ?_) (orth_profOut d _ fun j => ⟨?_, hwage j⟩) i
    · have h1 : (d.J1 i).val < nf := (d.J1 i).isLt
      have h2 : (d.J2 i).val < nf := (d.J2 i).isLt
      rw [sum_profIn, lin_profOut, sum_profOut, hb1]
      have e1 : ext (wOut nf true) g (d.J1 i).val = - (1 / x.B1 (d.J1 i)) := by
        rw [ext, dif_pos (by unfold wOut; simp only [if_true]; omega)]
        simp only [hg]
        rw [if_pos h1, ext_lt]
      have e2 : ext (wOut nf true) g (nf + (d.J1 i).val) = - (x.A1 (d.J1 i) / x.B1 (d.J1 i)) := by
        rw [ext, dif_pos (by unfold wOut; simp only [if_true]; omega)]
        simp only [hg]
        rw [if_neg (by omega), Nat.add_sub_cancel_left, ext_lt]
      have e3 : (if (d.J2 i).val = 0 then 0 else b (nf + ((d.J2 i).val - 1))) = x.A2 (d.J2 i) / x.B2 (d.J2 i) := by
        by_cases hj : (d.J2 i).val = 0
        · rw [if_pos hj, ha20 _ hj]
        · rw [if_neg hj, hb2 _ hj]
      rw [e1, e2, e3, Spec.moment]
      ring
    · exact sum_by_pairs d _ hmom j
  have hn' : o.normFid < wIn nf true := by unfold wIn; simp only [if_true]; omega
  have hb0 : b o.normFid = 1 := by
    have := hb1 ⟨o.normFid, hn⟩
    simp only at this
    rw [this, hB, hnorm _ rfl, one_div_one]
  have hrec := limlOne_recovers e he _ d.D hD (.one (pairKey d)) o.tik htik o.normFid b hb0 hn'
    ((pair_sums d d.D _).mpr (by simp only [hXb]; exact hmom))
    (fun β' hβ' => by
      rw [pair_sums] at hβ'
      simp only [partialled_lin] at hβ'
      set I := (cross (wOut nf true) (wOut nf true) d.D (profOut d true) (profOut d true))⁻¹ with hI
      set f : Fin ni → ℝ := fun i => ∑ c ∈ range (wIn nf true), profIn d true i c * β' c with hf
      set g := I.mulVec fun b => ∑ i', d.D i' * profOut d true i' b.val * f i' with hg
      have hres : ∀ i, resW (wOut nf true) (profOut d true) d.D I f i =
          (d.Y2 i * β' (d.J2 i).val - if (d.J2 i).val = 0 then 0 else β' (nf + ((d.J2 i).val - 1))) -
          (d.Y1 i * - ext _ g (d.J1 i).val - - ext _ g (nf + (d.J1 i).val)) := by
        intro i
        rw [resW, ← hg, lin_profOut, sum_profOut, hf]
        simp only [sum_profIn]
        ring
      obtain ⟨r, hr⟩ := hid (fun j => - ext _ g j.val) (fun j => - ext _ g (nf + j.val)) (fun j => β' j.val)
        (fun j => if j.val = 0 then 0 else β' (nf + (j.val - 1))) (fun j hj => if_pos hj)
        (fun j1 j2 => by
          refine Eq.trans ?_ (hβ' j1 j2)
          exact sum_congr rfl fun i _ => by rw [hres])
        (fun j => by
          refine Eq.trans ?_ (profOut_orth d _ (resW_orth hdet f) j).2
          exact sum_congr rfl fun i _ => by rw [← hI, hres])
      refine ⟨r, fun c hc => ?_⟩
      by_cases hlt : c < nf
      · have h1 := (hr ⟨c, hlt⟩).1
        have h2 := hb1 ⟨c, hlt⟩
        simp only at h1 h2
        rw [h1, h2]
      · have hc' : c < nf + (nf - 1) := hc
        have h1 := (hr ⟨c - nf + 1, by omega⟩).2
        have h2 := hb2 ⟨c - nf + 1, by omega⟩ (by simp)
        simp only at h1 h2
        rw [if_neg (by omega)] at h1
        rw [show nf + (c - nf + 1 - 1) = c by omega] at h1 h2
        rw [h1, h2]) β hβ
  refine extract_prof o hA hp β x hx hB (fun j => ?_) fun j hj => ?_
  · rw [hrec _ (by have := j.isLt; unfold wIn; simp only [if_true]; omega), hb1]
  · rw [hrec _ (by have := j.isLt; unfold wIn; simp only [if_true]; omega), hb2 j hj]

/-- C100: with profiling the slopes returned are the same in both periods, whatever the data. -/
theorem C100_profiling_one_slope (e : EigVec) (rss : Data ni nf → (Fin ni → ℝ) → ℕ → ℝ) (d : Data ni nf) (o : Opts)
    (weighted : Bool) (C : ℝ) (W : Fin ni → ℕ) (nw : ℕ) (cz : Bool) (hp : o.profiling = true) (x : Effects nf)
    (h : fitAll e rss d o weighted C W nw cz = .ok x) :
    x.B2 = x.B1 ∧ (o.method = .liml1 ∨ o.method = .hful) ∧ o.statB = false := by
  have hv : validate o = .ok () := by
    unfold fitAll at h
    simp only [bind, Except.bind] at h
    rcases hv : validate o with err | u
    · rw [hv] at h; cases h
    · rfl
  obtain ⟨h1, h2⟩ := validate_prof hv hp
  have hm : o.method ≠ .linear := by rcases h2 with h2 | h2 <;> rw [h2] <;> decide
  obtain ⟨-, z, β, -, -, rfl⟩ := fitAll_ok hm h
  refine ⟨?_, h2, h1⟩
  unfold extract
  simp only [hp, Bool.or_true, if_true]

/-- C100: with two firms and movers only, profiling always raises. -/
theorem C100_profiling_two_firms_raises (e : EigVec) (rss : Data ni 2 → (Fin ni → ℝ) → ℕ → ℝ) (d : Data ni 2) (o : Opts)
    (weighted : Bool) (C : ℝ) (W : Fin ni → ℕ) (nw : ℕ) (cz : Bool) (hp : o.profiling = true) (hB : o.statB = false)
    (hm : o.method = .liml1 ∨ o.method = .hful) (hi : o.instrument = .firmPairs) (hmove : ∀ i, d.J1 i ≠ d.J2 i) :
    fitAll e rss d o weighted C W nw cz = .error "RuntimeError" := by
  have hJ : ∀ i, (d.J1 i = 0 ∧ d.J2 i = 1) ∨ (d.J1 i = 1 ∧ d.J2 i = 0) := by
    intro i
    have := hmove i
    revert this
    generalize d.J1 i = a
    generalize d.J2 i = b
    revert a b
    decide
  have hv : validate o = .ok () := by
    unfold validate
    rcases hm with hm | hm <;> simp [hp, hB, hm, hi]
  have hz : ∃ z, instrOf d o W nw cz = .ok z := by
    unfold instrOf
    rw [hi]
    cases cz <;> exact ⟨_, rfl⟩
  obtain ⟨z, hz⟩ := hz
  have hc : coefficients e rss d o weighted C z = .error "RuntimeError" := by
    unfold coefficients
    rw [if_pos hp]
    simp only [bind, Except.bind]
    cases hA : o.statA
    · -- the columns partialled out are collinear
      have hdet : (cross (wOut 2 false) (wOut 2 false) d.D (profOut d false) (profOut d false)).det = 0 := by
        refine cross_singular d.D _ (fun c => if c = 2 then 1 else if c = 3 then 1 else 0) 2 (by decide) (by simp) fun i => ?_
        rw [sum_profOut_false]
        rcases hJ i with ⟨h1, h2⟩ | ⟨h1, h2⟩ <;> simp [h1, h2]
      have : profiled d false = .error "RuntimeError" := by
        unfold profiled
        rw [invOf, if_pos hdet]
        rfl
      rw [this]
    · rcases hX : profiled d true with err | X
      · have herr : err = "RuntimeError" := by
          unfold profiled invOf at hX
          split at hX
          · cases hX; rfl
          · cases hX
        rw [herr]
      · obtain ⟨hdet, rfl⟩ := profiled_ok hX
        have hsing : ∀ u : Fin ni → ℝ, (cross (wIn 2 true) (wIn 2 true) u
            (partialled (wOut 2 true) (profOut d true) d.D
              (cross (wOut 2 true) (wOut 2 true) d.D (profOut d true) (profOut d true))⁻¹ (profIn d true))
            (partialled (wOut 2 true) (profOut d true) d.D
              (cross (wOut 2 true) (wOut 2 true) d.D (profOut d true) (profOut d true))⁻¹ (profIn d true))).det = 0 := by
          intro u
          refine cross_singular u _ (fun c => if c = 2 then 1 else 0) 2 (by decide) (by simp) fun i => ?_
          rw [partialled_lin]
          refine resW_of hdet (s := fun _ => 0) (g := fun c => if c.val = 2 then -1 else 0) (fun i => ?_) (fun a => by simp) i
          rw [sum_profIn, lin_profOut, sum_profOut]
          rcases hJ i with ⟨h1, h2⟩ | ⟨h1, h2⟩ <;> simp [h1, h2, ext, wOut]
        dsimp only
        have : onDesign e (wIn 2 true) (partialled (wOut 2 true) (profOut d true) d.D
            (cross (wOut 2 true) (wOut 2 true) d.D (profOut d true) (profOut d true))⁻¹ (profIn d true)) d o weighted C z =
            .error "RuntimeError" := by
          unfold onDesign
          rcases hm with hm | hm
          · rw [if_pos hm, limlOne, invOf, if_pos (hsing d.D)]; rfl
          · rw [if_neg (by rw [hm]; decide), hful, invOf, if_pos (hsing _)]; rfl
        rw [this]
  have hl : o.method ≠ .linear := by rcases hm with h2 | h2 <;> rw [h2] <;> decide
  unfold fitAll
  simp only [bind, Except.bind, hv]
  rw [if_neg hl, hz]
  dsimp only
  rw [hc]

end Pytwoway.Interacted
