import Verif.BLM.Stationary

/-! # How close `fit_stayers` comes to the maximum of the likelihood (C135) -/

namespace Pytwoway.BLM

open Finset

variable {ni nl nk : ℕ}

/-- The rows of `pk0`, when none is missing. -/
def rowsOf (pk : Fin nk → Option (Fin nl → ℝ)) : Fin nk → Fin nl → ℝ := fun k => (pk k).getD fun _ => 1

theorem rowsOf_spec {pk : Fin nk → Option (Fin nl → ℝ)} (hg : GoodPk0 pk) :
    (∀ k, pk k = some (rowsOf pk k)) ∧ (∀ k l, 0 < rowsOf pk k l) ∧ ∀ k, ∑ l, rowsOf pk k l ≤ 1 := by
  have h : ∀ k, pk k = some (rowsOf pk k) ∧ (∀ l, 0 < rowsOf pk k l) ∧ ∑ l, rowsOf pk k l ≤ 1 := by
    intro k
    obtain ⟨row, hr, hp, hs⟩ := hg k
    have : rowsOf pk k = row := by simp [rowsOf, hr]
    rw [this]
    exact ⟨hr, hp, hs⟩
  exact ⟨fun k => (h k).1, fun k => (h k).2.1, fun k => (h k).2.2⟩

theorem exp_lpStayers_rows (d : Data ni nk) (b : Base nl nk) (cs : List (Ctrl ni nl))
    {pk : Fin nk → Option (Fin nl → ℝ)} (hg : GoodPk0 pk) (i : Fin ni) (l : Fin nl) :
    Real.exp (lpStayers d b cs pk i l) =
      rowsOf pk (d.G 0 i) l * Real.exp (d.W 0 i * lpWage d b cs 0 l i) := by
  have hp := (rowsOf_spec hg).2.1 (d.G 0 i) l
  unfold lpStayers
  rw [(rowsOf_spec hg).1, Option.getD_some, Real.exp_add, Real.exp_log hp, mul_comm]

theorem logLikStayers_eq [NeZero nl] (d : Data ni nk) (b : Base nl nk) (cs : List (Ctrl ni nl))
    {pk : Fin nk → Option (Fin nl → ℝ)} (hg : GoodPk0 pk) :
    Spec.logLikStayers d b cs (rowsOf pk) = meanLse (lpStayers d b cs pk) := by
  unfold Spec.logLikStayers meanLse
  simp only [Util.C04_exact, exp_lpStayers_rows d b cs hg]

/-- Posterior probabilities of the types under the comparison proportions `p'`. -/
noncomputable def refPost (d : Data ni nk) (b : Base nl nk) (cs : List (Ctrl ni nl))
    (p' : Fin nk → Fin nl → ℝ) (i : Fin ni) (l : Fin nl) : ℝ :=
  p' (d.G 0 i) l * Real.exp (d.W 0 i * lpWage d b cs 0 l i) /
    ∑ l', p' (d.G 0 i) l' * Real.exp (d.W 0 i * lpWage d b cs 0 l' i)

theorem ref_pos (d : Data ni nk) (b : Base nl nk) (cs : List (Ctrl ni nl)) (p' : Fin nk → Fin nl → ℝ)
    (hp' : ∀ k l, 0 ≤ p' k l) (hs' : ∀ k, ∑ l, p' k l = 1) (i : Fin ni) :
    0 < ∑ l, p' (d.G 0 i) l * Real.exp (d.W 0 i * lpWage d b cs 0 l i) := by
  obtain ⟨l, -, hl⟩ := exists_ne_zero_of_sum_ne_zero (s := univ) (f := fun l => p' (d.G 0 i) l)
    (by rw [hs']; exact one_ne_zero)
  exact sum_pos' (fun l _ => mul_nonneg (hp' _ l) (Real.exp_pos _).le)
    ⟨l, mem_univ _, mul_pos (lt_of_le_of_ne (hp' _ l) (Ne.symm hl)) (Real.exp_pos _)⟩

/-- One iteration: the distance to the likelihood of any proportions is at most the average growth of the
logs of the proportions. -/
theorem stayers_progress [NeZero nl] (d : Data ni nk) (b : Base nl nk) (cs : List (Ctrl ni nl)) (c : ℝ)
    (hc : 0 < c) (hW : ∀ i, d.W 0 i = c) (hall : ∀ k, ∃ i, d.G 0 i = k)
    (pk pk2 : Fin nk → Option (Fin nl → ℝ)) (hg : GoodPk0 pk) (hg2 : GoodPk0 pk2)
    (h : updatePk0 d (posterior (lpStayers d b cs pk)) 1 = .ok pk2)
    (p' : Fin nk → Fin nl → ℝ) (hp' : ∀ k l, 0 ≤ p' k l) (hs' : ∀ k, ∑ l, p' k l = 1) :
    ni * (Spec.logLikStayers d b cs p' - Spec.logLikStayers d b cs (rowsOf pk)) ≤
      ∑ i, ∑ l, refPost d b cs p' i l *
        (Real.log (rowsOf pk2 (d.G 0 i) l) - Real.log (rowsOf pk (d.G 0 i) l)) := by
  set q := posterior (lpStayers d b cs pk) with hqdef
  have hq : ∀ i l, 0 < q i l := posterior_pos _
  have hq1 : ∀ i, ∑ l, q i l = 1 := posterior_sum _
  obtain ⟨hr, hp, -⟩ := rowsOf_spec hg
  obtain ⟨hr2, hp2, -⟩ := rowsOf_spec hg2
  set f : Fin ni → Fin nl → ℝ := fun i l => Real.exp (d.W 0 i * lpWage d b cs 0 l i) with hf
  have hfp : ∀ i l, 0 < f i l := fun i l => Real.exp_pos _
  set D : Fin ni → ℝ := fun i => ∑ l, rowsOf pk (d.G 0 i) l * f i l with hD
  set D' : Fin ni → ℝ := fun i => ∑ l, p' (d.G 0 i) l * f i l with hD'
  have hDp : ∀ i, 0 < D i := fun i => sum_pos (fun l _ => mul_pos (hp _ l) (hfp i l)) univ_nonempty
  have hDp' : ∀ i, 0 < D' i := ref_pos d b cs p' hp' hs'
  have hqv : ∀ i l, q i l = rowsOf pk (d.G 0 i) l * f i l / D i := by
    intro i l
    rw [hqdef, posterior_eq]
    simp only [exp_lpStayers_rows d b cs hg]
    rfl
  set N : Fin nk → ℝ := fun k => ∑ i with d.G 0 i = k, (1 : ℝ) with hN
  have hNp : ∀ k, 0 < N k := by
    intro k
    obtain ⟨i, hi⟩ := hall k
    exact sum_pos (fun _ _ => one_pos) ⟨i, by simp [hi]⟩
  have hrow : ∀ k l, rowsOf pk2 k l = (∑ i with d.G 0 i = k, q i l) / N k := by
    intro k l
    have h1 := updatePk0_row d q c hc hW hq hq1 hall pk2 h k
    rw [hr2 k] at h1
    rw [Option.some.inj h1]
    change _ / _ = _ / _
    congr 1
    rw [sum_comm]
    exact sum_congr rfl fun i _ => hq1 i
  set r : Fin nk → Fin nl → ℝ := fun k l => rowsOf pk2 k l / rowsOf pk k l with hrdef
  have hrp : ∀ k l, 0 < r k l := fun k l => div_pos (hp2 k l) (hp k l)
  have hrv : ∀ k l, ∑ i with d.G 0 i = k, f i l / D i = N k * r k l := by
    intro k l
    simp only [hrdef]
    rw [hrow]
    have e : ∑ i with d.G 0 i = k, q i l = rowsOf pk k l * ∑ i with d.G 0 i = k, f i l / D i := by
      rw [mul_sum]
      refine sum_congr rfl fun i hi => ?_
      rw [hqv, (mem_filter.mp hi).2]; ring
    rw [e]
    have := (hp k l).ne'
    have := (hNp k).ne'
    field_simp
  have hR : ∀ i l, refPost d b cs p' i l = p' (d.G 0 i) l * f i l / D' i := fun i l => rfl
  have hRs : ∀ i, ∑ l, refPost d b cs p' i l = 1 := by
    intro i
    simp only [hR]
    rw [← sum_div]
    exact div_self (hDp' i).ne'
  have hRn : ∀ i l, 0 ≤ refPost d b cs p' i l := fun i l => by
    rw [hR]; exact div_nonneg (mul_nonneg (hp' _ l) (hfp i l).le) (hDp' i).le
  -- log x ≤ x - 1 in every term
  have hterm : ∀ i l, refPost d b cs p' i l * (Real.log (D' i) - Real.log (D i)) -
      refPost d b cs p' i l * (Real.log (rowsOf pk2 (d.G 0 i) l) - Real.log (rowsOf pk (d.G 0 i) l)) ≤
      p' (d.G 0 i) l * (f i l / D i) / r (d.G 0 i) l - refPost d b cs p' i l := by
    intro i l
    have hx : 0 < D' i / (D i * r (d.G 0 i) l) := div_pos (hDp' i) (mul_pos (hDp i) (hrp _ l))
    have h1 := Real.log_le_sub_one_of_pos hx
    rw [Real.log_div (hDp' i).ne' (mul_pos (hDp i) (hrp _ l)).ne',
      Real.log_mul (hDp i).ne' (hrp _ l).ne'] at h1
    have h2 : Real.log (r (d.G 0 i) l) =
        Real.log (rowsOf pk2 (d.G 0 i) l) - Real.log (rowsOf pk (d.G 0 i) l) :=
      Real.log_div (hp2 _ l).ne' (hp _ l).ne'
    rw [h2] at h1
    have h3 := mul_le_mul_of_nonneg_left h1 (hRn i l)
    have h4 : refPost d b cs p' i l * (D' i / (D i * r (d.G 0 i) l) - 1) =
        p' (d.G 0 i) l * (f i l / D i) / r (d.G 0 i) l - refPost d b cs p' i l := by
      rw [hR]
      have := (hDp' i).ne'
      have := (hDp i).ne'
      have := (hrp (d.G 0 i) l).ne'
      field_simp
    rw [h4] at h3
    linarith
  have hzero : ∑ i, ∑ l, (p' (d.G 0 i) l * (f i l / D i) / r (d.G 0 i) l - refPost d b cs p' i l) = 0 := by
    simp only [sum_sub_distrib, hRs]
    rw [sum_cells d 0 fun i k => ∑ l, p' k l * (f i l / D i) / r k l, sum_cells d 0 fun _ _ => (1 : ℝ),
      ← sum_sub_distrib]
    refine sum_eq_zero fun k _ => ?_
    rw [sum_comm]
    have e : ∀ l, ∑ i with d.G 0 i = k, p' k l * (f i l / D i) / r k l = N k * p' k l := by
      intro l
      rw [← sum_div, ← mul_sum, hrv]
      have := (hrp k l).ne'
      field_simp
    simp only [e, ← mul_sum, hs', mul_one]
    simp [hN]
  have hsum := sum_le_sum fun i (_ : i ∈ (univ : Finset (Fin ni))) =>
    sum_le_sum fun l (_ : l ∈ (univ : Finset (Fin nl))) => hterm i l
  rw [hzero] at hsum
  simp only [sum_sub_distrib, ← sum_mul, hRs, one_mul] at hsum
  rcases Nat.eq_zero_or_pos ni with h0 | h0
  · subst h0; simp
  · have hnr : (ni : ℝ) ≠ 0 := by exact_mod_cast h0.ne'
    unfold Spec.logLikStayers
    rw [← sub_div, mul_div_cancel₀ _ hnr]
    have e : ∀ i, ∑ l, refPost d b cs p' i l *
        (Real.log (rowsOf pk2 (d.G 0 i) l) - Real.log (rowsOf pk (d.G 0 i) l)) =
        ∑ l, refPost d b cs p' i l * Real.log (rowsOf pk2 (d.G 0 i) l) -
        ∑ l, refPost d b cs p' i l * Real.log (rowsOf pk (d.G 0 i) l) := fun i => by
      rw [← sum_sub_distrib]
      exact sum_congr rfl fun l _ => by ring
    simp only [e, sum_sub_distrib]
    simp only [mul_sub, sum_sub_distrib] at hsum
    linarith

theorem stayersLoop_rate [NeZero nl] (d : Data ni nk) (b : Base nl nk) (cs : List (Ctrl ni nl))
    (c thr : ℝ) (hc : 0 < c) (hW : ∀ i, d.W 0 i = c) (hall : ∀ k, ∃ i, d.G 0 i = k)
    (p' : Fin nk → Fin nl → ℝ) (hp' : ∀ k l, 0 ≤ p' k l) (hs' : ∀ k, ∑ l, p' k l = 1) (fuel : ℕ) :
    ∀ (first : Bool) (prev : Option ℝ) (pk : Fin nk → Option (Fin nl → ℝ)) (acc : List (Option ℝ))
      (pk' : Fin nk → Option (Fin nl → ℝ)) (liks : List (Option ℝ)), GoodPk0 pk →
      stayersLoop d b cs 1 thr fuel first prev pk acc = .ok (pk', liks) →
      GoodPk0 pk' ∧ Spec.logLikStayers d b cs (rowsOf pk) ≤ Spec.logLikStayers d b cs (rowsOf pk') ∧
      ∃ u : ℕ, liks.length ≤ acc.length + u + 1 ∧
        u * (ni * (Spec.logLikStayers d b cs p' - Spec.logLikStayers d b cs (rowsOf pk'))) ≤
          ∑ i, ∑ l, refPost d b cs p' i l *
            (Real.log (rowsOf pk' (d.G 0 i) l) - Real.log (rowsOf pk (d.G 0 i) l)) := by
  induction fuel with
  | zero =>
    intro first prev pk acc pk' liks hg h
    simp only [stayersLoop, Except.ok.injEq, Prod.mk.injEq] at h
    obtain ⟨rfl, rfl⟩ := h
    exact ⟨hg, le_rfl, 0, by omega, by simp⟩
  | succ fuel ih =>
    intro first prev pk acc pk' liks hg h
    unfold stayersLoop at h
    dsimp only at h
    split at h
    · simp only [Except.ok.injEq, Prod.mk.injEq] at h
      obtain ⟨rfl, rfl⟩ := h
      exact ⟨hg, le_rfl, 0, by simp, by simp⟩
    · cases hu : updatePk0 d (posterior (lpStayers d b cs pk)) 1 with
      | error m => rw [hu] at h; cases h
      | ok pk2 =>
        rw [hu] at h
        simp only [bind, Except.bind] at h
        obtain ⟨hg2, hm⟩ := stayers_step d b cs c hc hW hall pk pk2 hg hu
        rw [← logLikStayers_eq d b cs hg, ← logLikStayers_eq d b cs hg2] at hm
        obtain ⟨hg', hm', u, hl, hb⟩ := ih false _ pk2 _ pk' liks hg2 h
        have hprog := stayers_progress d b cs c hc hW hall pk pk2 hg hg2 hu p' hp' hs'
        refine ⟨hg', hm.trans hm', u + 1, ?_, ?_⟩
        · simp only [List.length_append, List.length_singleton] at hl
          omega
        · have h1 : (ni : ℝ) * (Spec.logLikStayers d b cs p' - Spec.logLikStayers d b cs (rowsOf pk')) ≤
              ni * (Spec.logLikStayers d b cs p' - Spec.logLikStayers d b cs (rowsOf pk)) :=
            mul_le_mul_of_nonneg_left (by linarith [hm.trans hm']) (Nat.cast_nonneg _)
          have e : ∑ i, ∑ l, refPost d b cs p' i l *
              (Real.log (rowsOf pk' (d.G 0 i) l) - Real.log (rowsOf pk (d.G 0 i) l)) =
              ∑ i, ∑ l, refPost d b cs p' i l *
                (Real.log (rowsOf pk' (d.G 0 i) l) - Real.log (rowsOf pk2 (d.G 0 i) l)) +
              ∑ i, ∑ l, refPost d b cs p' i l *
                (Real.log (rowsOf pk2 (d.G 0 i) l) - Real.log (rowsOf pk (d.G 0 i) l)) := by
            rw [← sum_add_distrib]
            refine sum_congr rfl fun i _ => ?_
            rw [← sum_add_distrib]
            exact sum_congr rfl fun l _ => by ring
          rw [e]
          push_cast
          linarith

/-- C135: with no Dirichlet prior, equal weights, every firm type observed and starting proportions of at
least `exp(-K)`, whatever the wage parameters and controls, the proportions returned by `fit_stayers` after
recording `n + 1` likelihoods have an average log likelihood within `K / n` of that of any proportions. -/
theorem C135_stayers_rate [NeZero nl] (d : Data ni nk) (b : Base nl nk) (cs : List (Ctrl ni nl))
    (c thr K : ℝ) (hc : 0 < c) (hW : ∀ i, d.W 0 i = c) (hnk : 0 < nk) (hall : ∀ k, ∃ i, d.G 0 i = k)
    (nIters : ℕ) (pk0 : Fin nk → Fin nl → ℝ) (hpos : ∀ k l, Real.exp (-K) ≤ pk0 k l) (hsum : ∀ k, ∑ l, pk0 k l ≤ 1)
    (pk0' : Fin nk → Option (Fin nl → ℝ)) (liks : List (Option ℝ))
    (h : fitStayers d b cs 1 thr nIters pk0 = .ok (pk0', liks)) (n : ℕ) (hn : 0 < n)
    (hlen : liks.length = n + 1)
    (p' : Fin nk → Fin nl → ℝ) (hp' : ∀ k l, 0 ≤ p' k l) (hs' : ∀ k, ∑ l, p' k l = 1) :
    ∃ rows : Fin nk → Fin nl → ℝ, (∀ k, pk0' k = some (rows k)) ∧
      Spec.logLikStayers d b cs p' ≤ Spec.logLikStayers d b cs rows + K / n := by
  have hp0 : ∀ k l, 0 < pk0 k l := fun k l => (Real.exp_pos _).trans_le (hpos k l)
  have hg : GoodPk0 (fun k => some (pk0 k)) := fun k => ⟨pk0 k, rfl, hp0 k, hsum k⟩
  obtain ⟨hg', hm, u, hl, hb⟩ := stayersLoop_rate d b cs c thr hc hW hall p' hp' hs' nIters true none _ []
    pk0' liks hg h
  obtain ⟨hr, hrp, hrs⟩ := rowsOf_spec hg'
  refine ⟨rowsOf pk0', hr, ?_⟩
  have hD := ref_pos d b cs p' hp' hs'
  have hRs : ∀ i, ∑ l, refPost d b cs p' i l = 1 := by
    intro i
    unfold refPost
    rw [← sum_div]
    exact div_self (hD i).ne'
  have hRn : ∀ i l, 0 ≤ refPost d b cs p' i l := fun i l =>
    div_nonneg (mul_nonneg (hp' _ l) (Real.exp_pos _).le) (hD i).le
  have hK : ∑ i, ∑ l, refPost d b cs p' i l * (Real.log (rowsOf pk0' (d.G 0 i) l) -
      Real.log (rowsOf (fun k => some (pk0 k)) (d.G 0 i) l)) ≤ ni * K := by
    calc _ ≤ ∑ i, ∑ l, refPost d b cs p' i l * K := by
          refine sum_le_sum fun i _ => sum_le_sum fun l _ => mul_le_mul_of_nonneg_left ?_ (hRn i l)
          have h1 : rowsOf pk0' (d.G 0 i) l ≤ 1 :=
            (single_le_sum (f := fun l => rowsOf pk0' (d.G 0 i) l) (fun l _ => (hrp _ l).le)
              (mem_univ l)).trans (hrs _)
          have h2 := Real.log_nonpos (hrp _ l).le h1
          have h3 : -K ≤ Real.log (pk0 (d.G 0 i) l) := by
            rw [← Real.log_exp (-K)]
            exact Real.log_le_log (Real.exp_pos _) (hpos _ l)
          have h4 : rowsOf (fun k => some (pk0 k)) (d.G 0 i) l = pk0 (d.G 0 i) l := rfl
          rw [h4]
          linarith
      _ = ni * K := by simp [← sum_mul, hRs]
  have hun : n ≤ u := by simp at hl; omega
  set g := Spec.logLikStayers d b cs p' - Spec.logLikStayers d b cs (rowsOf pk0') with hgdef
  have hn0 : (0 : ℝ) < ni := by
    obtain ⟨i, -⟩ := hall ⟨0, hnk⟩
    exact_mod_cast Fin.pos i
  have hnr : (0 : ℝ) < n := by exact_mod_cast hn
  have h5 : (u : ℝ) * g ≤ K := by
    have h6 : ni * (u * g) ≤ ni * K := by
      calc ni * (u * g) = u * (ni * g) := by ring
        _ ≤ _ := hb.trans hK
    exact le_of_mul_le_mul_left h6 hn0
  have hK0 : 0 ≤ K := by
    have h6 : pk0 ⟨0, hnk⟩ ⟨0, Nat.pos_of_neZero nl⟩ ≤ 1 :=
      (single_le_sum (f := fun l => pk0 ⟨0, hnk⟩ l) (fun l _ => (hp0 _ l).le) (mem_univ _)).trans (hsum _)
    have h7 := (hpos ⟨0, hnk⟩ ⟨0, Nat.pos_of_neZero nl⟩).trans h6
    rw [Real.exp_le_one_iff] at h7
    linarith
  have h8 : g ≤ K / n := by
    rw [le_div_iff₀ hnr]
    rcases le_or_gt g 0 with h9 | h9
    · nlinarith
    · have : (n : ℝ) ≤ u := by exact_mod_cast hun
      nlinarith
  linarith

/-- C135: so with a threshold of zero, `n_iters = n + 1` iterations from even proportions bring the average
log likelihood of the stayers within `log(nl) / n` of its supremum, on every data set. -/
theorem C135_stayers_even [NeZero nl] (d : Data ni nk) (b : Base nl nk) (cs : List (Ctrl ni nl))
    (c : ℝ) (hc : 0 < c) (hW : ∀ i, d.W 0 i = c) (hnk : 0 < nk) (hall : ∀ k, ∃ i, d.G 0 i = k)
    (n : ℕ) (hn : 0 < n) :
    ∃ pk0' liks rows, fitStayers d b cs 1 0 (n + 1) (fun _ _ => 1 / nl) = .ok (pk0', liks) ∧
      (∀ k, pk0' k = some (rows k)) ∧
      ∀ p' : Fin nk → Fin nl → ℝ, (∀ k l, 0 ≤ p' k l) → (∀ k, ∑ l, p' k l = 1) →
        Spec.logLikStayers d b cs p' ≤ Spec.logLikStayers d b cs rows + Real.log nl / n := by
  have hnl : (0 : ℝ) < nl := by exact_mod_cast Nat.pos_of_neZero nl
  obtain ⟨⟨pk, liks⟩, h⟩ := C33_stayers_returns d b cs 1 0 hnk hall (n + 1) (fun _ _ => 1 / (nl : ℝ))
  have hlen : liks.length = n + 1 := by
    obtain ⟨h1, h2, -⟩ := C68_stayers_stop d b cs 1 0 (n + 1) _ pk liks h
    by_contra hne
    obtain ⟨pre, x, y, -, hlt⟩ := h2 (lt_of_le_of_ne h1 hne)
    have := abs_nonneg (y - x)
    linarith
  have key := C135_stayers_rate d b cs c 0 (Real.log nl) hc hW hnk hall (n + 1) (fun _ _ => 1 / (nl : ℝ))
    (fun k l => by rw [Real.exp_neg, Real.exp_log hnl, one_div])
    (fun k => by simp [mul_inv_cancel₀ hnl.ne']) pk liks h n hn hlen
  have hu : ∀ k, ∑ _l : Fin nl, (1 / (nl : ℝ)) = 1 := fun k : Fin nk => by
    simp [mul_inv_cancel₀ hnl.ne']
  obtain ⟨rows, hrows, -⟩ := key (fun _ _ => 1 / nl) (fun _ _ => by positivity) hu
  refine ⟨pk, liks, rows, h, hrows, fun p' hp' hs' => ?_⟩
  obtain ⟨rows', hrows', hle⟩ := key p' hp' hs'
  have : rows' = rows := by
    funext k
    exact Option.some.inj ((hrows' k).symm.trans (hrows k))
  rwa [this] at hle

/-- Non-vacuity: the conditions hold for `exData` with controls. -/
theorem C135_case (n : ℕ) (hn : 0 < n) : ∃ pk0' liks rows,
    fitStayers exData exBase exCtrls 1 0 (n + 1) (fun _ _ => 1 / (2 : ℕ)) = .ok (pk0', liks) ∧
      (∀ k, pk0' k = some (rows k)) ∧
      ∀ p' : Fin 2 → Fin 2 → ℝ, (∀ k l, 0 ≤ p' k l) → (∀ k, ∑ l, p' k l = 1) →
        Spec.logLikStayers exData exBase exCtrls p' ≤
          Spec.logLikStayers exData exBase exCtrls rows + Real.log (2 : ℕ) / n := by
  refine C135_stayers_even exData exBase exCtrls 1 one_pos (fun _ => rfl) (by norm_num) (fun k => ?_) n hn
  fin_cases k
  · exact ⟨0, by simp [exData]⟩
  · exact ⟨1, by simp [exData]⟩

end Pytwoway.BLM
