import Verif.BLMDyn.EM

/-! # The EM algorithm of the dynamic model: proofs of C75, C77, C78 -/

namespace Pytwoway.Dynamic

open Finset ProbabilityTheory Pytwoway.Sim.Dyn Pytwoway.BLM

variable {ni nl nk : ℕ}

/-! ## Densities -/

theorem lpMoversPlain_eq (b : DBase nl nk) (r : Rhos) (l : Fin nl) (G : Fin 2 → Fin nk) (y : Wages) :
    lpMoversPlain b r l G y = lpM (b.a l G) (b.s2 l G) r y := by
  have h := lpMovers_eq b r l G [] (by intro c hc; simp at hc) y
  simp only [lpMovers, List.isEmpty_nil, if_true, Except.ok.injEq] at h
  rw [h]
  congr 1 <;> funext p <;> simp [totA, totS]

theorem lpStayersPlain_eq (b : DBase nl nk) (r : Rhos) (l : Fin nl) (g : Fin nk) (hS : 0 < b.Sw .p2s l g)
    (y : Wages) : lpStayersPlain b r l g y = lpS (b.a l fun _ => g) (b.s2 l fun _ => g) r y := by
  have h := lpStayers_eq b r l g [] (by intro c hc; simp at hc) hS y
  simp only [lpStayers, List.isEmpty_nil, if_true, Except.ok.injEq] at h
  rw [h]
  congr 1 <;> funext p <;> simp [totA, totS]

theorem s2_cond (b : DBase nl nk) (hb : PosS b) (r : Rhos) (l : Fin nl) (G : Fin 2 → Fin nk) :
    0 < b.s2 l G .p12 + r.R12 ^ 2 * b.s2 l G .p2ma ∧ 0 < b.s2 l G .p2ma + b.s2 l G .p2mb ∧
    0 < b.s2 l G .p3ma + b.s2 l G .p3mb + r.R32 ^ 2 * (b.s2 l G .p2ma + b.s2 l G .p2mb) ∧
    0 < b.s2 l G .p43 + r.R43 ^ 2 * b.s2 l G .p3ma ∧ 0 < b.s2 l G .p2s ∧
    0 < b.s2 l G .p3s + r.R32 ^ 2 * b.s2 l G .p2s := by
  have := cond_pos _ r (tot_pos b hb l G [])
  have e : totS b l G [] = b.s2 l G := by funext p; simp [totS]
  rw [e] at this
  exact this

theorem exp_lpM (a s2 : Per → ℝ) (r : Rhos) (y : Wages)
    (h1 : 0 < s2 .p12 + r.R12 ^ 2 * s2 .p2ma) (h2 : 0 < s2 .p2ma + s2 .p2mb)
    (h3 : 0 < s2 .p3ma + s2 .p3mb + r.R32 ^ 2 * (s2 .p2ma + s2 .p2mb))
    (h4 : 0 < s2 .p43 + r.R43 ^ 2 * s2 .p3ma) :
    Real.exp (lpM a s2 r y) = Spec.moverDensity a s2 r y := by
  rw [lpM, Real.exp_add, Real.exp_add, Real.exp_add, lnvar_exp _ _ _ h1, lnvar_exp _ _ _ h2,
    lnvar_exp _ _ _ h3, lnvar_exp _ _ _ h4, pdf_shift, pdf_shift, pdf_shift]
  rfl

theorem exp_lpS (a s2 : Per → ℝ) (r : Rhos) (y : Wages)
    (h1 : 0 < s2 .p12 + r.R12 ^ 2 * s2 .p2ma) (h2 : 0 < s2 .p2s)
    (h3 : 0 < s2 .p3s + r.R32 ^ 2 * s2 .p2s)
    (h4 : 0 < s2 .p43 + r.R43 ^ 2 * s2 .p3ma) :
    Real.exp (lpS a s2 r y) = Spec.stayerDensity a s2 r y := by
  rw [lpS, Real.exp_add, Real.exp_add, Real.exp_add, lnvar_exp _ _ _ h1, lnvar_exp _ _ _ h2,
    lnvar_exp _ _ _ h3, lnvar_exp _ _ _ h4, pdf_shift, pdf_shift, pdf_shift, Spec.stayerDensity]
  ring

/-! ## Proportions -/

theorem sumPk_total [NeZero nl] (κ : Fin ni → ℕ) (q : Fin ni → Fin nl → ℝ) (hq : ∀ i, ∑ l, q i l = 1) (dp : ℝ)
    (p : ℕ) : ∑ l, sumPk κ q dp p l = (#{i | κ i = p} : ℝ) * (1 + nl * (dp - 1)) := by
  unfold sumPk
  rw [sum_comm]
  have : ∀ i, ∑ l, (if κ i = p then q i l + dp - 1 else 0) = if κ i = p then 1 + nl * (dp - 1) else 0 := by
    intro i
    split
    · simp only [add_sub_assoc, sum_add_distrib, hq, sum_const, card_univ, Fintype.card_fin, nsmul_eq_mul]
    · simp
  simp only [this, ← sum_filter, sum_const, nsmul_eq_mul]

theorem updatePk_raises [NeZero nl] (n : ℕ) (κ : Fin ni → ℕ) (q : Fin ni → Fin nl → ℝ) (hq : ∀ i, ∑ l, q i l = 1)
    (dp : ℝ) (hdp : 1 ≤ dp) :
    updatePk n κ q dp = .error "ValueError" ↔ ∃ p < n, ∀ i, κ i ≠ p := by
  have hne : (1 + (nl : ℝ) * (dp - 1)) ≠ 0 := by
    have : (0 : ℝ) ≤ nl * (dp - 1) := mul_nonneg (Nat.cast_nonneg _) (by linarith)
    linarith
  have key : ∀ p, ∑ l, sumPk κ q dp p l = 0 ↔ ∀ i, κ i ≠ p := by
    intro p
    rw [sumPk_total κ q hq, mul_eq_zero, or_iff_left hne, Nat.cast_eq_zero, card_eq_zero, filter_eq_empty_iff]
    simp
  unfold updatePk
  split
  · rename_i h
    simp only [key] at h
    simp [h]
  · rename_i h
    simp only [key] at h
    simp [h]

theorem updatePk_ok [NeZero nl] (n : ℕ) (κ : Fin ni → ℕ) (q : Fin ni → Fin nl → ℝ) (dp : ℝ)
    (pk : ℕ → Fin nl → ℝ) (h : updatePk n κ q dp = .ok pk) :
    ∀ p l, pk p l = 1 / (∑ l', sumPk κ q dp p l') * sumPk κ q dp p l := by
  unfold updatePk at h
  split at h
  · cases h
  · simp only [Except.ok.injEq] at h
    intro p l
    rw [← h]

/-! ## C75 -/

/-- The class of a mover in `pk1` is its pair of firm types. -/
theorem C75_flow (d : DData ni nk) (i j : Fin ni) :
    flow d i < nk ^ 2 ∧ (flow d i = flow d j ↔ d.G 0 i = d.G 0 j ∧ d.G 1 i = d.G 1 j) := by
  have h0 := (d.G 0 i).isLt
  have h1 := (d.G 1 i).isLt
  have k0 := (d.G 0 j).isLt
  constructor
  · unfold flow
    have : nk * (d.G 1 i).val ≤ nk * (nk - 1) := Nat.mul_le_mul_left _ (by omega)
    obtain ⟨m, rfl⟩ : ∃ m, nk = m + 1 := ⟨nk - 1, by omega⟩
    simp only [Nat.add_sub_cancel] at this
    nlinarith
  · unfold flow
    constructor
    · intro h
      have e0 := congrArg (· % nk) h
      have e1 := congrArg (· / nk) h
      simp only [Nat.add_mul_mod_self_left, Nat.mod_eq_of_lt h0, Nat.mod_eq_of_lt k0] at e0
      simp only [Nat.add_mul_div_left _ _ (by omega : 0 < nk), Nat.div_eq_of_lt h0, Nat.div_eq_of_lt k0,
        Nat.zero_add] at e1
      exact ⟨Fin.ext e0, Fin.ext e1⟩
    · rintro ⟨h, h'⟩
      rw [h, h']

/-- C75: a mover's posterior is Bayes' rule for the flow's type proportions and the four normal densities;
it is a distribution over worker types. -/
theorem C75_movers_posterior [NeZero nl] (d : DData ni nk) (b : DBase nl nk) (hb : PosS b) (r : Rhos)
    (pk1 : ℕ → Fin nl → ℝ) (i : Fin ni) (hpk : ∀ l, 0 < pk1 (flow d i) l) :
    (∀ l, posterior (lpMv d b r pk1) i l =
      pk1 (flow d i) l * Spec.moverDensity (b.a l fun t => d.G t i) (b.s2 l fun t => d.G t i) r (d.y i) /
        ∑ l', pk1 (flow d i) l' *
          Spec.moverDensity (b.a l' fun t => d.G t i) (b.s2 l' fun t => d.G t i) r (d.y i)) ∧
    (∀ l, 0 < posterior (lpMv d b r pk1) i l) ∧ ∑ l, posterior (lpMv d b r pk1) i l = 1 := by
  refine ⟨fun l => ?_, posterior_pos _ i, posterior_sum _ i⟩
  have e : ∀ l, Real.exp (lpMv d b r pk1 i l) = pk1 (flow d i) l *
      Spec.moverDensity (b.a l fun t => d.G t i) (b.s2 l fun t => d.G t i) r (d.y i) := by
    intro l
    obtain ⟨h1, h2, h3, h4, -, -⟩ := s2_cond b hb r l fun t => d.G t i
    rw [lpMv, Real.exp_add, Real.exp_log (hpk l), lpMoversPlain_eq, exp_lpM _ _ _ _ h1 h2 h3 h4]
  rw [posterior_eq]
  simp only [e]

/-- C75: the same for stayers. -/
theorem C75_stayers_posterior [NeZero nl] (d : DData ni nk) (b : DBase nl nk) (hb : PosS b) (r : Rhos)
    (pk0 : ℕ → Fin nl → ℝ) (i : Fin ni) (hpk : ∀ l, 0 < pk0 (d.G 0 i).val l) :
    (∀ l, posterior (lpSt d b r pk0) i l =
      pk0 (d.G 0 i).val l * Spec.stayerDensity (b.a l fun _ => d.G 0 i) (b.s2 l fun _ => d.G 0 i) r (d.y i) /
        ∑ l', pk0 (d.G 0 i).val l' *
          Spec.stayerDensity (b.a l' fun _ => d.G 0 i) (b.s2 l' fun _ => d.G 0 i) r (d.y i)) ∧
    (∀ l, 0 < posterior (lpSt d b r pk0) i l) ∧ ∑ l, posterior (lpSt d b r pk0) i l = 1 := by
  refine ⟨fun l => ?_, posterior_pos _ i, posterior_sum _ i⟩
  have e : ∀ l, Real.exp (lpSt d b r pk0 i l) = pk0 (d.G 0 i).val l *
      Spec.stayerDensity (b.a l fun _ => d.G 0 i) (b.s2 l fun _ => d.G 0 i) r (d.y i) := by
    intro l
    obtain ⟨h1, -, -, h4, h5, h6⟩ := s2_cond b hb r l fun _ => d.G 0 i
    rw [lpSt, Real.exp_add, Real.exp_log (hpk l), lpStayersPlain_eq b r l _ (hb.1 _ _ _),
      exp_lpS _ _ _ _ h1 h5 h6 h4]
  rw [posterior_eq]
  simp only [e]

/-- C75: updated proportions of a class are positive, sum to one, and are the class's average posterior after
adding `d_prior - 1` to each (so the plain average if `d_prior = 1`).  `κ i < n` is row `i`'s class. -/
theorem C75_proportions [NeZero nl] (n : ℕ) (κ : Fin ni → ℕ) (q : Fin ni → Fin nl → ℝ) (hq0 : ∀ i l, 0 < q i l)
    (hq : ∀ i, ∑ l, q i l = 1) (dp : ℝ) (hdp : 1 ≤ dp) (pk : ℕ → Fin nl → ℝ)
    (h : updatePk n κ q dp = .ok pk) (p : ℕ) (hp : p < n) :
    (∀ l, 0 < pk p l) ∧ ∑ l, pk p l = 1 ∧
    ∀ l, pk p l = (∑ i with κ i = p, (q i l + (dp - 1))) / (#{i | κ i = p} * (1 + nl * (dp - 1))) := by
  have hex : ∃ i, κ i = p := by
    by_contra hn
    push Not at hn
    have := (updatePk_raises n κ q hq dp hdp).mpr ⟨p, hp, hn⟩
    rw [this] at h
    cases h
  obtain ⟨i0, hi0⟩ := hex
  have hval := updatePk_ok n κ q dp pk h p
  have hs : ∀ l, sumPk κ q dp p l = ∑ i with κ i = p, (q i l + (dp - 1)) := by
    intro l
    rw [sumPk, sum_filter]
    refine sum_congr rfl fun i _ => ?_
    rw [add_sub_assoc]
  have hpos : ∀ l, 0 < sumPk κ q dp p l := by
    intro l
    rw [hs]
    exact sum_pos (fun i _ => by have := hq0 i l; linarith) ⟨i0, by simp [hi0]⟩
  have htot : 0 < ∑ l, sumPk κ q dp p l := sum_pos (fun l _ => hpos l) univ_nonempty
  refine ⟨fun l => ?_, ?_, fun l => ?_⟩
  · rw [hval]; exact mul_pos (by positivity) (hpos l)
  · simp only [hval, ← mul_sum]
    field_simp
  · rw [hval, ← sumPk_total κ q hq dp p, hs, one_div, inv_mul_eq_div]

/-- C75: the update raises exactly when some class of movers (flow) or of stayers (firm type) is empty. -/
theorem C75_raises [NeZero nl] (n : ℕ) (κ : Fin ni → ℕ) (q : Fin ni → Fin nl → ℝ) (hq : ∀ i, ∑ l, q i l = 1)
    (dp : ℝ) (hdp : 1 ≤ dp) :
    (∃ m, updatePk n κ q dp = .error m) ↔ ∃ p < n, ∀ i, κ i ≠ p := by
  rw [← updatePk_raises n κ q hq dp hdp]
  constructor
  · rintro ⟨m, h⟩
    unfold updatePk at h ⊢
    split at h
    · rename_i hc; rw [if_pos hc]
    · cases h
  · intro h; exact ⟨_, h⟩

/-! ## Quadratic programs -/

/-- Fitted values. -/
def fit {ρ J : Type} [Fintype J] (X : ρ → J → ℝ) (x : Fin nl × J → ℝ) (l : Fin nl) (s : ρ) : ℝ :=
  ∑ j, X s j * x (l, j)

section qp
variable {ρ J : Type} [Fintype ρ] [Fintype J] [DecidableEq J]

/-- A row of the normal equations. -/
theorem XwX_mul (w : Fin nl → ρ → ℝ) (X : ρ → J → ℝ) (δ : ℝ) (x : Fin nl × J → ℝ) (a : Fin nl × J) :
    ∑ b, XwX w X δ a b * x b = ∑ s, w a.1 s * X s a.2 * fit X x a.1 s + δ * x a := by
  unfold XwX
  simp only [add_mul, sum_add_distrib, ite_mul, zero_mul, sum_ite_eq, mem_univ, if_true]
  congr 1
  rw [Fintype.sum_prod_type, sum_eq_single a.1]
  · simp only [if_true, fit, sum_mul, mul_sum]
    rw [sum_comm]
    refine sum_congr rfl fun s _ => sum_congr rfl fun j _ => ?_
    ring
  · intro l _ hl
    simp [Ne.symm hl]
  · simp

theorem XwX_quad (w : Fin nl → ρ → ℝ) (X : ρ → J → ℝ) (δ : ℝ) (x : Fin nl × J → ℝ) :
    ∑ a, ∑ b, x a * XwX w X δ a b * x b = ∑ l, ∑ s, w l s * fit X x l s ^ 2 + δ * ∑ a, x a ^ 2 := by
  have : ∀ a, ∑ b, x a * XwX w X δ a b * x b =
      ∑ s, w a.1 s * X s a.2 * fit X x a.1 s * x a + δ * x a ^ 2 := by
    intro a
    have e := XwX_mul w X δ x a
    calc _ = x a * ∑ b, XwX w X δ a b * x b := by
          rw [mul_sum]; exact sum_congr rfl fun b _ => by ring
      _ = _ := by 
          rw [e, mul_add, mul_sum]
          congr 1
          · exact sum_congr rfl fun s _ => by ring
          · ring
  simp only [this, sum_add_distrib, ← mul_sum]
  congr 1
  rw [Fintype.sum_prod_type]
  refine sum_congr rfl fun l _ => ?_
  rw [sum_comm]
  refine sum_congr rfl fun s _ => ?_
  rw [sq, ← mul_assoc]
  conv_rhs => rw [fit]
  rw [mul_sum]
  refine sum_congr rfl fun j _ => ?_
  simp only [fit]
  ring

omit [DecidableEq J] in
theorem XwV_lin (w : Fin nl → ρ → ℝ) (X : ρ → J → ℝ) (Y : Fin nl → ρ → ℝ) (x : Fin nl × J → ℝ) :
    ∑ a, XwV w X Y a * x a = ∑ l, ∑ s, w l s * Y l s * fit X x l s := by
  rw [Fintype.sum_prod_type]
  refine sum_congr rfl fun l _ => ?_
  simp only [XwV, sum_mul, fit, mul_sum]
  rw [sum_comm]
  refine sum_congr rfl fun s _ => sum_congr rfl fun j _ => ?_
  ring

theorem qpVal_rows (w : Fin nl → ρ → ℝ) (X : ρ → J → ℝ) (δ : ℝ) (Y : Fin nl → ρ → ℝ) (x : Fin nl × J → ℝ) :
    qpVal (XwX w X δ) (fun a => - XwV w X Y a) x =
      ∑ l, ∑ s, w l s * (fit X x l s ^ 2 / 2 - Y l s * fit X x l s) + δ / 2 * ∑ a, x a ^ 2 := by
  unfold qpVal
  rw [XwX_quad]
  simp only [neg_mul, sum_neg_distrib, XwV_lin, mul_sub, sum_sub_distrib, add_div, sum_div]
  have : ∀ l s, w l s * fit X x l s ^ 2 / 2 = w l s * (fit X x l s ^ 2 / 2) := fun l s => by ring
  simp only [this]
  have e : ∀ l s, w l s * Y l s * fit X x l s = w l s * (Y l s * fit X x l s) := fun l s => by ring
  simp only [e]
  ring

end qp

/-- A feasible solution of the normal equations is what a right solver returns. -/
theorem RightQP.eq {ι : Type} [Fintype ι] {feas : (ι → ℝ) → Prop} {solve : QP ι} (hr : RightQP feas solve)
    (P : ι → ι → ℝ) (q x : ι → ℝ) (hsym : ∀ a b, P a b = P b a)
    (hpd : ∀ x : ι → ℝ, x ≠ 0 → 0 < ∑ a, ∑ b, x a * P a b * x b) (hx : feas x)
    (hg : ∀ a, ∑ b, P a b * x b = - q a) : solve P q = .ok (some x) := by
  obtain ⟨y, hy⟩ := hr.complete P q hpd ⟨x, hx⟩
  obtain ⟨-, hmin⟩ := hr.sound P q y hy
  have hle := hmin x hx
  have key : qpVal P q y = qpVal P q x + (∑ a, ∑ b, (y a - x a) * P a b * (y b - x b)) / 2 := by
    have e1 : ∑ a, ∑ b, (y a - x a) * P a b * (y b - x b) = ∑ a, ∑ b, y a * P a b * y b
        - ∑ a, ∑ b, y a * P a b * x b - ∑ a, ∑ b, x a * P a b * y b + ∑ a, ∑ b, x a * P a b * x b := by
      simp only [← sum_sub_distrib, ← sum_add_distrib]
      exact sum_congr rfl fun a _ => sum_congr rfl fun b _ => by ring
    have e2 : ∑ a, ∑ b, y a * P a b * x b = - ∑ a, q a * y a := by
      rw [← sum_neg_distrib]
      refine sum_congr rfl fun a _ => ?_
      rw [show - (q a * y a) = y a * (- q a) by ring, ← hg a, mul_sum]
      exact sum_congr rfl fun b _ => by ring
    have e3 : ∑ a, ∑ b, x a * P a b * y b = - ∑ a, q a * y a := by
      rw [← e2, sum_comm]
      exact sum_congr rfl fun a _ => sum_congr rfl fun b _ => by rw [hsym]; ring
    have e4 : ∑ a, ∑ b, x a * P a b * x b = - ∑ a, q a * x a := by
      rw [← sum_neg_distrib]
      refine sum_congr rfl fun a _ => ?_
      rw [show - (q a * x a) = x a * (- q a) by ring, ← hg a, mul_sum]
      exact sum_congr rfl fun b _ => by ring
    unfold qpVal
    rw [e1, e2, e3, e4]
    ring
  by_cases h : y - x = 0
  · rw [hy, sub_eq_zero.mp h]
  · have := hpd (y - x) h
    simp only [Pi.sub_apply] at this
    linarith

theorem XwX_symm {ρ J : Type} [Fintype ρ] [DecidableEq J] (w : Fin nl → ρ → ℝ) (X : ρ → J → ℝ) (δ : ℝ)
    (a b : Fin nl × J) : XwX w X δ a b = XwX w X δ b a := by
  unfold XwX
  congr 1
  · by_cases h : a.1 = b.1
    · rw [if_pos h, if_pos h.symm, h]
      exact sum_congr rfl fun s _ => by ring
    · rw [if_neg h, if_neg (Ne.symm h)]
  · by_cases h : a = b
    · rw [if_pos h, if_pos h.symm]
    · rw [if_neg h, if_neg (Ne.symm h)]

/-- `XwX` is positive definite if the weights are positive and `X` has full column rank, or `δ > 0`. -/
theorem XwX_pd {ρ J : Type} [Fintype ρ] [Fintype J] [DecidableEq J] (w : Fin nl → ρ → ℝ) (X : ρ → J → ℝ) (δ : ℝ)
    (hw : ∀ l s, 0 < w l s) (hδ : 0 ≤ δ) (hX : ∀ x : Fin nl × J → ℝ, (∀ l s, fit X x l s = 0) → x = 0)
    (x : Fin nl × J → ℝ) (hx : x ≠ 0) : 0 < ∑ a, ∑ b, x a * XwX w X δ a b * x b := by
  rw [XwX_quad]
  have h2 : 0 ≤ δ * ∑ a, x a ^ 2 := mul_nonneg hδ (sum_nonneg fun _ _ => sq_nonneg _)
  have h1 : 0 < ∑ l, ∑ s, w l s * fit X x l s ^ 2 := by
    have hnn : ∀ l s, 0 ≤ w l s * fit X x l s ^ 2 := fun l s => mul_nonneg (hw l s).le (sq_nonneg _)
    have : ∃ l s, fit X x l s ≠ 0 := by
      by_contra hn
      push Not at hn
      exact hx (hX x hn)
    obtain ⟨l, s, hls⟩ := this
    refine sum_pos' (fun l _ => sum_nonneg fun s _ => hnn l s) ⟨l, mem_univ _, ?_⟩
    refine sum_pos' (fun s _ => hnn l s) ⟨s, mem_univ _, ?_⟩
    have := hw l s
    positivity
  linarith

/-! ## Steps that do not lower the likelihood -/

/-- Positive proportions summing to at most one. -/
def GoodPk (n : ℕ) (pk : ℕ → Fin nl → ℝ) : Prop := ∀ p < n, (∀ l, 0 < pk p l) ∧ ∑ l, pk p l ≤ 1

theorem pk_improves [NeZero nl] (n : ℕ) (κ : Fin ni → ℕ) (hκ : ∀ i, κ i < n) (q : Fin ni → Fin nl → ℝ)
    (hq0 : ∀ i l, 0 < q i l) (hq : ∀ i, ∑ l, q i l = 1) (pk pk' : ℕ → Fin nl → ℝ) (hpk : GoodPk n pk)
    (h : updatePk n κ q 1 = .ok pk') :
    GoodPk n pk' ∧ 0 ≤ ∑ i, ∑ l, q i l * (Real.log (pk' (κ i) l) - Real.log (pk (κ i) l)) := by
  have hC := fun p hp => C75_proportions n κ q hq0 hq 1 le_rfl pk' h p hp
  refine ⟨fun p hp => ⟨(hC p hp).1, (hC p hp).2.1.le⟩, ?_⟩
  rw [← sum_fiberwise_of_maps_to (s := univ) (t := range n) (g := κ) (by intro i _; simpa using hκ i)]
  refine sum_nonneg fun p hp => ?_
  rw [mem_range] at hp
  have e : ∑ i with κ i = p, ∑ l, q i l * (Real.log (pk' (κ i) l) - Real.log (pk (κ i) l)) =
      ∑ l, (∑ i with κ i = p, q i l) * (Real.log (pk' p l) - Real.log (pk p l)) := by
    rw [sum_comm]
    refine sum_congr rfl fun l _ => ?_
    rw [sum_mul]
    refine sum_congr rfl fun i hi => ?_
    rw [(mem_filter.mp hi).2]
  rw [e]
  by_cases hex : ∃ i, κ i = p
  · obtain ⟨i0, hi0⟩ := hex
    have hc : ∀ l, 0 < ∑ i with κ i = p, q i l := fun l => sum_pos (fun i _ => hq0 i l) ⟨i0, by simp [hi0]⟩
    have := gibbs (fun l => ∑ i with κ i = p, q i l) (pk p) hc (hpk p hp).1 (hpk p hp).2
    have ht : ∑ l, ∑ i with κ i = p, q i l = (#{i | κ i = p} : ℝ) := by
      rw [sum_comm]; simp [hq]
    refine this.trans (le_of_eq (sum_congr rfl fun l _ => ?_))
    have e2 := (hC p hp).2.2 l
    simp only [sub_self, add_zero, mul_zero, mul_one] at e2
    rw [ht, e2]
  · push Not at hex
    have : ({i | κ i = p} : Finset (Fin ni)) = ∅ := filter_eq_empty_iff.mpr fun i _ => hex i
    simp [this]

/-- Fitted values of the stayers' regression. -/
theorem fit_st (d : DData ni nk) (r : Rhos) (x : Fin nl × JS nk → ℝ) (l : Fin nl) (s : Fin 2 × Fin ni) :
    fit (Xst d r) x l s = if s.1 = 0 then x (l, 0, d.G 0 s.2)
      else x (l, 1, d.G 0 s.2) - r.R32 * x (l, 0, d.G 0 s.2) := by
  obtain ⟨t, i⟩ := s
  unfold fit
  rw [Fintype.sum_prod_type, Fin.sum_univ_two]
  fin_cases t
  · simp [Xst]
  · simp [Xst]; ring

/-- Fitted values from a pair of values per class. -/
def toX (r : Rhos) (f : Fin nl → Fin nk → Fin 2 → ℝ) (a : Fin nl × JS nk) : ℝ :=
  if a.2.1 = 0 then f a.1 a.2.2 0 else f a.1 a.2.2 1 + r.R32 * f a.1 a.2.2 0

theorem fit_toX (d : DData ni nk) (r : Rhos) (f : Fin nl → Fin nk → Fin 2 → ℝ) (l : Fin nl) (s : Fin 2 × Fin ni) :
    fit (Xst d r) (toX r f) l s = f l (d.G 0 s.2) s.1 := by
  rw [fit_st]
  obtain ⟨t, i⟩ := s
  fin_cases t <;> simp [toX]

/-- The residual variance of a class. -/
def varK (b : DBase nl nk) (r : Rhos) (l : Fin nl) (k : Fin nk) (t : Fin 2) : ℝ :=
  if t = 0 then b.Sw .p2s l k ^ 2 else b.Sw .p3s l k ^ 2 + (r.R32 * b.Sw .p2s l k) ^ 2

theorem varSt_eq (d : DData ni nk) (b : DBase nl nk) (r : Rhos) (l : Fin nl) (s : Fin 2 × Fin ni) :
    varSt d b r l s = varK b r l (d.G 0 s.2) s.1 := by
  obtain ⟨t, i⟩ := s
  fin_cases t <;> simp [varSt, varK]

theorem varK_pos (b : DBase nl nk) (hb : PosS b) (r : Rhos) (l : Fin nl) (k : Fin nk) (t : Fin 2) :
    0 < varK b r l k t := by
  have h2 := hb.1 .p2s l k
  have h3 := hb.1 .p3s l k
  unfold varK
  split <;> positivity

/-- Fitted values of the current means. -/
def fitB (b : DBase nl nk) (r : Rhos) (l : Fin nl) (k : Fin nk) (t : Fin 2) : ℝ :=
  if t = 0 then b.Aw .p2s l k else b.Aw .p3s l k - r.R32 * b.Aw .p2s l k

theorem wSt_pos (d : DData ni nk) (b : DBase nl nk) (hb : PosS b) (r : Rhos) (q : Fin ni → Fin nl → ℝ)
    (hq : ∀ i l, 0 < q i l) (l : Fin nl) (s : Fin 2 × Fin ni) : 0 < wSt d b r q l s := by
  unfold wSt
  rw [varSt_eq]
  exact div_pos (hq _ _) (Real.sqrt_pos.mpr (varK_pos b hb r _ _ _))

/-- The optimum is at least as good as any other value in every class, for every wage. -/
theorem meansSt_cell (d : DData ni nk) (b : DBase nl nk) (hb : PosS b) (r : Rhos) (q : Fin ni → Fin nl → ℝ)
    (x : Fin nl × JS nk → ℝ)
    (hmin : ∀ y, qpVal (XwX (wSt d b r q) (Xst d r) 0) (fun a => - XwV (wSt d b r q) (Xst d r) (fun _ => ySt d r) a) x ≤
      qpVal (XwX (wSt d b r q) (Xst d r) 0) (fun a => - XwV (wSt d b r q) (Xst d r) (fun _ => ySt d r) a) y)
    (l : Fin nl) (k : Fin nk) (t : Fin 2) (z : ℝ) :
    let f := if t = 0 then x (l, 0, k) else x (l, 1, k) - r.R32 * x (l, 0, k)
    ∑ i with d.G 0 i = k, q i l * (ySt d r (t, i) - f) ^ 2 ≤
      ∑ i with d.G 0 i = k, q i l * (ySt d r (t, i) - z) ^ 2 := by
  intro f
  set fx : Fin nl → Fin nk → Fin 2 → ℝ :=
    fun l k t => if t = 0 then x (l, 0, k) else x (l, 1, k) - r.R32 * x (l, 0, k) with hfx
  set g : Fin nl → Fin nk → Fin 2 → ℝ :=
    fun l' k' t' => if l' = l ∧ k' = k ∧ t' = t then z else fx l' k' t' with hg
  have h := hmin (toX r g)
  rw [qpVal_rows, qpVal_rows] at h
  simp only [zero_div, zero_mul, add_zero, fit_toX] at h
  have hfit : ∀ l s, fit (Xst d r) x l s = fx l (d.G 0 s.2) s.1 := fun l s => fit_st d r x l s
  simp only [hfit] at h
  have hdiff : ∑ l', ∑ s, wSt d b r q l' s * (g l' (d.G 0 s.2) s.1 ^ 2 / 2 - ySt d r s * g l' (d.G 0 s.2) s.1) -
      ∑ l', ∑ s, wSt d b r q l' s * (fx l' (d.G 0 s.2) s.1 ^ 2 / 2 - ySt d r s * fx l' (d.G 0 s.2) s.1) =
      ∑ i with d.G 0 i = k, q i l / √(varK b r l k t) *
        (((ySt d r (t, i) - z) ^ 2 - (ySt d r (t, i) - f) ^ 2) / 2) := by
    simp only [← sum_sub_distrib]
    rw [sum_eq_single l, Fintype.sum_prod_type, sum_eq_single t, sum_filter]
    · refine sum_congr rfl fun i _ => ?_
      split
      · rename_i hi
        have e1 : g l (d.G 0 i) t = z := by simp [hg, hi]
        have e2 : fx l (d.G 0 i) t = f := by rw [hi]
        rw [e1, e2, wSt, varSt_eq, hi]
        ring
      · rename_i hi
        have e1 : g l (d.G 0 i) t = fx l (d.G 0 i) t := by simp [hg, hi]
        rw [e1, sub_self]
    · intro t' _ ht'
      refine sum_eq_zero fun i _ => ?_
      have e1 : g l (d.G 0 i) t' = fx l (d.G 0 i) t' := by simp [hg, ht']
      rw [e1, sub_self]
    · simp
    · intro l' _ hl'
      refine sum_eq_zero fun s _ => ?_
      have e1 : g l' (d.G 0 s.2) s.1 = fx l' (d.G 0 s.2) s.1 := by simp [hg, hl']
      rw [e1, sub_self]
    · simp
  have hv := Real.sqrt_pos.mpr (varK_pos b hb r l k t)
  have e3 : ∑ i with d.G 0 i = k, q i l / √(varK b r l k t) *
        (((ySt d r (t, i) - z) ^ 2 - (ySt d r (t, i) - f) ^ 2) / 2) =
      (∑ i with d.G 0 i = k, q i l * (ySt d r (t, i) - z) ^ 2 -
        ∑ i with d.G 0 i = k, q i l * (ySt d r (t, i) - f) ^ 2) / (2 * √(varK b r l k t)) := by
    rw [← sum_sub_distrib, sum_div]
    refine sum_congr rfl fun i _ => ?_
    field_simp
  rw [e3] at hdiff
  have h0 : 0 ≤ (∑ i with d.G 0 i = k, q i l * (ySt d r (t, i) - z) ^ 2 -
        ∑ i with d.G 0 i = k, q i l * (ySt d r (t, i) - f) ^ 2) / (2 * √(varK b r l k t)) := by
    rw [← hdiff]; linarith
  have h2 : 0 < 2 * √(varK b r l k t) := by positivity
  by_contra hlt
  push Not at hlt
  have := div_neg_of_neg_of_pos (sub_neg.mpr hlt) h2
  linarith

/-- Wage densities when only the stayers' means change. -/
theorem lpSt_diff (d : DData ni nk) (b b' : DBase nl nk) (r : Rhos) (l : Fin nl) (i : Fin ni)
    (hS : b'.Sw = b.Sw) (hA : ∀ p, p ≠ .p2s → p ≠ .p3s → b'.Aw p = b.Aw p) :
    lpStayersPlain b' r l (d.G 0 i) (d.y i) - lpStayersPlain b r l (d.G 0 i) (d.y i) =
      ∑ t, ((ySt d r (t, i) - fitB b r l (d.G 0 i) t) ^ 2 - (ySt d r (t, i) - fitB b' r l (d.G 0 i) t) ^ 2) /
        (2 * varK b r l (d.G 0 i) t) := by
  rw [Fin.sum_univ_two]
  simp only [lpStayersPlain, lnsd, lnvar, Util.lognormpdf, hS, hA .p12 (by decide) (by decide),
    hA .p2ma (by decide) (by decide), hA .p43 (by decide) (by decide), hA .p3ma (by decide) (by decide),
    ySt, fitB, varK, if_true, one_ne_zero, if_false]
  ring

theorem solveASt_improves [NeZero nl] (d : DData ni nk) (b : DBase nl nk) (hb : PosS b) (r : Rhos)
    (q : Fin ni → Fin nl → ℝ) (solve : QP (Fin nl × JS nk))
    (hs : ∀ P q x, solve P q = .ok (some x) → ∀ y, qpVal P q x ≤ qpVal P q y) :
    let b' := solveASt solve (XwX (wSt d b r q) (Xst d r) 0) (XwV (wSt d b r q) (Xst d r) fun _ => ySt d r) b
    b'.Sw = b.Sw ∧ b'.Sb = b.Sb ∧ (∀ p, p ≠ .p2s → p ≠ .p3s → b'.Aw p = b.Aw p) ∧
    0 ≤ ∑ i, ∑ l, q i l * (lpStayersPlain b' r l (d.G 0 i) (d.y i) - lpStayersPlain b r l (d.G 0 i) (d.y i)) := by
  intro b'
  cases hsol : solve (XwX (wSt d b r q) (Xst d r) 0)
      (fun a => - XwV (wSt d b r q) (Xst d r) (fun _ => ySt d r) a) with
  | error m =>
    have : b' = b := by simp only [b', solveASt, hsol]
    rw [this]; simp
  | ok o =>
    cases o with
    | none =>
      have : b' = b := by simp only [b', solveASt, hsol]
      rw [this]; simp
    | some x =>
      have hb' : b' = { b with
          Aw := Function.update (Function.update b.Aw .p2s fun l k => x (l, 0, k)) .p3s fun l k => x (l, 1, k) } := by simp only [b', solveASt, hsol]
      have hS : b'.Sw = b.Sw := by rw [hb']
      have hA : ∀ p, p ≠ .p2s → p ≠ .p3s → b'.Aw p = b.Aw p := by
        intro p h2 h3
        rw [hb']
        simp [Function.update_of_ne h2, Function.update_of_ne h3]
      refine ⟨hS, by rw [hb'], hA, ?_⟩
      have hf : ∀ l k t, fitB b' r l k t = if t = 0 then x (l, 0, k) else x (l, 1, k) - r.R32 * x (l, 0, k) := by
        intro l k t
        rw [hb']
        simp [fitB, Function.update]
      have hcell := fun l k t => meansSt_cell d b hb r q x (hs _ _ _ hsol) l k t (fitB b r l k t)
      simp only [← hf] at hcell
      simp only [lpSt_diff d b b' r _ _ hS hA]
      rw [sum_comm]
      refine sum_nonneg fun l _ => ?_
      simp only [mul_sum]
      rw [sum_comm]
      refine sum_nonneg fun t _ => ?_
      rw [← sum_fiberwise_of_maps_to (s := univ) (t := univ) (g := d.G 0) (by intro i _; simp)]
      refine sum_nonneg fun k _ => ?_
      have hv := varK_pos b hb r l k t
      have e : ∑ i with d.G 0 i = k, q i l * (((ySt d r (t, i) - fitB b r l (d.G 0 i) t) ^ 2 -
            (ySt d r (t, i) - fitB b' r l (d.G 0 i) t) ^ 2) / (2 * varK b r l (d.G 0 i) t)) =
          (∑ i with d.G 0 i = k, q i l * (ySt d r (t, i) - fitB b r l k t) ^ 2 -
            ∑ i with d.G 0 i = k, q i l * (ySt d r (t, i) - fitB b' r l k t) ^ 2) / (2 * varK b r l k t) := by
        rw [← sum_sub_distrib, sum_div]
        refine sum_congr rfl fun i hi => ?_
        rw [(mem_filter.mp hi).2]
        ring
      rw [e]
      have := hcell l k t
      exact div_nonneg (by linarith) (by positivity)

theorem likOf_plain [NeZero nl] (lp : Fin ni → Fin nl → ℝ) (n : ℕ) (pk : ℕ → Fin nl → ℝ) (first updPk : Bool) :
    likOf lp n pk first updPk 1 = meanLse lp := by
  simp [likOf]

/-- One pass for stayers. -/
theorem stepSt_improves [NeZero nl] (d : DData ni nk) (o : StOpts) (sA sS : QP (Fin nl × JS nk))
    (hs : ∀ P q x, sA P q = .ok (some x) → ∀ y, qpVal P q x ≤ qpVal P q y)
    (hS : o.updS = false) (hR : o.updRho = false) (hd : o.dprior = 1) (hδ : o.δ = 0) (iter : ℕ)
    (s s' : StState nl nk) (hb : PosS s.base) (hpk : GoodPk nk s.pk0)
    (h : stepSt d o sA sS iter (posterior (lpSt d s.base s.r s.pk0)) s = .ok s') :
    PosS s'.base ∧ GoodPk nk s'.pk0 ∧ s'.liks = s.liks ∧
      meanLse (lpSt d s.base s.r s.pk0) ≤ meanLse (lpSt d s'.base s'.r s'.pk0) := by
  set q := posterior (lpSt d s.base s.r s.pk0) with hq
  have hq0 : ∀ i l, 0 < q i l := posterior_pos _
  have hq1 : ∀ i, ∑ l, q i l = 1 := posterior_sum _
  have hpk' : ∀ pk', nextPk o.updPk nk (fun i => (d.G 0 i).val) q o.dprior s.pk0 = .ok pk' →
      GoodPk nk pk' ∧ 0 ≤ ∑ i, ∑ l, q i l * (Real.log (pk' (d.G 0 i).val l) - Real.log (s.pk0 (d.G 0 i).val l)) := by
    intro pk' hp
    unfold nextPk at hp
    split at hp
    · rw [hd] at hp
      exact pk_improves nk (fun i => (d.G 0 i).val) (fun i => (d.G 0 i).isLt) q hq0 hq1 s.pk0 pk' hpk hp
    · simp only [Except.ok.injEq] at hp
      subst hp
      exact ⟨hpk, by simp⟩
  unfold stepSt at h
  cases hu : nextPk o.updPk nk (fun i => (d.G 0 i).val) q o.dprior s.pk0 with
  | error m => rw [hu] at h; cases h
  | ok pk' =>
    rw [hu] at h
    obtain ⟨hgood, hlog⟩ := hpk' pk' hu
    simp only [bind, Except.bind, hR, Bool.false_and, Bool.false_eq_true, if_false, hS, Bool.or_false] at h
    have fin : ∀ b', 0 ≤ ∑ i, ∑ l, q i l * (lpStayersPlain b' s.r l (d.G 0 i) (d.y i) -
          lpStayersPlain s.base s.r l (d.G 0 i) (d.y i)) →
        meanLse (lpSt d s.base s.r s.pk0) ≤ meanLse (lpSt d b' s.r pk') := by
      intro b' hb'
      apply em_mean
      rw [← hq]
      have : ∀ i l, q i l * (lpSt d b' s.r pk' i l - lpSt d s.base s.r s.pk0 i l) =
          q i l * (Real.log (pk' (d.G 0 i).val l) - Real.log (s.pk0 (d.G 0 i).val l)) +
          q i l * (lpStayersPlain b' s.r l (d.G 0 i) (d.y i) -
            lpStayersPlain s.base s.r l (d.G 0 i) (d.y i)) := by
        intro i l
        unfold lpSt
        ring
      simp only [this, sum_add_distrib]
      linarith
    split at h
    · rename_i hupd
      simp only [Except.ok.injEq] at h
      subst h
      obtain ⟨e1, e2, -, e4⟩ := solveASt_improves d s.base hb s.r q sA hs
      have hm : mstepSt d q s.base s.r o.updA false o.δ sA sS =
          solveASt sA (XwX (wSt d s.base s.r q) (Xst d s.r) 0)
            (XwV (wSt d s.base s.r q) (Xst d s.r) fun _ => ySt d s.r) s.base := by
        simp only [mstepSt, hupd, hδ, if_true, Bool.false_eq_true, if_false]
      simp only [hm]
      refine ⟨?_, hgood, trivial, fin _ e4⟩
      unfold PosS
      rw [e1, e2]
      exact hb
    · simp only [Except.ok.injEq] at h
      subst h
      exact ⟨hb, hgood, rfl, fin _ (by simp)⟩

theorem loopSt_mono [NeZero nl] (d : DData ni nk) (o : StOpts) (sA sS : QP (Fin nl × JS nk))
    (hs : ∀ P q x, sA P q = .ok (some x) → ∀ y, qpVal P q x ≤ qpVal P q y)
    (hS : o.updS = false) (hR : o.updRho = false) (hd : o.dprior = 1) (hδ : o.δ = 0) (fuel : ℕ) :
    ∀ (iter : ℕ) (prev : Option ℝ) (s s' : StState nl nk), PosS s.base → GoodPk nk s.pk0 →
      s.liks.Pairwise (· ≤ ·) → (∀ x ∈ s.liks, x ≤ meanLse (lpSt d s.base s.r s.pk0)) →
      loopSt d o sA sS fuel iter prev s = .ok s' → s'.liks.Pairwise (· ≤ ·) := by
  induction fuel with
  | zero =>
    intro iter prev s s' _ _ hp _ h
    simp only [loopSt, Except.ok.injEq] at h
    rw [← h]; exact hp
  | succ fuel ih =>
    intro iter prev s s' hb hpk hp hle h
    have hp' : (s.liks ++ [meanLse (lpSt d s.base s.r s.pk0)]).Pairwise (· ≤ ·) := by
      rw [List.pairwise_append]
      refine ⟨hp, List.pairwise_singleton _ _, fun a ha x hx => ?_⟩
      rw [List.mem_singleton] at hx
      rw [hx]; exact hle a ha
    unfold loopSt at h
    simp only [hd, likOf_plain] at h
    split at h
    · simp only [Except.ok.injEq] at h
      rw [← h]; exact hp'
    · cases hst : stepSt d o sA sS iter (posterior (lpSt d s.base s.r s.pk0))
          { s with liks := s.liks ++ [meanLse (lpSt d s.base s.r s.pk0)] } with
      | error m => rw [hst] at h; cases h
      | ok s2 =>
        rw [hst] at h
        simp only [bind, Except.bind] at h
        obtain ⟨h1, h2, h3, h4⟩ := stepSt_improves d o sA sS hs hS hR hd hδ iter
          { s with liks := s.liks ++ [meanLse (lpSt d s.base s.r s.pk0)] } s2 hb hpk hst
        refine ih _ _ s2 s' h1 h2 (by rw [h3]; exact hp') ?_ h
        intro x hx
        rw [h3] at hx
        simp only [List.mem_append, List.mem_singleton] at hx
        rcases hx with hx | hx
        · exact (hle x hx).trans h4
        · rw [hx]; exact h4

theorem stepMv_improves [NeZero nl] {endo state : Bool} (d : DData ni nk) (o : MvOpts)
    (sA sS : QP (Fin nl × JM endo state nk)) (hA : o.updA = false) (hS : o.updS = false)
    (h12 : o.upd12 = false) (h43 : o.upd43 = false) (h32 : o.upd32 = false) (hd : o.dprior = 1) (iter : ℕ)
    (s s' : MvState nl nk) (hpk : GoodPk (nk ^ 2) s.pk1)
    (h : stepMv d o sA sS iter (posterior (lpMv d s.base s.r s.pk1)) s = .ok s') :
    GoodPk (nk ^ 2) s'.pk1 ∧ s'.liks = s.liks ∧
      meanLse (lpMv d s.base s.r s.pk1) ≤ meanLse (lpMv d s'.base s'.r s'.pk1) := by
  set q := posterior (lpMv d s.base s.r s.pk1) with hq
  unfold stepMv at h
  cases hu : nextPk o.updPk (nk ^ 2) (flow d) q o.dprior s.pk1 with
  | error m => rw [hu] at h; cases h
  | ok pk' =>
    rw [hu] at h
    simp only [bind, Except.bind, h12, h43, h32, hA, hS, Bool.or_false, Bool.false_and, Bool.false_eq_true,
      if_false, Except.ok.injEq] at h
    subst h
    unfold nextPk at hu
    split at hu
    · rw [hd] at hu
      obtain ⟨hg, hl⟩ := pk_improves (nk ^ 2) (flow d) (fun i => (C75_flow d i i).1) q (posterior_pos _)
        (posterior_sum _) s.pk1 pk' hpk hu
      refine ⟨hg, rfl, em_mean _ _ ?_⟩
      rw [← hq]
      refine hl.trans (le_of_eq (sum_congr rfl fun i _ => sum_congr rfl fun l _ => ?_))
      unfold lpMv
      ring
    · simp only [Except.ok.injEq] at hu
      subst hu
      exact ⟨hpk, rfl, le_rfl⟩

theorem loopMv_mono [NeZero nl] {endo state : Bool} (d : DData ni nk) (o : MvOpts)
    (sA sS : QP (Fin nl × JM endo state nk)) (minType : DBase nl nk → ℕ) (hA : o.updA = false) (hS : o.updS = false)
    (h12 : o.upd12 = false) (h43 : o.upd43 = false) (h32 : o.upd32 = false) (hd : o.dprior = 1) (fuel : ℕ) :
    ∀ (iter : ℕ) (prev : Option ℝ) (pm : ℕ) (s s' : MvState nl nk), GoodPk (nk ^ 2) s.pk1 →
      s.liks.Pairwise (· ≤ ·) → (∀ x ∈ s.liks, x ≤ meanLse (lpMv d s.base s.r s.pk1)) →
      loopMv d o sA sS minType fuel iter prev pm s = .ok s' → s'.liks.Pairwise (· ≤ ·) := by
  induction fuel with
  | zero =>
    intro iter prev pm s s' _ hp _ h
    simp only [loopMv, Except.ok.injEq] at h
    rw [← h]; exact hp
  | succ fuel ih =>
    intro iter prev pm s s' hpk hp hle h
    have hp' : (s.liks ++ [meanLse (lpMv d s.base s.r s.pk1)]).Pairwise (· ≤ ·) := by
      rw [List.pairwise_append]
      refine ⟨hp, List.pairwise_singleton _ _, fun a ha x hx => ?_⟩
      rw [List.mem_singleton] at hx
      rw [hx]; exact hle a ha
    unfold loopMv at h
    simp only [hd, likOf_plain] at h
    split at h
    · simp only [Except.ok.injEq] at h
      rw [← h]; exact hp'
    · cases hst : stepMv d o sA sS iter (posterior (lpMv d s.base s.r s.pk1))
          { s with liks := s.liks ++ [meanLse (lpMv d s.base s.r s.pk1)] } with
      | error m => rw [hst] at h; cases h
      | ok s2 =>
        rw [hst] at h
        simp only [bind, Except.bind] at h
        obtain ⟨h2, h3, h4⟩ := stepMv_improves d o sA sS hA hS h12 h43 h32 hd iter
          { s with liks := s.liks ++ [meanLse (lpMv d s.base s.r s.pk1)] } s2 hpk hst
        refine ih _ _ _ s2 s' h2 (by rw [h3]; exact hp') ?_ h
        intro x hx
        rw [h3] at hx
        simp only [List.mem_append, List.mem_singleton] at hx
        rcases hx with hx | hx
        · exact (hle x hx).trans h4
        · rw [hx]; exact h4

/-! ## C77 -/

/-- What is recorded without a Dirichlet prior is the average log likelihood of the mixture of normals, for
movers. -/
theorem C77_movers_recorded [NeZero nl] (d : DData ni nk) (b : DBase nl nk) (hb : PosS b) (r : Rhos)
    (pk1 : ℕ → Fin nl → ℝ) (hpk : ∀ i l, 0 < pk1 (flow d i) l) (first updPk : Bool) :
    likOf (lpMv d b r pk1) (nk ^ 2) pk1 first updPk 1 = Spec.logLik (fun i l => pk1 (flow d i) l)
      fun i l => Spec.moverDensity (b.a l fun t => d.G t i) (b.s2 l fun t => d.G t i) r (d.y i) := by
  rw [likOf_plain, meanLse, Spec.logLik]
  congr 1
  refine sum_congr rfl fun i _ => ?_
  rw [lse_eq]
  congr 1
  refine sum_congr rfl fun l _ => ?_
  obtain ⟨h1, h2, h3, h4, -, -⟩ := s2_cond b hb r l fun t => d.G t i
  rw [lpMv, Real.exp_add, Real.exp_log (hpk i l), lpMoversPlain_eq, exp_lpM _ _ _ _ h1 h2 h3 h4]

/-- The same for stayers. -/
theorem C77_stayers_recorded [NeZero nl] (d : DData ni nk) (b : DBase nl nk) (hb : PosS b) (r : Rhos)
    (pk0 : ℕ → Fin nl → ℝ) (hpk : ∀ i l, 0 < pk0 (d.G 0 i).val l) (first updPk : Bool) :
    likOf (lpSt d b r pk0) nk pk0 first updPk 1 = Spec.logLik (fun i l => pk0 (d.G 0 i).val l)
      fun i l => Spec.stayerDensity (b.a l fun _ => d.G 0 i) (b.s2 l fun _ => d.G 0 i) r (d.y i) := by
  rw [likOf_plain, meanLse, Spec.logLik]
  congr 1
  refine sum_congr rfl fun i _ => ?_
  rw [lse_eq]
  congr 1
  refine sum_congr rfl fun l _ => ?_
  obtain ⟨h1, -, -, h4, h5, h6⟩ := s2_cond b hb r l fun _ => d.G 0 i
  rw [lpSt, Real.exp_add, Real.exp_log (hpk i l), lpStayersPlain_eq b r l _ (hb.1 _ _ _),
    exp_lpS _ _ _ _ h1 h5 h6 h4]

/-- C77 (partial), stayers: without a prior, ridge term, or constraints on the means, the recorded likelihoods
never fall as long as only proportions and means are updated.  Missing: updates of the standard deviations, for
which the claim is false (`C77_stayers_variances_lower`), and of the persistence (`C55_likelihood_can_fall`). -/
theorem C77_stayers_partial [NeZero nl] (d : DData ni nk) (o : StOpts) (sA sS : QP (Fin nl × JS nk))
    (hs : RightQP (fun _ => True) sA) (hS : o.updS = false) (hR : o.updRho = false) (hd : o.dprior = 1)
    (hδ : o.δ = 0) (nIters : ℕ) (b : DBase nl nk) (hb : PosS b) (r : Rhos) (pk0 : ℕ → Fin nl → ℝ)
    (hpk : GoodPk nk pk0) (s' : StState nl nk) (h : loopSt d o sA sS nIters 0 none ⟨b, r, pk0, []⟩ = .ok s') :
    s'.liks.Pairwise (· ≤ ·) :=
  loopSt_mono d o sA sS (fun P q x hx y => (hs.sound P q x hx).2 y trivial) hS hR hd hδ nIters 0 none _ s' hb hpk
    List.Pairwise.nil (by simp) h

/-- C77 (partial), movers: without a prior the recorded likelihoods never fall as long as only the proportions
are updated.  Missing: the other updates, for which the claim is false (`C77_movers_means_lower`,
`C77_movers_variances_lower`). -/
theorem C77_movers_partial [NeZero nl] {endo state : Bool} (d : DData ni nk) (o : MvOpts)
    (sA sS : QP (Fin nl × JM endo state nk)) (minType : DBase nl nk → ℕ) (hA : o.updA = false) (hS : o.updS = false)
    (h12 : o.upd12 = false) (h43 : o.upd43 = false) (h32 : o.upd32 = false) (hd : o.dprior = 1) (nIters pm : ℕ)
    (b : DBase nl nk) (r : Rhos) (pk1 : ℕ → Fin nl → ℝ) (hpk : GoodPk (nk ^ 2) pk1) (s' : MvState nl nk)
    (h : loopMv d o sA sS minType nIters 0 none pm ⟨b, r, pk1, []⟩ = .ok s') :
    s'.liks.Pairwise (· ≤ ·) :=
  loopMv_mono d o sA sS minType hA hS h12 h43 h32 hd nIters 0 none pm _ s' hpk List.Pairwise.nil (by simp) h

theorem nextPk_ok [NeZero nl] (upd : Bool) (n : ℕ) (κ : Fin ni → ℕ) (q : Fin ni → Fin nl → ℝ)
    (hq : ∀ i, ∑ l, q i l = 1) (dp : ℝ) (hdp : 1 ≤ dp) (old : ℕ → Fin nl → ℝ)
    (hall : upd = true → ∀ p < n, ∃ i, κ i = p) : ∃ pk, nextPk upd n κ q dp old = .ok pk := by
  unfold nextPk
  split
  · rename_i hu
    cases h : updatePk n κ q dp with
    | ok pk => exact ⟨pk, rfl⟩
    | error m =>
      obtain ⟨p, hp, hn⟩ := (C75_raises n κ q hq dp hdp).mp ⟨m, h⟩
      obtain ⟨i, hi⟩ := hall hu p hp
      exact absurd hi (hn i)
  · exact ⟨old, rfl⟩

/-- The loops return if every class is observed (or the proportions are not updated). -/
theorem C77_stayers_returns [NeZero nl] (d : DData ni nk) (o : StOpts) (sA sS : QP (Fin nl × JS nk))
    (hd : 1 ≤ o.dprior) (hall : o.updPk = true → ∀ k, ∃ i, d.G 0 i = k) (fuel : ℕ) :
    ∀ (iter : ℕ) (prev : Option ℝ) (s : StState nl nk), ∃ s', loopSt d o sA sS fuel iter prev s = .ok s' := by
  induction fuel with
  | zero => intro iter prev s; exact ⟨_, rfl⟩
  | succ fuel ih =>
    intro iter prev s
    unfold loopSt
    dsimp only
    split
    · exact ⟨_, rfl⟩
    · have : ∃ s2, stepSt d o sA sS iter (posterior (lpSt d s.base s.r s.pk0)) { s with
          liks := s.liks ++ [likOf (lpSt d s.base s.r s.pk0) nk s.pk0 (iter == 0) o.updPk o.dprior] } = .ok s2 := by
        unfold stepSt
        obtain ⟨pk, hpk⟩ := nextPk_ok o.updPk nk (fun i => (d.G 0 i).val)
          (posterior (lpSt d s.base s.r s.pk0)) (posterior_sum _) o.dprior hd s.pk0 (by
            intro hu p hp
            obtain ⟨i, hi⟩ := hall hu ⟨p, hp⟩
            exact ⟨i, by rw [hi]⟩)
        simp only [hpk, bind, Except.bind]
        split
        · exact ⟨_, rfl⟩
        · split <;> exact ⟨_, rfl⟩
      obtain ⟨s2, hs2⟩ := this
      rw [hs2]
      exact ih _ _ s2

theorem C77_movers_returns [NeZero nl] {endo state : Bool} (d : DData ni nk) (o : MvOpts)
    (sA sS : QP (Fin nl × JM endo state nk)) (minType : DBase nl nk → ℕ)
    (hd : 1 ≤ o.dprior) (hall : o.updPk = true → ∀ k k', ∃ i, d.G 0 i = k ∧ d.G 1 i = k') (fuel : ℕ) :
    ∀ (iter : ℕ) (prev : Option ℝ) (pm : ℕ) (s : MvState nl nk),
      ∃ s', loopMv d o sA sS minType fuel iter prev pm s = .ok s' := by
  induction fuel with
  | zero => intro iter prev pm s; exact ⟨_, rfl⟩
  | succ fuel ih =>
    intro iter prev pm s
    unfold loopMv
    dsimp only
    split
    · exact ⟨_, rfl⟩
    · have : ∃ s2, stepMv d o sA sS iter (posterior (lpMv d s.base s.r s.pk1)) { s with
          liks := s.liks ++ [likOf (lpMv d s.base s.r s.pk1) (nk ^ 2) s.pk1 (iter == 0) o.updPk o.dprior] } =
            .ok s2 := by
        unfold stepMv
        obtain ⟨pk, hpk⟩ := nextPk_ok o.updPk (nk ^ 2) (flow d)
          (posterior (lpMv d s.base s.r s.pk1)) (posterior_sum _) o.dprior hd s.pk1 (by
            intro hu p hp
            have hk : 0 < nk := by
              rcases Nat.eq_zero_or_pos nk with h0 | h0
              · rw [h0] at hp; simp at hp
              · exact h0
            obtain ⟨i, hi, hi'⟩ := hall hu ⟨p % nk, Nat.mod_lt _ hk⟩
              ⟨p / nk, Nat.div_lt_of_lt_mul (by rw [sq] at hp; exact hp)⟩
            refine ⟨i, ?_⟩
            unfold flow
            rw [hi, hi']
            exact Nat.mod_add_div p nk)
        simp only [hpk, bind, Except.bind]
        split
        · exact ⟨_, rfl⟩
        · split <;> exact ⟨_, rfl⟩
      obtain ⟨s2, hs2⟩ := this
      rw [hs2]
      exact ih _ _ _ s2

theorem fit_st_inj (d : DData ni nk) (r : Rhos) (hall : ∀ k, ∃ i, d.G 0 i = k) (x : Fin nl × JS nk → ℝ)
    (h : ∀ l s, fit (Xst d r) x l s = 0) : x = 0 := by
  funext ⟨l, t, k⟩
  obtain ⟨i, hi⟩ := hall k
  have h0 := h l (0, i)
  have h1 := h l (1, i)
  rw [fit_st] at h0 h1
  simp only [if_true, one_ne_zero, if_false, hi] at h0 h1
  rw [h0] at h1
  fin_cases t
  · exact h0
  · simpa using h1

theorem Xst_const (d : DData ni nk) (r : Rhos) (t p : Fin 2) (k : Fin nk) :
    ∃ c : ℝ, ∀ i, Xst d r (t, i) (p, k) = if d.G 0 i = k then c else 0 := by
  fin_cases t <;> fin_cases p
  · exact ⟨1, fun _ => rfl⟩
  · exact ⟨0, fun _ => rfl⟩
  · exact ⟨- r.R32, fun _ => rfl⟩
  · exact ⟨1, fun _ => rfl⟩

/-- C77: what the update of the stayers' standard deviations computes.  `m2` and `m3` are the posterior-weighted
mean squares of the residuals of the second wage and of the third wage given the second.  Under the model the
variance of the latter is `S3s² + R²·S2s²`, so the likelihood asks for `S3s² = m3 - R²·m2`; the code returns
`m3 + R·m2`, because it regresses squared residuals on the design with `-R` instead of `R²`. -/
theorem C77_stayers_variances [NeZero nl] (d : DData ni nk) (hall : ∀ k, ∃ i, d.G 0 i = k)
    (q : Fin ni → Fin nl → ℝ) (hq : ∀ i l, 0 < q i l) (b : DBase nl nk) (hb : PosS b) (r : Rhos) (lb : ℝ)
    (sA sS : QP (Fin nl × JS nk)) (hs : RightQP (fun x => ∀ a, lb ≤ x a) sS) (m2 m3 : Fin nl → Fin nk → ℝ)
    (hm2 : ∀ l k, m2 l k = (∑ i with d.G 0 i = k, q i l * ((d.y i).y2 - b.Aw .p2s l k) ^ 2) /
      ∑ i with d.G 0 i = k, q i l)
    (hm3 : ∀ l k, m3 l k = (∑ i with d.G 0 i = k, q i l *
      ((d.y i).y3 - r.R32 * ((d.y i).y2 - b.Aw .p2s l k) - b.Aw .p3s l k) ^ 2) / ∑ i with d.G 0 i = k, q i l)
    (h2 : ∀ l k, lb ≤ m2 l k) (h3 : ∀ l k, lb ≤ m3 l k + r.R32 * m2 l k) (l : Fin nl) (k : Fin nk) :
    (mstepSt d q b r false true 0 sA sS).Sw .p2s l k = √(m2 l k) ∧
    (mstepSt d q b r false true 0 sA sS).Sw .p3s l k = √(m3 l k + r.R32 * m2 l k) := by
  set f : Fin nl → Fin nk → Fin 2 → ℝ := fun l k t => if t = 0 then m2 l k else m3 l k with hf
  have hsol : sS (XwX (wSt d b r q) (Xst d r) 0) (fun a => - XwV (wSt d b r q) (Xst d r) (eSt d b r) a) =
      .ok (some (toX r f)) := by
    refine hs.eq _ _ _ (XwX_symm _ _ _)
      (XwX_pd _ _ _ (wSt_pos d b hb r q hq) le_rfl (fit_st_inj d r hall)) ?_ ?_
    · rintro ⟨l, t, k⟩
      fin_cases t
      · simpa [toX, hf] using h2 l k
      · simpa [toX, hf] using h3 l k
    · rintro ⟨l, p, k⟩
      rw [XwX_mul, neg_neg, zero_mul, add_zero, XwV, ← sub_eq_zero, ← sum_sub_distrib]
      simp only [fit_toX, ← mul_sub]
      rw [Fintype.sum_prod_type]
      refine sum_eq_zero fun t _ => ?_
      have hden : 0 < ∑ i with d.G 0 i = k, q i l := by
        obtain ⟨i, hi⟩ := hall k
        exact sum_pos (fun i _ => hq i l) ⟨i, by simp [hi]⟩
      have hmean : ∑ i with d.G 0 i = k, q i l * (f l k t - eSt d b r l (t, i)) = 0 := by
        simp only [mul_sub, sum_sub_distrib, ← sum_mul]
        have : f l k t = (∑ i with d.G 0 i = k, q i l * eSt d b r l (t, i)) / ∑ i with d.G 0 i = k, q i l := by
          fin_cases t
          · simp only [hf, Fin.zero_eta, if_true, hm2, eSt]
            congr 1
            refine sum_congr rfl fun i hi => ?_
            rw [(mem_filter.mp hi).2]
          · simp only [hf, Fin.mk_one, one_ne_zero, if_false, hm3, eSt]
            congr 1
            refine sum_congr rfl fun i hi => ?_
            rw [(mem_filter.mp hi).2]
        rw [this]
        field_simp
        ring
      obtain ⟨c, hc⟩ := Xst_const d r t p k
      calc _ = ∑ i, if d.G 0 i = k then c / √(varK b r l k t) * (q i l * (f l k t - eSt d b r l (t, i))) else 0 := by
            refine sum_congr rfl fun i _ => ?_
            rw [hc]
            split
            · rename_i hi
              rw [wSt, varSt_eq, hi]
              ring
            · simp
        _ = 0 := by rw [← sum_filter, ← mul_sum, hmean, mul_zero]
  have hb' : mstepSt d q b r false true 0 sA sS = solveSSt sS (XwX (wSt d b r q) (Xst d r) 0)
      (XwV (wSt d b r q) (Xst d r) (eSt d b r)) b := by
    simp only [mstepSt, Bool.false_eq_true, if_false, if_true]
  rw [hb', solveSSt, hsol]
  constructor <;> simp [Function.update, toX, hf]

end Pytwoway.Dynamic
