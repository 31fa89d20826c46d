import Verif.BLMDyn.EMTight
import Verif.BLMDyn.Solver

/-!
# Estimates of the dynamic model: order, numbering and units (C121)

Two runs of the movers' (or stayers') loop on the same data written down differently: rows listed in another order,
firm types and the worker types of the starting values numbered in another way, wages measured in another unit.  The
specification is the renaming itself; the theorems say that the whole run is renamed.  The ridge `d_X_diag - 1` is an
amount that has to be divided by the unit.
-/

namespace Pytwoway.Dynamic

open Finset Pytwoway.Sim.Dyn Pytwoway.BLM

variable {ni nl nk : ℕ}

/-! ## Specification -/

/-- Another way to write down the same data and the same starting values. -/
structure Spec.Rewriting (ni nl nk : ℕ) where
  /-- new row of each worker -/
  row : Equiv.Perm (Fin ni)
  /-- new number of each worker type -/
  worker : Equiv.Perm (Fin nl)
  /-- new number of each firm type -/
  firm : Equiv.Perm (Fin nk)
  /-- wages are measured as `scale * y` -/
  scale : ℝ
  scale_pos : 0 < scale

namespace Spec.Rewriting

variable (g : Spec.Rewriting ni nl nk)

/-- `d'` is `d` written down in the new way. -/
structure SameData (d d' : DData ni nk) : Prop where
  y1 : ∀ i, (d'.y (g.row i)).y1 = g.scale * (d.y i).y1
  y2 : ∀ i, (d'.y (g.row i)).y2 = g.scale * (d.y i).y2
  y3 : ∀ i, (d'.y (g.row i)).y3 = g.scale * (d.y i).y3
  y4 : ∀ i, (d'.y (g.row i)).y4 = g.scale * (d.y i).y4
  type : ∀ t i, d'.G t (g.row i) = g.firm (d.G t i)

/-- Means and standard deviations in the new way. -/
structure SameParams (b b' : DBase nl nk) : Prop where
  Aw : ∀ p l k, b'.Aw p (g.worker l) (g.firm k) = g.scale * b.Aw p l k
  Ab : ∀ p k, b'.Ab p (g.firm k) = g.scale * b.Ab p k
  Sw : ∀ p l k, b'.Sw p (g.worker l) (g.firm k) = g.scale * b.Sw p l k
  Sb : ∀ p k, b'.Sb p (g.firm k) = g.scale * b.Sb p k

/-- Proportions of worker types among movers between each pair of firm types (`k1 + nk * k2` in the array). -/
def SamePk1 (pk pk' : ℕ → Fin nl → ℝ) : Prop :=
  ∀ (k1 k2 : Fin nk) l, pk' ((g.firm k1).val + nk * (g.firm k2).val) (g.worker l) = pk (k1.val + nk * k2.val) l

/-- Proportions of worker types among stayers of each firm type. -/
def SamePk0 (pk pk' : ℕ → Fin nl → ℝ) : Prop := ∀ (k : Fin nk) l, pk' (g.firm k).val (g.worker l) = pk k.val l

/-- What another unit of wages takes off the average log likelihood: `log scale` for each of the four wages. -/
noncomputable def likShift : ℝ := 4 * Real.log g.scale

/-- States of the movers' estimation that are the same up to the rewriting. -/
structure SameMv (s s' : MvState nl nk) : Prop where
  params : g.SameParams s.base s'.base
  rhos : s'.r = s.r
  props : g.SamePk1 s.pk1 s'.pk1
  liks : s'.liks = s.liks.map (· - g.likShift)

/-- States of the stayers' estimation that are the same up to the rewriting. -/
structure SameSt (s s' : StState nl nk) : Prop where
  params : g.SameParams s.base s'.base
  rhos : s'.r = s.r
  props : g.SamePk0 s.pk0 s'.pk0
  liks : s'.liks = s.liks.map (· - g.likShift)

end Spec.Rewriting

/-- Both fail with the same error, or both return, and what they return is related. -/
def Spec.Both {α : Type} (R : α → α → Prop) : Py α → Py α → Prop
  | .ok s, .ok s' => R s s'
  | .error e, .error e' => e = e'
  | _, _ => False

/-- Two right solvers whose constraints say the same about parameters numbered by `σ` and measured in another unit;
the constraint set is convex (every constraint of the package is linear). -/
structure Spec.SameQP {ι : Type} [Fintype ι] (σ : Equiv.Perm ι) (m : ℝ) (F F' : (ι → ℝ) → Prop) (s s' : QP ι) : Prop where
  right : RightQP F s
  right' : RightQP F' s'
  convex : ∀ x y, F x → F y → F fun a => (x a + y a) / 2
  same : ∀ x x' : ι → ℝ, (∀ a, x' (σ a) = m * x a) → (F' x' ↔ F x)

/-- The effects of the periods `'2mb'` and `'3mb'` are the same for all worker types: a constraint the package always adds
(blm_dynamic.py:1344-1345). -/
def Spec.Flat {endo state : Bool} (x : Fin nl × JM endo state nk → ℝ) : Prop :=
  ∀ l l' (p : {p : Per // inModel endo state p = true}) k, p.1.isB = true → x (l, p, k) = x (l', p, k)

/-! ## Quadratic programs -/

theorem qpVal_ren {ι : Type} [Fintype ι] (σ : Equiv.Perm ι) (k m : ℝ) {P P' : ι → ι → ℝ} {q q' x x' : ι → ℝ}
    (hP : ∀ a b, P' (σ a) (σ b) = k * P a b) (hq : ∀ a, q' (σ a) = k * m * q a) (hx : ∀ a, x' (σ a) = m * x a) :
    qpVal P' q' x' = k * m ^ 2 * qpVal P q x := by
  unfold qpVal
  have e1 : ∑ a, ∑ b, x' a * P' a b * x' b = k * m ^ 2 * ∑ a, ∑ b, x a * P a b * x b := by
    rw [← Equiv.sum_comp σ, mul_sum]
    refine sum_congr rfl fun a _ => ?_
    rw [← Equiv.sum_comp σ, mul_sum]
    refine sum_congr rfl fun b _ => ?_
    rw [hP, hx, hx]; ring
  have e2 : ∑ a, q' a * x' a = k * m ^ 2 * ∑ a, q a * x a := by
    rw [← Equiv.sum_comp σ, mul_sum]
    refine sum_congr rfl fun a _ => ?_
    rw [hq, hx]; ring
  rw [e1, e2]; ring

theorem qp_unique {ι : Type} [Fintype ι] {P : ι → ι → ℝ} {q x y : ι → ℝ} {F : (ι → ℝ) → Prop}
    (hc : ∀ x y, F x → F y → F fun a => (x a + y a) / 2)
    (hpd : ∀ x : ι → ℝ, x ≠ 0 → 0 < ∑ a, ∑ b, x a * P a b * x b) (hx : F x) (hy : F y)
    (hxm : ∀ z, F z → qpVal P q x ≤ qpVal P q z) (hym : ∀ z, F z → qpVal P q y ≤ qpVal P q z) : x = y := by
  by_contra hne
  have hz : (fun a => x a - y a) ≠ 0 := fun h => hne (funext fun a => by have := congrFun h a; simp at this; linarith)
  have hp := hpd _ hz
  have e : qpVal P q x + qpVal P q y - 2 * qpVal P q (fun a => (x a + y a) / 2) =
      (∑ a, ∑ b, (x a - y a) * P a b * (x b - y b)) / 4 := by
    unfold qpVal
    have e1 : ∑ a, ∑ b, (x a - y a) * P a b * (x b - y b) = 2 * (∑ a, ∑ b, x a * P a b * x b)
        + 2 * (∑ a, ∑ b, y a * P a b * y b)
        - 4 * ∑ a, ∑ b, (x a + y a) / 2 * P a b * ((x b + y b) / 2) := by
      simp only [mul_sum, ← sum_sub_distrib, ← sum_add_distrib]
      exact sum_congr rfl fun a _ => sum_congr rfl fun b _ => by ring
    have e2 : ∑ a, q a * ((x a + y a) / 2) = (∑ a, q a * x a) / 2 + (∑ a, q a * y a) / 2 := by
      simp only [sum_div, ← sum_add_distrib]
      exact sum_congr rfl fun a _ => by ring
    rw [e1, e2]; ring
  have h1 := hxm _ (hc x y hx hy)
  have h2 := hym _ (hc x y hx hy)
  linarith

/-- Both solvers find a solution, and it is the same one, or neither does. -/
theorem qp_ren {ι : Type} [Fintype ι] {σ : Equiv.Perm ι} {k m : ℝ} (hk : 0 < k) (hm : 0 < m) {F F' : (ι → ℝ) → Prop}
    {s s' : QP ι} (h : Spec.SameQP σ m F F' s s') {P P' : ι → ι → ℝ} {q q' : ι → ℝ}
    (hP : ∀ a b, P' (σ a) (σ b) = k * P a b) (hq : ∀ a, q' (σ a) = k * m * q a)
    (hpd : ∀ x : ι → ℝ, x ≠ 0 → 0 < ∑ a, ∑ b, x a * P a b * x b) :
    (∃ x x', s P q = .ok (some x) ∧ s' P' q' = .ok (some x') ∧ F x ∧ ∀ a, x' (σ a) = m * x a) ∨
    ((∀ x, s P q ≠ .ok (some x)) ∧ ∀ x, s' P' q' ≠ .ok (some x)) := by
  have hold : ∀ x' : ι → ℝ, ∀ a, x' (σ a) = m * (x' (σ a) / m) := fun x' a => by field_simp
  by_cases hF : ∃ x, F x
  · left
    obtain ⟨x0, hx0⟩ := hF
    obtain ⟨x, hx⟩ := h.right.complete P q hpd ⟨x0, hx0⟩
    have hpd' : ∀ x : ι → ℝ, x ≠ 0 → 0 < ∑ a, ∑ b, x a * P' a b * x b := by
      intro z hz
      have hz' : (fun a => z (σ a)) ≠ 0 := fun h0 => hz (funext fun a => by
        have := congrFun h0 (σ.symm a); simpa using this)
      have e : ∑ a, ∑ b, z a * P' a b * z b = k * ∑ a, ∑ b, z (σ a) * P a b * z (σ b) := by
        rw [← Equiv.sum_comp σ, mul_sum]
        refine sum_congr rfl fun a _ => ?_
        rw [← Equiv.sum_comp σ, mul_sum]
        refine sum_congr rfl fun b _ => ?_
        rw [hP]; ring
      rw [e]
      exact mul_pos hk (hpd _ hz')
    obtain ⟨x', hx'⟩ := h.right'.complete P' q' hpd' ⟨fun a => m * x0 (σ.symm a), (h.same x0 _ (by simp)).mpr hx0⟩
    obtain ⟨f1, m1⟩ := h.right.sound _ _ _ hx
    obtain ⟨f2, m2⟩ := h.right'.sound _ _ _ hx'
    have f3 : F fun a => x' (σ a) / m := (h.same _ _ (hold x')).mp f2
    have m3 : ∀ z, F z → qpVal P q (fun a => x' (σ a) / m) ≤ qpVal P q z := by
      intro z hz
      have := m2 (fun a => m * z (σ.symm a)) ((h.same z _ (by simp)).mpr hz)
      rw [qpVal_ren σ k m hP hq (hold x'), qpVal_ren σ k m hP hq (x := z) (by simp)] at this
      exact le_of_mul_le_mul_left this (by positivity)
    have e := qp_unique h.convex hpd f1 f3 m1 m3
    exact ⟨x, x', hx, hx', f1, fun a => by rw [e]; exact hold x' a⟩
  · right
    refine ⟨fun x hx => hF ⟨x, (h.right.sound _ _ _ hx).1⟩, fun x' hx' => hF ⟨_, (h.same _ _ (hold x')).mp (h.right'.sound _ _ _ hx').1⟩⟩

/-! ## Proportions -/

/-- `enc` numbers the classes `C` by the numbers below `n`. -/
structure Codes {C : Type} (n : ℕ) (enc : C → ℕ) : Prop where
  inj : Function.Injective enc
  lt : ∀ c, enc c < n
  surj : ∀ p < n, ∃ c, enc c = p

theorem Codes.sum {C : Type} [Fintype C] {n : ℕ} {enc : C → ℕ} (h : Codes n enc) (f : ℕ → ℝ) :
    ∑ p ∈ range n, f p = ∑ c, f (enc c) := by
  symm
  refine sum_bij (fun c _ => enc c) (fun c _ => mem_range.mpr (h.lt c)) (fun a _ b _ e => h.inj e) ?_ fun _ _ => rfl
  intro p hp
  obtain ⟨c, hc⟩ := h.surj p (mem_range.mp hp)
  exact ⟨c, mem_univ _, hc⟩

theorem codes_pairs : Codes (nk ^ 2) (fun c : Fin nk × Fin nk => c.1.val + nk * c.2.val) where
  inj := by
    rintro ⟨a, b⟩ ⟨a', b'⟩ h
    have h : a.val + nk * b.val = a'.val + nk * b'.val := h
    have h1 := congrArg (· % nk) h
    simp only [Nat.add_mul_mod_self_left, Nat.mod_eq_of_lt a.2, Nat.mod_eq_of_lt a'.2] at h1
    have hpos : 0 < nk := lt_of_le_of_lt (Nat.zero_le _) a.2
    have h2 : nk * b.val = nk * b'.val := by omega
    exact Prod.ext (Fin.ext h1) (Fin.ext (Nat.eq_of_mul_eq_mul_left hpos h2))
  lt := by
    rintro ⟨a, b⟩
    have ha := a.2
    have hb := b.2
    show a.val + nk * b.val < nk ^ 2
    nlinarith
  surj := by
    intro p hp
    have hpos : 0 < nk := by
      rcases Nat.eq_zero_or_pos nk with h | h
      · subst h; simp at hp
      · exact h
    refine ⟨(⟨p % nk, Nat.mod_lt _ hpos⟩, ⟨p / nk, (Nat.div_lt_iff_lt_mul hpos).mpr (by nlinarith)⟩), ?_⟩
    exact Nat.mod_add_div p nk

theorem codes_fin : Codes nk (fun c : Fin nk => c.val) :=
  ⟨Fin.val_injective, fun c => c.2, fun p hp => ⟨⟨p, hp⟩, rfl⟩⟩

section

variable {C : Type} {n : ℕ} {enc : C → ℕ} (h : Codes n enc) (row : Equiv.Perm (Fin ni))
  (worker : Equiv.Perm (Fin nl)) (τ : Equiv.Perm C) {κ κ' : Fin ni → ℕ}
  (hκ : ∀ i, ∃ c, κ i = enc c ∧ κ' (row i) = enc (τ c)) {q q' : Fin ni → Fin nl → ℝ}
  (hq : ∀ i l, q' (row i) (worker l) = q i l)

include h hκ hq

theorem sumPk_ren (dp : ℝ) (c : C) (l : Fin nl) : sumPk κ' q' dp (enc (τ c)) (worker l) = sumPk κ q dp (enc c) l := by
  unfold sumPk
  rw [← Equiv.sum_comp row]
  refine sum_congr rfl fun i _ => ?_
  obtain ⟨c', e1, e2⟩ := hκ i
  have : enc (τ c') = enc (τ c) ↔ enc c' = enc c := by
    rw [h.inj.eq_iff, h.inj.eq_iff, τ.injective.eq_iff]
  rw [e1, e2, hq]
  simp only [this]

theorem sumPk_totalRen (dp : ℝ) (c : C) : ∑ l, sumPk κ' q' dp (enc (τ c)) l = ∑ l, sumPk κ q dp (enc c) l := by
  rw [← Equiv.sum_comp worker]
  exact sum_congr rfl fun l _ => sumPk_ren h row worker τ hκ hq dp c l

theorem nextPk_ren (upd : Bool) (dp : ℝ) {pk pk' : ℕ → Fin nl → ℝ}
    (hpk : ∀ c l, pk' (enc (τ c)) (worker l) = pk (enc c) l) :
    Spec.Both (fun v v' => ∀ c l, v' (enc (τ c)) (worker l) = v (enc c) l) (nextPk upd n κ q dp pk)
      (nextPk upd n κ' q' dp pk') := by
  unfold nextPk
  cases upd
  · exact hpk
  · have hz : (∃ p < n, ∑ l, sumPk κ' q' dp p l = 0) ↔ ∃ p < n, ∑ l, sumPk κ q dp p l = 0 := by
      constructor
      · rintro ⟨p, hp, e⟩
        obtain ⟨c, rfl⟩ := h.surj p hp
        refine ⟨enc (τ.symm c), h.lt _, ?_⟩
        rw [← sumPk_totalRen h row worker τ hκ hq, τ.apply_symm_apply]
        exact e
      · rintro ⟨p, hp, e⟩
        obtain ⟨c, rfl⟩ := h.surj p hp
        exact ⟨enc (τ c), h.lt _, by rw [sumPk_totalRen h row worker τ hκ hq]; exact e⟩
    simp only [if_true, updatePk, hz]
    split
    · rfl
    · intro c l
      show 1 / _ * _ = 1 / _ * _
      rw [sumPk_totalRen h row worker τ hκ hq, sumPk_ren h row worker τ hκ hq]

omit hκ hq in
theorem logPk_ren [Fintype C] {pk pk' : ℕ → Fin nl → ℝ} (hpk : ∀ c l, pk' (enc (τ c)) (worker l) = pk (enc c) l) :
    ∑ p ∈ range n, ∑ l, Real.log (pk' p l) = ∑ p ∈ range n, ∑ l, Real.log (pk p l) := by
  rw [h.sum, h.sum, ← Equiv.sum_comp τ]
  refine sum_congr rfl fun c _ => ?_
  rw [← Equiv.sum_comp worker]
  exact sum_congr rfl fun l _ => by rw [hpk]

end

namespace Spec.Rewriting

variable {g : Spec.Rewriting ni nl nk} {d d' : DData ni nk} {b b' : DBase nl nk}

/-! ## E-step -/

theorem lnvar_scale (a x mu v : ℝ) (ha : 0 < a) (hv : 0 < v) :
    lnvar (a * x) (a * mu) (a ^ 2 * v) = lnvar x mu v - Real.log a := by
  have f : ∀ x mu v : ℝ, lnvar x mu v = Util.logpi - (1 / 2) * Real.log v - (x - mu) ^ 2 / (2 * v) := fun _ _ _ => rfl
  rw [f, f, Real.log_mul (by positivity) hv.ne', Real.log_pow]
  have : (a * x - a * mu) ^ 2 / (2 * (a ^ 2 * v)) = (x - mu) ^ 2 / (2 * v) := by
    field_simp
  rw [this]
  push_cast
  ring

theorem a_ren (hb : g.SameParams b b') (l : Fin nl) {G G' : Fin 2 → Fin nk} (hG : ∀ t, G' t = g.firm (G t)) (p : Per) :
    b'.a (g.worker l) G' p = g.scale * b.a l G p := by
  unfold DBase.a
  rw [hG]
  split
  · exact hb.Ab _ _
  · exact hb.Aw _ _ _

theorem s2_ren (hb : g.SameParams b b') (l : Fin nl) {G G' : Fin 2 → Fin nk} (hG : ∀ t, G' t = g.firm (G t)) (p : Per) :
    b'.s2 (g.worker l) G' p = g.scale ^ 2 * b.s2 l G p := by
  unfold DBase.s2
  rw [hG]
  split
  · rw [hb.Sb]; ring
  · rw [hb.Sw]; ring

theorem posS_ren (hb : g.SameParams b b') (hp : PosS b) : PosS b' := by
  constructor
  · intro p l k
    have := hb.Sw p (g.worker.symm l) (g.firm.symm k)
    rw [g.worker.apply_symm_apply, g.firm.apply_symm_apply] at this
    rw [this]
    exact mul_pos g.scale_pos (hp.1 _ _ _)
  · intro p k
    have := hb.Sb p (g.firm.symm k)
    rw [g.firm.apply_symm_apply] at this
    rw [this]
    exact mul_nonneg g.scale_pos.le (hp.2 _ _)

theorem lpM_scale {a : ℝ} (ha : 0 < a) {m m' v v' : Per → ℝ} (hm : ∀ p, m' p = a * m p) (hv : ∀ p, v' p = a ^ 2 * v p)
    (r : Rhos) {y y' : Wages} (h1 : y'.y1 = a * y.y1) (h2 : y'.y2 = a * y.y2) (h3 : y'.y3 = a * y.y3)
    (h4 : y'.y4 = a * y.y4) (c1 : 0 < v .p12 + r.R12 ^ 2 * v .p2ma) (c2 : 0 < v .p2ma + v .p2mb)
    (c3 : 0 < v .p3ma + v .p3mb + r.R32 ^ 2 * (v .p2ma + v .p2mb)) (c4 : 0 < v .p43 + r.R43 ^ 2 * v .p3ma) :
    lpM m' v' r y' = lpM m v r y - 4 * Real.log a := by
  unfold lpM
  simp only [hm, hv, h1, h2, h3, h4]
  rw [show a * y.y1 - r.R12 * (a * y.y2 - a * m .p2ma) = a * (y.y1 - r.R12 * (y.y2 - m .p2ma)) by ring,
    show a ^ 2 * v .p12 + r.R12 ^ 2 * (a ^ 2 * v .p2ma) = a ^ 2 * (v .p12 + r.R12 ^ 2 * v .p2ma) by ring,
    show a * m .p2ma + a * m .p2mb = a * (m .p2ma + m .p2mb) by ring,
    show a ^ 2 * v .p2ma + a ^ 2 * v .p2mb = a ^ 2 * (v .p2ma + v .p2mb) by ring,
    show a * y.y3 - r.R32 * (a * y.y2 - a * (m .p2ma + m .p2mb)) = a * (y.y3 - r.R32 * (y.y2 - (m .p2ma + m .p2mb))) by ring,
    show a * m .p3ma + a * m .p3mb = a * (m .p3ma + m .p3mb) by ring,
    show a ^ 2 * v .p3ma + a ^ 2 * v .p3mb + r.R32 ^ 2 * (a ^ 2 * (v .p2ma + v .p2mb)) =
      a ^ 2 * (v .p3ma + v .p3mb + r.R32 ^ 2 * (v .p2ma + v .p2mb)) by ring,
    show a * y.y4 - r.R43 * (a * y.y3 - a * m .p3ma) = a * (y.y4 - r.R43 * (y.y3 - m .p3ma)) by ring,
    show a ^ 2 * v .p43 + r.R43 ^ 2 * (a ^ 2 * v .p3ma) = a ^ 2 * (v .p43 + r.R43 ^ 2 * v .p3ma) by ring,
    lnvar_scale _ _ _ _ ha c1, lnvar_scale _ _ _ _ ha c2, lnvar_scale _ _ _ _ ha c3, lnvar_scale _ _ _ _ ha c4]
  ring

theorem lpS_scale {a : ℝ} (ha : 0 < a) {m m' v v' : Per → ℝ} (hm : ∀ p, m' p = a * m p) (hv : ∀ p, v' p = a ^ 2 * v p)
    (r : Rhos) {y y' : Wages} (h1 : y'.y1 = a * y.y1) (h2 : y'.y2 = a * y.y2) (h3 : y'.y3 = a * y.y3)
    (h4 : y'.y4 = a * y.y4) (c1 : 0 < v .p12 + r.R12 ^ 2 * v .p2ma) (c2 : 0 < v .p2s)
    (c3 : 0 < v .p3s + r.R32 ^ 2 * v .p2s) (c4 : 0 < v .p43 + r.R43 ^ 2 * v .p3ma) :
    lpS m' v' r y' = lpS m v r y - 4 * Real.log a := by
  unfold lpS
  simp only [hm, hv, h1, h2, h3, h4]
  rw [show a * y.y1 - r.R12 * (a * y.y2 - a * m .p2ma) = a * (y.y1 - r.R12 * (y.y2 - m .p2ma)) by ring,
    show a ^ 2 * v .p12 + r.R12 ^ 2 * (a ^ 2 * v .p2ma) = a ^ 2 * (v .p12 + r.R12 ^ 2 * v .p2ma) by ring,
    show a * y.y3 - r.R32 * (a * y.y2 - a * m .p2s) = a * (y.y3 - r.R32 * (y.y2 - m .p2s)) by ring,
    show a ^ 2 * v .p3s + r.R32 ^ 2 * (a ^ 2 * v .p2s) = a ^ 2 * (v .p3s + r.R32 ^ 2 * v .p2s) by ring,
    show a * y.y4 - r.R43 * (a * y.y3 - a * m .p3ma) = a * (y.y4 - r.R43 * (y.y3 - m .p3ma)) by ring,
    show a ^ 2 * v .p43 + r.R43 ^ 2 * (a ^ 2 * v .p3ma) = a ^ 2 * (v .p43 + r.R43 ^ 2 * v .p3ma) by ring,
    lnvar_scale _ _ _ _ ha c1, lnvar_scale _ _ _ _ ha c2, lnvar_scale _ _ _ _ ha c3, lnvar_scale _ _ _ _ ha c4]
  ring

theorem lpMv_ren (hd : g.SameData d d') (hb : g.SameParams b b') (hp : PosS b) (r : Rhos) {pk pk' : ℕ → Fin nl → ℝ}
    (hpk : g.SamePk1 pk pk') (i : Fin ni) (l : Fin nl) :
    lpMv d' b' r pk' (g.row i) (g.worker l) = lpMv d b r pk i l - g.likShift := by
  unfold lpMv flow
  obtain ⟨c1, c2, c3, c4, -, -⟩ := s2_cond b hp r l fun t => d.G t i
  rw [lpMoversPlain_eq, lpMoversPlain_eq, hd.type, hd.type, hpk,
    lpM_scale g.scale_pos (a_ren hb l fun t => hd.type t i) (s2_ren hb l fun t => hd.type t i) r (hd.y1 i) (hd.y2 i)
      (hd.y3 i) (hd.y4 i) c1 c2 c3 c4, likShift]
  ring

theorem lpSt_ren (hd : g.SameData d d') (hb : g.SameParams b b') (hp : PosS b) (r : Rhos) {pk pk' : ℕ → Fin nl → ℝ}
    (hpk : g.SamePk0 pk pk') (i : Fin ni) (l : Fin nl) :
    lpSt d' b' r pk' (g.row i) (g.worker l) = lpSt d b r pk i l - g.likShift := by
  unfold lpSt
  obtain ⟨c1, -, -, c4, c2, c3⟩ := s2_cond b hp r l fun _ => d.G 0 i
  rw [lpStayersPlain_eq _ _ _ _ ((posS_ren hb hp).1 _ _ _), lpStayersPlain_eq _ _ _ _ (hp.1 _ _ _), hd.type, hpk,
    lpS_scale g.scale_pos (a_ren hb l fun _ => rfl) (s2_ren hb l fun _ => rfl) r (hd.y1 i) (hd.y2 i)
      (hd.y3 i) (hd.y4 i) c1 c2 c3 c4, likShift]
  ring

theorem lse_shift [NeZero nl] {lp lp' : Fin ni → Fin nl → ℝ} {K : ℝ}
    (h : ∀ i l, lp' (g.row i) (g.worker l) = lp i l - K) (i : Fin ni) :
    Util.logsumexp (lp' (g.row i)) = Util.logsumexp (lp i) - K := by
  rw [lse_eq, lse_eq, ← Equiv.sum_comp g.worker]
  simp only [h, Real.exp_sub]
  rw [← sum_div, Real.log_div (sum_exp_pos _).ne' (Real.exp_pos _).ne', Real.log_exp]

theorem post_shift [NeZero nl] {lp lp' : Fin ni → Fin nl → ℝ} {K : ℝ}
    (h : ∀ i l, lp' (g.row i) (g.worker l) = lp i l - K) (i : Fin ni) (l : Fin nl) :
    posterior lp' (g.row i) (g.worker l) = posterior lp i l := by
  unfold posterior
  rw [h, lse_shift h]
  congr 1
  ring

theorem meanLse_shift [NeZero nl] (hni : 0 < ni) {lp lp' : Fin ni → Fin nl → ℝ} {K : ℝ}
    (h : ∀ i l, lp' (g.row i) (g.worker l) = lp i l - K) : meanLse lp' = meanLse lp - K := by
  unfold meanLse
  rw [← Equiv.sum_comp g.row]
  simp only [lse_shift h]
  have : (ni : ℝ) ≠ 0 := by exact_mod_cast hni.ne'
  rw [sum_sub_distrib, sub_div, sum_const, card_univ, Fintype.card_fin, nsmul_eq_mul]
  field_simp

/-! ## Persistence -/

theorem rhoUpdate_ren {X X' Y Y' S S' q q' : Fin ni → Fin nl → ℝ} {a : ℝ} (ha : 0 < a)
    (hX : ∀ i l, X' (g.row i) (g.worker l) = a * X i l) (hY : ∀ i l, Y' (g.row i) (g.worker l) = a * Y i l)
    (hS : ∀ i l, S' (g.row i) (g.worker l) = a ^ 2 * S i l) (hq : ∀ i l, q' (g.row i) (g.worker l) = q i l) :
    rhoUpdate X' Y' S' q' = rhoUpdate X Y S q := by
  have key : ∀ Z Z' : Fin ni → Fin nl → ℝ, (∀ i l, Z' (g.row i) (g.worker l) = a * Z i l) →
      ∑ l, ∑ i, X' i l * (q' i l / S' i l) * Z' i l = ∑ l, ∑ i, X i l * (q i l / S i l) * Z i l := by
    intro Z Z' hZ
    rw [← Equiv.sum_comp g.worker]
    refine sum_congr rfl fun l _ => ?_
    rw [← Equiv.sum_comp g.row]
    refine sum_congr rfl fun i _ => ?_
    rw [hX, hZ, hS, hq, div_eq_mul_inv, div_eq_mul_inv, mul_inv]
    have : a ^ 2 * (a ^ 2)⁻¹ = 1 := mul_inv_cancel₀ (by positivity)
    calc a * X i l * (q i l * ((a ^ 2)⁻¹ * (S i l)⁻¹)) * (a * Z i l)
        = (a ^ 2 * (a ^ 2)⁻¹) * (X i l * (q i l * (S i l)⁻¹) * Z i l) := by ring
      _ = _ := by rw [this, one_mul]
  unfold rhoUpdate
  simp only
  rw [key X X' hX, key Y Y' hY]

theorem rhosMv_ren (hd : g.SameData d d') (hb : g.SameParams b b') (o o' : MvOpts) (h12 : o'.upd12 = o.upd12)
    (h43 : o'.upd43 = o.upd43) (h32 : o'.upd32 = o.upd32) (r : Rhos) {q q' : Fin ni → Fin nl → ℝ}
    (hq : ∀ i l, q' (g.row i) (g.worker l) = q i l) : rhosMv d' o' b' r q' = rhosMv d o b r q := by
  have ha : ∀ i l p, b'.a (g.worker l) (fun t => d'.G t (g.row i)) p = g.scale * b.a l (fun t => d.G t i) p :=
    fun i l p => a_ren hb l (fun t => hd.type t i) p
  have hs : ∀ i l p, b'.s2 (g.worker l) (fun t => d'.G t (g.row i)) p = g.scale ^ 2 * b.s2 l (fun t => d.G t i) p :=
    fun i l p => s2_ren hb l (fun t => hd.type t i) p
  unfold rhosMv update12 update43 update32m xx12 yy12 ss12
  simp only [h12, h43, h32]
  rw [rhoUpdate_ren (g := g) g.scale_pos (X := fun i l => (d.y i).y2 - b.a l (fun t => d.G t i) .p2ma)
      (Y := fun i l => (d.y i).y1 - b.a l (fun t => d.G t i) .p12)
      (S := fun i l => b.s2 l (fun t => d.G t i) .p12 + r.R12 ^ 2 * b.s2 l (fun t => d.G t i) .p2ma) _ _ _ hq,
    rhoUpdate_ren (g := g) g.scale_pos (X := fun i l => (d.y i).y3 - b.a l (fun t => d.G t i) .p3ma)
      (Y := fun i l => (d.y i).y4 - b.a l (fun t => d.G t i) .p43)
      (S := fun i l => b.s2 l (fun t => d.G t i) .p43 + r.R43 ^ 2 * b.s2 l (fun t => d.G t i) .p3ma) _ _ _ hq,
    rhoUpdate_ren (g := g) g.scale_pos
      (X := fun i l => (d.y i).y2 - (b.a l (fun t => d.G t i) .p2ma + b.a l (fun t => d.G t i) .p2mb))
      (Y := fun i l => (d.y i).y3 - (b.a l (fun t => d.G t i) .p3ma + b.a l (fun t => d.G t i) .p3mb))
      (S := fun i l => b.s2 l (fun t => d.G t i) .p3ma + b.s2 l (fun t => d.G t i) .p3mb +
        r.R32 ^ 2 * (b.s2 l (fun t => d.G t i) .p2ma + b.s2 l (fun t => d.G t i) .p2mb)) _ _ _ hq]
  all_goals
    intro i l
    simp only [ha, hs, hd.y1, hd.y2, hd.y3, hd.y4]
    ring

theorem update32s_ren (hd : g.SameData d d') (hb : g.SameParams b b') (r : Rhos) {q q' : Fin ni → Fin nl → ℝ}
    (hq : ∀ i l, q' (g.row i) (g.worker l) = q i l) :
    update32s d'.y (fun i l p => b'.Aw p l (d'.G 0 i)) (fun i l p => b'.Sw p l (d'.G 0 i) ^ 2) r q' =
      update32s d.y (fun i l p => b.Aw p l (d.G 0 i)) (fun i l p => b.Sw p l (d.G 0 i) ^ 2) r q := by
  unfold update32s
  refine rhoUpdate_ren (g := g) g.scale_pos ?_ ?_ ?_ hq
  all_goals
    intro i l
    simp only [hd.type, hb.Aw, hb.Sw, hd.y2, hd.y3]
    ring

/-! ## The regressions -/

/-- Renumbering of the parameters: worker type, period (unchanged), firm type. -/
def idx {P : Type} (g : Spec.Rewriting ni nl nk) : Equiv.Perm (Fin nl × P × Fin nk) :=
  g.worker.prodCongr ((Equiv.refl P).prodCongr g.firm)

theorem XwX_ren {T P : Type} [Fintype T] [DecidableEq P] {w w' : Fin nl → T × Fin ni → ℝ} {X X' : T × Fin ni → P × Fin nk → ℝ}
    (hX : ∀ t i p k, X' (t, g.row i) (p, g.firm k) = X (t, i) (p, k))
    (hw : ∀ t i l, w' (g.worker l) (t, g.row i) = g.scale⁻¹ * w l (t, i)) (δ : ℝ) (a b : Fin nl × P × Fin nk) :
    XwX w' X' (δ / g.scale) (g.idx a) (g.idx b) = g.scale⁻¹ * XwX w X δ a b := by
  unfold XwX
  have e1 : (g.idx a).1 = (g.idx b).1 ↔ a.1 = b.1 := g.worker.injective.eq_iff
  have e2 : g.idx a = g.idx b ↔ a = b := g.idx.injective.eq_iff
  have e3 : ∑ s, w' (g.idx a).1 s * X' s (g.idx a).2 * X' s (g.idx b).2 =
      g.scale⁻¹ * ∑ s, w a.1 s * X s a.2 * X s b.2 := by
    rw [Fintype.sum_prod_type, Fintype.sum_prod_type, mul_sum]
    refine sum_congr rfl fun t _ => ?_
    rw [← Equiv.sum_comp g.row, mul_sum]
    refine sum_congr rfl fun i _ => ?_
    obtain ⟨l, p, k⟩ := a
    obtain ⟨l', p', k'⟩ := b
    show w' (g.worker l) (t, g.row i) * X' (t, g.row i) (p, g.firm k) * X' (t, g.row i) (p', g.firm k') = _
    rw [hX, hX, hw]
    ring
  simp only [e1, e2, e3]
  split <;> split <;> ring

theorem XwV_ren {T P : Type} [Fintype T] {w w' : Fin nl → T × Fin ni → ℝ} {X X' : T × Fin ni → P × Fin nk → ℝ}
    {Y Y' : Fin nl → T × Fin ni → ℝ} {m : ℝ}
    (hX : ∀ t i p k, X' (t, g.row i) (p, g.firm k) = X (t, i) (p, k))
    (hw : ∀ t i l, w' (g.worker l) (t, g.row i) = g.scale⁻¹ * w l (t, i))
    (hY : ∀ t i l, Y' (g.worker l) (t, g.row i) = m * Y l (t, i)) (a : Fin nl × P × Fin nk) :
    XwV w' X' Y' (g.idx a) = g.scale⁻¹ * m * XwV w X Y a := by
  unfold XwV
  rw [Fintype.sum_prod_type, Fintype.sum_prod_type, mul_sum]
  refine sum_congr rfl fun t _ => ?_
  rw [← Equiv.sum_comp g.row, mul_sum]
  refine sum_congr rfl fun i _ => ?_
  obtain ⟨l, p, k⟩ := a
  show w' (g.worker l) (t, g.row i) * X' (t, g.row i) (p, g.firm k) * Y' (g.worker l) (t, g.row i) = _
  rw [hX, hY, hw]
  ring

theorem div_sqrt_scale {a q v : ℝ} (ha : 0 < a) : q / √(a ^ 2 * v) = a⁻¹ * (q / √v) := by
  rw [Real.sqrt_mul (sq_nonneg a), Real.sqrt_sq ha.le, div_eq_mul_inv, div_eq_mul_inv, mul_inv]
  ring

theorem Xmv_ren {endo state : Bool} (hd : g.SameData d d') (r : Rhos) (t : Fin 4) (i : Fin ni)
    (p : {p : Per // inModel endo state p = true}) (k : Fin nk) :
    Xmv d' r (t, g.row i) (p, g.firm k) = Xmv d r (t, i) (p, k) := by
  unfold Xmv
  simp only [hd.type, g.firm.injective.eq_iff]

theorem Xst_ren (hd : g.SameData d d') (r : Rhos) (t : Fin 2) (i : Fin ni) (p : Fin 2) (k : Fin nk) :
    Xst d' r (t, g.row i) (p, g.firm k) = Xst d r (t, i) (p, k) := by
  unfold Xst
  simp only [hd.type, g.firm.injective.eq_iff]

theorem wMv_ren (hd : g.SameData d d') (hb : g.SameParams b b') (r : Rhos) {q q' : Fin ni → Fin nl → ℝ}
    (hq : ∀ i l, q' (g.row i) (g.worker l) = q i l) (t : Fin 4) (i : Fin ni) (l : Fin nl) :
    wMv d' b' r q' (g.worker l) (t, g.row i) = g.scale⁻¹ * wMv d b r q l (t, i) := by
  unfold wMv
  have : varMv d' b' r (g.worker l) (t, g.row i) = g.scale ^ 2 * varMv d b r l (t, i) := by
    unfold varMv
    fin_cases t <;> simp only [hd.type, hb.Sw, hb.Sb] <;> ring
  rw [this, hq, div_sqrt_scale g.scale_pos]

theorem wSt_ren (hd : g.SameData d d') (hb : g.SameParams b b') (r : Rhos) {q q' : Fin ni → Fin nl → ℝ}
    (hq : ∀ i l, q' (g.row i) (g.worker l) = q i l) (t : Fin 2) (i : Fin ni) (l : Fin nl) :
    wSt d' b' r q' (g.worker l) (t, g.row i) = g.scale⁻¹ * wSt d b r q l (t, i) := by
  unfold wSt
  have : varSt d' b' r (g.worker l) (t, g.row i) = g.scale ^ 2 * varSt d b r l (t, i) := by
    unfold varSt
    fin_cases t <;> simp only [hd.type, hb.Sw] <;> ring
  rw [this, hq, div_sqrt_scale g.scale_pos]

theorem yMv_ren (hd : g.SameData d d') (r : Rhos) (t : Fin 4) (i : Fin ni) :
    yMv d' r (t, g.row i) = g.scale * yMv d r (t, i) := by
  unfold yMv
  fin_cases t <;> simp only [hd.y1, hd.y2, hd.y3, hd.y4] <;> ring

theorem ySt_ren (hd : g.SameData d d') (r : Rhos) (t : Fin 2) (i : Fin ni) :
    ySt d' r (t, g.row i) = g.scale * ySt d r (t, i) := by
  unfold ySt
  fin_cases t
  · exact hd.y2 i
  · simp only [hd.y2, hd.y3]; ring

theorem eMv_ren (hd : g.SameData d d') (hb : g.SameParams b b') (r : Rhos) (t : Fin 4) (i : Fin ni) (l : Fin nl) :
    eMv d' b' r (g.worker l) (t, g.row i) = g.scale ^ 2 * eMv d b r l (t, i) := by
  unfold eMv
  fin_cases t <;> simp only [hd.y1, hd.y2, hd.y3, hd.y4, hd.type, hb.Aw, hb.Ab] <;> ring

theorem eSt_ren (hd : g.SameData d d') (hb : g.SameParams b b') (r : Rhos) (t : Fin 2) (i : Fin ni) (l : Fin nl) :
    eSt d' b' r (g.worker l) (t, g.row i) = g.scale ^ 2 * eSt d b r l (t, i) := by
  unfold eSt
  fin_cases t <;> simp only [hd.y2, hd.y3, hd.type, hb.Aw] <;> ring

theorem sqrt_scale {a v : ℝ} (ha : 0 < a) : √(a ^ 2 * v) = a * √v := by
  rw [Real.sqrt_mul (sq_nonneg a), Real.sqrt_sq ha.le]

/-! ## M-step -/

theorem solveAMv_none [NeZero nl] {endo state : Bool} {solve : QP (Fin nl × JM endo state nk)}
    {P : Fin nl × JM endo state nk → Fin nl × JM endo state nk → ℝ} {v : Fin nl × JM endo state nk → ℝ}
    (h : ∀ x, solve P (fun a => - v a) ≠ .ok (some x)) (b : DBase nl nk) : solveAMv solve P v b = b := by
  unfold solveAMv
  split
  · rename_i x hx; exact absurd hx (h x)
  · rfl
  · rfl

theorem solveSMv_none [NeZero nl] {endo state : Bool} {solve : QP (Fin nl × JM endo state nk)}
    {P : Fin nl × JM endo state nk → Fin nl × JM endo state nk → ℝ} {v : Fin nl × JM endo state nk → ℝ}
    (h : ∀ x, solve P (fun a => - v a) ≠ .ok (some x)) (b : DBase nl nk) : solveSMv solve P v b = b := by
  unfold solveSMv
  split
  · rename_i x hx; exact absurd hx (h x)
  · rfl
  · rfl

theorem solveASt_none {solve : QP (Fin nl × JS nk)}
    {P : Fin nl × JS nk → Fin nl × JS nk → ℝ} {v : Fin nl × JS nk → ℝ}
    (h : ∀ x, solve P (fun a => - v a) ≠ .ok (some x)) (b : DBase nl nk) : solveASt solve P v b = b := by
  unfold solveASt
  split
  · rename_i x hx; exact absurd hx (h x)
  · rfl
  · rfl

theorem solveSSt_none {solve : QP (Fin nl × JS nk)}
    {P : Fin nl × JS nk → Fin nl × JS nk → ℝ} {v : Fin nl × JS nk → ℝ}
    (h : ∀ x, solve P (fun a => - v a) ≠ .ok (some x)) (b : DBase nl nk) : solveSSt solve P v b = b := by
  unfold solveSSt
  split
  · rename_i x hx; exact absurd hx (h x)
  · rfl
  · rfl

theorem solveAMv_ren [NeZero nl] {endo state : Bool} {F F' : (Fin nl × JM endo state nk → ℝ) → Prop}
    {sA sA' : QP (Fin nl × JM endo state nk)} (hs : Spec.SameQP g.idx g.scale F F' sA sA')
    (hflat : ∀ x, F x → Spec.Flat x)
    {P P' : Fin nl × JM endo state nk → Fin nl × JM endo state nk → ℝ} {v v' : Fin nl × JM endo state nk → ℝ}
    (hP : ∀ a b, P' (g.idx a) (g.idx b) = g.scale⁻¹ * P a b) (hv : ∀ a, v' (g.idx a) = g.scale⁻¹ * g.scale * v a)
    (hpd : ∀ x : Fin nl × JM endo state nk → ℝ, x ≠ 0 → 0 < ∑ a, ∑ b, x a * P a b * x b) (hb : g.SameParams b b') :
    g.SameParams (solveAMv sA P v b) (solveAMv sA' P' v' b') := by
  unfold solveAMv
  rcases qp_ren (inv_pos.mpr g.scale_pos) g.scale_pos hs (q := fun a => - v a) (q' := fun a => - v' a) hP
    (fun a => by rw [hv]; ring) hpd with ⟨x, x', e1, e2, hx, hxx⟩ | ⟨h1, h2⟩
  · rw [e1, e2]
    have key : ∀ l p k, x' (g.worker l, p, g.firm k) = g.scale * x (l, p, k) := fun l p k => hxx (l, p, k)
    refine ⟨?_, ?_, hb.Sw, hb.Sb⟩
    · intro p l k
      simp only [writeW]
      split
      · split
        · exact hb.Aw _ _ _
        · exact key _ _ _
      · exact hb.Aw _ _ _
    · intro p k
      simp only [writeB]
      split
      · rename_i hp
        split
        · rename_i hB
          have := key (g.worker.symm 0) ⟨p, hp⟩ k
          rw [g.worker.apply_symm_apply] at this
          rw [this, hflat x hx _ 0 _ _ hB]
        · exact hb.Ab _ _
      · exact hb.Ab _ _
  · have h1 := solveAMv_none h1 b
    have h2 := solveAMv_none h2 b'
    unfold solveAMv at h1 h2
    rw [h1, h2]
    exact hb

theorem solveSMv_ren [NeZero nl] {endo state : Bool} {F F' : (Fin nl × JM endo state nk → ℝ) → Prop}
    {sS sS' : QP (Fin nl × JM endo state nk)} (hs : Spec.SameQP g.idx (g.scale ^ 2) F F' sS sS')
    (hflat : ∀ x, F x → Spec.Flat x)
    (hlow : ∀ x, F x → ∀ l p k, p.1.isB = false → 0 < x (l, p, k))
    {P P' : Fin nl × JM endo state nk → Fin nl × JM endo state nk → ℝ} {v v' : Fin nl × JM endo state nk → ℝ}
    (hP : ∀ a b, P' (g.idx a) (g.idx b) = g.scale⁻¹ * P a b) (hv : ∀ a, v' (g.idx a) = g.scale⁻¹ * g.scale ^ 2 * v a)
    (hpd : ∀ x : Fin nl × JM endo state nk → ℝ, x ≠ 0 → 0 < ∑ a, ∑ b, x a * P a b * x b) (hb : g.SameParams b b') (hpos : PosS b) :
    g.SameParams (solveSMv sS P v b) (solveSMv sS' P' v' b') ∧ PosS (solveSMv sS P v b) := by
  unfold solveSMv
  rcases qp_ren (inv_pos.mpr g.scale_pos) (pow_pos g.scale_pos 2) hs (q := fun a => - v a) (q' := fun a => - v' a) hP
    (fun a => by rw [hv]; ring) hpd with ⟨x, x', e1, e2, hx, hxx⟩ | ⟨h1, h2⟩
  · rw [e1, e2]
    have key : ∀ l p k, √(x' (g.worker l, p, g.firm k)) = g.scale * √(x (l, p, k)) := fun l p k => by
      rw [← sqrt_scale g.scale_pos, ← hxx (l, p, k)]; rfl
    refine ⟨⟨hb.Aw, hb.Ab, ?_, ?_⟩, ?_, ?_⟩
    · intro p l k
      simp only [writeW]
      split
      · split
        · exact hb.Sw _ _ _
        · exact key _ _ _
      · exact hb.Sw _ _ _
    · intro p k
      simp only [writeB]
      split
      · rename_i hp
        split
        · rename_i hB
          have := key (g.worker.symm 0) ⟨p, hp⟩ k
          rw [g.worker.apply_symm_apply] at this
          rw [this, hflat x hx _ 0 _ _ hB]
        · exact hb.Sb _ _
      · exact hb.Sb _ _
    · intro p l k
      simp only [writeW]
      split
      · split
        · exact hpos.1 _ _ _
        · rename_i hB
          exact Real.sqrt_pos.mpr (hlow x hx _ _ _ (by simpa using hB))
      · exact hpos.1 _ _ _
    · intro p k
      simp only [writeB]
      split
      · split
        · exact Real.sqrt_nonneg _
        · exact hpos.2 _ _
      · exact hpos.2 _ _
  · have h1 := solveSMv_none h1 b
    have h2 := solveSMv_none h2 b'
    unfold solveSMv at h1 h2
    rw [h1, h2]
    exact ⟨hb, hpos⟩

theorem solveAMv_S [NeZero nl] {endo state : Bool} (sA : QP (Fin nl × JM endo state nk)) (P) (v) (b : DBase nl nk) :
    (solveAMv sA P v b).Sw = b.Sw ∧ (solveAMv sA P v b).Sb = b.Sb := by
  unfold solveAMv
  split <;> exact ⟨rfl, rfl⟩

theorem mstepMv_ren [NeZero nl] {endo state : Bool} {FA FA' FS FS' : (Fin nl × JM endo state nk → ℝ) → Prop}
    {sA sA' sS sS' : QP (Fin nl × JM endo state nk)} (hsA : Spec.SameQP g.idx g.scale FA FA' sA sA')
    (hsS : Spec.SameQP g.idx (g.scale ^ 2) FS FS' sS sS')
    (hfA : ∀ x, FA x → Spec.Flat x)
    (hfS : ∀ x, FS x → Spec.Flat x)
    (hlow : ∀ x, FS x → ∀ l p k, p.1.isB = false → 0 < x (l, p, k))
    (hd : g.SameData d d') (hb : g.SameParams b b') (hpos : PosS b) (r : Rhos) {q q' : Fin ni → Fin nl → ℝ}
    (hq0 : ∀ i l, 0 ≤ q i l) (hq : ∀ i l, q' (g.row i) (g.worker l) = q i l) (updA updS : Bool) {δ : ℝ} (hδ : 0 < δ) :
    g.SameParams (mstepMv d q b r updA updS δ sA sS) (mstepMv d' q' b' r updA updS (δ / g.scale) sA' sS') ∧
      PosS (mstepMv d q b r updA updS δ sA sS) := by
  have hX := Xmv_ren (endo := endo) (state := state) hd r
  have hw := wMv_ren hd hb r hq
  have hP := XwX_ren hX hw δ
  have hpd := XwX_pdRidge (wMv d b r q) (Xmv (endo := endo) (state := state) d r) δ (wMv_nonneg d b r q hq0) hδ
  unfold mstepMv
  have h1 : g.SameParams
      (if updA then solveAMv sA (XwX (wMv d b r q) (Xmv d r) δ) (XwV (wMv d b r q) (Xmv d r) fun _ => yMv d r) b else b)
      (if updA then solveAMv sA' (XwX (wMv d' b' r q') (Xmv d' r) (δ / g.scale))
        (XwV (wMv d' b' r q') (Xmv d' r) fun _ => yMv d' r) b' else b') := by
    cases updA
    · exact hb
    · exact solveAMv_ren hsA hfA hP (XwV_ren hX hw fun t i l => yMv_ren hd r t i) hpd hb
  have h2 : PosS (if updA then solveAMv sA (XwX (wMv d b r q) (Xmv d r) δ)
      (XwV (wMv d b r q) (Xmv d r) fun _ => yMv d r) b else b) := by
    cases updA
    · exact hpos
    · obtain ⟨e1, e2⟩ := solveAMv_S sA (XwX (wMv d b r q) (Xmv d r) δ) (XwV (wMv d b r q) (Xmv d r) fun _ => yMv d r) b
      unfold PosS
      simp only [if_true, e1, e2]
      exact hpos
  cases updS
  · exact ⟨h1, h2⟩
  · exact solveSMv_ren hsS hfS hlow hP (XwV_ren hX hw fun t i l => eMv_ren hd h1 r t i l) hpd h1 h2

theorem mstepSt_ren {FA FA' FS FS' : (Fin nl × JS nk → ℝ) → Prop} {sA sA' sS sS' : QP (Fin nl × JS nk)}
    (hsA : Spec.SameQP g.idx g.scale FA FA' sA sA') (hsS : Spec.SameQP g.idx (g.scale ^ 2) FS FS' sS sS')
    (hlow : ∀ x, FS x → ∀ a, 0 < x a) (hd : g.SameData d d') (hb : g.SameParams b b') (hpos : PosS b) (r : Rhos)
    {q q' : Fin ni → Fin nl → ℝ} (hq0 : ∀ i l, 0 ≤ q i l) (hq : ∀ i l, q' (g.row i) (g.worker l) = q i l)
    (updA updS : Bool) {δ : ℝ} (hδ : 0 < δ) :
    g.SameParams (mstepSt d q b r updA updS δ sA sS) (mstepSt d' q' b' r updA updS (δ / g.scale) sA' sS') ∧
      PosS (mstepSt d q b r updA updS δ sA sS) := by
  have hX := Xst_ren hd r
  have hw := wSt_ren hd hb r hq
  have hP := XwX_ren hX hw δ
  have hpd := XwX_pdRidge (wSt d b r q) (Xst d r) δ (wSt_nonneg d b r q hq0) hδ
  unfold mstepSt
  have hk := inv_pos.mpr g.scale_pos
  obtain ⟨h1, h2⟩ : g.SameParams
      (if updA then solveASt sA (XwX (wSt d b r q) (Xst d r) δ) (XwV (wSt d b r q) (Xst d r) fun _ => ySt d r) b else b)
      (if updA then solveASt sA' (XwX (wSt d' b' r q') (Xst d' r) (δ / g.scale))
        (XwV (wSt d' b' r q') (Xst d' r) fun _ => ySt d' r) b' else b') ∧
      PosS (if updA then solveASt sA (XwX (wSt d b r q) (Xst d r) δ)
        (XwV (wSt d b r q) (Xst d r) fun _ => ySt d r) b else b) := by
    cases updA
    · exact ⟨hb, hpos⟩
    · simp only [if_true]
      unfold solveASt
      have hv := XwV_ren (Y := fun _ => ySt d r) (Y' := fun _ => ySt d' r) hX hw fun t i _ => ySt_ren hd r t i
      rcases qp_ren hk g.scale_pos hsA (q := fun a => - XwV (wSt d b r q) (Xst d r) (fun _ => ySt d r) a)
        (q' := fun a => - XwV (wSt d' b' r q') (Xst d' r) (fun _ => ySt d' r) a) hP
        (fun a => by rw [hv]; ring) hpd with ⟨x, x', e1, e2, hx, hxx⟩ | ⟨e1, e2⟩
      · rw [e1, e2]
        have key : ∀ l p k, x' (g.worker l, p, g.firm k) = g.scale * x (l, p, k) := fun l p k => hxx (l, p, k)
        refine ⟨⟨?_, hb.Ab, hb.Sw, hb.Sb⟩, hpos⟩
        intro p l k
        simp only [Function.update_apply]
        split
        · exact key _ _ _
        · split
          · exact key _ _ _
          · exact hb.Aw _ _ _
      · have h1 := solveASt_none e1 b
        have h2 := solveASt_none e2 b'
        unfold solveASt at h1 h2
        rw [h1, h2]
        exact ⟨hb, hpos⟩
  cases updS
  · exact ⟨h1, h2⟩
  · simp only [if_true]
    generalize (if updA then solveASt sA (XwX (wSt d b r q) (Xst d r) δ)
      (XwV (wSt d b r q) (Xst d r) fun _ => ySt d r) b else b) = c at h1 h2
    generalize (if updA then solveASt sA' (XwX (wSt d' b' r q') (Xst d' r) (δ / g.scale))
        (XwV (wSt d' b' r q') (Xst d' r) fun _ => ySt d' r) b' else b') = c' at h1
    unfold solveSSt
    have hv := XwV_ren hX hw (eSt_ren hd h1 r)
    rcases qp_ren hk (pow_pos g.scale_pos 2) hsS (q := fun a => - XwV (wSt d b r q) (Xst d r) (eSt d c r) a)
      (q' := fun a => - XwV (wSt d' b' r q') (Xst d' r) (eSt d' c' r) a) hP
      (fun a => by rw [hv]; ring) hpd with ⟨x, x', e1, e2, hx, hxx⟩ | ⟨e1, e2⟩
    · rw [e1, e2]
      have key : ∀ l p k, √(x' (g.worker l, p, g.firm k)) = g.scale * √(x (l, p, k)) := fun l p k => by
        rw [← sqrt_scale g.scale_pos, ← hxx (l, p, k)]; rfl
      refine ⟨⟨h1.Aw, h1.Ab, ?_, h1.Sb⟩, ?_, h2.2⟩
      · intro p l k
        simp only [Function.update_apply]
        split
        · exact key _ _ _
        · split
          · exact key _ _ _
          · exact h1.Sw _ _ _
      · intro p l k
        simp only [Function.update_apply]
        split
        · exact Real.sqrt_pos.mpr (hlow x hx _)
        · split
          · exact Real.sqrt_pos.mpr (hlow x hx _)
          · exact h2.1 _ _ _
    · have h3 := solveSSt_none e1 c
      have h4 := solveSSt_none e2 c'
      unfold solveSSt at h3 h4
      rw [h3, h4]
      exact ⟨h1, h2⟩

/-! ## The loops -/

theorem close_shift (lik K thr : ℝ) (prev : Option ℝ) : close (lik - K) (prev.map (· - K)) thr = close lik prev thr := by
  cases prev with
  | none => rfl
  | some p => simp [close, sub_sub_sub_cancel_right]

end Spec.Rewriting

open Spec.Rewriting

/-- The movers' estimation of the dynamic model: order of rows, numbering of firm types and worker types, and the unit
of wages (with the ridge in that unit) do not matter. -/
theorem C121_movers [NeZero nl] {endo state : Bool} (g : Spec.Rewriting ni nl nk) (hni : 0 < ni) (d d' : DData ni nk)
    (o : MvOpts) (sA sA' sS sS' : QP (Fin nl × JM endo state nk)) (FA FA' FS FS' : (Fin nl × JM endo state nk → ℝ) → Prop)
    (minType minType' : DBase nl nk → ℕ) (φ : ℕ → ℕ) (hφ : Function.Injective φ)
    (hmin : ∀ b b', g.SameParams b b' → minType' b' = φ (minType b)) (hd : g.SameData d d') (hδ : 0 < o.δ)
    (hsA : Spec.SameQP g.idx g.scale FA FA' sA sA') (hsS : Spec.SameQP g.idx (g.scale ^ 2) FS FS' sS sS')
    (hfA : ∀ x, FA x → Spec.Flat x)
    (hfS : ∀ x, FS x → Spec.Flat x)
    (hlow : ∀ x, FS x → ∀ l p k, p.1.isB = false → 0 < x (l, p, k)) (fuel : ℕ) :
    ∀ (iter : ℕ) (prev : Option ℝ) (pm : ℕ) (s s' : MvState nl nk), PosS s.base → g.SameMv s s' →
      Spec.Both g.SameMv (loopMv d o sA sS minType fuel iter prev pm s)
        (loopMv d' { o with δ := o.δ / g.scale } sA' sS' minType' fuel iter (prev.map (· - g.likShift)) (φ pm) s') := by
  induction fuel with
  | zero => intro iter prev pm s s' _ hs; exact hs
  | succ fuel ih =>
    intro iter prev pm s s' hpos hs
    obtain ⟨hb, hr, hp, hl⟩ := hs
    obtain ⟨b', r', pk', liks'⟩ := s'
    obtain ⟨b, r, pk, liks⟩ := s
    simp only at hb hr hp hl hpos
    subst hr hl
    have hlp := lpMv_ren hd hb hpos r' hp
    have hq := post_shift hlp
    have hpk : ∀ (c : Fin nk × Fin nk) l, pk' ((g.firm.prodCongr g.firm c).1.val + nk * (g.firm.prodCongr g.firm c).2.val)
        (g.worker l) = pk (c.1.val + nk * c.2.val) l := fun c l => hp c.1 c.2 l
    have hlik : likOf (lpMv d' b' r' pk') (nk ^ 2) pk' (iter == 0) o.updPk o.dprior =
        likOf (lpMv d b r' pk) (nk ^ 2) pk (iter == 0) o.updPk o.dprior - g.likShift := by
      unfold likOf
      rw [meanLse_shift hni hlp, logPk_ren codes_pairs g.worker (g.firm.prodCongr g.firm) hpk]
      ring
    have hm := hmin _ _ hb
    have hmb : (φ (minType b) == φ pm) = (minType b == pm) := by rw [Bool.eq_iff_iff]; simp [hφ.eq_iff]
    unfold loopMv
    simp only [bind, Except.bind, hlik, close_shift, hm, hmb]
    set lik := likOf (lpMv d b r' pk) (nk ^ 2) pk (iter == 0) o.updPk o.dprior with hlikdef
    have hll : List.map (· - g.likShift) liks ++ [lik - g.likShift] = (liks ++ [lik]).map (· - g.likShift) := by simp
    split
    · exact ⟨hb, rfl, hp, hll⟩
    · have hn := nextPk_ren (n := nk ^ 2) codes_pairs g.row g.worker (g.firm.prodCongr g.firm) (κ := flow d) (κ' := flow d')
        (fun i => ⟨(d.G 0 i, d.G 1 i), rfl, by unfold flow; rw [hd.type, hd.type]; rfl⟩) hq o.updPk o.dprior hpk
      unfold stepMv
      simp only [bind, Except.bind]
      revert hn
      cases nextPk o.updPk (nk ^ 2) (flow d) (posterior (lpMv d b r' pk)) o.dprior pk with
      | error e =>
        cases nextPk o.updPk (nk ^ 2) (flow d') (posterior (lpMv d' b' r' pk')) o.dprior pk' with
        | error e' => exact fun h => h
        | ok v' => exact fun h => h.elim
      | ok v =>
        cases nextPk o.updPk (nk ^ 2) (flow d') (posterior (lpMv d' b' r' pk')) o.dprior pk' with
        | error e' => exact fun h => h.elim
        | ok v' =>
          intro hn
          have hv : g.SamePk1 v v' := fun k1 k2 l => hn (k1, k2) l
          simp only
          cases hc : (o.upd12 || o.upd43 || o.upd32) && iter % 2 == 1
          · cases hu : o.updA || o.updS
            · simp only [Bool.false_eq_true, if_false]
              exact ih _ (some lik) _ _ _ hpos ⟨hb, rfl, hv, hll⟩
            · simp only [Bool.false_eq_true, if_false, if_true]
              obtain ⟨h1, h2⟩ := mstepMv_ren hsA hsS hfA hfS hlow hd hb hpos r' (fun i l => (posterior_pos _ i l).le) hq
                o.updA o.updS hδ
              exact ih _ (some lik) _ _ _ h2 ⟨h1, rfl, hv, hll⟩
          · simp only [if_true]
            exact ih _ (some lik) _ _ _ hpos
              ⟨hb, (rhosMv_ren hd hb o { o with δ := o.δ / g.scale } rfl rfl rfl r' hq), hv, hll⟩

/-- The same for stayers. -/
theorem C121_stayers [NeZero nl] (g : Spec.Rewriting ni nl nk) (hni : 0 < ni) (d d' : DData ni nk)
    (o : StOpts) (sA sA' sS sS' : QP (Fin nl × JS nk)) (FA FA' FS FS' : (Fin nl × JS nk → ℝ) → Prop)
    (hd : g.SameData d d') (hδ : 0 < o.δ)
    (hsA : Spec.SameQP g.idx g.scale FA FA' sA sA') (hsS : Spec.SameQP g.idx (g.scale ^ 2) FS FS' sS sS')
    (hlow : ∀ x, FS x → ∀ a, 0 < x a) (fuel : ℕ) :
    ∀ (iter : ℕ) (prev : Option ℝ) (s s' : StState nl nk), PosS s.base → g.SameSt s s' →
      Spec.Both g.SameSt (loopSt d o sA sS fuel iter prev s)
        (loopSt d' { o with δ := o.δ / g.scale } sA' sS' fuel iter (prev.map (· - g.likShift)) s') := by
  induction fuel with
  | zero => intro iter prev s s' _ hs; exact hs
  | succ fuel ih =>
    intro iter prev s s' hpos hs
    obtain ⟨hb, hr, hp, hl⟩ := hs
    obtain ⟨b', r', pk', liks'⟩ := s'
    obtain ⟨b, r, pk, liks⟩ := s
    simp only at hb hr hp hl hpos
    subst hr hl
    have hlp := lpSt_ren hd hb hpos r' hp
    have hq := post_shift hlp
    have hlik : likOf (lpSt d' b' r' pk') nk pk' (iter == 0) o.updPk o.dprior =
        likOf (lpSt d b r' pk) nk pk (iter == 0) o.updPk o.dprior - g.likShift := by
      unfold likOf
      rw [meanLse_shift hni hlp, logPk_ren codes_fin g.worker g.firm hp]
      ring
    unfold loopSt
    simp only [bind, Except.bind, hlik, close_shift]
    set lik := likOf (lpSt d b r' pk) nk pk (iter == 0) o.updPk o.dprior with hlikdef
    have hll : List.map (· - g.likShift) liks ++ [lik - g.likShift] = (liks ++ [lik]).map (· - g.likShift) := by simp
    split
    · exact ⟨hb, rfl, hp, hll⟩
    · have hn := nextPk_ren (n := nk) codes_fin g.row g.worker g.firm (κ := fun i => (d.G 0 i).val)
        (κ' := fun i => (d'.G 0 i).val) (fun i => ⟨d.G 0 i, rfl, by simp only [hd.type]⟩) hq o.updPk o.dprior hp
      unfold stepSt
      simp only [bind, Except.bind]
      revert hn
      cases nextPk o.updPk nk (fun i => (d.G 0 i).val) (posterior (lpSt d b r' pk)) o.dprior pk with
      | error e =>
        cases nextPk o.updPk nk (fun i => (d'.G 0 i).val) (posterior (lpSt d' b' r' pk')) o.dprior pk' with
        | error e' => exact fun h => h
        | ok v' => exact fun h => h.elim
      | ok v =>
        cases nextPk o.updPk nk (fun i => (d'.G 0 i).val) (posterior (lpSt d' b' r' pk')) o.dprior pk' with
        | error e' => exact fun h => h.elim
        | ok v' =>
          intro hv
          simp only
          cases hc : o.updRho && iter % 2 == 1
          · cases hu : o.updA || o.updS
            · simp only [Bool.false_eq_true, if_false]
              exact ih _ (some lik) _ _ hpos ⟨hb, rfl, hv, hll⟩
            · simp only [Bool.false_eq_true, if_false, if_true]
              obtain ⟨h1, h2⟩ := mstepSt_ren hsA hsS hlow hd hb hpos r' (fun i l => (posterior_pos _ i l).le) hq
                o.updA o.updS hδ
              exact ih _ (some lik) _ _ h2 ⟨h1, rfl, hv, hll⟩
          · simp only [if_true]
            exact ih _ (some lik) _ _ hpos ⟨hb, by rw [update32s_ren hd hb r' hq], hv, hll⟩

/-! ## The hypotheses can be met -/

/-- Every data set can be rewritten. -/
theorem Spec.Rewriting.exists_data (g : Spec.Rewriting ni nl nk) (d : DData ni nk) : ∃ d', g.SameData d d' :=
  ⟨⟨fun i => let y := d.y (g.row.symm i); ⟨g.scale * y.y1, g.scale * y.y2, g.scale * y.y3, g.scale * y.y4⟩,
    fun t i => g.firm (d.G t (g.row.symm i))⟩, by constructor <;> intros <;> simp⟩

/-- Every set of starting values can be rewritten. -/
theorem Spec.Rewriting.exists_params (g : Spec.Rewriting ni nl nk) (b : DBase nl nk) : ∃ b', g.SameParams b b' :=
  ⟨⟨fun p l k => g.scale * b.Aw p (g.worker.symm l) (g.firm.symm k), fun p k => g.scale * b.Ab p (g.firm.symm k),
    fun p l k => g.scale * b.Sw p (g.worker.symm l) (g.firm.symm k), fun p k => g.scale * b.Sb p (g.firm.symm k)⟩,
    by constructor <;> intros <;> simp⟩

theorem Spec.Rewriting.exists_pk1 (g : Spec.Rewriting ni nl nk) (pk : ℕ → Fin nl → ℝ) : ∃ pk', g.SamePk1 pk pk' := by
  classical
  refine ⟨fun p l => if h : ∃ c : Fin nk × Fin nk, c.1.val + nk * c.2.val = p then
    pk ((g.firm.symm h.choose.1).val + nk * (g.firm.symm h.choose.2).val) (g.worker.symm l) else 0, fun k1 k2 l => ?_⟩
  have h : ∃ c : Fin nk × Fin nk, c.1.val + nk * c.2.val = (g.firm k1).val + nk * (g.firm k2).val :=
    ⟨(g.firm k1, g.firm k2), rfl⟩
  show dite _ _ _ = _
  rw [dif_pos h]
  have e : h.choose = (g.firm k1, g.firm k2) := codes_pairs.inj h.choose_spec
  rw [e]
  simp

/-- Every state of the movers' estimation can be rewritten. -/
theorem Spec.Rewriting.exists_mv (g : Spec.Rewriting ni nl nk) (s : MvState nl nk) : ∃ s', g.SameMv s s' := by
  obtain ⟨b', hb⟩ := g.exists_params s.base
  obtain ⟨pk', hp⟩ := g.exists_pk1 s.pk1
  exact ⟨⟨b', s.r, pk', _⟩, hb, rfl, hp, rfl⟩

/-- Solvers as in `C121_movers`: no constraint on means and a lower bound on variances, besides the equality of the
effects of the periods `'2mb'` and `'3mb'` across worker types; the bound is in the new unit. -/
theorem C121_movers_solvers (g : Spec.Rewriting ni nl nk) {endo state : Bool} {lb : ℝ} (hlb : 0 < lb) :
    ∃ (sA sA' sS sS' : QP (Fin nl × JM endo state nk)) (FA FS FS' : (Fin nl × JM endo state nk → ℝ) → Prop),
      FA = Spec.Flat ∧
      FS = (fun x => Spec.Flat x ∧ ∀ a, lb ≤ x a) ∧
      FS' = (fun x => Spec.Flat x ∧ ∀ a, g.scale ^ 2 * lb ≤ x a) ∧
      Spec.SameQP g.idx g.scale FA FA sA sA' ∧ Spec.SameQP g.idx (g.scale ^ 2) FS FS' sS sS' ∧
      (∀ x, FS x → ∀ l p k, p.1.isB = false → 0 < x (l, p, k)) := by
  have hcl : IsClosed {x : Fin nl × JM endo state nk → ℝ | Spec.Flat x} := by
    simp only [Spec.Flat, Set.ofPred_forall]
    exact isClosed_iInter fun l => isClosed_iInter fun l' => isClosed_iInter fun p => isClosed_iInter fun k =>
      isClosed_iInter fun _ => isClosed_eq (continuous_apply _) (continuous_apply _)
  have hcl2 : ∀ c : ℝ, IsClosed {x : Fin nl × JM endo state nk → ℝ | ∀ a, c ≤ x a} := by
    intro c
    rw [Set.ofPred_forall]
    exact isClosed_iInter fun a => isClosed_le continuous_const (continuous_apply a)
  obtain ⟨sA, hA⟩ := rightQP_exists _ hcl
  obtain ⟨sS, hS⟩ := rightQP_exists (fun x : Fin nl × JM endo state nk → ℝ =>
    Spec.Flat x ∧ ∀ a, lb ≤ x a) (hcl.inter (hcl2 lb))
  obtain ⟨sS', hS'⟩ := rightQP_exists (fun x : Fin nl × JM endo state nk → ℝ =>
    Spec.Flat x ∧ ∀ a, g.scale ^ 2 * lb ≤ x a) (hcl.inter (hcl2 _))
  have hflat : ∀ m : ℝ, 0 < m → ∀ x x' : Fin nl × JM endo state nk → ℝ, (∀ a, x' (g.idx a) = m * x a) →
      (Spec.Flat x' ↔ Spec.Flat x) := by
    intro m hm x x' h
    have key : ∀ l p k, x' (g.worker l, p, g.firm k) = m * x (l, p, k) := fun l p k => h (l, p, k)
    constructor
    · intro H l l' p k hp
      have := H (g.worker l) (g.worker l') p (g.firm k) hp
      rw [key, key] at this
      exact mul_left_cancel₀ hm.ne' this
    · intro H l l' p k hp
      rw [← g.worker.apply_symm_apply l, ← g.worker.apply_symm_apply l', ← g.firm.apply_symm_apply k, key, key, H _ _ p _ hp]
  refine ⟨sA, sA, sS, sS', _, _, _, rfl, rfl, rfl, ⟨hA, hA, ?_, hflat _ g.scale_pos⟩, ⟨hS, hS', ?_, ?_⟩,
    fun x hx l p k _ => lt_of_lt_of_le hlb (hx.2 _)⟩
  · intro x y hx hy l l' p k hp
    show (_ + _) / 2 = (_ + _) / 2
    rw [hx l l' p k hp, hy l l' p k hp]
  · rintro x y ⟨hx, hx2⟩ ⟨hy, hy2⟩
    refine ⟨fun l l' p k hp => ?_, fun a => ?_⟩
    · show (_ + _) / 2 = (_ + _) / 2
      rw [hx l l' p k hp, hy l l' p k hp]
    · have := hx2 a
      have := hy2 a
      show lb ≤ (_ + _) / 2
      linarith
  · intro x x' h
    have hs2 : 0 < g.scale ^ 2 := pow_pos g.scale_pos 2
    refine and_congr (hflat _ hs2 x x' h) ⟨fun H a => ?_, fun H a => ?_⟩
    · have := H (g.idx a)
      rw [h] at this
      exact le_of_mul_le_mul_left this hs2
    · rw [← g.idx.apply_symm_apply a, h]
      exact mul_le_mul_of_nonneg_left (H _) hs2.le

/-- Solvers as in `C121_stayers`. -/
theorem C121_stayers_solvers (g : Spec.Rewriting ni nl nk) {lb : ℝ} (hlb : 0 < lb) :
    ∃ (sA sA' sS sS' : QP (Fin nl × JS nk)), Spec.SameQP g.idx g.scale (fun _ => True) (fun _ => True) sA sA' ∧
      Spec.SameQP g.idx (g.scale ^ 2) (fun x => ∀ a, lb ≤ x a) (fun x => ∀ a, g.scale ^ 2 * lb ≤ x a) sS sS' ∧
      (∀ x : Fin nl × JS nk → ℝ, (∀ a, lb ≤ x a) → ∀ a, 0 < x a) := by
  obtain ⟨sA, hA⟩ := rightQP_free (Fin nl × JS nk)
  obtain ⟨sS, hS⟩ := rightQP_bound (Fin nl × JS nk) lb
  obtain ⟨sS', hS'⟩ := rightQP_bound (Fin nl × JS nk) (g.scale ^ 2 * lb)
  have hs2 : 0 < g.scale ^ 2 := pow_pos g.scale_pos 2
  refine ⟨sA, sA, sS, sS', ⟨hA, hA, fun _ _ _ _ => trivial, fun _ _ _ => Iff.rfl⟩, ⟨hS, hS', ?_, ?_⟩,
    fun x hx a => lt_of_lt_of_le hlb (hx a)⟩
  · intro x y hx hy a
    have := hx a
    have := hy a
    show lb ≤ (_ + _) / 2
    linarith
  · intro x x' h
    refine ⟨fun H a => ?_, fun H a => ?_⟩
    · have := H (g.idx a)
      rw [h] at this
      exact le_of_mul_le_mul_left this hs2
    · rw [← g.idx.apply_symm_apply a, h]
      exact mul_le_mul_of_nonneg_left (H _) hs2.le

/-- The average mean wage of a firm type over worker types, from which the lowest type is found; blm_dynamic.py:1296-1305
(`A_mean` for the three values of `primary_period`). -/
noncomputable def firmMean (c1 c2 : ℝ) (b : DBase nl nk) (k : Fin nk) : ℝ :=
  (∑ l, (c1 * b.Aw .p12 l k + c2 * b.Aw .p43 l k)) / nl

/-- When firm types keep their numbers, the lowest firm type stays the same, however ties are broken: sorting only
compares the averages. -/
theorem C121_min_type (g : Spec.Rewriting ni nl nk) (hg : g.firm = Equiv.refl _) (c1 c2 : ℝ)
    (sel : (Fin nk → Fin nk → Prop) → ℕ) (b b' : DBase nl nk) (h : g.SameParams b b') :
    sel (fun j k => firmMean c1 c2 b' j < firmMean c1 c2 b' k) = sel (fun j k => firmMean c1 c2 b j < firmMean c1 c2 b k) := by
  have e : ∀ k, firmMean c1 c2 b' k = g.scale * firmMean c1 c2 b k := by
    intro k
    unfold firmMean
    rw [← Equiv.sum_comp g.worker, ← mul_div_assoc, mul_sum]
    congr 1
    refine sum_congr rfl fun l _ => ?_
    have h1 := h.Aw .p12 l k
    have h2 := h.Aw .p43 l k
    rw [hg] at h1 h2
    simp only [Equiv.refl_apply] at h1 h2
    rw [h1, h2]; ring
  congr 1
  funext j k
  rw [e, e]
  exact propext (mul_lt_mul_iff_right₀ g.scale_pos)

/-- Non-vacuity of `C121_movers`: three movers, two worker types and two firm types, all renumbered, wages in cents. -/
example (d : DData 3 2) (s : MvState 2 2) (hs : PosS s.base) (o : MvOpts) (hδ : 0 < o.δ) (fuel : ℕ) :
    ∃ (g : Spec.Rewriting 3 2 2) (d' : DData 3 2) (s' : MvState 2 2) (sA sA' sS sS' : QP (Fin 2 × JM true true 2)),
      g.scale = 100 ∧ g.firm 0 = 1 ∧ g.worker 0 = 1 ∧ g.row 0 = 2 ∧ g.SameData d d' ∧ g.SameMv s s' ∧
      Spec.Both g.SameMv (loopMv d o sA sS (fun _ => 0) fuel 0 none 0 s)
        (loopMv d' { o with δ := o.δ / 100 } sA' sS' (fun _ => 0) fuel 0 none 0 s') := by
  let g : Spec.Rewriting 3 2 2 := ⟨Equiv.swap 0 2, Equiv.swap 0 1, Equiv.swap 0 1, 100, by norm_num⟩
  obtain ⟨d', hd⟩ := g.exists_data d
  obtain ⟨s', hs'⟩ := g.exists_mv s
  obtain ⟨sA, sA', sS, sS', FA, FS, FS', e1, e2, -, h1, h2, h3⟩ := C121_movers_solvers g (endo := true) (state := true)
    (lb := 1) one_pos
  refine ⟨g, d', s', sA, sA', sS, sS', rfl, rfl, rfl, rfl, hd, hs', ?_⟩
  exact C121_movers g (by norm_num) d d' o sA sA' sS sS' FA FA FS FS' (fun _ => 0) (fun _ => 0) id Function.injective_id
    (fun _ _ _ => rfl) hd hδ h1 h2 (fun x hx => by rw [e1] at hx; exact hx) (fun x hx => by rw [e2] at hx; exact hx.1) h3
    fuel 0 none 0 s s' hs hs'

/-! ## Units and constants matter through the ridge -/

/-- One stayer with one firm type and one worker type, wage `y` in periods 2 and 3. -/
def oneStayer (y : ℝ) : DData 1 1 := ⟨fun _ => ⟨0, y, y, 0⟩, fun _ _ => 0⟩

/-- Starting values: means `m`, standard deviations `σ`, no persistence. -/
def oneStart (m σ : ℝ) : StState 1 1 :=
  ⟨⟨fun _ _ _ => m, fun _ _ => 0, fun _ _ _ => σ, fun _ _ => 0⟩, ⟨0, 0, 0⟩, fun _ _ => 1, []⟩

/-- Only means are updated. -/
def oneOpts (δ : ℝ) : StOpts := ⟨true, false, false, false, 1, 0, 0, δ⟩

theorem oneStayer_run (y m σ δ : ℝ) (hσ : 0 < σ) (hδ : 0 < δ) (sA sS : QP (Fin 1 × JS 1))
    (hA : RightQP (fun _ => True) sA) : ∃ s, loopSt (oneStayer y) (oneOpts δ) sA sS 1 0 none (oneStart m σ) = .ok s ∧
      s.base.Aw .p2s 0 0 = y / (1 + σ * δ) := by
  have hq : ∀ (lp : Fin 1 → Fin 1 → ℝ) i l, posterior lp i l = 1 := by
    intro lp i l
    have := posterior_sum lp i
    rw [Fin.sum_univ_one] at this
    rw [Subsingleton.elim l 0, this]
  have hw : ∀ (Q : Fin 1 → Fin 1 → ℝ), (∀ i l, Q i l = 1) → ∀ l s,
      wSt (oneStayer y) (oneStart m σ).base (oneStart m σ).r Q l s = 1 / σ := by
    intro Q hQ l s
    unfold wSt varSt
    obtain ⟨t, i⟩ := s
    have : √(σ ^ 2) = σ := Real.sqrt_sq hσ.le
    fin_cases t <;> simp [oneStart, hQ, this]
  set Q := posterior (lpSt (oneStayer y) (oneStart m σ).base (oneStart m σ).r (oneStart m σ).pk0) with hQ
  have hsol := hA.eq (XwX (wSt (oneStayer y) (oneStart m σ).base (oneStart m σ).r Q) (Xst (oneStayer y) (oneStart m σ).r) δ)
    (fun a => - XwV (wSt (oneStayer y) (oneStart m σ).base (oneStart m σ).r Q) (Xst (oneStayer y) (oneStart m σ).r)
      (fun _ => ySt (oneStayer y) (oneStart m σ).r) a) (fun _ => y / (1 + σ * δ))
    (by
      intro a b
      unfold XwX
      by_cases h : a = b
      · subst h; rfl
      · have h' : ¬ b = a := fun e => h e.symm
        simp only [h, h', if_false, add_zero]
        have h1 : a.1 = b.1 := Subsingleton.elim _ _
        simp only [h1, if_true]
        exact sum_congr rfl fun s _ => by ring)
    (XwX_pdRidge _ _ δ (wSt_nonneg _ _ _ _ fun i l => (posterior_pos _ i l).le) hδ) trivial
    (by
      rintro ⟨l, t, k⟩
      have hk : k = 0 := Subsingleton.elim _ _
      have hl : l = 0 := Subsingleton.elim _ _
      subst hk hl
      have hσ' := hσ.ne'
      have : 1 + σ * δ ≠ 0 := by positivity
      simp only [neg_neg, XwX, XwV, hw Q (hq _), Fintype.sum_prod_type, Fin.sum_univ_one, Fin.sum_univ_two]
      fin_cases t <;> simp [Xst, oneStayer, oneStart, ySt] <;> field_simp)
  unfold loopSt
  simp only [bind, Except.bind, close, Bool.false_eq_true, if_false, stepSt, nextPk, oneOpts, Bool.false_and,
    Bool.true_or, if_true, mstepSt, solveASt, ← hQ]
  simp only [hsol]
  refine ⟨_, rfl, ?_⟩
  simp

/-- The unit of wages does matter when the ridge is the same number in both runs: for every `d_X_diag > 1` there are data
and starting values which, in another unit, give other estimates. -/
theorem C121_units (δ : ℝ) (hδ : 0 < δ) (sA sS sS' : QP (Fin 1 × JS 1)) (hA : RightQP (fun _ => True) sA) :
    ∃ (g : Spec.Rewriting 1 1 1) (d d' : DData 1 1) (s s' : StState 1 1), g.SameData d d' ∧ g.SameSt s s' ∧ PosS s.base ∧
      ¬ Spec.Both g.SameSt (loopSt d (oneOpts δ) sA sS 1 0 none s) (loopSt d' (oneOpts δ) sA sS' 1 0 none s') := by
  refine ⟨⟨1, 1, 1, 2, by norm_num⟩, oneStayer 1, ⟨fun _ => ⟨0, 2, 2, 0⟩, fun _ _ => 0⟩, oneStart 0 1, oneStart 0 2,
    ?_, ?_, ?_, ?_⟩
  · constructor <;> intros <;> simp [oneStayer]
  · refine ⟨?_, rfl, fun _ _ => rfl, rfl⟩
    constructor <;> intros <;> simp [oneStart]
  · exact ⟨fun _ _ _ => one_pos, fun _ _ => le_rfl⟩
  · obtain ⟨s1, e1, h1⟩ := oneStayer_run 1 0 1 δ one_pos hδ sA sS hA
    obtain ⟨s2, e2, h2⟩ := oneStayer_run 2 0 2 δ two_pos hδ sA sS' hA
    have e2 : loopSt (⟨fun _ => ⟨0, 2, 2, 0⟩, fun _ _ => 0⟩ : DData 1 1) (oneOpts δ) sA sS' 1 0 none (oneStart 0 2) = .ok s2 := e2
    rw [e1, e2]
    intro h
    have := h.params.Aw .p2s 0 0
    simp only [Equiv.Perm.coe_one, id_eq] at this
    rw [h1, h2] at this
    field_simp at this
    nlinarith

/-- Adding a constant to all wages and to the starting means does not add it to the estimated means: the ridge pulls
them towards zero. -/
theorem C121_constant (δ c : ℝ) (hδ : 0 < δ) (hc : c ≠ 0) (sA sS sS' : QP (Fin 1 × JS 1)) (hA : RightQP (fun _ => True) sA)
    (y m σ : ℝ) (hσ : 0 < σ) : ∃ s s', loopSt (oneStayer y) (oneOpts δ) sA sS 1 0 none (oneStart m σ) = .ok s ∧
      loopSt (oneStayer (y + c)) (oneOpts δ) sA sS' 1 0 none (oneStart (m + c) σ) = .ok s' ∧
      s'.base.Aw .p2s 0 0 ≠ s.base.Aw .p2s 0 0 + c := by
  obtain ⟨s1, e1, h1⟩ := oneStayer_run y m σ δ hσ hδ sA sS hA
  obtain ⟨s2, e2, h2⟩ := oneStayer_run (y + c) (m + c) σ δ hσ hδ sA sS' hA
  refine ⟨s1, s2, e1, e2, ?_⟩
  rw [h1, h2]
  intro h
  have : 1 + σ * δ ≠ 0 := by positivity
  field_simp at h
  have h3 : c * (σ * δ) = 0 := by linarith
  rcases mul_eq_zero.mp h3 with h | h
  · exact hc h
  · have : 0 < σ * δ := by positivity
    linarith

/-- Non-vacuity of `C121_units` and `C121_constant`: such a solver exists. -/
example : ∃ sA : QP (Fin 1 × JS 1), RightQP (fun _ => True) sA := rightQP_free _

end Pytwoway.Dynamic
