import Verif.FE.Props4

/-! # Approximate leverages: refusal, spread and consistency (C111), part common to both estimators

`_estimate_approximate_leverages` has the same text in fe.py:1527-1618 and fecontrol.py:1435-1526. -/

namespace Pytwoway.FE.Probes

open scoped BigOperators
open FE.Panel (Stayers LevAvg)

variable {n N : ℕ}

/-! ## Model -/

/-- How the step fails: `min`/`max` of an empty array (NumPy `ValueError`), a single stayer (fe.py:1589, 1593), a leverage
of one (1598). -/
inductive LevErr
  | noRows
  | singleStayer
  | leverageOne
  deriving DecidableEq

/-- What the step returns and stores.  Used for fe.py:1573-1618. -/
structure LevOut (n : ℕ) where
  /-- First component of the result. -/
  Pii : Fin n → ℝ
  /-- Second component; `none`: the row is not in the array. -/
  factor : Fin n → Option ℝ
  /-- `res['min_lev']`. -/
  minLev : ℝ
  /-- `res['max_lev']`. -/
  maxLev : ℝ

/-- The facts about the data the step uses: `weighted`, `params['Sii_stayers']`, `worker_m`, and for rows of stayers the
worker and the weight. -/
structure Setting (n : ℕ) where
  weighted : Bool
  st : Stayers
  mover : Fin n → Bool
  worker : Fin n → ℕ
  w : Fin n → ℝ

namespace Setting

variable (s : Setting n)

/-- Rows whose leverages are normalised and looked at: all, or those of movers; fe.py:1574-1581, 1603-1610 and
fecontrol.py:1482-1489, 1509-1518. -/
def rows : Finset (Fin n) :=
  match s.weighted, s.st with
  | false, .upperBound => Finset.univ
  | _, _ => Finset.univ.filter fun o => s.mover o

/-- The test for single stayers, fe.py:1586-1593, fecontrol.py:1494-1501. -/
noncomputable def single : Bool :=
  open Classical in
  match s.st with
  | .firmMean => false
  | .upperBound =>
    if s.weighted then
      decide (∃ o, s.mover o = false ∧ 1 / (∑ b with s.mover b = false ∧ s.worker b = s.worker o, s.w b) = 1)
    else decide (∃ o, s.mover o = false ∧ (Finset.univ.filter fun b => s.mover b = false ∧ s.worker b = s.worker o).card = 1)

/-- Normalised leverages, fe.py:1574-1579, fecontrol.py:1482-1487. -/
noncomputable def norm (v : LevAvg n) (o : Fin n) : ℝ :=
  if o ∈ s.rows then v.Pii o / (v.Pii o + v.Mii o) else v.Pii o

/-- `_estimate_approximate_leverages` after the draws, fe.py:1573-1618, fecontrol.py:1481-1526. -/
noncomputable def finish (ndraw : ℕ) (v : LevAvg n) : Except LevErr (LevOut n) :=
  if h : s.rows.Nonempty then
    let lo := s.rows.inf' h (s.norm v)
    let hi := s.rows.sup' h (s.norm v)
    if hi ≥ 1 then
      if s.single then .error .singleStayer else .error .leverageOne
    else .ok ⟨s.norm v, fun o => if o ∈ s.rows then
        some (FE.Panel.jlaFactor ndraw (s.norm v o) (v.PiiSq o) (v.MiiSq o) (v.PiiMii o)) else none, lo, hi⟩
  else .error .noRows

end Setting

/-! ## Specification -/

namespace Spec

/-- A probe: one sign per row, from `2 * rng.binomial(1, 0.5, nn) - 1`. -/
def sign (b : Bool) : ℝ := if b then 1 else -1

/-- The outcomes of all coin flips for `N` probes. -/
abbrev Flips (N n : ℕ) := Fin N → Fin n → Bool

/-- The probes. -/
def probes (ω : Flips N n) : List (Fin n → ℝ) := List.ofFn fun k o => sign (ω k o)

/-- The average over all outcomes of the flips: the expectation. -/
noncomputable def mean {α : Type*} [Fintype α] (f : α → ℝ) : ℝ := (∑ a, f a) / Fintype.card α

/-- The share of outcomes with a property: the probability. -/
noncomputable def share {α : Type*} [Fintype α] (p : α → Prop) : ℝ :=
  open Classical in (Finset.univ.filter p).card / (Fintype.card α : ℝ)

end Spec

open Spec

/-! ## Coin flips -/

section Flips

theorem sign_sq (b : Bool) : sign b ^ 2 = 1 := by cases b <;> simp [sign]

theorem sum_cons {α : Type*} [Fintype α] (f : (Fin (N + 1) → α) → ℝ) :
    ∑ ω, f ω = ∑ a, ∑ ω, f (Fin.cons a ω) := by
  rw [← Fintype.sum_prod_type' (f := fun a ω => f (Fin.cons a ω))]
  exact (Fintype.sum_equiv (Fin.consEquiv fun _ => α) _ _ fun _ => rfl).symm

theorem mean_cons {α : Type*} [Fintype α] (f : (Fin (N + 1) → α) → ℝ) :
    mean f = mean fun a => mean fun ω => f (Fin.cons a ω) := by
  simp only [mean, sum_cons, ← Finset.sum_div, Fintype.card_fun, Fintype.card_fin]
  rw [div_div, pow_succ]; push_cast; rfl

theorem mean_add {α : Type*} [Fintype α] (f g : α → ℝ) : (mean fun a => f a + g a) = mean f + mean g := by
  simp [mean, Finset.sum_add_distrib, add_div]

theorem mean_sub {α : Type*} [Fintype α] (f g : α → ℝ) : (mean fun a => f a - g a) = mean f - mean g := by
  simp [mean, Finset.sum_sub_distrib, sub_div]

theorem mean_mul {α : Type*} [Fintype α] (c : ℝ) (f : α → ℝ) : (mean fun a => c * f a) = c * mean f := by
  rw [mean, mean, ← Finset.mul_sum, mul_div_assoc]

theorem mean_const {α : Type*} [Fintype α] [Nonempty α] (c : ℝ) : (mean fun _ : α => c) = c := by
  simp [mean]

theorem mean_le {α : Type*} [Fintype α] {f g : α → ℝ} (h : ∀ a, f a ≤ g a) : mean f ≤ mean g := by
  unfold mean; gcongr; exact h _

theorem mean_nonneg {α : Type*} [Fintype α] {f : α → ℝ} (h : ∀ a, 0 ≤ f a) : 0 ≤ mean f :=
  div_nonneg (Finset.sum_nonneg fun a _ => h a) (by positivity)

theorem mean_bool (f : Bool → ℝ) : mean f = (f true + f false) / 2 := by simp [mean]

/-- Second and fourth moment of a linear form in signs. -/
theorem linear_moments : ∀ {n : ℕ} (c : Fin n → ℝ),
    (mean fun z : Fin n → Bool => (∑ b, c b * sign (z b)) ^ 2) = ∑ b, c b ^ 2 ∧
    (mean fun z : Fin n → Bool => (∑ b, c b * sign (z b)) ^ 4) ≤ 3 * (∑ b, c b ^ 2) ^ 2
  | 0, c => by simp [mean]
  | n + 1, c => by
    obtain ⟨h2, h4⟩ := linear_moments fun b => c b.succ
    set Y : (Fin n → Bool) → ℝ := fun z => ∑ b, c b.succ * sign (z b) with hY
    have e : ∀ (a : Bool) (z : Fin n → Bool),
        ∑ b, c b * sign (Fin.cons (α := fun _ => Bool) a z b) = c 0 * sign a + Y z := by
      intro a z; rw [Fin.sum_univ_succ]; simp [hY]
    rw [mean_cons, mean_cons]
    simp only [e]
    rw [mean_bool, mean_bool]
    have hs : ∀ k, ((mean fun z => (c 0 * sign true + Y z) ^ k) + mean fun z => (c 0 * sign false + Y z) ^ k) / 2
        = mean fun z => ((c 0 + Y z) ^ k + (-c 0 + Y z) ^ k) / 2 := by
      intro k
      rw [← mean_add]
      have : ∀ z, ((c 0 + Y z) ^ k + (-c 0 + Y z) ^ k) / 2
          = 2⁻¹ * ((c 0 * sign true + Y z) ^ k + (c 0 * sign false + Y z) ^ k) := by
        intro z; simp [sign]; ring
      simp only [this]
      rw [mean_mul]; ring
    rw [hs, hs]
    have e2 : ∀ z, ((c 0 + Y z) ^ 2 + (-c 0 + Y z) ^ 2) / 2 = c 0 ^ 2 + Y z ^ 2 := fun z => by ring
    have e4 : ∀ z, ((c 0 + Y z) ^ 4 + (-c 0 + Y z) ^ 4) / 2 = (c 0 ^ 4 + 6 * c 0 ^ 2 * Y z ^ 2) + Y z ^ 4 :=
      fun z => by ring
    simp only [e2, e4]
    rw [mean_add, mean_add, mean_add, mean_const, mean_const, mean_mul, h2, Fin.sum_univ_succ]
    refine ⟨rfl, ?_⟩
    set T := ∑ b : Fin n, c b.succ ^ 2 with hT
    nlinarith [sq_nonneg (c 0 ^ 2)]

/-- Spread of the square of a linear form. -/
theorem square_spread (c : Fin n → ℝ) :
    (mean fun z : Fin n → Bool => ((∑ b, c b * sign (z b)) ^ 2 - ∑ b, c b ^ 2) ^ 2) ≤ 2 * (∑ b, c b ^ 2) ^ 2 := by
  obtain ⟨h2, h4⟩ := linear_moments c
  set T := ∑ b, c b ^ 2 with hT
  have e : ∀ z : Fin n → Bool, ((∑ b, c b * sign (z b)) ^ 2 - T) ^ 2
      = (∑ b, c b * sign (z b)) ^ 4 - 2 * T * (∑ b, c b * sign (z b)) ^ 2 + T ^ 2 := fun z => by ring
  simp only [e]
  rw [mean_add (fun z : Fin n → Bool => (∑ b, c b * sign (z b)) ^ 4 - 2 * T * (∑ b, c b * sign (z b)) ^ 2) fun _ => T ^ 2,
    mean_sub, mean_mul, mean_const, h2]
  nlinarith

/-- Mean square of a sum of independent centred terms. -/
theorem sum_spread {α : Type*} [Fintype α] [Nonempty α] (h : α → ℝ) (h0 : mean h = 0) : ∀ N : ℕ,
    (mean fun ω : Fin N → α => ∑ k, h (ω k)) = 0 ∧
    (mean fun ω : Fin N → α => (∑ k, h (ω k)) ^ 2) = N * mean fun a => h a ^ 2
  | 0 => by simp [mean]
  | N + 1 => by
    obtain ⟨h1, h2⟩ := sum_spread h h0 N
    rw [mean_cons, mean_cons]
    simp only [Fin.sum_univ_succ, Fin.cons_zero, Fin.cons_succ]
    have e : ∀ a (ω : Fin N → α), (h a + ∑ k, h (ω k)) ^ 2
        = (h a ^ 2 + 2 * h a * ∑ k, h (ω k)) + (∑ k, h (ω k)) ^ 2 := fun a ω => by ring
    have e1 : ∀ a, (mean fun ω : Fin N → α => h a + ∑ k, h (ω k)) = h a := fun a => by
      rw [mean_add, mean_const, h1, add_zero]
    have e2 : ∀ a, (mean fun ω : Fin N → α => (h a + ∑ k, h (ω k)) ^ 2) = h a ^ 2 + N * mean fun a => h a ^ 2 := by
      intro a
      simp only [e]
      rw [mean_add, mean_add, mean_const, mean_mul, h1, h2, mul_zero, add_zero]
    simp only [e1, e2]
    rw [mean_add, mean_const]
    refine ⟨h0, ?_⟩
    push_cast; ring

theorem mean_spread {α : Type*} [Fintype α] [Nonempty α] (g : α → ℝ) {μ V : ℝ} (hμ : mean g = μ)
    (hV : (mean fun a => (g a - μ) ^ 2) ≤ V) (hN : 0 < N) :
    (mean fun ω : Fin N → α => ((∑ k, g (ω k)) / N - μ) ^ 2) ≤ V / N := by
  have hN' : (0 : ℝ) < N := by exact_mod_cast hN
  have h := (sum_spread (fun a => g a - μ) (by rw [mean_sub, mean_const, hμ, sub_self]) N).2
  have e : ∀ ω : Fin N → α, ((∑ k, g (ω k)) / N - μ) ^ 2 = ((N : ℝ) ^ 2)⁻¹ * (∑ k, (g (ω k) - μ)) ^ 2 := by
    intro ω
    rw [Finset.sum_sub_distrib]
    simp only [Finset.sum_const, Finset.card_univ, Fintype.card_fin, nsmul_eq_mul]
    field_simp
  simp only [e]
  rw [mean_mul, h]
  calc ((N : ℝ) ^ 2)⁻¹ * (N * mean fun a => (g a - μ) ^ 2) = (mean fun a => (g a - μ) ^ 2) / N := by field_simp
    _ ≤ V / N := by gcongr

theorem share_le_of_mean {α : Type*} [Fintype α] {p : α → Prop} {f : α → ℝ} (h0 : ∀ a, 0 ≤ f a) {δ : ℝ} (hδ : 0 < δ)
    (hp : ∀ a, p a → δ ≤ f a) : share p ≤ mean f / δ := by
  classical
  rw [le_div_iff₀ hδ, share, mean, div_mul_eq_mul_div]
  gcongr
  rw [← nsmul_eq_mul, ← Finset.sum_const]
  calc ∑ a ∈ Finset.univ.filter p, δ ≤ ∑ a ∈ Finset.univ.filter p, f a :=
        Finset.sum_le_sum fun a ha => hp a (Finset.mem_filter.1 ha).2
    _ ≤ ∑ a, f a := Finset.sum_le_sum_of_subset_of_nonneg (Finset.filter_subset _ _) fun a _ _ => h0 a

theorem share_eq {α : Type*} [Fintype α] (p : α → Prop) [DecidablePred p] :
    share p = (Finset.univ.filter p).card / (Fintype.card α : ℝ) := by
  unfold share; congr

theorem share_mono {α : Type*} [Fintype α] {p q : α → Prop} (h : ∀ a, p a → q a) : share p ≤ share q := by
  classical
  rw [share_eq, share_eq]
  have : (Finset.univ.filter p).card ≤ (Finset.univ.filter q).card :=
    Finset.card_le_card fun a ha => by
      rw [Finset.mem_filter] at ha ⊢
      exact ⟨ha.1, h a ha.2⟩
  gcongr

theorem share_or {α : Type*} [Fintype α] (p q : α → Prop) : (share fun a => p a ∨ q a) ≤ share p + share q := by
  classical
  rw [share_eq, share_eq, share_eq, ← add_div, Finset.filter_or]
  gcongr
  exact_mod_cast Finset.card_union_le _ _

theorem share_exists {α ι : Type*} [Fintype α] (s : Finset ι) (p : ι → α → Prop) :
    (share fun a => ∃ i ∈ s, p i a) ≤ ∑ i ∈ s, share (p i) := by
  classical
  induction s using Finset.induction_on with
  | empty => simp [share]
  | insert i s hi ih =>
    rw [Finset.sum_insert hi]
    refine le_trans (share_mono fun a ha => ?_) ((share_or (p i) fun a => ∃ i ∈ s, p i a).trans (by linarith))
    obtain ⟨k, hk, hp⟩ := ha
    rcases Finset.mem_insert.1 hk with rfl | hk
    · exact .inl hp
    · exact .inr ⟨k, hk, hp⟩

/-- At most half of the sign vectors make a linear form with a non-zero coefficient vanish. -/
theorem share_zero (c : Fin n → ℝ) (o : Fin n) (hc : c o ≠ 0) :
    (share fun z : Fin n → Bool => ∑ b, c b * sign (z b) = 0) ≤ 1 / 2 := by
  classical
  set A := Finset.univ.filter fun z : Fin n → Bool => ∑ b, c b * sign (z b) = 0 with hA
  let flip : (Fin n → Bool) → (Fin n → Bool) := fun z => Function.update z o (!z o)
  have hinj : Function.Injective flip := by
    intro x y h
    ext b
    have h1 := congrFun h b
    by_cases hb : b = o
    · subst hb; simpa [flip] using h1
    · simpa [flip, hb] using h1
  have hdisj : Disjoint A (A.image flip) := by
    rw [Finset.disjoint_left]
    intro z hz hz'
    obtain ⟨x, hx, hxz⟩ := Finset.mem_image.1 hz'
    rw [hA, Finset.mem_filter] at hz hx
    have h1 := hz.2; have h2 := hx.2
    rw [← hxz] at h1
    rw [← Finset.add_sum_erase _ _ (Finset.mem_univ o)] at h1 h2
    have : ∑ b ∈ Finset.univ.erase o, c b * sign (flip x b) = ∑ b ∈ Finset.univ.erase o, c b * sign (x b) :=
      Finset.sum_congr rfl fun b hb => by simp [flip, Finset.ne_of_mem_erase hb]
    rw [this] at h1
    have h3 : c o * (sign (flip x o) - sign (x o)) = 0 := by linarith
    rcases mul_eq_zero.1 h3 with h | h
    · exact hc h
    · cases hxo : x o <;> simp [flip, hxo, sign] at h; norm_num at h
  have hcard : 2 * A.card ≤ Fintype.card (Fin n → Bool) := by
    rw [two_mul]
    calc A.card + A.card = A.card + (A.image flip).card := by rw [Finset.card_image_of_injective _ hinj]
      _ = (A ∪ A.image flip).card := (Finset.card_union_of_disjoint hdisj).symm
      _ ≤ _ := Finset.card_le_univ _
  have hpos : (0 : ℝ) < Fintype.card (Fin n → Bool) := by exact_mod_cast Fintype.card_pos
  have : share (fun z : Fin n → Bool => ∑ b, c b * sign (z b) = 0) = A.card / (Fintype.card (Fin n → Bool) : ℝ) := by
    rw [share_eq, hA]
  rw [this, div_le_div_iff₀ hpos two_pos]
  have : (2 * A.card : ℝ) ≤ Fintype.card (Fin n → Bool) := by exact_mod_cast hcard
  linarith

/-- Independent outcomes. -/
theorem share_forall {α : Type*} [Fintype α] (p : α → Prop) (N : ℕ) :
    (share fun ω : Fin N → α => ∀ k, p (ω k)) = share p ^ N := by
  classical
  have : (Finset.univ.filter fun ω : Fin N → α => ∀ k, p (ω k)) = Fintype.piFinset fun _ => Finset.univ.filter p := by
    ext ω; simp [Fintype.mem_piFinset]
  have h2 : (share fun ω : Fin N → α => ∀ k, p (ω k))
      = ((Finset.univ.filter fun ω : Fin N → α => ∀ k, p (ω k)).card : ℝ) / Fintype.card (Fin N → α) := by
    rw [share_eq]
  rw [h2, share_eq p, this, Fintype.card_piFinset_const, Fintype.card_fun, div_pow]
  push_cast; simp

end Flips

/-! ## Averages over probes -/

section Average

/-- The averages of `_leverage_approx` for projections `q`. -/
noncomputable def levAvg (q : (Fin n → ℝ) → Fin n → ℝ) (draws : List (Fin n → ℝ)) : LevAvg n :=
  let P := fun (R2 : Fin n → ℝ) o => (q R2 o) ^ 2
  let M := fun (R2 : Fin n → ℝ) o => (R2 o - q R2 o) ^ 2
  let avg := fun (f : (Fin n → ℝ) → Fin n → ℝ) o =>
    draws.foldl (fun acc R2 => acc + f R2 o) 0 / (draws.length : ℝ)
  { Pii := avg P, PiiSq := avg fun r o => P r o ^ 2, Mii := avg M, MiiSq := avg fun r o => M r o ^ 2,
    PiiMii := avg fun r o => P r o * M r o }

variable {q : (Fin n → ℝ) → Fin n → ℝ}

theorem levAvg_eq (draws : List (Fin n → ℝ)) :
    (∀ o, (levAvg q draws).Pii o = (draws.map fun z => q z o ^ 2).sum / draws.length) ∧
    (∀ o, (levAvg q draws).Mii o = (draws.map fun z => (z o - q z o) ^ 2).sum / draws.length) ∧
    (∀ o, (levAvg q draws).PiiSq o = (draws.map fun z => (q z o ^ 2) ^ 2).sum / draws.length) ∧
    (∀ o, (levAvg q draws).MiiSq o = (draws.map fun z => ((z o - q z o) ^ 2) ^ 2).sum / draws.length) ∧
    (∀ o, (levAvg q draws).PiiMii o = (draws.map fun z => q z o ^ 2 * (z o - q z o) ^ 2).sum / draws.length) := by
  refine ⟨?_, ?_, ?_, ?_, ?_⟩ <;> intro o <;> simp only [levAvg, foldl_add_eq_sum, zero_add]

theorem avg_nonneg {draws : List (Fin n → ℝ)} {f : (Fin n → ℝ) → ℝ} (h : ∀ z ∈ draws, 0 ≤ f z) :
    0 ≤ (draws.map f).sum / (draws.length : ℝ) := by
  refine div_nonneg (List.sum_nonneg fun x hx => ?_) (by positivity)
  obtain ⟨z, hz, rfl⟩ := List.mem_map.1 hx
  exact h z hz

theorem avg_le {draws : List (Fin n → ℝ)} {f : (Fin n → ℝ) → ℝ} {c : ℝ} (hc : 0 ≤ c) (h : ∀ z ∈ draws, f z ≤ c) :
    (draws.map f).sum / (draws.length : ℝ) ≤ c := by
  rcases draws.eq_nil_or_concat with rfl | ⟨_, _, hne⟩
  · simpa using hc
  · have hl : (0 : ℝ) < draws.length := by rw [hne]; simp; positivity
    rw [div_le_iff₀ hl]
    have := List.sum_le_card_nsmul (draws.map f) c fun x hx => by
      obtain ⟨z, hz, rfl⟩ := List.mem_map.1 hx
      exact h z hz
    rw [List.length_map, nsmul_eq_mul] at this
    linarith

/-- With signs as probes the divisor is positive. -/
theorem pos_of_signs {draws : List (Fin n → ℝ)} (hne : draws ≠ []) (hsgn : ∀ z ∈ draws, ∀ o, z o = 1 ∨ z o = -1)
    (o : Fin n) : 0 ≤ (levAvg q draws).Pii o ∧ 0 ≤ (levAvg q draws).Mii o ∧
      0 < (levAvg q draws).Pii o + (levAvg q draws).Mii o := by
  obtain ⟨h1, h3, -⟩ := levAvg_eq (q := q) draws
  have hlen : (0 : ℝ) < draws.length := by exact_mod_cast List.length_pos_iff.mpr hne
  rw [h1, h3]
  refine ⟨avg_nonneg fun z _ => sq_nonneg _, avg_nonneg fun z _ => sq_nonneg _, ?_⟩
  rw [← add_div]
  refine div_pos ?_ hlen
  rw [← List.sum_map_add]
  apply List.sum_pos
  · intro x hx
    obtain ⟨z, hz, rfl⟩ := List.mem_map.mp hx
    rcases hsgn z hz o with h | h <;> rw [h] <;>
      nlinarith [sq_nonneg (q z o), sq_nonneg (1 - q z o), sq_nonneg (2 * q z o - 1), sq_nonneg (2 * q z o + 1)]
  · simpa using hne

theorem mii_zero {draws : List (Fin n → ℝ)} (hne : draws ≠ []) (o : Fin n) :
    (levAvg q draws).Mii o = 0 ↔ ∀ z ∈ draws, q z o = z o := by
  have hlen : (draws.length : ℝ) ≠ 0 := by exact_mod_cast (List.length_pos_iff.mpr hne).ne'
  rw [(levAvg_eq draws).2.1, div_eq_zero_iff, or_iff_left hlen]
  constructor
  · intro h z hz
    have h1 := List.single_le_sum (l := draws.map fun z => (z o - q z o) ^ 2) (fun x hx => by
      obtain ⟨z, -, rfl⟩ := List.mem_map.1 hx
      exact sq_nonneg _) _ (List.mem_map_of_mem hz)
    rw [h] at h1
    have : z o - q z o = 0 := by
      have := le_antisymm h1 (sq_nonneg _)
      simpa using this
    linarith
  · intro h
    have : draws.map (fun z => (z o - q z o) ^ 2) = draws.map fun _ => (0 : ℝ) :=
      List.map_congr_left fun z hz => by rw [h z hz]; simp
    rw [this]; simp

variable {s : Setting n}

/-- Normalised leverages of signs lie in `[0, 1]`, and are one exactly if no probe leaves a residual. -/
theorem norm_range {draws : List (Fin n → ℝ)} (hne : draws ≠ []) (hsgn : ∀ z ∈ draws, ∀ o, z o = 1 ∨ z o = -1)
    {o : Fin n} (ho : o ∈ s.rows) : 0 ≤ s.norm (levAvg q draws) o ∧ s.norm (levAvg q draws) o ≤ 1 ∧
      (s.norm (levAvg q draws) o = 1 ↔ ∀ z ∈ draws, q z o = z o) := by
  obtain ⟨hP, hM, hPM⟩ := pos_of_signs (q := q) hne hsgn o
  rw [Setting.norm, if_pos ho, ← mii_zero hne, div_le_one hPM, div_eq_one_iff_eq hPM.ne']
  exact ⟨div_nonneg hP hPM.le, by linarith, by constructor <;> intro h <;> linarith⟩

/-- When the step fails. -/
theorem finish_error {draws : List (Fin n → ℝ)} (hne : draws ≠ []) (hsgn : ∀ z ∈ draws, ∀ o, z o = 1 ∨ z o = -1)
    (nd : ℕ) (e : LevErr) : s.finish nd (levAvg q draws) = .error e ↔
      (s.rows = ∅ ∧ e = .noRows) ∨
      ((∃ o ∈ s.rows, ∀ z ∈ draws, q z o = z o) ∧ e = if s.single then .singleStayer else .leverageOne) := by
  unfold Setting.finish
  by_cases h : s.rows.Nonempty
  · rw [dif_pos h]
    have hex : s.rows.sup' h (s.norm (levAvg q draws)) ≥ 1 ↔ ∃ o ∈ s.rows, ∀ z ∈ draws, q z o = z o := by
      rw [ge_iff_le, Finset.le_sup'_iff]
      refine exists_congr fun o => and_congr_right fun ho => ?_
      obtain ⟨-, h1, h2⟩ := norm_range (q := q) hne hsgn ho
      rw [← h2]
      exact ⟨fun hx => le_antisymm h1 hx, fun hx => hx.ge⟩
    have hne' : s.rows ≠ ∅ := h.ne_empty
    simp only [hex]
    by_cases hx : ∃ o ∈ s.rows, ∀ z ∈ draws, q z o = z o
    · simp only [hne', false_and, false_or, hx, true_and]
      rw [if_pos trivial]
      split <;> exact ⟨fun h => (Except.error.inj h).symm, fun h => h ▸ rfl⟩
    · simp [hne', hx]
  · rw [dif_neg h]
    have h' : s.rows = ∅ := Finset.not_nonempty_iff_eq_empty.1 h
    rw [h']
    simp only [true_and, Finset.notMem_empty, false_and, exists_false, or_false]
    exact ⟨fun h => (Except.error.inj h).symm, fun h => h ▸ rfl⟩

/-- What the step returns. -/
theorem finish_ok {v : LevAvg n} {nd : ℕ} {out : LevOut n} (h : s.finish nd v = .ok out) :
    out.Pii = s.norm v ∧ (∀ o ∈ s.rows, out.minLev ≤ out.Pii o ∧ out.Pii o ≤ out.maxLev) ∧
    (∃ o ∈ s.rows, out.Pii o = out.minLev) ∧ (∃ o ∈ s.rows, out.Pii o = out.maxLev) ∧ out.maxLev < 1 ∧
    ∀ o, out.factor o = if o ∈ s.rows then
      some (FE.Panel.jlaFactor nd (out.Pii o) (v.PiiSq o) (v.MiiSq o) (v.PiiMii o)) else none := by
  unfold Setting.finish at h
  split at h
  · next hr =>
    simp only at h
    split at h
    · split at h <;> exact absurd h (by simp)
    · next hlt =>
      obtain rfl := (Except.ok.inj h).symm
      refine ⟨rfl, fun o ho => ⟨Finset.inf'_le _ ho, Finset.le_sup' _ ho⟩, ?_, ?_, not_le.1 hlt, fun o => rfl⟩
      · obtain ⟨o, ho, he⟩ := Finset.exists_mem_eq_inf' hr (s.norm v)
        exact ⟨o, ho, he.symm⟩
      · obtain ⟨o, ho, he⟩ := Finset.exists_mem_eq_sup' hr (s.norm v)
        exact ⟨o, ho, he.symm⟩
  · exact absurd h (by simp)

end Average

/-! ## Projections -/

/-- `q` is a symmetric projection with diagonal `lev`. -/
structure Proj (q : (Fin n → ℝ) → Fin n → ℝ) (lev : Fin n → ℝ) : Prop where
  ex : ∃ S : Fin n → Fin n → ℝ, (∀ z o, q z o = ∑ b, S o b * z b) ∧ (∀ o, S o o = lev o) ∧ ∀ o, ∑ b, S o b ^ 2 = lev o

section Proj

variable {q : (Fin n → ℝ) → Fin n → ℝ} {lev : Fin n → ℝ} {s : Setting n}

theorem probes_ne (hN : 0 < N) (ω : Flips N n) : probes ω ≠ [] := by
  rw [probes, ne_eq, List.ofFn_eq_nil_iff]; exact hN.ne'

theorem probes_sign (ω : Flips N n) : ∀ z ∈ probes ω, ∀ o, z o = 1 ∨ z o = -1 := by
  intro z hz o
  rw [probes, List.mem_ofFn] at hz
  obtain ⟨k, rfl⟩ := hz
  show sign (ω k o) = 1 ∨ sign (ω k o) = -1
  generalize ω k o = b
  cases b <;> simp [sign]

theorem probes_avg (ω : Flips N n) (f : (Fin n → ℝ) → ℝ) : ((probes ω).map f).sum / ((probes ω).length : ℝ)
    = (∑ k, f fun o => sign (ω k o)) / N := by
  rw [probes, List.map_ofFn, List.sum_ofFn, List.length_ofFn]; rfl

/-- Residual of a row as a linear form. -/
theorem Proj.res (hq : Proj q lev) (o : Fin n) : ∃ c : Fin n → ℝ, (∀ z, z o - q z o = ∑ b, c b * z b) ∧ c o = 1 - lev o ∧
    ∑ b, c b ^ 2 = 1 - lev o := by
  obtain ⟨S, hS, hd, h2⟩ := hq.ex
  refine ⟨fun b => (if o = b then 1 else 0) - S o b, fun z => ?_, by simp [hd], ?_⟩
  · simp [hS, sub_mul, Finset.sum_sub_distrib]
  · have : ∀ b, ((if o = b then (1 : ℝ) else 0) - S o b) ^ 2 = (if o = b then 1 - 2 * S o o else 0) + S o b ^ 2 := by
      intro b
      split
      · next h => subst h; ring
      · ring
    simp only [this, Finset.sum_add_distrib, Finset.sum_ite_eq, Finset.mem_univ, if_true, h2, hd]
    ring

theorem Proj.range (hq : Proj q lev) (o : Fin n) : 0 ≤ lev o ∧ lev o ≤ 1 := by
  obtain ⟨S, -, -, h2⟩ := hq.ex
  obtain ⟨c, -, -, hc⟩ := hq.res o
  have h1 : 0 ≤ 1 - lev o := hc ▸ Finset.sum_nonneg fun b _ => sq_nonneg _
  exact ⟨h2 o ▸ Finset.sum_nonneg fun b _ => sq_nonneg _, by linarith⟩

/-- A row of leverage one leaves no residual. -/
theorem Proj.one (hq : Proj q lev) {o : Fin n} (ho : lev o = 1) (z : Fin n → ℝ) : q z o = z o := by
  obtain ⟨c, h1, -, h2⟩ := hq.res o
  rw [ho, sub_self, Finset.sum_eq_zero_iff_of_nonneg fun b _ => sq_nonneg _] at h2
  have : z o - q z o = 0 := by
    rw [h1]; exact Finset.sum_eq_zero fun b hb => by rw [pow_eq_zero_iff two_ne_zero |>.1 (h2 b hb), zero_mul]
  linarith

theorem Proj.refusal (hq : Proj q lev) (hl : ∀ o ∈ s.rows, lev o ≠ 1) (hr : s.rows.Nonempty) (hN : 0 < N) (nd : ℕ) :
    (share fun ω : Flips N n => ∃ e, s.finish nd (levAvg q (probes ω)) = .error e) ≤ s.rows.card / 2 ^ N := by
  have h1 : ∀ o ∈ s.rows, (share fun ω : Flips N n => ∀ z ∈ probes ω, q z o = z o) ≤ (1 / 2) ^ N := by
    intro o ho
    obtain ⟨c, hc, hco, -⟩ := hq.res o
    have e : ∀ ω : Flips N n, (∀ z ∈ probes ω, q z o = z o) → ∀ k, ∑ b, c b * sign (ω k b) = 0 := by
      intro ω h k
      have := h (fun b => sign (ω k b)) (by rw [probes, List.mem_ofFn]; exact ⟨k, rfl⟩)
      rw [← hc (fun b => sign (ω k b)), this, sub_self]
    refine (share_mono e).trans ?_
    rw [share_forall fun z : Fin n → Bool => ∑ b, c b * sign (z b) = 0]
    refine pow_le_pow_left₀ (by unfold share; positivity) (share_zero c o ?_) N
    rw [hco]; exact sub_ne_zero.2 (hl o ho).symm
  refine (share_mono (q := fun ω => ∃ o ∈ s.rows, ∀ z ∈ probes ω, q z o = z o) fun ω h => ?_).trans
    ((share_exists _ _).trans ?_)
  · obtain ⟨e, he⟩ := h
    rcases (finish_error (probes_ne hN ω) (probes_sign ω) nd e).1 he with h | h
    · exact absurd h.1 hr.ne_empty
    · exact h.1
  · refine (Finset.sum_le_sum h1).trans (le_of_eq ?_)
    rw [Finset.sum_const, nsmul_eq_mul, one_div, inv_pow]; rfl

/-- Mean-square error of the averages. -/
theorem Proj.spread (hq : Proj q lev) (hN : 0 < N) (o : Fin n) :
    (mean fun ω : Flips N n => ((levAvg q (probes ω)).Pii o - lev o) ^ 2) ≤ 2 * lev o ^ 2 / N ∧
    (mean fun ω : Flips N n => ((levAvg q (probes ω)).Mii o - (1 - lev o)) ^ 2) ≤ 2 * (1 - lev o) ^ 2 / N := by
  obtain ⟨S, hS, -, h2⟩ := hq.ex
  obtain ⟨c, hc, -, hc2⟩ := hq.res o
  constructor
  · have := mean_spread (N := N) (fun z : Fin n → Bool => (∑ b, S o b * sign (z b)) ^ 2) (linear_moments _).1
      (square_spread _) hN
    rw [h2] at this
    refine le_trans (le_of_eq ?_) this
    congr 1; ext ω
    rw [(levAvg_eq _).1, probes_avg]
    simp only [hS]
  · have := mean_spread (N := N) (fun z : Fin n → Bool => (∑ b, c b * sign (z b)) ^ 2) (linear_moments _).1
      (square_spread _) hN
    rw [hc2] at this
    refine le_trans (le_of_eq ?_) this
    congr 1; ext ω
    rw [(levAvg_eq _).2.1, probes_avg]
    have e : ∀ k, sign (ω k o) - q (fun o => sign (ω k o)) o = ∑ b, c b * sign (ω k b) :=
      fun k => hc fun b => sign (ω k b)
    simp only [e]

/-- One row: probability that its normalised leverage is off by `ε`. -/
theorem Proj.accuracy_row (hq : Proj q lev) (hN : 0 < N) {o : Fin n} (ho : o ∈ s.rows) {ε : ℝ} (hε : 0 < ε) :
    (share fun ω : Flips N n => ε ≤ |s.norm (levAvg q (probes ω)) o - lev o|) ≤ 2 * (1 + 2 * ε) ^ 2 / (N * ε ^ 2) := by
  obtain ⟨hl0, hl1⟩ := hq.range o
  obtain ⟨hP, hM⟩ := hq.spread hN o
  set δ := ε / (1 + 2 * ε) with hδ
  have hδ0 : 0 < δ := by positivity
  have hN' : (0 : ℝ) < N := by exact_mod_cast hN
  have key : ∀ ω : Flips N n, ε ≤ |s.norm (levAvg q (probes ω)) o - lev o| →
      δ ^ 2 ≤ ((levAvg q (probes ω)).Pii o - lev o) ^ 2 ∨ δ ^ 2 ≤ ((levAvg q (probes ω)).Mii o - (1 - lev o)) ^ 2 := by
    intro ω h
    by_contra hcon
    push Not at hcon
    obtain ⟨a1, a2⟩ := hcon
    obtain ⟨-, -, hpos⟩ := pos_of_signs (q := q) (probes_ne hN ω) (probes_sign ω) o
    rw [Setting.norm, if_pos ho] at h
    set a := (levAvg q (probes ω)).Pii o
    set b := (levAvg q (probes ω)).Mii o
    have b1 := abs_lt_of_sq_lt_sq a1 hδ0.le
    have b2 := abs_lt_of_sq_lt_sq a2 hδ0.le
    rw [abs_lt] at b1 b2
    have e : a / (a + b) - lev o = ((1 - lev o) * (a - lev o) - lev o * (b - (1 - lev o))) / (a + b) := by
      field_simp; ring
    have hsum : 1 - 2 * δ < a + b := by linarith
    have hδe : δ = ε * (1 - 2 * δ) := by rw [hδ]; field_simp; ring
    have hnum : |(1 - lev o) * (a - lev o) - lev o * (b - (1 - lev o))| ≤ δ := by
      rw [abs_le]; constructor <;> nlinarith
    rw [e, abs_div, abs_of_pos hpos, le_div_iff₀ hpos] at h
    nlinarith
  refine (share_mono key).trans ((share_or _ _).trans ?_)
  have s1 := share_le_of_mean (p := fun ω : Flips N n => δ ^ 2 ≤ ((levAvg q (probes ω)).Pii o - lev o) ^ 2)
    (fun ω => sq_nonneg _) (show 0 < δ ^ 2 by positivity) fun ω h => h
  have s2 := share_le_of_mean (p := fun ω : Flips N n => δ ^ 2 ≤ ((levAvg q (probes ω)).Mii o - (1 - lev o)) ^ 2)
    (fun ω => sq_nonneg _) (show 0 < δ ^ 2 by positivity) fun ω h => h
  have s1' := s1.trans (div_le_div_of_nonneg_right hP (by positivity))
  have s2' := s2.trans (div_le_div_of_nonneg_right hM (by positivity))
  refine (add_le_add s1' s2').trans ?_
  have : 2 * lev o ^ 2 / N / δ ^ 2 + 2 * (1 - lev o) ^ 2 / N / δ ^ 2
      = 2 * (1 + 2 * ε) ^ 2 / (N * ε ^ 2) * (lev o ^ 2 + (1 - lev o) ^ 2) := by
    rw [hδ]; field_simp
  rw [this]
  have h1 : lev o ^ 2 + (1 - lev o) ^ 2 ≤ 1 := by nlinarith
  have h2 : 0 ≤ 2 * (1 + 2 * ε) ^ 2 / (N * ε ^ 2) := by positivity
  nlinarith

/-- The correction factor is close to one. -/
theorem factor_near {P A B C K : ℝ} (hP0 : 0 ≤ P) (hP1 : P < 1) (hA : 0 ≤ A ∧ A ≤ K) (hB : 0 ≤ B ∧ B ≤ K)
    (hC : 0 ≤ C ∧ C ≤ K) (hN : 0 < N) : |FE.Panel.jlaFactor N P A B C - 1| ≤ 4 * K / (N * (1 - P) ^ 2) := by
  have hN' : (0 : ℝ) < N := by exact_mod_cast hN
  have hM : 0 < 1 - P := by linarith
  have hK : 0 ≤ K := hA.1.trans hA.2
  have e : FE.Panel.jlaFactor N P A B C - 1 = -(((1 - P) ^ 2 * A + P ^ 2 * B - 2 * P * (1 - P) * C
      + (1 - P) * ((1 - P) * A - P * B + 2 * ((1 - P) - P) * C)) / (N * (1 - P) ^ 2)) := by
    unfold FE.Panel.jlaFactor; simp only; field_simp; ring
  rw [e, abs_neg, abs_div, abs_of_pos (show 0 < (N : ℝ) * (1 - P) ^ 2 by positivity)]
  gcongr
  obtain ⟨a0, a1⟩ := hA; obtain ⟨b0, b1⟩ := hB; obtain ⟨c0, c1⟩ := hC
  have p1 : 0 ≤ P * (1 - P) := mul_nonneg hP0 hM.le
  have e2 : (1 - P) ^ 2 * A + P ^ 2 * B - 2 * P * (1 - P) * C
      + (1 - P) * ((1 - P) * A - P * B + 2 * ((1 - P) - P) * C)
      = 2 * (1 - P) ^ 2 * A + (P ^ 2 - P * (1 - P)) * B + (2 * (1 - P) ^ 2 - 4 * (P * (1 - P))) * C := by ring
  rw [e2, abs_le]
  have q1 : 0 ≤ (1 - P) ^ 2 := by positivity
  have q2 : 0 ≤ P ^ 2 := by positivity
  have q3 : (1 - P) ^ 2 + P ^ 2 + 2 * (P * (1 - P)) = 1 := by ring
  have t1 := mul_nonneg q1 a0; have t1' := mul_le_mul_of_nonneg_left a1 q1
  have t2 := mul_nonneg q2 b0; have t2' := mul_le_mul_of_nonneg_left b1 q2
  have t3 := mul_nonneg p1 b0; have t3' := mul_le_mul_of_nonneg_left b1 p1
  have t4 := mul_nonneg q1 c0; have t4' := mul_le_mul_of_nonneg_left c1 q1
  have t5 := mul_nonneg p1 c0; have t5' := mul_le_mul_of_nonneg_left c1 p1
  have k1 := mul_nonneg q1 hK; have k2 := mul_nonneg q2 hK; have k3 := mul_nonneg p1 hK
  have k4 : (1 - P) ^ 2 * K + P ^ 2 * K + 2 * (P * (1 - P) * K) = K := by
    rw [← one_mul K, ← q3]; ring
  constructor <;> nlinarith

/-- The averages of squares are bounded. -/
theorem Proj.sq_bounds (hq : Proj q lev) (ω : Flips N n) (o : Fin n) :
    let v := levAvg q (probes ω)
    (0 ≤ v.PiiSq o ∧ v.PiiSq o ≤ (n : ℝ) ^ 2) ∧ (0 ≤ v.MiiSq o ∧ v.MiiSq o ≤ (n : ℝ) ^ 2) ∧
    (0 ≤ v.PiiMii o ∧ v.PiiMii o ≤ (n : ℝ) ^ 2) := by
  intro v
  obtain ⟨S, hS, -, h2⟩ := hq.ex
  obtain ⟨c, hc, -, hc2⟩ := hq.res o
  obtain ⟨hl0, hl1⟩ := hq.range o
  have hz : ∀ z ∈ probes ω, ∑ b, z b ^ 2 = n := by
    intro z hz
    have : ∀ b, z b ^ 2 = 1 := fun b => by rcases probes_sign ω z hz b with h | h <;> rw [h] <;> norm_num
    simp [this]
  have h1 : ∀ z ∈ probes ω, q z o ^ 2 ≤ n := by
    intro z hz'
    rw [hS]
    refine (Finset.sum_mul_sq_le_sq_mul_sq _ _ _).trans ?_
    rw [h2, hz z hz']
    exact mul_le_of_le_one_left (by positivity) hl1
  have h1' : ∀ z ∈ probes ω, (z o - q z o) ^ 2 ≤ n := by
    intro z hz'
    rw [hc]
    refine (Finset.sum_mul_sq_le_sq_mul_sq _ _ _).trans ?_
    rw [hc2, hz z hz']
    exact mul_le_of_le_one_left (by positivity) (by linarith)
  obtain ⟨-, -, e3, e4, e5⟩ := levAvg_eq (q := q) (probes ω)
  simp only [v, e3, e4, e5]
  refine ⟨⟨avg_nonneg fun z _ => by positivity, avg_le (by positivity) fun z hz => ?_⟩,
    ⟨avg_nonneg fun z _ => by positivity, avg_le (by positivity) fun z hz => ?_⟩,
    ⟨avg_nonneg fun z _ => by positivity, avg_le (by positivity) fun z hz => ?_⟩⟩
  · exact pow_le_pow_left₀ (sq_nonneg _) (h1 z hz) 2
  · exact pow_le_pow_left₀ (sq_nonneg _) (h1' z hz) 2
  · rw [sq (n : ℝ)]; exact mul_le_mul (h1 z hz) (h1' z hz) (sq_nonneg _) (by positivity)

open Filter Topology

/-- Success, with all leverages and corrected ratios close to the exact ones, becomes certain as probes are added. -/
theorem Proj.consistent (hq : Proj q lev) (hl : ∀ o ∈ s.rows, lev o ≠ 1) (hr : s.rows.Nonempty) {ε : ℝ} (hε : 0 < ε) :
    Tendsto (fun N : ℕ => share fun ω : Flips N n => ¬ ∃ out, s.finish N (levAvg q (probes ω)) = .ok out ∧
      ∀ o ∈ s.rows, |out.Pii o - lev o| < ε ∧
        ∃ f, out.factor o = some f ∧ |f / (1 - out.Pii o) - 1 / (1 - lev o)| < ε) atTop (𝓝 0) := by
  classical
  -- one row
  have hm : ∀ o ∈ s.rows, 0 < 1 - lev o := fun o ho => by
    have := (hq.range o).2
    have := hl o ho
    rcases lt_or_eq_of_le (hq.range o).2 with h | h
    · linarith
    · exact absurd h this
  let η : Fin n → ℝ := fun o => min ε (min ((1 - lev o) / 2) (ε * (1 - lev o) ^ 2 / 8))
  have hη : ∀ o ∈ s.rows, 0 < η o := fun o ho => by
    have := hm o ho
    simp only [η]; positivity
  -- the factor
  have hfac : ∀ o ∈ s.rows, ∀ᶠ N : ℕ in atTop, 0 < N ∧ 4 * (n : ℝ) ^ 2 / (N * ((1 - lev o) / 2) ^ 2) < ε * (1 - lev o) / 4 := by
    intro o ho
    have := hm o ho
    have ht : Tendsto (fun N : ℕ => 4 * (n : ℝ) ^ 2 / ((1 - lev o) / 2) ^ 2 / (N : ℝ)) atTop (𝓝 0) :=
      tendsto_const_div_atTop_nhds_zero_nat _
    have h1 := ht.eventually (gt_mem_nhds (show 0 < ε * (1 - lev o) / 4 by positivity))
    filter_upwards [h1, eventually_gt_atTop 0] with N h2 h3
    refine ⟨h3, lt_of_eq_of_lt ?_ h2⟩
    rw [div_div, mul_comm (N : ℝ)]
  have hev : ∀ᶠ N : ℕ in atTop, ∀ o ∈ s.rows, 0 < N ∧
      4 * (n : ℝ) ^ 2 / (N * ((1 - lev o) / 2) ^ 2) < ε * (1 - lev o) / 4 := by
    rw [Filter.eventually_all_finset]; exact hfac
  have hub : ∀ᶠ N : ℕ in atTop, (share fun ω : Flips N n => ¬ ∃ out, s.finish N (levAvg q (probes ω)) = .ok out ∧
      ∀ o ∈ s.rows, |out.Pii o - lev o| < ε ∧
        ∃ f, out.factor o = some f ∧ |f / (1 - out.Pii o) - 1 / (1 - lev o)| < ε)
      ≤ ∑ o ∈ s.rows, 2 * (1 + 2 * η o) ^ 2 / η o ^ 2 / (N : ℝ) := by
    filter_upwards [hev] with N hN
    obtain ⟨o1, ho1⟩ := hr
    have hN0 := (hN o1 ho1).1
    have hN' : (0 : ℝ) < N := by exact_mod_cast hN0
    refine (share_mono (q := fun ω : Flips N n => ∃ o ∈ s.rows, η o ≤ |s.norm (levAvg q (probes ω)) o - lev o|)
      fun ω h => ?_).trans ((share_exists _ _).trans (Finset.sum_le_sum fun o ho => ?_))
    · by_contra hcon
      push Not at hcon
      apply h
      have hlt : ∀ o ∈ s.rows, (1 - lev o) / 2 < 1 - s.norm (levAvg q (probes ω)) o := by
        intro o ho
        have h1 := (hcon o ho).trans_le ((min_le_right _ _).trans (min_le_left _ _))
        rw [abs_lt] at h1; linarith
      cases hf : s.finish N (levAvg q (probes ω)) with
      | error e =>
        rcases (finish_error (probes_ne hN0 ω) (probes_sign ω) N e).1 hf with h1 | ⟨⟨o, ho, h1⟩, -⟩
        · rw [h1.1] at ho1; exact absurd ho1 (by simp)
        · have h2 := (norm_range (probes_ne hN0 ω) (probes_sign ω) ho).2.2.2 h1
          have h3 := hlt o ho
          rw [h2] at h3
          have := hm o ho
          linarith
      | ok out =>
        obtain ⟨hP, -, -, -, -, hfc⟩ := finish_ok hf
        refine ⟨out, rfl, fun o ho => ?_⟩
        have hmo := hm o ho
        have h1 := hcon o ho
        have h2 := hlt o ho
        rw [hP]
        refine ⟨h1.trans_le (min_le_left _ _), _, by rw [hfc, if_pos ho], ?_⟩
        rw [hP]
        set P := s.norm (levAvg q (probes ω)) o with hPd
        obtain ⟨b1, b2, b3⟩ := hq.sq_bounds ω o
        have hP0 := (norm_range (s := s) (q := q) (probes_ne hN0 ω) (probes_sign ω) ho).1
        have hP1 : P < 1 := by linarith
        have hfn := factor_near hP0 hP1 b1 b2 b3 hN0
        set f := FE.Panel.jlaFactor N P ((levAvg q (probes ω)).PiiSq o) ((levAvg q (probes ω)).MiiSq o)
          ((levAvg q (probes ω)).PiiMii o) with hfd
        have hf2 : |f - 1| < ε * (1 - lev o) / 4 := by
          refine (hfn.trans ?_).trans_lt (hN o ho).2
          gcongr
        have h3 : |P - lev o| < ε * (1 - lev o) ^ 2 / 8 := h1.trans_le ((min_le_right _ _).trans (min_le_right _ _))
        have e : f / (1 - P) - 1 / (1 - lev o) = (f - 1) / (1 - P) + (P - lev o) / ((1 - P) * (1 - lev o)) := by
          have : 1 - P ≠ 0 := by linarith
          field_simp; ring
        rw [e]
        refine (abs_add_le _ _).trans_lt ?_
        have hMp : 0 < 1 - P := by linarith
        rw [abs_div, abs_div, abs_of_pos hMp, abs_of_pos (mul_pos hMp hmo)]
        have u1 : |f - 1| / (1 - P) < ε / 2 := by
          rw [div_lt_iff₀ hMp]; nlinarith
        have u2 : |P - lev o| / ((1 - P) * (1 - lev o)) < ε / 2 := by
          rw [div_lt_iff₀ (mul_pos hMp hmo)]
          have : (1 - lev o) / 2 * (1 - lev o) < (1 - P) * (1 - lev o) := mul_lt_mul_of_pos_right h2 hmo
          nlinarith
        linarith
    · refine (hq.accuracy_row hN0 ho (hη o ho)).trans (le_of_eq ?_)
      rw [div_div, mul_comm (N : ℝ)]
  have hlim : Tendsto (fun N : ℕ => ∑ o ∈ s.rows, 2 * (1 + 2 * η o) ^ 2 / η o ^ 2 / (N : ℝ)) atTop (𝓝 0) := by
    have := tendsto_finsetSum (s.rows) fun o _ =>
      tendsto_const_div_atTop_nhds_zero_nat (2 * (1 + 2 * η o) ^ 2 / η o ^ 2)
    simpa using this
  refine tendsto_of_tendsto_of_tendsto_of_le_of_le' tendsto_const_nhds hlim ?_ hub
  exact Eventually.of_forall fun N => by unfold share; positivity

end Proj

end Pytwoway.FE.Probes
