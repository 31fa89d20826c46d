import Verif.Interacted.Linear

/-! # C123: order, numbering, units and normalisation in the interacted estimator -/

namespace Pytwoway.Interacted

open Finset

variable {ni nf : ℕ}

/-! ## Specification -/

/-- Another way of writing down the same data: rows in another order, firms with other numbers, wages in another unit
and counted from another origin. -/
structure Spec.Change (ni nf : ℕ) where
  rows : Equiv.Perm (Fin ni)
  firms : Equiv.Perm (Fin nf)
  a : ℝ
  c : ℝ

/-- `d'` is `d` written down in the other way. -/
structure Spec.Change.SameData (r : Spec.Change ni nf) (d d' : Data ni nf) : Prop where
  y1 : ∀ i, d'.Y1 (r.rows i) = r.a * d.Y1 i + r.c
  y2 : ∀ i, d'.Y2 (r.rows i) = r.a * d.Y2 i + r.c
  j1 : ∀ i, d'.J1 (r.rows i) = r.firms (d.J1 i)
  j2 : ∀ i, d'.J2 (r.rows i) = r.firms (d.J2 i)
  w : ∀ i, d'.D (r.rows i) = d.D i

/-- The options with the normalised firm under its new number. -/
def Spec.Change.opts (r : Spec.Change ni nf) (o : Opts) (hn : o.normFid < nf) : Opts :=
  { o with normFid := (r.firms ⟨o.normFid, hn⟩).val }

/-- The changes under which nothing but names and units should change.  Another origin is excluded for stationary
intercepts with slopes that differ between the periods, because the restriction then is on `a / b`. -/
def Spec.Change.Allowed (r : Spec.Change ni nf) (o : Opts) : Prop :=
  r.a ≠ 0 ∧ (r.c = 0 ∨ o.statA = false ∨ o.statB = true)

/-- The effects in the other way of writing: the same slopes; intercepts in the new unit and from the new origin, less
what makes the intercept of the new firm 0 zero (which shifts every worker's effect by the same amount `k`). -/
structure Spec.Change.SameEffects (r : Spec.Change ni nf) (x x' : Effects nf) : Prop where
  b1 : ∀ j, x'.B1 (r.firms j) = x.B1 j
  b2 : ∀ j, x'.B2 (r.firms j) = x.B2 j
  a12 : ∃ k, (∀ j, x'.A1 (r.firms j) = r.a * x.A1 j + r.c - k * x.B1 j) ∧
    (∀ j, x'.A2 (r.firms j) = r.a * x.A2 j + r.c - k * x.B2 j) ∧ ∀ j : Fin nf, j.val = 0 → x'.A1 j = 0

/-! ## Coefficients by firm -/

/-- Coefficients by firm: inverse slopes and intercepts over slopes. -/
@[ext] structure Coef (nf : ℕ) where
  b1 : Fin nf → ℝ
  b2 : Fin nf → ℝ
  g1 : Fin nf → ℝ
  g2 : Fin nf → ℝ

/-- The restrictions. -/
structure Coef.Ok (o : Opts) (x : Coef nf) : Prop where
  statB : o.statB = true → x.b2 = x.b1
  statA : o.statA = true → x.g2 = x.g1
  zero : ∀ j : Fin nf, j.val = 0 → x.g1 j = 0

/-- From the vector. -/
def readCoef (nf : ℕ) (o : Opts) (β : ℕ → ℝ) : Coef nf where
  b1 j := β j.val
  b2 j := if o.statB then β j.val else β (nf + j.val)
  g1 j := if j.val = 0 then 0 else β (w1 nf o.statB + (j.val - 1))
  g2 j := if o.statA then (if j.val = 0 then 0 else β (w1 nf o.statB + (j.val - 1)))
    else β (w1 nf o.statB + (nf - 1) + j.val)

/-- To the vector. -/
def writeCoef (o : Opts) (x : Coef nf) (c : ℕ) : ℝ :=
  if c < nf then ext nf x.b1 c
  else if c < w1 nf o.statB then ext nf x.b2 (c - nf)
  else if c < w1 nf o.statB + (nf - 1) then ext nf x.g1 (c - w1 nf o.statB + 1)
  else if c < ncol nf o then ext nf x.g2 (c - w1 nf o.statB - (nf - 1))
  else 0

theorem readCoef_ok (o : Opts) (β : ℕ → ℝ) : (readCoef nf o β).Ok o where
  statB h := by funext j; simp [readCoef, h]
  statA h := by funext j; simp [readCoef, h]
  zero j h := by simp [readCoef, h]

theorem read_write (o : Opts) {x : Coef nf} (hx : x.Ok o) : readCoef nf o (writeCoef o x) = x := by
  have hw := w1_ge nf o.statB
  have hb1 : ∀ j : Fin nf, writeCoef o x j.val = x.b1 j := fun j => by
    rw [writeCoef, if_pos j.isLt, ext_lt]
  have hg1 : ∀ j : Fin nf, (if j.val = 0 then 0 else writeCoef o x (w1 nf o.statB + (j.val - 1))) = x.g1 j := by
    intro j
    have := j.isLt
    split
    · rename_i h; exact (hx.zero j h).symm
    · rename_i h
      rw [writeCoef, if_neg (by omega), if_neg (by omega), if_pos (by omega)]
      have : w1 nf o.statB + (j.val - 1) - w1 nf o.statB + 1 = j.val := by omega
      rw [this, ext_lt]
  ext j
  · exact hb1 j
  · simp only [readCoef]
    split
    · rename_i h; rw [hb1, hx.statB h]
    · rename_i h
      have := j.isLt
      have hw' : w1 nf o.statB = nf + nf := by unfold w1; rw [if_neg h]
      rw [writeCoef, if_neg (by omega), if_pos (by omega), Nat.add_sub_cancel_left, ext_lt]
  · exact hg1 j
  · simp only [readCoef]
    split
    · rename_i h; rw [hg1, hx.statA h]
    · rename_i h
      have := j.isLt
      have hc : ncol nf o = w1 nf o.statB + ((nf - 1) + nf) := by unfold ncol w2; rw [if_neg h]
      rw [writeCoef, if_neg (by omega), if_neg (by omega), if_neg (by omega), if_pos (by omega)]
      have : w1 nf o.statB + (nf - 1) + j.val - w1 nf o.statB - (nf - 1) = j.val := by omega
      rw [this, ext_lt]

theorem read_inj (o : Opts) {β β' : ℕ → ℝ} (h : readCoef nf o β = readCoef nf o β') (c : ℕ) (hc : c < ncol nf o) :
    β c = β' c := by
  have hw := w1_ge nf o.statB
  have hb1 := fun j => congrFun (congrArg Coef.b1 h) j
  have hb2 := fun j => congrFun (congrArg Coef.b2 h) j
  have hg1 := fun j => congrFun (congrArg Coef.g1 h) j
  have hg2 := fun j => congrFun (congrArg Coef.g2 h) j
  simp only [readCoef] at hb1 hb2 hg1 hg2
  by_cases h1 : c < nf
  · exact hb1 ⟨c, h1⟩
  by_cases h2 : c < w1 nf o.statB
  · have hB : ¬ o.statB = true := by intro hB; unfold w1 at h2; rw [if_pos hB] at h2; exact h1 h2
    have h3 : c - nf < nf := by unfold w1 at h2; rw [if_neg hB] at h2; omega
    have := hb2 ⟨c - nf, h3⟩
    simp only [if_neg hB] at this
    rwa [show nf + (c - nf) = c by omega] at this
  by_cases h3 : c < w1 nf o.statB + (nf - 1)
  · have := hg1 ⟨c - w1 nf o.statB + 1, by omega⟩
    simp only [Nat.add_eq_zero_iff, one_ne_zero, and_false, if_false] at this
    rwa [show w1 nf o.statB + (c - w1 nf o.statB + 1 - 1) = c by omega] at this
  · have hA : ¬ o.statA = true := by intro hA; unfold ncol w2 at hc; rw [if_pos hA] at hc; exact h3 hc
    have h4 : c - w1 nf o.statB - (nf - 1) < nf := by unfold ncol w2 at hc; rw [if_neg hA] at hc; omega
    have := hg2 ⟨c - w1 nf o.statB - (nf - 1), h4⟩
    simp only [if_neg hA] at this
    rwa [show w1 nf o.statB + (nf - 1) + (c - w1 nf o.statB - (nf - 1)) = c by omega] at this

/-- The residual by firm. -/
def Coef.resid (x : Coef nf) (d : Data ni nf) (i : Fin ni) : ℝ :=
  d.Y2 i * x.b2 (d.J2 i) - d.Y1 i * x.b1 (d.J1 i) + (x.g1 (d.J1 i) - x.g2 (d.J2 i))

theorem resid_read (d : Data ni nf) (o : Opts) (β : ℕ → ℝ) (i : Fin ni) :
    Interacted.resid d o β i = (readCoef nf o β).resid d i := by
  have e : Interacted.resid d o β i =
      ∑ c ∈ range (w1 nf o.statB), X1 d o.statB i c * β c +
        ∑ c ∈ range (w2 nf o.statA), X2 d o.statA i c * β (w1 nf o.statB + c) := sum_hcat _ _ _ _ _ _
  rw [e, sum_X1, sum_X2 d o.statA i fun c => β (w1 nf o.statB + c)]
  simp only [Coef.resid, readCoef, ← Nat.add_assoc]

/-! ## The change of coefficients -/

/-- The coefficients in the other way of writing. -/
def Spec.Change.coef (r : Spec.Change ni nf) (h0 : 0 < nf) (x : Coef nf) : Coef nf where
  b1 j := x.b1 (r.firms.symm j)
  b2 j := x.b2 (r.firms.symm j)
  g1 j := r.a * x.g1 (r.firms.symm j) + r.c * x.b1 (r.firms.symm j) -
    (r.a * x.g1 (r.firms.symm ⟨0, h0⟩) + r.c * x.b1 (r.firms.symm ⟨0, h0⟩))
  g2 j := r.a * x.g2 (r.firms.symm j) + r.c * x.b2 (r.firms.symm j) -
    (r.a * x.g1 (r.firms.symm ⟨0, h0⟩) + r.c * x.b1 (r.firms.symm ⟨0, h0⟩))

/-- The change back. -/
noncomputable def Spec.Change.back (r : Spec.Change ni nf) : Spec.Change ni nf :=
  ⟨r.rows.symm, r.firms.symm, r.a⁻¹, - r.c / r.a⟩

theorem coef_ok (r : Spec.Change ni nf) (h0 : 0 < nf) {o o' : Opts} (hr : r.Allowed o) (hA : o'.statA = o.statA)
    (hB : o'.statB = o.statB) {x : Coef nf} (hx : x.Ok o) : (r.coef h0 x).Ok o' where
  statB h := by
    rw [hB] at h
    funext j
    simp only [Spec.Change.coef, hx.statB h]
  statA h := by
    rw [hA] at h
    funext j
    simp only [Spec.Change.coef, hx.statA h]
    rcases hr.2 with h1 | h1 | h1
    · simp [h1]
    · rw [h1] at h; exact absurd h (by simp)
    · rw [hx.statB h1]
  zero j hj := by
    have : j = ⟨0, h0⟩ := Fin.ext hj
    subst this
    simp only [Spec.Change.coef, sub_self]

theorem back_coef (r : Spec.Change ni nf) (h0 : 0 < nf) (ha : r.a ≠ 0) {o : Opts} {x : Coef nf} (hx : x.Ok o) :
    r.back.coef h0 (r.coef h0 x) = x := by
  have hz := hx.zero ⟨0, h0⟩ rfl
  ext j <;> simp only [Spec.Change.coef, Spec.Change.back, Equiv.symm_symm, Equiv.symm_apply_apply, hz] <;>
    field_simp <;> ring

theorem back_back (r : Spec.Change ni nf) (ha : r.a ≠ 0) : r.back.back = r := by
  rcases r with ⟨ro, f, a, c⟩
  simp only [Spec.Change.back, Equiv.symm_symm, inv_inv, Spec.Change.mk.injEq, true_and]
  simp only at ha
  field_simp

theorem back_allowed {r : Spec.Change ni nf} {o : Opts} (hr : r.Allowed o) : r.back.Allowed o := by
  refine ⟨inv_ne_zero hr.1, ?_⟩
  rcases hr.2 with h | h
  · exact Or.inl (by simp [Spec.Change.back, h])
  · exact Or.inr h

theorem coef_resid {r : Spec.Change ni nf} (h0 : 0 < nf) {d d' : Data ni nf} (hd : r.SameData d d') (x : Coef nf)
    (i : Fin ni) : (r.coef h0 x).resid d' (r.rows i) = r.a * x.resid d i := by
  simp only [Coef.resid, hd.y1, hd.y2, hd.j1, hd.j2, Spec.Change.coef, Equiv.symm_apply_apply]
  ring

/-- On vectors. -/
def Spec.Change.vec (r : Spec.Change ni nf) (h0 : 0 < nf) (o : Opts) (β : ℕ → ℝ) : ℕ → ℝ :=
  writeCoef o (r.coef h0 (readCoef nf o β))

theorem read_vec {r : Spec.Change ni nf} (h0 : 0 < nf) {o : Opts} (hr : r.Allowed o) (β : ℕ → ℝ) :
    readCoef nf o (r.vec h0 o β) = r.coef h0 (readCoef nf o β) :=
  read_write o (coef_ok r h0 hr rfl rfl (readCoef_ok o β))

theorem vec_resid {r : Spec.Change ni nf} (h0 : 0 < nf) {d d' : Data ni nf} (hd : r.SameData d d') {o : Opts}
    (hr : r.Allowed o) (β : ℕ → ℝ) (i : Fin ni) :
    Interacted.resid d' o (r.vec h0 o β) (r.rows i) = r.a * Interacted.resid d o β i := by
  rw [resid_read, resid_read, read_vec h0 hr, coef_resid h0 hd]

theorem back_vec {r : Spec.Change ni nf} (h0 : 0 < nf) {o : Opts} (hr : r.Allowed o) (β : ℕ → ℝ) (c : ℕ)
    (hc : c < ncol nf o) : r.back.vec h0 o (r.vec h0 o β) c = β c := by
  refine read_inj o ?_ c hc
  rw [read_vec h0 (back_allowed hr), read_vec h0 hr, back_coef r h0 hr.1 (readCoef_ok o β)]

theorem vec_back {r : Spec.Change ni nf} (h0 : 0 < nf) {o : Opts} (hr : r.Allowed o) (β : ℕ → ℝ) (c : ℕ)
    (hc : c < ncol nf o) : r.vec h0 o (r.back.vec h0 o β) c = β c := by
  have := back_vec h0 (back_allowed hr) β c hc
  rwa [back_back r hr.1] at this

theorem vec_norm (r : Spec.Change ni nf) (h0 : 0 < nf) (o : Opts) (β : ℕ → ℝ) (j : Fin nf) :
    r.vec h0 o β (r.firms j).val = β j.val := by
  rw [Spec.Change.vec, writeCoef, if_pos (r.firms j).isLt, ext_lt]
  simp only [Spec.Change.coef, readCoef, Equiv.symm_apply_apply]

theorem vec_ge (r : Spec.Change ni nf) (h0 : 0 < nf) (o : Opts) (β : ℕ → ℝ) (c : ℕ) (hc : ncol nf o ≤ c) :
    r.vec h0 o β c = 0 := by
  have h1 := w1_ge nf o.statB
  have h2 : nf - 1 ≤ w2 nf o.statA := by unfold w2; split <;> omega
  have h3 : ncol nf o = w1 nf o.statB + w2 nf o.statA := rfl
  rw [Spec.Change.vec, writeCoef, if_neg (by omega), if_neg (by omega), if_neg (by omega), if_neg (by omega)]

theorem writeCoef_smul (o : Opts) (x y : Coef nf) (s : ℝ) (h1 : ∀ j, y.b1 j = s * x.b1 j) (h2 : ∀ j, y.b2 j = s * x.b2 j)
    (h3 : ∀ j, y.g1 j = s * x.g1 j) (h4 : ∀ j, y.g2 j = s * x.g2 j) (c : ℕ) : writeCoef o y c = s * writeCoef o x c := by
  unfold writeCoef ext
  split
  · exact h1 _
  split
  · split
    · exact h2 _
    · simp
  split
  · split
    · exact h3 _
    · simp
  split
  · split
    · exact h4 _
    · simp
  · simp

theorem vec_smul (r : Spec.Change ni nf) (h0 : 0 < nf) (o : Opts) (β : ℕ → ℝ) (s : ℝ) (c : ℕ) :
    r.vec h0 o (fun c => s * β c) c = s * r.vec h0 o β c := by
  have h1 : ∀ j, (readCoef nf o fun c => s * β c).b1 j = s * (readCoef nf o β).b1 j := fun j => rfl
  have h2 : ∀ j, (readCoef nf o fun c => s * β c).b2 j = s * (readCoef nf o β).b2 j := fun j => by
    simp only [readCoef]; split <;> rfl
  have h3 : ∀ j, (readCoef nf o fun c => s * β c).g1 j = s * (readCoef nf o β).g1 j := fun j => by
    simp only [readCoef]; split <;> simp
  have h4 : ∀ j, (readCoef nf o fun c => s * β c).g2 j = s * (readCoef nf o β).g2 j := fun j => by
    simp only [readCoef]
    split
    · split <;> simp
    · rfl
  refine writeCoef_smul o _ _ s (fun j => ?_) (fun j => ?_) (fun j => ?_) (fun j => ?_) c <;>
    simp only [Spec.Change.coef, h1, h2, h3, h4] <;> ring

/-! ## Sums over groups -/

/-- Rows are in the same group in both ways of writing. -/
def Spec.Change.SameGroups (r : Spec.Change ni nf) (key key' : Fin ni → ℕ) : Prop :=
  ∀ i i', key' (r.rows i) = key' (r.rows i') ↔ key i = key i'

theorem zsum_rows {r : Spec.Change ni nf} {key key' : Fin ni → ℕ} (hk : r.SameGroups key key') {u u' x x' : Fin ni → ℝ}
    {s : ℝ} (hu : ∀ i, u' (r.rows i) = u i) (hx : ∀ i, x' (r.rows i) = s * x i) (i : Fin ni) :
    zsum key' u' x' (key' (r.rows i)) = s * zsum key u x (key i) := by
  unfold zsum
  rw [mul_sum, sum_filter, sum_filter, ← Equiv.sum_comp r.rows]
  refine sum_congr rfl fun i' _ => ?_
  by_cases h : key i' = key i
  · rw [if_pos ((hk _ _).2 h), if_pos h, hu, hx]; ring
  · rw [if_neg (mt (hk _ _).1 h), if_neg h]

/-- The group form `Σ_z (Σ u p) c_z (Σ u q)` as a sum over rows. -/
theorem form_rows (key : Fin ni → ℕ) (u p : Fin ni → ℝ) (F : ℕ → ℝ) :
    ∑ z ∈ univ.image key, zsum key u p z * F z = ∑ i, u i * p i * F (key i) := by
  refine sum_image' (f := fun z => zsum key u p z * F z) (fun i => u i * p i * F (key i)) fun i _ => ?_
  unfold zsum
  rw [sum_mul]
  exact sum_congr rfl fun i' hi' => by rw [(mem_filter.1 hi').2]

/-- The group form. -/
noncomputable def zform (key : Fin ni → ℕ) (D u : Fin ni → ℝ) (tik : ℝ) (p q : Fin ni → ℝ) : ℝ :=
  ∑ z ∈ univ.image key, zsum key u p z * (1 / (zsum key D (fun _ => 1) z + tik)) * zsum key u q z

theorem zform_rows {r : Spec.Change ni nf} {key key' : Fin ni → ℕ} (hk : r.SameGroups key key') {D D' u u' : Fin ni → ℝ}
    (tik : ℝ) {p p' q q' : Fin ni → ℝ} {s t : ℝ} (hD : ∀ i, D' (r.rows i) = D i) (hu : ∀ i, u' (r.rows i) = u i)
    (hp : ∀ i, p' (r.rows i) = s * p i) (hq : ∀ i, q' (r.rows i) = t * q i) :
    zform key' D' u' tik p' q' = s * t * zform key D u tik p q := by
  unfold zform
  simp only [mul_assoc]
  rw [form_rows key' u' p' fun z => 1 / (zsum key' D' (fun _ => 1) z + tik) * zsum key' u' q' z,
    form_rows key u p fun z => 1 / (zsum key D (fun _ => 1) z + tik) * zsum key u q z,
    ← Equiv.sum_comp r.rows, mul_sum, mul_sum]
  refine sum_congr rfl fun i _ => ?_
  have h1 := zsum_rows (x := fun _ => 1) (x' := fun _ => 1) (s := 1) hk hD (fun _ => by ring) i
  rw [one_mul] at h1
  rw [h1, zsum_rows hk hu hq, hu, hp]
  ring

/-! ## `iv` by its normal equations -/

theorem sum_skip (f : ℕ → ℝ) {norm n : ℕ} (hn : norm < n) :
    ∑ c ∈ range n, f c = f norm + ∑ c ∈ range (n - 1), f (skip norm c) := by
  have h := sum_insert1 f (fun _ => 1) norm n hn
  have e : ∀ c, insert1 norm (fun _ => 1) c = 1 := fun c => by unfold insert1; split <;> [rfl; split <;> rfl]
  simpa only [e, mul_one] using h

theorem zform_comm (key : Fin ni → ℕ) (D u : Fin ni → ℝ) (tik : ℝ) (p q : Fin ni → ℝ) :
    zform key D u tik p q = zform key D u tik q p := by
  unfold zform
  exact sum_congr rfl fun z _ => by ring

theorem zform_resid (key : Fin ni → ℕ) (D u : Fin ni → ℝ) (tik : ℝ) (d : Data ni nf) (o : Opts) (γ : ℕ → ℝ)
    (p : Fin ni → ℝ) : zform key D u tik p (Interacted.resid d o γ) =
      ∑ c ∈ range (ncol nf o), zform key D u tik p (fun i => XX d o i c) * γ c := by
  unfold zform Interacted.resid
  simp only [sum_mul]
  rw [sum_comm]
  refine sum_congr rfl fun z _ => ?_
  rw [← zsum_linear, mul_sum]
  exact sum_congr rfl fun c _ => by ring

theorem zform_neg (key : Fin ni → ℕ) (D u : Fin ni → ℝ) (tik : ℝ) (p q : Fin ni → ℝ) :
    zform key D u tik p (fun i => - q i) = - zform key D u tik p q := by
  unfold zform zsum
  rw [← sum_neg_distrib]
  refine sum_congr rfl fun z _ => ?_
  simp only [mul_neg, sum_neg_distrib]

/-- The form of `iv`. -/
noncomputable def ivForm (key : Fin ni → ℕ) (d : Data ni nf) (o : Opts) (γ β : ℕ → ℝ) : ℝ :=
  zform key d.D (fun i => √(d.D i)) o.tik (Interacted.resid d o γ) (Interacted.resid d o β)

theorem ivRR_vec (key : Fin ni → ℕ) (d : Data ni nf) (o : Opts) (hn : o.normFid < ncol nf o) (γ : ℕ → ℝ)
    (a : Fin (ncol nf o - 1)) :
    (ivRR d o key).mulVec (fun b => γ (skip o.normFid b.val)) a =
      zform key d.D (fun i => √(d.D i)) o.tik (fun i => XX d o i (skip o.normFid a.val)) (Interacted.resid d o γ) +
        γ o.normFid * ivRY d o key a := by
  have hRY : ivRY d o key a = - zform key d.D (fun i => √(d.D i)) o.tik (fun i => XX d o i (skip o.normFid a.val))
      (fun i => XX d o i o.normFid) := by
    rw [← zform_neg]; rfl
  rw [hRY, zform_resid, sum_skip _ hn]
  have e : (ivRR d o key).mulVec (fun b => γ (skip o.normFid b.val)) a =
      ∑ b ∈ range (ncol nf o - 1), zform key d.D (fun i => √(d.D i)) o.tik
        (fun i => XX d o i (skip o.normFid a.val)) (fun i => XX d o i (skip o.normFid b)) * γ (skip o.normFid b) := by
    rw [← Fin.sum_univ_eq_sum_range fun b => zform key d.D (fun i => √(d.D i)) o.tik
        (fun i => XX d o i (skip o.normFid a.val)) (fun i => XX d o i (skip o.normFid b)) * γ (skip o.normFid b)]
    rfl
  rw [e]
  ring

theorem ivForm_skip (key : Fin ni → ℕ) (d : Data ni nf) (o : Opts) (hn : o.normFid < ncol nf o) (γ β : ℕ → ℝ)
    (h0 : γ o.normFid = 0) : ivForm key d o γ β = ∑ a : Fin (ncol nf o - 1), γ (skip o.normFid a.val) *
      zform key d.D (fun i => √(d.D i)) o.tik (fun i => XX d o i (skip o.normFid a.val)) (Interacted.resid d o β) := by
  unfold ivForm
  rw [zform_comm, zform_resid, sum_skip _ hn, h0, mul_zero, zero_add,
    ← Fin.sum_univ_eq_sum_range fun c => zform key d.D (fun i => √(d.D i)) o.tik (Interacted.resid d o β)
      (fun i => XX d o i (skip o.normFid c)) * γ (skip o.normFid c)]
  exact sum_congr rfl fun a _ => by rw [zform_comm]; ring

/-- A vector with a given entry at the normalised place. -/
def insertAt (k : ℝ) (norm : ℕ) (β : ℕ → ℝ) (c : ℕ) : ℝ := if c < norm then β c else if c = norm then k else β (c - 1)

theorem insertAt_norm (k : ℝ) (norm : ℕ) (β : ℕ → ℝ) : insertAt k norm β norm = k := by
  simp [insertAt]

theorem insertAt_skip (k : ℝ) (norm : ℕ) (β : ℕ → ℝ) (c : ℕ) : insertAt k norm β (skip norm c) = β c := by
  unfold insertAt skip
  by_cases h : c < norm
  · simp [h]
  · rw [if_neg h, if_neg (by omega), if_neg (by omega)]; simp

theorem exists_skip {norm n c : ℕ} (hn : norm < n) (hc : c < n) (hne : c ≠ norm) : ∃ b < n - 1, skip norm b = c := by
  by_cases h : c < norm
  · exact ⟨c, by omega, by simp [skip, h]⟩
  · exact ⟨c - 1, by omega, by unfold skip; rw [if_neg (by omega)]; omega⟩

/-- What `iv` returns: with a definite form, the vector with entry one at the normalised place that is orthogonal to
every vector with entry zero there. -/
theorem iv_ok_iff (key : Fin ni → ℕ) (d : Data ni nf) (o : Opts) (hn : o.normFid < w1 nf o.statB) (β : ℕ → ℝ) :
    iv d o key = .ok β ↔
      (∀ γ : ℕ → ℝ, γ o.normFid = 0 → (∃ c < ncol nf o, γ c ≠ 0) → 0 < ivForm key d o γ γ) ∧
      β o.normFid = 1 ∧ (∀ c, ncol nf o ≤ c → β c = 0) ∧ ∀ γ : ℕ → ℝ, γ o.normFid = 0 → ivForm key d o γ β = 0 := by
  have hn' : o.normFid < ncol nf o := by unfold ncol; omega
  have hquad : ∀ γ : ℕ → ℝ, γ o.normFid = 0 → ∑ a : Fin (ncol nf o - 1), γ (skip o.normFid a.val) *
      (ivRR d o key).mulVec (fun b => γ (skip o.normFid b.val)) a = ivForm key d o γ γ := by
    intro γ h0
    rw [ivForm_skip key d o hn' γ γ h0]
    exact sum_congr rfl fun a _ => by rw [ivRR_vec key d o hn', h0, zero_mul, add_zero]
  have hpd : PosDef (ivRR d o key) ↔
      ∀ γ : ℕ → ℝ, γ o.normFid = 0 → (∃ c < ncol nf o, γ c ≠ 0) → 0 < ivForm key d o γ γ := by
    constructor
    · rintro h γ h0 ⟨c, hc, hne⟩
      rw [← hquad γ h0]
      refine h _ fun hz => hne ?_
      obtain ⟨b, hb, rfl⟩ := exists_skip hn' hc (fun e => hne (by rw [e, h0]))
      exact congrFun hz ⟨b, hb⟩
    · intro h v hv
      have hq := hquad (insertAt 0 o.normFid (ext _ v)) (insertAt_norm _ _ _)
      simp only [insertAt_skip, ext_lt] at hq
      rw [hq]
      refine h _ (insertAt_norm _ _ _) ?_
      obtain ⟨b, hb⟩ := Function.ne_iff.1 hv
      refine ⟨skip o.normFid b.val, ?_, by rw [insertAt_skip, ext_lt]; exact hb⟩
      unfold skip
      have := b.isLt
      split <;> omega
  constructor
  · intro h
    unfold iv at h
    rw [if_neg (by omega)] at h
    rcases hq : solveQP (ivRR d o key) (ivRY d o key) with err | x
    · rw [hq] at h; cases h
    · rw [hq] at h
      have hβ : insert1 o.normFid (ext _ x) = β := Except.ok.inj h
      obtain ⟨h1, h2⟩ := solveQP_ok hq
      have hnorm : β o.normFid = 1 := by rw [← hβ]; simp [insert1]
      have hsk : ∀ b : Fin (ncol nf o - 1), β (skip o.normFid b.val) = x b := fun b => by
        rw [← hβ]
        exact (insertAt_skip 1 o.normFid _ _).trans (ext_lt x b)
      refine ⟨hpd.1 h1, hnorm, fun c hc => ?_, fun γ h0 => ?_⟩
      · rw [← hβ, insert1, if_neg (by omega), if_neg (by omega)]
        unfold ext
        rw [dif_neg (by omega)]
      · rw [ivForm_skip key d o hn' γ β h0]
        refine sum_eq_zero fun a _ => ?_
        have h3 := ivRR_vec key d o hn' β a
        simp only [hsk] at h3
        rw [hnorm, one_mul, h2] at h3
        have : zform key d.D (fun i => √(d.D i)) o.tik (fun i => XX d o i (skip o.normFid a.val))
          (Interacted.resid d o β) = 0 := by linarith
        rw [this, mul_zero]
  · rintro ⟨h1, h2, h3, h4⟩
    set x : Fin (ncol nf o - 1) → ℝ := fun b => β (skip o.normFid b.val) with hx
    have hsol : (ivRR d o key).mulVec x = ivRY d o key := by
      funext a
      have h5 := ivRR_vec key d o hn' β a
      rw [h2, one_mul] at h5
      have h6 := h4 (insertAt 0 o.normFid (ext _ (Pi.single a (1 : ℝ)))) (insertAt_norm _ _ _)
      rw [ivForm_skip key d o hn' _ β (insertAt_norm _ _ _)] at h6
      simp only [insertAt_skip, ext_lt] at h6
      rw [Finset.sum_eq_single a (fun b _ hb => by rw [Pi.single_eq_of_ne hb, zero_mul]) (by simp), Pi.single_eq_same,
        one_mul] at h6
      rw [h5, h6, zero_add]
    unfold iv
    rw [if_neg (by omega), solveQP_eq (hpd.2 h1) hsol]
    refine congrArg Except.ok (funext fun c => ?_)
    unfold insert1
    by_cases e1 : c < o.normFid
    · rw [if_pos e1]
      have : c < ncol nf o - 1 := by omega
      simp [ext, this, hx, skip, e1]
    rw [if_neg e1]
    by_cases e2 : c = o.normFid
    · rw [if_pos e2, e2, h2]
    rw [if_neg e2]
    by_cases e3 : c < ncol nf o
    · have e4 : c - 1 < ncol nf o - 1 := by omega
      have e5 : ¬ c - 1 < o.normFid := by omega
      simp only [ext, e4, dif_pos, hx, skip, e5, if_false]
      rw [show c - 1 + 1 = c by omega]
    · have e4 : ¬ c - 1 < ncol nf o - 1 := by omega
      simp only [ext, e4, dif_neg, not_false_iff]
      exact (h3 c (by omega)).symm

/-! ## From coefficients to effects -/

theorem extract_b1 (o : Opts) (β : ℕ → ℝ) (j : Fin nf) : (extract nf o β).B1 j = 1 / (readCoef nf o β).b1 j := rfl

theorem extract_b2 (o : Opts) (hp : o.profiling = false) (β : ℕ → ℝ) (j : Fin nf) :
    (extract nf o β).B2 j = 1 / (readCoef nf o β).b2 j := by
  simp only [extract, readCoef, hp, Bool.or_false]
  split <;> rfl

theorem extract_a1 (o : Opts) (hp : o.profiling = false) (β : ℕ → ℝ) (j : Fin nf) :
    (extract nf o β).A1 j = (readCoef nf o β).g1 j * (extract nf o β).B1 j := by
  simp only [extract, readCoef, hp, Bool.or_false]

theorem extract_a2 (o : Opts) (hp : o.profiling = false) (β : ℕ → ℝ) (j : Fin nf) (hb : (extract nf o β).B1 j ≠ 0) :
    (extract nf o β).A2 j = (readCoef nf o β).g2 j * (extract nf o β).B2 j := by
  by_cases hA : o.statA = true
  · have e : (extract nf o β).A2 j = (extract nf o β).A1 j * ((extract nf o β).B2 j / (extract nf o β).B1 j) := by
      simp only [extract, hA, if_true]
    rw [e, extract_a1 o hp, congrFun ((readCoef_ok o β).statA hA) j]
    field_simp
  · simp only [extract, readCoef, hp, Bool.or_false, hA]
    simp

/-- Effects of changed coefficients are changed effects. -/
theorem sameEffects_of_read {r : Spec.Change ni nf} (h0 : 0 < nf) {o o' : Opts} (hp : o.profiling = false)
    (hp' : o'.profiling = false) {β β' : ℕ → ℝ} (h : readCoef nf o' β' = r.coef h0 (readCoef nf o β))
    (hb1 : ∀ j, (extract nf o β).B1 j ≠ 0) (hb2 : ∀ j, (extract nf o β).B2 j ≠ 0) :
    r.SameEffects (extract nf o β) (extract nf o' β') := by
  have e1 : ∀ j, (extract nf o' β').B1 (r.firms j) = (extract nf o β).B1 j := fun j => by
    rw [extract_b1, extract_b1, h]; simp only [Spec.Change.coef, Equiv.symm_apply_apply]
  have e2 : ∀ j, (extract nf o' β').B2 (r.firms j) = (extract nf o β).B2 j := fun j => by
    rw [extract_b2 o' hp', extract_b2 o hp, h]; simp only [Spec.Change.coef, Equiv.symm_apply_apply]
  have c1 : ∀ j, (readCoef nf o β).b1 j * (extract nf o β).B1 j = 1 := fun j => by
    have := hb1 j
    rw [extract_b1] at this ⊢
    exact mul_one_div_cancel (fun h => this (by rw [h]; simp))
  have c2 : ∀ j, (readCoef nf o β).b2 j * (extract nf o β).B2 j = 1 := fun j => by
    have := hb2 j
    rw [extract_b2 o hp] at this ⊢
    exact mul_one_div_cancel (fun h => this (by rw [h]; simp))
  refine ⟨e1, e2, r.a * (readCoef nf o β).g1 (r.firms.symm ⟨0, h0⟩) + r.c * (readCoef nf o β).b1 (r.firms.symm ⟨0, h0⟩),
    fun j => ?_, fun j => ?_, fun j hj => ?_⟩
  · rw [extract_a1 o' hp', extract_a1 o hp, e1, h]
    simp only [Spec.Change.coef, Equiv.symm_apply_apply]
    linear_combination r.c * c1 j
  · rw [extract_a2 o' hp' _ _ (by rw [e1]; exact hb1 j), extract_a2 o hp _ _ (hb1 j), e2, h]
    simp only [Spec.Change.coef, Equiv.symm_apply_apply]
    linear_combination r.c * c2 j
  · rw [extract_a1 o' hp', (readCoef_ok o' β').zero j hj, zero_mul]

theorem readCoef_opts (r : Spec.Change ni nf) (o : Opts) (hn : o.normFid < nf) (β : ℕ → ℝ) :
    readCoef nf (r.opts o hn) β = readCoef nf o β := rfl

theorem ivForm_vec {r : Spec.Change ni nf} (h0 : 0 < nf) {d d' : Data ni nf} (hd : r.SameData d d') {o : Opts}
    (hn : o.normFid < nf) (hr : r.Allowed o) {key key' : Fin ni → ℕ} (hk : r.SameGroups key key') (γ β : ℕ → ℝ) :
    ivForm key' d' (r.opts o hn) (r.vec h0 o γ) (r.vec h0 o β) = r.a * r.a * ivForm key d o γ β :=
  zform_rows hk o.tik hd.w (fun i => by rw [hd.w]) (vec_resid h0 hd hr γ) (vec_resid h0 hd hr β)

theorem resid_cols_congr (d : Data ni nf) (o : Opts) {β β' : ℕ → ℝ} (h : ∀ c < ncol nf o, β c = β' c) :
    Interacted.resid d o β = Interacted.resid d o β' := by
  funext i
  exact sum_congr rfl fun c hc => by rw [h c (mem_range.1 hc)]

/-- C123, `iv`: the coefficients in the other way of writing. -/
theorem iv_change {r : Spec.Change ni nf} {d d' : Data ni nf} (hd : r.SameData d d') {o : Opts} (hn : o.normFid < nf)
    (hr : r.Allowed o) {key key' : Fin ni → ℕ} (hk : r.SameGroups key key') {β : ℕ → ℝ} (h : iv d o key = .ok β) :
    iv d' (r.opts o hn) key' = .ok (r.vec (by omega) o β) := by
  have h0 : 0 < nf := by omega
  have hw := w1_ge nf o.statB
  have hlt : ∀ j : Fin nf, j.val < ncol nf o := fun j => by have := j.isLt; unfold ncol; omega
  obtain ⟨h1, h2, -, h4⟩ := (iv_ok_iff key d o (by omega) β).1 h
  have hback : ∀ γ : ℕ → ℝ, γ (r.opts o hn).normFid = 0 → (r.back.vec h0 o γ) o.normFid = 0 := fun γ hγ => by
    have := vec_norm r.back h0 o γ (r.firms ⟨o.normFid, hn⟩)
    simp only [Spec.Change.back, Equiv.symm_apply_apply] at this
    exact this.trans hγ
  have hsq : 0 < r.a * r.a := mul_self_pos.2 hr.1
  refine (iv_ok_iff key' d' (r.opts o hn) ?_ _).2 ⟨fun γ hγ hne => ?_, ?_, fun c hc => vec_ge r h0 o β c hc, fun γ hγ => ?_⟩
  · have := (r.firms ⟨o.normFid, hn⟩).isLt
    exact lt_of_lt_of_le this hw
  · obtain ⟨c, hc, hne⟩ := hne
    have e := ivForm_vec h0 hd hn hr hk (r.back.vec h0 o γ) (r.back.vec h0 o γ)
    have e' : Interacted.resid d' (r.opts o hn) (r.vec h0 o (r.back.vec h0 o γ)) = Interacted.resid d' (r.opts o hn) γ :=
      resid_cols_congr d' (r.opts o hn) fun c hc => vec_back h0 hr γ c hc
    have e2 : ivForm key' d' (r.opts o hn) (r.vec h0 o (r.back.vec h0 o γ)) (r.vec h0 o (r.back.vec h0 o γ))
        = ivForm key' d' (r.opts o hn) γ γ := by unfold ivForm; rw [e']
    rw [← e2, e]
    refine mul_pos hsq (h1 _ (hback γ hγ) ?_)
    by_contra hcon
    push Not at hcon
    refine hne ?_
    have h5 := vec_back h0 hr γ c hc
    have h6 : r.vec h0 o (r.back.vec h0 o γ) = r.vec h0 o (fun c => 0 * (r.back.vec h0 o γ) c) := by
      have : readCoef nf o (r.back.vec h0 o γ) = readCoef nf o (fun c => 0 * (r.back.vec h0 o γ) c) := by
        have hz : ∀ c, r.back.vec h0 o γ c = 0 := fun c => by
          by_cases hc : c < ncol nf o
          · exact hcon c hc
          · exact vec_ge _ h0 o γ c (by omega)
        have : r.back.vec h0 o γ = fun c => 0 * (r.back.vec h0 o γ) c := by
          funext c; rw [hz, mul_zero]
        rw [← this]
      unfold Spec.Change.vec at this ⊢
      rw [this]
    rw [← h5, h6, vec_smul, zero_mul]
  · rw [← h2]; exact vec_norm r h0 o β ⟨o.normFid, hn⟩
  · have e := ivForm_vec h0 hd hn hr hk (r.back.vec h0 o γ) β
    have e' : Interacted.resid d' (r.opts o hn) (r.vec h0 o (r.back.vec h0 o γ)) = Interacted.resid d' (r.opts o hn) γ :=
      resid_cols_congr d' (r.opts o hn) fun c hc => vec_back h0 hr γ c hc
    have e2 : ivForm key' d' (r.opts o hn) (r.vec h0 o (r.back.vec h0 o γ)) (r.vec h0 o β)
        = ivForm key' d' (r.opts o hn) γ (r.vec h0 o β) := by unfold ivForm; rw [e']
    rw [← e2, e, h4 _ (hback γ hγ), mul_zero]

/-! ## `liml_1` by its forms -/

/-- The form of `Wx`. -/
def xForm (d : Data ni nf) (o : Opts) (γ β : ℕ → ℝ) : ℝ :=
  ∑ i, d.D i * Interacted.resid d o γ i * Interacted.resid d o β i

/-- The form of `Wz`. -/
noncomputable def limlForm (key : Fin ni → ℕ) (d : Data ni nf) (o : Opts) (γ β : ℕ → ℝ) : ℝ :=
  zform key d.D d.D o.tik (Interacted.resid d o γ) (Interacted.resid d o β)

theorem xForm_eq (d : Data ni nf) (o : Opts) (γ : ℕ → ℝ) (v : Fin (ncol nf o) → ℝ) :
    ∑ a : Fin (ncol nf o), γ a.val * (Wx d o).mulVec v a = xForm d o γ (ext _ v) := by
  simp only [Wx_mulVec, xForm, mul_sum]
  rw [sum_comm]
  refine sum_congr rfl fun i _ => ?_
  rw [show Interacted.resid d o γ i = ∑ a : Fin (ncol nf o), XX d o i a.val * γ a.val by
    rw [Interacted.resid, Fin.sum_univ_eq_sum_range fun c => XX d o i c * γ c], mul_sum, sum_mul]
  exact sum_congr rfl fun a _ => by ring

theorem limlForm_eq (key : Fin ni → ℕ) (d : Data ni nf) (o : Opts) (γ : ℕ → ℝ) (v : Fin (ncol nf o) → ℝ) :
    ∑ a : Fin (ncol nf o), γ a.val * (Wz d o key).mulVec v a = limlForm key d o γ (ext _ v) := by
  have e : ∀ a : Fin (ncol nf o), (Wz d o key).mulVec v a =
      zform key d.D d.D o.tik (Interacted.resid d o (ext _ v)) (fun i => XX d o i a.val) := fun a => by
    rw [Wz_mulVec, zform_comm]; rfl
  unfold limlForm
  rw [zform_comm, zform_resid, ← Fin.sum_univ_eq_sum_range fun c =>
    zform key d.D d.D o.tik (Interacted.resid d o (ext _ v)) (fun i => XX d o i c) * γ c]
  exact sum_congr rfl fun a _ => by rw [e, mul_comm]

/-- The entries of a vector as a vector of the right length. -/
def cut (n : ℕ) (β : ℕ → ℝ) : Fin n → ℝ := fun c => β c.val

theorem ext_cut {n : ℕ} (β : ℕ → ℝ) (c : ℕ) (hc : c < n) : ext n (cut n β) c = β c := by simp [ext, hc, cut]

theorem cut_ext {n : ℕ} (v : Fin n → ℝ) : cut n (ext n v) = v := by funext c; exact ext_lt v c

theorem resid_ext_cut (d : Data ni nf) (o : Opts) (β : ℕ → ℝ) :
    Interacted.resid d o (ext _ (cut (ncol nf o) β)) = Interacted.resid d o β :=
  resid_cols_congr d o fun c hc => ext_cut β c hc

theorem vec_eq_of_forms {n : ℕ} {p q : Fin n → ℝ} (h : ∀ γ : ℕ → ℝ, ∑ a : Fin n, γ a.val * p a = ∑ a : Fin n, γ a.val * q a) :
    p = q := by
  funext a
  have := h (ext n (Pi.single a 1))
  simp only [ext_lt] at this
  simpa [Pi.single_apply, ite_mul] using this

theorem det_ne_iff (d : Data ni nf) (o : Opts) :
    (Wx d o).det ≠ 0 ↔ ∀ β : ℕ → ℝ, (∀ γ, xForm d o γ β = 0) → ∀ c < ncol nf o, β c = 0 := by
  constructor
  · intro h β hβ c hc
    by_contra hne
    refine h (Matrix.exists_mulVec_eq_zero_iff.1 ⟨cut _ β, ?_, ?_⟩)
    · intro hz; exact hne (congrFun hz ⟨c, hc⟩)
    · refine vec_eq_of_forms fun γ => ?_
      rw [xForm_eq]
      have : xForm d o γ (ext _ (cut (ncol nf o) β)) = xForm d o γ β := by unfold xForm; rw [resid_ext_cut]
      rw [this, hβ]; simp
  · intro h hdet
    obtain ⟨v, hv, hz⟩ := Matrix.exists_mulVec_eq_zero_iff.2 hdet
    refine hv (funext fun c => ?_)
    have := h (ext _ v) (fun γ => by rw [← xForm_eq, hz]; simp) c.val c.isLt
    rwa [ext_lt] at this

theorem eig_iff (key : Fin ni → ℕ) (d : Data ni nf) (o : Opts) (hdet : (Wx d o).det ≠ 0) (r : ℝ) (v : Fin (ncol nf o) → ℝ) :
    ((Wx d o)⁻¹ * Wz d o key).mulVec v = r • v ↔ ∀ γ, limlForm key d o γ (ext _ v) = r * xForm d o γ (ext _ v) := by
  have hu : IsUnit (Wx d o).det := isUnit_iff_ne_zero.2 hdet
  constructor
  · intro h γ
    have h2 := congrArg (Wx d o).mulVec h
    rw [Matrix.mulVec_mulVec, ← Matrix.mul_assoc, Matrix.mul_nonsing_inv _ hu, Matrix.one_mul, Matrix.mulVec_smul] at h2
    rw [← limlForm_eq, h2, ← xForm_eq, mul_sum]
    exact sum_congr rfl fun a _ => by simp only [Pi.smul_apply, smul_eq_mul]; ring
  · intro h
    have h2 : (Wz d o key).mulVec v = r • (Wx d o).mulVec v := by
      refine vec_eq_of_forms fun γ => ?_
      rw [limlForm_eq, h, ← xForm_eq, mul_sum]
      exact sum_congr rfl fun a _ => by simp only [Pi.smul_apply, smul_eq_mul]; ring
    rw [← Matrix.mulVec_mulVec, h2, Matrix.mulVec_smul, Matrix.mulVec_mulVec, Matrix.nonsing_inv_mul _ hu, Matrix.one_mulVec]

theorem xForm_vec {r : Spec.Change ni nf} (h0 : 0 < nf) {d d' : Data ni nf} (hd : r.SameData d d') {o : Opts}
    (hn : o.normFid < nf) (hr : r.Allowed o) (γ β : ℕ → ℝ) :
    xForm d' (r.opts o hn) (r.vec h0 o γ) (r.vec h0 o β) = r.a * r.a * xForm d o γ β := by
  unfold xForm
  rw [← Equiv.sum_comp r.rows, mul_sum]
  refine sum_congr rfl fun i _ => ?_
  have e1 : Interacted.resid d' (r.opts o hn) (r.vec h0 o γ) (r.rows i) = _ := vec_resid h0 hd hr γ i
  have e2 : Interacted.resid d' (r.opts o hn) (r.vec h0 o β) (r.rows i) = _ := vec_resid h0 hd hr β i
  rw [e1, e2, hd.w]
  ring

theorem limlForm_vec {r : Spec.Change ni nf} (h0 : 0 < nf) {d d' : Data ni nf} (hd : r.SameData d d') {o : Opts}
    (hn : o.normFid < nf) (hr : r.Allowed o) {key key' : Fin ni → ℕ} (hk : r.SameGroups key key') (γ β : ℕ → ℝ) :
    limlForm key' d' (r.opts o hn) (r.vec h0 o γ) (r.vec h0 o β) = r.a * r.a * limlForm key d o γ β :=
  zform_rows hk o.tik hd.w hd.w (vec_resid h0 hd hr γ) (vec_resid h0 hd hr β)

/-- Only one direction belongs to the smallest eigenvalue of `inv(Wx) @ Wz`. -/
def Spec.OneDirection (d : Data ni nf) (o : Opts) (key : Fin ni → ℕ) : Prop :=
  ∀ (r : ℝ) (v w : Fin (ncol nf o) → ℝ), v ≠ 0 → ((Wx d o)⁻¹ * Wz d o key).mulVec v = r • v →
    ((Wx d o)⁻¹ * Wz d o key).mulVec w = r • w →
    (∀ (r' : ℝ) (u : Fin (ncol nf o) → ℝ), u ≠ 0 → ((Wx d o)⁻¹ * Wz d o key).mulVec u = r' • u → r ≤ r') →
    ∃ s : ℝ, w = s • v

theorem argmin_le {α : Type} {f : α → ℝ} {l : List α} {p : α} (h : l.argmin f = some p) : p ∈ l ∧ ∀ q ∈ l, f p ≤ f q := by
  have hp : p ∈ l.argmin f := h
  exact ⟨List.argmin_mem hp, fun q hq => List.le_of_mem_argmin hq hp⟩

/-- C123, `liml_1`: the coefficients in the other way of writing. -/
theorem liml1_change {r : Spec.Change ni nf} {d d' : Data ni nf} (hd : r.SameData d d') {o : Opts} (hn : o.normFid < nf)
    (hr : r.Allowed o) {key key' : Fin ni → ℕ} (hk : r.SameGroups key key') {e e' : EigVec} (he : e.Right) (he' : e'.Right)
    (hone : Spec.OneDirection d o key) {β : ℕ → ℝ} (h : liml1 e d o key = .ok β) :
    liml1 e' d' (r.opts o hn) key' = .ok (r.vec (by omega) o β) := by
  have h0 : 0 < nf := by omega
  have hw := w1_ge nf o.statB
  have hnc : nf ≤ ncol nf o := le_trans hw (Nat.le_add_right _ _)
  have hsq : r.a * r.a ≠ 0 := mul_ne_zero hr.1 hr.1
  set o' := r.opts o hn with ho'
  have hsurj : ∀ γ : ℕ → ℝ, Interacted.resid d' o' γ = Interacted.resid d' o' (r.vec h0 o (r.back.vec h0 o γ)) := fun γ =>
    (resid_cols_congr d' o' fun c hc => vec_back h0 hr γ c hc).symm
  have hx' : ∀ γ β, xForm d' o' γ β = r.a * r.a * xForm d o (r.back.vec h0 o γ) (r.back.vec h0 o β) := fun γ β => by
    rw [← xForm_vec h0 hd hn hr]; unfold xForm; rw [hsurj γ, hsurj β]
  have hz' : ∀ γ β, limlForm key' d' o' γ β = r.a * r.a * limlForm key d o (r.back.vec h0 o γ) (r.back.vec h0 o β) :=
    fun γ β => by rw [← limlForm_vec h0 hd hn hr hk]; unfold limlForm; rw [hsurj γ, hsurj β]
  have hsurj' : ∀ γ : ℕ → ℝ, Interacted.resid d o γ = Interacted.resid d o (r.back.vec h0 o (r.vec h0 o γ)) := fun γ =>
    (resid_cols_congr d o fun c hc => back_vec h0 hr γ c hc).symm
  have hx : ∀ γ β, xForm d o γ β = xForm d o (r.back.vec h0 o (r.vec h0 o γ)) β := fun γ β => by
    unfold xForm; rw [← hsurj' γ]
  have hz : ∀ γ β, limlForm key d o γ β = limlForm key d o (r.back.vec h0 o (r.vec h0 o γ)) β := fun γ β => by
    unfold limlForm; rw [← hsurj' γ]
  unfold liml1 at h
  split at h
  · cases h
  rename_i hdet
  split at h
  · cases h
  rename_i p hp
  rw [if_pos (by omega)] at h
  have hβ : (fun c => ext _ p.2 c / ext _ p.2 o.normFid) = β := Except.ok.inj h
  obtain ⟨hmem, hmin⟩ := argmin_le hp
  obtain ⟨hv0, hv⟩ := (he _ _).1 p hmem
  have hleast : ∀ (r' : ℝ) (u : Fin (ncol nf o) → ℝ), u ≠ 0 → ((Wx d o)⁻¹ * Wz d o key).mulVec u = r' • u → p.1 ≤ r' := by
    intro r' u hu hur
    obtain ⟨q, hq, rfl⟩ := (he _ _).2 r' u hu hur
    exact hmin q hq
  -- the other determinant
  have hdet' : (Wx d' o').det ≠ 0 := by
    refine (det_ne_iff d' o').2 fun β hβ c hc => ?_
    have h1 : ∀ c < ncol nf o, r.back.vec h0 o β c = 0 := by
      refine (det_ne_iff d o).1 hdet _ fun γ => ?_
      have := hβ (r.vec h0 o γ)
      rw [hx', ← hx] at this
      exact (mul_eq_zero.1 this).resolve_left hsq
    have h2 : r.back.vec h0 o β = fun c => 0 * r.back.vec h0 o β c := by
      funext c
      by_cases hc : c < ncol nf o
      · rw [h1 c hc, mul_zero]
      · rw [vec_ge _ h0 o β c (by omega), mul_zero]
    rw [← vec_back h0 hr β c hc, h2, vec_smul, zero_mul]
  -- eigenvectors correspond
  have hto : ∀ (t : ℝ) (v' : Fin (ncol nf o') → ℝ), ((Wx d' o')⁻¹ * Wz d' o' key').mulVec v' = t • v' →
      ((Wx d o)⁻¹ * Wz d o key).mulVec (cut (ncol nf o) (r.back.vec h0 o (ext _ v'))) =
        t • cut (ncol nf o) (r.back.vec h0 o (ext _ v')) := by
    intro t v' hv'
    refine (eig_iff key d o hdet t _).2 fun γ => ?_
    have h1 := (eig_iff key' d' o' hdet' t v').1 hv' (r.vec h0 o γ)
    rw [hx', hz', ← hx, ← hz] at h1
    have e1 : limlForm key d o γ (ext _ (cut (ncol nf o) (r.back.vec h0 o (ext _ v')))) =
        limlForm key d o γ (r.back.vec h0 o (ext _ v')) := by unfold limlForm; rw [resid_ext_cut]
    have e2 : xForm d o γ (ext _ (cut (ncol nf o) (r.back.vec h0 o (ext _ v')))) =
        xForm d o γ (r.back.vec h0 o (ext _ v')) := by unfold xForm; rw [resid_ext_cut]
    rw [e1, e2]
    have h2 : r.a * r.a * limlForm key d o γ (r.back.vec h0 o (ext _ v')) =
      r.a * r.a * (t * xForm d o γ (r.back.vec h0 o (ext _ v'))) := by linarith
    exact mul_left_cancel₀ hsq h2
  have hfrom : ((Wx d' o')⁻¹ * Wz d' o' key').mulVec (cut (ncol nf o') (r.vec h0 o (ext _ p.2))) =
      p.1 • cut (ncol nf o') (r.vec h0 o (ext _ p.2)) := by
    refine (eig_iff key' d' o' hdet' p.1 _).2 fun γ => ?_
    have e1 : limlForm key' d' o' γ (ext _ (cut (ncol nf o') (r.vec h0 o (ext _ p.2)))) =
        limlForm key' d' o' γ (r.vec h0 o (ext _ p.2)) := by unfold limlForm; rw [resid_ext_cut]
    have e2 : xForm d' o' γ (ext _ (cut (ncol nf o') (r.vec h0 o (ext _ p.2)))) =
        xForm d' o' γ (r.vec h0 o (ext _ p.2)) := by unfold xForm; rw [resid_ext_cut]
    have e3 : ∀ γ, limlForm key d o γ (r.back.vec h0 o (r.vec h0 o (ext _ p.2))) = limlForm key d o γ (ext _ p.2) :=
      fun γ => by unfold limlForm; rw [← hsurj' (ext _ p.2)]
    have e4 : ∀ γ, xForm d o γ (r.back.vec h0 o (r.vec h0 o (ext _ p.2))) = xForm d o γ (ext _ p.2) :=
      fun γ => by unfold xForm; rw [← hsurj' (ext _ p.2)]
    rw [e1, e2, hx', hz', e3, e4, (eig_iff key d o hdet p.1 p.2).1 hv]
    ring
  have hne_to : ∀ v' : Fin (ncol nf o') → ℝ, v' ≠ 0 → cut (ncol nf o) (r.back.vec h0 o (ext _ v')) ≠ 0 := by
    intro v' hv' hz0
    refine hv' (funext fun c => ?_)
    have h1 : r.back.vec h0 o (ext _ v') = fun c => 0 * r.back.vec h0 o (ext _ v') c := by
      funext c
      by_cases hc : c < ncol nf o
      · rw [show r.back.vec h0 o (ext _ v') c = 0 from congrFun hz0 ⟨c, hc⟩, mul_zero]
      · rw [vec_ge _ h0 o _ c (by omega), mul_zero]
    have h2 := vec_back h0 hr (ext _ v') c.val c.isLt
    rw [h1, vec_smul, zero_mul, ext_lt] at h2
    exact h2.symm
  have hne_from : cut (ncol nf o') (r.vec h0 o (ext _ p.2)) ≠ 0 := by
    intro hz0
    refine hv0 (funext fun c => ?_)
    have h1 : r.vec h0 o (ext _ p.2) = fun c => 0 * r.vec h0 o (ext _ p.2) c := by
      funext c
      by_cases hc : c < ncol nf o
      · rw [show r.vec h0 o (ext _ p.2) c = 0 from congrFun hz0 ⟨c, hc⟩, mul_zero]
      · rw [vec_ge _ h0 o _ c (by omega), mul_zero]
    have h2 := back_vec h0 hr (ext _ p.2) c.val c.isLt
    rw [h1, vec_smul, zero_mul, ext_lt] at h2
    exact h2.symm
  unfold liml1
  rw [if_neg hdet']
  obtain ⟨q0, hq0, hq0r⟩ := (he' _ _).2 p.1 _ hne_from hfrom
  rcases hq : (e'.pairs ((Wx d' o')⁻¹ * Wz d' o' key')).argmin Prod.fst with _ | q
  · rw [List.argmin_eq_none] at hq
    rw [hq] at hq0
    cases hq0
  · obtain ⟨hqm, hqmin⟩ := argmin_le hq
    obtain ⟨hqv0, hqv⟩ := (he' _ _).1 q hqm
    have hqr : q.1 = p.1 := le_antisymm (hq0r ▸ hqmin q0 hq0) (hleast _ _ (hne_to _ hqv0) (hto _ _ hqv))
    obtain ⟨s, hs⟩ := hone p.1 p.2 _ hv0 hv (hqr ▸ hto _ _ hqv) hleast
    have hs0 : s ≠ 0 := by
      rintro rfl
      rw [zero_smul] at hs
      exact hne_to _ hqv0 hs
    have hqc : ∀ c < ncol nf o, ext _ q.2 c = s * r.vec h0 o (ext _ p.2) c := by
      intro c hc
      have h1 : r.back.vec h0 o (ext _ q.2) = fun c => s * ext _ p.2 c := by
        funext c
        by_cases hc : c < ncol nf o
        · have := congrFun hs ⟨c, hc⟩
          rw [show ext _ p.2 c = p.2 ⟨c, hc⟩ from ext_lt p.2 ⟨c, hc⟩]
          exact this
        · rw [vec_ge _ h0 o _ c (by omega), ext, dif_neg hc, mul_zero]
      rw [← vec_smul, ← h1]
      exact (vec_back h0 hr (ext _ q.2) c hc).symm
    have hnl : (r.firms ⟨o.normFid, hn⟩).val < ncol nf o := lt_of_lt_of_le (r.firms ⟨o.normFid, hn⟩).isLt hnc
    simp only
    rw [if_pos (show o'.normFid < ncol nf o' from hnl)]
    refine congrArg Except.ok (funext fun c => ?_)
    have hden : ext _ q.2 o'.normFid = s * ext _ p.2 o.normFid :=
      (hqc _ hnl).trans (by rw [vec_norm r h0 o _ ⟨o.normFid, hn⟩])
    have hβ' : β = fun c => (ext _ p.2 o.normFid)⁻¹ * ext _ p.2 c := by rw [← hβ]; funext c; rw [div_eq_inv_mul]
    rw [hden, hβ', vec_smul]
    by_cases hc : c < ncol nf o
    · rw [hqc c hc, mul_div_mul_left _ _ hs0, div_eq_inv_mul]
    · rw [vec_ge r h0 o _ c (by omega), mul_zero]
      have : ext (ncol nf o') q.2 c = 0 := by
        rw [ext, dif_neg (show ¬ c < ncol nf o' from hc)]
      rw [this, zero_div]

/-! ## The property -/

theorem pairKey_iff (d : Data ni nf) (i i' : Fin ni) :
    pairKey d i = pairKey d i' ↔ d.J1 i = d.J1 i' ∧ d.J2 i = d.J2 i' := by
  constructor
  · intro h
    have h1 := (d.J1 i).isLt
    have h2 := (d.J1 i').isLt
    have h0 : 0 < nf := by omega
    unfold pairKey at h
    have e1 : (d.J1 i).val = (d.J1 i').val := by
      have := congrArg (· % nf) h
      simpa [Nat.add_mul_mod_self_left, Nat.mod_eq_of_lt h1, Nat.mod_eq_of_lt h2] using this
    refine ⟨Fin.ext e1, Fin.ext ?_⟩
    have : nf * (d.J2 i).val = nf * (d.J2 i').val := by omega
    exact Nat.eq_of_mul_eq_mul_left h0 this
  · rintro ⟨h1, h2⟩
    unfold pairKey
    rw [h1, h2]

theorem pairKey_same {r : Spec.Change ni nf} {d d' : Data ni nf} (hd : r.SameData d d') :
    r.SameGroups (pairKey d) (pairKey d') := fun i i' => by
  rw [pairKey_iff, pairKey_iff, hd.j1, hd.j1, hd.j2, hd.j2, r.firms.injective.eq_iff, r.firms.injective.eq_iff]

/-- The worker ids of the other way of writing: the same rows share a worker, and the numbers are below the number of
movers. -/
def Spec.Change.SameWorkers (r : Spec.Change ni nf) (W W' : Fin ni → ℕ) (nw : ℕ) : Prop :=
  (∀ i i', W' (r.rows i) = W' (r.rows i') ↔ W i = W i') ∧ ∀ i, W' i < nw

theorem keyOf_change {r : Spec.Change ni nf} {d d' : Data ni nf} (hd : r.SameData d d') {o : Opts} (hn : o.normFid < nf)
    {W W' : Fin ni → ℕ} {nw : ℕ} (hW : r.SameWorkers W W' nw) {key : Option (Fin ni → ℕ)}
    (h : keyOf d o W nw true = .ok key) :
    ∃ k k', key = some k ∧ keyOf d' (r.opts o hn) W' nw true = .ok (some k') ∧ r.SameGroups k k' := by
  unfold keyOf at h ⊢
  simp only [if_true] at h ⊢
  have : (r.opts o hn).instrument = o.instrument := rfl
  rw [this]
  cases hi : o.instrument <;> rw [hi] at h <;> simp only at h ⊢
  · exact ⟨_, _, (Except.ok.inj h).symm, rfl, pairKey_same hd⟩
  · split at h
    · rw [if_pos hW.2]
      exact ⟨_, _, (Except.ok.inj h).symm, rfl, hW.1⟩
    · cases h
  · exact ⟨_, _, (Except.ok.inj h).symm, rfl, pairKey_same hd⟩

/-- What a return of the `iv` branch means. -/
theorem fitLinear_iv {e : EigVec} {rss : Data ni nf → Bool → ℕ → ℝ} {d : Data ni nf} {o : Opts} {W : Fin ni → ℕ} {nw : ℕ}
    (hm : o.method = .iv) {x : Effects nf} :
    fitLinear e rss d o W nw true = .ok x ↔ validate o = .ok () ∧ o.profiling = false ∧ ∃ key β,
      keyOf d o W nw true = .ok (some key) ∧ iv d o key = .ok β ∧ x = extract nf o β := by
  unfold fitLinear
  rw [hm]
  rcases validate o with m | u
  · simp [bind, Except.bind]
  rcases keyOf d o W nw true with m | k
  · simp [bind, Except.bind]
  rcases k with _ | key
  · simp [bind, Except.bind]
  cases o.profiling
  · rcases hiv : iv d o key with m | β
    · simp [bind, Except.bind, hiv]
    · simp only [bind, Except.bind, hiv, reduceCtorEq, if_false, if_true, Bool.false_eq_true]
      constructor
      · intro h
        exact ⟨trivial, trivial, key, β, rfl, hiv, (Except.ok.inj h).symm⟩
      · rintro ⟨-, -, key', β', hk, hi, rfl⟩
        cases Option.some.inj (Except.ok.inj hk)
        rw [hiv] at hi
        cases hi
        rfl
  · simp [bind, Except.bind]

/-- What a return of the `liml_1` branch means. -/
theorem fitLinear_liml1 {e : EigVec} {rss : Data ni nf → Bool → ℕ → ℝ} {d : Data ni nf} {o : Opts} {W : Fin ni → ℕ}
    {nw : ℕ} (hm : o.method = .liml1) {x : Effects nf} :
    fitLinear e rss d o W nw true = .ok x ↔ validate o = .ok () ∧ (o.profiling = false ∧ ∃ key β,
      keyOf d o W nw true = .ok (some key) ∧ liml1 e d o key = .ok β ∧ x = extract nf o β) := by
  unfold fitLinear
  rw [hm]
  rcases validate o with m | u
  · simp [bind, Except.bind]
  rcases keyOf d o W nw true with m | k
  · simp [bind, Except.bind]
  rcases k with _ | key
  · simp [bind, Except.bind]
  cases o.profiling
  · rcases hiv : liml1 e d o key with m | β
    · simp [bind, Except.bind, hiv]
    · simp only [bind, Except.bind, hiv, reduceCtorEq, if_false, if_true, Bool.false_eq_true]
      constructor
      · intro h
        exact ⟨trivial, trivial, key, β, rfl, hiv, (Except.ok.inj h).symm⟩
      · rintro ⟨-, -, key', β', hk, hi, rfl⟩
        cases Option.some.inj (Except.ok.inj hk)
        rw [hiv] at hi
        cases hi
        rfl
  · simp [bind, Except.bind]

theorem validate_opts (r : Spec.Change ni nf) (o : Opts) (hn : o.normFid < nf) : validate (r.opts o hn) = validate o := rfl

/-- C123: with `method='iv'`, rows in another order, firms under other numbers, wages in another unit or from another
origin give the same slopes, and the intercepts in the new unit and from the new origin. -/
theorem C123_iv {r : Spec.Change ni nf} {d d' : Data ni nf} (hd : r.SameData d d') {o : Opts} (hm : o.method = .iv)
    (hn : o.normFid < nf) (hr : r.Allowed o) {W W' : Fin ni → ℕ} {nw : ℕ} (hW : r.SameWorkers W W' nw) {e e' : EigVec}
    {rss rss' : Data ni nf → Bool → ℕ → ℝ} {x : Effects nf} (h : fitLinear e rss d o W nw true = .ok x)
    (hb1 : ∀ j, x.B1 j ≠ 0) (hb2 : ∀ j, x.B2 j ≠ 0) :
    ∃ x', fitLinear e' rss' d' (r.opts o hn) W' nw true = .ok x' ∧ r.SameEffects x x' := by
  obtain ⟨hv, hp, key, β, hk, hβ, rfl⟩ := (fitLinear_iv hm).1 h
  obtain ⟨k, k', hkk, hk', hs⟩ := keyOf_change hd hn hW hk
  cases Option.some.inj hkk
  have h' := iv_change hd hn hr hs hβ
  exact ⟨_, (fitLinear_iv (o := r.opts o hn) hm).2 ⟨(validate_opts r o hn).trans hv, hp, k', _, hk', h', rfl⟩,
    sameEffects_of_read (by omega) hp hp (read_vec (by omega) hr β) hb1 hb2⟩

/-- C123: the same with `method='liml_1'`, if the smallest eigenvalue has one direction. -/
theorem C123_liml1 {r : Spec.Change ni nf} {d d' : Data ni nf} (hd : r.SameData d d') {o : Opts} (hm : o.method = .liml1)
    (hn : o.normFid < nf) (hr : r.Allowed o) {W W' : Fin ni → ℕ} {nw : ℕ} (hW : r.SameWorkers W W' nw) {e e' : EigVec}
    (he : e.Right) (he' : e'.Right) {rss rss' : Data ni nf → Bool → ℕ → ℝ} {x : Effects nf}
    (hone : ∀ key, keyOf d o W nw true = .ok (some key) → Spec.OneDirection d o key)
    (h : fitLinear e rss d o W nw true = .ok x) (hb1 : ∀ j, x.B1 j ≠ 0) (hb2 : ∀ j, x.B2 j ≠ 0) :
    ∃ x', fitLinear e' rss' d' (r.opts o hn) W' nw true = .ok x' ∧ r.SameEffects x x' := by
  obtain ⟨hv, hp, key, β, hk, hβ, rfl⟩ := (fitLinear_liml1 hm).1 h
  obtain ⟨k, k', hkk, hk', hs⟩ := keyOf_change hd hn hW hk
  cases Option.some.inj hkk
  have h' := liml1_change hd hn hr hs he he' (hone _ hk) hβ
  exact ⟨_, (fitLinear_liml1 (o := r.opts o hn) hm).2 ⟨(validate_opts r o hn).trans hv, hp, k', _, hk', h', rfl⟩,
    sameEffects_of_read (by omega) hp hp (read_vec (by omega) hr β) hb1 hb2⟩

/-- C123: with `method='liml_1'` the choice of the normalised firm only rescales the slopes: with firm `n` instead, every
slope is divided by the slope of `n`, and the intercepts stay.  (Without stationary intercepts, so do those of the
second period.) -/
theorem C123_liml1_norm {d : Data ni nf} {o : Opts} (hm : o.method = .liml1) {W : Fin ni → ℕ} {nw : ℕ} {e : EigVec}
    {rss : Data ni nf → Bool → ℕ → ℝ} {x : Effects nf} (h : fitLinear e rss d o W nw true = .ok x) (hn : o.normFid < nf)
    (hb1 : ∀ j, x.B1 j ≠ 0) (n : Fin nf) :
    ∃ x', fitLinear e rss d { o with normFid := n.val } W nw true = .ok x' ∧
      (∀ j, x'.B1 j = x.B1 j / x.B1 n) ∧ (∀ j, x'.B2 j = x.B2 j / x.B1 n) ∧ x'.A1 = x.A1 ∧ x'.A2 = x.A2 ∧ x'.B1 n = 1 := by
  obtain ⟨hv, hp, key, β, hk, hβ, rfl⟩ := (fitLinear_liml1 hm).1 h
  have hw := w1_ge nf o.statB
  have hnc : nf ≤ ncol nf o := le_trans hw (Nat.le_add_right _ _)
  have hβn : β n.val ≠ 0 := fun h0 => hb1 n (by rw [extract_b1]; simp [readCoef, h0])
  have h' : liml1 e d { o with normFid := n.val } key = .ok fun c => β c / β n.val := by
    unfold liml1 at hβ ⊢
    split at hβ
    · cases hβ
    rename_i hdet
    rw [if_neg (show ¬ (Wx d { o with normFid := n.val }).det = 0 from hdet)]
    split at hβ
    · cases hβ
    rename_i p hpa
    rw [if_pos (by omega)] at hβ
    have hpa' : (e.pairs ((Wx d { o with normFid := n.val })⁻¹ * Wz d { o with normFid := n.val } key)).argmin Prod.fst =
        some p := hpa
    rw [hpa']
    simp only
    rw [if_pos (show n.val < ncol nf { o with normFid := n.val } from lt_of_lt_of_le n.isLt hnc)]
    refine congrArg Except.ok (funext fun c => ?_)
    have hβ' : ∀ c, β c = ext _ p.2 c / ext _ p.2 o.normFid := fun c => congrFun (Except.ok.inj hβ).symm c
    have hn0 : ext _ p.2 o.normFid ≠ 0 := fun h0 => hβn (by rw [hβ', h0, div_zero])
    rw [hβ' c, hβ' n.val, div_div_div_cancel_right₀ hn0]
    rfl
  have e1 : ∀ j, (extract nf { o with normFid := n.val } fun c => β c / β n.val).B1 j =
      (extract nf o β).B1 j / (extract nf o β).B1 n := fun j => by
    simp only [extract, one_div, inv_div, div_eq_mul_inv, inv_inv, mul_inv]; ring
  have e2 : ∀ j, (extract nf { o with normFid := n.val } fun c => β c / β n.val).B2 j =
      (extract nf o β).B2 j / (extract nf o β).B1 n := fun j => by
    simp only [extract]
    split <;> simp only [one_div, inv_div, div_eq_mul_inv, inv_inv, mul_inv] <;> ring
  have e3 : ∀ j, (extract nf { o with normFid := n.val } fun c => β c / β n.val).A1 j = (extract nf o β).A1 j := fun j => by
    simp only [extract]
    split
    · simp
    · rw [one_div, inv_div, ← mul_div_assoc, div_mul_cancel₀ _ hβn, mul_one_div]
  refine ⟨_, (fitLinear_liml1 (o := { o with normFid := n.val }) hm).2 ⟨hv, hp, key, _, hk, h', rfl⟩, e1, e2, funext e3, ?_,
    ?_⟩
  · funext j
    rcases Bool.eq_false_or_eq_true o.statA with hA | hA
    rotate_left
    · simp only [extract, hA, Bool.false_eq_true, if_false]
      split <;> beta_reduce
      · rw [one_div, inv_div, ← mul_div_assoc, div_mul_cancel₀ _ hβn, mul_one_div]
      · rw [one_div, inv_div, ← mul_div_assoc, div_mul_cancel₀ _ hβn, mul_one_div]
    · have e4 : ∀ (o : Opts) (β : ℕ → ℝ), o.statA = true → (extract nf o β).A2 j =
          (extract nf o β).A1 j * ((extract nf o β).B2 j / (extract nf o β).B1 j) := fun o β h => by
        simp only [extract, h, if_true]
      rw [e4 _ _ hA, e4 { o with normFid := n.val } _ hA, e3, e1, e2, div_div_div_cancel_right₀ (hb1 n)]
  · rw [e1, div_self (hb1 n)]

/-! ## Method `linear` -/

/-- Intercepts as a vector. -/
def writeLin (a1 a2 : Fin nf → ℝ) (c : ℕ) : ℝ := if c < nf - 1 then ext nf a1 (c + 1) else ext nf a2 (c - (nf - 1))

theorem extractLin_write (statA : Bool) {a1 a2 : Fin nf → ℝ} (h0 : ∀ j : Fin nf, j.val = 0 → a1 j = 0)
    (hst : statA = true → a2 = a1) : extractLin nf statA (writeLin a1 a2) = ⟨a1, a2, fun _ => 1, fun _ => 1⟩ := by
  have e1 : ∀ j : Fin nf, (if j.val = 0 then (0 : ℝ) else writeLin a1 a2 (j.val - 1)) = a1 j := by
    intro j
    split
    · rename_i hj; exact (h0 j hj).symm
    · rename_i hj
      have := j.isLt
      rw [writeLin, if_pos (by omega), show j.val - 1 + 1 = j.val by omega, ext_lt]
  unfold extractLin
  simp only [e1]
  cases hA : statA
  · have : (fun j : Fin nf => writeLin a1 a2 (nf - 1 + j.val)) = a2 := by
      funext j
      rw [writeLin, if_neg (by omega), Nat.add_sub_cancel_left, ext_lt]
    simp only [Bool.false_eq_true, if_false, this]
  · simp only [if_true, hst hA]

theorem lin_iff (d : Data ni nf) (statA : Bool) (x : ℕ → ℝ) : LinNormal d statA x ↔
    ∀ a < w2 nf statA, ∑ i, d.D i * XXlin d statA i a * (d.Y1 i - d.Y2 i -
      ((extractLin nf statA x).A1 (d.J1 i) - (extractLin nf statA x).A2 (d.J2 i))) = 0 := by
  refine forall_congr' fun a => forall_congr' fun _ => ?_
  have e : ∑ b ∈ range (w2 nf statA), (∑ i, d.D i * XXlin d statA i a * XXlin d statA i b) * x b =
      ∑ i, d.D i * XXlin d statA i a * ((extractLin nf statA x).A1 (d.J1 i) - (extractLin nf statA x).A2 (d.J2 i)) := by
    simp only [sum_mul]
    rw [sum_comm]
    refine sum_congr rfl fun i _ => ?_
    rw [← lin_resid, mul_sum]
    exact sum_congr rfl fun b _ => by ring
  rw [e]
  simp only [mul_sub (_ * _), sum_sub_distrib]
  constructor <;> intro h <;> linarith

/-- C123: the same with `method='linear'`, whatever the origin, if the solver solves the normal equations and those of
the data in the other way of writing have one solution. -/
theorem C123_linear {r : Spec.Change ni nf} {d d' : Data ni nf} (hd : r.SameData d d') {o : Opts} (hm : o.method = .linear)
    (hn : o.normFid < nf) {W W' : Fin ni → ℕ} {nw : ℕ} {e e' : EigVec} {rss rss' : Data ni nf → Bool → ℕ → ℝ}
    {cz : Bool} {x : Effects nf} (hs : LinNormal d o.statA (rss d o.statA)) (hs' : LinNormal d' o.statA (rss' d' o.statA))
    (hid : ∀ y z, LinNormal d' o.statA y → LinNormal d' o.statA z → ∀ c < w2 nf o.statA, y c = z c)
    (h : fitLinear e rss d o W nw cz = .ok x) :
    ∃ x', fitLinear e' rss' d' (r.opts o hn) W' nw cz = .ok x' ∧ r.SameEffects x x' := by
  have h0 : 0 < nf := by omega
  set j0 : Fin nf := ⟨0, h0⟩ with hj0
  have hfit : validate o = .ok () ∧ x = extractLin nf o.statA (rss d o.statA) := by
    unfold fitLinear at h
    rcases hv : validate o with m | u
    · rw [hv] at h; simp [bind, Except.bind] at h
    · rw [hv] at h
      simp only [bind, Except.bind, hm, if_true] at h
      exact ⟨rfl, (Except.ok.inj h).symm⟩
  obtain ⟨hv, hx⟩ := hfit
  have hfit' : fitLinear e' rss' d' (r.opts o hn) W' nw cz = .ok (extractLin nf o.statA (rss' d' o.statA)) := by
    unfold fitLinear
    rw [validate_opts, hv]
    have : (r.opts o hn).method = .linear := hm
    simp only [bind, Except.bind, this, if_true]
    rfl
  refine ⟨_, hfit', ?_⟩
  set st := o.statA with hst
  have hx2 : st = true → x.A2 = x.A1 := fun h => by rw [hx]; simp [extractLin, h]
  -- the effects in the other way of writing
  set a1 : Fin nf → ℝ := fun j => r.a * x.A1 (r.firms.symm j) - r.a * x.A1 (r.firms.symm j0) with ha1
  set a2 : Fin nf → ℝ := fun j => r.a * x.A2 (r.firms.symm j) - r.a * x.A1 (r.firms.symm j0) with ha2
  have hz0 : ∀ j : Fin nf, j.val = 0 → a1 j = 0 := fun j hj => by
    have : j = j0 := Fin.ext hj
    rw [this]; simp [ha1]
  have hz2 : st = true → a2 = a1 := fun h => by simp only [ha1, ha2, hx2 h]
  have hw := extractLin_write st hz0 hz2
  have hsol : LinNormal d' st (writeLin a1 a2) := by
    rw [lin_iff, hw]
    intro a ha
    -- the column as intercepts by firm
    set u : ℕ → ℝ := fun c => if c = a then 1 else 0 with hu
    set g := extractLin nf st u with hg
    have hg2 : st = true → g.A2 = g.A1 := fun h => by rw [hg]; simp [extractLin, h]
    have hcol : ∀ i, XXlin d' st i a = g.A1 (d'.J1 i) - g.A2 (d'.J2 i) := fun i => by
      rw [← lin_resid]
      simp [hu, mul_ite, Finset.sum_ite_eq', ha]
    set y := writeLin (fun j => g.A1 (r.firms j) - g.A1 (r.firms j0)) (fun j => g.A2 (r.firms j) - g.A1 (r.firms j0)) with hy
    have hyw := extractLin_write st (a1 := fun j => g.A1 (r.firms j) - g.A1 (r.firms j0))
      (a2 := fun j => g.A2 (r.firms j) - g.A1 (r.firms j0))
      (fun j hj => by have : j = j0 := Fin.ext hj; rw [this]; ring) (fun h => by rw [hg2 h])
    have hyi : ∀ i, ∑ c ∈ range (w2 nf st), XXlin d st i c * y c = XXlin d' st (r.rows i) a := fun i => by
      rw [lin_resid, hy, hyw, hcol, hd.j1, hd.j2]
      ring
    rw [← Equiv.sum_comp r.rows]
    have hterm : ∀ i, d'.D (r.rows i) * XXlin d' st (r.rows i) a * (d'.Y1 (r.rows i) - d'.Y2 (r.rows i) -
        (a1 (d'.J1 (r.rows i)) - a2 (d'.J2 (r.rows i)))) =
        ∑ c ∈ range (w2 nf st), r.a * y c * (d.D i * XXlin d st i c * (d.Y1 i - d.Y2 i -
          (x.A1 (d.J1 i) - x.A2 (d.J2 i)))) := fun i => by
      rw [← hyi, hd.w, hd.y1, hd.y2, hd.j1, hd.j2]
      simp only [ha1, ha2, Equiv.symm_apply_apply]
      rw [mul_sum, sum_mul]
      exact sum_congr rfl fun c _ => by ring
    simp only [hterm]
    rw [sum_comm]
    refine sum_eq_zero fun c hc => ?_
    rw [← mul_sum]
    have := (lin_iff d st _).1 hs c (mem_range.1 hc)
    rw [← hx] at this
    rw [this, mul_zero]
  have heq : extractLin nf st (rss' d' st) = ⟨a1, a2, fun _ => 1, fun _ => 1⟩ := by
    rw [← hw]
    have hag := hid _ _ hs' hsol
    unfold extractLin
    have e1 : (fun j : Fin nf => if j.val = 0 then (0 : ℝ) else rss' d' st (j.val - 1)) =
        fun j : Fin nf => if j.val = 0 then (0 : ℝ) else writeLin a1 a2 (j.val - 1) := by
      funext j
      have := j.isLt
      split
      · rfl
      · exact hag _ (by unfold w2; split <;> omega)
    simp only [e1]
    cases hA : st
    · have e2 : (fun j : Fin nf => rss' d' false (nf - 1 + j.val)) = fun j : Fin nf => writeLin a1 a2 (nf - 1 + j.val) := by
        funext j
        have := j.isLt
        rw [hA] at hag
        exact hag _ (by simp only [w2, Bool.false_eq_true, if_false]; omega)
      simp only [Bool.false_eq_true, if_false, e2]
    · simp
  rw [heq]
  have hb1 : ∀ j, x.B1 j = 1 := fun j => by rw [hx]; rfl
  have hb2 : ∀ j, x.B2 j = 1 := fun j => by rw [hx]; rfl
  refine ⟨fun j => (hb1 j).symm, fun j => (hb2 j).symm, r.c + r.a * x.A1 (r.firms.symm j0), fun j => ?_, fun j => ?_, hz0⟩
  · simp only [ha1, Equiv.symm_apply_apply, hb1]; ring
  · simp only [ha2, Equiv.symm_apply_apply, hb2]; ring

/-! ## Cases -/

/-- Three movers from firm 0 to firm 1. -/
def normData : Data 3 2 where
  Y1 := ![0, 1, 0]
  Y2 := ![0, 1, 1]
  J1 := fun _ => 0
  J2 := fun _ => 1
  D := fun _ => 1

/-- `iv` with the workers as instruments and firm `n` normalised. -/
def ivOpts (n : ℕ) : Opts := ⟨.iv, n, true, true, false, .workerIds, 0, 0⟩

theorem zsum_val (u x : Fin ni → ℝ) (i : Fin ni) : zsum (fun i : Fin ni => i.val) u x i.val = u i * x i := by
  unfold zsum
  rw [sum_filter]
  simp [Fin.val_inj]

theorem ivForm_val (d : Data ni nf) (hD : ∀ i, d.D i = 1) (o : Opts) (ht : o.tik = 0) (γ β : ℕ → ℝ) :
    ivForm (fun i : Fin ni => i.val) d o γ β = ∑ i, Interacted.resid d o γ i * Interacted.resid d o β i := by
  unfold ivForm zform
  simp only [mul_assoc]
  rw [form_rows (fun i : Fin ni => i.val) _ _ fun z => 1 / (zsum (fun i : Fin ni => i.val) d.D (fun _ => 1) z + o.tik) *
    zsum (fun i : Fin ni => i.val) (fun i => √(d.D i)) (Interacted.resid d o β) z]
  refine sum_congr rfl fun i _ => ?_
  rw [zsum_val, zsum_val, hD, ht]
  simp

theorem normResid (n : ℕ) (β : ℕ → ℝ) :
    Interacted.resid normData (ivOpts n) β 0 = - β 2 ∧ Interacted.resid normData (ivOpts n) β 1 = β 1 - β 0 - β 2 ∧
      Interacted.resid normData (ivOpts n) β 2 = β 1 - β 2 := by
  refine ⟨?_, ?_, ?_⟩ <;> rw [resid_read] <;> simp [Coef.resid, readCoef, normData, ivOpts, w1] <;> ring

theorem norm_fit (e : EigVec) (rss : Data 3 2 → Bool → ℕ → ℝ) (n : Fin 2) :
    ∃ x, fitLinear e rss normData (ivOpts n.val) (fun i => i.val) 3 true = .ok x ∧
      (∀ j, x.B1 j = if j = n then 1 else 2) ∧ ∀ j, x.B2 j ≠ 0 := by
  have hnc : ∀ n, ncol 2 (ivOpts n) = 3 := fun n => rfl
  have hform : ∀ (n : ℕ) (γ β : ℕ → ℝ), ivForm (fun i : Fin 3 => i.val) normData (ivOpts n) γ β =
      γ 2 * β 2 + (γ 1 - γ 0 - γ 2) * (β 1 - β 0 - β 2) + (γ 1 - γ 2) * (β 1 - β 2) := fun n γ β => by
    rw [ivForm_val _ (fun _ => rfl) _ rfl, Fin.sum_univ_three]
    simp only [normResid]
    ring
  have hpos : ∀ (n : ℕ) (γ : ℕ → ℝ), (∃ c < ncol 2 (ivOpts n), γ c ≠ 0) →
      0 < ivForm (fun i : Fin 3 => i.val) normData (ivOpts n) γ γ := by
    rintro n γ ⟨c, hc, hγ⟩
    rw [hform]
    rcases lt_or_eq_of_le (show 0 ≤ γ 2 * γ 2 + (γ 1 - γ 0 - γ 2) * (γ 1 - γ 0 - γ 2) + (γ 1 - γ 2) * (γ 1 - γ 2) by
      have := mul_self_nonneg (γ 2); have := mul_self_nonneg (γ 1 - γ 0 - γ 2); have := mul_self_nonneg (γ 1 - γ 2)
      linarith) with h | h
    · exact h
    · exfalso
      have q1 := mul_self_nonneg (γ 2)
      have q2 := mul_self_nonneg (γ 1 - γ 0 - γ 2)
      have q3 := mul_self_nonneg (γ 1 - γ 2)
      have z1 : γ 2 = 0 := mul_self_eq_zero.1 (by linarith)
      have z2 : γ 1 - γ 0 - γ 2 = 0 := mul_self_eq_zero.1 (by linarith)
      have z3 : γ 1 - γ 2 = 0 := mul_self_eq_zero.1 (by linarith)
      have : c = 0 ∨ c = 1 ∨ c = 2 := by rw [hnc] at hc; omega
      rcases this with rfl | rfl | rfl <;> exact hγ (by linarith)
  have hkey : ∀ n, keyOf normData (ivOpts n) (fun i => i.val) 3 true = .ok (some fun i => i.val) := fun n => by
    simp only [keyOf, ivOpts, if_true]
    rw [if_pos fun i => i.isLt]
  fin_cases n
  · refine ⟨_, (fitLinear_iv rfl).2 ⟨rfl, rfl, _, fun c => if c = 0 then 1 else if c = 1 then 1 / 2 else 0, hkey 0,
      (iv_ok_iff _ _ _ (by decide) _).2 ⟨fun γ _ h => hpos 0 γ h, ?_, fun c hc => ?_, fun γ hγ => ?_⟩, rfl⟩, ?_, ?_⟩
    · simp [ivOpts]
    · rw [hnc] at hc
      rw [if_neg (by omega), if_neg (by omega)]
    · rw [hform]
      have : γ 0 = 0 := hγ
      simp [this]; ring
    · intro j; fin_cases j <;> simp [extract]
    · intro j; fin_cases j <;> simp [extract, ivOpts]
  · refine ⟨_, (fitLinear_iv rfl).2 ⟨rfl, rfl, _, fun c => if c = 0 then 1 / 2 else if c = 1 then 1 else if c = 2 then 1 / 2
      else 0, hkey 1,
      (iv_ok_iff _ _ _ (by decide) _).2 ⟨fun γ _ h => hpos 1 γ h, ?_, fun c hc => ?_, fun γ hγ => ?_⟩, rfl⟩, ?_, ?_⟩
    · simp [ivOpts]
    · rw [hnc] at hc
      rw [if_neg (by omega), if_neg (by omega), if_neg (by omega)]
    · rw [hform]
      have : γ 1 = 0 := hγ
      simp [this]; ring
    · intro j; fin_cases j <;> simp [extract]
    · intro j; fin_cases j <;> simp [extract, ivOpts]

/-- C123: with `method='iv'` the choice of the normalised firm changes the estimates: in `normData` firm 1 has twice the
slope of firm 0 if firm 0 is normalised, and half of it if firm 1 is. -/
theorem C123_iv_norm_matters (e : EigVec) (rss : Data 3 2 → Bool → ℕ → ℝ) :
    ∃ x x', fitLinear e rss normData (ivOpts 0) (fun i => i.val) 3 true = .ok x ∧
      fitLinear e rss normData (ivOpts 1) (fun i => i.val) 3 true = .ok x' ∧
      x.B1 1 = 2 * x.B1 0 ∧ x'.B1 1 = x'.B1 0 / 2 := by
  obtain ⟨x, h, hb, -⟩ := norm_fit e rss 0
  obtain ⟨x', h', hb', -⟩ := norm_fit e rss 1
  exact ⟨x, x', h, h', by rw [hb, hb]; simp, by rw [hb', hb']; simp⟩

/-- A change of everything. -/
def exChange : Spec.Change 3 2 := ⟨Equiv.swap 0 2, Equiv.swap 0 1, 2, 3⟩

/-- `normData` after it. -/
noncomputable def normData' : Data 3 2 where
  Y1 i := 2 * normData.Y1 (Equiv.swap 0 2 i) + 3
  Y2 i := 2 * normData.Y2 (Equiv.swap 0 2 i) + 3
  J1 _ := 1
  J2 _ := 0
  D _ := 1

/-- Non-vacuity of `C123_iv`. -/
example (e : EigVec) (rss : Data 3 2 → Bool → ℕ → ℝ) : ∃ x, exChange.SameData normData normData' ∧
    exChange.Allowed (ivOpts 0) ∧ exChange.SameWorkers (fun i => i.val) (fun i => i.val) 3 ∧
    fitLinear e rss normData (ivOpts 0) (fun i => i.val) 3 true = .ok x ∧ (∀ j, x.B1 j ≠ 0) ∧ ∀ j, x.B2 j ≠ 0 := by
  obtain ⟨x, h, hb, hb2⟩ := norm_fit e rss 0
  refine ⟨x, ⟨fun i => ?_, fun i => ?_, fun i => ?_, fun i => ?_, fun i => rfl⟩, ⟨two_ne_zero, Or.inr (Or.inr rfl)⟩,
    ⟨fun i i' => ?_, fun i => i.isLt⟩, h, fun j => ?_, hb2⟩
  · simp [normData', exChange]
  · simp [normData', exChange]
  · simp [normData', exChange, normData]
  · simp [normData', exChange, normData]
  · rw [Fin.val_inj, Fin.val_inj]; exact exChange.rows.injective.eq_iff
  · rw [hb]; split <;> norm_num

/-- If some effects make every group's moment zero and they are the only direction that does, the smallest eigenvalue
has one direction. -/
theorem oneDirection_of_moments (d : Data ni nf) (o : Opts) (key : Fin ni → ℕ) (hD : ∀ i, 0 < d.D i) (ht : 0 ≤ o.tik)
    (hdet : (Wx d o).det ≠ 0) (v0 : Fin (ncol nf o) → ℝ) (hv0 : v0 ≠ 0)
    (hg0 : ∀ z, groupMoment key d o (ext _ v0) z = 0)
    (hid : ∀ v : Fin (ncol nf o) → ℝ, (∀ z, groupMoment key d o (ext _ v) z = 0) → ∃ s : ℝ, v = s • v0) :
    Spec.OneDirection d o key := by
  intro r v w hv hve hwe hmin
  have hu : IsUnit (Wx d o).det := isUnit_iff_ne_zero.2 hdet
  have hz0 : (Wz d o key).mulVec v0 = 0 := by
    funext a
    rw [Wz_mulVec]
    exact sum_eq_zero fun z _ => by rw [hg0, mul_zero]
  have hr : r ≤ 0 := hmin 0 v0 hv0 (by rw [← Matrix.mulVec_mulVec, hz0, Matrix.mulVec_zero, zero_smul])
  have key' : ∀ v : Fin (ncol nf o) → ℝ, ((Wx d o)⁻¹ * Wz d o key).mulVec v = r • v → ∃ s : ℝ, v = s • v0 := by
    intro v hve
    have hWz : (Wz d o key).mulVec v = r • (Wx d o).mulVec v := by
      rw [← Matrix.mulVec_smul, ← hve, Matrix.mulVec_mulVec, ← Matrix.mul_assoc, Matrix.mul_nonsing_inv _ hu,
        Matrix.one_mul]
    have hq : ∑ z ∈ univ.image key, (1 / (zsum key d.D (fun _ => 1) z + o.tik)) *
        groupMoment key d o (ext _ v) z ^ 2 = r * ∑ i, d.D i * resid d o (ext _ v) i ^ 2 := by
      rw [← Wz_quad, ← Wx_quad, hWz, mul_sum]
      exact sum_congr rfl fun a _ => by simp only [Pi.smul_apply, smul_eq_mul]; ring
    have hden : ∀ z ∈ univ.image key, 0 < 1 / (zsum key d.D (fun _ => 1) z + o.tik) := fun z hz =>
      one_div_pos.mpr (by linarith [zsum_pos key d hD z hz])
    have hterm : ∀ z ∈ univ.image key, 0 ≤ (1 / (zsum key d.D (fun _ => 1) z + o.tik)) *
        groupMoment key d o (ext _ v) z ^ 2 := fun z hz => mul_nonneg (hden z hz).le (sq_nonneg _)
    have hzero := le_antisymm (hq.le.trans (mul_nonpos_of_nonpos_of_nonneg hr
      (sum_nonneg fun i _ => mul_nonneg (hD i).le (sq_nonneg _)))) (sum_nonneg hterm)
    rw [sum_eq_zero_iff_of_nonneg hterm] at hzero
    refine hid v fun z => ?_
    by_cases hz : z ∈ univ.image key
    · rcases mul_eq_zero.mp (hzero z hz) with h | h
      · exact absurd h (hden z hz).ne'
      · exact pow_eq_zero_iff (two_ne_zero) |>.mp h
    · rw [groupMoment, zsum, sum_eq_zero]
      intro i hi
      exact absurd (mem_image.mpr ⟨i, mem_univ i, (mem_filter.mp hi).2⟩) hz
  obtain ⟨s, hs⟩ := key' v hve
  obtain ⟨t, ht⟩ := key' w hwe
  have hs0 : s ≠ 0 := by rintro rfl; exact hv (by rw [hs, zero_smul])
  exact ⟨t / s, by rw [ht, hs, smul_smul, div_mul_cancel₀ _ hs0]⟩

/-- Non-vacuity of `C123_liml1` and `C123_liml1_norm`: firms of `exData` under other numbers. -/
example (e : EigVec) (he : e.Right) (rss : Data 4 2 → Bool → ℕ → ℝ) : ∃ x,
    fitLinear e rss exData (exOpts .liml1) (fun _ => 0) 1 true = .ok x ∧ (∀ j, x.B1 j ≠ 0) ∧ (∀ j, x.B2 j ≠ 0) ∧
    ∀ key, keyOf exData (exOpts .liml1) (fun _ => 0) 1 true = .ok (some key) →
      Spec.OneDirection exData (exOpts .liml1) key := by
  obtain ⟨β, hβ, hx⟩ := exData_liml1 e he
  refine ⟨unitEffects, (fitLinear_liml1 rfl).2 ⟨rfl, rfl, _, β, rfl, hβ, hx.symm⟩, fun _ => one_ne_zero, fun _ => one_ne_zero,
    fun key hk => ?_⟩
  cases Option.some.inj (Except.ok.inj hk)
  have hdet : (Wx exData (exOpts .liml1)).det ≠ 0 := by
    intro h
    unfold liml1 at hβ
    rw [if_pos h] at hβ
    cases hβ
  refine oneDirection_of_moments exData _ _ (fun _ => one_pos) le_rfl hdet (fun c => if c.val < 2 then 1 else 0) ?_ ?_ ?_
  · intro h
    have := congrFun h ⟨0, by decide⟩
    simp at this
  · intro z
    unfold groupMoment zsum
    rw [sum_filter]
    simp only [resid_read]
    simp [Fin.sum_univ_succ, pairKey, exData, Coef.resid, readCoef, exOpts, ext, ncol, w1, w2]
    split_ifs <;> norm_num
  · intro v hv
    have h2 := hv 2
    have h1 := hv 1
    unfold groupMoment zsum at h1 h2
    rw [sum_filter] at h1 h2
    simp only [resid_read] at h1 h2
    simp [Fin.sum_univ_succ, pairKey, exData, Coef.resid, readCoef, exOpts, w1] at h1 h2
    have e1 : ext (ncol 2 (exOpts .liml1)) v 2 = 0 := by simp only [exOpts] at *; linarith
    have e2 : ext (ncol 2 (exOpts .liml1)) v 1 = ext (ncol 2 (exOpts .liml1)) v 0 := by simp only [exOpts] at *; linarith
    refine ⟨ext _ v 0, funext fun c => ?_⟩
    rw [← ext_lt v c]
    have : c.val = 0 ∨ c.val = 1 ∨ c.val = 2 := by
      have : c.val < 3 := c.isLt
      omega
    rcases this with h | h | h <;> rw [h] <;> simp [e1, e2, h]

/-- `exData` with the firms swapped. -/
def exData' : Data 4 2 := { exData with J1 := ![1, 1, 0, 0], J2 := ![0, 0, 1, 1] }

/-- Non-vacuity of `C123_linear`. -/
example (e : EigVec) : (Spec.Change.mk 1 (Equiv.swap 0 1) 1 0).SameData exData exData' ∧
    LinNormal exData true (fun _ => 0) ∧ LinNormal exData' true (fun _ => 0) ∧
    (∀ y z, LinNormal exData' true y → LinNormal exData' true z → ∀ c < w2 2 true, y c = z c) ∧
    ∃ x, fitLinear e (fun _ _ _ => 0) exData ⟨.linear, 0, true, false, false, .firmPairs, 0, 0⟩ (fun _ => 0) 1 true = .ok x := by
  refine ⟨⟨fun i => ?_, fun i => ?_, fun i => ?_, fun i => ?_, fun i => rfl⟩, fun a ha => ?_, fun a ha => ?_,
    fun y z hy hz c hc => ?_, _, rfl⟩
  · simp [exData']
  · simp [exData']
  · fin_cases i <;> simp [exData', exData]
  · fin_cases i <;> simp [exData', exData]
  · have : a = 0 := by have : a < 1 := ha; omega
    subst this
    simp [XXlin, X2, drop1, JJ, exData, Fin.sum_univ_succ]
  · have : a = 0 := by have : a < 1 := ha; omega
    subst this
    simp [XXlin, X2, drop1, JJ, exData, exData', Fin.sum_univ_succ]
  · have : c = 0 := by have : c < 1 := hc; omega
    subst this
    have h1 := hy 0 hc
    have h2 := hz 0 hc
    simp [XXlin, X2, drop1, JJ, exData, exData', Fin.sum_univ_succ, w2] at h1 h2
    norm_num at h1 h2
    linarith

end Pytwoway.Interacted
