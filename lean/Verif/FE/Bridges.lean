import Verif.FEControl.Probes

/-! # Leverages of one and leave-one-observation-out connectedness (C125)

The heteroskedastic correction stops with "Max P_ii is ... which is >= 1. This means your data is not
leave-one-observation-out connected" (fe.py:1518-1521, 1595-1597).  Here: what a leverage of one says about the network of
workers and firms. -/

namespace Pytwoway.FE

open Matrix
open scoped BigOperators
open FE.Probes (LevErr)

variable {n m nw : ℕ}

/-! ## Model -/

/-- What `_estimate_exact_leverages` returns and stores: `Pii`, `res['min_lev']`, `res['max_lev']`; fe.py:1492-1525. -/
structure ExactLev (n : ℕ) where
  Pii : Fin n → ℝ
  minLev : ℝ
  maxLev : ℝ

/-- The rows whose leverages are looked at: `Pii[self.worker_m]` with weights or `Sii_stayers='firm_mean'`, else `Pii`;
fe.py:1511-1516. -/
def Panel.checkedRows (d : Panel n m nw) (st : Panel.Stayers) : Finset (Fin n) :=
  match d.weighted, st with
  | false, .upperBound => Finset.univ
  | _, _ => Finset.univ.filter fun o => d.workerM o

/-- `_estimate_exact_leverages`, fe.py:1483-1525.  `noRows`: the minimum of an empty array (NumPy `ValueError`);
`leverageOne`: the `ValueError` of fe.py:1521. -/
noncomputable def Panel.exactLev (d : Panel n m nw) (st : Panel.Stayers) : Except LevErr (ExactLev n) :=
  if h : (d.checkedRows st).Nonempty then
    let lo := (d.checkedRows st).inf' h d.exactPii
    let hi := (d.checkedRows st).sup' h d.exactPii
    if hi ≥ 1 then .error .leverageOne else .ok ⟨d.exactPii, lo, hi⟩
  else .error .noRows

/-! ## Specification -/

/-- The network of workers and firms in which the kept observations are the edges. -/
def Spec.Edge (d : Panel n m nw) (keep : Fin n → Prop) (a b : Fin nw ⊕ Fin (m + 1)) : Prop :=
  ∃ o, keep o ∧ ((a = .inl (d.i o) ∧ b = .inr (d.j o)) ∨ (a = .inr (d.j o) ∧ b = .inl (d.i o)))

/-- The kept observations connect all workers and all firms. -/
def Spec.Joined (d : Panel n m nw) (keep : Fin n → Prop) : Prop :=
  ∀ a b, Relation.ReflTransGen (Spec.Edge d keep) a b

/-! ## Designs -/

section Hat

variable {ι κ : Type*} [Fintype ι] [Fintype κ] [DecidableEq ι] [DecidableEq κ]

/-- A leverage of one: some direction is seen by this row only. -/
theorem hat_one_iff (X : Matrix ι κ ℝ) (w : ι → ℝ) (hw : ∀ o, 0 < w o) (h : IsUnit (nmat X w).det) (o : ι) :
    hat X w o o = 1 ↔ ∃ t, (∀ b, b ≠ o → (X *ᵥ t) b = 0) ∧ (X *ᵥ t) o ≠ 0 := by
  constructor
  · intro h1
    set G := X * (nmat X w)⁻¹ * Xᵀ with hG
    have hsum : hat X w o o = w o * ∑ b, w b * G o b ^ 2 := by
      have hi : hat X w o o = ∑ b, hat X w o b * hat X w b o := by
        conv_lhs => rw [← hat_idem X w h]
        rw [mul_apply]
      rw [hi, Finset.mul_sum]
      refine Finset.sum_congr rfl fun b _ => ?_
      rw [hat_apply, hat_apply, gmat_symm X w b o, ← hG]; ring
    have hoo : G o o * w o = 1 := by rw [hG, ← hat_apply, h1]
    have hz : ∑ b ∈ Finset.univ.erase o, w b * G o b ^ 2 = 0 := by
      rw [h1, ← Finset.add_sum_erase _ _ (Finset.mem_univ o)] at hsum
      have e : w o * (w o * G o o ^ 2) = 1 := by
        have : w o * (w o * G o o ^ 2) = (G o o * w o) ^ 2 := by ring
        rw [this, hoo, one_pow]
      rw [mul_add, e] at hsum
      have : w o * ∑ b ∈ Finset.univ.erase o, w b * G o b ^ 2 = 0 := by linarith
      exact (mul_eq_zero.mp this).resolve_left (hw o).ne'
    have hcol : ∀ b, (X *ᵥ ((nmat X w)⁻¹ *ᵥ (Xᵀ *ᵥ Pi.single o 1))) b = G b o := by
      intro b
      rw [mulVec_mulVec, mulVec_mulVec, mulVec_single_one]; rfl
    refine ⟨(nmat X w)⁻¹ *ᵥ (Xᵀ *ᵥ Pi.single o 1), fun b hb => ?_, ?_⟩
    · rw [hcol, hG, gmat_symm, ← hG]
      have := (Finset.sum_eq_zero_iff_of_nonneg (fun b _ => mul_nonneg (hw b).le (sq_nonneg _))).mp hz b
        (Finset.mem_erase.mpr ⟨hb, Finset.mem_univ b⟩)
      simpa using (mul_eq_zero.mp this).resolve_left (hw b).ne'
    · rw [hcol]; rintro h0; rw [h0, zero_mul] at hoo; exact zero_ne_one hoo
  · rintro ⟨t, h1, h2⟩
    have h3 : (hat X w *ᵥ (X *ᵥ t)) o = (X *ᵥ t) o := by rw [mulVec_mulVec, hat_mul_X X w h]
    have h4 : (hat X w *ᵥ (X *ᵥ t)) o = hat X w o o * (X *ᵥ t) o := by
      simp only [mulVec, dotProduct] at h1 ⊢
      refine Finset.sum_eq_single o (fun b _ hb => ?_) (fun h => (h (Finset.mem_univ o)).elim)
      rw [h1 b hb, mul_zero]
    rw [h4] at h3
    exact mul_right_cancel₀ h2 (by rw [h3, one_mul])

end Hat

/-! ## Networks -/

variable {d : Panel n m nw} {solve : (Fin m → ℝ) → (Fin m → ℝ)}

theorem Spec.Edge.symm {keep : Fin n → Prop} {a b : Fin nw ⊕ Fin (m + 1)} (h : Spec.Edge d keep a b) :
    Spec.Edge d keep b a := by
  obtain ⟨o, ho, h | h⟩ := h
  · exact ⟨o, ho, .inr ⟨h.2, h.1⟩⟩
  · exact ⟨o, ho, .inl ⟨h.2, h.1⟩⟩

theorem edgePath_symm {keep : Fin n → Prop} {a b : Fin nw ⊕ Fin (m + 1)}
    (h : Relation.ReflTransGen (Spec.Edge d keep) a b) : Relation.ReflTransGen (Spec.Edge d keep) b a := by
  induction h with
  | refl => exact .refl
  | tail _ he ih => exact ih.head he.symm

/-- The estimator's notion of connectedness, together with every worker being seen, is that of the whole network. -/
theorem joined_all (hv : d.Valid) (hc : d.Connected) : Spec.Joined d fun _ => True := by
  have hfirm : ∀ a b : Fin (m + 1), Relation.ReflTransGen (Spec.Edge d fun _ => True) (.inr a) (.inr b) := by
    intro a b
    have h := hc a b
    induction h with
    | refl => exact .refl
    | tail _ h ih =>
      obtain ⟨o, o', hi, rfl, rfl⟩ := h
      exact (ih.tail ⟨o, trivial, .inr ⟨rfl, rfl⟩⟩).tail ⟨o', trivial, .inl ⟨by rw [hi], rfl⟩⟩
  have hto : ∀ a : Fin nw ⊕ Fin (m + 1), Relation.ReflTransGen (Spec.Edge d fun _ => True) a (.inr 0) := by
    rintro (i | k)
    · obtain ⟨o, rfl⟩ := hv.seen i
      exact .head ⟨o, trivial, .inl ⟨rfl, rfl⟩⟩ (hfirm _ _)
    · exact hfirm _ _
  exact fun a b => (hto a).trans (edgePath_symm (hto b))

/-- If the worker and the firm of a row are connected without it, so is everything. -/
theorem joined_without (hv : d.Valid) (hc : d.Connected) {o : Fin n}
    (h : Relation.ReflTransGen (Spec.Edge d (· ≠ o)) (.inl (d.i o)) (.inr (d.j o))) : Spec.Joined d (· ≠ o) := by
  intro a b
  have hp := joined_all hv hc a b
  induction hp with
  | refl => exact .refl
  | tail _ he ih =>
    refine ih.trans ?_
    obtain ⟨b, -, hb⟩ := he
    by_cases hbo : b = o
    · subst hbo
      rcases hb with ⟨rfl, rfl⟩ | ⟨rfl, rfl⟩
      · exact h
      · exact edgePath_symm h
    · exact .single ⟨b, hbo, hb⟩

theorem const_on_path {keep : Fin n → Prop} {psi : Fin (m + 1) → ℝ} {alpha : Fin nw → ℝ}
    (h : ∀ b, keep b → psi (d.j b) + alpha (d.i b) = 0) {a b : Fin nw ⊕ Fin (m + 1)}
    (hp : Relation.ReflTransGen (Spec.Edge d keep) a b) :
    Sum.elim alpha (fun k => -psi k) a = Sum.elim alpha (fun k => -psi k) b := by
  induction hp with
  | refl => rfl
  | tail _ he ih =>
    rw [ih]
    obtain ⟨o, ho, ⟨rfl, rfl⟩ | ⟨rfl, rfl⟩⟩ := he <;> have := h o ho <;> simp only [Sum.elim_inl, Sum.elim_inr] <;> linarith

/-! ## C125 -/

/-- **C125**, leverages: the exact leverage of an observation is one exactly if the other observations no longer connect
all workers and firms. -/
theorem C125_leverage_one (hv : d.Valid) (hc : d.Connected) (o : Fin n) :
    d.computePii d.blocksFull o = 1 ↔ ¬ Spec.Joined d (· ≠ o) := by
  rw [d.computePii_eq hv (d.nmat_unit hv hc), hat_one_iff _ _ hv.wpos (d.nmat_unit hv hc)]
  constructor
  · rintro ⟨t, h1, h2⟩ hj
    obtain ⟨psi, alpha, rfl⟩ : ∃ psi alpha, t = Sum.elim psi alpha := ⟨_, _, (Sum.elim_comp_inl_inr t).symm⟩
    have hp := const_on_path (d := d) (keep := (· ≠ o)) (psi := Panel.withZero psi) (alpha := alpha)
      (fun b hb => by rw [← d.X_mulVec]; exact h1 b hb) (hj (.inl (d.i o)) (.inr (d.j o)))
    rw [d.X_mulVec] at h2
    simp only [Sum.elim_inl, Sum.elim_inr] at hp
    exact h2 (by linarith)
  · intro hj
    have hn : ¬ Relation.ReflTransGen (Spec.Edge d (· ≠ o)) (.inl (d.i o)) (.inr (d.j o)) :=
      fun h => hj (joined_without hv hc h)
    classical
    let phi : Fin nw ⊕ Fin (m + 1) → ℝ := fun a =>
      if Relation.ReflTransGen (Spec.Edge d (· ≠ o)) a (.inr (d.j o)) then 1 else 0
    have hphi : ∀ {a b}, Spec.Edge d (· ≠ o) a b → phi a = phi b := fun {a b} he => by
      have : Relation.ReflTransGen (Spec.Edge d (· ≠ o)) a (.inr (d.j o)) ↔
          Relation.ReflTransGen (Spec.Edge d (· ≠ o)) b (.inr (d.j o)) := ⟨fun h => h.head he.symm, fun h => h.head he⟩
      simp only [phi, this]
    let psi : Fin m → ℝ := fun k => phi (.inr 0) - phi (.inr k.succ)
    have hpsi : ∀ k, Panel.withZero psi k = phi (.inr 0) - phi (.inr k) := by
      intro k; refine Fin.cases ?_ (fun k => ?_) k <;> simp [Panel.withZero, psi]
    refine ⟨Sum.elim psi fun i => phi (.inl i) - phi (.inr 0), fun b hb => ?_, ?_⟩
    · rw [d.X_mulVec, hpsi, hphi ⟨b, hb, .inl ⟨rfl, rfl⟩⟩]; ring
    · rw [d.X_mulVec, hpsi]
      have e1 : phi (.inr (d.j o)) = 1 := if_pos .refl
      have e2 : phi (.inl (d.i o)) = 0 := if_neg hn
      rw [e1, e2]; intro h; linarith

/-- The rows the step looks at are those whose leverages the error variances use. -/
theorem mem_checkedRows (st : Panel.Stayers) (o : Fin n) : o ∈ d.checkedRows st ↔ d.UsesLeverage st o := by
  unfold Panel.checkedRows Panel.UsesLeverage
  cases st <;> cases hw : d.weighted <;> simp

theorem exactPii_used (st : Panel.Stayers) {o : Fin n} (h : d.UsesLeverage st o) :
    d.exactPii o = d.computePii d.blocksFull o := by
  rw [Panel.exactPii]
  rcases h with h | h
  · simp [h.1]
  · simp [h]

/-- **C125**, exact leverages: the step succeeds exactly if there are rows whose leverage is needed and none of them is the
only tie between two parts of the network; and it returns the leverages with their range over these rows. -/
theorem C125_exact_step (hv : d.Valid) (hc : d.Connected) (st : Panel.Stayers) :
    ((∃ r, d.exactLev st = .ok r) ↔
      (∃ o, d.UsesLeverage st o) ∧ ∀ o, d.UsesLeverage st o → Spec.Joined d (· ≠ o)) ∧
    (d.exactLev st = .error .leverageOne ↔ ∃ o, d.UsesLeverage st o ∧ ¬ Spec.Joined d (· ≠ o)) ∧
    (d.exactLev st = .error .noRows ↔ ∀ o, ¬ d.UsesLeverage st o) ∧
    ∀ r, d.exactLev st = .ok r → (∀ o, d.UsesLeverage st o →
        r.Pii o = d.computePii d.blocksFull o ∧ 0 ≤ r.minLev ∧ r.minLev ≤ r.Pii o ∧ r.Pii o ≤ r.maxLev ∧ r.maxLev < 1) ∧
      (∃ o, d.UsesLeverage st o ∧ r.Pii o = r.minLev) ∧ (∃ o, d.UsesLeverage st o ∧ r.Pii o = r.maxLev) := by
  have hone : ∀ o, d.UsesLeverage st o → (1 ≤ d.exactPii o ↔ ¬ Spec.Joined d (· ≠ o)) := fun o ho => by
    rw [← C125_leverage_one hv hc o, exactPii_used st ho]
    have := (C17_range hv hc o).2
    rw [exactPii_used st ho] at this
    exact ⟨fun h => le_antisymm this h, fun h => h.ge⟩
  by_cases hr : (d.checkedRows st).Nonempty
  · have hne : ∃ o, d.UsesLeverage st o := hr.imp fun o ho => (mem_checkedRows st o).1 ho
    have hhi : 1 ≤ (d.checkedRows st).sup' hr d.exactPii ↔ ∃ o, d.UsesLeverage st o ∧ ¬ Spec.Joined d (· ≠ o) := by
      rw [Finset.le_sup'_iff]
      simp only [mem_checkedRows]
      exact exists_congr fun o => and_congr_right fun ho => hone o ho
    by_cases h : 1 ≤ (d.checkedRows st).sup' hr d.exactPii
    · have he : d.exactLev st = .error .leverageOne := by
        rw [Panel.exactLev, dif_pos hr]; exact if_pos h
      obtain ⟨o, ho, hj⟩ := hhi.1 h
      refine ⟨⟨fun ⟨r, h'⟩ => ?_, fun h' => (hj (h'.2 o ho)).elim⟩, ⟨fun _ => ⟨o, ho, hj⟩, fun _ => he⟩,
        ⟨fun h' => ?_, fun h' => (h' o ho).elim⟩, fun r h' => ?_⟩ <;> rw [he] at h' <;> cases h'
    · have he : d.exactLev st = .ok ⟨d.exactPii, (d.checkedRows st).inf' hr d.exactPii,
          (d.checkedRows st).sup' hr d.exactPii⟩ := by
        rw [Panel.exactLev, dif_pos hr]; exact if_neg h
      have hno : ∀ o, d.UsesLeverage st o → Spec.Joined d (· ≠ o) := fun o ho => by
        by_contra hj; exact h (hhi.2 ⟨o, ho, hj⟩)
      refine ⟨⟨fun _ => ⟨hne, hno⟩, fun _ => ⟨_, he⟩⟩, ⟨fun h' => ?_, fun ⟨o, ho, hj⟩ => (hj (hno o ho)).elim⟩,
        ⟨fun h' => ?_, fun h' => (h' _ hne.choose_spec).elim⟩, fun r h' => ?_⟩
      · rw [he] at h'; cases h'
      · rw [he] at h'; cases h'
      · rw [he] at h'; obtain rfl := Except.ok.inj h'
        refine ⟨fun o ho => ⟨exactPii_used st ho, Finset.le_inf' hr _ fun b _ => (C17_range hv hc b).1,
          Finset.inf'_le _ ((mem_checkedRows st o).2 ho), Finset.le_sup' _ ((mem_checkedRows st o).2 ho), not_le.1 h⟩, ?_, ?_⟩
        · obtain ⟨o, ho, h'⟩ := Finset.exists_mem_eq_inf' hr d.exactPii
          exact ⟨o, (mem_checkedRows st o).1 ho, h'.symm⟩
        · obtain ⟨o, ho, h'⟩ := Finset.exists_mem_eq_sup' hr d.exactPii
          exact ⟨o, (mem_checkedRows st o).1 ho, h'.symm⟩
  · have hne : ∀ o, ¬ d.UsesLeverage st o := fun o ho => hr ⟨o, (mem_checkedRows st o).2 ho⟩
    have he : d.exactLev st = .error .noRows := by rw [Panel.exactLev, dif_neg hr]
    refine ⟨⟨fun ⟨r, h'⟩ => ?_, fun h' => (hne _ h'.1.choose_spec).elim⟩,
      ⟨fun h' => ?_, fun ⟨o, ho, _⟩ => (hne o ho).elim⟩, ⟨fun _ => hne, fun _ => he⟩, fun r h' => ?_⟩ <;>
      rw [he] at h' <;> cases h'

/-- **C125**, approximate leverages: if some observation whose leverage is needed is the only tie between two parts of the
network, the step fails whatever the probes. -/
theorem C125_approx_step (hv : d.Valid) (hc : d.Connected) (hs : d.GoodSolver solve) (st : Panel.Stayers) (nd : ℕ)
    (draws : List (Fin n → ℝ)) (hne : draws ≠ []) (hsgn : ∀ z ∈ draws, ∀ o, z o = 1 ∨ z o = -1) {o : Fin n}
    (ho : d.UsesLeverage st o) (hj : ¬ Spec.Joined d (· ≠ o)) : ∃ e, d.approxLev solve st nd [draws] = .error e :=
  C111_fe_leverage_one hv hc hs st nd draws hne hsgn ho ((C125_leverage_one hv hc o).2 hj)

/-- **C125**, prediction: if the other observations connect all workers and firms, their least-squares fit predicts the
observation left out in one way only, and the variance estimate is built from that prediction; if not, the prediction is
not determined. -/
theorem C125_prediction (hv : d.Valid) (hc : d.Connected) (hs : d.GoodSolver solve) (o : Fin n) :
    (Spec.Joined d (· ≠ o) ↔ ∀ (psi psi' : Fin (m + 1) → ℝ) (alpha alpha' : Fin nw → ℝ),
      (∀ b, b ≠ o → alpha (d.i b) + psi (d.j b) = alpha' (d.i b) + psi' (d.j b)) →
        alpha (d.i o) + psi (d.j o) = alpha' (d.i o) + psi' (d.j o)) ∧
    (Spec.Joined d (· ≠ o) → d.weighted = false ∨ d.workerM o → ∀ (psi : Fin (m + 1) → ℝ) (alpha : Fin nw → ℝ),
      (∀ (psi' : Fin (m + 1) → ℝ) (alpha' : Fin nw → ℝ),
        ∑ b with b ≠ o, d.Dp b * (d.y b - (alpha (d.i b) + psi (d.j b))) ^ 2
          ≤ ∑ b with b ≠ o, d.Dp b * (d.y b - (alpha' (d.i b) + psi' (d.j b))) ^ 2) →
      d.looSii solve d.exactPii o
        = (d.y o - (∑ b, d.Dp b * d.y b) / ∑ b, d.Dp b) * (d.y o - (alpha (d.i o) + psi (d.j o)))) := by
  refine ⟨⟨fun hj psi psi' alpha alpha' h => ?_, fun h => ?_⟩, fun hj hst psi alpha hopt => ?_⟩
  · have hp := const_on_path (d := d) (keep := (· ≠ o)) (psi := fun k => psi k - psi' k) (alpha := fun i => alpha i - alpha' i)
      (fun b hb => by have := h b hb; linarith) (hj (.inl (d.i o)) (.inr (d.j o)))
    simp only [Sum.elim_inl, Sum.elim_inr] at hp
    linarith
  · by_contra hj
    have h1 := (C125_leverage_one hv hc o).2 hj
    rw [d.computePii_eq hv (d.nmat_unit hv hc), hat_one_iff _ _ hv.wpos (d.nmat_unit hv hc)] at h1
    obtain ⟨t, h1, h2⟩ := h1
    obtain ⟨psi, alpha, rfl⟩ : ∃ psi alpha, t = Sum.elim psi alpha := ⟨_, _, (Sum.elim_comp_inl_inr t).symm⟩
    have := h (Panel.withZero psi) 0 alpha 0 (fun b hb => by
      have := h1 b hb
      rw [d.X_mulVec] at this
      simp only [Pi.zero_apply]; linarith)
    rw [d.X_mulVec] at h2
    simp only [Pi.zero_apply] at this
    exact h2 (by linarith)
  · exact C18_leave_one_out hv hc hs o (fun h => (C125_leverage_one hv hc o).1 h hj) hst psi alpha hopt

/-! ## Two panels -/

/-- In the panel of C20 every row can be left out, and the step succeeds. -/
example : (∀ o, Spec.Joined ex20 (· ≠ o)) ∧ ∃ r, ex20.exactLev .upperBound = .ok r := by
  have h : ∀ o, Spec.Joined ex20 (· ≠ o) := fun o => by
    by_contra hj
    have := (C125_leverage_one ex20_valid ex20_connected o).2 hj
    rw [ex20.computePii_eq ex20_valid (ex20.nmat_unit ex20_valid ex20_connected), ex20_hat] at this
    revert this
    fin_cases o <;> simp <;> norm_num
  exact ⟨h, (C125_exact_step ex20_valid ex20_connected .upperBound).1.2 ⟨⟨0, .inl ⟨rfl, rfl⟩⟩, fun o _ => h o⟩⟩

/-- One worker moves between two firms and a second worker stays at the first with two rows: the mover's rows are the only
ties, the stayer's are not. -/
def exTie : Panel 4 1 2 := ⟨![0, 1, 0, 0], ![0, 0, 1, 1], ![1, 3, 2, 4], false, ![1, 1, 1, 1]⟩

theorem exTie_valid : exTie.Valid where
  wpos := by intro o; simp [Panel.Dp, exTie]
  seen := by intro i; fin_cases i; exacts [⟨0, rfl⟩, ⟨2, rfl⟩]

theorem exTie_connected : exTie.Connected := by
  have h01 : exTie.Linked 0 1 := ⟨0, 1, rfl, rfl, rfl⟩
  have h10 : exTie.Linked 1 0 := ⟨1, 0, rfl, rfl, rfl⟩
  intro a b; fin_cases a <;> fin_cases b
  exacts [.refl, .single h01, .single h10, .refl]

/-- In this panel the mover's second row is the only tie of the second firm, so that the step fails under either treatment
of stayers; the stayer's rows have leverage below one. -/
example : ¬ Spec.Joined exTie (· ≠ 1) ∧ Spec.Joined exTie (· ≠ 2) ∧
    (∀ st, exTie.exactLev st = .error .leverageOne) ∧ exTie.computePii exTie.blocksFull 2 ≠ 1 := by
  have h1 : ¬ Spec.Joined exTie (· ≠ 1) := by
    intro h
    have hp := const_on_path (d := exTie) (keep := (· ≠ 1)) (psi := ![0, 1]) (alpha := 0) (fun b hb => by
      fin_cases b <;> simp [exTie] at hb ⊢) (h (.inr 0) (.inr 1))
    simp at hp
  have h2 : Spec.Joined exTie (· ≠ 2) := joined_without exTie_valid exTie_connected
    (.single ⟨3, by decide, .inl ⟨rfl, rfl⟩⟩)
  refine ⟨h1, h2, fun st => ?_, fun h => (C125_leverage_one exTie_valid exTie_connected 2).1 h h2⟩
  exact (C125_exact_step exTie_valid exTie_connected st).2.1.2
    ⟨1, .inr ⟨0, rfl, by decide⟩, h1⟩

end Pytwoway.FE

/-! ## With controls -/

namespace Pytwoway.FEControl

open FE Matrix
open FE.Panel (Stayers)

variable {n m nw : ℕ} {d : CData n m nw} {solve : List ℝ → List ℝ}

/-- **C125**, controls (partial: that a leverage of one means that the network falls apart is false, `C125_controls_blamed`):
the leverage of an observation is one exactly if the other observations do not determine what worker, firm and controls
predict for it. -/
theorem C125_controls_partial (hd : d.Ok) (hs : d.GoodSolver solve) (o : Fin n) :
    d.leverage solve o = 1 ↔ ∃ x x' : List ℝ, x.length = d.nCov ∧ x'.length = d.nCov ∧
      (∀ b, b ≠ o → d.multA x b = d.multA x' b) ∧ d.multA x o ≠ d.multA x' o := by
  rw [leverage_eq hd hs, hat_one_iff _ _ hd.pos hd.unit]
  constructor
  · rintro ⟨t, h1, h2⟩
    refine ⟨List.ofFn t, List.ofFn (0 : Fin d.nCov → ℝ), by simp, by simp, fun b hb => ?_, ?_⟩
    · rw [multA_ofFn hd.names, multA_ofFn hd.names, h1 b hb, mulVec_zero]; rfl
    · rw [multA_ofFn hd.names, multA_ofFn hd.names, mulVec_zero]; exact h2
  · rintro ⟨x, x', hx, hx', h1, h2⟩
    have conv : ∀ x : List ℝ, x.length = d.nCov → ∃ t : Fin d.nCov → ℝ, x = List.ofFn t := fun x hx =>
      ⟨fun c => x[c]'(by rw [hx]; exact c.2), by
        apply List.ext_getElem
        · simp [hx]
        · intro c h1 h2; simp⟩
    obtain ⟨t, rfl⟩ := conv x hx
    obtain ⟨t', rfl⟩ := conv x' hx'
    simp only [multA_ofFn hd.names] at h1 h2
    refine ⟨t - t', fun b hb => ?_, ?_⟩
    · rw [mulVec_sub, Pi.sub_apply, h1 b hb, sub_self]
    · rw [mulVec_sub, Pi.sub_apply]; exact sub_ne_zero.2 h2

/-- The panel of C20 with a control: one row is the only one in its region. -/
def exG : CData 5 1 2 where
  j := ![0, 0, 1, 0, 1]
  i := ![0, 0, 0, 1, 1]
  y := ![0, 0, 0, 0, 0]
  weighted := false
  w := ![1, 1, 1, 1, 1]
  cats := [⟨"region", 1, ![1, 0, 0, 0, 0]⟩]
  cts := []

theorem exG_fit (a b c e : ℝ) (o : Fin 5) : exG.multA [a, b, c, e] o = ![b + e, b, a + b, c, a + c] o := by
  fin_cases o <;> simp [CData.multA, CData.A, exG, indicators, List.finRange_succ]

theorem exG_nCov : exG.nCov = 4 := by decide

theorem exG_ok : exG.Ok where
  names := by decide
  pos := by intro o; simp [CData.Dp, exG]
  ident := by
    intro x y hx hy h
    rw [exG_nCov] at hx hy
    match x, y, hx, hy with
    | [a, b, c, e], [a', b', c', e'], _, _ =>
      simp only [exG_fit] at h
      have h0 := h 0; have h1 := h 1; have h2 := h 2; have h3 := h 3
      simp at h0 h1 h2 h3
      subst h1 h3
      simp only [List.cons.injEq, and_true, true_and]
      exact ⟨by linarith, by linarith⟩

/-- With controls the message is wrong: every observation can be left out of the network of workers and firms, yet the step
fails whatever the probes, blames the connectedness of the data and asks for a cleaning step that changes nothing. -/
theorem C125_controls_blamed : exG.Ok ∧
    (∀ o, FE.Spec.Joined (⟨exG.j, exG.i, exG.y, exG.weighted, exG.w⟩ : FE.Panel 5 1 2) (· ≠ o)) ∧
    ∀ solve, exG.GoodSolver solve → ∀ st nd (draws : List (Fin 5 → ℝ)), draws ≠ [] →
      (∀ z ∈ draws, ∀ o, z o = 1 ∨ z o = -1) → exG.approxLev solve st nd [draws] = .error .leverageOne := by
  refine ⟨exG_ok, fun o => ?_, fun solve hs st nd draws hne hsgn => ?_⟩
  · by_contra hj
    have := (C125_leverage_one (d := ex20) ex20_valid ex20_connected o).2 hj
    rw [ex20.computePii_eq ex20_valid (ex20.nmat_unit ex20_valid ex20_connected), ex20_hat] at this
    revert this
    fin_cases o <;> simp <;> norm_num
  · have h1 : exG.leverage solve 0 = 1 := (C125_controls_partial exG_ok hs 0).2
      ⟨[0, 0, 0, 1], [0, 0, 0, 0], by rw [exG_nCov]; rfl, by rw [exG_nCov]; rfl,
        fun b hb => by rw [exG_fit, exG_fit]; fin_cases b <;> simp at hb ⊢, by rw [exG_fit, exG_fit]; simp⟩
    have hm : ∀ o, exG.workerM o := by
      intro o; fin_cases o
      exacts [⟨2, rfl, by decide⟩, ⟨2, rfl, by decide⟩, ⟨0, rfl, by decide⟩, ⟨4, rfl, by decide⟩, ⟨3, rfl, by decide⟩]
    exact (C111_refused st nd draws hne hsgn _).2 (.inr ⟨⟨0, .inr (hm 0),
      fun z _ => (cdata_proj exG_ok hs).one h1 z⟩, fun h => by
        obtain ⟨-, o, ho, -⟩ := h; exact (ho (hm o)).elim, fun _ => rfl⟩)

/-- The hypotheses can be met: in the same panel the second row has leverage below one. -/
example : ∃ solve, exG.GoodSolver solve ∧ exG.leverage solve 1 ≠ 1 := by
  obtain ⟨s, hs⟩ := exists_goodSolver exG
  refine ⟨s, hs, fun h => ?_⟩
  obtain ⟨x, x', hx, hx', h1, h2⟩ := (C125_controls_partial exG_ok hs 1).1 h
  rw [exG_nCov] at hx hx'
  match x, x', hx, hx' with
  | [a, b, c, e], [a', b', c', e'], _, _ =>
    simp only [exG_fit] at h1 h2
    have e2 := h1 2 (by decide); have e3 := h1 3 (by decide); have e4 := h1 4 (by decide)
    simp at e2 e3 e4 h2
    exact h2 (by linarith)

end Pytwoway.FEControl
