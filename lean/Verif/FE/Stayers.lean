import Verif.FE.Collapse
import Verif.FE.Props5

/-!
# Workers who never move (C126)

`FEEstimator` is often run on movers only, or on data from which some workers who never change firm were dropped (by
`drop_single_stayers` or `connectedness` in bipartitepandas, which are not modelled).  Here: what that does to the
estimates of fe.py:593-618 and to the leverages of fe.py:1405-1445.
-/

namespace Pytwoway.FE

open Matrix Pytwoway.Util
open scoped BigOperators

variable {n N m nw nv : ℕ}

/-- What a user means by `e` being `d` without some workers who never move: row `s` of `e` is row `ρ s` of `d`, worker `k`
of `e` is worker `κ k` of `d`; a row of `d` that is not in `e` belongs to a worker seen at one firm only, none of whose rows
are in `e`.  Firms keep their names. -/
structure Spec.WithoutStayers (e : Panel N m nv) (d : Panel n m nw) (ρ : Fin N → Fin n) (κ : Fin nv → Fin nw) : Prop where
  rows : Function.Injective ρ
  workers : Function.Injective κ
  firm : ∀ s, e.j s = d.j (ρ s)
  worker : ∀ s, κ (e.i s) = d.i (ρ s)
  weight : ∀ s, e.Dp s = d.Dp (ρ s)
  outcome : ∀ s, e.y s = d.y (ρ s)
  dropped : ∀ o, (∀ s, ρ s ≠ o) → (∀ b, d.i b = d.i o → d.j b = d.j o) ∧ ∀ k, κ k ≠ d.i o

variable {e : Panel N m nv} {d : Panel n m nw} {ρ : Fin N → Fin n} {κ : Fin nv → Fin nw}
  {solve solve' : (Fin m → ℝ) → (Fin m → ℝ)}

namespace Spec.WithoutStayers

theorem valid (h : Spec.WithoutStayers e d ρ κ) (hv : d.Valid) : e.Valid where
  wpos := fun s => by rw [h.weight]; exact hv.wpos _
  seen := fun k => by
    obtain ⟨o, ho⟩ := hv.seen (κ k)
    by_contra hne
    have : ∀ s, ρ s ≠ o := fun s hs => hne ⟨s, h.workers (by rw [h.worker, hs, ho])⟩
    exact (h.dropped o this).2 k ho.symm

/-- Dropping these workers neither disconnects nor connects firms. -/
theorem connected (h : Spec.WithoutStayers e d ρ κ) : e.Connected ↔ d.Connected := by
  constructor
  · intro hc a b
    have := hc a b
    induction this with
    | refl => exact .refl
    | tail _ hl ih =>
      obtain ⟨s, s', h1, h2, h3⟩ := hl
      exact ih.tail ⟨ρ s, ρ s', by rw [← h.worker, ← h.worker, h1], by rw [← h.firm, h2], by rw [← h.firm, h3]⟩
  · intro hc a b
    have := hc a b
    induction this with
    | refl => exact .refl
    | tail _ hl ih =>
      obtain ⟨o, o', h1, rfl, rfl⟩ := hl
      by_cases ho : ∃ s, ρ s = o
      · by_cases ho' : ∃ s, ρ s = o'
        · obtain ⟨s, rfl⟩ := ho
          obtain ⟨s', rfl⟩ := ho'
          exact ih.tail ⟨s, s', h.workers (by rw [h.worker, h.worker, h1]), h.firm s, h.firm s'⟩
        · have := (h.dropped o' fun s hs => ho' ⟨s, hs⟩).1 o h1
          rwa [← this]
      · have := (h.dropped o fun s hs => ho ⟨s, hs⟩).1 o' h1.symm
        rwa [this]

theorem withY (h : Spec.WithoutStayers e d ρ κ) (v : Fin n → ℝ) :
    Spec.WithoutStayers (e.withY fun s => v (ρ s)) (d.withY v) ρ κ :=
  ⟨h.rows, h.workers, h.firm, h.worker, h.weight, fun _ => rfl, h.dropped⟩

/-- The sum of squares: the part of the rows kept and the rest. -/
theorem ssr (h : Spec.WithoutStayers e d ρ κ) (psi : Fin (m + 1) → ℝ) (alpha : Fin nw → ℝ) :
    d.SSR psi alpha = e.SSR psi (fun k => alpha (κ k))
      + ∑ o with ∀ s, ρ s ≠ o, d.Dp o * (d.y o - (alpha (d.i o) + psi (d.j o))) ^ 2 := by
  classical
  rw [Panel.SSR, ← Finset.sum_filter_add_sum_filter_not Finset.univ (fun o => ∃ s, ρ s = o)]
  congr 1
  · have : (Finset.univ.filter fun o => ∃ s, ρ s = o) = Finset.univ.image ρ := by ext o; simp
    rw [this, Finset.sum_image fun a _ b _ hab => h.rows hab, Panel.SSR]
    refine Finset.sum_congr rfl fun s _ => ?_
    rw [h.weight, h.outcome, h.worker, h.firm]
  · refine Finset.sum_congr ?_ fun _ _ => rfl
    ext o; simp

end Spec.WithoutStayers

/-- **C126**, effects: without these workers every firm has the same estimated effect, and every other worker too. -/
theorem C126_effects (h : Spec.WithoutStayers e d ρ κ) (hv : d.Valid) (hc : d.Connected) (hs : d.GoodSolver solve)
    (hs' : e.GoodSolver solve') :
    (e.ols solve').1 = (d.ols solve).1 ∧ ∀ k, (e.ols solve').2 k = (d.ols solve).2 (κ k) := by
  classical
  have hu := C16_unique (h.valid hv) (h.connected.mpr hc) hs' (Panel.withZero (d.ols solve).1) (fun k => (d.ols solve).2 (κ k))
    rfl (by
      intro psi' alpha'
      choose row hrow using hv.seen
      let a : Fin nw → ℝ := fun i => if hk : ∃ k, κ k = i then alpha' hk.choose else
        (d.ols solve).2 i + Panel.withZero (d.ols solve).1 (d.j (row i)) - psi' (d.j (row i))
      have ha : (fun k => a (κ k)) = alpha' := by
        funext k
        have hk : ∃ k', κ k' = κ k := ⟨k, rfl⟩
        have : hk.choose = k := h.workers hk.choose_spec
        simp only [a, dif_pos hk, this]
      have h1 := C15_optimal hv hs psi' a
      have h2 : ∑ o, d.Dp o * (d.y o - (d.alphaCol solve o + d.psiCol solve o)) ^ 2
          = d.SSR (Panel.withZero (d.ols solve).1) (d.ols solve).2 := rfl
      rw [h2, h.ssr, h.ssr, ha] at h1
      have h3 : ∑ o with ∀ s, ρ s ≠ o, d.Dp o * (d.y o - (a (d.i o) + psi' (d.j o))) ^ 2
          = ∑ o with ∀ s, ρ s ≠ o, d.Dp o * (d.y o - ((d.ols solve).2 (d.i o) + Panel.withZero (d.ols solve).1 (d.j o))) ^ 2 := by
        refine Finset.sum_congr rfl fun o ho => ?_
        obtain ⟨f1, f2⟩ := h.dropped o (Finset.mem_filter.mp ho).2
        have hk : ¬ ∃ k, κ k = d.i o := fun ⟨k, hk⟩ => f2 k hk
        have hj : d.j (row (d.i o)) = d.j o := f1 _ (hrow _)
        simp only [a, dif_neg hk, hj]
        congr 2; ring
      rw [h3] at h1
      exact le_of_add_le_add_right h1)
  refine ⟨?_, fun k => (congrFun hu.2 k).symm⟩
  funext k
  exact (congrFun hu.1 k.succ).symm

/-- **C126**, the workers dropped: the estimated effect of a worker seen at one firm only is the weighted mean of what they
earn less the estimated effect of their firm (the leverage of each of their rows is its share in their weight, C60). -/
theorem C126_stayer (hv : d.Valid) (hs : d.GoodSolver solve) (o : Fin n)
    (hst : ∀ b, d.i b = d.i o → d.j b = d.j o) :
    d.alphaCol solve o = (∑ b with d.i b = d.i o, d.Dp b * d.y b) / (∑ b with d.i b = d.i o, d.Dp b) - d.psiCol solve o := by
  have h := (C15_normal_equations hv hs).2 (d.i o)
  have hT : 0 < ∑ b with d.i b = d.i o, d.Dp b := d.Dw_pos hv (d.i o)
  have h1 : ∑ b with d.i b = d.i o, d.Dp b * (d.y b - (d.alphaCol solve b + d.psiCol solve b))
      = ∑ b with d.i b = d.i o, d.Dp b * d.y b
        - (∑ b with d.i b = d.i o, d.Dp b) * (d.alphaCol solve o + d.psiCol solve o) := by
    rw [Finset.sum_mul, ← Finset.sum_sub_distrib]
    refine Finset.sum_congr rfl fun b hb => ?_
    have hi := (Finset.mem_filter.mp hb).2
    have e1 : d.alphaCol solve b = d.alphaCol solve o := by rw [Panel.alphaCol, hi]; rfl
    have e2 : d.psiCol solve b = d.psiCol solve o := by rw [Panel.psiCol, hst b hi]; rfl
    rw [e1, e2]; ring
  rw [h1] at h
  rw [eq_sub_iff_add_eq, eq_div_iff hT.ne']
  linarith

/-- **C126**, fitted values and residuals of the rows kept do not change. -/
theorem C126_residuals (h : Spec.WithoutStayers e d ρ κ) (hv : d.Valid) (hc : d.Connected) (hs : d.GoodSolver solve)
    (hs' : e.GoodSolver solve') (s : Fin N) :
    e.psiCol solve' s = d.psiCol solve (ρ s) ∧ e.alphaCol solve' s = d.alphaCol solve (ρ s) ∧
    e.E solve' s = d.E solve (ρ s) := by
  obtain ⟨h1, h2⟩ := C126_effects h hv hc hs hs'
  have e1 : e.psiCol solve' s = d.psiCol solve (ρ s) := by rw [Panel.psiCol, Panel.psiCol, h1, h.firm]
  have e2 : e.alphaCol solve' s = d.alphaCol solve (ρ s) := by rw [Panel.alphaCol, Panel.alphaCol, h2, h.worker]
  refine ⟨e1, e2, ?_⟩
  have hE : ∀ {n nw : ℕ} (d : Panel n m nw) (solve : (Fin m → ℝ) → (Fin m → ℝ)) o,
      d.E solve o = d.y o - (d.psiCol solve o + d.alphaCol solve o) := by
    intro n nw d solve o
    rw [Panel.E, Panel.multA, Pi.add_apply, d.J_mulVec, d.W_mulVec]; rfl
  rw [hE, hE, e1, e2, h.outcome]

/-- **C126**, leverages: the leverages of the rows kept do not change. -/
theorem C126_leverages (h : Spec.WithoutStayers e d ρ κ) (hv : d.Valid) (hc : d.Connected) (s : Fin N) :
    e.computePii e.blocksFull s = d.computePii d.blocksFull (ρ s) := by
  obtain ⟨solve, hs⟩ := exists_goodSolver d
  obtain ⟨solve', hs'⟩ := exists_goodSolver e
  have k1 := C17_leverage_is_sensitivity solve hv hc (ρ s) hs 1 0
  have k2 := C17_leverage_is_sensitivity solve' (h.valid hv) (h.connected.mpr hc) s hs' 1 0
  have step : ∀ v : Fin n → ℝ, e.proj solve' (fun s => v (ρ s)) .no .yes s = d.proj solve v .no .yes (ρ s) := by
    intro v
    obtain ⟨ho1, ho2, -⟩ := C126_residuals (h.withY v) (valid_withY hv _) hc (solve := solve) (solve' := solve') hs hs' s
    rw [proj_cols, proj_cols, ho1, ho2]
  have e1 : Function.update (0 : Fin N → ℝ) s ((0 : Fin N → ℝ) s + 1)
      = fun s' => Function.update (0 : Fin n → ℝ) (ρ s) ((0 : Fin n → ℝ) (ρ s) + 1) (ρ s') := by
    funext s'
    by_cases hx : s' = s
    · subst hx; simp
    · rw [Function.update_of_ne hx, Function.update_of_ne fun hh => hx (h.rows hh)]; rfl
  rw [e1, step] at k2
  have e0 : e.proj solve' 0 .no .yes s = d.proj solve 0 .no .yes (ρ s) := step 0
  rw [e0, k1, one_mul, one_mul] at k2
  exact k2.symm

/-! ## An example -/

/-- The panel of C20 with a third worker, who stays at the second firm. -/
def exDrop : Panel 7 1 3 :=
  ⟨![0, 0, 1, 0, 1, 1, 1], ![0, 0, 0, 1, 1, 2, 2], ![1, 2, 4, 0, 5, 9, 7], true, ![1, 2, 1, 3, 1, 1, 4]⟩

/-- The same without them. -/
def exDrop' : Panel 5 1 2 := ⟨![0, 0, 1, 0, 1], ![0, 0, 0, 1, 1], ![1, 2, 4, 0, 5], true, ![1, 2, 1, 3, 1]⟩

example : exDrop.Valid ∧ exDrop.Connected ∧
    Spec.WithoutStayers exDrop' exDrop ![0, 1, 2, 3, 4] ![0, 1] ∧
    (∀ b, exDrop.i b = exDrop.i 5 → exDrop.j b = exDrop.j 5) ∧
    (∃ solve, exDrop.GoodSolver solve) ∧ ∃ solve', exDrop'.GoodSolver solve' := by
  refine ⟨⟨?_, ?_⟩, ?_, ⟨?_, ?_, ?_, ?_, ?_, ?_, ?_⟩, ?_, exists_goodSolver _, exists_goodSolver _⟩
  · intro o; fin_cases o <;> norm_num [Panel.Dp, exDrop]
  · intro i; fin_cases i; exacts [⟨0, rfl⟩, ⟨3, rfl⟩, ⟨5, rfl⟩]
  · have h01 : exDrop.Linked 0 1 := ⟨0, 2, rfl, rfl, rfl⟩
    have h10 : exDrop.Linked 1 0 := ⟨2, 0, rfl, rfl, rfl⟩
    intro a b; fin_cases a <;> fin_cases b
    exacts [.refl, .single h01, .single h10, .refl]
  · decide
  · decide
  · decide
  · decide
  · intro s; fin_cases s <;> rfl
  · intro s; fin_cases s <;> rfl
  · decide
  · decide

end Pytwoway.FE
