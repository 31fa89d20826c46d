import Verif.FE.Stayers

/-!
# Data that are not connected (C128)

`FEEstimator` does not test whether the firms are connected; on data where they are not, `Minv` (fe.py:486) is singular and
what the iterative solver returns (fe.py:1340-1371) is one of many solutions.  Here: which numbers do not depend on the one
it picks.
-/

namespace Pytwoway.FE

open Matrix Pytwoway.Util
open scoped BigOperators

variable {n N m M nw nv : ℕ}

/-- What a user means by `e` being one connected part of `d` on its own: row `s`, firm `k` and worker `i` of `e` are row
`ρ s`, firm `φ k` and worker `κ i` of `d`, and the rows of `d` that are not in `e` are of other firms and other workers. -/
structure Spec.Part (e : Panel N M nv) (d : Panel n m nw) (ρ : Fin N → Fin n) (φ : Fin (M + 1) → Fin (m + 1))
    (κ : Fin nv → Fin nw) : Prop where
  rows : Function.Injective ρ
  firms : Function.Injective φ
  workers : Function.Injective κ
  firm : ∀ s, φ (e.j s) = d.j (ρ s)
  worker : ∀ s, κ (e.i s) = d.i (ρ s)
  weight : ∀ s, e.Dp s = d.Dp (ρ s)
  outcome : ∀ s, e.y s = d.y (ρ s)
  others : ∀ o, (∀ s, ρ s ≠ o) → (∀ k, φ k ≠ d.j o) ∧ ∀ i, κ i ≠ d.i o

variable {d : Panel n m nw} {e : Panel N M nv} {ρ : Fin N → Fin n} {φ : Fin (M + 1) → Fin (m + 1)} {κ : Fin nv → Fin nw}
  {solve solve' : (Fin m → ℝ) → (Fin m → ℝ)}

/-- Two least-squares fits have the same fitted values. -/
theorem fit_unique (hv : d.Valid) {psi psi' : Fin (m + 1) → ℝ} {alpha alpha' : Fin nw → ℝ}
    (h : ∀ p a, d.SSR psi alpha ≤ d.SSR p a) (h' : ∀ p a, d.SSR psi' alpha' ≤ d.SSR p a) (o : Fin n) :
    alpha (d.i o) + psi (d.j o) = alpha' (d.i o) + psi' (d.j o) := by
  have hm := h (fun k => (psi k + psi' k) / 2) (fun i => (alpha i + alpha' i) / 2)
  have hm' := h' (fun k => (psi k + psi' k) / 2) (fun i => (alpha i + alpha' i) / 2)
  have e : d.SSR psi alpha + d.SSR psi' alpha'
      = 2 * d.SSR (fun k => (psi k + psi' k) / 2) (fun i => (alpha i + alpha' i) / 2)
        + (1 / 2) * ∑ o, d.Dp o * ((alpha (d.i o) + psi (d.j o)) - (alpha' (d.i o) + psi' (d.j o))) ^ 2 := by
    rw [Panel.SSR, Panel.SSR, Panel.SSR, Finset.mul_sum, Finset.mul_sum, ← Finset.sum_add_distrib, ← Finset.sum_add_distrib]
    refine Finset.sum_congr rfl fun o _ => ?_
    ring
  have h0 : ∑ o, d.Dp o * ((alpha (d.i o) + psi (d.j o)) - (alpha' (d.i o) + psi' (d.j o))) ^ 2 = 0 := by
    refine le_antisymm (by linarith) (Finset.sum_nonneg fun o _ => mul_nonneg (hv.wpos o).le (sq_nonneg _))
  have := (Finset.sum_eq_zero_iff_of_nonneg (fun o _ => mul_nonneg (hv.wpos o).le (sq_nonneg _))).mp h0 o (Finset.mem_univ o)
  have := (mul_eq_zero.mp this).resolve_left (hv.wpos o).ne'
  exact sub_eq_zero.mp (by simpa using this)

/-- Fits with the same fitted values have the same differences between linked firms. -/
theorem diff_of_fit {psi psi' : Fin (m + 1) → ℝ} {alpha alpha' : Fin nw → ℝ}
    (h : ∀ o, alpha (d.i o) + psi (d.j o) = alpha' (d.i o) + psi' (d.j o)) {a b : Fin (m + 1)}
    (hab : Relation.ReflTransGen d.Linked a b) : psi a - psi b = psi' a - psi' b := by
  induction hab with
  | refl => ring
  | tail _ hl ih =>
    obtain ⟨o, o', h1, rfl, rfl⟩ := hl
    have k1 := h o
    have k2 := h o'
    rw [h1] at k1
    linarith

theorem ols_optimal (hv : d.Valid) (hs : d.GoodSolver solve) (p : Fin (m + 1) → ℝ) (a : Fin nw → ℝ) :
    d.SSR (Panel.withZero (d.ols solve).1) (d.ols solve).2 ≤ d.SSR p a := C15_optimal hv hs p a

theorem E_cols (d : Panel n m nw) (solve : (Fin m → ℝ) → (Fin m → ℝ)) (o : Fin n) :
    d.E solve o = d.y o - (d.psiCol solve o + d.alphaCol solve o) := by
  rw [Panel.E, Panel.multA, Pi.add_apply, d.J_mulVec, d.W_mulVec]; rfl

/-- **C128**, whatever the solver picks: on any data, connected or not, two runs agree on the fitted value and the residual
of every observation, and on the difference between the effects of any two firms connected by movers; the error variance is
the same too. -/
theorem C128_any_solution (hv : d.Valid) (hs : d.GoodSolver solve) (hs' : d.GoodSolver solve') :
    (∀ o, d.psiCol solve o + d.alphaCol solve o = d.psiCol solve' o + d.alphaCol solve' o) ∧
    d.E solve = d.E solve' ∧ d.sigma2fe solve = d.sigma2fe solve' ∧
    ∀ a b, Relation.ReflTransGen d.Linked a b →
      Panel.withZero (d.ols solve).1 a - Panel.withZero (d.ols solve).1 b
        = Panel.withZero (d.ols solve').1 a - Panel.withZero (d.ols solve').1 b := by
  have hf := fit_unique hv (ols_optimal hv hs) (ols_optimal hv hs')
  have h1 : ∀ o, d.psiCol solve o + d.alphaCol solve o = d.psiCol solve' o + d.alphaCol solve' o := fun o => by
    have := hf o
    rw [add_comm, add_comm (d.psiCol solve' o)]; exact this
  have h2 : d.E solve = d.E solve' := by funext o; rw [E_cols, E_cols, h1]
  exact ⟨h1, h2, by rw [Panel.sigma2fe, Panel.sigma2fe, h2], fun a b hab => diff_of_fit hf hab⟩

/-- **C128**, one part on its own: estimated on a connected part of the data alone, differences between the effects of its
firms, fitted values and residuals are those estimated on all data. -/
theorem C128_part (h : Spec.Part e d ρ φ κ) (hv : d.Valid) (hve : e.Valid) (hc : e.Connected)
    (hs : d.GoodSolver solve) {solve' : (Fin M → ℝ) → (Fin M → ℝ)} (hs' : e.GoodSolver solve') :
    (∀ s, e.psiCol solve' s + e.alphaCol solve' s = d.psiCol solve (ρ s) + d.alphaCol solve (ρ s)) ∧
    (∀ s, e.E solve' s = d.E solve (ρ s)) ∧
    ∀ a b, Panel.withZero (e.ols solve').1 a - Panel.withZero (e.ols solve').1 b
      = Panel.withZero (d.ols solve).1 (φ a) - Panel.withZero (d.ols solve).1 (φ b) := by
  classical
  have hssr : ∀ p a, d.SSR p a = e.SSR (fun k => p (φ k)) (fun i => a (κ i))
      + ∑ o with ∀ s, ρ s ≠ o, d.Dp o * (d.y o - (a (d.i o) + p (d.j o))) ^ 2 := by
    intro p a
    rw [Panel.SSR, ← Finset.sum_filter_add_sum_filter_not Finset.univ (fun o => ∃ s, ρ s = o)]
    congr 1
    · have : (Finset.univ.filter fun o => ∃ s, ρ s = o) = Finset.univ.image ρ := by ext o; simp
      rw [this, Finset.sum_image fun a _ b _ hab => h.rows hab, Panel.SSR]
      refine Finset.sum_congr rfl fun s _ => ?_
      rw [h.weight, h.outcome, h.worker, h.firm]
    · refine Finset.sum_congr ?_ fun _ _ => rfl
      ext o; simp
  set P := Panel.withZero (d.ols solve).1 with hP
  set A := (d.ols solve).2 with hA
  -- the part's share of the fit of all data is a fit of the part
  have hopt : ∀ p a, e.SSR (fun k => P (φ k)) (fun i => A (κ i)) ≤ e.SSR p a := by
    intro p a
    let p' : Fin (m + 1) → ℝ := fun k => if hk : ∃ k', φ k' = k then p hk.choose else P k
    let a' : Fin nw → ℝ := fun i => if hi : ∃ i', κ i' = i then a hi.choose else A i
    have hp : (fun k => p' (φ k)) = p := by
      funext k
      have hk : ∃ k', φ k' = φ k := ⟨k, rfl⟩
      have : hk.choose = k := h.firms hk.choose_spec
      simp only [p', dif_pos hk, this]
    have ha : (fun i => a' (κ i)) = a := by
      funext i
      have hi : ∃ i', κ i' = κ i := ⟨i, rfl⟩
      have : hi.choose = i := h.workers hi.choose_spec
      simp only [a', dif_pos hi, this]
    have h1 := ols_optimal hv hs p' a'
    rw [← hP, ← hA, hssr, hssr, hp, ha] at h1
    have h3 : ∑ o with ∀ s, ρ s ≠ o, d.Dp o * (d.y o - (a' (d.i o) + p' (d.j o))) ^ 2
        = ∑ o with ∀ s, ρ s ≠ o, d.Dp o * (d.y o - (A (d.i o) + P (d.j o))) ^ 2 := by
      refine Finset.sum_congr rfl fun o ho => ?_
      obtain ⟨f1, f2⟩ := h.others o (Finset.mem_filter.mp ho).2
      have k1 : ¬ ∃ k, φ k = d.j o := fun ⟨k, hk⟩ => f1 k hk
      have k2 : ¬ ∃ i, κ i = d.i o := fun ⟨i, hi⟩ => f2 i hi
      simp only [p', a', dif_neg k1, dif_neg k2]
    rw [h3] at h1
    exact le_of_add_le_add_right h1
  have hf := fit_unique hve (ols_optimal hve hs') hopt
  have h1 : ∀ s, e.psiCol solve' s + e.alphaCol solve' s = d.psiCol solve (ρ s) + d.alphaCol solve (ρ s) := by
    intro s
    have := hf s
    rw [h.worker, h.firm] at this
    rw [add_comm, add_comm (d.psiCol solve (ρ s))]
    exact this
  refine ⟨h1, fun s => by rw [E_cols, E_cols, h1, h.outcome], fun a b => ?_⟩
  exact diff_of_fit (psi' := fun k => P (φ k)) (alpha' := fun i => A (κ i)) hf (hc a b)

/-- What does depend on the solver: the difference between firms that no movers connect, and so the variance of firm
effects, is not determined by the data. -/
theorem C128_between_parts : ∃ (d : Panel 4 1 2) (s s' : (Fin 1 → ℝ) → (Fin 1 → ℝ)),
    d.Valid ∧ d.GoodSolver s ∧ d.GoodSolver s' ∧ d.varFe s d.qPsi ≠ d.varFe s' d.qPsi := by
  let d : Panel 4 1 2 := ⟨![0, 0, 1, 1], ![0, 0, 1, 1], ![1, 2, 3, 5], false, ![1, 1, 1, 1]⟩
  have hM : d.Minv = 0 := by
    rw [Panel.Minv_eq]
    ext a b
    fin_cases a; fin_cases b
    have hD : d.Dw 1 = 2 := by
      have hc : (Finset.univ.filter fun x : Fin 4 => (![0, 0, 1, 1] : Fin 4 → Fin 2) x = 1).card = 2 := by decide
      simp [Panel.Dw, Panel.Dp, d, hc]
    simp [Panel.WtDpJ, mul_apply, Fin.sum_univ_succ, Panel.J, Panel.Jfull, Panel.DpJ, Panel.W,
      Panel.Dwinv_eq, hD, d, Panel.Dp, diagonal]
    norm_num
  have hg : ∀ f : (Fin 1 → ℝ) → (Fin 1 → ℝ), d.GoodSolver f := by
    rintro f b ⟨x, rfl⟩
    rw [hM]; simp
  refine ⟨d, fun _ => 0, fun _ => fun _ => 1, ⟨?_, ?_⟩, hg _, hg _, ?_⟩
  · intro o; simp [Panel.Dp, d]
  · intro i; fin_cases i; exacts [⟨0, rfl⟩, ⟨2, rfl⟩]
  · have e1 : ∀ f, d.varFe f d.qPsi = weightedVar (d.J *ᵥ (d.ols f).1) d.DpW 0 := fun _ => rfl
    have e2 : ∀ x : Fin 1 → ℝ, (d.ols fun _ => x).1 = x := fun _ => rfl
    have e3 : ∀ x : Fin 1 → ℝ, d.J *ᵥ x = ![0, 0, x 0, x 0] := by
      intro x; funext o; rw [d.J_mulVec]
      fin_cases o <;> rfl
    rw [e1, e1, e2, e2, e3, e3]
    have e4 : d.DpW = .scalar 1 := rfl
    rw [e4]
    simp [weightedVar, weightedMean, Fin.sum_univ_succ]
    norm_num

/-! ## An example -/

/-- Two parts: workers 0 and 1 move between firms 0 and 1, worker 2 between firms 2 and 3. -/
def exParts : Panel 6 3 3 := ⟨![0, 1, 1, 0, 2, 3], ![0, 0, 1, 1, 2, 2], ![1, 2, 4, 4, 0, 5], false, ![1, 1, 1, 1, 1, 1]⟩

/-- The second part. -/
def exPart : Panel 2 1 1 := ⟨![0, 1], ![0, 0], ![0, 5], false, ![1, 1]⟩

example : exParts.Valid ∧ ¬ exParts.Connected ∧ exPart.Valid ∧ exPart.Connected ∧
    Spec.Part exPart exParts ![4, 5] ![2, 3] ![2] ∧ (∃ s, exParts.GoodSolver s) ∧ ∃ s, exPart.GoodSolver s := by
  refine ⟨⟨?_, ?_⟩, ?_, ⟨?_, ?_⟩, ?_, ⟨?_, ?_, ?_, ?_, ?_, ?_, ?_, ?_⟩, exists_goodSolver _, exists_goodSolver _⟩
  · intro o; simp [Panel.Dp, exParts]
  · intro i; fin_cases i; exacts [⟨0, rfl⟩, ⟨2, rfl⟩, ⟨4, rfl⟩]
  · intro hc
    have hk : ∀ a, Relation.ReflTransGen exParts.Linked 0 a → a = 0 ∨ a = 1 := by
      intro a h
      induction h with
      | refl => exact .inl rfl
      | tail _ hl ih =>
        obtain ⟨o, o', h1, h2, rfl⟩ := hl
        have hall : ∀ o o' : Fin 6, exParts.i o = exParts.i o' → exParts.j o = 0 ∨ exParts.j o = 1 →
            exParts.j o' = 0 ∨ exParts.j o' = 1 := by decide
        exact hall o o' h1 (h2 ▸ ih)
    exact absurd (hk 2 (hc 0 2)) (by decide)
  · intro o; simp [Panel.Dp, exPart]
  · intro i; fin_cases i; exact ⟨0, rfl⟩
  · have h01 : exPart.Linked 0 1 := ⟨0, 1, rfl, rfl, rfl⟩
    have h10 : exPart.Linked 1 0 := ⟨1, 0, rfl, rfl, rfl⟩
    intro a b; fin_cases a <;> fin_cases b
    exacts [.refl, .single h01, .single h10, .refl]
  · decide
  · decide
  · decide
  · decide
  · decide
  · intro s; fin_cases s <;> rfl
  · intro s; fin_cases s <;> rfl
  · decide

end Pytwoway.FE
