import Verif.Interacted.OtherHful

/-! # C100: `hful` with any instrument leaves out each mover's own product; coarse worker instruments -/

namespace Pytwoway.Interacted

open Finset

variable {ni nf n : ℕ}

/-- How strongly two movers are linked by the instruments: over the blocks of instruments in which they are in the same
group, the product of the roots of their weights over the total weight of the group plus the regularisation. -/
noncomputable def Spec.link (K : ℕ) (group : ℕ → Fin ni → ℕ) (D : Fin ni → ℝ) (tik : ℝ) (i i' : Fin ni) : ℝ :=
  ∑ k ∈ range K, if group k i = group k i' then √(D i) * √(D i') / ((∑ l with group k l = group k i, D l) + tik) else 0

theorem cols_sum (z : Instr ni) (f : ℕ × ℕ → ℝ) (i i' : Fin ni) :
    ∑ c ∈ z.cols, (if z.key c.1 i = c.2 then if z.key c.1 i' = c.2 then f c else 0 else 0) =
      ∑ k ∈ range z.K, if z.key k i = z.key k i' then f (k, z.key k i) else 0 := by
  rw [← sum_filter]
  have himg : z.cols.filter (fun c => z.key c.1 i = c.2) = (range z.K).image fun k => (k, z.key k i) := by
    ext ⟨k, v⟩
    simp only [Instr.cols, mem_filter, mem_image, mem_product, mem_univ, and_true, Prod.mk.injEq, Prod.exists]
    constructor
    · rintro ⟨⟨a, b, ha, rfl, hb⟩, h⟩
      exact ⟨a, ha, rfl, h⟩
    · rintro ⟨a, ha, rfl, h⟩
      exact ⟨⟨a, i, ha, rfl, h⟩, h⟩
  rw [himg, sum_image (by intro a _ b _ h; exact (Prod.mk.inj h).1)]
  refine sum_congr rfl fun k _ => ?_
  by_cases h : z.key k i = z.key k i'
  · rw [if_pos h, if_pos h.symm]
  · rw [if_neg h, if_neg (Ne.symm h)]

theorem crossZ_link (z : Instr ni) (D : Fin ni → ℝ) (tik : ℝ) (X : Fin ni → ℕ → ℝ) (a b : Fin n) :
    crossZ n n z D tik (fun i => √(D i)) (fun i => √(D i)) X X a b =
      ∑ i, ∑ i', Spec.link z.K z.key D tik i i' * (X i a.val * X i' b.val) := by
  unfold crossZ
  have h1 : ∀ c, z.sum (fun i => √(D i)) (fun i => X i a.val) c * z.inv D tik c *
      z.sum (fun i => √(D i)) (fun i => X i b.val) c =
      ∑ i, ∑ i', (if z.key c.1 i = c.2 then if z.key c.1 i' = c.2 then z.inv D tik c else 0 else 0) *
        (√(D i) * X i a.val * (√(D i') * X i' b.val)) := by
    intro c
    unfold Instr.sum zsum
    rw [sum_filter, sum_filter, sum_mul, sum_mul]
    refine sum_congr rfl fun i _ => ?_
    rw [mul_sum]
    refine sum_congr rfl fun i' _ => ?_
    by_cases h1 : z.key c.1 i = c.2 <;> by_cases h2 : z.key c.1 i' = c.2 <;> simp [h1, h2]
    ring
  simp only [h1]
  rw [sum_comm]
  refine sum_congr rfl fun i _ => ?_
  rw [sum_comm]
  refine sum_congr rfl fun i' _ => ?_
  rw [← sum_mul, cols_sum, Spec.link, sum_mul, sum_mul]
  refine sum_congr rfl fun k _ => ?_
  by_cases h : z.key k i = z.key k i'
  · rw [if_pos h, if_pos h]
    unfold Instr.inv Instr.sum zsum
    simp only [mul_one]
    ring
  · rw [if_neg h, if_neg h]
    ring

theorem pzDiag_link (z : Instr ni) (D : Fin ni → ℝ) (tik : ℝ) (i : Fin ni) :
    pzDiag z D tik i = Spec.link z.K z.key D tik i i := by
  unfold pzDiag Spec.link
  refine sum_congr rfl fun k _ => ?_
  rw [if_pos rfl]
  unfold Instr.inv Instr.sum zsum
  simp only [mul_one]
  ring

/-- C100: with any instrument, coarse ones included, and any weights, the matrix whose smallest eigenvalue `hful`
starts from contains the products of linked movers' rows and no mover's product with itself. -/
theorem C100_hful_leave_out (X : Fin ni → ℕ → ℝ) (D : Fin ni → ℝ) (z : Instr ni) (tik : ℝ) (a b : Fin n) :
    wzH n X D z tik a b =
      ∑ i, ∑ i' ∈ univ.erase i, Spec.link z.K z.key D tik i i' * (X i a.val * X i' b.val) := by
  unfold wzH
  rw [Matrix.sub_apply, crossZ_link]
  unfold cross
  rw [← sum_sub_distrib]
  refine sum_congr rfl fun i _ => ?_
  rw [← add_sum_erase _ _ (mem_univ i), pzDiag_link]
  ring

/-- Two movers between the same firms, coarse instrument: they are linked in both blocks. -/
example : Spec.link 2 (Instr.coarse (⟨fun _ => 0, fun _ => 0, fun _ => 0, fun _ => 1, fun _ => 1⟩ : Data 2 2) 1).key
    (fun _ => 1) 0 0 1 = 1 := by
  simp [Spec.link, Instr.coarse]

/-- C100: coarse instruments from worker ids always raise, for every method that uses instruments. -/
theorem C100_coarse_workers_raises (e : EigVec) (rss : Data ni nf → (Fin ni → ℝ) → ℕ → ℝ) (d : Data ni nf) (o : Opts)
    (weighted : Bool) (C : ℝ) (W : Fin ni → ℕ) (nw : ℕ) (hv : validate o = .ok ()) (hm : o.method ≠ .linear)
    (hi : o.instrument = .workerIds) :
    fitAll e rss d o weighted C W nw false = .error "UnboundLocalError" := by
  unfold fitAll
  simp only [bind, Except.bind, hv, if_neg hm]
  unfold instrOf
  rw [if_neg (by decide), hi]

end Pytwoway.Interacted
