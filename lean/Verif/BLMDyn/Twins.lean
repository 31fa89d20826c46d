import Verif.BLMDyn.Repeat

/-!
# Worker types that start alike in the dynamic model (C132)

Two worker types with equal starting values have equal values after any number of iterations: the algorithm cannot
tell them apart.  Exchanging them rewrites the state into itself (`Invariance.lean`).
-/

namespace Pytwoway.Dynamic

open Finset Pytwoway.Sim.Dyn Pytwoway.BLM

variable {ni nl nk : ℕ}

/-! ## Specification -/

/-- Two worker types have the same means and standard deviations in every period and firm type. -/
structure Spec.SameTypes (l1 l2 : Fin nl) (b : DBase nl nk) : Prop where
  mean : ∀ p k, b.Aw p l1 k = b.Aw p l2 k
  sd : ∀ p k, b.Sw p l1 k = b.Sw p l2 k

/-- Constraints that do not tell two worker types apart: exchanging the two in a feasible point gives a feasible point. -/
def Spec.NoFavourite {J : Type} (l1 l2 : Fin nl) (F : (Fin nl × J → ℝ) → Prop) : Prop :=
  ∀ x, F x → F fun a => x (Equiv.swap l1 l2 a.1, a.2)

/-- The rewriting that exchanges two worker types and nothing else. -/
def Spec.exchange (ni nk : ℕ) (l1 l2 : Fin nl) : Spec.Rewriting ni nl nk := ⟨1, Equiv.swap l1 l2, 1, 1, one_pos⟩

/-! ## Lemmas -/

theorem swap_same {α : Type} (l1 l2 : Fin nl) (f : Fin nl → α) (h : f l1 = f l2) (l : Fin nl) : f (Equiv.swap l1 l2 l) = f l := by
  rw [Equiv.swap_apply_def]
  split
  · rename_i e; rw [e, h]
  split
  · rename_i e; rw [e, h]
  · rfl

theorem exchange_data (l1 l2 : Fin nl) (d : DData ni nk) : (Spec.exchange ni nk l1 l2).SameData d d := by
  constructor <;> intros <;> simp [Spec.exchange]

theorem exchange_params {l1 l2 : Fin nl} {b : DBase nl nk} (h : Spec.SameTypes l1 l2 b) :
    (Spec.exchange ni nk l1 l2).SameParams b b := by
  refine ⟨fun p l k => ?_, fun p k => ?_, fun p l k => ?_, fun p k => ?_⟩
  · simpa [Spec.exchange] using swap_same l1 l2 (fun l => b.Aw p l k) (h.mean p k) l
  · simp [Spec.exchange]
  · simpa [Spec.exchange] using swap_same l1 l2 (fun l => b.Sw p l k) (h.sd p k) l
  · simp [Spec.exchange]

theorem exchange_back {l1 l2 : Fin nl} {b : DBase nl nk} (h : (Spec.exchange ni nk l1 l2).SameParams b b) :
    Spec.SameTypes l1 l2 b := by
  refine ⟨fun p k => ?_, fun p k => ?_⟩
  · simpa [Spec.exchange] using h.Aw p l2 k
  · simpa [Spec.exchange] using h.Sw p l2 k

theorem exchange_shift (l1 l2 : Fin nl) : (Spec.exchange ni nk l1 l2).likShift = 0 := by
  simp [Spec.Rewriting.likShift, Spec.exchange]

theorem exchange_qp {P : Type} [Fintype P] {l1 l2 : Fin nl} {F : (Fin nl × P × Fin nk → ℝ) → Prop} {s : QP (Fin nl × P × Fin nk)}
    (hs : Spec.ConvexQP F s) (hF : Spec.NoFavourite l1 l2 F) (m : ℝ) (hm : m = 1) :
    Spec.SameQP (Spec.exchange ni nk l1 l2).idx m F F s s := by
  subst hm
  refine ⟨hs.right, hs.right, hs.convex, fun x x' e => ?_⟩
  have e1 : x' = fun a => x (Equiv.swap l1 l2 a.1, a.2) := by
    funext a
    have := e (Equiv.swap l1 l2 a.1, a.2)
    simpa [Spec.exchange, Spec.Rewriting.idx] using this
  have e2 : x = fun a => x' (Equiv.swap l1 l2 a.1, a.2) := by
    funext a
    rw [e1]; simp
  exact ⟨fun h => by rw [e2]; exact hF _ h, fun h => by rw [e1]; exact hF _ h⟩

theorem opts_one (o : MvOpts) : { o with δ := o.δ / 1 } = o := by rw [div_one]

/-! ## C132 -/

/-- C132 for movers: two worker types with equal means, standard deviations and proportions at the start have equal
means, standard deviations and proportions after any number of iterations, with any update flags and any convex
constraints that do not name one of the two. -/
theorem C132_movers [NeZero nl] {endo state : Bool} (hni : 0 < ni) (d : DData ni nk) (o : MvOpts) (hδ : 0 < o.δ)
    (sA sS : QP (Fin nl × JM endo state nk)) (FA FS : (Fin nl × JM endo state nk → ℝ) → Prop)
    (hsA : Spec.ConvexQP FA sA) (hsS : Spec.ConvexQP FS sS) (l1 l2 : Fin nl) (hA : Spec.NoFavourite l1 l2 FA)
    (hS : Spec.NoFavourite l1 l2 FS) (hfA : ∀ x, FA x → Spec.Flat x) (hfS : ∀ x, FS x → Spec.Flat x)
    (hlow : ∀ x, FS x → ∀ l p k, p.1.isB = false → 0 < x (l, p, k)) (minType : DBase nl nk → ℕ)
    (hmin : ∀ b : DBase nl nk, minType { b with
      Aw := fun p l k => b.Aw p (Equiv.swap l1 l2 l) k, Sw := fun p l k => b.Sw p (Equiv.swap l1 l2 l) k } = minType b)
    (fuel iter : ℕ) (prev : Option ℝ) (pm : ℕ) (s s' : MvState nl nk) (hpos : PosS s.base)
    (hs : Spec.SameTypes l1 l2 s.base) (hpk : ∀ k1 k2 : Fin nk, s.pk1 (k1.val + nk * k2.val) l1 = s.pk1 (k1.val + nk * k2.val) l2)
    (h : loopMv d o sA sS minType fuel iter prev pm s = .ok s') :
    Spec.SameTypes l1 l2 s'.base ∧ ∀ k1 k2 : Fin nk, s'.pk1 (k1.val + nk * k2.val) l1 = s'.pk1 (k1.val + nk * k2.val) l2 := by
  set g := Spec.exchange (nl := nl) ni nk l1 l2 with hg
  have h1 : g.scale = 1 := rfl
  have hm : ∀ b b', g.SameParams b b' → minType b' = minType b := by
    intro b b' hb
    rw [← hmin b]
    congr 1
    obtain ⟨Aw, Ab, Sw, Sb⟩ := b
    obtain ⟨Aw', Ab', Sw', Sb'⟩ := b'
    obtain ⟨e1, e2, e3, e4⟩ := hb
    simp only [hg, Spec.exchange, Equiv.Perm.coe_one, id_eq, one_mul] at e1 e2 e3 e4
    congr 1
    · funext p l k
      have := e1 p (Equiv.swap l1 l2 l) k
      rwa [Equiv.swap_apply_self] at this
    · funext p k; exact e2 p k
    · funext p l k
      have := e3 p (Equiv.swap l1 l2 l) k
      rwa [Equiv.swap_apply_self] at this
    · funext p k; exact e4 p k
  have key := C121_movers g hni d d o sA sA sS sS FA FA FS FS minType minType id Function.injective_id hm
    (exchange_data l1 l2 d) hδ (exchange_qp hsA hA _ h1) (exchange_qp hsS hS _ (by rw [h1]; norm_num)) hfA hfS hlow fuel iter prev pm
    s s hpos ⟨exchange_params hs, rfl, fun k1 k2 l =>
      swap_same l1 l2 (fun l => s.pk1 (k1.val + nk * k2.val) l) (hpk k1 k2) l, by rw [exchange_shift]; simp⟩
  rw [h1, opts_one, exchange_shift] at key
  have e : prev.map (· - (0 : ℝ)) = prev := by cases prev <;> simp
  rw [e, id, h] at key
  have key : g.SameMv s' s' := key
  refine ⟨exchange_back key.params, fun k1 k2 => ?_⟩
  have e : s'.pk1 (k1.val + nk * k2.val) (Equiv.swap l1 l2 l2) = s'.pk1 (k1.val + nk * k2.val) l2 := key.props k1 k2 l2
  rwa [Equiv.swap_apply_right] at e

/-- C132 for stayers. -/
theorem C132_stayers [NeZero nl] (hni : 0 < ni) (d : DData ni nk) (o : StOpts) (hδ : 0 < o.δ) (sA sS : QP (Fin nl × JS nk))
    (FA FS : (Fin nl × JS nk → ℝ) → Prop) (hsA : Spec.ConvexQP FA sA) (hsS : Spec.ConvexQP FS sS) (l1 l2 : Fin nl)
    (hA : Spec.NoFavourite l1 l2 FA) (hS : Spec.NoFavourite l1 l2 FS) (hlow : ∀ x, FS x → ∀ a, 0 < x a) (fuel iter : ℕ)
    (prev : Option ℝ) (s s' : StState nl nk) (hpos : PosS s.base) (hs : Spec.SameTypes l1 l2 s.base)
    (hpk : ∀ k : Fin nk, s.pk0 k.val l1 = s.pk0 k.val l2) (h : loopSt d o sA sS fuel iter prev s = .ok s') :
    Spec.SameTypes l1 l2 s'.base ∧ ∀ k : Fin nk, s'.pk0 k.val l1 = s'.pk0 k.val l2 := by
  set g := Spec.exchange (nl := nl) ni nk l1 l2 with hg
  have h1 : g.scale = 1 := rfl
  have key := C121_stayers g hni d d o sA sA sS sS FA FA FS FS (exchange_data l1 l2 d) hδ (exchange_qp hsA hA _ h1)
    (exchange_qp hsS hS _ (by rw [h1]; norm_num)) hlow fuel iter prev s s hpos ⟨exchange_params hs, rfl, fun k l =>
      swap_same l1 l2 (fun l => s.pk0 k.val l) (hpk k) l, by rw [exchange_shift]; simp⟩
  have e0 : { o with δ := o.δ / 1 } = o := by rw [div_one]
  rw [h1, e0, exchange_shift] at key
  have e : prev.map (· - (0 : ℝ)) = prev := by cases prev <;> simp
  rw [e, h] at key
  have key : g.SameSt s' s' := key
  refine ⟨exchange_back key.params, fun k => ?_⟩
  have e : s'.pk0 k.val (Equiv.swap l1 l2 l2) = s'.pk0 k.val l2 := key.props k l2
  rwa [Equiv.swap_apply_right] at e

/-! ## The hypotheses can be met -/

/-- Three worker types, the first and the last alike. -/
def threeTypes : DBase 3 2 :=
  ⟨fun _ l k => if l = 1 then 3 else k.val, fun _ _ => 0, fun _ _ _ => 1, fun _ _ => 1⟩

theorem threeTypes_same : Spec.SameTypes 0 2 threeTypes := ⟨fun _ _ => rfl, fun _ _ => rfl⟩

/-- Solvers as in `C132_movers`, for any pair of worker types: the equalities the package always adds, and a lower bound
on variances. -/
theorem C132_solvers {endo state : Bool} (lb : ℝ) (hlb : 0 < lb) (l1 l2 : Fin nl) :
    ∃ (sA sS : QP (Fin nl × JM endo state nk)) (FA FS : (Fin nl × JM endo state nk → ℝ) → Prop),
      Spec.ConvexQP FA sA ∧ Spec.ConvexQP FS sS ∧ Spec.NoFavourite l1 l2 FA ∧ Spec.NoFavourite l1 l2 FS ∧
      (∀ x, FA x → Spec.Flat x) ∧ (∀ x, FS x → Spec.Flat x) ∧
      (∀ x, FS x → ∀ l p k, p.1.isB = false → 0 < x (l, p, k)) ∧ FA = Spec.Flat ∧
      FS = fun x => Spec.Flat x ∧ ∀ a, lb ≤ x a := by
  obtain ⟨sA, sA', sS, sS', FA, FS, FS', e1, e2, -, h1, h2, h3⟩ :=
    C121_movers_solvers (⟨1, 1, 1, 1, one_pos⟩ : Spec.Rewriting 1 nl nk) (endo := endo) (state := state) hlb
  have hflat : Spec.NoFavourite l1 l2 (Spec.Flat (nl := nl) (nk := nk) (endo := endo) (state := state)) :=
    fun x hx l l' p k hp => hx _ _ p k hp
  refine ⟨sA, sS, FA, FS, ⟨h1.right, h1.convex⟩, ⟨h2.right, h2.convex⟩, ?_, ?_, ?_, ?_, h3, e1, e2⟩
  · rw [e1]; exact hflat
  · rw [e2]; exact fun x hx => ⟨hflat x hx.1, fun a => hx.2 _⟩
  · rw [e1]; exact fun x hx => hx
  · rw [e2]; exact fun x hx => hx.1

/-- Non-vacuity of `C132_movers`: whatever the data, when the run returns, the types are alike. -/
example (d : DData 5 2) (fuel : ℕ) (s' : MvState 3 2) : ∃ sA sS : QP (Fin 3 × JM true true 2),
    (loopMv d ⟨true, true, true, true, true, true, 1, 0, 1⟩ sA sS (fun _ => 0) fuel 0 none 0
      ⟨threeTypes, ⟨0, 0, 0⟩, fun _ _ => 1 / 3, []⟩ = .ok s' → Spec.SameTypes 0 2 s'.base) := by
  obtain ⟨sA, sS, FA, FS, h1, h2, h3, h4, h5, h6, h7, -, -⟩ := C132_solvers (nl := 3) (nk := 2) (endo := true) (state := true) 1
    one_pos 0 2
  exact ⟨sA, sS, fun h => (C132_movers (by norm_num) d _ one_pos sA sS FA FS h1 h2 0 2 h3 h4 h5 h6 h7 (fun _ => 0)
    (fun _ => rfl) fuel 0 none 0 _ s' ⟨fun _ _ _ => one_pos, fun _ _ => zero_le_one⟩ threeTypes_same (fun _ _ => rfl) h).1⟩

/-! ## Constraints that name a type -/

/-- The hypothesis on the constraints is needed: requiring the first type to have the lower mean, as monotonicity
constraints do, tells the types apart. -/
theorem C132_monotone_names : ¬ Spec.NoFavourite (J := JS 1) (0 : Fin 2) 1 fun x => ∀ j, x (0, j) + 1 ≤ x (1, j) := by
  intro h
  have := h (fun a => a.1.val) (by simp) (0, 0)
  simp at this
  linarith

end Pytwoway.Dynamic
