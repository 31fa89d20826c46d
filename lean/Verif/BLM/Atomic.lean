import Verif.BLM.ForcedProps

/-! # What a call leaves behind: the static model (C120)

`BLMModel.fit_movers` and `BLMModel.fit_stayers` as transitions of the model's attributes, including the attributes
after an exception and after a call that only returns the posterior probabilities. -/

open Finset

namespace Pytwoway.BLM

variable {ni nl nk : ℕ}

/-! ## Model -/

/-- `qi` of the first iteration from the parameters `p`, blm.py:1389-1418. -/
noncomputable def qiOf [NeZero nl] (d : Data ni nk) (p : AllParams ni nl nk) (i : Fin ni) (l : Fin nl) : ℝ :=
  posterior (lpMovers d p.base p.cs p.pk1) i l

/-- `fit_movers`, blm.py:1226-1282, with `_fit_movers`, 1284-1948: what it returns or raises, and the attributes
afterwards.  `cols` is the lookup of the control columns (1319-1340), which comes first.  Of the attributes only
`self.pk0` is assigned before the loop (1377); the loop works on the copies made by `_sort_parameters` (880), and
everything is stored after it (1919-1948).  With `return_qi` the first iteration returns (1417-1418).  With forcing
the estimation works on other models, whose results are copied at the end (1243-1278). -/
noncomputable def moversCall [NeZero nl] (d : Data ni nk) (e : Env ni nl nk) (cols : Py Unit) (force rq nnm : Bool)
    (m : Fitted ni nl nk) : Py (Option (Fin ni → Fin nl → ℝ)) × Fitted ni nl nk :=
  let fin (m0 : Fitted ni nl nk) (x : Py (Fitted ni nl nk)) : Py (Option (Fin ni → Fin nl → ℝ)) × Fitted ni nl nk :=
    match x with
    | .error s => (.error s, m0)
    | .ok f => (.ok none, f)
  if force then
    if rq then (.error "ValueError", m)
    else match cols with
      | .error s => (.error s, m)
      | .ok _ => fin m (fitForced e rq nnm m.p)
  else
    match cols with
    | .error s => (.error s, m)
    | .ok _ =>
      let m1 : Fitted ni nl nk := { m with p := { m.p with pk0 := (e.sort m.p).pk0 } }
      if rq then (.ok (some (qiOf d (e.sort m.p))), m1)
      else
        match e.em none (e.sort m.p) with
        | .error s => (.error s, m1)
        | .ok .stuck => fin m1 (fitForced e rq nnm m1.p)
        | .ok (.finished (r, liks)) =>
          let t := e.tidy { r with pk0 := (e.sort m.p).pk0 }
          (.ok none, ⟨{ t with NNm := if nnm then e.counts else m.p.NNm, NNs := m.p.NNs }, liks⟩)

/-- `fit_stayers`, blm.py:1950-2094: `loop` is the EM loop from `self.pk0` (a local name, rebound in every
iteration), `qi` the posteriors of its first iteration; only `pk0`, `lik0`, `liks0` and `NNs` are stored, after it. -/
noncomputable def stayersCall (loop : (Fin nk → Fin nl → ℝ) → Py ((Fin nk → Fin nl → ℝ) × List ℝ))
    (qi : (Fin nk → Fin nl → ℝ) → Fin ni → Fin nl → ℝ) (counts : Fin nk → ℝ) (rq nns : Bool)
    (m : AllParams ni nl nk × List ℝ) : Py (Option (Fin ni → Fin nl → ℝ)) × (AllParams ni nl nk × List ℝ) :=
  if rq then (.ok (some (qi m.1.pk0)), m)
  else match loop m.1.pk0 with
    | .error s => (.error s, m)
    | .ok (pk0, liks) => (.ok none, ({ m.1 with pk0 := pk0, NNs := if nns then counts else m.1.NNs }, liks))

/-! ## Specification -/

/-- All attributes other than `pk0` are the same. -/
def Spec.OnlyPk0 (m m' : Fitted ni nl nk) : Prop :=
  m'.liks = m.liks ∧ m'.p.base = m.p.base ∧ m'.p.cs = m.p.cs ∧ m'.p.pk1 = m.p.pk1 ∧ m'.p.NNm = m.p.NNm ∧
    m'.p.NNs = m.p.NNs

/-- The call did not fit the model: it raised, or it returned posterior probabilities. -/
def Spec.NotFitted {Q : Type} (r : Py (Option Q)) : Prop := (∃ s, r = .error s) ∨ ∃ q, r = .ok (some q)

/-! ## Movers -/

theorem moversCall_cases [NeZero nl] (d : Data ni nk) (e : Env ni nl nk) (cols : Py Unit) (force rq nnm : Bool)
    (m : Fitted ni nl nk) (h : Spec.NotFitted (moversCall d e cols force rq nnm m).1) :
    (moversCall d e cols force rq nnm m).2 = m ∨
      (force = false ∧ cols = .ok () ∧
        (moversCall d e cols force rq nnm m).2 = { m with p := { m.p with pk0 := (e.sort m.p).pk0 } }) := by
  unfold moversCall at h ⊢
  cases force with
  | true =>
    left
    cases rq with
    | true => simp
    | false =>
      simp only [if_true, Bool.false_eq_true, if_false] at h ⊢
      cases cols with
      | error s => rfl
      | ok u =>
        simp only at h ⊢
        cases hf : fitForced e false nnm m.p with
        | error s => rfl
        | ok f =>
          simp only [hf] at h
          rcases h with ⟨s, h⟩ | ⟨q, h⟩ <;> cases h
  | false =>
    simp only [Bool.false_eq_true, if_false] at h ⊢
    cases cols with
    | error s => exact Or.inl rfl
    | ok u =>
      right
      refine ⟨trivial, rfl, ?_⟩
      cases rq with
      | true => simp
      | false =>
        simp only [Bool.false_eq_true, if_false] at h ⊢
        cases hem : e.em none (e.sort m.p) with
        | error s => rfl
        | ok o =>
          cases o with
          | stuck =>
            simp only [hem] at h ⊢
            cases hf : fitForced e false nnm { m.p with pk0 := (e.sort m.p).pk0 } with
            | error s => rfl
            | ok f =>
              simp only [hf] at h
              rcases h with ⟨s, h⟩ | ⟨q, h⟩ <;> cases h
          | finished x =>
            obtain ⟨r, liks⟩ := x
            simp only [hem] at h
            rcases h with ⟨s, h⟩ | ⟨q, h⟩ <;> cases h

/-- C120 (missing: `pk0` is left as it was; false, `C120_pk0_reordered`): after a call of `fit_movers` that raises, at
whatever point, or that only returns posterior probabilities, every attribute of the static model except `pk0` is what
it was, and `pk0` has its rows' entries at most rearranged, all rows in the same way. -/
theorem C120_movers_partial [NeZero nl] (d : Data ni nk) (e : Env ni nl nk) (hs : e.sortF = false) (cols : Py Unit)
    (force rq nnm : Bool) (m : Fitted ni nl nk) (h : Spec.NotFitted (moversCall d e cols force rq nnm m).1) :
    Spec.OnlyPk0 m (moversCall d e cols force rq nnm m).2 ∧
      ∃ w : Equiv.Perm (Fin nl), ∀ k l, (moversCall d e cols force rq nnm m).2.p.pk0 k l = m.p.pk0 k (w l) := by
  rcases moversCall_cases d e cols force rq nnm m h with hm | ⟨-, -, hm⟩
  · rw [hm]
    exact ⟨⟨rfl, rfl, rfl, rfl, rfl, rfl⟩, Equiv.refl _, fun _ _ => rfl⟩
  · rw [hm]
    refine ⟨⟨rfl, rfl, rfl, rfl, rfl, rfl⟩, ?_⟩
    obtain ⟨w, f, hf, hr⟩ := C35_relabelling e.argsort e.primary e.sortF e.reverse m.p
    refine ⟨w, fun k l => ?_⟩
    have := hr.pk0 k l
    rw [hf hs] at this
    exact this

/-- C120: nothing at all changes if the worker types of the model are in order (as after every completed fit without
controls, `C35_workers_sorted`, when no two tie), or if `pk0` gives all worker types the same share (as in a new
model), or if the lowest firm type is forced. -/
theorem C120_movers_unchanged [NeZero nl] (d : Data ni nk) (e : Env ni nl nk) (ha : e.argsort.Right)
    (hs : e.sortF = false) (hrev : e.reverse = false) (cols : Py Unit) (force rq nnm : Bool) (m : Fitted ni nl nk)
    (hm : StrictMono (workerMean (primaryMean e.primary m.p.base.A)) ∨ (∀ k l l', m.p.pk0 k l = m.p.pk0 k l') ∨
      force = true)
    (h : Spec.NotFitted (moversCall d e cols force rq nnm m).1) : (moversCall d e cols force rq nnm m).2 = m := by
  rcases moversCall_cases d e cols force rq nnm m h with h' | ⟨hf, -, h'⟩
  · exact h'
  · rw [h']
    have : (e.sort m.p).pk0 = m.p.pk0 := by
      rcases hm with hm | hm | hm
      · have := (C35_idempotent e.argsort ha e.primary false m.p hm (by simp)).2.1
        unfold Env.sort
        rw [hs, hrev]
        exact this
      · obtain ⟨w, f, hf, hr⟩ := C35_relabelling e.argsort e.primary e.sortF e.reverse m.p
        funext k l
        unfold Env.sort
        rw [hr.pk0, hf hs]
        exact hm _ _ _
      · rw [hf] at hm; cases hm
    rw [this]

/-- C120: the posterior probabilities that are returned have their columns in the order of increasing means, not in the
order of the worker types of the model, whose parameters stay as they were: column `l` belongs to the type `w l`. -/
theorem C120_posteriors [NeZero nl] (d : Data ni nk) (e : Env ni nl nk) (hs : e.sortF = false) (nnm : Bool)
    (m : Fitted ni nl nk) (hS : ∀ t l k, 0 < m.p.base.S t l k) :
    ∃ q, (moversCall d e (.ok ()) false true nnm m).1 = .ok (some q) ∧
      (∀ i l, q i l =
        qiOf d m.p i (orderPerm e.argsort e.reverse (workerMean (primaryMean e.primary m.p.base.A)) l)) ∧
      (moversCall d e (.ok ()) false true nnm m).2.p.base = m.p.base := by
  refine ⟨_, rfl, fun i l => ?_, rfl⟩
  set w := orderPerm e.argsort e.reverse (workerMean (primaryMean e.primary m.p.base.A)) with hw
  have hsort : e.sort m.p = sortWorkers w m.p := by
    unfold Env.sort sortParams
    rw [hs]
    simp only [Bool.false_eq_true, if_false, orderOf_eq]
    rfl
  have hr := sortWorkers_relabelled w m.p
  rw [← hsort] at hr
  have hp : ∀ l, lpMovers d (e.sort m.p).base (e.sort m.p).cs (e.sort m.p).pk1 i l =
      lpMovers d m.p.base m.p.cs m.p.pk1 i (w l) := by
    intro l
    have hd : relabelData (Equiv.refl (Fin nk)) d = d := rfl
    have hW : ∀ t, lpWage d (e.sort m.p).base (e.sort m.p).cs t l i = lpWage d m.p.base m.p.cs t (w l) i := by
      intro t
      rw [lpWage_eq _ _ _ _ _ _ (by rw [hr.S]; exact hS _ _ _), lpWage_eq _ _ _ _ _ _ (hS _ _ _)]
      have := wageDensity_relabel w (Equiv.refl _) m.p (e.sort m.p) hr d t i l
      rw [hd] at this
      rw [this]
    unfold lpMovers
    rw [hW, hW, hsort]
    rfl
  unfold qiOf
  rw [posterior_eq, posterior_eq]
  simp only [hp]
  rw [Equiv.sum_comp w fun l => Real.exp (lpMovers d m.p.base m.p.cs m.p.pk1 i l)]

/-- C120: a call that returns `None` has estimated the model, and the model is then the result of that estimation
(`fitMoversAll`, with the properties `C96`): there is no third possibility beside it and `C120_movers_partial`. -/
theorem C120_movers_complete [NeZero nl] (d : Data ni nk) (e : Env ni nl nk) (cols : Py Unit) (force rq nnm : Bool)
    (m : Fitted ni nl nk) (h : (moversCall d e cols force rq nnm m).1 = .ok none) :
    cols = .ok () ∧ rq = false ∧
      (fitMoversAll e force rq nnm m.p).1 = .ok (moversCall d e cols force rq nnm m).2 := by
  unfold moversCall fitMoversAll at *
  cases force with
  | true =>
    cases rq with
    | true => simp at h
    | false =>
      cases cols with
      | error s => simp at h
      | ok _ =>
        simp only [if_true, Bool.false_eq_true, if_false] at h ⊢
        cases hf : fitForced e false nnm m.p with
        | error s => simp [hf] at h
        | ok f => exact ⟨trivial, trivial, rfl⟩
  | false =>
    cases cols with
    | error s => simp at h
    | ok _ =>
      cases rq with
      | true => simp at h
      | false =>
        simp only [Bool.false_eq_true, if_false] at h ⊢
        cases hem : e.em none (e.sort m.p) with
        | error s => simp [hem] at h
        | ok o =>
          cases o with
          | stuck =>
            simp only [hem] at h ⊢
            cases hf : fitForced e false nnm { m.p with pk0 := (e.sort m.p).pk0 } with
            | error s => simp [hf] at h
            | ok f => exact ⟨trivial, trivial, rfl⟩
          | finished x => exact ⟨trivial, trivial, rfl⟩

/-! ### `pk0` out of step -/

/-- One mover, of a single firm type, with weight 1. -/
def oneMover : Data 1 1 := ⟨fun _ _ => 0, fun _ _ => 0, fun _ _ => 1⟩

/-- C120 (wrong): any estimation that raises from the sorted initial values
of `swapped`, or a call that asks for the posterior probabilities, leaves the model with the same means and with `pk0`
exchanged: before it all stayers are of the type with the mean 1, afterwards of the type with the mean 0; a second such
call exchanges them again. -/
theorem C120_pk0_reordered (a : Argsort) (ha : a.Right) (s : String) (rq : Bool) (liks : List ℝ) :
    let e : Env 1 2 1 := { still a with em := fun _ _ => .error s }
    let m : Fitted 1 2 1 := ⟨swapped, liks⟩
    let m1 := (moversCall oneMover e (.ok ()) false rq true m).2
    let m2 := (moversCall oneMover e (.ok ()) false rq true m1).2
    Spec.NotFitted (moversCall oneMover e (.ok ()) false rq true m).1 ∧
      (m.p.base.A 0 0 0 = 1 ∧ m.p.pk0 0 0 = 1) ∧
      (m1.p.base.A 0 0 0 = 1 ∧ m1.p.pk0 0 0 = 0 ∧ m1.p.base.A 0 1 0 = 0 ∧ m1.p.pk0 0 1 = 1) ∧
      (m2.p.base.A 0 0 0 = 1 ∧ m2.p.pk0 0 0 = 1) := by
  intro e m m1 m2
  have v1 : ∀ z, workerMean (primaryMean .first ({ swapped with pk0 := z } : AllParams 1 2 1).base.A) =
      fun l => if l = 0 then 1 else 0 := fun z => by
    funext l
    simp [workerMean, primaryMean, swapped]
  have o1 := (order_two a ha (fun l => if l = 0 then 1 else 0)).1 (by simp)
  have s1 : ∀ z : Fin 1 → Fin 2 → ℝ, (e.sort ({ swapped with pk0 := z } : AllParams 1 2 1)).pk0 =
      fun k l => if l = 0 then z k 1 else z k 0 := fun z => by
    unfold Env.sort sortParams
    simp only [e, still, Bool.false_eq_true, if_false]
    rw [v1]
    funext k l
    simp only [sortWorkers, orderOf, Bool.false_eq_true, if_false]
    have two : ∀ x : Fin 2, x = 0 ∨ x = 1 := by decide
    rcases two l with rfl | rfl
    · rw [o1.1]; simp
    · rw [o1.2]; simp
  have key : ∀ z : Fin 1 → Fin 2 → ℝ,
      (moversCall oneMover e (.ok ()) false rq true ⟨{ swapped with pk0 := z }, liks⟩).2 =
        ⟨{ swapped with pk0 := fun k l => if l = 0 then z k 1 else z k 0 }, liks⟩ := by
    intro z
    unfold moversCall
    cases rq with
    | true => simp only [Bool.false_eq_true, if_false, if_true, s1]
    | false => simp only [Bool.false_eq_true, if_false, s1, e]
  have h1 : m1 = ⟨{ swapped with pk0 := fun k l => if l = 0 then swapped.pk0 k 1 else swapped.pk0 k 0 }, liks⟩ :=
    key swapped.pk0
  have h2 := key fun k l => if l = 0 then swapped.pk0 k 1 else swapped.pk0 k 0
  rw [← h1] at h2
  have h2 : m2 = _ := h2
  refine ⟨?_, ⟨by simp [m, swapped], by simp [m, swapped]⟩, ?_, ?_⟩
  · unfold moversCall
    cases rq with
    | true => exact Or.inr ⟨_, rfl⟩
    | false => exact Or.inl ⟨s, rfl⟩
  · rw [h1]
    simp [swapped]
  · rw [h2]
    simp [swapped]

/-- The EM loop of the static model raises, whatever the parameters, when the proportions are updated and no mover goes
from some firm type to some other: the exception of `C120_movers_partial` is one that data can cause. -/
theorem C120_em_raises [NeZero nl] (d : Data ni nk) (hd : ¬ AllPairs d) (o : MoverOpts) (ho : o.updPk = true)
    (sA : ℕ → Solver) (sS : Solver) (minType : (Fin 2 → Fin nl → Fin nk → ℝ) → ℕ) (start nObs fuel : ℕ)
    (hn : 2 ≤ nObs) (cols : List (Col ni nl)) (p : AllParams ni nl nk) :
    emC d o sA sS minType start nObs (fuel + 1) cols none p = .error "ValueError" := by
  unfold emC loopCyc
  simp only [runCheck]
  rw [passC]
  simp only [stop, Bool.false_eq_true, if_false]
  have hc : ∀ m, (cycCheck start nObs 0 m []).1 = false := by
    intro m
    unfold cycCheck
    split
    · simp only [List.nil_append, List.length_singleton]
      rw [if_neg (by omega)]
    · rfl
  simp only [hc, Bool.false_eq_true, if_false, nextPk1, ho, if_true, C32_movers_raises d _ _ hd, bind, Except.bind]

/-- Witness: two firm types and one mover. -/
example : ¬ AllPairs (⟨fun _ _ => 0, fun _ _ => 0, fun _ _ => 1⟩ : Data 1 2) := by
  intro h
  obtain ⟨i, h1, h2⟩ := h 1 1
  simp at h1

/-! ## Stayers -/

/-- C120: `fit_stayers` of the static model changes nothing unless it completes. -/
theorem C120_stayers (loop : (Fin nk → Fin nl → ℝ) → Py ((Fin nk → Fin nl → ℝ) × List ℝ))
    (qi : (Fin nk → Fin nl → ℝ) → Fin ni → Fin nl → ℝ) (counts : Fin nk → ℝ) (rq nns : Bool)
    (m : AllParams ni nl nk × List ℝ) (h : Spec.NotFitted (stayersCall loop qi counts rq nns m).1) :
    (stayersCall loop qi counts rq nns m).2 = m := by
  unfold stayersCall at h ⊢
  cases rq with
  | true => rfl
  | false =>
    simp only [Bool.false_eq_true, if_false] at h ⊢
    cases hl : loop m.1.pk0 with
    | error s => rfl
    | ok x =>
      simp only [hl] at h
      rcases h with ⟨s, h⟩ | ⟨q, h⟩ <;> cases h

/-- C120: if it completes, `pk0` and the likelihoods are those of the loop, the counts are renewed if asked for, and
nothing else changes. -/
theorem C120_stayers_complete (loop : (Fin nk → Fin nl → ℝ) → Py ((Fin nk → Fin nl → ℝ) × List ℝ))
    (qi : (Fin nk → Fin nl → ℝ) → Fin ni → Fin nl → ℝ) (counts : Fin nk → ℝ) (rq nns : Bool)
    (m : AllParams ni nl nk × List ℝ) (h : (stayersCall loop qi counts rq nns m).1 = .ok none) :
    let m' := (stayersCall loop qi counts rq nns m).2
    rq = false ∧ loop m.1.pk0 = .ok (m'.1.pk0, m'.2) ∧ m'.1.base = m.1.base ∧ m'.1.cs = m.1.cs ∧ m'.1.pk1 = m.1.pk1 ∧
      m'.1.NNm = m.1.NNm ∧ m'.1.NNs = if nns then counts else m.1.NNs := by
  unfold stayersCall at *
  cases rq with
  | true => simp at h
  | false =>
    simp only [Bool.false_eq_true, if_false] at h ⊢
    cases hl : loop m.1.pk0 with
    | error s => simp [hl] at h
    | ok x => exact ⟨trivial, rfl, rfl, rfl, rfl, rfl, rfl⟩

/-- Witness: a loop that raises, as for a firm type without stayers. -/
example (m : AllParams 1 2 1 × List ℝ) :
    Spec.NotFitted (stayersCall (fun _ => .error "ValueError") (fun _ _ _ => 1 / 2) (fun _ => 1) false true m).1 :=
  Or.inl ⟨_, rfl⟩

end Pytwoway.BLM
