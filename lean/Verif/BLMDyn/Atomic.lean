import Verif.BLM.Atomic
import Verif.BLMDyn.Sort
import Verif.BLMDyn.Normalize
import Verif.BLMDyn.ControlsStay

/-! # What a call leaves behind: the dynamic model (C120)

`DynamicBLMModel.fit_movers` and `fit_stayers` as transitions of the model's attributes.  `fit_stayers` works on the
dictionaries `self.A`, `self.S`, `self.A_cat`, `self.S_cat` themselves (blm_dynamic.py:2918-2919), so what the loop
assigns is in the model at once; `R32s`, `pk0`, `lik0`, `liks0` are stored after the loop (3657-3662). -/

open Finset

namespace Pytwoway.Dynamic

open Pytwoway.Sim.Dyn Pytwoway.BLM

variable {ni nl nk : ℕ} {Q : Type}

/-! ## Model: movers -/

/-- The attributes of a dynamic model that `fit_movers` stores or changes.
Used for blm_dynamic.py:1855-1909 and 2881-2905. -/
structure DFit (nl nk : ℕ) where
  x : DAll nl nk
  r : Rhos
  liks : List ℝ

/-- What `_fit_movers` needs: NumPy's `argsort`, the option `primary_period`, the loop (blm_dynamic.py:2008-2862),
`_normalize` if there are categorical controls and otherwise nothing (2882-2885, 2891-2893), the posteriors of the first
iteration, and the counts of 2905. -/
structure DFitEnv (nl nk : ℕ) (Q : Type) where
  argsort : Argsort
  primary : BLM.Primary
  em : DAll nl nk → Rhos → Py (Outcome (DAll nl nk × Rhos × List ℝ))
  norm : DAll nl nk → Py (DAll nl nk)
  qi : DAll nl nk → Rhos → Q
  counts : Fin nk → Fin nk → ℝ

/-- `_sort_parameters` as the fit calls it, blm_dynamic.py:2004 and 2889. -/
noncomputable def DFitEnv.sort (e : DFitEnv nl nk Q) (x : DAll nl nk) : DAll nl nk := dSort e.argsort e.primary false false x

/-- `fit_movers`, blm_dynamic.py:1855-1909, with `_fit_movers`, 1911-2905: what it returns or raises and the attributes
afterwards.  `cols` is the lookup of the control columns.  `self.pk0` is assigned at 2004 and at 2889, the rest after
the second normalisation.  Forcing constructs a model without its second argument and raises (`C96`), and an estimation
that is stuck in a cycle does the same. -/
noncomputable def dMoversCall (e : DFitEnv nl nk Q) (cols : Py Unit) (force rq nnm : Bool) (m : DFit nl nk) :
    Py (Option Q) × DFit nl nk :=
  if force then (if rq then .error "ValueError" else if nk = 0 then .error "AttributeError" else .error "TypeError", m)
  else
    match cols with
    | .error s => (.error s, m)
    | .ok _ =>
      let x0 := e.sort m.x
      let m1 : DFit nl nk := { m with x := { m.x with pk0 := x0.pk0 } }
      if rq then (.ok (some (e.qi x0 m.r)), m1)
      else
        match e.em x0 m.r with
        | .error s => (.error s, m1)
        | .ok .stuck => (.error "TypeError", m1)
        | .ok (.finished (y, r, liks)) =>
          match e.norm { y with pk0 := x0.pk0 } with
          | .error s => (.error s, m1)
          | .ok y1 =>
            let y2 := e.sort { y1 with pk0 := x0.pk0 }
            let m2 : DFit nl nk := { m with x := { m.x with pk0 := y2.pk0 } }
            match e.norm y2 with
            | .error s => (.error s, m2)
            | .ok y3 =>
              (.ok none, ⟨{ y3 with pk0 := y2.pk0, NNm := if nnm then e.counts else m.x.NNm, NNs := m.x.NNs }, r, liks⟩)

/-! ## Model: stayers -/

/-- A loop together with what it has written into the model when it ends or raises: an iteration that raises has
written nothing (it raises before the first assignment, or see `mstepStC_error`).
Used for blm_dynamic.py:3048-3636. -/
def runHeap {σ β : Type} (pass : ℕ → σ → Pass σ σ) (heap : σ → β) : (fuel iter : ℕ) → σ → Py σ × β
  | 0, _, s => (.ok s, heap s)
  | fuel + 1, iter, s =>
    match pass iter s with
    | .done r => (.ok r, heap r)
    | .go _ (.error x) => (.error x, heap s)
    | .go _ (.ok s') => runHeap pass heap fuel (iter + 1) s'

/-- One iteration without controls (the body of `loopSt`), blm_dynamic.py:3048-3610. -/
noncomputable def passSt [NeZero nl] (d : DData ni nk) (o : StOpts) (sA sS : QP (Fin nl × JS nk)) (iter : ℕ)
    (x : Option ℝ × StState nl nk) : Pass (Option ℝ × StState nl nk) (Option ℝ × StState nl nk) :=
  let s := x.2
  let lp := lpSt d s.base s.r s.pk0
  let lik := likOf lp nk s.pk0 (iter == 0) o.updPk o.dprior
  let s' := { s with liks := s.liks ++ [lik] }
  if close lik x.1 o.thresholdMovers then .done (x.1, s')
  else .go 0 (do
    let s'' ← stepSt d o sA sS iter (posterior lp) s'
    pure (some lik, s''))

/-- `fit_stayers` without controls, blm_dynamic.py:2906-3668: the outcome, and the attributes afterwards. -/
noncomputable def stayersCallPlain [NeZero nl] (d : DData ni nk) (o : StOpts) (sA sS : QP (Fin nl × JS nk)) (fuel : ℕ)
    (rq : Bool) (m : StState nl nk) : Py (Option (Fin ni → Fin nl → ℝ)) × StState nl nk :=
  if rq then (.ok (some (posterior (lpSt d m.base m.r m.pk0))), m)
  else
    match runHeap (passSt d o sA sS) (fun x => x.2.base) fuel 0 (none, { m with liks := [] }) with
    | (.error s, b) => (.error s, { m with base := b })
    | (.ok x, _) => (.ok none, x.2)

/-- What the loop of stayers with categorical controls carries; `asum` is the cached `A_sum`.
Used for blm_dynamic.py:3048-3636. -/
structure StStateC (nl nk ni : ℕ) where
  base : DBase nl nk
  cols : List (StCol nl ni)
  asum : Fin 2 → Fin ni → ℝ
  r : Rhos
  pk0 : ℕ → Fin nl → ℝ
  liks : List ℝ

/-- A control's terms in `S_sum_sq` and `S_sum_sq_l` together.  Used for blm_dynamic.py:3053-3084. -/
def StCol.var (k : StCol nl ni) (l : Fin nl) (t : Fin 2) (i : Fin ni) : ℝ :=
  if k.wi then k.Sw t l (k.c t i) ^ 2 else k.Sn t (k.c t i) ^ 2

/-- Mean and variance of a stayer's wage in one of the two periods, blm_dynamic.py:3060-3084. -/
def StStateC.mean (s : StStateC nl nk ni) (d : DData ni nk) (l : Fin nl) (t : Fin 2) (i : Fin ni) : ℝ :=
  s.base.Aw (perS t) l (d.G 0 i) + s.asum t i + sumBySt s.cols l t i

/-- See `StStateC.mean`.  Used for blm_dynamic.py:3060-3084. -/
def StStateC.var (s : StStateC nl nk ni) (d : DData ni nk) (l : Fin nl) (t : Fin 2) (i : Fin ni) : ℝ :=
  s.base.Sw (perS t) l (d.G 0 i) ^ 2 + (s.cols.map fun k => k.var l t i).sum

/-- `lp` of stayers with controls, blm_dynamic.py:3060-3106; `stable` is `lp_stable` (2983-3041), which is computed
before the loop. -/
noncomputable def lpStC (d : DData ni nk) (stable : Fin ni → Fin nl → ℝ) (s : StStateC nl nk ni) (i : Fin ni)
    (l : Fin nl) : ℝ :=
  Real.log (s.pk0 (d.G 0 i).val l) + lnvar (d.y i).y2 (s.mean d l 0 i) (s.var d l 0 i) +
    lnvar ((d.y i).y3 - s.r.R32 * ((d.y i).y2 - s.mean d l 0 i)) (s.mean d l 1 i)
      (s.var d l 1 i + s.r.R32 ^ 2 * s.var d l 0 i) + stable i l

/-- One iteration from the posteriors on, blm_dynamic.py:3128-3636. -/
noncomputable def stepStC [NeZero nl] (d : DData ni nk) (o : StOpts) (sA sS : QP (Fin nl × JS nk)) (iter : ℕ)
    (q : Fin ni → Fin nl → ℝ) (s : StStateC nl nk ni) : Py (StStateC nl nk ni) := do
  let pk0 ← nextPk o.updPk nk (fun i => (d.G 0 i).val) q o.dprior s.pk0
  if o.updRho && iter % 2 == 1 then
    let rho := update32s d.y (fun i l p => if p = .p2s then s.mean d l 0 i else s.mean d l 1 i)
      (fun i l p => if p = .p2s then s.var d l 0 i else s.var d l 1 i) s.r q
    .ok { s with pk0 := pk0, r := { s.r with R32 := rho } }
  else if o.updA || o.updS then do
    let x ← mstepStC d q s.base s.r o.updA o.updS o.δ sA sS s.cols s.asum
    .ok { s with pk0 := pk0, base := x.1, cols := x.2.1, asum := x.2.2 }
  else .ok { s with pk0 := pk0 }

/-- One iteration with categorical controls, blm_dynamic.py:3048-3636; `A_sum` is computed in the first one (3053-3054). -/
noncomputable def passStC [NeZero nl] (d : DData ni nk) (o : StOpts) (sA sS : QP (Fin nl × JS nk))
    (stable : Fin ni → Fin nl → ℝ) (iter : ℕ) (x : Option ℝ × StStateC nl nk ni) :
    Pass (Option ℝ × StStateC nl nk ni) (Option ℝ × StStateC nl nk ni) :=
  let s : StStateC nl nk ni := { x.2 with asum := if iter == 0 then sumNonSt x.2.cols else x.2.asum }
  let lp := lpStC d stable s
  let lik := likOf lp nk s.pk0 (iter == 0) o.updPk o.dprior
  let s' := { s with liks := s.liks ++ [lik] }
  if close lik x.1 o.thresholdMovers then .done (x.1, s')
  else .go 0 (do
    let s'' ← stepStC d o sA sS iter (posterior lp) s'
    pure (some lik, s''))

/-- `fit_stayers` with categorical controls, blm_dynamic.py:2906-3668: after the loop the parameters are normalised
(3650-3653), for the lowest firm type `minT`; `cats` are the controls' parameters of all periods, and `back` takes the
normalised ones apart again.  `_normalize` raises before it changes anything (1636-1639). -/
noncomputable def stayersCallC [NeZero nl] (d : DData ni nk) (o : StOpts) (sA sS : QP (Fin nl × JS nk))
    (stable : Fin ni → Fin nl → ℝ) (pp : Primary) (minT : DBase nl nk → Fin nk)
    (cats : List (StCol nl ni) → List (CatPar nl)) (back : List (CatPar nl) → List (StCol nl ni) → List (StCol nl ni))
    (fuel : ℕ) (rq : Bool) (m : StStateC nl nk ni) : Py (Option (Fin ni → Fin nl → ℝ)) × StStateC nl nk ni :=
  if rq then (.ok (some (posterior (lpStC d stable { m with asum := sumNonSt m.cols }))), m)
  else
    match runHeap (passStC d o sA sS stable) (fun x => (x.2.base, x.2.cols)) fuel 0 (none, { m with liks := [] }) with
    | (.error s, h) => (.error s, { m with base := h.1, cols := h.2 })
    | (.ok x, h) =>
      match normalize pp (minT x.2.base) x.2.base (cats x.2.cols) with
      | .error s => (.error s, { m with base := h.1, cols := h.2 })
      | .ok z => (.ok none, { x.2 with base := z.1, cols := back z.2 x.2.cols, asum := m.asum })

/-! ## Specification -/

/-- All attributes other than `pk0` are the same. -/
def Spec.OnlyPk0 (m m' : DFit nl nk) : Prop :=
  m'.liks = m.liks ∧ m'.r = m.r ∧ m'.x.base = m.x.base ∧ m'.x.cs = m.x.cs ∧ m'.x.pk1 = m.x.pk1 ∧
    m'.x.NNm = m.x.NNm ∧ m'.x.NNs = m.x.NNs

/-! ## Movers -/

theorem dsort_pk0 (e : DFitEnv nl nk Q) (x : DAll nl nk) :
    ∃ w : Equiv.Perm (Fin nl), ∀ k l, (e.sort x).pk0 k l = x.pk0 k (w l) := by
  obtain ⟨w, f, hf, hr⟩ := C90_relabelling e.argsort e.primary false false x
  refine ⟨w, fun k l => ?_⟩
  have := hr.pk0 k l
  rw [hf rfl] at this
  exact this

/-- C120 (missing: `pk0` is left as it was; false as for the static model): after a call of `fit_movers` of the dynamic
model that raises, at whatever point (in the loop, in a cycle, in either normalisation), or that only returns posterior
probabilities, every attribute except `pk0` is what it was, and `pk0` has its rows' entries at most rearranged, all rows
in the same way. -/
theorem C120_dynamic_movers_partial (e : DFitEnv nl nk Q) (cols : Py Unit) (force rq nnm : Bool) (m : DFit nl nk)
    (h : BLM.Spec.NotFitted (dMoversCall e cols force rq nnm m).1) :
    Spec.OnlyPk0 m (dMoversCall e cols force rq nnm m).2 ∧
      ∃ w : Equiv.Perm (Fin nl), ∀ k l, (dMoversCall e cols force rq nnm m).2.x.pk0 k l = m.x.pk0 k (w l) := by
  obtain ⟨w, hw⟩ := dsort_pk0 e m.x
  have h0 : Spec.OnlyPk0 m m ∧ ∃ w : Equiv.Perm (Fin nl), ∀ k l, m.x.pk0 k l = m.x.pk0 k (w l) :=
    ⟨⟨rfl, rfl, rfl, rfl, rfl, rfl, rfl⟩, Equiv.refl _, fun _ _ => rfl⟩
  unfold dMoversCall at h ⊢
  cases force with
  | true => simp only [if_true]; exact h0
  | false =>
    simp only [Bool.false_eq_true, if_false] at h ⊢
    cases cols with
    | error s => exact h0
    | ok u =>
      simp only at h ⊢
      cases rq with
      | true => simp only [if_true]; exact ⟨⟨rfl, rfl, rfl, rfl, rfl, rfl, rfl⟩, w, hw⟩
      | false =>
        simp only [Bool.false_eq_true, if_false] at h ⊢
        cases hem : e.em (e.sort m.x) m.r with
        | error s => exact ⟨⟨rfl, rfl, rfl, rfl, rfl, rfl, rfl⟩, w, hw⟩
        | ok o =>
          cases o with
          | stuck => exact ⟨⟨rfl, rfl, rfl, rfl, rfl, rfl, rfl⟩, w, hw⟩
          | finished z =>
            obtain ⟨y, r, liks⟩ := z
            simp only [hem] at h ⊢
            cases hn : e.norm { y with pk0 := (e.sort m.x).pk0 } with
            | error s => exact ⟨⟨rfl, rfl, rfl, rfl, rfl, rfl, rfl⟩, w, hw⟩
            | ok y1 =>
              simp only [hn] at h ⊢
              obtain ⟨w2, hw2⟩ := dsort_pk0 e { y1 with pk0 := (e.sort m.x).pk0 }
              cases hn2 : e.norm (e.sort { y1 with pk0 := (e.sort m.x).pk0 }) with
              | error s =>
                refine ⟨⟨rfl, rfl, rfl, rfl, rfl, rfl, rfl⟩, w2.trans w, fun k l => ?_⟩
                simp only
                rw [hw2]
                exact hw k (w2 l)
              | ok y3 =>
                simp only [hn2] at h
                rcases h with ⟨s, h⟩ | ⟨q, h⟩ <;> cases h

/-- C120: an estimation of movers that has completed is lost when the normalisation raises, as it does with categorical
controls none of which varies over time and interacts with worker types (`C54_raises`): the call raises, and the
estimates and their likelihoods are not stored. -/
theorem C120_dynamic_movers_lost (e : DFitEnv nl nk Q) (nnm : Bool) (m : DFit nl nk) (y : DAll nl nk) (r : Rhos)
    (liks : List ℝ) (h : e.em (e.sort m.x) m.r = .ok (.finished (y, r, liks)))
    (hn : ∀ z, e.norm z = .error "KeyError") :
    (dMoversCall e (.ok ()) false false nnm m).1 = .error "KeyError" ∧
      (dMoversCall e (.ok ()) false false nnm m).2.x.base = m.x.base ∧
      (dMoversCall e (.ok ()) false false nnm m).2.liks = m.liks := by
  unfold dMoversCall
  simp only [Bool.false_eq_true, if_false, h, hn]
  exact ⟨trivial, trivial, trivial⟩

/-- C120: a call that returns `None` has completed the estimation and both normalisations, and the model then has
their result: the parameters of the second normalisation with `pk0` in the same order, and the persistence parameters
and likelihoods of the loop; the counts are renewed if asked for. -/
theorem C120_dynamic_movers_complete (e : DFitEnv nl nk Q) (cols : Py Unit) (force rq nnm : Bool) (m : DFit nl nk)
    (h : (dMoversCall e cols force rq nnm m).1 = .ok none) :
    let m' := (dMoversCall e cols force rq nnm m).2
    force = false ∧ rq = false ∧ cols = .ok () ∧ ∃ y y1 y3, ∃ w w2 : Equiv.Perm (Fin nl),
      e.em (e.sort m.x) m.r = .ok (.finished (y, m'.r, m'.liks)) ∧ (∀ k l, (e.sort m.x).pk0 k l = m.x.pk0 k (w l)) ∧
      e.norm { y with pk0 := (e.sort m.x).pk0 } = .ok y1 ∧ e.norm (e.sort { y1 with pk0 := (e.sort m.x).pk0 }) = .ok y3 ∧
      m'.x.base = y3.base ∧ m'.x.cs = y3.cs ∧ m'.x.pk1 = y3.pk1 ∧ (∀ k l, m'.x.pk0 k l = (e.sort m.x).pk0 k (w2 l)) ∧
      m'.x.NNm = (if nnm then e.counts else m.x.NNm) ∧ m'.x.NNs = m.x.NNs := by
  obtain ⟨w, hw⟩ := dsort_pk0 e m.x
  unfold dMoversCall at *
  cases force with
  | true =>
    exfalso
    simp only [if_true] at h
    split at h
    · cases h
    · split at h <;> cases h
  | false =>
    simp only [Bool.false_eq_true, if_false] at h ⊢
    cases cols with
    | error s => simp at h
    | ok _ =>
      cases rq with
      | true => simp at h
      | false =>
        simp only [Bool.false_eq_true, if_false] at h ⊢
        cases hem : e.em (e.sort m.x) m.r with
        | error s => simp [hem] at h
        | ok o =>
          cases o with
          | stuck => simp [hem] at h
          | finished x =>
            obtain ⟨y, r, liks⟩ := x
            simp only [hem] at h ⊢
            cases hn : e.norm { y with pk0 := (e.sort m.x).pk0 } with
            | error s => simp [hn] at h
            | ok y1 =>
              simp only [hn] at h ⊢
              obtain ⟨w2, hw2⟩ := dsort_pk0 e { y1 with pk0 := (e.sort m.x).pk0 }
              cases hn2 : e.norm (e.sort { y1 with pk0 := (e.sort m.x).pk0 }) with
              | error s => simp [hn2] at h
              | ok y3 =>
                exact ⟨trivial, trivial, trivial, y, y1, y3, w, w2, rfl, hw, hn, hn2, rfl, rfl, rfl, hw2, rfl, rfl⟩

/-- Witness for the theorems on movers: estimations that raise, complete, and complete but cannot be normalised. -/
example (a : Argsort) (x : DAll 2 2) (r : Rhos) :
    let e (em : Py (Outcome (DAll 2 2 × Rhos × List ℝ))) (n : DAll 2 2 → Py (DAll 2 2)) : DFitEnv 2 2 Unit :=
      ⟨a, .first, fun _ _ => em, n, fun _ _ => (), fun _ _ => 1⟩
    BLM.Spec.NotFitted (dMoversCall (e (.error "ValueError") .ok) (.ok ()) false false true ⟨x, r, []⟩).1 ∧
    (dMoversCall (e (.ok (.finished (x, r, [1]))) .ok) (.ok ()) false false true ⟨x, r, []⟩).1 = .ok none ∧
    ∀ z, (e (.ok (.finished (x, r, [1]))) fun _ => .error "KeyError").norm z = .error "KeyError" :=
  ⟨Or.inl ⟨_, rfl⟩, rfl, fun _ => rfl⟩

/-! ## Stayers -/

theorem runHeap_fst_eq_loopSt [NeZero nl] (d : DData ni nk) (o : StOpts) (sA sS : QP (Fin nl × JS nk))
    {β : Type} (heap : Option ℝ × StState nl nk → β) (fuel : ℕ) : ∀ (iter : ℕ) (prev : Option ℝ) (s : StState nl nk),
    loopSt d o sA sS fuel iter prev s =
      (runHeap (passSt d o sA sS) heap fuel iter (prev, s)).1.map (·.2) := by
  induction fuel with
  | zero => intros; rfl
  | succ fuel ih =>
    intro iter prev s
    unfold loopSt runHeap passSt
    simp only
    generalize close _ prev _ = c
    cases c with
    | true => rfl
    | false =>
      simp only [Bool.false_eq_true, if_false, bind, Except.bind, pure, Except.pure]
      generalize stepSt _ _ _ _ _ _ _ = z
      cases z with
      | error x => rfl
      | ok s'' =>
        simp only
        exact ih _ _ _

theorem runHeap_fst {σ β : Type} (pass : ℕ → σ → Pass σ σ) (heap : σ → β) (fuel : ℕ) : ∀ (iter : ℕ) (s : σ),
    (runHeap pass heap fuel iter s).1 = runLoop pass id fuel iter s := by
  induction fuel with
  | zero => intros; rfl
  | succ fuel ih =>
    intro iter s
    unfold runHeap runLoop
    cases pass iter s with
    | done r => rfl
    | go n next =>
      cases next with
      | error x => rfl
      | ok s' => simp only [bind, Except.bind]; exact ih _ _

theorem runHeap_ok {σ β : Type} (pass : ℕ → σ → Pass σ σ) (heap : σ → β) (fuel : ℕ) : ∀ (iter : ℕ) (s r : σ),
    (runHeap pass heap fuel iter s).1 = .ok r → (runHeap pass heap fuel iter s).2 = heap r := by
  induction fuel with
  | zero =>
    intro iter s r h
    simp only [runHeap, Except.ok.injEq] at h ⊢
    rw [h]
  | succ fuel ih =>
    intro iter s r h
    unfold runHeap at h ⊢
    cases hp : pass iter s with
    | done x =>
      simp only [hp, Except.ok.injEq] at h ⊢
      rw [h]
    | go m next =>
      cases next with
      | error x => simp only [hp] at h; cases h
      | ok s' =>
        simp only [hp] at h ⊢
        exact ih _ _ _ h

theorem runHeap_safe {σ β : Type} (pass : ℕ → σ → Pass σ σ) (heap : σ → β)
    (hp : ∀ iter s m x, pass iter s ≠ .go m (.error x)) (fuel : ℕ) : ∀ (iter : ℕ) (s : σ) (x : String),
    (runHeap pass heap fuel iter s).1 ≠ .error x := by
  induction fuel with
  | zero => intro iter s x h; cases h
  | succ fuel ih =>
    intro iter s x h
    unfold runHeap at h
    cases hps : pass iter s with
    | done y => simp only [hps] at h; cases h
    | go m next =>
      cases next with
      | error y => exact hp _ _ _ _ hps
      | ok s' =>
        simp only [hps] at h
        exact ih _ _ _ h

theorem nextPk_error [NeZero nl] (upd : Bool) (κ : Fin ni → ℕ) (dp : ℝ) (lp : Fin ni → Fin nl → ℝ) (old : ℕ → Fin nl → ℝ) :
    (∃ x, nextPk upd nk κ (posterior lp) dp old = .error x) ↔
      upd = true ∧ ∃ p < nk, (#{i | κ i = p} : ℝ) * (1 + nl * (dp - 1)) = 0 := by
  unfold nextPk updatePk
  simp only [sumPk_total κ _ (posterior_sum lp)]
  cases upd with
  | false => simp
  | true =>
    simp only [if_true, true_and]
    split
    · rename_i h
      exact ⟨fun _ => h, fun _ => ⟨_, rfl⟩⟩
    · rename_i h
      exact ⟨fun ⟨x, hx⟩ => (by cases hx), fun h' => absurd h' h⟩

theorem stepSt_error (d : DData ni nk) (o : StOpts) (sA sS : QP (Fin nl × JS nk)) (iter : ℕ) (q : Fin ni → Fin nl → ℝ)
    (s : StState nl nk) (x : String) :
    stepSt d o sA sS iter q s = .error x ↔ nextPk o.updPk nk (fun i => (d.G 0 i).val) q o.dprior s.pk0 = .error x := by
  unfold stepSt
  simp only [bind, Except.bind]
  cases nextPk o.updPk nk (fun i => (d.G 0 i).val) q o.dprior s.pk0 with
  | error y => simp
  | ok pk =>
    simp only
    split
    · simp
    · split <;> simp

/-- C120: `fit_stayers` of the dynamic model without controls, although it writes into the attributes `A` and `S` while
it runs, leaves the model as it was if it raises or only returns posterior probabilities: the one exception there is
depends on the data and the prior only, so it comes in the first iteration, before anything is written, or never. -/
theorem C120_dynamic_stayers [NeZero nl] (d : DData ni nk) (o : StOpts) (sA sS : QP (Fin nl × JS nk)) (fuel : ℕ)
    (rq : Bool) (m : StState nl nk) (h : BLM.Spec.NotFitted (stayersCallPlain d o sA sS fuel rq m).1) :
    (stayersCallPlain d o sA sS fuel rq m).2 = m := by
  unfold stayersCallPlain at h ⊢
  cases rq with
  | true => rfl
  | false =>
    simp only [Bool.false_eq_true, if_false] at h ⊢
    rcases hr : runHeap (passSt d o sA sS) (fun x => x.2.base) fuel 0 (none, { m with liks := [] }) with ⟨res, b⟩
    rw [hr] at h
    cases res with
    | ok x =>
      simp only at h
      rcases h with ⟨s, h⟩ | ⟨q, h⟩ <;> cases h
    | error s =>
      simp only
      by_cases hbad : o.updPk = true ∧ ∃ p < nk, (#{i | (d.G 0 i).val = p} : ℝ) * (1 + nl * (o.dprior - 1)) = 0
      · cases fuel with
        | zero => cases hr
        | succ fuel =>
          have hp : ∃ x, passSt d o sA sS 0 (none, { m with liks := [] }) = .go 0 (.error x) := by
            unfold passSt
            simp only [close, Bool.false_eq_true, if_false]
            obtain ⟨x, hx⟩ := (nextPk_error o.updPk (fun i => (d.G 0 i).val) o.dprior (lpSt d m.base m.r m.pk0)
              m.pk0).mpr hbad
            refine ⟨x, ?_⟩
            have he := fun z => (stepSt_error d o sA sS 0 (posterior (lpSt d m.base m.r m.pk0))
              { m with liks := z } x).mpr hx
            simp only [he]
            rfl
          obtain ⟨x, hx⟩ := hp
          rw [runHeap, hx] at hr
          simp only [Prod.mk.injEq] at hr
          rw [← hr.2]
      · exfalso
        refine runHeap_safe (passSt d o sA sS) (fun x => x.2.base) ?_ fuel 0 (none, { m with liks := [] }) s (by rw [hr])
        intro iter z n x hx
        unfold passSt at hx
        simp only at hx
        split at hx
        · cases hx
        · simp only [Pass.go.injEq] at hx
          obtain ⟨-, hx⟩ := hx
          simp only [bind, Except.bind, pure, Except.pure] at hx
          split at hx
          · rename_i y hy
            exact hbad ((nextPk_error o.updPk (fun i => (d.G 0 i).val) o.dprior _ _).mp
              ⟨y, (stepSt_error d o sA sS iter _ _ y).mp hy⟩)
          · cases hx

/-- Witness: stayers of one firm type of two; the call raises. -/
example (sA sS : QP (Fin 1 × JS 2)) (m : StState 1 2) : ∃ s, (stayersCallPlain (nl := 1)
    (⟨fun _ => ⟨1, 2, 3, 4⟩, fun _ _ => 0⟩ : DData 3 2) ⟨true, true, true, true, 1.0001, 0, 0, 1⟩ sA sS 5 false m).1 =
      .error s := by
  obtain ⟨x, hx⟩ := (nextPk_error (nk := 2) true (fun i : Fin 3 => (0 : Fin 2).val) 1.0001
    (lpSt (⟨fun _ => ⟨1, 2, 3, 4⟩, fun _ _ => 0⟩ : DData 3 2) m.base m.r m.pk0) m.pk0).mpr
      ⟨rfl, 1, by norm_num, by simp⟩
  refine ⟨x, ?_⟩
  unfold stayersCallPlain
  simp only [Bool.false_eq_true, if_false, runHeap]
  rw [passSt]
  simp only [close, Bool.false_eq_true, if_false]
  rw [(stepSt_error _ _ sA sS 0 _ _ x).mpr hx]
  rfl

/-! ### With categorical controls -/

theorem colLoopSt_none [NeZero nl] (d : DData ni nk) (q : Fin ni → Fin nl → ℝ) (b : DBase nl nk) (r : Rhos)
    (updA : Bool) (δ : ℝ) (al : Fin nl → Fin 2 → Fin ni → ℝ) (asum : Fin 2 → Fin ni → ℝ) (k : StCol nl ni) x
    (h : colStepSt d q b r updA δ none al asum k = .ok x) : x.2 = k := by
  unfold colStepSt at h
  simp only at h
  split at h
  · split at h
    · cases h
    · simp only [Except.ok.injEq] at h; rw [← h]
    · simp only [Except.ok.injEq] at h; rw [← h]
  · simp only [Except.ok.injEq] at h; rw [← h]

theorem colLoopSt_some [NeZero nl] (d : DData ni nk) (q : Fin ni → Fin nl → ℝ) (b : DBase nl nk) (r : Rhos)
    (updA : Bool) (δ : ℝ) (res : Option (Fin nl × JS nk → ℝ)) (ks : List (StCol nl ni)) :
    ∀ (asum : Fin 2 → Fin ni → ℝ) (pre : List (StCol nl ni)) (s : String),
      colLoopSt d q b r updA δ res asum pre ks = .error s → res = none ∧ updA = true := by
  induction ks with
  | nil => intro asum pre s h; cases h
  | cons k ks ih =>
    intro asum pre s h
    unfold colLoopSt at h
    simp only [bind, Except.bind] at h
    cases hc : colStepSt d q b r updA δ res (sumBySt (pre ++ k :: ks)) asum k with
    | ok x => simp only [hc] at h; exact ih _ _ _ h
    | error y =>
      unfold colStepSt at hc
      simp only at hc
      split at hc
      · rename_i hu
        split at hc
        · cases res with
          | none => exact ⟨rfl, hu⟩
          | some x => simp only at hc; split at hc <;> cases hc
        · cases hc
        · cases hc
      · cases hc

/-- An update of stayers' parameters that raises has written nothing: either the order of a control's columns raised
first, or the main regression had no solution, so that `A` was left alone, and so was every control before the one that
raised (`colLoopSt_none`). -/
theorem mstepStC_error [NeZero nl] (d : DData ni nk) (q : Fin ni → Fin nl → ℝ) (b : DBase nl nk) (r : Rhos)
    (updA updS : Bool) (δ : ℝ) (sA sS : QP (Fin nl × JS nk)) (ks : List (StCol nl ni)) (asum : Fin 2 → Fin ni → ℝ)
    (s : String) (h : mstepStC d q b r updA updS δ sA sS ks asum = .error s) :
    ordersSt nl nk ks = .error s ∨
      (let v := XwV (wSt d b r q) (Xst d r) fun l s => netSt (d.y s.2) r (fun t => asum t s.2 + sumBySt ks l t s.2) s.1
      solveASt sA (XwX (wSt d b r q) (Xst d r) δ) v b = b ∧ baseRes sA (XwX (wSt d b r q) (Xst d r) δ) v = none) := by
  unfold mstepStC at h
  cases ho : ordersSt nl nk ks with
  | error y =>
    simp only [ho, bind, Except.bind, Except.error.injEq] at h
    exact Or.inl (by rw [h])
  | ok u =>
    right
    simp only [ho, bind, Except.bind] at h
    intro v
    split at h
    · rename_i y hy
      obtain ⟨hres, -⟩ := colLoopSt_some _ _ _ _ _ _ _ _ _ _ _ hy
      refine ⟨?_, hres⟩
      unfold baseRes at hres
      unfold solveASt
      split at hres
      · rename_i x hx
        subst hres
        rw [hx]
      · rename_i e hx
        rw [hx]
    · cases h

/-- C120: a call for stayers without controls that returns `None` leaves the model with the result of the loop. -/
theorem C120_dynamic_stayers_complete [NeZero nl] (d : DData ni nk) (o : StOpts) (sA sS : QP (Fin nl × JS nk))
    (fuel : ℕ) (rq : Bool) (m : StState nl nk) (h : (stayersCallPlain d o sA sS fuel rq m).1 = .ok none) :
    rq = false ∧ loopSt d o sA sS fuel 0 none { m with liks := [] } = .ok (stayersCallPlain d o sA sS fuel rq m).2 := by
  unfold stayersCallPlain at *
  cases rq with
  | true => simp at h
  | false =>
    simp only [Bool.false_eq_true, if_false] at h ⊢
    rw [runHeap_fst_eq_loopSt d o sA sS (fun x => x.2.base)]
    rcases hr : runHeap (passSt d o sA sS) (fun x => x.2.base) fuel 0 (none, { m with liks := [] }) with ⟨res, b⟩
    rw [hr] at h
    cases res with
    | error s => simp at h
    | ok x => exact ⟨trivial, rfl⟩

/-- C120: with categorical controls a call that returns `None` leaves the model with the normalised parameters of the
end of the loop, and its persistence, proportions and likelihoods. -/
theorem C120_dynamic_stayers_controls_complete [NeZero nl] (d : DData ni nk) (o : StOpts)
    (sA sS : QP (Fin nl × JS nk)) (stable : Fin ni → Fin nl → ℝ) (pp : Primary) (minT : DBase nl nk → Fin nk)
    (cats : List (StCol nl ni) → List (CatPar nl)) (back : List (CatPar nl) → List (StCol nl ni) → List (StCol nl ni))
    (fuel : ℕ) (rq : Bool) (m : StStateC nl nk ni)
    (h : (stayersCallC d o sA sS stable pp minT cats back fuel rq m).1 = .ok none) :
    let m' := (stayersCallC d o sA sS stable pp minT cats back fuel rq m).2
    rq = false ∧ ∃ p s cs, runLoop (passStC d o sA sS stable) id fuel 0 (none, { m with liks := [] }) = .ok (p, s) ∧
      normalize pp (minT s.base) s.base (cats s.cols) = .ok (m'.base, cs) ∧ m'.cols = back cs s.cols ∧
      m'.r = s.r ∧ m'.pk0 = s.pk0 ∧ m'.liks = s.liks := by
  unfold stayersCallC at *
  cases rq with
  | true => simp at h
  | false =>
    simp only [Bool.false_eq_true, if_false] at h ⊢
    have h1 := runHeap_fst (passStC d o sA sS stable) (fun x => (x.2.base, x.2.cols)) fuel 0 (none, { m with liks := [] })
    rcases hr : runHeap (passStC d o sA sS stable) (fun x => (x.2.base, x.2.cols)) fuel 0
      (none, { m with liks := [] }) with ⟨res, hp⟩
    rw [hr] at h h1
    cases res with
    | error s => simp at h
    | ok x =>
      simp only at h h1 ⊢
      cases hn : normalize pp (minT x.2.base) x.2.base (cats x.2.cols) with
      | error s => simp [hn] at h
      | ok z => exact ⟨trivial, x.1, x.2, z.2, h1.symm, hn, rfl, rfl, rfl, rfl⟩

/-- C120 (missing: the parameters of the two periods of stayers are left as they were; false, `C120_dynamic_half_done`):
after a call of `fit_stayers` with categorical controls that raises, `R32s`, `pk0` and the likelihoods are what they
were; if it only returns posterior probabilities nothing changes. -/
theorem C120_dynamic_stayers_partial [NeZero nl] (d : DData ni nk) (o : StOpts) (sA sS : QP (Fin nl × JS nk))
    (stable : Fin ni → Fin nl → ℝ) (pp : Primary) (minT : DBase nl nk → Fin nk)
    (cats : List (StCol nl ni) → List (CatPar nl)) (back : List (CatPar nl) → List (StCol nl ni) → List (StCol nl ni))
    (fuel : ℕ) (rq : Bool) (m : StStateC nl nk ni)
    (h : BLM.Spec.NotFitted (stayersCallC d o sA sS stable pp minT cats back fuel rq m).1) :
    let m' := (stayersCallC d o sA sS stable pp minT cats back fuel rq m).2
    m'.r = m.r ∧ m'.pk0 = m.pk0 ∧ m'.liks = m.liks ∧ (rq = true → m' = m) := by
  intro m'
  have hm' : m' = (stayersCallC d o sA sS stable pp minT cats back fuel rq m).2 := rfl
  unfold stayersCallC at h hm'
  cases rq with
  | true =>
    simp only [if_true] at hm'
    rw [hm']
    exact ⟨rfl, rfl, rfl, fun _ => rfl⟩
  | false =>
    simp only [Bool.false_eq_true, if_false] at h hm'
    rcases hr : runHeap (passStC d o sA sS stable) (fun x => (x.2.base, x.2.cols)) fuel 0
      (none, { m with liks := [] }) with ⟨res, hp⟩
    rw [hr] at h hm'
    cases res with
    | error s =>
      simp only at hm'
      rw [hm']
      exact ⟨rfl, rfl, rfl, fun h => by cases h⟩
    | ok x =>
      simp only at h hm'
      cases hn : normalize pp (minT x.2.base) x.2.base (cats x.2.cols) with
      | error s =>
        rw [hn] at hm'
        simp only at hm'
        rw [hm']
        exact ⟨rfl, rfl, rfl, fun h => by cases h⟩
      | ok z =>
        rw [hn] at h
        simp only at h
        rcases h with ⟨s, h⟩ | ⟨q, h⟩ <;> cases h

/-- C120 (wrong): with categorical controls none of which varies over time and interacts with worker types (and which
are not called `12` and `43`), a completed estimation of stayers raises in the end; the model then has the new `A`, `S`
and control effects of the last iteration, and the old `R32s`, `pk0` and likelihoods. -/
theorem C120_dynamic_half_done [NeZero nl] (d : DData ni nk) (o : StOpts) (sA sS : QP (Fin nl × JS nk))
    (stable : Fin ni → Fin nl → ℝ) (pp : Primary) (minT : DBase nl nk → Fin nk)
    (cats : List (StCol nl ni) → List (CatPar nl)) (back : List (CatPar nl) → List (StCol nl ni) → List (StCol nl ni))
    (fuel : ℕ) (m : StStateC nl nk ni) (hne : ∀ ks, cats ks ≠ [])
    (hk : ∀ ks, ∀ c ∈ cats ks, c.wi = true → c.stationary = true) (h12 : ∀ ks, ∀ c ∈ cats ks, c.name ≠ "12")
    (p : Option ℝ) (s : StStateC nl nk ni)
    (hrun : runLoop (passStC d o sA sS stable) id fuel 0 (none, { m with liks := [] }) = .ok (p, s)) :
    stayersCallC d o sA sS stable pp minT cats back fuel false m =
      (.error "KeyError", { m with base := s.base, cols := s.cols }) := by
  have h1 := runHeap_fst (passStC d o sA sS stable) (fun x => (x.2.base, x.2.cols)) fuel 0 (none, { m with liks := [] })
  rw [hrun] at h1
  have h2 := runHeap_ok _ _ _ _ _ _ h1
  unfold stayersCallC
  simp only [Bool.false_eq_true, if_false]
  rcases hr : runHeap (passStC d o sA sS stable) (fun x => (x.2.base, x.2.cols)) fuel 0
      (none, { m with liks := [] }) with ⟨res, hp⟩
  rw [hr] at h1 h2
  simp only at h1 h2
  subst h1 h2
  simp only
  rw [C54_raises pp _ _ _ (hne _) (hk _) fun ⟨⟨c, hc, h⟩, _⟩ => h12 _ c hc h]

/-- A control with two categories that neither interacts nor has effects yet, and its parameters of all periods. -/
noncomputable def idleCol (sK : QP (Fin 1 × JS 2)) : StCol 1 1 :=
  ⟨2, false, fun _ _ => 0, fun _ _ _ => 0, fun _ _ _ => 1, fun _ _ => 0, fun _ _ => 1, sK, sK⟩

/-- One stayer, one worker type, two firm types; nothing estimated yet. -/
noncomputable def idleModel (sK : QP (Fin 1 × JS 2)) : StStateC 1 2 1 :=
  ⟨⟨fun _ _ _ => 0, fun _ _ => 0, fun _ _ _ => 1, fun _ _ => 0⟩, [idleCol sK], fun _ _ => 0, ⟨0, 0, 0⟩, fun _ _ => 1, []⟩

/-- C120 (wrong), an instance of `C120_dynamic_half_done` with right solvers: the means of stayers are constrained to be
at least 7, and there is one categorical control.  The call raises `KeyError`, and the model that had the means 0
has new means, without a likelihood. -/
theorem C120_dynamic_half_done_instance : ∃ (sA sS sK : QP (Fin 1 × JS 2)),
    RightQP (fun x => ∀ a, (7 : ℝ) ≤ x a) sA ∧ RightQP (fun _ => True) sK ∧
    (idleModel sK).base.Aw .p2s 0 0 = 0 ∧
    (let r := stayersCallC (nl := 1) (⟨fun _ => ⟨1, 2, 3, 4⟩, fun _ _ => 0⟩ : DData 1 2)
      ⟨true, false, false, false, 1, 0, 0, 1⟩ sA sS (fun _ _ => 0) .first (fun _ => 0)
      (fun _ => [⟨"cat", false, false, fun _ _ _ => 0, fun _ _ _ => 1, fun _ _ => 0, fun _ _ => 1⟩]) (fun _ ks => ks)
      1 false (idleModel sK)
    r.1 = .error "KeyError" ∧ 7 ≤ r.2.base.Aw .p2s 0 0 ∧ 7 ≤ r.2.base.Aw .p3s 0 1 ∧ r.2.liks = []) := by
  obtain ⟨sA, hA⟩ := rightQP_bound (Fin 1 × JS 2) 7
  obtain ⟨sK, hK⟩ := rightQP_free (Fin 1 × JS 2)
  refine ⟨sA, sA, sK, hA, hK, rfl, ?_⟩
  set d : DData 1 2 := ⟨fun _ => ⟨1, 2, 3, 4⟩, fun _ _ => 0⟩ with hd
  set o : StOpts := ⟨true, false, false, false, 1, 0, 0, 1⟩ with ho
  have hstep : ∀ (q : Fin 1 → Fin 1 → ℝ) (hq : ∀ i l, 0 ≤ q i l) (asum : Fin 2 → Fin 1 → ℝ), ∃ x,
      mstepStC d q (idleModel sK).base (idleModel sK).r true false 1 sA sA [idleCol sK] asum = .ok x ∧
        7 ≤ x.1.Aw .p2s 0 0 ∧ 7 ≤ x.1.Aw .p3s 0 1 := by
    intro q hq asum
    obtain ⟨x, hx⟩ := hA.complete (XwX (wSt d (idleModel sK).base (idleModel sK).r q) (Xst d (idleModel sK).r) 1)
      (fun a => - XwV (wSt d (idleModel sK).base (idleModel sK).r q) (Xst d (idleModel sK).r)
        (fun l s => netSt (d.y s.2) (idleModel sK).r (fun t => asum t s.2 + sumBySt [idleCol sK] l t s.2) s.1) a)
      (XwX_pdRidge _ _ _ (wSt_nonneg d _ _ q hq) one_pos) ⟨fun _ => 7, fun _ => le_rfl⟩
    have hf := (hA.sound _ _ _ hx).1
    unfold mstepStC
    rcases ordersSt_ok (nl := 1) (nk := 2) (by norm_num) one_pos [idleCol sK] with ⟨hor, -⟩ | ⟨-, k, hk, hn⟩
    swap
    · rw [List.mem_singleton] at hk
      rw [hk] at hn
      exact absurd rfl hn
    simp only [hor, bind, Except.bind, if_true, solveASt, baseRes, hx, Bool.false_eq_true, if_false]
    cases hc : colLoopSt d q { (idleModel sK).base with
        Aw := Function.update (Function.update (idleModel sK).base.Aw .p2s fun l k => x (l, 0, k)) .p3s
          fun l k => x (l, 1, k) } (idleModel sK).r true 1 (some x) asum [] [idleCol sK] with
    | error s => exact absurd (colLoopSt_some _ _ _ _ _ _ _ _ _ _ _ hc).1 (by simp)
    | ok z =>
      refine ⟨_, rfl, ?_, ?_⟩
      · simp [Function.update, hf]
      · simp [hf]
  obtain ⟨x, hx, h1, h2⟩ := hstep
    (posterior (lpStC d (fun _ _ => 0) { idleModel sK with asum := sumNonSt (idleModel sK).cols }))
    (fun i l => (posterior_pos _ i l).le) (sumNonSt (idleModel sK).cols)
  obtain ⟨p, s, hrun, hb⟩ : ∃ p s, runLoop (passStC d o sA sA fun _ _ => 0) id 1 0 (none, { idleModel sK with liks := [] })
      = .ok (p, s) ∧ s.base = x.1 := by
    simp only [runLoop]
    rw [passStC]
    simp only [close, Bool.false_eq_true, if_false, bind, Except.bind, stepStC, nextPk, ho, Bool.false_and, Bool.or_false,
      if_true, beq_self_eq_true]
    have hx' := hx
    unfold idleModel at hx' ⊢
    simp only [hx', pure, Except.pure]
    exact ⟨_, _, rfl, rfl⟩
  intro r
  have hr : r = _ := C120_dynamic_half_done d o sA sA (fun _ _ => 0) .first (fun _ => 0)
    (fun _ => [⟨"cat", false, false, fun _ _ _ => 0, fun _ _ _ => 1, fun _ _ => 0, fun _ _ => 1⟩]) (fun _ ks => ks) 1
    (idleModel sK) (by simp) (by simp) (by simp) p s hrun
  rw [hr]
  exact ⟨rfl, by simpa [hb] using h1, by simpa [hb] using h2, rfl⟩

end Pytwoway.Dynamic
