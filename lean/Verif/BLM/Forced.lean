import Verif.BLM.Controls
import Verif.BLM.Sort
import Verif.BLM.MStep
import Verif.BLMDyn.Controls

/-! # Cycles of the lowest firm type, and forcing it (C96): model

`BLMModel.fit_movers` and the part of `_fit_movers` around the EM loop, blm.py:1226-1382, 1437-1453 and
1919-1948; the same of `DynamicBLMModel`, blm_dynamic.py:1855-1909 and 2148-2163. -/

open Finset

namespace Pytwoway.BLM

variable {ni nl nk : ℕ}

/-- blm.py:1439-1445 with categorical controls and without forcing: is the estimator stuck, and the list of
lowest firm types kept. -/
def cycCheck (start nObs iter m : ℕ) (mins : List ℕ) : Bool × List ℕ :=
  if start ≤ iter then
    let mins := mins ++ [m]
    if nObs ≤ mins.length then
      let mins := if nObs < mins.length then mins.tail else mins
      ((mins.zip mins.tail).all fun p => p.1 != p.2, mins)
    else (false, mins)
  else (false, mins)

/-- One pass through the loop up to the check: it ends, or the lowest firm type is `m` and the rest of the pass
gives the next values.  Used for blm.py:1389-1899 and blm_dynamic.py:2008-2862. -/
inductive Pass (σ ρ : Type) where
  | done (r : ρ)
  | go (m : ℕ) (next : Py σ)

/-- How the loop can end: with a result, or stuck in a cycle (`store_res = False`, blm.py:1452). -/
inductive Outcome (ρ : Type) where
  | finished (r : ρ)
  | stuck

variable {σ ρ : Type}

/-- The loop without the check. -/
def runLoop (pass : ℕ → σ → Pass σ ρ) (out : σ → ρ) : (fuel iter : ℕ) → σ → Py ρ
  | 0, _, s => .ok (out s)
  | fuel + 1, iter, s =>
    match pass iter s with
    | .done r => .ok r
    | .go _ next => do
      let s' ← next
      runLoop pass out fuel (iter + 1) s'

/-- The loop with the check, blm.py:1389-1899 with 1439-1453. -/
def runCheck (pass : ℕ → σ → Pass σ ρ) (out : σ → ρ) (start nObs : ℕ) :
    (fuel iter : ℕ) → (mins : List ℕ) → σ → Py (Outcome ρ)
  | 0, _, _, s => .ok (.finished (out s))
  | fuel + 1, iter, mins, s =>
    match pass iter s with
    | .done r => .ok (.finished r)
    | .go m next =>
      if (cycCheck start nObs iter m mins).1 then .ok .stuck
      else do
        let s' ← next
        runCheck pass out start nObs fuel (iter + 1) (cycCheck start nObs iter m mins).2 s'

/-- One pass of the loop of the static model with controls, blm.py:1389-1899 (the body of `loopC`). -/
noncomputable def passC [NeZero nl] (d : Data ni nk) (o : MoverOpts) (sA : ℕ → Solver) (sS : Solver)
    (minType : (Fin 2 → Fin nl → Fin nk → ℝ) → ℕ) (iter : ℕ) (x : Option ℝ × ℕ × StateC ni nl nk) :
    Pass (Option ℝ × ℕ × StateC ni nl nk) (StateC ni nl nk) :=
  let s := x.2.2
  let cs := s.cols.map (·.c)
  let Asum := if iter == 0 then sumNonA cs else s.Asum
  let lp := lpMoversC d s.base cs Asum s.pk1
  let q := posterior lp
  let lik := meanLse lp +
    if !(iter == 0) && o.updPk then (o.dprior - 1) * ∑ p ∈ range (nk ^ 2), ∑ l, Real.log (s.pk1 p l) else 0
  let m := minType s.base.A
  let liks := s.liks ++ [lik]
  if stop lik x.1 o.threshold (m == x.2.1) then .done { s with Asum := Asum, liks := liks }
  else .go m (do
    let pk1 ← nextPk1 o.updPk d q o.dprior s.pk1
    let anyNon := s.cols.any fun k => !k.c.wi
    let Yadj := s.Yadj.getD (if anyNon then fun t i => d.Y t i - Asum t i else d.Y)
    let r ← mstepC d q s.base s.cols Yadj o.updA o.updS (sA m) sS
    let Asum' := if (o.updA || o.updS) && anyNon then fun t i => d.Y t i - r.2.2 t i else Asum
    pure (some lik, m, ⟨r.1, r.2.1, pk1, Asum', if o.updA || o.updS then some r.2.2 else none, liks⟩))

/-- The loop of the static model with the check. -/
noncomputable def loopCyc [NeZero nl] (d : Data ni nk) (o : MoverOpts) (sA : ℕ → Solver) (sS : Solver)
    (minType : (Fin 2 → Fin nl → Fin nk → ℝ) → ℕ) (start nObs fuel : ℕ) (s : StateC ni nl nk) :
    Py (Outcome (StateC ni nl nk)) :=
  runCheck (passC d o sA sS minType) (·.2.2) start nObs fuel 0 [] (none, minType s.base.A, s)

/-! ## `fit_movers` -/

/-- blm.py:1267-1269. -/
noncomputable def better {M : Type} (lik : M → ℝ) (best : Option M) (m : M) : M :=
  open scoped Classical in
  match best with
  | none => m
  | some b => if lik b < lik m then m else b

/-- The loop of blm.py:1243-1269 over the remaining types `ks`: the model with the highest likelihood so far. -/
noncomputable def bestOf {M : Type} (fit : ℕ → Py M) (lik : M → ℝ) : List ℕ → Option M → Py (Option M)
  | [], best => .ok best
  | k :: ks, best => do
    let m ← fit k
    bestOf fit lik ks (some (better lik best m))

/-- blm.py:1241-1269; without any firm type the attributes of `None` would be read (1271). -/
noncomputable def forced {M : Type} (fit : ℕ → Py M) (lik : M → ℝ) (nk : ℕ) : Py M := do
  match ← bestOf fit lik (List.range nk) none with
  | some m => pure m
  | none => .error "AttributeError"

/-- What the wrapper needs from the rest: the EM loop by the firm type that is forced (`none`: not forced), as a
function of the sorted parameters (it does not touch `pk0` and the counts); `_normalize`, blm.py:1920-1931; the
settings of `_sort_parameters`; and the counts of blm.py:1278 and 1948. -/
structure Env (ni nl nk : ℕ) where
  em : Option ℕ → AllParams ni nl nk → Py (Outcome (AllParams ni nl nk × List ℝ))
  norm : AllParams ni nl nk → AllParams ni nl nk
  argsort : Argsort
  primary : Primary
  sortF : Bool
  reverse : Bool
  counts : Fin nk → Fin nk → ℝ

/-- A fitted model: its parameters and `liks1`.  Used for blm.py:1417-1426 and blm.py:1439. -/
structure Fitted (ni nl nk : ℕ) where
  p : AllParams ni nl nk
  liks : List ℝ

/-- `lik1`, the last entry of `liks1` (blm.py:1417-1426; `n_iters_movers` is at least 1). -/
noncomputable def Fitted.lik (f : Fitted ni nl nk) : ℝ := f.liks.getLastD 0

/-- `_sort_parameters` with the settings of the model.  Used for blm.py:1919-1931 and blm.py:1439. -/
noncomputable def Env.sort (e : Env ni nl nk) (p : AllParams ni nl nk) : AllParams ni nl nk :=
  sortParams e.argsort e.primary e.sortF e.reverse p

/-- blm.py:1919-1931. -/
noncomputable def Env.tidy (e : Env ni nl nk) (p : AllParams ni nl nk) : AllParams ni nl nk :=
  e.norm (e.sort (e.norm p))

/-- `_fit_movers(compute_NNm=False, min_firm_type=k)` with forcing: the check is off, blm.py:1439; the initial
values are sorted first, blm.py:1377. -/
noncomputable def fitK (e : Env ni nl nk) (k : ℕ) (p : AllParams ni nl nk) : Py (Fitted ni nl nk) := do
  match ← e.em (some k) (e.sort p) with
  | .finished (r, liks) => pure ⟨e.tidy { r with pk0 := (e.sort p).pk0 }, liks⟩
  | .stuck => .error "unreachable"

/-- `fit_movers` with `force_min_firm_type`, blm.py:1238-1278.  `p` are the parameters of the model.  The copied
attributes do not include `pk0`; the constructor of each model sets its own to `1 / nl`, blm.py:622. -/
noncomputable def fitForced (e : Env ni nl nk) (returnQi nnm : Bool) (p : AllParams ni nl nk) :
    Py (Fitted ni nl nk) :=
  if returnQi then .error "ValueError" else do
    let b ← forced (fun k => fitK e k { p with pk0 := fun _ _ => 1 / (nl : ℝ) }) Fitted.lik nk
    pure ⟨{ b.p with pk0 := p.pk0, NNm := if nnm then e.counts else p.NNm, NNs := p.NNs }, b.liks⟩

/-- `fit_movers`, blm.py:1226-1287 with 1284-1948: the result and the setting `force_min_firm_type` afterwards
(`returnQi` is left out without forcing).  A loop that is stuck switches the setting on, calls `fit_movers` and
switches it off again (1448-1450); by then `self.pk0` has been sorted (1377) and nothing else stored. -/
noncomputable def fitMoversAll (e : Env ni nl nk) (force returnQi nnm : Bool) (p : AllParams ni nl nk) :
    Py (Fitted ni nl nk) × Bool :=
  if force then (fitForced e returnQi nnm p, true)
  else
    match e.em none (e.sort p) with
    | .error x => (.error x, false)
    | .ok .stuck =>
      match fitForced e returnQi nnm { p with pk0 := (e.sort p).pk0 } with
      | .error x => (.error x, true)
      | .ok r => (.ok r, false)
    | .ok (.finished (r, liks)) =>
      let t := e.tidy { r with pk0 := (e.sort p).pk0 }
      (.ok ⟨{ t with NNm := if nnm then e.counts else p.NNm, NNs := p.NNs }, liks⟩, false)

/-- The EM loop of the static model with controls as the `em` of the wrapper.  `cols` has the constraints, the
sizes and the flags of the columns; the current effects are those of the parameters. -/
noncomputable def emC [NeZero nl] (d : Data ni nk) (o : MoverOpts) (sA : ℕ → Solver) (sS : Solver)
    (minType : (Fin 2 → Fin nl → Fin nk → ℝ) → ℕ) (start nObs fuel : ℕ) (cols : List (Col ni nl))
    (k : Option ℕ) (p : AllParams ni nl nk) : Py (Outcome (AllParams ni nl nk × List ℝ)) :=
  let s : StateC ni nl nk :=
    ⟨p.base, (cols.zip p.cs).map fun x => { x.1 with c := x.2 }, p.pk1, fun _ _ => 0, none, []⟩
  let back := fun s' : StateC ni nl nk =>
    ({ p with base := s'.base, cs := s'.cols.map (·.c), pk1 := s'.pk1 }, s'.liks)
  match k with
  | some k => do
    let s' ← loopC d o sA sS (fun _ => k) fuel true none k s
    pure (.finished (back s'))
  | none => do
    match ← loopCyc d o sA sS minType start nObs fuel s with
    | .finished s' => pure (.finished (back s'))
    | .stuck => pure .stuck

end Pytwoway.BLM

namespace Pytwoway.Dynamic

open Pytwoway.BLM

variable {ni nl nk : ℕ}

/-- One pass of the loop of the dynamic model with controls (the body of `loopMvC`), blm_dynamic.py:2008-2862. -/
noncomputable def passMvC [NeZero nl] (d : DData ni nk) (o : MvOpts) (sA : ℕ → QP (Fin nl × JM true true nk))
    (sS : QP (Fin nl × JM true true nk)) (minType : DBase nl nk → ℕ) (iter : ℕ) (x : Option ℝ × ℕ × CState nl nk ni) :
    Pass (Option ℝ × ℕ × CState nl nk ni) (CState nl nk ni) :=
  let s := x.2.2
  let lp := lpMvC d s
  let lik := likOf lp (nk ^ 2) s.pk1 (iter == 0) o.updPk o.dprior
  let s' := { s with liks := s.liks ++ [lik] }
  let m := minType s.base
  if close lik x.1 o.thresholdMovers && m == x.2.1 then .done s'
  else .go m (do
    let s'' ← stepMvC d o (sA m) sS iter (posterior lp) s'
    pure (some lik, m, s''))

/-- A call of `DynamicBLMModel(params, rhos, rng)` with `n` positional arguments, blm_dynamic.py:1098: the first
two have no default. -/
def construct (n : ℕ) : Py Unit :=
  if n < 2 then .error "TypeError" else if 3 < n then .error "TypeError" else .ok ()

/-- `DynamicBLMModel.fit_movers` with `force_min_firm_type`, blm_dynamic.py:1868-1905; `fit k` is the rest of the
loop for the type `k`. -/
noncomputable def fitForcedDyn {M : Type} (returnQi : Bool) (fit : ℕ → Py M) (lik : M → ℝ) (nk : ℕ) : Py M :=
  if returnQi then .error "ValueError"
  else forced (fun k => do construct 1; fit k) lik nk

end Pytwoway.Dynamic
