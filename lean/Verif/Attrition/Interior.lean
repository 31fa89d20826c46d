import Verif.Attrition.Params
import Verif.FE.ResultsValues

/-! # One estimation of Attrition (attrition.py:114-205) and of MonteCarlo (montecarlo.py:96-188): C103, C104

`bipartitepandas`, the simulation and the estimators are oracles (the estimators' own results are C101, C04-C07, C40 and others);
modelled is what is called on which data with which generator, and which entries of their results are reported. -/

namespace Pytwoway.Interior

open FEResults (Key get set)

/-- A parameter dictionary.  Used for attrition.py:174-178 and attrition.py:181. -/
abbrev PDict := MonteCarlo.Dict

/-- A results dictionary.  Used for attrition.py:197-198 and attrition.py:169-201. -/
abbrev RDict := FEResults.Dict FEResults.Val

abbrev Py (α : Type) := Except String α

/-- What the estimation calls, on data frames `F`, sets of ids to drop `S` and generators `G`: `drop` is `drop_ids` for
firms and workers with `_reset_attributes`; `cre` is `to_eventstudy`, `get_cs` and `CREEstimator.fit`; `dropTG` removes
the columns for time and clusters; `minJoint` is `min_joint_obs_frame`; `bs b` is `BSEstimator.fit` with
`alternative_estimator=b`, which uses no generator.  An estimator that receives the generator returns its state
afterwards.  Used for attrition.py:181 and attrition.py:169-201. -/
structure World (F S G : Type) where
  drop : S → PDict → F → F
  clean : PDict → F → Py F
  cluster : PDict → F → G → Py (F × G)
  cre : PDict → F → G → Py (RDict × G)
  dropTG : F → F
  fe : PDict → F → G → Py (RDict × G)
  minJoint : F → F
  bs : Bool → F → Py RDict

variable {F S G : Type}

/-- `clean_params_1` and `clean_params_2`, attrition.py:174-178 and montecarlo.py:153-157. -/
def bsParams1 (p : PDict) : PDict :=
  MonteCarlo.setItem (MonteCarlo.setItem p "connectedness" .none) "drop_returns" (.str "returns")

/-- The parameters of the second Borovičková-Shimer fit: `connectedness` set to `None`, attrition.py:181. -/
def bsParams2 (p : PDict) : PDict := MonteCarlo.setItem p "connectedness" .none

/-- `bdf.clean(clean_params_1).min_joint_obs_frame(...).clean(clean_params_2)`, attrition.py:181 and
montecarlo.py:160. -/
def bsData (W : World F S G) (p : PDict) (f : F) : Py F := do
  let a ← W.clean (bsParams1 p) f
  W.clean (bsParams2 p) (W.minJoint a)

/-- The key `var(y)`, attrition.py:197 and attrition.py:197-198. -/
def varY : Key := "var(y)".toList

/-- The key under which a result of the standard estimator is kept, attrition.py:197. -/
def bs1Key (k : Key) : Key := if k ≠ varY then k ++ "_bs1".toList else k

/-- `bs_res`, attrition.py:197-198: a dictionary comprehension, then `update` with another one. -/
def bsCombine (r1 r2 : RDict) : RDict :=
  (r2.filter fun p => p.1 ≠ varY).foldl (fun d p => set d (p.1 ++ "_bs2".toList) p.2)
    (r1.foldl (fun d p => set d (bs1Key p.1) p.2) [])

/-- Borovickova-Shimer results, attrition.py:169-201. -/
def bsPart (W : World F S G) (p : PDict) (f : F) : Py RDict := do
  let b ← bsData W p f
  let r1 ← W.bs false b
  let r2 ← W.bs true b
  return bsCombine r1 r2

/-- What `_attrition_interior` returns. -/
structure Res where
  fe : RDict
  cre : RDict
  bs : Option RDict

/-- `if self.estimate_bs`, attrition.py:169. -/
def optBs (W : World F S G) (b : Bool) (p : PDict) (f : F) : Py (Option RDict) :=
  if b then (bsPart W p f).map some else .ok none

/-- `Attrition._attrition_interior`, attrition.py:114-205. -/
def interior (W : World F S G) (estimateBs : Bool) (bdf : F) (s : S) (u : AttritionParams.Used) (g : G) : Py Res := do
  let f ← W.clean u.clean (W.drop s u.clean bdf)
  let (f, g) ← W.cluster u.cluster f g
  let (cre, g) ← W.cre u.cre f g
  let f := W.dropTG f
  let (fe, _) ← W.fe u.fe f g
  let bs ← optBs W estimateBs u.clean f
  return ⟨fe, cre, bs⟩

/-! ## Monte Carlo -/

/-- One row of simulated data: the true effects of its firm and worker.
Used for montecarlo.py:115 and montecarlo.py:116. -/
structure SimRow where
  psi : ℝ
  alpha : ℝ

/-- `np.mean` of a non-empty list, montecarlo.py:115 and montecarlo.py:116. -/
noncomputable def mean (l : List ℝ) : ℝ := l.sum / l.length

/-- `np.var(psi, ddof=0)`, montecarlo.py:115. -/
noncomputable def trueVar (rows : List SimRow) : ℝ :=
  mean ((rows.map (·.psi)).map fun x => (x - mean (rows.map (·.psi))) ^ 2)

/-- `np.cov(psi, alpha, ddof=0)[0, 1]`, montecarlo.py:116. -/
noncomputable def trueCov (rows : List SimRow) : ℝ :=
  (rows.map fun r => (r.psi - mean (rows.map (·.psi))) * (r.alpha - mean (rows.map (·.alpha)))).sum / rows.length

/-- The attributes of `MonteCarlo` used in one simulation.  Used for montecarlo.py:96-188. -/
structure MC where
  fe : PDict
  cre : PDict
  cluster : PDict
  clean : PDict
  moveToWorker : Bool
  estimateBs : Bool

/-- Simulation: `sim_network.simulate`, and the conversion to long format, montecarlo.py:112, 119.  `toWorker` is the
detour through the event study format, montecarlo.py:122. -/
structure Sim (F G : Type) where
  simulate : G → (List SimRow × F) × G
  toWorker : F → F

/-- The part for Borovickova-Shimer, montecarlo.py:148-186: only two entries of each result. -/
def mcBs (W : World F S G) (b : Bool) (p : PDict) (f : F) (res : RDict) : Py RDict :=
  if b then do
    let d ← bsData W p f
    let r1 ← W.bs false d
    let v1 ← get r1 "var(mu)".toList
    let c1 ← get r1 "cov(lambda, mu)".toList
    let r2 ← W.bs true d
    let v2 ← get r2 "var(mu)".toList
    let c2 ← get r2 "cov(lambda, mu)".toList
    return set (set (set (set res "var(psi)_bs1".toList v1) "cov(psi, alpha)_bs1".toList c1)
      "var(psi)_bs2".toList v2) "cov(psi, alpha)_bs2".toList c2
  else return res

/-- The dictionary of montecarlo.py:135-146. -/
def mcMain (tv tc : ℝ) (fe cre : RDict) : Py RDict := do
  let a1 ← get fe "var(psi)_fe".toList
  let a2 ← get fe "var(psi)_ho".toList
  let a3 ← get fe "var(psi)_he".toList
  let a4 ← get cre "tot_var".toList
  let b1 ← get fe "cov(psi, alpha)_fe".toList
  let b2 ← get fe "cov(psi, alpha)_ho".toList
  let b3 ← get fe "cov(psi, alpha)_he".toList
  let b4 ← get cre "tot_cov".toList
  return [("var(psi)_true".toList, .num tv), ("var(psi)_fe".toList, a1), ("var(psi)_ho".toList, a2),
    ("var(psi)_he".toList, a3), ("var(psi)_cre".toList, a4), ("cov(psi, alpha)_true".toList, .num tc),
    ("cov(psi, alpha)_fe".toList, b1), ("cov(psi, alpha)_ho".toList, b2), ("cov(psi, alpha)_he".toList, b3),
    ("cov(psi, alpha)_cre".toList, b4)]

/-- `MonteCarlo._monte_carlo_interior`, montecarlo.py:96-188, with the state of the generator afterwards. -/
noncomputable def mcInterior (W : World F S G) (M : Sim F G) (o : MC) (g : G) : Py (RDict × G) := do
  let ((rows, f), g) := M.simulate g
  let f ← W.clean o.clean (if o.moveToWorker then M.toWorker f else f)
  let (fe, g) ← W.fe o.fe f g
  let (f, g) ← W.cluster o.cluster f g
  let (cre, g) ← W.cre o.cre f g
  let res ← mcMain (trueVar rows) (trueCov rows) fe cre
  let res ← mcBs W o.estimateBs o.clean f res
  return (res, g)

/-! ## C103: results of Attrition -/

namespace Spec

/-- The keys of a dictionary are distinct. -/
def IsDict (d : RDict) : Prop := (d.map Prod.fst).Nodup

/-- `q` is the parameter dictionary `p` with some entries replaced. -/
def Replaced (p q : PDict) (entries : List (String × MonteCarlo.Val)) : Prop :=
  (∀ e ∈ entries, q e.1 = some e.2) ∧ ∀ k, k ∉ entries.map Prod.fst → q k = p k

/-- The data of the Borovickova-Shimer estimators: cleaned without a connected set and dropping returns, then the
firms and workers with too few observations are removed, then cleaned again without a connected set. -/
def BsData {F S G : Type} (W : World F S G) (p : PDict) (f d : F) : Prop :=
  ∃ p1 p2 a, Replaced p p1 [("connectedness", .none), ("drop_returns", .str "returns")] ∧
    Replaced p p2 [("connectedness", .none)] ∧ W.clean p1 f = .ok a ∧ W.clean p2 (W.minJoint a) = .ok d

end Spec

theorem bsData_ok {W : World F S G} {p : PDict} {f d : F} (h : bsData W p f = .ok d) : Spec.BsData W p f d := by
  unfold bsData at h
  simp only [bind, Except.bind] at h
  rcases e : W.clean (bsParams1 p) f with x | a
  · rw [e] at h; cases h
  rw [e] at h
  refine ⟨bsParams1 p, bsParams2 p, a, ⟨?_, ?_⟩, ⟨?_, ?_⟩, e, h⟩
  · intro e he
    simp only [List.mem_cons, List.not_mem_nil, or_false] at he
    rcases he with rfl | rfl <;> simp [bsParams1, MonteCarlo.setItem]
  · intro k hk
    simp only [List.map_cons, List.map_nil, List.mem_cons, List.not_mem_nil, or_false, not_or] at hk
    simp [bsParams1, MonteCarlo.setItem, hk.1, hk.2]
  · intro e he
    simp only [List.mem_cons, List.not_mem_nil, or_false] at he
    subst he; simp [bsParams2, MonteCarlo.setItem]
  · intro k hk
    simp only [List.map_cons, List.map_nil, List.mem_cons, List.not_mem_nil, or_false] at hk
    simp [bsParams2, MonteCarlo.setItem, hk]

theorem get_eq_none {d : RDict} {k : Key} (h : k ∉ d.map Prod.fst) : get d k = .error "KeyError" := by
  induction d with
  | nil => rfl
  | cons p d ih =>
    obtain ⟨k', v⟩ := p
    simp only [List.map_cons, List.mem_cons, not_or] at h
    rw [FEResults.get, if_neg (Ne.symm h.1), ih h.2]

/-- Storing the entries of a dictionary under changed names. -/
theorem foldl_get (nm : Key → Key) (l : RDict) (hl : (l.map Prod.fst).Nodup)
    (hnm : ∀ p ∈ l, ∀ q ∈ l, nm p.1 = nm q.1 → p.1 = q.1) (d : RDict) :
    (∀ p ∈ l, get (l.foldl (fun d p => set d (nm p.1) p.2) d) (nm p.1) = .ok p.2) ∧
    ∀ k, (∀ p ∈ l, nm p.1 ≠ k) → get (l.foldl (fun d p => set d (nm p.1) p.2) d) k = get d k := by
  induction l generalizing d with
  | nil => exact ⟨by simp, fun _ _ => rfl⟩
  | cons p l ih =>
    simp only [List.map_cons, List.nodup_cons] at hl
    obtain ⟨i1, i2⟩ := ih hl.2 (fun a ha b hb => hnm a (List.mem_cons_of_mem _ ha) b (List.mem_cons_of_mem _ hb))
      (set d (nm p.1) p.2)
    simp only [List.foldl_cons]
    constructor
    · intro q hq
      rcases List.mem_cons.mp hq with rfl | hq
      · rw [i2 _ fun a ha he => hl.1 (by
          have := hnm a (List.mem_cons_of_mem _ ha) q (List.mem_cons_self ..) he
          exact List.mem_map.mpr ⟨a, ha, this⟩), FEResults.get_set_same]
      · exact i1 q hq
    · intro k hk
      rw [i2 k fun a ha => hk a (List.mem_cons_of_mem _ ha),
        FEResults.get_set_ne _ _ (hk p (List.mem_cons_self ..))]

theorem get_mem {d : RDict} (hd : (d.map Prod.fst).Nodup) {p : Key × FEResults.Val} (hp : p ∈ d) :
    get d p.1 = .ok p.2 := by
  induction d with
  | nil => simp at hp
  | cons q d ih =>
    obtain ⟨k, v⟩ := q
    simp only [List.map_cons, List.nodup_cons] at hd
    rcases List.mem_cons.mp hp with rfl | hp
    · rw [FEResults.get, if_pos rfl]
    · rw [FEResults.get, if_neg (fun h => hd.1 (by rw [h]; exact List.mem_map.mpr ⟨p, hp, rfl⟩)), ih hd.2 hp]

theorem bs1_ne_bs2 (a b : Key) : a ++ "_bs1".toList ≠ b ++ "_bs2".toList := by
  intro h
  have := congrArg List.getLast? h
  simp at this

theorem varY_ne_bs1 (a : Key) : varY ≠ a ++ "_bs1".toList := by
  intro h
  have := congrArg List.getLast? h
  simp [varY] at this

theorem varY_ne_bs2 (a : Key) : varY ≠ a ++ "_bs2".toList := by
  intro h
  have := congrArg List.getLast? h
  simp [varY] at this

theorem bs1Key_inj {a b : Key} (h : bs1Key a = bs1Key b) : a = b := by
  unfold bs1Key at h
  by_cases ha : a = varY
  · by_cases hb : b = varY
    · rw [ha, hb]
    · rw [if_neg (by simp [ha]), if_pos hb, ha] at h
      exact absurd h (varY_ne_bs1 b)
  · by_cases hb : b = varY
    · rw [if_pos ha, if_neg (by simp [hb]), hb] at h
      exact absurd h.symm (varY_ne_bs1 a)
    · rw [if_pos ha, if_pos hb] at h
      exact List.append_cancel_right h

/-- C103: the two Borovickova-Shimer results are combined without loss: every entry of the first under its name with
`_bs1` (the variance of income under its own name), every entry of the second but the variance of income with `_bs2`,
and nothing else. -/
theorem C103_bs_entries (r1 r2 : RDict) (h1 : Spec.IsDict r1) (h2 : Spec.IsDict r2) :
    get (bsCombine r1 r2) "var(y)".toList = get r1 "var(y)".toList ∧
    (∀ k, k ≠ "var(y)".toList → get (bsCombine r1 r2) (k ++ "_bs1".toList) = get r1 k ∧
      get (bsCombine r1 r2) (k ++ "_bs2".toList) = get r2 k) ∧
    ∀ k, k ≠ "var(y)".toList → (∀ k', k ≠ k' ++ "_bs1".toList ∧ k ≠ k' ++ "_bs2".toList) →
      get (bsCombine r1 r2) k = .error "KeyError" := by
  have f2 : (((r2.filter fun p => p.1 ≠ varY)).map Prod.fst).Nodup :=
    (List.Nodup.sublist ((List.filter_sublist).map _) h2)
  obtain ⟨a1, a2⟩ := foldl_get bs1Key r1 h1 (fun p _ q _ h => bs1Key_inj h) []
  obtain ⟨b1, b2⟩ := foldl_get (fun k => k ++ "_bs2".toList) (r2.filter fun p => p.1 ≠ varY) f2
    (fun p _ q _ h => List.append_cancel_right h) (r1.foldl (fun d p => set d (bs1Key p.1) p.2) [])
  have c1 : ∀ k, (∀ k', k ≠ k' ++ "_bs2".toList) → get (bsCombine r1 r2) k =
      get (r1.foldl (fun d p => set d (bs1Key p.1) p.2) []) k := fun k hk => b2 k fun p _ h => hk p.1 h.symm
  have c2 : ∀ k, get (r1.foldl (fun d p => set d (bs1Key p.1) p.2) []) (bs1Key k) = get r1 k := by
    intro k
    by_cases hk : k ∈ r1.map Prod.fst
    · obtain ⟨p, hp, rfl⟩ := List.mem_map.mp hk
      rw [a1 p hp, get_mem h1 hp]
    · rw [a2 _ fun p hp h => hk (List.mem_map.mpr ⟨p, hp, bs1Key_inj h⟩), get_eq_none hk]
      rfl
  refine ⟨?_, ?_, ?_⟩
  · rw [show "var(y)".toList = varY from rfl, c1 _ varY_ne_bs2]
    have := c2 varY
    rwa [bs1Key, if_neg (by simp)] at this
  · intro k hk
    constructor
    · rw [c1 _ fun k' => bs1_ne_bs2 k k']
      have := c2 k
      rwa [bs1Key, if_pos (show k ≠ varY from hk)] at this
    · by_cases hm : k ∈ r2.map Prod.fst
      · obtain ⟨p, hp, rfl⟩ := List.mem_map.mp hm
        rw [get_mem h2 hp]
        exact b1 p (List.mem_filter.mpr ⟨hp, decide_eq_true (show p.1 ≠ varY from hk)⟩)
      · rw [get_eq_none hm]
        show get (List.foldl _ _ _) _ = _
        rw [b2 _ fun p hp h => hm (List.mem_map.mpr ⟨p, (List.mem_filter.mp hp).1, List.append_cancel_right h⟩),
          a2 _ fun p _ h => ?_]
        · rfl
        · unfold bs1Key at h
          split at h
          · exact bs1_ne_bs2 _ _ h
          · rename_i hc
            rw [not_not.mp hc] at h
            exact varY_ne_bs2 _ h
  · intro k hk hk'
    rw [c1 k fun k' => (hk' k').2, a2 k fun p _ h => ?_]
    · rfl
    · unfold bs1Key at h
      split at h
      · exact (hk' p.1).1 h.symm
      · rename_i hc
        exact hk (by rw [← h]; exact not_not.mp hc)

/-- Two results with an entry each beside the variance of income. -/
example : Spec.IsDict [("var(y)".toList, .num 3), ("var(mu)".toList, .num 1)] ∧
    get (bsCombine [("var(y)".toList, .num 3), ("var(mu)".toList, .num 1)]
      [("var(y)".toList, .num 3), ("var(mu)".toList, .num 2)]) "var(mu)_bs2".toList = .ok (.num 2) := by
  constructor
  · unfold Spec.IsDict; decide
  · have := ((C103_bs_entries [("var(y)".toList, .num 3), ("var(mu)".toList, .num 1)]
      [("var(y)".toList, .num 3), ("var(mu)".toList, .num 2)] (by unfold Spec.IsDict; decide)
      (by unfold Spec.IsDict; decide)).2.1 "var(mu)".toList (by decide)).2
    rw [show "var(mu)_bs2".toList = "var(mu)".toList ++ "_bs2".toList from by decide, this]
    rfl

theorem interior_ok {W : World F S G} {b : Bool} {bdf : F} {s : S} {u : AttritionParams.Used} {g : G} {r : Res}
    (h : interior W b bdf s u g = .ok r) :
    ∃ f f' g1 g2 g3, W.clean u.clean (W.drop s u.clean bdf) = .ok f ∧ W.cluster u.cluster f g = .ok (f', g1) ∧
      W.cre u.cre f' g1 = .ok (r.cre, g2) ∧ W.fe u.fe (W.dropTG f') g2 = .ok (r.fe, g3) ∧
      optBs W b u.clean (W.dropTG f') = .ok r.bs := by
  unfold interior at h
  simp only [bind, Except.bind] at h
  rcases h1 : W.clean u.clean (W.drop s u.clean bdf) with x | f
  · rw [h1] at h; cases h
  rw [h1] at h
  dsimp only at h
  rcases h2 : W.cluster u.cluster f g with x | ⟨f', g1⟩
  · rw [h2] at h; cases h
  rw [h2] at h
  dsimp only at h
  rcases h3 : W.cre u.cre f' g1 with x | ⟨cre, g2⟩
  · rw [h3] at h; cases h
  rw [h3] at h
  dsimp only at h
  rcases h4 : W.fe u.fe (W.dropTG f') g2 with x | ⟨fe, g3⟩
  · rw [h4] at h; cases h
  rw [h4] at h
  dsimp only at h
  rcases h5 : optBs W b u.clean (W.dropTG f') with x | bs
  · rw [h5] at h; cases h
  rw [h5] at h
  rw [← Except.ok.inj h]
  exact ⟨f, f', g1, g2, g3, rfl, h2, h3, h4, h5⟩

theorem interior_of {W : World F S G} {b : Bool} {bdf : F} {s : S} {u : AttritionParams.Used} {g : G} {f f' : F}
    {g1 g2 g3 : G} {cre fe : RDict} {bs : Option RDict}
    (h1 : W.clean u.clean (W.drop s u.clean bdf) = .ok f) (h2 : W.cluster u.cluster f g = .ok (f', g1))
    (h3 : W.cre u.cre f' g1 = .ok (cre, g2)) (h4 : W.fe u.fe (W.dropTG f') g2 = .ok (fe, g3))
    (h5 : optBs W b u.clean (W.dropTG f') = .ok bs) : interior W b bdf s u g = .ok ⟨fe, cre, bs⟩ := by
  unfold interior
  simp only [bind, Except.bind, h1, h2, h3, h4, h5]
  rfl

/-- C103: asking for the Borovickova-Shimer estimators adds their results and changes nothing else: the estimation
with them succeeds with a result exactly if the one without succeeds with the same fixed effects and CRE results and
the two estimators succeed on the same data, from which returns and thin observations are removed. -/
theorem C103_bs_adds (W : World F S G) (bdf : F) (s : S) (u : AttritionParams.Used) (g : G) (r : Res) :
    (interior W true bdf s u g = .ok r → interior W false bdf s u g = .ok ⟨r.fe, r.cre, none⟩ ∧
      ∃ f f' g1 d r1 r2, W.clean u.clean (W.drop s u.clean bdf) = .ok f ∧ W.cluster u.cluster f g = .ok (f', g1) ∧
        Spec.BsData W u.clean (W.dropTG f') d ∧ W.bs false d = .ok r1 ∧ W.bs true d = .ok r2 ∧
        r.bs = some (bsCombine r1 r2)) ∧
    (interior W false bdf s u g = .ok r → r.bs = none) := by
  constructor
  · intro h
    obtain ⟨f, f', g1, g2, g3, h1, h2, h3, h4, h5⟩ := interior_ok h
    refine ⟨interior_of h1 h2 h3 h4 rfl, f, f', g1, ?_⟩
    unfold optBs bsPart at h5
    rw [if_pos rfl] at h5
    simp only [bind, Except.bind] at h5
    rcases e1 : bsData W u.clean (W.dropTG f') with x | d
    · rw [e1] at h5; cases h5
    rw [e1] at h5
    dsimp only at h5
    rcases e2 : W.bs false d with x | r1
    · rw [e2] at h5; cases h5
    rw [e2] at h5
    dsimp only at h5
    rcases e3 : W.bs true d with x | r2
    · rw [e3] at h5; cases h5
    rw [e3] at h5
    exact ⟨d, r1, r2, h1, h2, bsData_ok e1, e2, e3, (Except.ok.inj h5).symm⟩
  · intro h
    obtain ⟨f, f', g1, g2, g3, h1, h2, h3, h4, h5⟩ := interior_ok h
    exact (Except.ok.inj h5).symm

/-- C103: the parameters of the fixed effects estimator have no influence on the other results, and the parameters of
the CRE estimator none on the Borovickova-Shimer results. -/
theorem C103_independent (W : World F S G) (b : Bool) (bdf : F) (s : S) (u : AttritionParams.Used) (g : G) (p q : PDict)
    (r r' : Res) :
    (interior W b bdf s u g = .ok r → interior W b bdf s { u with fe := p } g = .ok r' → r'.cre = r.cre ∧ r'.bs = r.bs) ∧
    (interior W b bdf s u g = .ok r → interior W b bdf s { u with fe := p, cre := q } g = .ok r' → r'.bs = r.bs) := by
  constructor
  · intro h h'
    obtain ⟨f, f', g1, g2, g3, h1, h2, h3, h4, h5⟩ := interior_ok h
    obtain ⟨e, e', k1, k2, k3, i1, i2, i3, i4, i5⟩ := interior_ok h'
    rw [h1] at i1
    cases i1
    rw [h2] at i2
    cases i2
    rw [h3] at i3
    rw [h5] at i5
    have h6 := Except.ok.inj i3
    have h7 := Except.ok.inj i5
    exact ⟨(Prod.mk.inj h6).1.symm, h7.symm⟩
  · intro h h'
    obtain ⟨f, f', g1, g2, g3, h1, h2, h3, h4, h5⟩ := interior_ok h
    obtain ⟨e, e', k1, k2, k3, i1, i2, i3, i4, i5⟩ := interior_ok h'
    rw [h1] at i1
    cases i1
    rw [h2] at i2
    cases i2
    rw [h5] at i5
    exact (Except.ok.inj i5).symm

/-! ## C104: one Monte Carlo simulation -/

theorem mcMain_ok {tv tc : ℝ} {fe cre res : RDict} (h : mcMain tv tc fe cre = .ok res) :
    get res "var(psi)_true".toList = .ok (.num tv) ∧ get res "cov(psi, alpha)_true".toList = .ok (.num tc) ∧
    (∀ q ∈ ["var(psi)".toList, "cov(psi, alpha)".toList], ∀ m ∈ ["_fe".toList, "_ho".toList, "_he".toList],
      get res (q ++ m) = get fe (q ++ m) ∧ ∃ v, get fe (q ++ m) = .ok v) ∧
    (get res "var(psi)_cre".toList = get cre "tot_var".toList ∧ ∃ v, get cre "tot_var".toList = .ok v) ∧
    (get res "cov(psi, alpha)_cre".toList = get cre "tot_cov".toList ∧ ∃ v, get cre "tot_cov".toList = .ok v) ∧
    res.map Prod.fst = (MonteCarlo.estimators false).map String.toList := by
  unfold mcMain at h
  simp only [bind, Except.bind] at h
  rcases h1 : get fe "var(psi)_fe".toList with x | a1
  · rw [h1] at h; cases h
  rcases h2 : get fe "var(psi)_ho".toList with x | a2
  · rw [h1, h2] at h; cases h
  rcases h3 : get fe "var(psi)_he".toList with x | a3
  · rw [h1, h2, h3] at h; cases h
  rcases h4 : get cre "tot_var".toList with x | a4
  · rw [h1, h2, h3, h4] at h; cases h
  rcases h5 : get fe "cov(psi, alpha)_fe".toList with x | b1
  · rw [h1, h2, h3, h4, h5] at h; cases h
  rcases h6 : get fe "cov(psi, alpha)_ho".toList with x | b2
  · rw [h1, h2, h3, h4, h5, h6] at h; cases h
  rcases h7 : get fe "cov(psi, alpha)_he".toList with x | b3
  · rw [h1, h2, h3, h4, h5, h6, h7] at h; cases h
  rcases h8 : get cre "tot_cov".toList with x | b4
  · rw [h1, h2, h3, h4, h5, h6, h7, h8] at h; cases h
  rw [h1, h2, h3, h4, h5, h6, h7, h8] at h
  rw [← Except.ok.inj h]
  refine ⟨rfl, rfl, ?_, ⟨rfl, _, rfl⟩, ⟨rfl, _, rfl⟩, rfl⟩
  intro q hq m hm
  simp only [List.mem_cons, List.not_mem_nil, or_false] at hq hm
  rcases hq with rfl | rfl <;> rcases hm with rfl | rfl | rfl
  · exact ⟨h1.symm, a1, h1⟩
  · exact ⟨h2.symm, a2, h2⟩
  · exact ⟨h3.symm, a3, h3⟩
  · exact ⟨h5.symm, b1, h5⟩
  · exact ⟨h6.symm, b2, h6⟩
  · exact ⟨h7.symm, b3, h7⟩

end Pytwoway.Interior
