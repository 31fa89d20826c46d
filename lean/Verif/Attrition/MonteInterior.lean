import Verif.Attrition.Interior

/-! # One Monte Carlo simulation (montecarlo.py:96-188): C104 -/

namespace Pytwoway.Interior

open FEResults (Key get set)

variable {F S G : Type}

namespace Spec

/-- `c` is the covariance of a list of pairs: the average product minus the product of the averages. -/
def IsCov (l : List (ℝ × ℝ)) (c : ℝ) : Prop :=
  c = (l.map fun p => p.1 * p.2).sum / l.length - (l.map Prod.fst).sum / l.length * ((l.map Prod.snd).sum / l.length)

end Spec

theorem sum_dev (l : List (ℝ × ℝ)) (a b : ℝ) :
    (l.map fun p => (p.1 - a) * (p.2 - b)).sum =
      (l.map fun p => p.1 * p.2).sum - a * (l.map Prod.snd).sum - b * (l.map Prod.fst).sum + l.length * (a * b) := by
  induction l with
  | nil => simp
  | cons p l ih =>
    simp only [List.map_cons, List.sum_cons, List.length_cons, ih]
    push_cast
    ring

theorem isCov_dev (l : List (ℝ × ℝ)) (h : l ≠ []) :
    Spec.IsCov l ((l.map fun p => (p.1 - (l.map Prod.fst).sum / l.length) * (p.2 - (l.map Prod.snd).sum / l.length)).sum
      / l.length) := by
  have hn : (l.length : ℝ) ≠ 0 := by
    simpa using h
  unfold Spec.IsCov
  rw [sum_dev]
  field_simp
  ring

/-- C104: the values reported as true are the variance of the firm effects and their covariance with the worker
effects over all simulated observations; the variance is not negative. -/
theorem C104_true (rows : List SimRow) (h : rows ≠ []) :
    Spec.IsCov (rows.map fun r => (r.psi, r.psi)) (trueVar rows) ∧
    Spec.IsCov (rows.map fun r => (r.psi, r.alpha)) (trueCov rows) ∧ 0 ≤ trueVar rows := by
  refine ⟨?_, ?_, ?_⟩
  · have := isCov_dev (rows.map fun r => (r.psi, r.psi)) (by simpa using h)
    simp only [List.map_map, Function.comp_def, List.length_map] at this
    simp only [trueVar, mean, List.map_map, Function.comp_def, List.length_map, pow_two]
    exact this
  · have := isCov_dev (rows.map fun r => (r.psi, r.alpha)) (by simpa using h)
    simp only [List.map_map, Function.comp_def, List.length_map] at this
    simp only [trueCov, mean, List.length_map]
    exact this
  · unfold trueVar mean
    apply div_nonneg _ (Nat.cast_nonneg _)
    apply List.sum_nonneg
    intro x hx
    obtain ⟨y, _, rfl⟩ := List.mem_map.mp hx
    positivity

/-- Two observations. -/
example : trueVar [⟨0, 1⟩, ⟨2, 5⟩] = 1 ∧ trueCov [⟨0, 1⟩, ⟨2, 5⟩] = 2 := by
  constructor <;> · simp [trueVar, trueCov, mean]; norm_num

theorem mcInterior_ok {W : World F S G} {M : Sim F G} {o : MC} {g : G} {res : RDict} {g' : G}
    (h : mcInterior W M o g = .ok (res, g')) :
    ∃ f fe g1 f' g2 cre res0,
      W.clean o.clean (if o.moveToWorker then M.toWorker (M.simulate g).1.2 else (M.simulate g).1.2) = .ok f ∧
      W.fe o.fe f (M.simulate g).2 = .ok (fe, g1) ∧ W.cluster o.cluster f g1 = .ok (f', g2) ∧
      W.cre o.cre f' g2 = .ok (cre, g') ∧
      mcMain (trueVar (M.simulate g).1.1) (trueCov (M.simulate g).1.1) fe cre = .ok res0 ∧
      mcBs W o.estimateBs o.clean f' res0 = .ok res := by
  unfold mcInterior at h
  simp only [bind, Except.bind] at h
  rcases h1 : W.clean o.clean (if o.moveToWorker then M.toWorker (M.simulate g).1.2 else (M.simulate g).1.2) with x | f
  · rw [h1] at h; cases h
  rw [h1] at h
  dsimp only at h
  rcases h2 : W.fe o.fe f (M.simulate g).2 with x | ⟨fe, g1⟩
  · rw [h2] at h; cases h
  rw [h2] at h
  dsimp only at h
  rcases h3 : W.cluster o.cluster f g1 with x | ⟨f', g2⟩
  · rw [h3] at h; cases h
  rw [h3] at h
  dsimp only at h
  rcases h4 : W.cre o.cre f' g2 with x | ⟨cre, g3⟩
  · rw [h4] at h; cases h
  rw [h4] at h
  dsimp only at h
  rcases h5 : mcMain (trueVar (M.simulate g).1.1) (trueCov (M.simulate g).1.1) fe cre with x | res0
  · rw [h5] at h; cases h
  rw [h5] at h
  dsimp only at h
  rcases h6 : mcBs W o.estimateBs o.clean f' res0 with x | res1
  · rw [h6] at h; cases h
  rw [h6] at h
  have h := Except.ok.inj h
  simp only [Prod.mk.injEq] at h
  rw [← h.1, ← h.2]
  exact ⟨f, fe, g1, f', g2, cre, res0, rfl, h2, h3, h4, h5, h6⟩

theorem mcInterior_of {W : World F S G} {M : Sim F G} {o : MC} {g : G} {res : RDict} {g' : G} {f fe g1 f' g2 cre res0}
    (h1 : W.clean o.clean (if o.moveToWorker then M.toWorker (M.simulate g).1.2 else (M.simulate g).1.2) = .ok f)
    (h2 : W.fe o.fe f (M.simulate g).2 = .ok (fe, g1)) (h3 : W.cluster o.cluster f g1 = .ok (f', g2))
    (h4 : W.cre o.cre f' g2 = .ok (cre, g'))
    (h5 : mcMain (trueVar (M.simulate g).1.1) (trueCov (M.simulate g).1.1) fe cre = .ok res0)
    (h6 : mcBs W o.estimateBs o.clean f' res0 = .ok res) : mcInterior W M o g = .ok (res, g') := by
  unfold mcInterior
  simp only [bind, Except.bind, h1, h2, h3, h4, h5, h6]
  rfl

def bsKeys : List Key :=
  ["var(psi)_bs1".toList, "cov(psi, alpha)_bs1".toList, "var(psi)_bs2".toList, "cov(psi, alpha)_bs2".toList]

theorem keys_set_new {d : RDict} {k : Key} {v : FEResults.Val} (h : k ∉ d.map Prod.fst) :
    (set d k v).map Prod.fst = d.map Prod.fst ++ [k] := by
  induction d with
  | nil => rfl
  | cons p d ih =>
    obtain ⟨k', v'⟩ := p
    simp only [List.map_cons, List.mem_cons, not_or] at h
    rw [FEResults.set, if_neg (Ne.symm h.1)]
    simp only [List.map_cons, ih h.2, List.cons_append]

theorem mcBs_ok {W : World F S G} {p : PDict} {f : F} {res0 res : RDict} (h : mcBs W true p f res0 = .ok res) :
    ∃ d r1 r2, bsData W p f = .ok d ∧ W.bs false d = .ok r1 ∧ W.bs true d = .ok r2 ∧
      (get res "var(psi)_bs1".toList = get r1 "var(mu)".toList ∧ ∃ v, get r1 "var(mu)".toList = .ok v) ∧
      (get res "cov(psi, alpha)_bs1".toList = get r1 "cov(lambda, mu)".toList ∧
        ∃ v, get r1 "cov(lambda, mu)".toList = .ok v) ∧
      (get res "var(psi)_bs2".toList = get r2 "var(mu)".toList ∧ ∃ v, get r2 "var(mu)".toList = .ok v) ∧
      (get res "cov(psi, alpha)_bs2".toList = get r2 "cov(lambda, mu)".toList ∧
        ∃ v, get r2 "cov(lambda, mu)".toList = .ok v) ∧
      (∀ k ∉ bsKeys, get res k = get res0 k) ∧
      (res0.map Prod.fst = (MonteCarlo.estimators false).map String.toList →
        (res.map Prod.fst).Perm ((MonteCarlo.estimators true).map String.toList)) := by
  unfold mcBs at h
  rw [if_pos rfl] at h
  simp only [bind, Except.bind] at h
  rcases e1 : bsData W p f with x | d
  · rw [e1] at h; cases h
  rw [e1] at h
  dsimp only at h
  rcases e2 : W.bs false d with x | r1
  · rw [e2] at h; cases h
  rw [e2] at h
  dsimp only at h
  rcases e3 : get r1 "var(mu)".toList with x | v1
  · rw [e3] at h; cases h
  rw [e3] at h
  dsimp only at h
  rcases e4 : get r1 "cov(lambda, mu)".toList with x | c1
  · rw [e4] at h; cases h
  rw [e4] at h
  dsimp only at h
  rcases e5 : W.bs true d with x | r2
  · rw [e5] at h; cases h
  rw [e5] at h
  dsimp only at h
  rcases e6 : get r2 "var(mu)".toList with x | v2
  · rw [e6] at h; cases h
  rw [e6] at h
  dsimp only at h
  rcases e7 : get r2 "cov(lambda, mu)".toList with x | c2
  · rw [e7] at h; cases h
  rw [e7] at h
  have h := Except.ok.inj h
  refine ⟨d, r1, r2, rfl, e2, e5, ⟨?_, v1, e3⟩, ⟨?_, c1, e4⟩, ⟨?_, v2, e6⟩, ⟨?_, c2, e7⟩, ?_, ?_⟩
  · rw [← h, FEResults.get_set_ne _ _ (by decide), FEResults.get_set_ne _ _ (by decide),
      FEResults.get_set_ne _ _ (by decide), FEResults.get_set_same, e3]
  · rw [← h, FEResults.get_set_ne _ _ (by decide), FEResults.get_set_ne _ _ (by decide), FEResults.get_set_same, e4]
  · rw [← h, FEResults.get_set_ne _ _ (by decide), FEResults.get_set_same, e6]
  · rw [← h, FEResults.get_set_same, e7]
  · intro k hk
    simp only [bsKeys, List.mem_cons, List.not_mem_nil, or_false, not_or] at hk
    rw [← h, FEResults.get_set_ne _ _ (Ne.symm hk.2.2.2), FEResults.get_set_ne _ _ (Ne.symm hk.2.2.1),
      FEResults.get_set_ne _ _ (Ne.symm hk.2.1), FEResults.get_set_ne _ _ (Ne.symm hk.1)]
  · intro h0
    have k1 := keys_set_new (d := res0) (k := "var(psi)_bs1".toList) (v := v1) (by rw [h0]; decide)
    have k2 := keys_set_new (d := set res0 "var(psi)_bs1".toList v1) (k := "cov(psi, alpha)_bs1".toList) (v := c1)
      (by rw [k1, h0]; decide)
    have k3 := keys_set_new (d := set (set res0 "var(psi)_bs1".toList v1) "cov(psi, alpha)_bs1".toList c1)
      (k := "var(psi)_bs2".toList) (v := v2) (by rw [k2, k1, h0]; decide)
    have k4 := keys_set_new
      (d := set (set (set res0 "var(psi)_bs1".toList v1) "cov(psi, alpha)_bs1".toList c1) "var(psi)_bs2".toList v2)
      (k := "cov(psi, alpha)_bs2".toList) (v := c2) (by rw [k3, k2, k1, h0]; decide)
    rw [← h]
    show List.Perm (List.map Prod.fst (set _ _ _)) _
    rw [k4, k3, k2, k1, h0]
    decide

/-- C104: one simulation reports exactly the entries that are later stored, each of them the one its name says: the
true moments over all simulated observations, plug-in, homoskedastic and heteroskedastic values of the fixed effects
estimator, the total of the CRE estimator and the values of the two Borovickova-Shimer estimators. -/
theorem C104_entries (W : World F S G) (M : Sim F G) (o : MC) (g : G) (res : RDict) (g' : G)
    (h : mcInterior W M o g = .ok (res, g')) :
    (res.map Prod.fst).Perm ((MonteCarlo.estimators o.estimateBs).map String.toList) ∧
    get res "var(psi)_true".toList = .ok (.num (trueVar (M.simulate g).1.1)) ∧
    get res "cov(psi, alpha)_true".toList = .ok (.num (trueCov (M.simulate g).1.1)) ∧
    ∃ f fe g1 f' g2 cre,
      W.clean o.clean (if o.moveToWorker then M.toWorker (M.simulate g).1.2 else (M.simulate g).1.2) = .ok f ∧
      W.fe o.fe f (M.simulate g).2 = .ok (fe, g1) ∧ W.cluster o.cluster f g1 = .ok (f', g2) ∧
      W.cre o.cre f' g2 = .ok (cre, g') ∧
      (∀ q ∈ ["var(psi)".toList, "cov(psi, alpha)".toList], ∀ m ∈ ["_fe".toList, "_ho".toList, "_he".toList],
        get res (q ++ m) = get fe (q ++ m)) ∧
      get res "var(psi)_cre".toList = get cre "tot_var".toList ∧
      get res "cov(psi, alpha)_cre".toList = get cre "tot_cov".toList ∧
      (o.estimateBs = true → ∃ d r1 r2, Spec.BsData W o.clean f' d ∧ W.bs false d = .ok r1 ∧ W.bs true d = .ok r2 ∧
        get res "var(psi)_bs1".toList = get r1 "var(mu)".toList ∧
        get res "cov(psi, alpha)_bs1".toList = get r1 "cov(lambda, mu)".toList ∧
        get res "var(psi)_bs2".toList = get r2 "var(mu)".toList ∧
        get res "cov(psi, alpha)_bs2".toList = get r2 "cov(lambda, mu)".toList) := by
  obtain ⟨f, fe, g1, f', g2, cre, res0, h1, h2, h3, h4, h5, h6⟩ := mcInterior_ok h
  obtain ⟨m1, m2, m3, m4, m5, m6⟩ := mcMain_ok h5
  rcases hb : o.estimateBs with _ | _
  · rw [hb] at h6
    cases h6
    refine ⟨by rw [m6], m1, m2, f, fe, g1, f', g2, cre, h1, h2, h3, h4, fun q hq m hm => (m3 q hq m hm).1, m4.1, m5.1,
      by intro h; cases h⟩
  · rw [hb] at h6
    obtain ⟨d, r1, r2, e1, e2, e3, e4, e5, e6, e7, e8, e9⟩ := mcBs_ok h6
    refine ⟨e9 m6, ?_, ?_, f, fe, g1, f', g2, cre, h1, h2, h3, h4, ?_, ?_, ?_, ?_⟩
    · rw [e8 _ (by decide), m1]
    · rw [e8 _ (by decide), m2]
    · intro q hq m hm
      rw [e8 _ ?_, (m3 q hq m hm).1]
      clear * - hq hm
      simp only [List.mem_cons, List.not_mem_nil, or_false] at hq hm
      rcases hq with rfl | rfl <;> rcases hm with rfl | rfl | rfl <;> decide
    · rw [e8 _ (by decide), m4.1]
    · rw [e8 _ (by decide), m5.1]
    · exact fun _ => ⟨d, r1, r2, bsData_ok e1, e2, e3, e4.1, e5.1, e6.1, e7.1⟩

/-- C104: the Borovickova-Shimer estimators neither change the other entries nor the simulations that follow. -/
theorem C104_bs_adds (W : World F S G) (M : Sim F G) (o : MC) (g : G) (res : RDict) (g' : G)
    (h : mcInterior W M { o with estimateBs := true } g = .ok (res, g')) :
    ∃ res0, mcInterior W M { o with estimateBs := false } g = .ok (res0, g') ∧
      ∀ k ∈ (MonteCarlo.estimators false).map String.toList, get res k = get res0 k := by
  obtain ⟨f, fe, g1, f', g2, cre, res0, h1, h2, h3, h4, h5, h6⟩ := mcInterior_ok h
  refine ⟨res0, mcInterior_of h1 h2 h3 h4 h5 rfl, ?_⟩
  obtain ⟨d, r1, r2, e1, e2, e3, e4, e5, e6, e7, e8, e9⟩ := mcBs_ok h6
  intro k hk
  refine e8 k ?_
  intro hc
  have : ∀ k ∈ (MonteCarlo.estimators false).map String.toList, k ∉ bsKeys := by decide
  exact this k hk hc

theorem get_error {d : RDict} {k : Key} {e : String} (h : get d k = .error e) : e = "KeyError" := by
  induction d with
  | nil => cases h; rfl
  | cons p d ih =>
    obtain ⟨k', v⟩ := p
    rw [FEResults.get] at h
    split at h
    · cases h
    · exact ih h

theorem mcMain_error {tv tc : ℝ} {fe cre : RDict} {e : String} (h : mcMain tv tc fe cre = .error e) :
    e = "KeyError" := by
  unfold mcMain at h
  simp only [bind, Except.bind] at h
  rcases h1 : get fe "var(psi)_fe".toList with x | a1
  · rw [h1] at h; rw [← Except.error.inj h]; exact get_error h1
  rcases h2 : get fe "var(psi)_ho".toList with x | a2
  · rw [h1, h2] at h; rw [← Except.error.inj h]; exact get_error h2
  rcases h3 : get fe "var(psi)_he".toList with x | a3
  · rw [h1, h2, h3] at h; rw [← Except.error.inj h]; exact get_error h3
  rcases h4 : get cre "tot_var".toList with x | a4
  · rw [h1, h2, h3, h4] at h; rw [← Except.error.inj h]; exact get_error h4
  rcases h5 : get fe "cov(psi, alpha)_fe".toList with x | b1
  · rw [h1, h2, h3, h4, h5] at h; rw [← Except.error.inj h]; exact get_error h5
  rcases h6 : get fe "cov(psi, alpha)_ho".toList with x | b2
  · rw [h1, h2, h3, h4, h5, h6] at h; rw [← Except.error.inj h]; exact get_error h6
  rcases h7 : get fe "cov(psi, alpha)_he".toList with x | b3
  · rw [h1, h2, h3, h4, h5, h6, h7] at h; rw [← Except.error.inj h]; exact get_error h7
  rcases h8 : get cre "tot_cov".toList with x | b4
  · rw [h1, h2, h3, h4, h5, h6, h7, h8] at h; rw [← Except.error.inj h]; exact get_error h8
  rw [h1, h2, h3, h4, h5, h6, h7, h8] at h
  cases h

/-- C104: if the fixed effects estimator was told to leave out an estimate that is reported, the simulation raises a
`KeyError`. -/
theorem C104_missing (W : World F S G) (M : Sim F G) (o : MC) (g : G) (f : F) (fe : RDict) (g1 : G) (f' : F) (g2 : G)
    (cre : RDict) (g' : G)
    (h1 : W.clean o.clean (if o.moveToWorker then M.toWorker (M.simulate g).1.2 else (M.simulate g).1.2) = .ok f)
    (h2 : W.fe o.fe f (M.simulate g).2 = .ok (fe, g1)) (h3 : W.cluster o.cluster f g1 = .ok (f', g2))
    (h4 : W.cre o.cre f' g2 = .ok (cre, g')) (q m : Key) (hq : q ∈ ["var(psi)".toList, "cov(psi, alpha)".toList])
    (hm : m ∈ ["_fe".toList, "_ho".toList, "_he".toList]) (hk : q ++ m ∉ fe.map Prod.fst) :
    mcInterior W M o g = .error "KeyError" := by
  have hmain : mcMain (trueVar (M.simulate g).1.1) (trueCov (M.simulate g).1.1) fe cre = .error "KeyError" := by
    rcases hi : mcMain (trueVar (M.simulate g).1.1) (trueCov (M.simulate g).1.1) fe cre with e | res
    · rw [mcMain_error hi]
    · exfalso
      obtain ⟨_, _, m3, _⟩ := mcMain_ok hi
      obtain ⟨v, hv⟩ := (m3 q hq m hm).2
      rw [get_eq_none hk] at hv
      cases hv
  unfold mcInterior
  simp only [bind, Except.bind, h1, h2, h3, h4, hmain]

/-- C104: the true values are those of all simulated observations, whatever the cleaning keeps: an estimator that is
exactly right on the cleaned data can differ from them. -/
theorem C104_true_other_sample : ∃ rows kept : List SimRow, kept.Sublist rows ∧ kept ≠ [] ∧
    trueVar rows ≠ trueVar kept := by
  refine ⟨[⟨0, 0⟩, ⟨2, 0⟩], [⟨0, 0⟩], by simp, by simp, ?_⟩
  simp [trueVar, mean]
  norm_num

/-- A simulation with two observations whose estimators succeed. -/
theorem C104_run : ∃ (W : World ℕ ℕ ℕ) (M : Sim ℕ ℕ) (o : MC) (res : RDict), o.estimateBs = true ∧
    mcInterior W M o 0 = .ok (res, 3) ∧ get res "var(psi)_true".toList = .ok (.num 1) ∧
    get res "var(psi)_ho".toList = .ok (.num 5) ∧ get res "cov(psi, alpha)_bs2".toList = .ok (.num 9) := by
  let fe : RDict := [("var(psi)_fe".toList, .num 4), ("var(psi)_ho".toList, .num 5), ("var(psi)_he".toList, .num 6),
    ("cov(psi, alpha)_fe".toList, .num 1), ("cov(psi, alpha)_ho".toList, .num 2), ("cov(psi, alpha)_he".toList, .num 3)]
  let cre : RDict := [("tot_var".toList, .num 7), ("tot_cov".toList, .num 8)]
  let bs : Bool → RDict := fun b => [("var(mu)".toList, .num 7), ("cov(lambda, mu)".toList, .num (if b then 9 else 8))]
  let W : World ℕ ℕ ℕ := ⟨fun _ _ f => f, fun _ f => .ok f, fun _ f g => .ok (f, g + 1), fun _ _ g => .ok (cre, g + 1),
    fun f => f, fun _ _ g => .ok (fe, g), fun f => f, fun b _ => .ok (bs b)⟩
  let M : Sim ℕ ℕ := ⟨fun g => (([⟨0, 1⟩, ⟨2, 5⟩], 0), g + 1), fun f => f⟩
  let o : MC := ⟨fun _ => none, fun _ => none, fun _ => none, fun _ => none, false, true⟩
  have hv : trueVar [⟨0, 1⟩, ⟨2, 5⟩] = 1 := by simp [trueVar, mean]; norm_num
  rcases h : mcInterior W M o 0 with e | ⟨res, g'⟩
  · exact absurd h (by intro h; cases h)
  have hg : g' = 3 := by cases h; rfl
  refine ⟨W, M, o, res, rfl, by rw [h, hg], ?_, ?_, ?_⟩
  · rw [(C104_entries W M o 0 res g' h).2.1]
    show Except.ok (FEResults.Val.num (trueVar [⟨0, 1⟩, ⟨2, 5⟩])) = _
    rw [hv]
  · cases h; rfl
  · cases h; rfl

end Pytwoway.Interior
