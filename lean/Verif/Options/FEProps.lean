import Verif.Options.FE

/-! # C56, C84: which options `FEEstimator` supports, and the path each selects -/

namespace Pytwoway.Options

/-! ## Specification -/

/-- Variances and covariances are estimated at all. -/
def Spec.full (o : FEOpts) : Bool := !o.statsonly && !o.feonly

/-- The options and data `fit` can handle, for the homoskedastic correction. -/
structure Spec.HoOk (o : FEOpts) (v : Env) : Prop where
  /-- Approximate traces are made for at least one variance and at least one covariance. -/
  some_q : o.exactHo = false → 0 < o.ndrawHo → o.qvar ≠ [] ∧ o.qcov ≠ []
  /-- Exact traces are for moments that involve psi only or alpha only. -/
  simple : o.exactHo = true → (∀ b ∈ o.qvar, b = true) ∧ ∀ b ∈ o.qcov, b = true
  /-- Hutch++ has no more draws than there are rows. -/
  hutch : v.weighted = true → o.exactSigma = false → o.hutchpp = true → o.ndrawSigma ≤ v.nn

/-- The leverage method the options ask for: a file if one is given, otherwise exact or approximate. -/
def Spec.leverage (o : FEOpts) : Phase :=
  if o.levfile then .levFile else if o.exactLev then .levExact else .levApprox

/-- The options and data `fit` can handle, for the heteroskedastic correction. -/
structure Spec.HeOk (o : FEOpts) (v : Env) : Prop where
  some_q : o.exactHe = false → 0 < o.ndrawHe → o.qvar ≠ [] ∧ o.qcov ≠ []
  simple : o.exactHe = true → (∀ b ∈ o.qvar, b = true) ∧ ∀ b ∈ o.qcov, b = true
  /-- No leverage is 1 or more. -/
  lev : v.maxLev (Spec.leverage o) < 1
  /-- The upper bound for stayers needs two observations of each. -/
  lone : o.stayers = .upperBound → v.loneStayer = false
  /-- Leverage files exist. -/
  files : o.levfile = true → v.files ≠ 0
  /-- Exact traces cannot be combined with a leverage file. -/
  no_file : o.exactHe = true → o.levfile = false

/-- Options and data that `fit` can handle. -/
def Spec.Supported (o : FEOpts) (v : Env) : Prop :=
  Spec.full o = true → (o.ho = true → Spec.HoOk o v) ∧ (o.he = true → Spec.HeOk o v)

open Classical in
/-- What the homoskedastic correction raises when it cannot handle the options. -/
noncomputable def Spec.hoErr (o : FEOpts) (v : Env) : Err :=
  if v.weighted = true ∧ o.exactSigma = false ∧ o.hutchpp = true ∧ v.nn < o.ndrawSigma then .index
  else if o.exactHo then .notImplemented else .unbound

open Classical in
/-- What the heteroskedastic correction raises when it cannot handle the options. -/
noncomputable def Spec.heErr (o : FEOpts) (v : Env) : Err :=
  if o.levfile = true ∧ v.files = 0 then .assertion
  else if 1 ≤ v.maxLev (Spec.leverage o) then .value
  else if o.stayers = .upperBound ∧ v.loneStayer = true then .value
  else if o.exactHe then (if o.levfile then .attribute else .notImplemented)
  else .unbound

open Classical in
/-- How a call of `fit` ends: `none`, or the exception. -/
noncomputable def Spec.outcome (o : FEOpts) (v : Env) : Option Err :=
  if Spec.full o = false then none
  else if o.ho = true ∧ ¬ Spec.HoOk o v then some (Spec.hoErr o v)
  else if o.he = true ∧ ¬ Spec.HeOk o v then some (Spec.heErr o v)
  else none

/-! ## Lemmas -/

variable (o : FEOpts) (v : Env)

/-- The solver is there. -/
def SolverOk (s : St) : Prop := s.base = true ∧ match o.solver with
  | .amg => s.amg = true
  | _ => s.pcd = true

theorem solve_ok {s : St} (h : SolverOk o s) : solve o s = (none, s) := by
  obtain ⟨h1, h2⟩ := h
  unfold solve Act.seq
  cases ho : o.solver <;> simp_all [need, Act.skip]

theorem seq_none {a b : Act} {s t : St} (h : a s = (none, t)) : (a ;; b) s = b t := by
  simp [Act.seq, h]

theorem seq_some {a b : Act} {s : St} {e : Err} {t : St} (h : a s = (some e, t)) : (a ;; b) s = (some e, t) := by
  simp [Act.seq, h]

@[simp] theorem call_apply (p : Phase) (s : St) : call p s = (none, { s with trace := s.trace ++ [p] }) := rfl

@[simp] theorem put_apply (f : St → St) (s : St) : put f s = (none, f s) := rfl

@[simp] theorem raise_apply (e : Err) (s : St) : raise e s = (some e, s) := rfl

@[simp] theorem skip_apply (s : St) : Act.skip s = (none, s) := rfl

theorem on_apply (b : Bool) (a : Act) (s : St) : on b a s = if b then a s else (none, s) := by
  cases b <;> rfl

theorem solve_ok' {s : St} (h : SolverOk o s) (l : List Phase) :
    solve o { s with trace := l } = (none, { s with trace := l }) := solve_ok o h

/-- Methods of the HO correction, in order. -/
def hoTrace : List Phase :=
  if o.ho then
    (if v.weighted then [if o.exactSigma then .sigmaExact else .sigmaApprox] else []) ++ [.sigma] ++
      [if o.exactHo then .hoExact else .hoApprox]
  else []

theorem all_id (l : List Bool) : l.all id = true ↔ ∀ b ∈ l, b = true := by simp

/-- The state after the HO part. -/
def afterHo (s : St) : St :=
  if o.ho then
    { s with aainv := s.aainv || inverted o v, trSigma := s.trSigma || v.weighted, sigmaHo := true, trHo := true,
             trace := s.trace ++ hoTrace o v }
  else s

/-- The state after the trace for sigma^2. -/
def afterSigma (s : St) : St :=
  if v.weighted then
    { s with aainv := s.aainv || o.exactSigma, trSigma := true,
             trace := s.trace ++ [if o.exactSigma then .sigmaExact else .sigmaApprox] }
  else s

theorem sigma_part {s : St} (h : SolverOk o s) (hok : v.weighted = true → o.exactSigma = false → o.hutchpp = true →
    o.ndrawSigma ≤ v.nn) :
    (on v.weighted (if o.exactSigma then makeInverse ;; sigmaExact else sigmaApprox o v)) s =
      (none, afterSigma o v s) := by
  unfold afterSigma
  have hb := h.1
  cases hw : v.weighted
  · simp [on_apply]
  cases he : o.exactSigma
  · have : ¬ (o.hutchpp = true ∧ v.nn < o.ndrawSigma) := fun ⟨h1, h2⟩ => by
      have := hok hw he h1; omega
    have h2 := solve_ok' o h (s.trace ++ [Phase.sigmaApprox])
    simp [on_apply, sigmaApprox, Act.seq, h2, this]
  · simp [on_apply, makeInverse, sigmaExact, Act.seq, need, hb]

theorem draws_ok {s : St} (h : SolverOk o s) (hq : s.q = true) (n : ℕ) (hn : 0 < n → o.qvar ≠ [] ∧ o.qcov ≠ []) :
    draws o n s = (none, s) := by
  unfold draws
  rw [on_apply]
  split
  · rename_i h0
    have := hn (by simpa using h0)
    rw [seq_none (solve_ok o h)]
    simp [Act.seq, need, hq, on_apply, this.1, this.2]
  · rfl

theorem draws_bad {s : St} (h : SolverOk o s) (hq : s.q = true) (n : ℕ) (hn : ¬ (0 < n → o.qvar ≠ [] ∧ o.qcov ≠ [])) :
    draws o n s = (some .unbound, s) := by
  push Not at hn
  unfold draws
  rw [on_apply, if_pos (by simpa using hn.1), seq_none (solve_ok o h)]
  have : (o.qvar.isEmpty || o.qcov.isEmpty) = true := by
    by_cases h1 : o.qvar = []
    · simp [h1]
    · simp [hn.2 h1]
  simp [Act.seq, need, hq, on_apply, this]

theorem ho_ok {s : St} (h : SolverOk o s) (hr : s.resid = true) (hq : s.q = true)
    (hok : o.ho = true → Spec.HoOk o v) : hoPart o v s = (none, afterHo o v s) := by
  unfold hoPart afterHo
  cases hho : o.ho
  · simp [on_apply]
  have hk := hok hho
  have hb := h.1
  rw [on_apply, if_pos rfl, seq_none (sigma_part o v h hk.hutch)]
  set t : St := afterSigma o v s with ht
  unfold afterSigma at ht
  have tb : t.base = true := by rw [ht]; split <;> exact hb
  have tr : t.resid = true := by rw [ht]; split <;> exact hr
  have tq : t.q = true := by rw [ht]; split <;> exact hq
  have tS : SolverOk o t := by
    rw [ht]; split
    · exact h
    · exact h
  have hsig : sigma v t = (none, { t with sigmaHo := true, trace := t.trace ++ [.sigma] }) := by
    have : v.weighted = true → t.trSigma = true := fun hw => by rw [ht, if_pos hw]
    unfold sigma
    cases hw : v.weighted <;> simp [Act.seq, need, tb, tr, on_apply, hw, this]
  rw [seq_none hsig]
  cases he : o.exactHo
  · have h2 := draws_ok o (s := { t with sigmaHo := true, trace := t.trace ++ [.sigma] ++ [.hoApprox] }) tS tq
      o.ndrawHo (hk.some_q he)
    simp only [Bool.false_eq_true, if_false, hoApprox, Act.seq, call_apply, put_apply, h2]
    rw [ht]
    cases hw : v.weighted <;> cases hx : o.exactSigma <;> simp [hoTrace, inverted, hho, he, hw, hx]
  · have hs := hk.simple he
    have h1 : false ∉ o.qvar := fun h => by simpa using hs.1 _ h
    have h2 : false ∉ o.qcov := fun h => by simpa using hs.2 _ h
    rw [ht]
    cases hw : v.weighted <;> cases hx : o.exactSigma <;>
      simp [hoTrace, inverted, hho, he, hw, hx, hoExact, Act.seq, need, on_apply, makeInverse, hb, h1, h2]

/-- A statement that raises `e`. -/
def Raises (e : Err) (a : Act) (s : St) : Prop := ∃ t, a s = (some e, t) ∧ ∃ p, t.trace = s.trace ++ p

theorem Raises.seq_left {e : Err} {a b : Act} {s : St} (h : Raises e a s) : Raises e (a ;; b) s := by
  obtain ⟨t, h, hp⟩ := h
  exact ⟨t, seq_some h, hp⟩

theorem Raises.seq_right {e : Err} {a b : Act} {s t : St} (h : a s = (none, t)) (hp : ∃ p, t.trace = s.trace ++ p)
    (hb : Raises e b t) : Raises e (a ;; b) s := by
  obtain ⟨u, hb, q, hq⟩ := hb
  obtain ⟨p, hp⟩ := hp
  exact ⟨u, by rw [seq_none h, hb], p ++ q, by rw [hq, hp, List.append_assoc]⟩

theorem ho_bad {s : St} (h : SolverOk o s) (hr : s.resid = true) (hq : s.q = true) (hho : o.ho = true)
    (hbad : ¬ Spec.HoOk o v) : Raises (Spec.hoErr o v) (hoPart o v) s := by
  have hb := h.1
  unfold hoPart
  by_cases hh : v.weighted = true → o.exactSigma = false → o.hutchpp = true → o.ndrawSigma ≤ v.nn
  · have hsp := sigma_part o v h hh
    set t : St := afterSigma o v s with ht
    unfold afterSigma at ht
    have tb : t.base = true := by rw [ht]; split <;> exact hb
    have tr : t.resid = true := by rw [ht]; split <;> exact hr
    have tq : t.q = true := by rw [ht]; split <;> exact hq
    have tS : SolverOk o t := by
      rw [ht]; split
      · exact h
      · exact h
    have hsig : sigma v t = (none, { t with sigmaHo := true, trace := t.trace ++ [.sigma] }) := by
      have : v.weighted = true → t.trSigma = true := fun hw => by rw [ht, if_pos hw]
      unfold sigma
      cases hw : v.weighted <;> simp [Act.seq, need, tb, tr, on_apply, hw, this]
    rw [hho]
    have hne : ¬ (v.weighted = true ∧ o.exactSigma = false ∧ o.hutchpp = true ∧ v.nn < o.ndrawSigma) :=
      fun ⟨h1, h2, h3, h4⟩ => absurd (hh h1 h2 h3) (by omega)
    have hpt : ∃ p, t.trace = s.trace ++ p := by
      rw [ht]; split
      · exact ⟨_, rfl⟩
      · exact ⟨[], (List.append_nil _).symm⟩
    refine Raises.seq_right (t := t) hsp hpt (Raises.seq_right hsig ⟨_, rfl⟩ ?_)
    rw [Spec.hoErr, if_neg hne]
    cases he : o.exactHo
    · refine ⟨{ t with sigmaHo := true, trace := t.trace ++ [.sigma] ++ [.hoApprox] }, by
        simp only [Bool.false_eq_true, if_false, hoApprox]
        rw [seq_none (call_apply _ _)]
        exact seq_some (draws_bad o (s := { t with sigmaHo := true, trace := t.trace ++ [.sigma] ++ [.hoApprox] }) tS tq
          o.ndrawHo fun hq => hbad ⟨fun _ => hq, fun h => by simp [he] at h, hh⟩), _, rfl⟩
    · have hs : ¬ ((∀ b ∈ o.qvar, b = true) ∧ ∀ b ∈ o.qcov, b = true) := fun hq =>
        hbad ⟨fun h => by simp [he] at h, fun _ => hq, hh⟩
      have hs' : (!(o.qvar.all id && o.qcov.all id)) = true := by
        rw [Bool.not_eq_true', Bool.eq_false_iff]
        intro hc
        rw [Bool.and_eq_true, all_id, all_id] at hc
        exact hs hc
      have ha : (t.aainv || !(v.weighted && o.exactSigma)) = true := by
        rw [ht]; cases v.weighted <;> cases o.exactSigma <;> simp
      simp only [if_true]
      have h1 : on (!(v.weighted && o.exactSigma)) makeInverse { t with sigmaHo := true, trace := t.trace ++ [.sigma] } =
          (none, { t with sigmaHo := true, trace := t.trace ++ [.sigma], aainv := true }) := by
        rw [on_apply]
        split
        · simp [makeInverse, Act.seq, need, tb]
        · rename_i hn
          rw [Bool.not_eq_true] at hn
          rw [hn, Bool.or_false] at ha
          rw [← ha]
      refine Raises.seq_right h1 ⟨[], (List.append_nil _).symm⟩
        ⟨{ t with sigmaHo := true, trace := t.trace ++ [.sigma] ++ [.hoExact], aainv := true }, ?_, _, rfl⟩
      simp only [hoExact, Act.seq, call_apply, need, if_true]
      rw [on_apply, if_pos hs']
      rfl
  · push Not at hh
    obtain ⟨hw, he, hp, hn⟩ := hh
    rw [Spec.hoErr, if_pos ⟨hw, he, hp, hn⟩, hho, hw, he]
    refine Raises.seq_left ⟨{ s with trace := s.trace ++ [.sigmaApprox] }, ?_, _, rfl⟩
    simp only [on, if_true, Bool.false_eq_true, if_false, sigmaApprox]
    rw [seq_none (call_apply _ _), seq_none (solve_ok' o h _)]
    have : (o.hutchpp && decide (v.nn < o.ndrawSigma)) = true := by simp [hp, hn]
    simp [Act.seq, this]

/-- Methods of the HE correction, in order. -/
def heTrace : List Phase :=
  if o.he then [Spec.leverage o, .sii, if o.exactHe then .heExact else .heApprox] else []

/-- The state after the HE part. -/
def afterHe (s : St) : St :=
  if o.he then
    { s with aainv := s.aainv || (o.exactLev || o.exactHe) && !inverted o v, lev := true, sigmaHe := true, trHe := true,
             sqrtD := s.sqrtD && o.levfile, trace := s.trace ++ heTrace o }
  else s

/-- What the HE part starts from. -/
structure HeStart (s : St) : Prop where
  solver : SolverOk o s
  resid : s.resid = true
  q : s.q = true
  sqrtD : s.sqrtD = !o.levfile
  aainv : inverted o v = true → s.aainv = true

/-- The state once the inverse has been made, if it is needed. -/
def afterInv (s : St) : St := { s with aainv := s.aainv || (o.exactLev || o.exactHe) && !inverted o v }

theorem inv_part {s : St} (h : s.base = true) :
    on ((o.exactLev || o.exactHe) && !inverted o v) makeInverse s = (none, afterInv o v s) := by
  unfold afterInv
  rw [on_apply]
  split
  · rename_i hc; simp [makeInverse, Act.seq, need, h, hc]
  · rename_i hc
    rw [Bool.not_eq_true] at hc
    simp [hc]

theorem afterInv_aainv {s : St} (h : HeStart o v s) (he : (o.exactLev || o.exactHe) = true) :
    (afterInv o v s).aainv = true := by
  unfold afterInv
  cases hi : inverted o v
  · simp [he]
  · simp [h.aainv hi]

/-- The leverages. -/
noncomputable def levPart : Act := if o.levfile then levFile v else if o.exactLev then levExact v else levApprox o v

theorem lev_ok {s : St} (h : HeStart o v s) (hlev : v.maxLev (Spec.leverage o) < 1)
    (hf : o.levfile = true → v.files ≠ 0) :
    levPart o v (afterInv o v s) =
      (none, { afterInv o v s with lev := true, trace := s.trace ++ [Spec.leverage o] }) := by
  have hb : (afterInv o v s).base = true := h.solver.1
  have hS : SolverOk o (afterInv o v s) := h.solver
  have hD : (afterInv o v s).sqrtD = !o.levfile := h.sqrtD
  have hT : (afterInv o v s).trace = s.trace := rfl
  unfold levPart
  unfold Spec.leverage at hlev ⊢
  cases h1 : o.levfile
  · rw [h1] at hD
    cases h2 : o.exactLev
    · have hl : ¬ 1 ≤ v.maxLev .levApprox := by simpa [h1, h2] using hlev
      have h3 := solve_ok' o hS (s.trace ++ [Phase.levApprox])
      simp only [hD, Bool.not_false] at h3
      simp [levApprox, Act.seq, need, hD, on_apply, hl, hT, h3]
    · have hl : ¬ 1 ≤ v.maxLev .levExact := by simpa [h1, h2] using hlev
      have ha := afterInv_aainv o v h (by simp [h2])
      simp [levExact, Act.seq, need, hD, on_apply, hl, hT, hb, ha]
  · have hl : ¬ 1 ≤ v.maxLev .levFile := by simpa [h1] using hlev
    simp [levFile, Act.seq, need, on_apply, hl, hT, hb, hf h1]

theorem lev_bad {s : St} (h : HeStart o v s)
    (hbad : ¬ (v.maxLev (Spec.leverage o) < 1 ∧ (o.levfile = true → v.files ≠ 0))) :
    Raises (if o.levfile = true ∧ v.files = 0 then .assertion else .value) (levPart o v) (afterInv o v s) := by
  have hb : (afterInv o v s).base = true := h.solver.1
  have hS : SolverOk o (afterInv o v s) := h.solver
  have hD : (afterInv o v s).sqrtD = !o.levfile := h.sqrtD
  have hT : (afterInv o v s).trace = s.trace := rfl
  unfold levPart
  unfold Spec.leverage at hbad
  cases h1 : o.levfile
  · rw [h1] at hD
    cases h2 : o.exactLev
    · have hl : 1 ≤ v.maxLev .levApprox := by simpa [h1, h2] using hbad
      have h3 := solve_ok' o hS (s.trace ++ [Phase.levApprox])
      simp only [hD, Bool.not_false] at h3
      rw [if_neg (by simp)]
      exact ⟨{ afterInv o v s with lev := true, trace := s.trace ++ [.levApprox] }, by
        simp [levApprox, Act.seq, need, hD, on_apply, hl, hT, h3], _, rfl⟩
    · have hl : 1 ≤ v.maxLev .levExact := by simpa [h1, h2] using hbad
      have ha := afterInv_aainv o v h (by simp [h2])
      rw [if_neg (by simp)]
      exact ⟨{ afterInv o v s with lev := true, trace := s.trace ++ [.levExact] }, by
        simp [levExact, Act.seq, need, hD, on_apply, hl, hT, hb, ha], _, rfl⟩
  · by_cases hf : v.files = 0
    · rw [if_pos ⟨rfl, hf⟩]
      exact ⟨{ afterInv o v s with trace := s.trace ++ [.levFile] }, by
        simp [levFile, Act.seq, on_apply, hT, hf], _, rfl⟩
    · have hl : 1 ≤ v.maxLev .levFile := by
        by_contra hc
        exact hbad ⟨by simpa [h1] using hc, fun _ => hf⟩
      rw [if_neg (by simp [hf])]
      exact ⟨{ afterInv o v s with lev := true, trace := s.trace ++ [.levFile] }, by
        simp [levFile, Act.seq, need, on_apply, hl, hT, hb, hf], _, rfl⟩

theorem he_ok {s : St} (h : o.he = true → HeStart o v s) (hok : o.he = true → Spec.HeOk o v) :
    hePart o v s = (none, afterHe o v s) := by
  unfold hePart afterHe
  cases hhe : o.he
  · simp [on_apply]
  have h := h hhe
  have hk := hok hhe
  have hb := h.solver.1
  rw [on_apply, if_pos rfl, seq_none (inv_part o v hb)]
  have hl := lev_ok o v h hk.lev hk.files
  unfold levPart at hl
  rw [seq_none hl]
  have hsii : sii o v { afterInv o v s with lev := true, trace := s.trace ++ [Spec.leverage o] } =
      (none, { afterInv o v s with lev := true, sigmaHe := true, trace := s.trace ++ [Spec.leverage o] ++ [.sii] }) := by
    have hb' : (afterInv o v s).base = true := hb
    have hr' : (afterInv o v s).resid = true := h.resid
    have : ¬ (o.stayers = .upperBound ∧ v.loneStayer = true) := fun ⟨h1, h2⟩ => by simp [hk.lone h1] at h2
    simp [sii, Act.seq, need, on_apply, hb', hr', this]
  rw [seq_none hsii]
  have hD : (afterInv o v s).sqrtD = !o.levfile := h.sqrtD
  cases he : o.exactHe
  · have hS : SolverOk o { afterInv o v s with lev := true, sigmaHe := true, trace := s.trace ++ [Spec.leverage o] ++ [.sii] ++ [.heApprox] } := h.solver
    have h2 := draws_ok o hS h.q o.ndrawHe (hk.some_q he)
    simp only [Bool.false_eq_true, if_false, heApprox]
    simp only [Act.seq, call_apply, put_apply, h2]
    cases hlf : o.levfile <;> simp [on_apply, Act.seq, need, hD, hlf, afterInv, heTrace, hhe, he, h.sqrtD]
  · have hs := hk.simple he
    have h1 : false ∉ o.qvar := fun h => by simpa using hs.1 _ h
    have h2 : false ∉ o.qcov := fun h => by simpa using hs.2 _ h
    have hn := hk.no_file he
    rw [hn] at hD
    have hb' : (afterInv o v s).base = true := hb
    have ha := afterInv_aainv o v h (by simp [he])
    simp [heExact, Act.seq, need, hb', hD, ha, h1, h2, on_apply, hn]
    simp [afterInv, heTrace, hhe, he, h.sqrtD, hn] at ha ⊢
    exact ⟨hb, ha⟩

theorem he_bad {s : St} (h : HeStart o v s) (hhe : o.he = true) (hbad : ¬ Spec.HeOk o v) :
    Raises (Spec.heErr o v) (hePart o v) s := by
  unfold hePart
  rw [hhe]
  have hb := h.solver.1
  refine Raises.seq_right (inv_part o v hb) ⟨[], (List.append_nil _).symm⟩ ?_
  by_cases hlev : v.maxLev (Spec.leverage o) < 1 ∧ (o.levfile = true → v.files ≠ 0)
  swap
  · have := Raises.seq_left (b := sii o v ;; (if o.exactHe then heExact o else heApprox o) ;;
      on (!o.levfile) (need St.sqrtD ;; put fun s => { s with sqrtD := false })) (lev_bad o v h hlev)
    have he : Spec.heErr o v = if o.levfile = true ∧ v.files = 0 then .assertion else .value := by
      unfold Spec.heErr
      by_cases hf : o.levfile = true ∧ v.files = 0
      · rw [if_pos hf, if_pos hf]
      · rw [if_neg hf, if_neg hf, if_pos]
        by_contra hc
        exact hlev ⟨by simpa using hc, fun h1 h2 => hf ⟨h1, h2⟩⟩
    rw [he]
    exact this
  refine Raises.seq_right (lev_ok o v h hlev.1 hlev.2) ⟨_, rfl⟩ ?_
  rw [Spec.heErr, if_neg (fun hc => hlev.2 hc.1 hc.2), if_neg (by simpa using hlev.1)]
  have hb' : (afterInv o v s).base = true := hb
  have hr' : (afterInv o v s).resid = true := h.resid
  by_cases hlone : o.stayers = .upperBound → v.loneStayer = false
  swap
  · push Not at hlone
    have h2 : v.loneStayer = true := by simpa using hlone.2
    rw [if_pos ⟨hlone.1, h2⟩]
    refine Raises.seq_left ⟨{ afterInv o v s with lev := true, trace := s.trace ++ [Spec.leverage o] ++ [.sii] }, ?_, _, rfl⟩
    simp [sii, Act.seq, need, on_apply, hb', hr', hlone.1, h2]
  have hsii : sii o v { afterInv o v s with lev := true, trace := s.trace ++ [Spec.leverage o] } =
      (none, { afterInv o v s with lev := true, sigmaHe := true, trace := s.trace ++ [Spec.leverage o] ++ [.sii] }) := by
    have : ¬ (o.stayers = .upperBound ∧ v.loneStayer = true) := fun ⟨h1, h2⟩ => by simp [hlone h1] at h2
    simp [sii, Act.seq, need, on_apply, hb', hr', this]
  rw [if_neg (fun hc => by simp [hlone hc.1] at hc)]
  refine Raises.seq_right hsii ⟨_, rfl⟩ (Raises.seq_left ?_)
  have hD : (afterInv o v s).sqrtD = !o.levfile := h.sqrtD
  cases he : o.exactHe
  · have hS : SolverOk o { afterInv o v s with lev := true, sigmaHe := true, trace := s.trace ++ [Spec.leverage o] ++ [.sii] ++ [.heApprox] } := h.solver
    have h2 := draws_bad o hS h.q o.ndrawHe fun hq => hbad
      ⟨fun _ => hq, fun h => by simp [he] at h, hlev.1, hlone, hlev.2, fun h => by simp [he] at h⟩
    refine ⟨{ afterInv o v s with lev := true, sigmaHe := true, trace := s.trace ++ [Spec.leverage o] ++ [.sii] ++ [.heApprox] }, ?_, [.heApprox], rfl⟩
    simp only [Bool.false_eq_true, if_false, heApprox]
    exact (seq_none (call_apply _ _)).trans (seq_some h2)
  · have ha := afterInv_aainv o v h (by simp [he])
    cases hlf : o.levfile
    · rw [hlf] at hD
      have hs : ¬ ((∀ b ∈ o.qvar, b = true) ∧ ∀ b ∈ o.qcov, b = true) := fun hq =>
        hbad ⟨fun h => by simp [he] at h, fun _ => hq, hlev.1, hlone, hlev.2, fun _ => hlf⟩
      have hs' : (!(o.qvar.all id && o.qcov.all id)) = true := by
        rw [Bool.not_eq_true', Bool.eq_false_iff]
        intro hc
        rw [Bool.and_eq_true, all_id, all_id] at hc
        exact hs hc
      refine ⟨{ afterInv o v s with lev := true, sigmaHe := true, trace := s.trace ++ [Spec.leverage o] ++ [.sii] ++ [.heExact] }, ?_, [.heExact], rfl⟩
      simp only [heExact, Act.seq, call_apply, need, if_true, hb', hD, ha, Bool.not_false]
      rw [on_apply, if_pos hs']
      rfl
    · rw [hlf] at hD
      refine ⟨{ afterInv o v s with lev := true, sigmaHe := true, trace := s.trace ++ [Spec.leverage o] ++ [.sii] ++ [.heExact] }, ?_, [.heExact], rfl⟩
      simp [heExact, Act.seq, need, hb', hD]

/-- Attributes that earlier calls of `fit` with these options may have left. -/
def Fresh (s : St) : Prop := s.sqrtD = true → o.he = true ∧ o.levfile = false

/-- The state after the preparation. -/
def afterPrep (s : St) : St :=
  { s with strings := false, base := true, sqrtD := s.sqrtD || (o.he && !o.levfile),
           amg := s.amg || (!o.statsonly && decide (o.solver = .amg)),
           pcd := s.pcd || (!o.statsonly && !decide (o.solver = .amg)),
           trace := s.trace ++ [.prepare, .stats] }

theorem prep_part (s : St) (b : Act) :
    (put (fun s => { s with strings := false }) ;; prepare o ;; stats ;; b) s = b (afterPrep o s) := by
  unfold afterPrep
  rw [seq_none (put_apply _ _)]
  have h1 : prepare o { s with strings := false } = (none, { afterPrep o s with trace := s.trace ++ [.prepare] }) := by
    unfold prepare afterPrep
    cases h1 : o.solver <;> cases h2 : o.statsonly <;> cases h3 : (o.he && !o.levfile) <;>
      simp [Act.seq, on_apply, h1, h2, h3]
  rw [seq_none h1]
  have h2 : stats { afterPrep o s with trace := s.trace ++ [.prepare] } = (none, afterPrep o s) := by
    simp [stats, Act.seq, need, afterPrep]
  rw [seq_none h2]
  rfl

/-- The state after `_estimate_ols` and `_attach_fe_estimates`. -/
def afterOls (s : St) : St :=
  { s with hat := true, columns := s.columns || o.attach,
           trace := s.trace ++ .ols :: if o.attach then [.attach] else [] }

theorem ols_part {s : St} (h : SolverOk o s) (b : Act) : (ols o ;; on o.attach attach ;; b) s = b (afterOls o s) := by
  have h1 : ols o s = (none, { s with hat := true, trace := s.trace ++ [.ols] }) := by
    have := solve_ok' o h (s.trace ++ [Phase.ols])
    simp [ols, Act.seq, this]
  rw [seq_none h1]
  have h2 : on o.attach attach { s with hat := true, trace := s.trace ++ [.ols] } = (none, afterOls o s) := by
    unfold afterOls
    cases ha : o.attach <;> simp [on_apply, attach, Act.seq, need]
  rw [seq_none h2]

/-- The state before the corrections. -/
def afterPlug (s : St) : St :=
  { s with resid := true, q := true, plug := true, trace := s.trace ++ [.residuals, .plugIn] }

theorem plug_part {s : St} (hb : s.base = true) (hh : s.hat = true) (b : Act) :
    (residuals ;; plugIn ;; b) s = b (afterPlug s) := by
  have h1 : residuals s = (none, { s with resid := true, trace := s.trace ++ [.residuals] }) := by
    simp [residuals, Act.seq, need, hb, hh]
  rw [seq_none h1]
  have h2 : plugIn { s with resid := true, trace := s.trace ++ [.residuals] } = (none, afterPlug s) := by
    simp [plugIn, Act.seq, need, hb, hh, afterPlug]
  rw [seq_none h2]

/-- The state after the corrections, once the results are collected. -/
def afterCollect (s : St) : St :=
  { s with q := false, aainv := s.aainv && !(inverted o v || (o.he && (o.exactLev || o.exactHe))), resFe := true,
           resHo := s.resHo || o.ho, resHe := s.resHe || o.he, trace := s.trace ++ [.collect] }

theorem collect_part {s : St} (hq : s.q = true) (ha : (inverted o v || (o.he && (o.exactLev || o.exactHe))) = true → s.aainv = true)
    (hp : s.plug = true) (hr : s.resid = true) (hho : o.ho = true → s.sigmaHo = true ∧ s.trHo = true)
    (hhe : o.he = true → s.sigmaHe = true ∧ s.lev = true ∧ s.trHe = true) :
    (dropQ o v ;; collect o) s = (none, afterCollect o v s) := by
  have h1 : dropQ o v s = (none, { s with q := false, aainv := s.aainv && !(inverted o v || (o.he && (o.exactLev || o.exactHe))) }) := by
    cases hi : (inverted o v || (o.he && (o.exactLev || o.exactHe)))
    · simp [dropQ, Act.seq, need, hq, on_apply, hi]
    · simp [dropQ, Act.seq, need, hq, on_apply, hi, ha hi]
  rw [seq_none h1]
  unfold afterCollect
  cases h2 : o.ho <;> cases h3 : o.he <;> simp [h2] at hho <;> simp [h3] at hhe <;>
    simp [collect, Act.seq, need, on_apply, hp, hr, h2, h3, hho, hhe]

theorem clear_ok {s : St} (hb : s.base = true) (hS : o.statsonly = false → SolverOk o s) :
    ∃ t, clear o s = (none, t) ∧ t.trace = s.trace ∧ t.resFe = s.resFe ∧ t.resHo = s.resHo ∧ t.resHe = s.resHe ∧
      t.sqrtD = s.sqrtD ∧ t.q = s.q ∧ t.aainv = s.aainv ∧ t.base = false ∧ t.strings = s.strings ∧
      t.columns = s.columns := by
  cases h1 : o.statsonly
  · have h2 := (hS h1).2
    cases h3 : o.solver <;> rw [h3] at h2 <;> simp at h2 <;>
      simp [clear, Act.seq, need, hb, on_apply, h1, h3, h2]
  · simp [clear, Act.seq, need, hb, on_apply, h1]

theorem solverOk_prep (s : St) (h : o.statsonly = false) : SolverOk o (afterPrep o s) := by
  refine ⟨rfl, ?_⟩
  unfold afterPrep
  cases h3 : o.solver <;> simp [h]

/-- The estimation inside `fit`. -/
noncomputable def middle : Act :=
  on (!o.statsonly) (
    ols o ;; on o.attach attach ;;
    on (!o.feonly) (residuals ;; plugIn ;; hoPart o v ;; hePart o v ;; dropQ o v ;; collect o))

theorem feFit_eq (s : St) : feFit o v s = (middle o v ;; clear o ;; save o) (afterPrep o s) := prep_part o s _

/-- The state before the corrections. -/
def before (s : St) : St := afterPlug (afterOls o (afterPrep o s))

/-- The state after the estimation. -/
def afterMid (s : St) : St :=
  if o.statsonly then afterPrep o s
  else if o.feonly then afterOls o (afterPrep o s)
  else afterCollect o v (afterHe o v (afterHo o v (before o s)))

theorem heStart (s : St) (hst : o.statsonly = false) (hf : Fresh o s) (hhe : o.he = true) :
    HeStart o v (afterHo o v (before o s)) := by
  have hS := solverOk_prep o s hst
  have hD : (s.sqrtD || !o.levfile) = !o.levfile := by
    cases h1 : o.levfile
    · simp
    · cases h2 : s.sqrtD
      · rfl
      · exact absurd (hf h2).2 (by simp [h1])
  unfold afterHo
  refine ⟨?_, ?_, ?_, ?_, ?_⟩
  · split <;> exact hS
  · split <;> rfl
  · split <;> rfl
  · split <;> simp [before, afterPlug, afterOls, afterPrep, hhe, hD]
  · intro hi
    have : o.ho = true := by
      unfold inverted at hi
      cases h : o.ho
      · simp [h] at hi
      · rfl
    simp [this, hi]

theorem middle_ok (s : St) (hf : Fresh o s) (h : Spec.Supported o v) :
    middle o v (afterPrep o s) = (none, afterMid o v s) := by
  unfold middle afterMid
  cases h1 : o.statsonly
  swap
  · simp [on_apply]
  have hS := solverOk_prep o s h1
  rw [on_apply, if_pos (by rfl), ols_part o hS]
  cases h2 : o.feonly
  swap
  · simp [on_apply]
  have hfull : Spec.full o = true := by simp [Spec.full, h1, h2]
  obtain ⟨hho, hhe⟩ := h hfull
  rw [on_apply, if_pos (by rfl), plug_part (by rfl) (by rfl)]
  rw [show afterPlug (afterOls o (afterPrep o s)) = before o s from rfl]
  have hSb : SolverOk o (before o s) := hS
  rw [seq_none (ho_ok o v hSb rfl rfl hho)]
  have hst := heStart o v s h1 hf
  rw [seq_none (he_ok o v hst hhe)]
  simp only [Bool.false_eq_true, if_false]
  apply collect_part
  · unfold afterHe afterHo; cases o.he <;> cases o.ho <;> rfl
  · intro hi
    unfold afterHe
    cases h3 : o.he
    · rw [h3] at hi
      have hi' : inverted o v = true := by simpa using hi
      have h4 : o.ho = true := by
        unfold inverted at hi'
        cases h : o.ho
        · simp [h] at hi'
        · rfl
      simp [afterHo, h4, hi']
    · rw [h3] at hi
      cases h5 : inverted o v
      · rw [h5] at hi
        simp at hi ⊢
        exact Or.inr hi
      · have := (hst h3).aainv h5
        simp [this]
  · unfold afterHe afterHo; cases o.he <;> cases o.ho <;> rfl
  · unfold afterHe afterHo; cases o.he <;> cases o.ho <;> rfl
  · intro h3
    unfold afterHe afterHo; rw [h3]; cases o.he <;> exact ⟨rfl, rfl⟩
  · intro h3
    unfold afterHe afterHo; rw [h3]; cases o.ho <;> exact ⟨rfl, rfl, rfl⟩

theorem middle_bad (s : St) (hf : Fresh o s) (h : ¬ Spec.Supported o v) : ∃ e t,
    Spec.outcome o v = some e ∧ middle o v (afterPrep o s) = (some e, t) ∧
      ∃ p, t.trace = s.trace ++ [.prepare, .stats, .ols] ++ p := by
  unfold Spec.Supported at h
  push Not at h
  obtain ⟨hfull, h⟩ := h
  have h1 : o.statsonly = false := by cases h : o.statsonly <;> simp [Spec.full, h] at hfull ⊢
  have h2 : o.feonly = false := by cases h : o.feonly <;> simp [Spec.full, h] at hfull ⊢
  have hS := solverOk_prep o s h1
  have hSb : SolverOk o (before o s) := hS
  have key : ∃ e, Spec.outcome o v = some e ∧ Raises e (hoPart o v ;; hePart o v ;; dropQ o v ;; collect o) (before o s) := by
    unfold Spec.outcome
    rw [if_neg (by simp [hfull])]
    by_cases hho : o.ho = true → Spec.HoOk o v
    · obtain ⟨hhe, hbad⟩ := h hho
      rw [if_neg (by simpa using hho), if_pos ⟨hhe, hbad⟩]
      refine ⟨_, rfl, Raises.seq_right (ho_ok o v hSb rfl rfl hho) ?_ (Raises.seq_left ?_)⟩
      · unfold afterHo; split
        · exact ⟨_, rfl⟩
        · exact ⟨[], (List.append_nil _).symm⟩
      · exact he_bad o v (heStart o v s h1 hf hhe) hhe hbad
    · push Not at hho
      rw [if_pos hho]
      exact ⟨_, rfl, Raises.seq_left (ho_bad o v hSb rfl rfl hho.1 hho.2)⟩
  obtain ⟨e, he, t, hk, p, hp⟩ := key
  refine ⟨e, t, he, ?_, (if o.attach then [.attach] else []) ++ [.residuals, .plugIn] ++ p, ?_⟩
  · unfold middle
    rw [on_apply, if_pos (by simp [h1]), ols_part o hS, on_apply, if_pos (by simp [h2]), plug_part (by rfl) (by rfl)]
    exact hk
  · rw [hp]
    simp [before, afterPlug, afterOls, afterPrep]

theorem clear_mid (s : St) :
    ∃ t, (clear o ;; save o) (afterMid o v s) = (none, t) ∧
      t.trace = (afterMid o v s).trace ++ (if o.outputfile then [.save] else []) ∧
      t.resFe = (afterMid o v s).resFe ∧ t.resHo = (afterMid o v s).resHo ∧ t.resHe = (afterMid o v s).resHe ∧
      t.sqrtD = (afterMid o v s).sqrtD ∧ t.q = (afterMid o v s).q ∧ t.aainv = (afterMid o v s).aainv ∧ t.base = false ∧
      t.strings = o.outputfile ∧ t.columns = (afterMid o v s).columns := by
  have hb : (afterMid o v s).base = true := by
    unfold afterMid
    split
    · rfl
    · split
      · rfl
      · unfold afterCollect afterHe afterHo; cases o.he <;> cases o.ho <;> rfl
  have hs : (afterMid o v s).strings = false := by
    unfold afterMid
    split
    · rfl
    · split
      · rfl
      · unfold afterCollect afterHe afterHo; cases o.he <;> cases o.ho <;> rfl
  have hS : o.statsonly = false → SolverOk o (afterMid o v s) := fun h => by
    have hS := solverOk_prep o s h
    unfold afterMid
    rw [h]
    simp only [Bool.false_eq_true, if_false]
    split
    · exact hS
    · unfold afterCollect afterHe afterHo; cases o.he <;> cases o.ho <;> exact hS
  obtain ⟨t, h1, h2, h3, h4, h5, h6, h7, h8, h9, h10, h11⟩ := clear_ok o hb hS
  rw [seq_none h1]
  cases ho : o.outputfile
  · exact ⟨t, by simp [save, on_apply, ho], by simp [h2], h3, h4, h5, h6, h7, h8, h9, by rw [h10, hs], h11⟩
  · exact ⟨{ t with trace := t.trace ++ [.save], strings := true }, by simp [save, on_apply, ho, Act.seq],
      by simp [h2], h3, h4, h5, h6, h7, h8, h9, rfl, h11⟩

/-! ## C56 -/

/-- C56: `FEEstimator.fit` ends without an exception for exactly the supported combinations of options, data and files.
(`s` is the state of the estimator: new, or left by earlier calls of `fit`.) -/
theorem C56_fe_supported_partial (s : St) (hf : Fresh o s) : (feFit o v s).1 = none ↔ Spec.Supported o v := by
  rw [feFit_eq]
  constructor
  · intro h
    by_contra hc
    obtain ⟨e, t, _, hr, _⟩ := middle_bad o v s hf hc
    rw [seq_some hr] at h
    simp at h
  · intro h
    rw [seq_none (middle_ok o v s hf h)]
    obtain ⟨t, ht, _⟩ := clear_mid o v s
    rw [ht]

theorem outcome_supported (h : Spec.Supported o v) : Spec.outcome o v = none := by
  unfold Spec.outcome
  cases hf : Spec.full o
  · simp
  · obtain ⟨h1, h2⟩ := h hf
    rw [if_neg (by simp), if_neg (by simpa using h1), if_neg (by simpa using h2)]

/-- C56: which exception the others raise. -/
theorem C56_fe_outcome (s : St) (hf : Fresh o s) : (feFit o v s).1 = Spec.outcome o v := by
  by_cases h : Spec.Supported o v
  · rw [(C56_fe_supported_partial o v s hf).2 h, outcome_supported o v h]
  · obtain ⟨e, t, he, hr, _⟩ := middle_bad o v s hf h
    rw [feFit_eq, seq_some hr, he]

/-- C56 does not hold of `FEEstimator` as far as it asks for a check before any work: every combination that is not
supported is rejected only after the linear systems of the fixed effects have been solved. -/
theorem C56_fe_late (s : St) (hf : Fresh o s) (h : ¬ Spec.Supported o v) :
    (feFit o v s).1 ≠ none ∧ ∃ p, (feFit o v s).2.trace = s.trace ++ [.prepare, .stats, .ols] ++ p := by
  obtain ⟨e, t, he, hr, hp⟩ := middle_bad o v s hf h
  rw [feFit_eq, seq_some hr]
  exact ⟨by simp, hp⟩

/-- Those of the methods called that are in the group `g`, in order. -/
def Spec.among (g : List Phase) (p : List Phase) : List Phase := p.filter (· ∈ g)

/-- The path. -/
def path : List Phase :=
  .prepare :: .stats :: ((if o.statsonly then [] else .ols :: ((if o.attach then [.attach] else []) ++
    if o.feonly then [] else .residuals :: .plugIn :: (hoTrace o v ++ (heTrace o ++ [.collect])))) ++
      if o.outputfile then [.save] else [])

theorem afterHo_trace (s : St) : (afterHo o v s).trace = s.trace ++ hoTrace o v := by
  unfold afterHo hoTrace
  cases o.ho <;> simp

theorem afterHe_trace (s : St) : (afterHe o v s).trace = s.trace ++ heTrace o := by
  unfold afterHe heTrace
  cases o.he <;> simp

/-- C56: a supported combination selects one method for each task it asks for, none for the others. -/
theorem C56_fe_path (s : St) (hf : Fresh o s) (h : Spec.Supported o v) : ∃ p t,
    feFit o v s = (none, t) ∧ t.trace = s.trace ++ p ∧
    Spec.among [.ols] p = (if o.statsonly then [] else [.ols]) ∧
    Spec.among [.attach] p = (if o.attach && !o.statsonly then [.attach] else []) ∧
    Spec.among [.plugIn] p = (if Spec.full o then [.plugIn] else []) ∧
    Spec.among [.sigmaExact, .sigmaApprox] p =
      (if Spec.full o && o.ho && v.weighted then [if o.exactSigma then .sigmaExact else .sigmaApprox] else []) ∧
    Spec.among [.hoExact, .hoApprox] p =
      (if Spec.full o && o.ho then [if o.exactHo then .hoExact else .hoApprox] else []) ∧
    Spec.among [.levFile, .levExact, .levApprox] p = (if Spec.full o && o.he then [Spec.leverage o] else []) ∧
    Spec.among [.heExact, .heApprox] p =
      (if Spec.full o && o.he then [if o.exactHe then .heExact else .heApprox] else []) ∧
    Spec.among [.save] p = (if o.outputfile then [.save] else []) := by
  obtain ⟨t, h1, h2, -⟩ := clear_mid o v s
  have key : feFit o v s = (none, t) := by rw [feFit_eq, seq_none (middle_ok o v s hf h), h1]
  have hl : Spec.leverage o = .levFile ∨ Spec.leverage o = .levExact ∨ Spec.leverage o = .levApprox := by
    unfold Spec.leverage; split
    · simp
    · split <;> simp
  refine ⟨path o v, t, key, ?_, ?_⟩
  · rw [h2]
    unfold afterMid path
    cases o.statsonly
    · cases o.feonly
      · simp only [Bool.false_eq_true, if_false, afterCollect, afterHe_trace, afterHo_trace, before, afterPlug, afterOls,
          afterPrep]
        simp
      · unfold afterOls afterPrep
        cases o.attach <;> simp
    · unfold afterPrep; simp
  · have hH : Spec.among [Phase.ols] (hoTrace o v) = [] ∧
        Spec.among [Phase.attach] (hoTrace o v) = [] ∧
        Spec.among [Phase.plugIn] (hoTrace o v) = [] ∧
        Spec.among [Phase.sigmaExact, Phase.sigmaApprox] (hoTrace o v) = (if o.ho && v.weighted then [if o.exactSigma then .sigmaExact else .sigmaApprox] else []) ∧
        Spec.among [Phase.hoExact, Phase.hoApprox] (hoTrace o v) = (if o.ho then [if o.exactHo then .hoExact else .hoApprox] else []) ∧
        Spec.among [Phase.levFile, Phase.levExact, Phase.levApprox] (hoTrace o v) = [] ∧
        Spec.among [Phase.heExact, Phase.heApprox] (hoTrace o v) = [] ∧
        Spec.among [Phase.save] (hoTrace o v) = [] := by
      unfold hoTrace
      cases o.ho <;> cases v.weighted <;> cases o.exactSigma <;> cases o.exactHo <;> decide
    have hE : Spec.among [Phase.ols] (heTrace o) = [] ∧
        Spec.among [Phase.attach] (heTrace o) = [] ∧
        Spec.among [Phase.plugIn] (heTrace o) = [] ∧
        Spec.among [Phase.sigmaExact, Phase.sigmaApprox] (heTrace o) = [] ∧
        Spec.among [Phase.hoExact, Phase.hoApprox] (heTrace o) = [] ∧
        Spec.among [Phase.levFile, Phase.levExact, Phase.levApprox] (heTrace o) = (if o.he then [Spec.leverage o] else []) ∧
        Spec.among [Phase.heExact, Phase.heApprox] (heTrace o) = (if o.he then [if o.exactHe then .heExact else .heApprox] else []) ∧
        Spec.among [Phase.save] (heTrace o) = [] := by
      unfold heTrace
      generalize Spec.leverage o = l at hl
      rcases hl with rfl | rfl | rfl <;> cases o.he <;> cases o.exactHe <;> decide
    obtain ⟨a1, a2, a3, a4, a5, a6, a7, a8⟩ := hH
    obtain ⟨b1, b2, b3, b4, b5, b6, b7, b8⟩ := hE
    simp only [Spec.among] at a1 a2 a3 a4 a5 a6 a7 a8 b1 b2 b3 b4 b5 b6 b7 b8
    simp only [Spec.among, path, Spec.full]
    generalize hoTrace o v = x at *
    generalize heTrace o = y at *
    refine ⟨?_, ?_, ?_, ?_, ?_, ?_, ?_, ?_⟩ <;>
      obtain c1 | c1 := Bool.eq_false_or_eq_true o.statsonly <;> obtain c2 | c2 := Bool.eq_false_or_eq_true o.feonly <;>
      obtain c3 | c3 := Bool.eq_false_or_eq_true o.attach <;> obtain c4 | c4 := Bool.eq_false_or_eq_true o.outputfile <;>
      simp only [c1, c2, c3, c4] <;> simp [List.filter_cons] <;> simp_all <;>
      rw [List.filter_eq_nil_iff.2 (by simpa using a8), List.filter_eq_nil_iff.2 (by simpa using b8)] <;> rfl

/-- C56: a successful `fit` stores the results asked for.  (Here `s` is a new estimator.) -/
theorem C56_fe_results (h : Spec.Supported o v) :
    (feFit o v {}).2.resFe = Spec.full o ∧ (feFit o v {}).2.resHo = (Spec.full o && o.ho) ∧
    (feFit o v {}).2.resHe = (Spec.full o && o.he) ∧ (feFit o v {}).2.columns = (o.attach && !o.statsonly) := by
  obtain ⟨t, h1, -, h3, h4, h5, -, -, -, -, -, h6⟩ := clear_mid o v {}
  have key : feFit o v {} = (none, t) := by rw [feFit_eq, seq_none (middle_ok o v {} (by simp [Fresh]) h), h1]
  rw [key]
  have hc : ∀ s : St, (afterHo o v s).resHo = s.resHo ∧ (afterHo o v s).resHe = s.resHe ∧
      (afterHo o v s).columns = s.columns := fun s => by unfold afterHo; cases o.ho <;> exact ⟨rfl, rfl, rfl⟩
  have hd : ∀ s : St, (afterHe o v s).resHo = s.resHo ∧ (afterHe o v s).resHe = s.resHe ∧
      (afterHe o v s).columns = s.columns := fun s => by unfold afterHe; cases o.he <;> exact ⟨rfl, rfl, rfl⟩
  simp only [h3, h4, h5, h6]
  unfold afterMid Spec.full
  cases o.statsonly
  · cases o.feonly
    · simp [afterCollect, hc, hd, before, afterPlug, afterOls, afterPrep]
    · simp [afterOls, afterPrep]
  · simp [afterPrep]

/-- C56: the constructor checks one thing before any data is touched: draws for the leverages that cannot be shared out
equally between the processes. -/
theorem C56_fe_init : feInit o = if o.he = true ∧ ¬ o.ncore ∣ o.ndrawLev then some .value else none := by
  unfold feInit
  simp only [Nat.dvd_iff_mod_eq_zero]

/-- Options that ask for everything, approximately. -/
def sample : FEOpts :=
  { statsonly := false, feonly := false, attach := true, ho := true, he := true, exactSigma := true, exactHo := false,
    exactHe := false, exactLev := false, hutchpp := false, levfile := false, solver := .other, stayers := .firmMean,
    ndrawSigma := 5, ndrawHo := 5, ndrawHe := 5, ndrawLev := 50, ncore := 1, outputfile := false,
    qvar := [true], qcov := [true] }

/-- Weighted data with leverages up to 1/2. -/
noncomputable def sampleEnv : Env :=
  { nn := 10, weighted := true, maxLev := fun _ => 1 / 2, loneStayer := false, files := 0 }

/-- The hypotheses of the theorems above can be met, -/
example : Fresh sample {} ∧ Spec.Supported sample sampleEnv ∧ feInit sample = none := by
  refine ⟨by simp [Fresh], fun _ => ⟨fun _ => ⟨by simp [sample], by simp [sample], by simp [sample]⟩,
    fun _ => ⟨by simp [sample], by simp [sample], ?_, by simp [sample], by simp [sample], by simp [sample]⟩⟩, by decide⟩
  simp only [sampleEnv]; norm_num

/-- and so can those of the rejection: an exact trace of `cov(psi + alpha, ...)`. -/
example : ¬ Spec.Supported { sample with exactHo := true, qcov := [false] } sampleEnv := by
  intro h
  have := ((h rfl).1 rfl).simple rfl
  simp at this

/-! ## C84 -/

/-- A statement after which what holds of a fresh estimator still holds. -/
def Keeps (a : Act) : Prop := ∀ s, Fresh o s → Fresh o (a s).2

theorem Keeps.seq {a b : Act} (ha : Keeps o a) (hb : Keeps o b) : Keeps o (a ;; b) := by
  intro s hs
  have h1 := ha s hs
  unfold Act.seq
  match h : a s with
  | (none, t) => rw [h] at h1; exact hb t h1
  | (some e, t) => rw [h] at h1; exact h1

theorem Keeps.on {a : Act} {b : Bool} (ha : Keeps o a) : Keeps o (on b a) := by
  cases b
  · exact fun s hs => hs
  · exact ha

theorem Keeps.need (p : St → Bool) : Keeps o (need p) := by
  intro s hs
  unfold Pytwoway.Options.need
  split <;> exact hs

theorem Keeps.raise (e : Err) : Keeps o (raise e) := fun _ hs => hs

theorem Keeps.call (p : Phase) : Keeps o (call p) := fun _ hs => hs

theorem Keeps.skip : Keeps o Act.skip := fun _ hs => hs

theorem Keeps.put {f : St → St} (h : ∀ s, (f s).sqrtD = s.sqrtD ∨ (f s).sqrtD = false) : Keeps o (put f) := by
  intro s hs hD
  rcases h s with h | h
  · exact hs (h ▸ hD)
  · have hD' : (f s).sqrtD = true := hD
    simp [h] at hD'

theorem keeps_solve : Keeps o (solve o) := by
  unfold solve
  refine .seq o (.need o _) ?_
  split
  · exact .need o _
  · exact .skip o
  · exact .need o _

theorem keeps_put {f : St → St} (h : ∀ s, (f s).sqrtD = s.sqrtD ∨ (f s).sqrtD = false) : Keeps o (put f) := .put o h

theorem keeps_draws (n : ℕ) : Keeps o (draws o n) :=
  .on o (.seq o (keeps_solve o) (.seq o (.need o _) (.on o (.raise o _))))

theorem keeps_inv : Keeps o makeInverse := .seq o (.need o _) (keeps_put o fun s => .inl rfl)

theorem keeps_hoPart : Keeps o (hoPart o v) := by
  have S := keeps_solve o
  have P : ∀ {f : St → St}, (∀ s, (f s).sqrtD = s.sqrtD ∨ (f s).sqrtD = false) → Keeps o (put f) := fun h => .put o h
  refine .on o (.seq o (.on o ?_) (.seq o ?_ ?_))
  · split
    · exact .seq o (keeps_inv o) (.seq o (.call o _) (.seq o (.need o _) (P fun s => .inl rfl)))
    · exact .seq o (.call o _) (.seq o S (.seq o (.on o (.raise o _)) (P fun s => .inl rfl)))
  · exact .seq o (.call o _) (.seq o (.need o _) (.seq o (.on o (.need o _)) (P fun s => .inl rfl)))
  · split
    · exact .seq o (.on o (keeps_inv o)) (.seq o (.call o _) (.seq o (.need o _) (.seq o (.on o (.raise o _)) (P fun s => .inl rfl))))
    · exact .seq o (.call o _) (.seq o (keeps_draws o _) (P fun s => .inl rfl))

theorem keeps_hePart : Keeps o (hePart o v) := by
  have S := keeps_solve o
  have P : ∀ {f : St → St}, (∀ s, (f s).sqrtD = s.sqrtD ∨ (f s).sqrtD = false) → Keeps o (put f) := fun h => .put o h
  refine .on o (.seq o (.on o (keeps_inv o)) (.seq o ?_ (.seq o ?_ (.seq o ?_ (.on o ?_)))))
  · split
    · exact .seq o (.call o _) (.seq o (.on o (.raise o _)) (.seq o (.need o _) (.seq o (P fun s => .inl rfl) (.on o (.raise o _)))))
    · split
      · exact .seq o (.call o _) (.seq o (.need o _) (.seq o (.need o _) (.seq o (P fun s => .inl rfl) (.on o (.raise o _)))))
      · exact .seq o (.call o _) (.seq o (.need o _) (.seq o S (.seq o (P fun s => .inl rfl) (.on o (.raise o _)))))
  · exact .seq o (.call o _) (.seq o (.need o _) (.seq o (.on o (.raise o _)) (P fun s => .inl rfl)))
  · split
    · exact .seq o (.call o _) (.seq o (.need o _) (.seq o (.need o _) (.seq o (.need o _) (.seq o (.on o (.raise o _)) (P fun s => .inl rfl)))))
    · exact .seq o (.call o _) (.seq o (keeps_draws o _) (P fun s => .inl rfl))
  · exact .seq o (.need o _) (P fun s => .inr rfl)

theorem keeps_rest : Keeps o (dropQ o v) ∧ Keeps o (collect o) ∧ Keeps o (clear o) ∧ Keeps o (save o) := by
  have P : ∀ {f : St → St}, (∀ s, (f s).sqrtD = s.sqrtD ∨ (f s).sqrtD = false) → Keeps o (put f) := fun h => .put o h
  refine ⟨.seq o (.need o _) (.seq o (P fun s => .inl rfl) (.on o (.seq o (.need o _) (P fun s => .inl rfl)))),
    .seq o (.call o _) (.seq o (.need o _) (.seq o (P fun s => .inl rfl)
    (.seq o (.on o (.seq o (.need o _) (P fun s => .inl rfl))) (.on o (.seq o (.need o _) (P fun s => .inl rfl)))))), ?_,
    .on o (.seq o (.call o _) (P fun s => .inl rfl))⟩
  refine .seq o (.need o _) (.seq o (P fun s => .inl rfl) (.on o ?_))
  split <;> exact .seq o (.need o _) (P fun s => .inl rfl)

theorem keeps_feFit : Keeps o (feFit o v) := by
  have S := keeps_solve o
  have P : ∀ {f : St → St}, (∀ s, (f s).sqrtD = s.sqrtD ∨ (f s).sqrtD = false) → Keeps o (put f) := fun h => .put o h
  have hprep : Keeps o (prepare o) := by
    refine .seq o (.call o _) (.seq o (P fun s => .inl rfl) (.seq o ?_ (.on o ?_)))
    · intro s hs
      rw [on_apply]
      split
      · rename_i hc
        intro _
        simpa using hc
      · exact hs
    · split <;> exact P fun s => .inl rfl
  obtain ⟨hdrop, hcol, hclear, hsave⟩ := keeps_rest o v
  refine .seq o (P fun s => .inl rfl) (.seq o hprep (.seq o ?_ (.seq o (.on o ?_) (.seq o hclear hsave))))
  · exact .seq o (.call o _) (.need o _)
  · refine .seq o (.seq o (.call o _) (.seq o S (P fun s => .inl rfl))) (.seq o (.on o (.seq o (.call o _) (.seq o (.need o _) (P fun s => .inl rfl)))) (.on o ?_))
    exact .seq o (.seq o (.call o _) (.seq o (.need o _) (P fun s => .inl rfl)))
      (.seq o (.seq o (.call o _) (.seq o (.need o _) (P fun s => .inl rfl)))
      (.seq o (keeps_hoPart o v) (.seq o (keeps_hePart o v) (.seq o hdrop hcol))))

/-- The estimator after calls of `fit` in the environments of the list (the files and the random draws may change from
call to call), whether they raised or not. -/
noncomputable def fits : List Env → St
  | [] => {}
  | v :: l => (feFit o v (fits l)).2

theorem fresh_fits (l : List Env) : Fresh o (fits o l) := by
  induction l with
  | nil => simp [Fresh, fits]
  | cons v l ih => exact keeps_feFit o v _ ih

/-- C84: whatever earlier calls of `fit` did, and whether they failed or not, a call of `fit` ends as on a new
estimator, -/
theorem C84_refit_outcome (l : List Env) : (feFit o v (fits o l)).1 = (feFit o v {}).1 := by
  rw [C56_fe_outcome o v _ (fresh_fits o l), C56_fe_outcome o v _ (by simp [Fresh])]

theorem success_trace (s : St) (hf : Fresh o s) (h : Spec.Supported o v) :
    (feFit o v s).2.trace = s.trace ++ path o v := by
  obtain ⟨t, h1, h2, -⟩ := clear_mid o v s
  rw [feFit_eq, seq_none (middle_ok o v s hf h), h1, h2]
  unfold afterMid path
  cases o.statsonly
  · cases o.feonly
    · simp only [Bool.false_eq_true, if_false, afterCollect, afterHe_trace, afterHo_trace, before, afterPlug, afterOls,
        afterPrep]
      simp
    · unfold afterOls afterPrep
      cases o.attach <;> simp
  · unfold afterPrep; simp

/-- a call that does not fail goes through the same methods in the same order, -/
theorem C84_refit_path (l : List Env) (h : (feFit o v {}).1 = none) :
    (feFit o v (fits o l)).2.trace = (fits o l).trace ++ (feFit o v {}).2.trace := by
  have hs := (C56_fe_supported_partial o v {} (by simp [Fresh])).1 h
  rw [success_trace o v _ (fresh_fits o l) hs, success_trace o v {} (by simp [Fresh]) hs]
  rfl

/-- and leaves the same results (numbers, unless they are also written to a file, in which case they are strings). -/
theorem C84_refit_results (l : List Env) (h : (feFit o v {}).1 = none) :
    ((feFit o v (fits o l)).2.resFe = true ↔ (fits o l).resFe = true ∨ Spec.full o = true) ∧
    ((feFit o v (fits o l)).2.resHo = true ↔ (fits o l).resHo = true ∨ (Spec.full o && o.ho) = true) ∧
    ((feFit o v (fits o l)).2.resHe = true ↔ (fits o l).resHe = true ∨ (Spec.full o && o.he) = true) ∧
    (feFit o v (fits o l)).2.strings = o.outputfile := by
  have hs := (C56_fe_supported_partial o v {} (by simp [Fresh])).1 h
  obtain ⟨t, h1, -, h3, h4, h5, -, -, -, -, h7, -⟩ := clear_mid o v (fits o l)
  have key : feFit o v (fits o l) = (none, t) := by rw [feFit_eq, seq_none (middle_ok o v _ (fresh_fits o l) hs), h1]
  rw [key]
  have hc : ∀ s : St, (afterHo o v s).resHo = s.resHo ∧ (afterHo o v s).resHe = s.resHe :=
    fun s => by unfold afterHo; cases o.ho <;> exact ⟨rfl, rfl⟩
  have hd : ∀ s : St, (afterHe o v s).resHo = s.resHo ∧ (afterHe o v s).resHe = s.resHe :=
    fun s => by unfold afterHe; cases o.he <;> exact ⟨rfl, rfl⟩
  simp only [h3, h4, h5, h7]
  refine ⟨?_, ?_, ?_, trivial⟩ <;>
  · unfold afterMid Spec.full
    cases o.statsonly
    · cases o.feonly
      · simp [afterCollect, hc, hd, before, afterPlug, afterOls, afterPrep]
      · simp [afterOls, afterPrep]
    · simp [afterPrep]

/-- C84, in part: a successful call leaves no matrices behind except, if the heteroskedastic correction was asked for together
with `statsonly` or `feonly`, the two made for the leverages. -/
theorem C84_no_leftovers_partial (h : (feFit o v {}).1 = none) :
    (feFit o v {}).2.base = false ∧ (feFit o v {}).2.q = false ∧ (feFit o v {}).2.aainv = false ∧
    ((feFit o v {}).2.sqrtD = true ↔ Spec.full o = false ∧ o.he = true ∧ o.levfile = false) := by
  have hs := (C56_fe_supported_partial o v {} (by simp [Fresh])).1 h
  obtain ⟨t, h1, -, -, -, -, h6, h7, h8, h9, -, -⟩ := clear_mid o v {}
  have key : feFit o v {} = (none, t) := by rw [feFit_eq, seq_none (middle_ok o v {} (by simp [Fresh]) hs), h1]
  rw [key]
  refine ⟨h9, ?_, ?_, ?_⟩
  · rw [h7]; unfold afterMid afterCollect afterOls afterPrep
    cases o.statsonly <;> cases o.feonly <;> rfl
  · rw [h8]; unfold afterMid
    cases o.statsonly
    · cases o.feonly
      · simp only [Bool.false_eq_true, if_false, afterCollect]
        unfold afterHe afterHo
        cases hi : inverted o v <;> cases o.he <;> cases o.ho <;>
          simp [before, afterPlug, afterOls, afterPrep] <;> (intro h h'; simpa [h'] using h)
      · rfl
    · rfl
  · rw [h6]; unfold afterMid Spec.full
    cases o.statsonly
    · cases o.feonly
      · simp only [Bool.false_eq_true, if_false, afterCollect]
        unfold afterHe afterHo
        cases c1 : o.he <;> cases o.ho <;> cases c2 : o.levfile <;> simp [before, afterPlug, afterOls, afterPrep, c1, c2]
      · simp [afterOls, afterPrep]
    · simp [afterPrep]

/-- C84 is false as far as it says that nothing is left behind: with `he` and `feonly` the matrices made for the
leverages stay. -/
theorem C84_leftovers : (feFit { sample with feonly := true } sampleEnv {}).1 = none ∧
    (feFit { sample with feonly := true } sampleEnv {}).2.sqrtD = true := by
  have h : (feFit { sample with feonly := true } sampleEnv {}).1 = none := by
    rw [C56_fe_supported_partial _ _ _ (by simp [Fresh])]
    intro h
    simp [Spec.full] at h
  exact ⟨h, ((C84_no_leftovers_partial _ _ h).2.2.2).2 ⟨rfl, rfl, rfl⟩⟩

/-- The hypothesis of these theorems can be met, also after a call that failed. -/
example : (feFit sample sampleEnv {}).1 = none ∧ (feFit sample { sampleEnv with maxLev := fun _ => 1 } {}).1 ≠ none := by
  constructor
  · rw [C56_fe_supported_partial _ _ _ (by simp [Fresh])]
    refine fun _ => ⟨fun _ => ⟨by simp [sample], by simp [sample], by simp [sample]⟩,
      fun _ => ⟨by simp [sample], by simp [sample], ?_, by simp [sample], by simp [sample], by simp [sample]⟩⟩
    simp only [sampleEnv]; norm_num
  · intro h
    rw [C56_fe_supported_partial _ _ _ (by simp [Fresh])] at h
    have := ((h rfl).2 rfl).lev
    simp at this

end Pytwoway.Options
