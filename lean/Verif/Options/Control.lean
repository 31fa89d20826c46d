import Verif.Options.FEProps

/-! # `FEControlEstimator`: option checks and the path through `fit`

`pytwoway/fecontrol.py`.  The methods have the same names as those of `FEEstimator` and the same structure, so most
statements of `Verif.Options.FE` are reused; the attributes are called differently (`sqrtD` stands for `sqrt_DpA`, `aainv`
for `AAinv`, `amg` for `AAinv_solver`, `q` for `Q_var`, `Q_cov`, `Q_covariates`, `hat` for `gamma_hat`). -/

namespace Pytwoway.Options

/-- The options of `fecontrol_params` (fecontrol.py:42-180) that decide the path. -/
structure FCOpts where
  /-- Those shared with `fe_params`.  (The entries of `qvar` and `qcov` do not matter here, only whether there are any.) -/
  fe : FEOpts
  /-- `categorical_controls`, `continuous_controls`. -/
  cats : List String
  cts : List String
  /-- All names that occur in `Q_var` and `Q_cov`. -/
  names : List String
  /-- `se_cols`, `se_clusters`. -/
  seCols : Option (List String)
  seClusters : Option (List String)

/-- The data: the subcolumns of each column (`col_reference_dict`). -/
structure FCEnv where
  env : Env
  subcols : String → Option (List String)

variable (o : FCOpts) (d : FCEnv)

/-- `len(to_list(data.col_reference_dict[col])) != 1`, fecontrol.py:249, 257. -/
def single (c : String) : Option Err :=
  match d.subcols c with
  | none => some .key
  | some l => if l.length ≠ 1 then some .notImplemented else none

/-- A loop of checks.  Used for fecontrol.py:241-258. -/
def firstErr (f : String → Option Err) : List String → Option Err
  | [] => none
  | c :: l => match f c with
    | some e => some e
    | none => firstErr f l

/-- The checks of `se_cols` and `se_clusters` in `__init__`, fecontrol.py:241-258. -/
def seCheck : Option Err :=
  match o.seCols with
  | none => none
  | some cols =>
    if cols.length = 0 then some .value
    else match firstErr (fun c => if c ∉ o.cts then some .notImplemented else single d c) cols with
      | some e => some e
      | none => match o.seClusters with
        | none => none
        | some cl => firstErr (fun c => if c ∉ ["i", "j"] ++ o.cats then some .notImplemented else single d c) cl

/-- `FEControlEstimator.__init__`, fecontrol.py:202-285. -/
def fcInit : Option Err :=
  match seCheck o d with
  | some e => some e
  | none => if o.fe.he ∧ o.fe.ndrawLev / o.fe.ncore * o.fe.ncore ≠ o.fe.ndrawLev then some .value else none

/-- `_prep_vars` and `_prep_matrices`, fecontrol.py:469-637.  A column the data does not have raises `KeyError`. -/
def fcPrepare : Act :=
  call .prepare ;;
  on ((o.cats ++ o.cts).any fun c => (d.subcols c).isNone) (raise .key) ;;
  on (o.cats.any fun c => decide (1 < ((d.subcols c).getD []).length)) (raise .notImplemented) ;;
  put (fun s => { s with base := true }) ;;
  on (o.fe.he && !o.fe.levfile) (put fun s => { s with sqrtD := true }) ;;
  on (!o.fe.statsonly) (match o.fe.solver with
    | .amg => put fun s => { s with amg := true }
    | _ => put fun s => { s with pcd := true })

/-- The keys of `cov_indices`, fecontrol.py:684-706. -/
def covNames : List String := ["psi", "alpha"] ++ o.cats ++ o.cts.flatMap fun c => (d.subcols c).getD []

/-- `_construct_Q` and `_estimate_fe`, fecontrol.py:863-932; Q.py:386-390, 475-500 look the names up. -/
def fcPlugIn : Act :=
  call .plugIn ;; need (fun s => s.base && s.hat) ;; put (fun s => { s with q := true }) ;;
  on (o.names.any fun c => decide (c ∉ covNames o d)) (raise .key) ;; put fun s => { s with plug := true }

/-- `_estimate_clustered_se`, fecontrol.py:779-842. -/
def fcSE : Act :=
  call .standardErrors ;; need (fun s => s.base && s.hat && s.resid) ;;
  on ((o.seClusters.getD ["i", "j"]).any fun c => decide (c ∉ "i" :: "j" :: covNames o d)) (raise .key) ;;
  on ((o.seCols.getD []).any fun c => decide (c ∉ covNames o d)) (raise .key) ;;
  solve o.fe

/-- `FEControlEstimator.fit`, fecontrol.py:320-467. -/
noncomputable def fcFit : Act :=
  on (o.fe.exactHo || o.fe.exactLev || o.fe.exactHe) (raise .notImplemented) ;;
  put (fun s => { s with strings := false }) ;;
  fcPrepare o d ;; stats ;;
  on (!o.fe.statsonly) (
    ols o.fe ;; on o.fe.attach attach ;;
    on (!o.fe.feonly) (residuals ;; fcPlugIn o d ;; on o.seCols.isSome (fcSE o d) ;;
      hoPart o.fe d.env ;; hePart o.fe d.env ;; dropQ o.fe d.env ;; collect o.fe)) ;;
  clear o.fe ;; save o.fe

/-! ## Specification -/

/-- A column with one subcolumn. -/
def Spec.Single (d : FCEnv) (c : String) : Prop := ∃ x, d.subcols c = some [x]

/-- The options the constructor accepts: standard errors are for some continuous controls, clusters are firms, workers
or categorical controls, all with one subcolumn; draws for the leverages can be shared out. -/
structure Spec.InitOk (o : FCOpts) (d : FCEnv) : Prop where
  cols : ∀ l, o.seCols = some l → l ≠ [] ∧ ∀ c ∈ l, c ∈ o.cts ∧ Spec.Single d c
  clusters : ∀ l, o.seCols ≠ none → o.seClusters = some l → ∀ c ∈ l, (c = "i" ∨ c = "j" ∨ c ∈ o.cats) ∧ Spec.Single d c
  cores : o.fe.he = true → o.fe.ncore ∣ o.fe.ndrawLev

/-- The options `fit` can handle. -/
structure Spec.ControlOk (o : FCOpts) (d : FCEnv) : Prop where
  /-- The controls are in the data. -/
  present : ∀ c ∈ o.cats ++ o.cts, d.subcols c ≠ none
  /-- Categorical controls do not have several subcolumns. -/
  one : ∀ c ∈ o.cats, ∀ l, d.subcols c = some l → l.length ≤ 1
  /-- Moments and standard errors are for existing covariates. -/
  names : Spec.full o.fe = true → ∀ c ∈ o.names, c ∈ covNames o d
  se : Spec.full o.fe = true → ∀ l, o.seCols = some l → (∀ c ∈ l, c ∈ covNames o d) ∧
    ∀ k, o.seClusters = some k → ∀ c ∈ k, c = "i" ∨ c = "j" ∨ c ∈ covNames o d
  /-- The corrections are possible. -/
  corrections : Spec.Supported o.fe d.env

/-- No exact traces or leverages. -/
def Spec.approximate (o : FCOpts) : Prop := o.fe.exactHo = false ∧ o.fe.exactLev = false ∧ o.fe.exactHe = false

/-! ## C56 -/

theorem firstErr_none (f : String → Option Err) (l : List String) : firstErr f l = none ↔ ∀ c ∈ l, f c = none := by
  induction l with
  | nil => simp [firstErr]
  | cons c l ih =>
    unfold firstErr
    cases h : f c
    · simp [h, ih]
    · simp [h]

theorem single_none (c : String) : single d c = none ↔ Spec.Single d c := by
  unfold single Spec.Single
  cases h : d.subcols c with
  | none => simp
  | some l =>
    match l with
    | [] => simp
    | [x] => simp
    | x :: y :: l => simp

/-- C56: the constructor of `FEControlEstimator` accepts exactly the supported options for standard errors and draws. -/
theorem C56_control_init : fcInit o d = none ↔ Spec.InitOk o d := by
  have hse : seCheck o d = none ↔ (∀ l, o.seCols = some l → l ≠ [] ∧ ∀ c ∈ l, c ∈ o.cts ∧ Spec.Single d c) ∧
      (∀ l, o.seCols ≠ none → o.seClusters = some l → ∀ c ∈ l, (c = "i" ∨ c = "j" ∨ c ∈ o.cats) ∧ Spec.Single d c) := by
    unfold seCheck
    have hc : ∀ (g : List String) (l : List String),
        firstErr (fun c => if c ∉ g then some .notImplemented else single d c) l = none ↔
        ∀ c ∈ l, c ∈ g ∧ Spec.Single d c := fun g l => by
      rw [firstErr_none]
      refine forall₂_congr fun c _ => ?_
      by_cases h : c ∈ g
      · simp [h, single_none]
      · simp [h]
    cases h : o.seCols with
    | none => simp
    | some cols =>
      match cols with
      | [] => simp
      | c :: cols =>
        simp only [List.length_cons, Nat.add_eq_zero_iff, one_ne_zero, and_false, if_false]
        have h1 := hc o.cts (c :: cols)
        cases h2 : firstErr (fun c => if c ∉ o.cts then some .notImplemented else single d c) (c :: cols) with
        | some e =>
          rw [h2] at h1
          simp only [reduceCtorEq, false_iff] at h1 ⊢
          exact fun hx => h1 (hx.1 _ rfl).2
        | none =>
          have h3 := h1.1 h2
          cases h4 : o.seClusters with
          | none => simpa using h3
          | some cl =>
            simp only [hc]
            constructor
            · intro h5
              refine ⟨fun l hl => by cases hl; exact ⟨by simp, h3⟩, fun l _ hl => by cases hl; simpa [or_assoc] using h5⟩
            · intro h5
              simpa [or_assoc] using h5.2 cl (by simp) rfl
  have hn : o.fe.ndrawLev / o.fe.ncore * o.fe.ncore ≠ o.fe.ndrawLev ↔ ¬ o.fe.ncore ∣ o.fe.ndrawLev :=
    not_congr ⟨fun h => ⟨_, by rw [Nat.mul_comm]; exact h.symm⟩, Nat.div_mul_cancel⟩
  unfold fcInit
  constructor
  · intro h
    cases h1 : seCheck o d with
    | some e => rw [h1] at h; simp at h
    | none =>
      rw [h1] at h
      obtain ⟨a, b⟩ := hse.1 h1
      refine ⟨a, b, fun he => ?_⟩
      by_contra hc
      simp [he, hn.2 hc] at h
  · intro h
    rw [hse.2 ⟨h.cols, h.clusters⟩]
    simp only
    rw [if_neg]
    rintro ⟨h1, h2⟩
    exact hn.1 h2 (h.cores h1)

/-- C56: exact HO traces, HE leverages and HE traces are rejected before any work: nothing is called, nothing changes. -/
theorem C56_control_exact (s : St) (h : ¬ Spec.approximate o) : fcFit o d s = (some .notImplemented, s) := by
  have : (o.fe.exactHo || o.fe.exactLev || o.fe.exactHe) = true := by
    unfold Spec.approximate at h
    cases h1 : o.fe.exactHo <;> cases h2 : o.fe.exactLev <;> cases h3 : o.fe.exactHe <;> simp_all
  unfold fcFit
  rw [this]
  rfl

theorem fcPrep_part (s : St) (h1 : ∀ c ∈ o.cats ++ o.cts, d.subcols c ≠ none)
    (h2 : ∀ c ∈ o.cats, ∀ l, d.subcols c = some l → l.length ≤ 1) (b : Act) :
    (put (fun s => { s with strings := false }) ;; fcPrepare o d ;; stats ;; b) s = b (afterPrep o.fe s) := by
  have a1 : ((o.cats ++ o.cts).any fun c => (d.subcols c).isNone) = false := by
    rw [List.any_eq_false]
    intro c hc hn
    exact h1 c hc (by simpa using hn)
  have a2 : (o.cats.any fun c => decide (1 < ((d.subcols c).getD []).length)) = false := by
    rw [List.any_eq_false]
    intro c hc hn
    cases h : d.subcols c with
    | none => exact h1 c (by simp [hc]) h
    | some l =>
      rw [h] at hn
      have := h2 c hc l h
      simp at hn
      omega
  refine Eq.trans ?_ (prep_part o.fe s b)
  unfold fcPrepare
  rw [a1, a2]
  rfl

/-- The estimation inside `fit`. -/
noncomputable def fcMiddle : Act :=
  on (!o.fe.statsonly) (
    ols o.fe ;; on o.fe.attach attach ;;
    on (!o.fe.feonly) (residuals ;; fcPlugIn o d ;; on o.seCols.isSome (fcSE o d) ;;
      hoPart o.fe d.env ;; hePart o.fe d.env ;; dropQ o.fe d.env ;; collect o.fe))

/-- The state before the corrections. -/
def fcBefore (s : St) : St :=
  { before o.fe s with
    trace := (before o.fe s).trace ++ if o.seCols.isSome then [.standardErrors] else [] }

/-- The state after the estimation. -/
def fcAfter (s : St) : St :=
  if o.fe.statsonly then afterPrep o.fe s
  else if o.fe.feonly then afterOls o.fe (afterPrep o.fe s)
  else afterCollect o.fe d.env (afterHe o.fe d.env (afterHo o.fe d.env (fcBefore o s)))

theorem fcHeStart (s : St) (hst : o.fe.statsonly = false) (hf : Fresh o.fe s) (hhe : o.fe.he = true) :
    HeStart o.fe d.env (afterHo o.fe d.env (fcBefore o s)) := by
  obtain ⟨a, b, c, e, f⟩ := heStart o.fe d.env s hst hf hhe
  unfold afterHo at *
  cases h : o.fe.ho <;> simp only [h, if_true, if_false, Bool.false_eq_true] at * <;> exact ⟨a, b, c, e, f⟩

theorem fcPlug_ok (s : St) (hb : s.base = true) (hh : s.hat = true) (hn : ∀ c ∈ o.names, c ∈ covNames o d) (b : Act) :
    (residuals ;; fcPlugIn o d ;; b) s = b (afterPlug s) := by
  refine Eq.trans ?_ (plug_part hb hh b)
  have : (o.names.any fun c => decide (c ∉ covNames o d)) = false := by
    rw [List.any_eq_false]; intro c hc; simpa using hn c hc
  unfold fcPlugIn
  rw [this]
  unfold plugIn Act.seq residuals need
  simp [Act.seq, hb, hh, on]

theorem fcSE_ok {s : St} (hS : SolverOk o.fe s) (hh : s.hat = true) (hr : s.resid = true)
    (hn : ∀ l, o.seCols = some l → (∀ c ∈ l, c ∈ covNames o d) ∧
      ∀ k, o.seClusters = some k → ∀ c ∈ k, c = "i" ∨ c = "j" ∨ c ∈ covNames o d) :
    on o.seCols.isSome (fcSE o d) s =
      (none, { s with trace := s.trace ++ if o.seCols.isSome then [.standardErrors] else [] }) := by
  cases h : o.seCols with
  | none => simp [on]
  | some l =>
    obtain ⟨h1, h2⟩ := hn l h
    have a1 : (l.any fun c => decide (c ∉ covNames o d)) = false := by
      rw [List.any_eq_false]; intro c hc; simpa using h1 c hc
    have a2 : ((o.seClusters.getD ["i", "j"]).any fun c => decide (c ∉ "i" :: "j" :: covNames o d)) = false := by
      rw [List.any_eq_false]
      intro c hc
      cases h3 : o.seClusters with
      | none => rw [h3] at hc; simp at hc ⊢; tauto
      | some k => rw [h3] at hc; simp at hc ⊢; have := h2 k h3 c hc; tauto
    have hb := hS.1
    have h4 := solve_ok' o.fe hS (s.trace ++ [Phase.standardErrors])
    unfold fcSE
    rw [h]
    simp only [Option.isSome_some, on_apply, if_true, Option.getD_some]
    rw [seq_none (call_apply _ _)]
    simp only [Act.seq, need, hb, hh, hr, Bool.and_true, if_true, on_apply, a1, a2, Bool.false_eq_true, if_false]
    simpa [hb, hh, hr] using h4

theorem fcMiddle_ok (s : St) (hf : Fresh o.fe s) (h : Spec.ControlOk o d) :
    fcMiddle o d (afterPrep o.fe s) = (none, fcAfter o d s) := by
  unfold fcMiddle fcAfter
  cases h1 : o.fe.statsonly
  swap
  · simp [on_apply]
  have hS := solverOk_prep o.fe s h1
  rw [on_apply, if_pos (by rfl), ols_part o.fe hS]
  cases h2 : o.fe.feonly
  swap
  · simp [on_apply]
  have hfull : Spec.full o.fe = true := by simp [Spec.full, h1, h2]
  obtain ⟨hho, hhe⟩ := h.corrections hfull
  rw [on_apply, if_pos (by rfl), fcPlug_ok o d _ (by rfl) (by rfl) (h.names hfull)]
  rw [show afterPlug (afterOls o.fe (afterPrep o.fe s)) = before o.fe s from rfl]
  have hSb : SolverOk o.fe (before o.fe s) := hS
  rw [seq_none (fcSE_ok o d hSb rfl rfl (h.se hfull))]
  rw [show ({ before o.fe s with trace := (before o.fe s).trace ++ if o.seCols.isSome then [.standardErrors] else [] } : St)
    = fcBefore o s from rfl]
  have hSc : SolverOk o.fe (fcBefore o s) := hS
  rw [seq_none (ho_ok o.fe d.env hSc rfl rfl hho)]
  have hst := fcHeStart o d s h1 hf
  rw [seq_none (he_ok o.fe d.env hst hhe)]
  simp only [Bool.false_eq_true, if_false]
  apply collect_part
  · unfold afterHe afterHo; cases o.fe.he <;> cases o.fe.ho <;> rfl
  · intro hi
    unfold afterHe
    cases h3 : o.fe.he
    · rw [h3] at hi
      have hi' : inverted o.fe d.env = true := by simpa using hi
      have h4 : o.fe.ho = true := by
        unfold inverted at hi'
        cases h : o.fe.ho
        · simp [h] at hi'
        · rfl
      simp [afterHo, h4, hi']
    · rw [h3] at hi
      cases h5 : inverted o.fe d.env
      · rw [h5] at hi
        simp at hi ⊢
        exact Or.inr hi
      · have := (hst h3).aainv h5
        simp [this]
  · unfold afterHe afterHo; cases o.fe.he <;> cases o.fe.ho <;> rfl
  · unfold afterHe afterHo; cases o.fe.he <;> cases o.fe.ho <;> rfl
  · intro h3
    unfold afterHe afterHo; rw [h3]; cases o.fe.he <;> exact ⟨rfl, rfl⟩
  · intro h3
    unfold afterHe afterHo; rw [h3]; cases o.fe.ho <;> exact ⟨rfl, rfl, rfl⟩

theorem fcClear (s : St) :
    ∃ t, (clear o.fe ;; save o.fe) (fcAfter o d s) = (none, t) ∧
      t.trace = (fcAfter o d s).trace ++ (if o.fe.outputfile then [.save] else []) ∧ t.sqrtD = (fcAfter o d s).sqrtD ∧
      t.resFe = (fcAfter o d s).resFe ∧ t.resHo = (fcAfter o d s).resHo ∧ t.resHe = (fcAfter o d s).resHe ∧
      t.q = (fcAfter o d s).q ∧ t.aainv = (fcAfter o d s).aainv ∧ t.base = false ∧
      t.strings = ((fcAfter o d s).strings || o.fe.outputfile) := by
  have hb : (fcAfter o d s).base = true := by
    unfold fcAfter
    split
    · rfl
    · split
      · rfl
      · unfold afterCollect afterHe afterHo; cases o.fe.he <;> cases o.fe.ho <;> rfl
  have hS : o.fe.statsonly = false → SolverOk o.fe (fcAfter o d s) := fun h => by
    have hS := solverOk_prep o.fe s h
    unfold fcAfter
    rw [h]
    simp only [Bool.false_eq_true, if_false]
    split
    · exact hS
    · unfold afterCollect afterHe afterHo; cases o.fe.he <;> cases o.fe.ho <;> exact hS
  obtain ⟨t, h1, h2, h3, h4, h5, h6, h7, h8, h9, h10, h11⟩ := clear_ok o.fe hb hS
  rw [seq_none h1]
  cases ho : o.fe.outputfile
  · exact ⟨t, by simp [save, on_apply, ho], by simp [h2], h6, h3, h4, h5, h7, h8, h9, by simp [h10]⟩
  · exact ⟨{ t with trace := t.trace ++ [.save], strings := true }, by simp [save, on_apply, ho, Act.seq],
      by simp [h2], h6, h3, h4, h5, h7, h8, h9, by simp⟩

theorem fcFit_approx (h : Spec.approximate o) (s : St) : fcFit o d s =
    (put (fun s => { s with strings := false }) ;; fcPrepare o d ;; stats ;; fcMiddle o d ;; clear o.fe ;; save o.fe) s := by
  obtain ⟨h1, h2, h3⟩ := h
  unfold fcFit
  rw [h1, h2, h3]
  rfl

/-- A statement that raises something. -/
def Fails (a : Act) (s : St) : Prop := ∃ e t, a s = (some e, t)

theorem Fails.left {a b : Act} {s : St} (h : Fails a s) : Fails (a ;; b) s := by
  obtain ⟨e, t, h⟩ := h
  exact ⟨e, t, seq_some h⟩

theorem Fails.right {a b : Act} {s t : St} (h : a s = (none, t)) (hb : Fails b t) : Fails (a ;; b) s := by
  obtain ⟨e, u, hb⟩ := hb
  exact ⟨e, u, by rw [seq_none h, hb]⟩

theorem Raises.fails {e : Err} {a : Act} {s : St} (h : Raises e a s) : Fails a s := by
  obtain ⟨t, h, _⟩ := h
  exact ⟨e, t, h⟩

theorem fcMiddle_bad (s : St) (hf : Fresh o.fe s)
    (h : ¬ ((Spec.full o.fe = true → ∀ c ∈ o.names, c ∈ covNames o d) ∧
      (Spec.full o.fe = true → ∀ l, o.seCols = some l → (∀ c ∈ l, c ∈ covNames o d) ∧
        ∀ k, o.seClusters = some k → ∀ c ∈ k, c = "i" ∨ c = "j" ∨ c ∈ covNames o d) ∧
      Spec.Supported o.fe d.env)) : Fails (fcMiddle o d) (afterPrep o.fe s) := by
  have hfull : Spec.full o.fe = true := by
    by_contra hc
    exact h ⟨fun h => absurd h hc, fun h => absurd h hc, fun h => absurd h hc⟩
  have h1 : o.fe.statsonly = false := by cases h : o.fe.statsonly <;> simp [Spec.full, h] at hfull ⊢
  have h2 : o.fe.feonly = false := by cases h : o.fe.feonly <;> simp [Spec.full, h] at hfull ⊢
  have hS := solverOk_prep o.fe s h1
  suffices hk : Fails (residuals ;; fcPlugIn o d ;; on o.seCols.isSome (fcSE o d) ;;
      hoPart o.fe d.env ;; hePart o.fe d.env ;; dropQ o.fe d.env ;; collect o.fe) (afterOls o.fe (afterPrep o.fe s)) by
    obtain ⟨e, t, hk⟩ := hk
    refine ⟨e, t, ?_⟩
    unfold fcMiddle
    rw [on_apply, if_pos (by simp [h1]), ols_part o.fe hS, on_apply, if_pos (by simp [h2])]
    exact hk
  by_cases hn : ∀ c ∈ o.names, c ∈ covNames o d
  swap
  · have hr : residuals (afterOls o.fe (afterPrep o.fe s)) = (none, { afterOls o.fe (afterPrep o.fe s) with
        resid := true, trace := (afterOls o.fe (afterPrep o.fe s)).trace ++ [.residuals] }) := by
      simp [residuals, Act.seq, need, afterOls, afterPrep]
    refine Fails.right hr (Fails.left ?_)
    have : (o.names.any fun c => decide (c ∉ covNames o d)) = true := by
      push Not at hn
      obtain ⟨c, h1, h2⟩ := hn
      rw [List.any_eq_true]
      exact ⟨c, h1, by simpa using h2⟩
    unfold fcPlugIn
    rw [this]
    exact ⟨.key, { afterOls o.fe (afterPrep o.fe s) with resid := true, q := true, trace := (afterOls o.fe (afterPrep o.fe s)).trace ++ [.residuals] ++ [.plugIn] }, by
      simp [Act.seq, need, on, afterOls, afterPrep]⟩
  obtain ⟨e, t, hk⟩ : Fails (on o.seCols.isSome (fcSE o d) ;;
      hoPart o.fe d.env ;; hePart o.fe d.env ;; dropQ o.fe d.env ;; collect o.fe) (before o.fe s) := by
    by_cases hse : ∀ l, o.seCols = some l → (∀ c ∈ l, c ∈ covNames o d) ∧
        ∀ k, o.seClusters = some k → ∀ c ∈ k, c = "i" ∨ c = "j" ∨ c ∈ covNames o d
    swap
    · refine Fails.left ?_
      push Not at hse
      obtain ⟨l, hl, hse⟩ := hse
      unfold fcSE
      rw [hl]
      simp only [Option.isSome_some, Option.getD_some]
      have hb : (before o.fe s).base = true := rfl
      by_cases a2 : ((o.seClusters.getD ["i", "j"]).any fun c => decide (c ∉ "i" :: "j" :: covNames o d)) = true
      · rw [a2]
        exact ⟨.key, { before o.fe s with trace := (before o.fe s).trace ++ [.standardErrors] }, by
          simp [Act.seq, need, on, before, afterPlug, afterOls, afterPrep]⟩
      · rw [Bool.not_eq_true] at a2
        have a1 : (l.any fun c => decide (c ∉ covNames o d)) = true := by
          by_contra hc
          rw [Bool.not_eq_true, List.any_eq_false] at hc
          obtain ⟨k, hk, c, hc1, hc2, hc3, hc4⟩ := hse fun c hcl => by simpa using hc c hcl
          rw [hk] at a2
          simp only [Option.getD_some, List.any_eq_false] at a2
          have := a2 c hc1
          simp [hc2, hc3, hc4] at this
        rw [a1, a2]
        exact ⟨.key, { before o.fe s with trace := (before o.fe s).trace ++ [.standardErrors] }, by
          simp [Act.seq, need, on, before, afterPlug, afterOls, afterPrep]⟩
    have hSb : SolverOk o.fe (before o.fe s) := hS
    refine Fails.right (t := fcBefore o s) (fcSE_ok o d hSb rfl rfl hse) ?_
    have hsup : ¬ Spec.Supported o.fe d.env := fun hs => h ⟨fun _ => hn, fun _ => hse, hs⟩
    unfold Spec.Supported at hsup
    push Not at hsup
    obtain ⟨-, hsup⟩ := hsup
    have hSc : SolverOk o.fe (fcBefore o s) := hS
    by_cases hho : o.fe.ho = true → Spec.HoOk o.fe d.env
    · obtain ⟨hhe, hbad⟩ := hsup hho
      exact Fails.right (ho_ok o.fe d.env hSc rfl rfl hho)
        (Fails.left (he_bad o.fe d.env (fcHeStart o d s h1 hf hhe) hhe hbad).fails)
    · push Not at hho
      exact Fails.left (ho_bad o.fe d.env hSc rfl rfl hho.1 hho.2).fails
  exact ⟨e, t, (fcPlug_ok o d _ rfl rfl hn _).trans hk⟩

/-- C56: `FEControlEstimator.fit` ends without an exception for exactly the supported combinations. -/
theorem C56_control_supported_partial (s : St) (hf : Fresh o.fe s) :
    (fcFit o d s).1 = none ↔ Spec.approximate o ∧ Spec.ControlOk o d := by
  by_cases ha : Spec.approximate o
  swap
  · rw [C56_control_exact o d s ha]
    simp [ha]
  rw [fcFit_approx o d ha]
  constructor
  · intro h
    refine ⟨ha, ?_⟩
    by_contra hc
    by_cases hp : (∀ c ∈ o.cats ++ o.cts, d.subcols c ≠ none) ∧
        ∀ c ∈ o.cats, ∀ l, d.subcols c = some l → l.length ≤ 1
    · rw [fcPrep_part o d s hp.1 hp.2] at h
      obtain ⟨e, t, hr⟩ := fcMiddle_bad o d s hf fun hx => hc ⟨hp.1, hp.2, hx.1, hx.2.1, hx.2.2⟩
      rw [seq_some hr] at h
      simp at h
    · have : Fails (fcPrepare o d) { s with strings := false } := by
        unfold fcPrepare
        refine Fails.right (call_apply _ _) ?_
        by_cases h1 : ∀ c ∈ o.cats ++ o.cts, d.subcols c ≠ none
        · have a1 : ((o.cats ++ o.cts).any fun c => (d.subcols c).isNone) = false := by
            rw [List.any_eq_false]
            intro c hc hn
            exact h1 c hc (by simpa using hn)
          have a2 : (o.cats.any fun c => decide (1 < ((d.subcols c).getD []).length)) = true := by
            by_contra hx
            rw [Bool.not_eq_true, List.any_eq_false] at hx
            refine hp ⟨h1, fun c hc l hl => ?_⟩
            have := hx c hc
            rw [hl] at this
            simpa using this
          rw [a1, a2]
          exact ⟨.notImplemented, _, rfl⟩
        · have a1 : ((o.cats ++ o.cts).any fun c => (d.subcols c).isNone) = true := by
            push Not at h1
            obtain ⟨c, hc, hn⟩ := h1
            rw [List.any_eq_true]
            exact ⟨c, hc, by simp [hn]⟩
          rw [a1]
          exact ⟨.key, _, rfl⟩
      obtain ⟨e, t, hr⟩ := this
      rw [seq_none (put_apply _ _), seq_some hr] at h
      simp at h
  · rintro ⟨-, hok⟩
    rw [fcPrep_part o d s hok.present hok.one, seq_none (fcMiddle_ok o d s hf hok)]
    obtain ⟨t, ht, -⟩ := fcClear o d s
    rw [ht]

/-- The path. -/
def fcPath : List Phase :=
  .prepare :: .stats :: ((if o.fe.statsonly then [] else .ols :: ((if o.fe.attach then [.attach] else []) ++
    if o.fe.feonly then [] else .residuals :: .plugIn :: ((if o.seCols.isSome then [.standardErrors] else []) ++
      (hoTrace o.fe d.env ++ (heTrace o.fe ++ [.collect]))))) ++
      if o.fe.outputfile then [.save] else [])

theorem fcSuccess (s : St) (hf : Fresh o.fe s) (ha : Spec.approximate o) (h : Spec.ControlOk o d) : ∃ t,
    fcFit o d s = (none, t) ∧ t.trace = s.trace ++ fcPath o d ∧ t.sqrtD = (fcAfter o d s).sqrtD ∧
      t.resFe = (fcAfter o d s).resFe ∧ t.resHo = (fcAfter o d s).resHo ∧ t.resHe = (fcAfter o d s).resHe ∧
      t.q = (fcAfter o d s).q ∧ t.aainv = (fcAfter o d s).aainv ∧ t.base = false ∧
      t.strings = ((fcAfter o d s).strings || o.fe.outputfile) := by
  obtain ⟨t, h1, h2, h3⟩ := fcClear o d s
  refine ⟨t, by rw [fcFit_approx o d ha, fcPrep_part o d s h.present h.one, seq_none (fcMiddle_ok o d s hf h), h1], ?_, h3⟩
  rw [h2]
  unfold fcAfter fcPath
  cases o.fe.statsonly
  · cases o.fe.feonly
    · simp only [Bool.false_eq_true, if_false, afterCollect, afterHe_trace, afterHo_trace, fcBefore, before, afterPlug,
        afterOls, afterPrep]
      simp
    · unfold afterOls afterPrep
      cases o.fe.attach <;> simp
  · unfold afterPrep; simp

/-- C56: a supported combination selects one method for each task it asks for, none for the others. -/
theorem C56_control_path (s : St) (hf : Fresh o.fe s) (ha : Spec.approximate o) (h : Spec.ControlOk o d) : ∃ p t,
    fcFit o d s = (none, t) ∧ t.trace = s.trace ++ p ∧
    Spec.among [.ols] p = (if o.fe.statsonly then [] else [.ols]) ∧
    Spec.among [.standardErrors] p = (if Spec.full o.fe && o.seCols.isSome then [.standardErrors] else []) ∧
    Spec.among [.sigmaExact, .sigmaApprox] p =
      (if Spec.full o.fe && o.fe.ho && d.env.weighted then [if o.fe.exactSigma then .sigmaExact else .sigmaApprox]
        else []) ∧
    Spec.among [.hoExact, .hoApprox] p = (if Spec.full o.fe && o.fe.ho then [.hoApprox] else []) ∧
    Spec.among [.levFile, .levExact, .levApprox] p =
      (if Spec.full o.fe && o.fe.he then [if o.fe.levfile then .levFile else .levApprox] else []) ∧
    Spec.among [.heExact, .heApprox] p = (if Spec.full o.fe && o.fe.he then [.heApprox] else []) := by
  obtain ⟨t, key, h2, -⟩ := fcSuccess o d s hf ha h
  refine ⟨fcPath o d, t, key, h2, ?_⟩
  · have hH : Spec.among [Phase.ols] (hoTrace o.fe d.env) = [] ∧
        Spec.among [Phase.standardErrors] (hoTrace o.fe d.env) = [] ∧
        Spec.among [Phase.sigmaExact, Phase.sigmaApprox] (hoTrace o.fe d.env) =
          (if o.fe.ho && d.env.weighted then [if o.fe.exactSigma then .sigmaExact else .sigmaApprox] else []) ∧
        Spec.among [Phase.hoExact, Phase.hoApprox] (hoTrace o.fe d.env) = (if o.fe.ho then [.hoApprox] else []) ∧
        Spec.among [Phase.levFile, Phase.levExact, Phase.levApprox] (hoTrace o.fe d.env) = [] ∧
        Spec.among [Phase.heExact, Phase.heApprox] (hoTrace o.fe d.env) = [] := by
      unfold hoTrace
      rw [ha.1]
      cases o.fe.ho <;> cases d.env.weighted <;> cases o.fe.exactSigma <;> decide
    have hE : Spec.among [Phase.ols] (heTrace o.fe) = [] ∧
        Spec.among [Phase.standardErrors] (heTrace o.fe) = [] ∧
        Spec.among [Phase.sigmaExact, Phase.sigmaApprox] (heTrace o.fe) = [] ∧
        Spec.among [Phase.hoExact, Phase.hoApprox] (heTrace o.fe) = [] ∧
        Spec.among [Phase.levFile, Phase.levExact, Phase.levApprox] (heTrace o.fe) =
          (if o.fe.he then [if o.fe.levfile then .levFile else .levApprox] else []) ∧
        Spec.among [Phase.heExact, Phase.heApprox] (heTrace o.fe) = (if o.fe.he then [.heApprox] else []) := by
      unfold heTrace Spec.leverage
      rw [ha.2.1, ha.2.2]
      cases o.fe.he <;> cases o.fe.levfile <;> decide
    obtain ⟨a1, a2, a3, a4, a5, a6⟩ := hH
    obtain ⟨b1, b2, b3, b4, b5, b6⟩ := hE
    simp only [Spec.among] at a1 a2 a3 a4 a5 a6 b1 b2 b3 b4 b5 b6
    simp only [Spec.among, fcPath, Spec.full]
    generalize hoTrace o.fe d.env = x at *
    generalize heTrace o.fe = y at *
    refine ⟨?_, ?_, ?_, ?_, ?_, ?_⟩ <;>
      obtain c1 | c1 := Bool.eq_false_or_eq_true o.fe.statsonly <;>
      obtain c2 | c2 := Bool.eq_false_or_eq_true o.fe.feonly <;>
      obtain c3 | c3 := Bool.eq_false_or_eq_true o.fe.attach <;>
      obtain c4 | c4 := Bool.eq_false_or_eq_true o.fe.outputfile <;>
      obtain c5 | c5 := Bool.eq_false_or_eq_true o.seCols.isSome <;>
      simp only [c1, c2, c3, c4, c5] <;> simp [List.filter_cons] <;> simp_all

/-- What the constructor checked about the standard errors is enough for `fit`, if a column with one subcolumn is that
subcolumn. -/
theorem C56_control_init_suffices (hi : fcInit o d = none) (hname : ∀ c x, d.subcols c = some [x] → x = c) :
    ∀ l, o.seCols = some l → (∀ c ∈ l, c ∈ covNames o d) ∧
      ∀ k, o.seClusters = some k → ∀ c ∈ k, c = "i" ∨ c = "j" ∨ c ∈ covNames o d := by
  have h := (C56_control_init o d).1 hi
  intro l hl
  refine ⟨fun c hc => ?_, fun k hk c hc => ?_⟩
  · obtain ⟨h1, x, h2⟩ := (h.cols l hl).2 c hc
    have := hname c x h2
    subst this
    unfold covNames
    simp only [List.mem_append, List.mem_flatMap]
    exact Or.inr ⟨x, h1, by simp [h2]⟩
  · rcases (h.clusters k (by simp [hl]) hk c hc).1 with h1 | h1 | h1
    · exact Or.inl h1
    · exact Or.inr (Or.inl h1)
    · refine Or.inr (Or.inr ?_)
      unfold covNames
      simp [h1]

/-- C56 does not hold of `FEControlEstimator` either as far as it asks for a check before any work: a moment of a
covariate the model does not have raises `KeyError`, after the linear system has been solved. -/
theorem C56_control_late (s : St) (ha : Spec.approximate o)
    (h1 : ∀ c ∈ o.cats ++ o.cts, d.subcols c ≠ none) (h2 : ∀ c ∈ o.cats, ∀ l, d.subcols c = some l → l.length ≤ 1)
    (hfull : Spec.full o.fe = true) (hn : ∃ c ∈ o.names, c ∉ covNames o d) :
    (fcFit o d s).1 = some .key ∧ ∃ p, (fcFit o d s).2.trace = s.trace ++ [.prepare, .stats, .ols] ++ p := by
  have e1 : o.fe.statsonly = false := by cases h : o.fe.statsonly <;> simp [Spec.full, h] at hfull ⊢
  have e2 : o.fe.feonly = false := by cases h : o.fe.feonly <;> simp [Spec.full, h] at hfull ⊢
  have hS := solverOk_prep o.fe s e1
  have this : (o.names.any fun c => decide (c ∉ covNames o d)) = true := by
    obtain ⟨c, h1, h2⟩ := hn
    rw [List.any_eq_true]
    exact ⟨c, h1, by simpa using h2⟩
  have hk : fcMiddle o d (afterPrep o.fe s) = (some .key, { afterOls o.fe (afterPrep o.fe s) with resid := true, q := true, trace := (afterOls o.fe (afterPrep o.fe s)).trace ++ [.residuals] ++ [.plugIn] }) := by
    unfold fcMiddle
    rw [on_apply, if_pos (by simp [e1]), ols_part o.fe hS, on_apply, if_pos (by simp [e2])]
    unfold fcPlugIn
    rw [this]
    simp [Act.seq, need, on, afterOls, afterPrep, residuals]
  rw [fcFit_approx o d ha, fcPrep_part o d s h1 h2, seq_some hk]
  refine ⟨rfl, (if o.fe.attach then [.attach] else []) ++ [.residuals, .plugIn], ?_⟩
  simp [afterOls, afterPrep]

/-- Controls: sex (categorical), age and tenure (continuous); clustered standard errors for age. -/
def sampleControl : FCOpts :=
  { fe := sample, cats := ["g"], cts := ["age", "ten"], names := ["psi", "alpha", "age"], seCols := some ["age"],
    seClusters := some ["j", "g"] }

/-- Data with these columns. -/
noncomputable def sampleData : FCEnv :=
  { env := sampleEnv, subcols := fun c => if c ∈ ["i", "j", "g", "age", "ten"] then some [c] else none }

theorem sampleControl_ok : Spec.ControlOk sampleControl sampleData := by
  refine ⟨?_, ?_, ?_, ?_, ?_⟩
  · decide
  · intro c hc l hl
    simp only [sampleData] at hl
    split at hl
    · cases hl; simp
    · simp at hl
  · intro _; decide
  · intro _ l hl
    cases hl
    refine ⟨by decide, fun k hk => ?_⟩
    cases hk
    decide
  · refine fun _ => ⟨fun _ => ⟨by simp [sampleControl, sample], by simp [sampleControl, sample], by simp [sampleControl, sample]⟩,
      fun _ => ⟨by simp [sampleControl, sample], by simp [sampleControl, sample], ?_, by simp [sampleControl, sample],
        by simp [sampleControl, sample], by simp [sampleControl, sample]⟩⟩
    simp only [sampleData, sampleEnv]; norm_num

/-- The hypotheses of these theorems can be met. -/
example : fcInit sampleControl sampleData = none ∧ Spec.approximate sampleControl ∧
    Spec.ControlOk sampleControl sampleData := ⟨by decide, ⟨rfl, rfl, rfl⟩, sampleControl_ok⟩

example : ∃ c ∈ ({ sampleControl with names := ["race"] } : FCOpts).names,
    c ∉ covNames { sampleControl with names := ["race"] } sampleData := by decide

/-! ## C84 -/

theorem keeps_fcFit : Keeps o.fe (fcFit o d) := by
  have S := keeps_solve o.fe
  have P : ∀ {f : St → St}, (∀ s, (f s).sqrtD = s.sqrtD ∨ (f s).sqrtD = false) → Keeps o.fe (put f) :=
    fun h => .put o.fe h
  have hfe := keeps_hoPart o.fe d.env
  have hhe := keeps_hePart o.fe d.env
  have hrest := keeps_rest o.fe d.env
  refine .seq o.fe (.on o.fe (.raise o.fe _)) (.seq o.fe (P fun s => .inl rfl) (.seq o.fe ?_
    (.seq o.fe (.seq o.fe (.call o.fe _) (.need o.fe _)) (.seq o.fe (.on o.fe ?_) (.seq o.fe hrest.2.2.1 hrest.2.2.2)))))
  · refine .seq o.fe (.call o.fe _) (.seq o.fe (.on o.fe (.raise o.fe _)) (.seq o.fe (.on o.fe (.raise o.fe _))
      (.seq o.fe (P fun s => .inl rfl) (.seq o.fe ?_ (.on o.fe ?_)))))
    · intro s hs
      rw [on_apply]
      split
      · rename_i hc
        intro _
        simpa using hc
      · exact hs
    · split <;> exact P fun s => .inl rfl
  · refine .seq o.fe (.seq o.fe (.call o.fe _) (.seq o.fe S (P fun s => .inl rfl)))
      (.seq o.fe (.on o.fe (.seq o.fe (.call o.fe _) (.seq o.fe (.need o.fe _) (P fun s => .inl rfl)))) (.on o.fe ?_))
    refine .seq o.fe (.seq o.fe (.call o.fe _) (.seq o.fe (.need o.fe _) (P fun s => .inl rfl)))
      (.seq o.fe (.seq o.fe (.call o.fe _) (.seq o.fe (.need o.fe _) (.seq o.fe (P fun s => .inl rfl)
        (.seq o.fe (.on o.fe (.raise o.fe _)) (P fun s => .inl rfl)))))
      (.seq o.fe (.on o.fe ?_) (.seq o.fe hfe (.seq o.fe hhe (.seq o.fe hrest.1 hrest.2.1)))))
    exact .seq o.fe (.call o.fe _) (.seq o.fe (.need o.fe _) (.seq o.fe (.on o.fe (.raise o.fe _))
      (.seq o.fe (.on o.fe (.raise o.fe _)) S)))

/-- The estimator after calls of `fit`. -/
noncomputable def fcFits : List FCEnv → St
  | [] => {}
  | d :: l => (fcFit o d (fcFits l)).2

theorem fresh_fcFits (l : List FCEnv) : Fresh o.fe (fcFits o l) := by
  induction l with
  | nil => simp [Fresh, fcFits]
  | cons d l ih => exact keeps_fcFit o d _ ih

/-- C84: the same of `FEControlEstimator`: earlier calls do not decide whether a call of `fit` succeeds. -/
theorem C84_control_refit (l : List FCEnv) : (fcFit o d (fcFits o l)).1 = none ↔ (fcFit o d {}).1 = none := by
  rw [C56_control_supported_partial o d _ (fresh_fcFits o l), C56_control_supported_partial o d _ (by simp [Fresh])]

/-- A call that does not fail goes through the same methods in the same order as on a new estimator. -/
theorem C84_control_refit_path (l : List FCEnv) (h : (fcFit o d {}).1 = none) :
    (fcFit o d (fcFits o l)).2.trace = (fcFits o l).trace ++ (fcFit o d {}).2.trace := by
  obtain ⟨ha, hs⟩ := (C56_control_supported_partial o d {} (by simp [Fresh])).1 h
  obtain ⟨t, h1, h2, -⟩ := fcSuccess o d _ (fresh_fcFits o l) ha hs
  obtain ⟨u, h3, h4, -⟩ := fcSuccess o d {} (by simp [Fresh]) ha hs
  rw [h1, h3]
  show t.trace = _ ++ u.trace
  rw [h2, h4]
  rfl

theorem fcAfter_results (s : St) :
    (fcAfter o d s).resFe = (s.resFe || Spec.full o.fe) ∧ (fcAfter o d s).resHo = (s.resHo || (Spec.full o.fe && o.fe.ho)) ∧
    (fcAfter o d s).resHe = (s.resHe || (Spec.full o.fe && o.fe.he)) ∧ (fcAfter o d s).strings = false := by
  have hc : ∀ s : St, (afterHo o.fe d.env s).resHo = s.resHo ∧ (afterHo o.fe d.env s).resHe = s.resHe ∧
      (afterHo o.fe d.env s).strings = s.strings :=
    fun s => by unfold afterHo; cases o.fe.ho <;> exact ⟨rfl, rfl, rfl⟩
  have hd : ∀ s : St, (afterHe o.fe d.env s).resHo = s.resHo ∧ (afterHe o.fe d.env s).resHe = s.resHe ∧
      (afterHe o.fe d.env s).strings = s.strings :=
    fun s => by unfold afterHe; cases o.fe.he <;> exact ⟨rfl, rfl, rfl⟩
  unfold fcAfter Spec.full
  cases o.fe.statsonly
  · cases o.fe.feonly
    · simp [afterCollect, hc, hd, fcBefore, before, afterPlug, afterOls, afterPrep]
    · simp [afterOls, afterPrep]
  · simp [afterPrep]

/-- It adds the same results to those of earlier calls; they are numbers unless they are also written to a file. -/
theorem C84_control_refit_results (l : List FCEnv) (h : (fcFit o d {}).1 = none) :
    ((fcFit o d (fcFits o l)).2.resFe = true ↔ (fcFits o l).resFe = true ∨ Spec.full o.fe = true) ∧
    ((fcFit o d (fcFits o l)).2.resHo = true ↔ (fcFits o l).resHo = true ∨ (Spec.full o.fe && o.fe.ho) = true) ∧
    ((fcFit o d (fcFits o l)).2.resHe = true ↔ (fcFits o l).resHe = true ∨ (Spec.full o.fe && o.fe.he) = true) ∧
    (fcFit o d (fcFits o l)).2.strings = o.fe.outputfile := by
  obtain ⟨ha, hs⟩ := (C56_control_supported_partial o d {} (by simp [Fresh])).1 h
  obtain ⟨t, h1, -, -, h3, h4, h5, -, -, -, h6⟩ := fcSuccess o d _ (fresh_fcFits o l) ha hs
  obtain ⟨a1, a2, a3, a4⟩ := fcAfter_results o d (fcFits o l)
  rw [h1]
  simp only [h3, h4, h5, h6, a1, a2, a3, a4, Bool.or_eq_true, Bool.false_or, and_self]

/-- C84, in part: matrices left behind by a successful call. -/
theorem C84_control_leftovers_partial (h : (fcFit o d {}).1 = none) :
    (fcFit o d {}).2.base = false ∧ (fcFit o d {}).2.q = false ∧
    ((fcFit o d {}).2.sqrtD = true ↔ Spec.full o.fe = false ∧ o.fe.he = true ∧ o.fe.levfile = false) := by
  obtain ⟨ha, hs⟩ := (C56_control_supported_partial o d {} (by simp [Fresh])).1 h
  obtain ⟨t, h1, -, h2, -, -, -, h3, -, h4, -⟩ := fcSuccess o d {} (by simp [Fresh]) ha hs
  rw [h1]
  refine ⟨h4, ?_, ?_⟩
  · rw [h3]; unfold fcAfter afterCollect afterOls afterPrep
    cases o.fe.statsonly <;> cases o.fe.feonly <;> rfl
  · rw [h2]; unfold fcAfter Spec.full
    cases o.fe.statsonly
    · cases o.fe.feonly
      · simp only [Bool.false_eq_true, if_false, afterCollect]
        unfold afterHe afterHo
        cases c1 : o.fe.he <;> cases o.fe.ho <;> cases c2 : o.fe.levfile <;>
          simp [fcBefore, before, afterPlug, afterOls, afterPrep, c1, c2]
      · simp [afterOls, afterPrep]
    · simp [afterPrep]

/-- The hypothesis can be met, also after a call that failed. -/
example : (fcFit sampleControl sampleData {}).1 = none ∧
    (fcFit sampleControl { sampleData with subcols := fun _ => none } {}).1 ≠ none := by
  constructor
  · rw [C56_control_supported_partial _ _ _ (by simp [Fresh])]
    exact ⟨⟨rfl, rfl, rfl⟩, sampleControl_ok⟩
  · intro h
    rw [C56_control_supported_partial _ _ _ (by simp [Fresh])] at h
    exact h.2.present "g" (by decide) rfl

end Pytwoway.Options
