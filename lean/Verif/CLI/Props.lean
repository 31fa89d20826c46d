import Verif.CLI.Model

/-! # Property C92 -/

namespace Pytwoway.CLI

/-! ## Specification -/

/-- Text that means yes or no. -/
def Spec.yes (lower : String → String) (s : String) : Prop := lower s ∈ ["yes", "true", "t", "y", "1"]
def Spec.no (lower : String → String) (s : String) : Prop := lower s ∈ ["no", "false", "f", "n", "0"]

/-- A yes/no option has reached a parameter: as given, or the default if not given. -/
def Spec.flagged (lower : String → String) (default : Bool) (opt : Option String) (v : Option Val) : Prop :=
  match opt with
  | none => v = some (.bool default)
  | some s => (Spec.yes lower s ∧ v = some (.bool true)) ∨ (Spec.no lower s ∧ v = some (.bool false))

/-- A text option has reached a parameter. -/
def Spec.texted (default : Val) (opt : Option String) (v : Option Val) : Prop :=
  v = some (match opt with | none => default | some s => .str s)

/-- The documented defaults of the FE parameters that no option sets. -/
def Spec.feFixed : List (String × Val) :=
  [("weighted", .bool true), ("statsonly", .bool false), ("feonly", .bool false),
   ("attach_fe_estimates", .bool false), ("Q_var", .none), ("Q_cov", .none), ("Sii_stayers", .str "firm_mean"),
   ("exact_trace_sigma_2", .bool false), ("exact_trace_ho", .bool false), ("exact_trace_he", .bool false),
   ("exact_lev_he", .bool false), ("levfile", .str ""), ("solver_tol", .real 1 (10 ^ 10)),
   ("preconditioner_options", .none), ("tr_method_sigma_2", .str "hutchinson"), ("progress_bars", .bool true),
   ("verbose", .bool true)]

/-- The parameters of the FE estimator that the options ask for: everything else has its default. -/
def Spec.feParams (lower : String → String) (a : Args) (D : Dict) : Prop :=
  Spec.flagged lower true a.ho (D "ho") ∧ Spec.flagged lower false a.he (D "he") ∧
  Spec.texted (.int 5) a.ndrawTraceSigma2 (D "ndraw_trace_sigma_2") ∧
  Spec.texted (.int 5) a.ndrawTraceHo (D "ndraw_trace_ho") ∧
  Spec.texted (.int 5) a.ndrawTraceHe (D "ndraw_trace_he") ∧
  Spec.texted (.int 200) a.ndrawLevHe (D "ndraw_lev_he") ∧
  Spec.texted (.int 1) a.ncoreFe (D "ncore") ∧
  Spec.texted (.str "minres") a.solver (D "solver") ∧
  Spec.texted (.str "ichol") a.preconditioner (D "preconditioner") ∧
  Spec.texted .none (if a.stata then some "res_fe.json" else a.outputfileFe) (D "outputfile") ∧
  ∀ kv ∈ Spec.feFixed, D kv.1 = some kv.2

/-- The parameters of the CRE estimator that the options ask for. -/
def Spec.creParams (lower : String → String) (a : Args) (D : Dict) : Prop :=
  Spec.flagged lower false a.posterior (D "posterior") ∧
  Spec.texted (.int 1) a.ncoreCre (D "ncore") ∧
  Spec.texted (.int 5) a.ndrawTraceCre (D "ndraw_trace") ∧
  Spec.texted (.bool false) a.woBtw (D "wo_btw") ∧
  Spec.texted .none (if a.stata then some "res_cre.json" else a.outputfileCre) (D "outputfile")

/-! ## Lemmas -/

theorem lookup_cons' (k : String) (kv : String × Val) (ch : List (String × Val)) :
    (kv :: ch).lookup k = if k = kv.1 then some kv.2 else ch.lookup k := by
  obtain ⟨k0, v0⟩ := kv
  by_cases h : k = k0
  · simp [List.lookup_cons, h]
  · have : (k == k0) = false := by simpa using h
    simp [List.lookup_cons, h, this]

theorem build_get (t : Table) (ch : List (String × Val)) (D : Dict) (h : build t ch = .ok D)
    (hn : (ch.map (·.1)).Nodup) :
    (∀ k, D k = (ch.lookup k).or ((t.lookup k).map (·.1))) ∧
    ∀ kv ∈ ch, ∃ v r, t.lookup kv.1 = some (v, r) ∧ Rule.ok r kv.2 = true := by
  unfold build at h
  have key : ∀ (ch : List (String × Val)) (d0 D : Dict), (ch.map (·.1)).Nodup →
      ch.foldlM (fun d kv =>
        match t.lookup kv.1 with
        | none => Except.error Err.key
        | some (_, r) => if r.ok kv.2 then .ok (fun k => if k = kv.1 then some kv.2 else d k) else .error .value)
        d0 = .ok D →
      (∀ k, D k = (ch.lookup k).or (d0 k)) ∧ ∀ kv ∈ ch, ∃ v r, t.lookup kv.1 = some (v, r) ∧ Rule.ok r kv.2 = true := by
    intro ch
    induction ch with
    | nil => intro d0 D _ h; cases h; simp
    | cons kv ch ih =>
      intro d0 D hn h
      rw [List.foldlM_cons] at h
      rw [List.map_cons, List.nodup_cons] at hn
      rcases ht : t.lookup kv.1 with _ | ⟨v, r⟩
      · rw [ht] at h; cases h
      · rw [ht] at h
        by_cases hr : r.ok kv.2 = true
        · simp only [hr, if_true, bind, Except.bind] at h
          obtain ⟨i1, i2⟩ := ih _ D hn.2 h
          refine ⟨?_, ?_⟩
          · intro k
            rw [i1]
            by_cases hk : k = kv.1
            · subst hk
              have : ch.lookup kv.1 = none := by
                rw [List.lookup_eq_none_iff]
                intro p hp
                simp only [beq_eq_false_iff_ne, ne_eq, bne_iff_ne] at *
                intro e
                exact hn.1 (e ▸ List.mem_map_of_mem hp)
              simp [this, lookup_cons']
            · have : (k == kv.1) = false := by simpa using hk
              simp [lookup_cons', hk]
          · intro kv' hkv'
            rcases List.mem_cons.mp hkv' with rfl | hm
            · exact ⟨v, r, ht, hr⟩
            · exact i2 kv' hm
        · simp [hr, bind, Except.bind] at h
  exact key ch _ D hn h

theorem build_ok (t : Table) (ch : List (String × Val))
    (hok : ∀ kv ∈ ch, ∃ v r, t.lookup kv.1 = some (v, r) ∧ Rule.ok r kv.2 = true) : ∃ D, build t ch = .ok D := by
  unfold build
  generalize (fun k => (t.lookup k).map (·.1) : Dict) = d0
  induction ch generalizing d0 with
  | nil => exact ⟨d0, rfl⟩
  | cons kv ch ih =>
    obtain ⟨v, r, h1, h2⟩ := hok kv (by simp)
    rw [List.foldlM_cons, h1]
    simp only [h2, if_true, bind, Except.bind]
    exact ih (fun kv' h' => hok kv' (by simp [h'])) _

theorem clear_nodup (d : List (String × Val)) (h : (d.map (·.1)).Nodup) : ((clearDict d).map (·.1)).Nodup :=
  h.sublist ((List.filter_sublist).map _)

theorem clear_lookup (d : List (String × Val)) (h : (d.map (·.1)).Nodup) (k : String) :
    (clearDict d).lookup k = (d.lookup k).bind fun v => if v = .none then none else some v := by
  induction d with
  | nil => rfl
  | cons kv d ih =>
    rw [List.map_cons, List.nodup_cons] at h
    have ih := ih h.2
    unfold clearDict at ih ⊢
    by_cases hv : kv.2 = .none
    · rw [List.filter_cons_of_neg (by simp [hv]), ih]
      by_cases hk : k = kv.1
      · subst hk
        have : d.lookup kv.1 = none := by
          rw [List.lookup_eq_none_iff]
          intro p hp
          simp only [bne_iff_ne, ne_eq, beq_eq_false_iff_ne]
          intro e
          exact h.1 (e ▸ List.mem_map_of_mem hp)
        simp [lookup_cons', this, hv]
      · have : (k == kv.1) = false := by simpa using hk
        simp [lookup_cons', hk]
    · rw [List.filter_cons_of_pos (by simp [hv])]
      by_cases hk : k = kv.1
      · subst hk
        simp [lookup_cons', hv]
      · have : (k == kv.1) = false := by simpa using hk
        simp [lookup_cons', hk, ih]

theorem feKeys_nodup (a : Args) (ho he : Val) : ((feChanges a ho he).map (·.1)).Nodup := by
  simp only [feChanges, List.map_cons, List.map_nil]; decide

theorem creKeys_nodup (a : Args) (p : Val) : ((creChanges a p).map (·.1)).Nodup := by
  simp only [creChanges, List.map_cons, List.map_nil]; decide

/-- A successful run, step by step. -/
theorem main_ok {D : Type} (w : World D) (a : Args) (r : Run D) (h : main w a = .ok r) :
    ∃ c ho he po feD ms creD d0 d1 d2,
      collapseOpt w.lower a.collapse = .ok c ∧
      flag w.lower a.ho = .ok ho ∧ flag w.lower a.he = .ok he ∧ flag w.lower a.posterior = .ok po ∧
      build feTable (clearDict (feChanges a ho he)) = .ok feD ∧
      measuresOpt w a.measures = .ok ms ∧
      build creTable (clearDict (creChanges a po)) = .ok creD ∧
      w.lower ((if a.stata then some "dta" else a.filetype).getD "csv") ∈ filetypes ∧
      w.read (w.lower ((if a.stata then some "dta" else a.filetype).getD "csv"))
        (if a.stata then some "leedtwoway_temp_data.dta" else a.data) = .ok d0 ∧
      w.clean d0 = .ok d1 ∧
      collapseStep w c d1 = .ok d2 ∧
      a.seed = none ∧
      r.fe = (if a.fe then some (d2, feD) else none) ∧
      (if a.cre then ∃ d3 d4, w.cluster ms d2 = .ok d3 ∧ w.eventstudy d3 = .ok d4 ∧ r.cre = some (d4, creD)
        else r.cre = none) := by
  unfold main at h
  rcases h1 : collapseOpt w.lower a.collapse with e | c
  · simp only [h1, bind, Except.bind] at h; cases h
  rcases h2 : flag w.lower a.ho with e | ho
  · simp only [h1, h2, bind, Except.bind] at h; cases h
  rcases h3 : flag w.lower a.he with e | he
  · simp only [h1, h2, h3, bind, Except.bind] at h; cases h
  rcases h4 : flag w.lower a.posterior with e | po
  · simp only [h1, h2, h3, h4, bind, Except.bind] at h; cases h
  rcases h5 : build feTable (clearDict (feChanges a ho he)) with e | feD
  · simp only [h1, h2, h3, h4, h5, bind, Except.bind] at h; cases h
  rcases h6 : measuresOpt w a.measures with e | ms
  · simp only [h1, h2, h3, h4, h5, h6, bind, Except.bind] at h; cases h
  rcases h7 : build creTable (clearDict (creChanges a po)) with e | creD
  · simp only [h1, h2, h3, h4, h5, h6, h7, bind, Except.bind] at h; cases h
  simp only [h1, h2, h3, h4, h5, h6, h7, bind, Except.bind] at h
  by_cases hft : w.lower ((if a.stata then some "dta" else a.filetype).getD "csv") ∈ filetypes
  swap
  · rw [if_pos hft] at h; cases h
  rw [if_neg (not_not.mpr hft)] at h
  rcases h8 : w.read (w.lower ((if a.stata then some "dta" else a.filetype).getD "csv"))
        (if a.stata then some "leedtwoway_temp_data.dta" else a.data) with e | d0
  · rw [h8] at h; cases h
  rw [h8] at h
  dsimp only at h
  rcases h9 : w.clean d0 with e | d1
  · rw [h9] at h; cases h
  rw [h9] at h
  dsimp only at h
  rcases h10 : collapseStep w c d1 with e | d2
  · rw [h10] at h; cases h
  rw [h10] at h
  dsimp only at h
  have hseed : a.seed = none := by
    rcases hs : a.seed with _ | s
    · rfl
    · rw [hs] at h; cases h
  rw [hseed] at h
  simp only [rng] at h
  refine ⟨c, ho, he, po, feD, ms, creD, d0, d1, d2, rfl, rfl, rfl, rfl, h5, rfl, h7, hft, rfl, h9, h10, hseed, ?_, ?_⟩
  · cases hc : a.cre
    · rw [hc] at h; cases h; rfl
    · rw [hc] at h
      simp only [if_true] at h
      rcases h11 : w.cluster ms d2 with e | d3
      · rw [h11] at h; cases h
      rw [h11] at h
      dsimp only at h
      rcases h12 : w.eventstudy d3 with e | d4
      · rw [h12] at h; cases h
      rw [h12] at h
      cases h; rfl
  · cases hc : a.cre
    · rw [hc] at h; cases h; rfl
    · rw [hc] at h
      simp only [if_true] at h ⊢
      rcases h11 : w.cluster ms d2 with e | d3
      · rw [h11] at h; cases h
      rw [h11] at h
      dsimp only at h
      rcases h12 : w.eventstudy d3 with e | d4
      · rw [h12] at h; cases h
      rw [h12] at h
      cases h
      exact ⟨d3, d4, rfl, h12, rfl⟩

theorem flag_spec (lower : String → String) (o : Option String) (v : Val) (b : Bool) (h : flag lower o = .ok v) :
    Spec.flagged lower b o (some (if v = .none then .bool b else v)) := by
  cases o with
  | none => cases h; rfl
  | some s =>
    unfold Spec.flagged Spec.yes Spec.no
    by_cases hy : lower s ∈ ["yes", "true", "t", "y", "1"]
    · simp only [flag, str2bool, if_pos hy, bind, Except.bind] at h
      cases h
      exact Or.inl ⟨hy, rfl⟩
    · by_cases hn : lower s ∈ ["no", "false", "f", "n", "0"]
      · simp only [flag, str2bool, if_neg hy, if_pos hn, bind, Except.bind] at h
        cases h
        exact Or.inr ⟨hn, rfl⟩
      · simp only [flag, str2bool, if_neg hy, if_neg hn, bind, Except.bind] at h
        cases h

/-! ## Property C92 -/

/-- C92 (the part that holds): in a run that does not raise, the FE and the CRE estimators are run exactly if asked
for, with the parameters given on the command line and the defaults for everything not given; with `--stata` the
results go to fixed files.  Missing: many options make every run raise, see `C92_options_that_raise`. -/
theorem C92_parameters_partial {D : Type} (w : World D) (a : Args) (r : Run D) (h : main w a = .ok r) :
    (a.fe = false → r.fe = none) ∧ (a.fe = true → ∃ d P, r.fe = some (d, P) ∧ Spec.feParams w.lower a P) ∧
    (a.cre = false → r.cre = none) ∧ (a.cre = true → ∃ d P, r.cre = some (d, P) ∧ Spec.creParams w.lower a P) := by
  obtain ⟨c, ho, he, po, feD, ms, creD, d0, d1, d2, -, h2, h3, h4, h5, -, h7, -, -, -, -, -, hfe, hcre⟩ := main_ok w a r h
  obtain ⟨gf, -⟩ := build_get _ _ _ h5 (clear_nodup _ (feKeys_nodup a ho he))
  obtain ⟨gc, -⟩ := build_get _ _ _ h7 (clear_nodup _ (creKeys_nodup a po))
  simp only [clear_lookup _ (feKeys_nodup a ho he)] at gf
  simp only [clear_lookup _ (creKeys_nodup a po)] at gc
  have tx : ∀ (dflt : Val) (o : Option String),
      Spec.texted dflt o (((some (text o)).bind fun v => if v = .none then none else some v).or (some dflt)) := by
    intro dflt o; cases o <;> simp [Spec.texted, text]
  have fl : ∀ (v : Val) (b : Bool),
      ((some v).bind fun v => if v = .none then none else some v).or (some (.bool b)) =
        some (if v = .none then .bool b else v) := by
    intro v b; by_cases hv : v = .none <;> simp [hv]
  have tf : ∀ (fn : String) (o : Option String),
      (if a.stata = true then Val.str fn else text o) = text (if a.stata = true then some fn else o) := by
    intro fn o; split <;> rfl
  refine ⟨?_, ?_, ?_, ?_⟩
  · intro hf; rw [hfe, hf]; rfl
  · intro hf
    refine ⟨d2, feD, by rw [hfe, hf]; rfl, ?_⟩
    refine ⟨?_, ?_, ?_, ?_, ?_, ?_, ?_, ?_, ?_, ?_, ?_⟩
    · have := flag_spec w.lower a.ho ho true h2
      rw [← fl] at this
      rw [gf]; exact this
    · have := flag_spec w.lower a.he he false h3
      rw [← fl] at this
      rw [gf]; exact this
    · rw [gf]; exact tx _ _
    · rw [gf]; exact tx _ _
    · rw [gf]; exact tx _ _
    · rw [gf]; exact tx _ _
    · rw [gf]; exact tx _ _
    · rw [gf]; exact tx _ _
    · rw [gf]; exact tx _ _
    · rw [gf]
      have e : (feChanges a ho he).lookup "outputfile" =
        some (if a.stata = true then Val.str "res_fe.json" else text a.outputfileFe) := rfl
      rw [e, tf]; exact tx _ _
    · intro kv hkv
      simp only [Spec.feFixed, List.mem_cons, List.not_mem_nil, or_false] at hkv
      rcases hkv with rfl | rfl | rfl | rfl | rfl | rfl | rfl | rfl | rfl | rfl | rfl | rfl | rfl | rfl | rfl | rfl | rfl <;>
        (rw [gf]; rfl)
  · intro hc
    rw [hc] at hcre
    simpa using hcre
  · intro hc
    rw [hc] at hcre
    simp only [if_true] at hcre
    obtain ⟨d3, d4, -, -, hr⟩ := hcre
    refine ⟨d4, creD, hr, ?_, ?_, ?_, ?_, ?_⟩
    · have := flag_spec w.lower a.posterior po false h4
      rw [← fl] at this
      rw [gc]; exact this
    · rw [gc]; exact tx _ _
    · rw [gc]; exact tx _ _
    · rw [gc]; exact tx _ _
    · rw [gc]
      have e : (creChanges a po).lookup "outputfile" =
        some (if a.stata = true then Val.str "res_cre.json" else text a.outputfileCre) := rfl
      rw [e, tf]; exact tx _ _

/-- C92 is false for every option that is a number: the numbers of draws, the numbers of cores, `--ndp`, `--wo_btw`
and `--seed`.  Their text is not converted, and text is refused.  This is so whatever the text, also if the option
belongs to an estimator that is not run. -/
theorem C92_options_that_raise {D : Type} (w : World D) (a : Args)
    (h : ∃ o ∈ [a.ndrawTraceSigma2, a.ndrawTraceHo, a.ndrawTraceHe, a.ndrawLevHe, a.ncoreFe, a.ncoreCre,
      a.ndrawTraceCre, a.ndp, a.woBtw, a.seed], o ≠ none) : ∃ e, main w a = .error e := by
  rcases hm : main w a with e | r
  · exact ⟨e, rfl⟩
  exfalso
  obtain ⟨c, ho, he, po, feD, ms, creD, d0, d1, d2, -, -, -, -, h5, -, h7, -, -, -, -, hs, -, -⟩ := main_ok w a r hm
  obtain ⟨-, gf⟩ := build_get _ _ _ h5 (clear_nodup _ (feKeys_nodup a ho he))
  obtain ⟨-, gc⟩ := build_get _ _ _ h7 (clear_nodup _ (creKeys_nodup a po))
  have key : ∀ (t : Table) (ch : List (String × Val)) (k : String) (o : Option String),
      (∀ kv ∈ clearDict ch, ∃ v r, t.lookup kv.1 = some (v, r) ∧ Rule.ok r kv.2 = true) →
      (k, text o) ∈ ch → (∀ v r, t.lookup k = some (v, r) → ∀ s, r.ok (.str s) = false) → o = none := by
    intro t ch k o hall hmem hno
    cases o with
    | none => rfl
    | some s =>
      obtain ⟨v, r, e1, e2⟩ := hall (k, .str s) (by
        unfold clearDict
        rw [List.mem_filter]
        exact ⟨hmem, by simp⟩)
      rw [hno v r e1 s] at e2
      cases e2
  have i1 := key feTable _ "ndraw_trace_sigma_2" a.ndrawTraceSigma2 gf (by simp [feChanges])
    (by intro v r h s; cases h; rfl)
  have i2 := key feTable _ "ndraw_trace_ho" a.ndrawTraceHo gf (by simp [feChanges]) (by intro v r h s; cases h; rfl)
  have i3 := key feTable _ "ndraw_trace_he" a.ndrawTraceHe gf (by simp [feChanges]) (by intro v r h s; cases h; rfl)
  have i4 := key feTable _ "ndraw_lev_he" a.ndrawLevHe gf (by simp [feChanges]) (by intro v r h s; cases h; rfl)
  have i5 := key feTable _ "ncore" a.ncoreFe gf (by simp [feChanges]) (by intro v r h s; cases h; rfl)
  have i6 := key creTable _ "ncore" a.ncoreCre gc (by simp [creChanges]) (by intro v r h s; cases h; rfl)
  have i7 := key creTable _ "ndraw_trace" a.ndrawTraceCre gc (by simp [creChanges]) (by intro v r h s; cases h; rfl)
  have i8 := key creTable _ "ndp" a.ndp gc (by simp [creChanges]) (by intro v r h s; cases h)
  have i9 := key creTable _ "wo_btw" a.woBtw gc (by simp [creChanges]) (by intro v r h s; cases h; rfl)
  obtain ⟨o, ho, hne⟩ := h
  simp only [List.mem_cons, List.not_mem_nil, or_false] at ho
  rcases ho with rfl | rfl | rfl | rfl | rfl | rfl | rfl | rfl | rfl | rfl
  · exact hne i1
  · exact hne i2
  · exact hne i3
  · exact hne i4
  · exact hne i5
  · exact hne i6
  · exact hne i7
  · exact hne i8
  · exact hne i9
  · exact hne hs

/-- The kinds of file the help text lists. -/
def Spec.fileKinds : List String :=
  ["csv", "json", "ftr", "feather", "dta", "stata", "parquet", "excel", "xlsx", "sql"]

/-- The kind of file that is read: Stata's own exchange file, or the one the option names, or csv. -/
def Spec.fileKind (lower : String → String) (a : Args) : String :=
  lower (if a.stata then "dta" else match a.filetype with | none => "csv" | some s => s)

/-- Collapsing is asked for: by default, or with an affirmative text. -/
def Spec.collapses (lower : String → String) (a : Args) : Prop :=
  match a.collapse with | none => True | some s => Spec.yes lower s

/-- The data the estimators work with: read, cleaned, and collapsed when that is asked for and still to be done. -/
def Spec.prepared {D : Type} (w : World D) (a : Args) (d : D) : Prop :=
  ∃ raw cleaned,
    w.read (Spec.fileKind w.lower a) (if a.stata then some "leedtwoway_temp_data.dta" else a.data) = .ok raw ∧
    w.clean raw = .ok cleaned ∧
    (Spec.collapses w.lower a ∧ w.isCollapsed cleaned = false → w.collapse cleaned = .ok d) ∧
    (¬ (Spec.collapses w.lower a ∧ w.isCollapsed cleaned = false) → d = cleaned)

theorem fileKind_eq (lower : String → String) (a : Args) :
    lower ((if a.stata then some "dta" else a.filetype).getD "csv") = Spec.fileKind lower a := by
  unfold Spec.fileKind
  cases a.stata
  · cases a.filetype <;> rfl
  · rfl

theorem collapseOpt_true (lower : String → String) (a : Args) {c : Val}
    (h : collapseOpt lower a.collapse = .ok c) : c = .bool true ↔ Spec.collapses lower a := by
  unfold Spec.collapses
  rcases hc : a.collapse with _ | s
  · rw [hc] at h; cases h; simp
  · rw [hc] at h
    simp only [collapseOpt, flag, str2bool] at h
    by_cases hy : lower s ∈ ["yes", "true", "t", "y", "1"]
    · rw [if_pos hy] at h; cases h
      simpa [Spec.yes] using hy
    · rw [if_neg hy] at h
      by_cases hn : lower s ∈ ["no", "false", "f", "n", "0"]
      · rw [if_pos hn] at h; cases h
        simpa [Spec.yes] using hy
      · rw [if_neg hn] at h; cases h

/-- C92: the FE estimator runs, when asked for, on the data read from the named file, cleaned, and collapsed unless
that is declined or already done; the CRE estimator, when asked for, on the clustered event-study form of the same
data. -/
theorem C92_data {D : Type} (w : World D) (a : Args) (r : Run D) (h : main w a = .ok r) :
    Spec.fileKind w.lower a ∈ Spec.fileKinds ∧
    ∃ d, Spec.prepared w a d ∧
      (r.fe.map Prod.fst = if a.fe then some d else none) ∧
      (a.cre = false → r.cre = none) ∧
      (a.cre = true → ∃ ms clustered es, measuresOpt w a.measures = .ok ms ∧
        w.cluster ms d = .ok clustered ∧ w.eventstudy clustered = .ok es ∧ r.cre.map Prod.fst = some es) := by
  obtain ⟨c, ho, he, po, feD, ms, creD, d0, d1, d2, hc, -, -, -, -, hms, -, hft, hread, hclean, hcol, -, hfe, hcre⟩ :=
    main_ok w a r h
  rw [fileKind_eq w.lower a] at hft hread
  refine ⟨hft, d2, ⟨d0, d1, hread, hclean, ?_, ?_⟩, ?_, ?_, ?_⟩
  · rintro ⟨h1, h2⟩
    rw [collapseStep, if_pos ⟨(collapseOpt_true w.lower a hc).mpr h1, h2⟩] at hcol
    exact hcol
  · intro hn
    rw [collapseStep, if_neg (fun h => hn ⟨(collapseOpt_true w.lower a hc).mp h.1, h.2⟩)] at hcol
    cases hcol; rfl
  · rw [hfe]; cases a.fe <;> rfl
  · intro hf; rw [hf] at hcre; exact hcre
  · intro ht
    rw [ht] at hcre
    obtain ⟨d3, d4, e1, e2, e3⟩ := hcre
    exact ⟨ms, d3, d4, hms, e1, e2, by rw [e3]; rfl⟩

/-- The options that are usable have usable text. -/
def Spec.Usable (lower : String → String) (a : Args) : Prop :=
  (∀ o ∈ [a.ndrawTraceSigma2, a.ndrawTraceHo, a.ndrawTraceHe, a.ndrawLevHe, a.ncoreFe, a.ncoreCre,
      a.ndrawTraceCre, a.ndp, a.woBtw, a.seed], o = none) ∧
  (∀ o ∈ [a.ho, a.he, a.posterior, a.collapse], ∀ s, o = some s → Spec.yes lower s ∨ Spec.no lower s) ∧
  (∀ s, a.solver = some s → s ∈ ["bicg", "bicgstab", "cg", "cgs", "gmres", "minres", "qmr", "amg"]) ∧
  (∀ s, a.preconditioner = some s → s ∈ ["jacobi", "vcycle", "ichol", "ilu"]) ∧
  (a.stata = false → ∀ s, a.filetype = some s → lower s ∈ Spec.fileKinds) ∧ a.measures = none

theorem flag_ok (lower : String → String) (o : Option String)
    (h : ∀ s, o = some s → Spec.yes lower s ∨ Spec.no lower s) :
    ∃ v, flag lower o = .ok v ∧ (v = .none ∨ ∃ b, v = .bool b) := by
  cases o with
  | none => exact ⟨.none, rfl, Or.inl rfl⟩
  | some s =>
    by_cases hy : lower s ∈ ["yes", "true", "t", "y", "1"]
    · exact ⟨.bool true, by simp only [flag, str2bool, hy, if_true]; rfl, Or.inr ⟨_, rfl⟩⟩
    · have hn : lower s ∈ ["no", "false", "f", "n", "0"] := (h s rfl).resolve_left hy
      exact ⟨.bool false, by simp only [flag, str2bool, hy, hn, if_true, if_false]; rfl, Or.inr ⟨_, rfl⟩⟩

/-- C92: without the options that always raise, and with sensible values of the others, the run does not raise
unless reading, cleaning or clustering the data does. -/
theorem C92_runs {D : Type} (w : World D) (a : Args) (hu : Spec.Usable w.lower a)
    (hl : w.lower "csv" = "csv" ∧ w.lower "dta" = "dta")
    (hread : ∀ f p, ∃ d, w.read f p = .ok d) (hclean : ∀ d, ∃ d', w.clean d = .ok d')
    (hcol : ∀ d, ∃ d', w.collapse d = .ok d') (hclu : ∀ m d, ∃ d', w.cluster m d = .ok d')
    (hes : ∀ d, ∃ d', w.eventstudy d = .ok d') : ∃ r, main w a = .ok r := by
  obtain ⟨u1, u2, u3, u4, u5, u6⟩ := hu
  simp only [List.mem_cons, List.not_mem_nil, or_false, forall_eq_or_imp, forall_eq] at u1 u2
  obtain ⟨n1, n2, n3, n4, n5, n6, n7, n8, n9, n10⟩ := u1
  obtain ⟨ho, eho, tho⟩ := flag_ok w.lower a.ho u2.1
  obtain ⟨he, ehe, the⟩ := flag_ok w.lower a.he u2.2.1
  obtain ⟨po, epo, tpo⟩ := flag_ok w.lower a.posterior u2.2.2.1
  obtain ⟨c, ec⟩ : ∃ c, collapseOpt w.lower a.collapse = .ok c := by
    rcases hc : a.collapse with _ | s
    · exact ⟨_, rfl⟩
    · obtain ⟨v, hv, -⟩ := flag_ok w.lower a.collapse u2.2.2.2
      rw [hc] at hv
      exact ⟨v, hv⟩
  have cl : ∀ (ch : List (String × Val)) (t : Table),
      (∀ kv ∈ ch, kv.2 = .none ∨ ∃ v r, t.lookup kv.1 = some (v, r) ∧ Rule.ok r kv.2 = true) →
      ∃ D, build t (clearDict ch) = .ok D := by
    intro ch t h
    refine build_ok t _ fun kv hkv => ?_
    unfold clearDict at hkv
    rw [List.mem_filter] at hkv
    rcases h kv hkv.1 with h1 | h1
    · simp [h1] at hkv
    · exact h1
  obtain ⟨feD, hfe⟩ := cl (feChanges a ho he) feTable (by
    intro kv hkv
    simp only [feChanges, n1, n2, n3, n4, n5, text, List.mem_cons, List.not_mem_nil, or_false] at hkv
    rcases hkv with rfl | rfl | rfl | rfl | rfl | rfl | rfl | rfl | rfl | rfl
    · rcases tho with rfl | ⟨b, rfl⟩
      · exact Or.inl rfl
      · exact Or.inr ⟨_, _, rfl, rfl⟩
    · rcases the with rfl | ⟨b, rfl⟩
      · exact Or.inl rfl
      · exact Or.inr ⟨_, _, rfl, rfl⟩
    · exact Or.inl rfl
    · exact Or.inl rfl
    · exact Or.inl rfl
    · exact Or.inl rfl
    · cases a.stata
      · rcases a.outputfileFe with _ | s
        · exact Or.inl rfl
        · exact Or.inr ⟨_, _, rfl, rfl⟩
      · exact Or.inr ⟨_, _, rfl, rfl⟩
    · exact Or.inl rfl
    · rcases hs : a.solver with _ | s
      · exact Or.inl rfl
      · refine Or.inr ⟨_, _, rfl, ?_⟩
        have := u3 s hs
        simp only [List.mem_cons, List.not_mem_nil, or_false] at this
        rcases this with rfl | rfl | rfl | rfl | rfl | rfl | rfl | rfl <;> rfl
    · rcases hs : a.preconditioner with _ | s
      · exact Or.inl rfl
      · refine Or.inr ⟨_, _, rfl, ?_⟩
        have := u4 s hs
        simp only [List.mem_cons, List.not_mem_nil, or_false] at this
        rcases this with rfl | rfl | rfl | rfl <;> rfl)
  obtain ⟨creD, hcre⟩ := cl (creChanges a po) creTable (by
    intro kv hkv
    simp only [creChanges, n6, n7, n8, n9, text, List.mem_cons, List.not_mem_nil, or_false] at hkv
    rcases hkv with rfl | rfl | rfl | rfl | rfl | rfl
    · exact Or.inl rfl
    · exact Or.inl rfl
    · exact Or.inl rfl
    · cases a.stata
      · rcases a.outputfileCre with _ | s
        · exact Or.inl rfl
        · exact Or.inr ⟨_, _, rfl, rfl⟩
      · exact Or.inr ⟨_, _, rfl, rfl⟩
    · rcases tpo with rfl | ⟨b, rfl⟩
      · exact Or.inl rfl
      · exact Or.inr ⟨_, _, rfl, rfl⟩
    · exact Or.inl rfl)
  have hft : w.lower ((if a.stata then some "dta" else a.filetype).getD "csv") ∈ filetypes := by
    cases hst : a.stata
    · rcases hf : a.filetype with _ | s
      · simp [hl.1, filetypes]
      · simpa [filetypes, Spec.fileKinds] using u5 hst s hf
    · simp [hl.2, filetypes]
  unfold main
  simp only [ec, eho, ehe, epo, hfe, u6, measuresOpt, hcre, bind, Except.bind]
  rw [if_neg (not_not.mpr hft)]
  obtain ⟨d0, h0⟩ := hread (w.lower ((if a.stata then some "dta" else a.filetype).getD "csv"))
    (if a.stata then some "leedtwoway_temp_data.dta" else a.data)
  obtain ⟨d1, h1⟩ := hclean d0
  obtain ⟨d2, h2⟩ : ∃ d2, collapseStep w c d1 = .ok d2 := by
    unfold collapseStep
    split
    · exact hcol d1
    · exact ⟨d1, rfl⟩
  obtain ⟨d3, h3⟩ := hclu none d2
  obtain ⟨d4, h4⟩ := hes d3
  rw [h0]
  dsimp only
  rw [h1]
  dsimp only
  rw [h2, n10]
  dsimp only [rng]
  cases a.cre
  · exact ⟨_, rfl⟩
  · simp only [if_true]
    rw [h3]
    dsimp only
    rw [h4]
    exact ⟨_, rfl⟩

/-- C92: a measure with an unknown name is not refused: it is replaced by the measure before it, and only if there is
none does the run raise. -/
theorem C92_unknown_measure (lower : String → String) (ms : List String) (cur : Option Measure) (l : List Measure)
    (h : measureLoop lower cur ms = .ok l) :
    l.length = ms.length ∧ ∀ (i : ℕ) m, ms[i]? = some m →
      (lower m = "cdfs" → l[i]? = some .cdfs) ∧ (lower m = "moments" → l[i]? = some .moments) ∧
      (lower m ≠ "cdfs" → lower m ≠ "moments" → l[i]? = if i = 0 then cur else l[i - 1]?) := by
  induction ms generalizing cur l with
  | nil => cases h; simp
  | cons m0 ms ih =>
    unfold measureLoop at h
    generalize hcur : (if lower m0 = "cdfs" then some Measure.cdfs
      else if lower m0 = "moments" then some Measure.moments else cur) = cur' at h
    dsimp only at h
    rcases cur' with _ | c
    · cases h
    dsimp only at h
    rcases hr : measureLoop lower (some c) ms with e | l'
    · rw [hr] at h; cases h
    rw [hr] at h
    cases h
    obtain ⟨i1, i2⟩ := ih (some c) l' hr
    refine ⟨by simp [i1], ?_⟩
    intro i m hm
    cases i with
    | zero =>
      simp only [List.getElem?_cons_zero, Option.some.injEq] at hm
      subst hm
      refine ⟨fun h1 => ?_, fun h1 => ?_, fun h1 h2 => ?_⟩
      · rw [if_pos h1] at hcur; simpa using hcur.symm
      · rw [if_neg (by rw [h1]; decide), if_pos h1] at hcur; simpa using hcur.symm
      · rw [if_neg h1, if_neg h2] at hcur; simp [hcur]
    | succ i =>
      simp only [List.getElem?_cons_succ] at hm ⊢
      obtain ⟨j1, j2, j3⟩ := i2 i m hm
      refine ⟨j1, j2, fun h1 h2 => ?_⟩
      rw [j3 h1 h2]
      cases i <;> simp

/-- A world and options to which the theorems apply: FE with two yes/no options and a solver. -/
def sampleWorld : World ℕ where
  lower := id
  parse _ := .ok ["cdfs", "medians"]
  read _ _ := .ok 3
  clean d := .ok d
  isCollapsed _ := false
  collapse d := .ok (d + 1)
  cluster _ d := .ok d
  eventstudy d := .ok d

def sampleArgs : Args :=
  ⟨true, false, false, none, some "data.csv", some "no", none, some "true", some "y", none, none, none, none,
    some "out.json", none, some "amg", none, none, none, none, none, none, none, none⟩

example : Spec.Usable sampleWorld.lower sampleArgs := by
  refine ⟨by simp [sampleArgs], ?_, ?_, ?_, ?_, rfl⟩ <;>
    simp [sampleArgs, sampleWorld, Spec.yes, Spec.no]

example : ∃ r, main sampleWorld sampleArgs = .ok r := ⟨_, rfl⟩

/-- The same with a seed raises. -/
example : ∃ e, main sampleWorld { sampleArgs with seed := some "1" } = .error e :=
  C92_options_that_raise _ _ ⟨some "1", by simp, by simp⟩

/-- An unknown measure after a known one is taken for the known one. -/
example : measureLoop id none ["cdfs", "medians"] = .ok [.cdfs, .cdfs] := rfl

end Pytwoway.CLI
