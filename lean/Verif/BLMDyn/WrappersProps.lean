import Verif.BLMDyn.Wrappers
import Verif.BLMDyn.EMProps

/-! # What the dynamic wrappers borrow and give back: theorems (C97) -/

namespace Pytwoway.Dynamic

open Pytwoway.BLM Pytwoway.Sim.Dyn Finset ProbabilityTheory

variable {V R : Type} {ni nl nk : ℕ}

/-! ## Bootstrap -/

theorem bootLoop4_rest (s : BootSteps4 V) (n k : ℕ) (f : Frames4 V) :
    let f' := (bootLoop4 s n k f).2
    f'.J.j = f.J.j ∧ f'.J.i = f.J.i ∧ f'.J.hasT = f.J.hasT ∧
    f'.S.j = f.S.j ∧ f'.S.i = f.S.i ∧ f'.S.hasT = f.S.hasT := by
  induction n generalizing k f with
  | zero => simp [bootLoop4]
  | succ n ih =>
    unfold bootLoop4
    dsimp only
    split
    · simp
    · split
      · simp [setWages4]
      · split
        · simp [setWages4, setClusters4]
        · rename_i y _ _ c _ _ _
          have := ih (k + 1) (setClusters4 (setWages4 f y) c)
          simpa [setWages4, setClusters4] using this

theorem bootStandard4_same (run : ℕ → Frames4 V → Py Unit) (f : Frames4 V) :
    ∀ n k, (bootStandard4 run n k f).2 = f := by
  intro n
  induction n with
  | zero => intro k; rfl
  | succ n ih =>
    intro k
    unfold bootStandard4
    split
    · rfl
    · exact ih _

theorem vec4 (v : Fin 4 → V) (a b c d : V) (h0 : v 0 = a) (h1 : v 1 = b) (h2 : v 2 = c) (h3 : v 3 = d) :
    ![a, b, c, d] = v := by
  funext t
  fin_cases t
  · exact h0.symm
  · exact h1.symm
  · exact h2.symm
  · exact h3.symm

/-- C97 (partial: normal returns only).  When the bootstrap returns, movers' and stayers' data are exactly what they
were. -/
theorem C97_bootstrap_partial (m : Method) (s : BootSteps4 V) (run : ℕ → Frames4 V → Py Unit) (haveModel : Bool)
    (n : ℕ) (f : Frames4 V) (hf : Spec.EventStudy f) (h : (bootstrap4 m s run haveModel n f).1 = .ok ()) :
    (bootstrap4 m s run haveModel n f).2 = f := by
  cases m with
  | other => rfl
  | standard => exact bootStandard4_same run f n 0
  | parametric =>
    simp only [bootstrap4, bootParametric4] at h ⊢
    split at h
    · cases h
    · split at h
      · cases h
      · rename_i f' he
        have := bootLoop4_rest s n 0 f
        rw [he] at this
        simp only at this
        obtain ⟨a1, a2, a3, a4, a5, a6⟩ := this
        have e1 : ![f.J.g 0, f.J.g 0, f.J.g 3, f.J.g 3] = f.J.g := vec4 _ _ _ _ _ rfl hf.J12 hf.J34 rfl
        have e2 : (fun _ : Fin 4 => f.S.g 0) = f.S.g := funext fun t => (hf.Sg t).symm
        rw [e1, e2]
        ext1
        · ext1 <;> first | assumption | rfl
        · ext1 <;> first | assumption | rfl

/-- C97: the standard bootstrap, and an unknown method, leave the data alone even when something raises. -/
theorem C97_bootstrap_standard (s : BootSteps4 V) (run : ℕ → Frames4 V → Py Unit) (haveModel : Bool) (n : ℕ)
    (f : Frames4 V) : (bootstrap4 .standard s run haveModel n f).2 = f ∧
    bootstrap4 .other s run haveModel n f = (.error "ValueError", f) :=
  ⟨bootStandard4_same run f n 0, rfl⟩

/-- C97 fails: if estimating on the first simulated sample raises, the user's data are left holding the simulated wages
and the clusters found on them. -/
theorem C97_bootstrap_crash (s : BootSteps4 V) (run : ℕ → Frames4 V → Py Unit) (n : ℕ) (f : Frames4 V)
    (y : (Fin 4 → V) × (Fin 4 → V)) (c1 c4 cs : V) (e : String) (hs : s.sim 0 f = .ok y)
    (hc : ∀ f', s.cluster 0 f' = .ok (c1, c4, cs)) (hf : ∀ f', s.fit 0 f' = .error e) :
    bootstrap4 .parametric s run true (n + 1) f =
      (.error e, ⟨{ f.J with y := y.1, g := ![c1, c1, c4, c4] }, { f.S with y := y.2, g := ![cs, cs, cs, cs] }⟩) := by
  have e2 : (fun _ : Fin 4 => cs) = ![cs, cs, cs, cs] := (vec4 _ _ _ _ _ rfl rfl rfl rfl).symm
  simp only [bootstrap4, bootParametric4, if_true, bootLoop4, hs, hc, hf, setWages4, setClusters4, e2]

/-! ## Variance decomposition -/

theorem vdLoop4_rest (s : VdSteps4 V R) (ids : Bool) (n k : ℕ) (f : Frames4 V) :
    let f' := (vdLoop4 s ids n k f).2
    f'.J.j = f.J.j ∧ f'.J.g = f.J.g ∧ f'.S.j = f.S.j ∧ f'.S.g = f.S.g ∧
    (ids = false → f'.J.i = f.J.i ∧ f'.S.i = f.S.i) := by
  induction n generalizing k f with
  | zero => simp [vdLoop4]
  | succ n ih =>
    unfold vdLoop4
    dsimp only
    cases s.sim k f with
    | error e => simp
    | ok x =>
      have hx : (vdFrame4 ids f x).J.j = f.J.j ∧ (vdFrame4 ids f x).J.g = f.J.g ∧ (vdFrame4 ids f x).S.j = f.S.j ∧
          (vdFrame4 ids f x).S.g = f.S.g ∧
          (ids = false → (vdFrame4 ids f x).J.i = f.J.i ∧ (vdFrame4 ids f x).S.i = f.S.i) := by
        cases ids <;> simp [vdFrame4, setWages4]
      simp only
      cases s.fit k (vdFrame4 ids f x) with
      | error e => simpa using hx
      | ok r =>
        have := ih (k + 1) (vdFrame4 ids f x)
        simp only
        generalize vdLoop4 s ids n (k + 1) (vdFrame4 ids f x) = z at this ⊢
        obtain ⟨_ | _, f'⟩ := z <;>
          · obtain ⟨a, b, c, d, e⟩ := this
            obtain ⟨a', b', c', d', e'⟩ := hx
            exact ⟨a.trans a', b.trans b', c.trans c', d.trans d',
              fun h => ⟨(e h).1.trans (e' h).1, (e h).2.trans (e' h).2⟩⟩

/-- C97: when the variance decomposition returns, wages, worker identifiers, firm types, time columns and the movers'
firms are what they were.  With `firm_clusters_as_ids=False` so are the stayers' firms. -/
theorem C97_vardec_partial (s : VdSteps4 V R) (clustersAsIds typesAsIds haveModel : Bool) (n : ℕ) (f : Frames4 V)
    (rs : List R) (h : (varDecomp4 s clustersAsIds typesAsIds haveModel n f).1 = .ok rs) :
    (varDecomp4 s clustersAsIds typesAsIds haveModel n f).2.J = f.J ∧
    (varDecomp4 s clustersAsIds typesAsIds haveModel n f).2.S =
      { f.S with j := if clustersAsIds then ![f.S.g 0, f.S.j 1, f.S.j 2, f.S.j 0] else f.S.j } := by
  simp only [varDecomp4] at h ⊢
  split at h
  · cases h
  · split at h
    · cases h
    · rename_i f' he
      have := vdLoop4_rest s typesAsIds n 0 (vdStart4 clustersAsIds f)
      rw [he] at this
      simp only at this
      split at h
      · cases h
      · rename_i hn
        rw [if_neg hn]
        obtain ⟨a, b, c, d, e⟩ := this
        have q1 : ![f.J.j 0, f.J.j 1, f.J.j 2, f.J.j 3] = f.J.j := vec4 _ _ _ _ _ rfl rfl rfl rfl
        cases clustersAsIds <;> cases typesAsIds <;>
          simp only [vdStart4, if_true, Bool.false_eq_true, if_false, true_implies] at * <;>
          refine ⟨?_, ?_⟩ <;> ext1 <;>
          first
          | rfl
          | assumption
          | exact e.1
          | exact e.2
          | (simp only [a, c, Matrix.cons_val_zero, Matrix.cons_val_one, Matrix.cons_val]; assumption)
          | simp only [c, Matrix.cons_val_zero, Matrix.cons_val_one, Matrix.cons_val]

/-- C97 fails: in every normal return with `firm_clusters_as_ids=True`, the default, `j1` of stayers holds firm types,
so the stayers' data are what they were only if firms were numbered like their types. -/
theorem C97_stayers_firms_lost (s : VdSteps4 V R) (typesAsIds haveModel : Bool) (n : ℕ) (f : Frames4 V) (rs : List R)
    (h : (varDecomp4 s true typesAsIds haveModel n f).1 = .ok rs) :
    (varDecomp4 s true typesAsIds haveModel n f).2.S.j 0 = f.S.g 0 ∧
    (f.S.j 0 ≠ f.S.g 0 → (varDecomp4 s true typesAsIds haveModel n f).2 ≠ f) := by
  have h2 := (C97_vardec_partial s true typesAsIds haveModel n f rs h).2
  refine ⟨by rw [h2]; rfl, fun hne he => hne ?_⟩
  rw [he] at h2
  have := congrArg (fun x : DF4 V => x.j 0) h2
  simpa using this

/-- C97: every regression of the variance decomposition is run on data in which, with `firm_clusters_as_ids=True`, the
firms of periods 1 and 4 are firm types but those of periods 2 and 3 are still the user's firm identifiers. -/
theorem C97_ids_mixed (s : VdSteps4 V R) (typesAsIds haveModel : Bool) (n : ℕ) (f : Frames4 V) (rs : List R)
    (h : (varDecomp4 s true typesAsIds haveModel n f).1 = .ok rs) :
    rs.length = n ∧ ∀ k (hk : k < rs.length), ∃ f', s.fit k f' = .ok rs[k] ∧
      f'.J.j = ![f.J.g 0, f.J.j 1, f.J.j 2, f.J.g 3] ∧ f'.S.j = ![f.S.g 0, f.S.j 1, f.S.j 2, f.S.g 0] := by
  have key : ∀ n k (f0 f1 : Frames4 V) (rs : List R), vdLoop4 s typesAsIds n k f0 = (.ok rs, f1) →
      rs.length = n ∧ ∀ t (ht : t < rs.length), ∃ f', s.fit (k + t) f' = .ok rs[t] ∧ f'.J.j = f0.J.j ∧
        f'.S.j = f0.S.j := by
    intro n
    induction n with
    | zero =>
      intro k f0 f1 rs hl
      simp only [vdLoop4] at hl
      cases hl
      exact ⟨rfl, fun t ht => by simp at ht⟩
    | succ n ih =>
      intro k f0 f1 rs hl
      unfold vdLoop4 at hl
      split at hl
      · cases hl
      · rename_i x hx
        split at hl
        · cases hl
        · rename_i r hr
          split at hl
          · cases hl
          · rename_i rs' f' hl'
            cases hl
            obtain ⟨i1, i2⟩ := ih _ _ _ _ hl'
            have hj : (vdFrame4 typesAsIds f0 x).J.j = f0.J.j ∧ (vdFrame4 typesAsIds f0 x).S.j = f0.S.j := by
              cases typesAsIds <;> exact ⟨rfl, rfl⟩
            refine ⟨by simp [i1], fun t ht => ?_⟩
            cases t with
            | zero => exact ⟨_, hr, hj⟩
            | succ t =>
              obtain ⟨g, g1, g2, g3⟩ := i2 t (by simpa using ht)
              refine ⟨g, ?_, g2.trans hj.1, g3.trans hj.2⟩
              rw [show k + (t + 1) = k + 1 + t by ring]
              exact g1
  simp only [varDecomp4] at h
  split at h
  · cases h
  · split at h
    · cases h
    · rename_i rs' f' he
      split at h
      · cases h
      · cases h
        obtain ⟨k1, k2⟩ := key _ _ _ _ _ he
        refine ⟨k1, fun t ht => ?_⟩
        obtain ⟨g, g1, g2, g3⟩ := k2 t ht
        refine ⟨g, by simpa using g1, g2, g3⟩

/-- C97 fails: if the initial estimation inside the variance decomposition raises, the firm identifiers of both frames
have been replaced by firm types; if a sample's regression raises, the wages (and worker identifiers) are the simulated
ones; without samples it raises and leaves the time columns and the stayers' firms changed. -/
theorem C97_vardec_crash (s : VdSteps4 V R) (n : ℕ) (f : Frames4 V) (x : ((Fin 4 → V) × (Fin 4 → V)) × (V × V))
    (e e' : String) (hi : ∀ f, s.initial f = .error e) (hs : ∀ k f, s.sim k f = .ok x)
    (hf : ∀ k f, s.fit k f = .error e') :
    ((varDecomp4 s true true false n f).1 = .error e ∧
      (varDecomp4 s true true false n f).2.J.j = ![f.J.g 0, f.J.j 1, f.J.j 2, f.J.g 3]) ∧
    ((varDecomp4 s true true true (n + 1) f).1 = .error e' ∧ (varDecomp4 s true true true (n + 1) f).2.J.y = x.1.1 ∧
      (varDecomp4 s true true true (n + 1) f).2.S.y = x.1.2 ∧ (varDecomp4 s true true true (n + 1) f).2.J.i = x.2.1 ∧
      (varDecomp4 s true true true (n + 1) f).2.S.i = x.2.2) ∧
    ((varDecomp4 s true true true 0 f).1 = .error "IndexError" ∧ (varDecomp4 s true true true 0 f).2.J.hasT = true ∧
      (varDecomp4 s true true true 0 f).2.S.j 0 = f.S.g 0) := by
  simp [varDecomp4, hi, vdLoop4, hs, hf, vdStart4, vdFrame4, setWages4]

/-- Non-vacuity: data, and steps that run to completion; the stayers' first firm is lost. -/
def sampleFrames : Frames4 ℕ := ⟨⟨fun t => t.val, ![0, 0, 1, 1], ![10, 10, 11, 11], 5, false⟩,
  ⟨fun t => t.val, fun _ => 1, fun _ => 12, 6, false⟩⟩

example : Spec.EventStudy sampleFrames := ⟨rfl, rfl, fun _ => rfl, fun _ => rfl⟩

example : ∃ s : BootSteps4 ℕ, (bootstrap4 .parametric s (fun _ _ => .ok ()) false 3 sampleFrames).1 = .ok () :=
  ⟨⟨fun _ => .ok (), fun k _ => .ok (fun _ => k, fun _ => k), fun k _ => .ok (k, k, k), fun _ _ => .ok ()⟩, rfl⟩

example : ∃ s : VdSteps4 ℕ ℕ, (varDecomp4 s true true false 2 sampleFrames).1 = .ok [7, 7] ∧
    sampleFrames.S.j 0 ≠ sampleFrames.S.g 0 :=
  ⟨⟨fun _ => .ok (), fun k _ => .ok ((fun _ => k, fun _ => k), (k, k)), fun _ _ => .ok 7⟩, rfl, by decide⟩

example : ∃ s : VdSteps4 ℕ ℕ, (∀ f, s.initial f = .error "a") ∧ (∀ k f, s.sim k f = .ok ((fun _ => 9, fun _ => 9), (8, 8))) ∧
    ∀ k f, s.fit k f = .error "b" :=
  ⟨⟨fun _ => .error "a", fun _ _ => .ok ((fun _ => 9, fun _ => 9), (8, 8)), fun _ _ => .error "b"⟩, fun _ => rfl,
    fun _ _ => rfl, fun _ _ => rfl⟩

/-! ## Single-block fits -/

theorem solveSMv_A [NeZero nl] {endo state : Bool} (solve : QP (Fin nl × JM endo state nk))
    (P : Fin nl × JM endo state nk → Fin nl × JM endo state nk → ℝ) (v : Fin nl × JM endo state nk → ℝ)
    (b : DBase nl nk) : (solveSMv solve P v b).Aw = b.Aw ∧ (solveSMv solve P v b).Ab = b.Ab := by
  unfold solveSMv
  split <;> exact ⟨rfl, rfl⟩

theorem solveAMv_S [NeZero nl] {endo state : Bool} (solve : QP (Fin nl × JM endo state nk))
    (P : Fin nl × JM endo state nk → Fin nl × JM endo state nk → ℝ) (v : Fin nl × JM endo state nk → ℝ)
    (b : DBase nl nk) : (solveAMv solve P v b).Sw = b.Sw ∧ (solveAMv solve P v b).Sb = b.Sb := by
  unfold solveAMv
  split <;> exact ⟨rfl, rfl⟩

theorem mstepMv_keeps [NeZero nl] {endo state : Bool} (d : DData ni nk) (q : Fin ni → Fin nl → ℝ)
    (b : DBase nl nk) (r : Rhos) (updA updS : Bool) (δ : ℝ) (sA sS : QP (Fin nl × JM endo state nk)) :
    (updA = false → (mstepMv d q b r updA updS δ sA sS).Aw = b.Aw ∧ (mstepMv d q b r updA updS δ sA sS).Ab = b.Ab) ∧
    (updS = false → (mstepMv d q b r updA updS δ sA sS).Sw = b.Sw ∧ (mstepMv d q b r updA updS δ sA sS).Sb = b.Sb) := by
  unfold mstepMv
  constructor
  · rintro rfl
    cases updS
    · exact ⟨rfl, rfl⟩
    · exact solveSMv_A _ _ _ _
  · rintro rfl
    cases updA
    · exact ⟨rfl, rfl⟩
    · exact solveAMv_S _ _ _ _

/-- What the loop keeps. -/
structure LoopKeeps (o : MvOpts) (s s' : MvState nl nk) : Prop where
  A : o.updA = false → s'.base.Aw = s.base.Aw ∧ s'.base.Ab = s.base.Ab
  S : o.updS = false → s'.base.Sw = s.base.Sw ∧ s'.base.Sb = s.base.Sb
  pk : o.updPk = false → s'.pk1 = s.pk1
  R12 : o.upd12 = false → s'.r.R12 = s.r.R12
  R43 : o.upd43 = false → s'.r.R43 = s.r.R43
  R32 : o.upd32 = false → s'.r.R32 = s.r.R32

theorem LoopKeeps.refl (o : MvOpts) (s s' : MvState nl nk) (h1 : s'.base = s.base) (h2 : s'.r = s.r)
    (h3 : s'.pk1 = s.pk1) : LoopKeeps o s s' :=
  ⟨fun _ => by rw [h1]; exact ⟨rfl, rfl⟩, fun _ => by rw [h1]; exact ⟨rfl, rfl⟩, fun _ => h3, fun _ => by rw [h2],
    fun _ => by rw [h2], fun _ => by rw [h2]⟩

theorem LoopKeeps.trans {o : MvOpts} {s s' s'' : MvState nl nk} (h : LoopKeeps o s s') (h' : LoopKeeps o s' s'') :
    LoopKeeps o s s'' :=
  ⟨fun a => ⟨(h'.A a).1.trans (h.A a).1, (h'.A a).2.trans (h.A a).2⟩,
    fun a => ⟨(h'.S a).1.trans (h.S a).1, (h'.S a).2.trans (h.S a).2⟩, fun a => (h'.pk a).trans (h.pk a),
    fun a => (h'.R12 a).trans (h.R12 a), fun a => (h'.R43 a).trans (h.R43 a), fun a => (h'.R32 a).trans (h.R32 a)⟩

theorem stepMv_keeps [NeZero nl] {endo state : Bool} (d : DData ni nk) (o : MvOpts)
    (sA sS : QP (Fin nl × JM endo state nk)) (iter : ℕ) (q : Fin ni → Fin nl → ℝ) (s s' : MvState nl nk)
    (h : stepMv d o sA sS iter q s = .ok s') : LoopKeeps o s s' := by
  unfold stepMv at h
  cases hu : nextPk o.updPk (nk ^ 2) (flow d) q o.dprior s.pk1 with
  | error m => rw [hu] at h; cases h
  | ok pk =>
    rw [hu] at h
    simp only [bind, Except.bind] at h
    have hpk : o.updPk = false → pk = s.pk1 := by
      intro hp
      rw [hp] at hu
      simp only [nextPk, Bool.false_eq_true, if_false] at hu
      cases hu; rfl
    split at h
    · cases h
      exact ⟨fun _ => ⟨rfl, rfl⟩, fun _ => ⟨rfl, rfl⟩, hpk, fun a => by simp [rhosMv, a], fun a => by simp [rhosMv, a],
        fun a => by simp [rhosMv, a]⟩
    · split at h
      · cases h
        have := mstepMv_keeps d q s.base s.r o.updA o.updS o.δ sA sS
        exact ⟨this.1, this.2, hpk, fun _ => rfl, fun _ => rfl, fun _ => rfl⟩
      · cases h
        exact ⟨fun _ => ⟨rfl, rfl⟩, fun _ => ⟨rfl, rfl⟩, hpk, fun _ => rfl, fun _ => rfl, fun _ => rfl⟩

theorem loopMv_keeps [NeZero nl] {endo state : Bool} (d : DData ni nk) (o : MvOpts)
    (sA sS : QP (Fin nl × JM endo state nk)) (minType : DBase nl nk → ℕ) (fuel : ℕ) :
    ∀ (iter : ℕ) (prev : Option ℝ) (pm : ℕ) (s s' : MvState nl nk),
      loopMv d o sA sS minType fuel iter prev pm s = .ok s' → LoopKeeps o s s' := by
  induction fuel with
  | zero =>
    intro iter prev pm s s' h
    simp only [loopMv] at h
    cases h
    exact LoopKeeps.refl _ _ _ rfl rfl rfl
  | succ fuel ih =>
    intro iter prev pm s s' h
    simp only [loopMv] at h
    split at h
    · cases h
      exact LoopKeeps.refl _ _ _ rfl rfl rfl
    · rename_i hne
      simp only [bind, Except.bind] at h
      generalize hst : stepMv d o sA sS iter _ _ = y at h
      cases y with
      | error e => cases h
      | ok s2 =>
        have := stepMv_keeps d o sA sS _ _ _ _ hst
        have h1 : LoopKeeps o s s2 := ⟨this.A, this.S, this.pk, this.R12, this.R43, this.R32⟩
        exact h1.trans (ih _ _ _ _ _ h)

theorem fitBlockD_ok [NeZero nl] (updA updS updPk : Bool) (e : DEnv ni nl nk) (m : DModel nl nk)
    (h : (fitBlockD updA updS updPk e m).1 = .ok ()) :
    let m' := (fitBlockD updA updS updPk e m).2
    m'.opts = m.opts ∧ m'.R32s = m.R32s ∧ (m.opts.upd12 = false → m'.r.R12 = m.r.R12) ∧
    (m.opts.upd43 = false → m'.r.R43 = m.r.R43) ∧ (m.opts.upd32 = false → m'.r.R32 = m.r.R32) ∧
    ∃ w, Spec.Kept w m m' (!updA) (!updS) (!updPk) := by
  unfold fitBlockD at h ⊢
  simp only at h ⊢
  split at h
  · cases h
  · rename_i m2 he
    unfold fitMoversD at he
    simp only at he
    split at he
    · cases he
    · rename_i s hs
      cases he
      have k := loopMv_keeps _ _ _ _ _ _ _ _ _ _ _ hs
      refine ⟨rfl, rfl, k.R12, k.R43, k.R32, ?_⟩
      obtain ⟨w0, f0, hf0, h0⟩ := C90_relabelling e.argsort e.pp false false m.x
      obtain ⟨w1, f1, hf1, h1⟩ := C90_relabelling e.argsort e.pp false false
        { e.sort m.x with base := s.base, pk1 := s.pk1 }
      have hf0 := hf0 rfl
      have hf1 := hf1 rfl
      subst hf0 hf1
      have h0 : Spec.DRelabelled w0 (Equiv.refl _) m.x (e.sort m.x) := h0
      refine ⟨w1.trans w0, fun hA => ?_, fun hS => ?_, fun hp k1 k2 l => ?_, fun k l => ?_⟩
      · have kk := k.A (by simpa using hA)
        refine ⟨fun p hp l k => ?_, fun p hp k => ?_⟩
        · exact (h1.A p hp l k).trans ((congrFun (congrFun (congrFun kk.1 p) (w1 l)) k).trans (h0.A p hp (w1 l) k))
        · exact (h1.Ab p hp k).trans ((congrFun (congrFun kk.2 p) k).trans (h0.Ab p hp k))
      · have kk := k.S (by simpa using hS)
        refine ⟨fun p hp l k => ?_, fun p hp k => ?_⟩
        · exact (h1.S p hp l k).trans ((congrFun (congrFun (congrFun kk.1 p) (w1 l)) k).trans (h0.S p hp (w1 l) k))
        · exact (h1.Sb p hp k).trans ((congrFun (congrFun kk.2 p) k).trans (h0.Sb p hp k))
      · have kk := k.pk (by simpa using hp)
        exact (h1.pk1 k1 k2 l).trans ((congrFun (congrFun kk _) (w1 l)).trans (h0.pk1 k1 k2 (w1 l)))
      · exact (h1.pk0 k l).trans (h0.pk0 k (w1 l))

/-- C97 (partial: normal returns).  When `fit_A` returns, the settings are the user's, and standard deviations and type
proportions are unchanged up to sorting of the worker types; persistence parameters whose updates are switched off are
unchanged. -/
theorem C97_fit_A_partial [NeZero nl] (e : DEnv ni nl nk) (m : DModel nl nk) (h : (fitAD e m).1 = .ok ()) :
    (fitAD e m).2.opts = m.opts ∧ (∃ w, Spec.Kept w m (fitAD e m).2 false true true) ∧
    (m.opts.upd12 = false → (fitAD e m).2.r.R12 = m.r.R12) ∧
    (m.opts.upd43 = false → (fitAD e m).2.r.R43 = m.r.R43) ∧
    (m.opts.upd32 = false → (fitAD e m).2.r.R32 = m.r.R32) := by
  obtain ⟨a, _, b, c, d, w⟩ := fitBlockD_ok true false false e m h
  exact ⟨a, w, b, c, d⟩

/-- C97 (partial: normal returns).  The same for `fit_S`: means and type proportions. -/
theorem C97_fit_S_partial [NeZero nl] (e : DEnv ni nl nk) (m : DModel nl nk) (h : (fitSD e m).1 = .ok ()) :
    (fitSD e m).2.opts = m.opts ∧ (∃ w, Spec.Kept w m (fitSD e m).2 true false true) ∧
    (m.opts.upd12 = false → (fitSD e m).2.r.R12 = m.r.R12) ∧
    (m.opts.upd43 = false → (fitSD e m).2.r.R43 = m.r.R43) ∧
    (m.opts.upd32 = false → (fitSD e m).2.r.R32 = m.r.R32) := by
  obtain ⟨a, _, b, c, d, w⟩ := fitBlockD_ok false true false e m h
  exact ⟨a, w, b, c, d⟩

/-- C97 (partial: normal returns).  The same for `fit_pk`: means and standard deviations. -/
theorem C97_fit_pk_partial [NeZero nl] (e : DEnv ni nl nk) (m : DModel nl nk) (h : (fitPkD e m).1 = .ok ()) :
    (fitPkD e m).2.opts = m.opts ∧ (∃ w, Spec.Kept w m (fitPkD e m).2 true true false) ∧
    (m.opts.upd12 = false → (fitPkD e m).2.r.R12 = m.r.R12) ∧
    (m.opts.upd43 = false → (fitPkD e m).2.r.R43 = m.r.R43) ∧
    (m.opts.upd32 = false → (fitPkD e m).2.r.R32 = m.r.R32) := by
  obtain ⟨a, _, b, c, d, w⟩ := fitBlockD_ok false false true e m h
  exact ⟨a, w, b, c, d⟩

theorem loopMv_total [NeZero nl] {endo state : Bool} (d : DData ni nk) (o : MvOpts) (ho : o.updPk = false)
    (sA sS : QP (Fin nl × JM endo state nk)) (minType : DBase nl nk → ℕ) (fuel : ℕ) :
    ∀ (iter : ℕ) (prev : Option ℝ) (pm : ℕ) (s : MvState nl nk),
      ∃ s', loopMv d o sA sS minType fuel iter prev pm s = .ok s' := by
  induction fuel with
  | zero => exact fun _ _ _ s => ⟨s, rfl⟩
  | succ fuel ih =>
    intro iter prev pm s
    simp only [loopMv]
    split
    · exact ⟨_, rfl⟩
    · have : ∀ q s, ∃ s', stepMv d o sA sS iter q s = .ok s' := fun q s => by
        unfold stepMv
        simp only [nextPk, ho, Bool.false_eq_true, if_false, bind, Except.bind]
        split
        · exact ⟨_, rfl⟩
        · split <;> exact ⟨_, rfl⟩
      simp only [bind, Except.bind]
      generalize hst : stepMv d o sA sS iter _ _ = y
      cases y with
      | error e =>
        obtain ⟨s', h'⟩ := this _ _
        rw [h'] at hst
        cases hst
      | ok s2 => exact ih _ _ _ _

/-- C97: `fit_A` and `fit_S` always return, since a failed quadratic program leaves the parameters as they are.  (In
the static model `fit_A` always raises, `C40_fit_A_raises`.) -/
theorem C97_fit_A_S_return [NeZero nl] (e : DEnv ni nl nk) (m : DModel nl nk) :
    (fitAD e m).1 = .ok () ∧ (fitSD e m).1 = .ok () := by
  have key : ∀ a b, (fitBlockD a b false e m).1 = .ok () := fun a b => by
    unfold fitBlockD fitMoversD
    obtain ⟨s, hs⟩ := loopMv_total e.d { m.opts with updA := a, updS := b, updPk := false } rfl e.sA e.sS e.minType
      e.nIters 0 none (e.minType (e.sort m.x).base) ⟨(e.sort m.x).base, m.r, (e.sort m.x).pk1, []⟩
    simp only [hs]
  exact ⟨key true false, key false true⟩

/-- C97 fails: whenever a single-block fit raises, the settings it switched are not put back, and `pk0` has been sorted
while the other parameters have not. -/
theorem C97_settings_lost [NeZero nl] (updA updS updPk : Bool) (e : DEnv ni nl nk) (m : DModel nl nk) (err : String)
    (h : (fitBlockD updA updS updPk e m).1 = .error err) :
    (fitBlockD updA updS updPk e m).2 =
      { m with
        opts := { m.opts with updA := updA, updS := updS, updPk := updPk }
        x := { m.x with pk0 := (dSort e.argsort e.pp false false m.x).pk0 } } := by
  unfold fitBlockD at h ⊢
  simp only at h ⊢
  split at h
  · rename_i he
    unfold fitMoversD at he
    simp only at he
    split at he
    · cases he; rfl
    · cases he
  · cases h

/-- C97 fails on reachable data: `fit_pk` raises, and loses the settings, as soon as some pair of firm types has no
mover. -/
theorem C97_fit_pk_raises [NeZero nl] (e : DEnv ni nl nk) (m : DModel nl nk) (hn : 0 < e.nIters) (k1 k2 : Fin nk)
    (hd : 1 ≤ m.opts.dprior) (hmiss : ∀ i, ¬ (e.d.G 0 i = k1 ∧ e.d.G 1 i = k2)) :
    (fitPkD e m).1 = .error "ValueError" ∧ (fitPkD e m).2.opts.updA = false ∧ (fitPkD e m).2.opts.updS = false := by
  obtain ⟨n, hn⟩ : ∃ n, e.nIters = n + 1 := ⟨e.nIters - 1, by omega⟩
  have herr : (fitPkD e m).1 = .error "ValueError" := by
    have hp : ∀ q : Fin ni → Fin nl → ℝ, (∀ i, ∑ l, q i l = 1) → updatePk (nk ^ 2) (flow e.d) q m.opts.dprior =
        .error "ValueError" := fun q hq =>
      (updatePk_raises _ _ _ hq _ hd).mpr ⟨k1.val + nk * k2.val, by
        have h1 := k1.isLt
        have h2 := k2.isLt
        have : nk * (k2.val + 1) ≤ nk * nk := Nat.mul_le_mul_left _ h2
        nlinarith, fun i hi => by
          refine hmiss i ⟨?_, ?_⟩
          · have := congrArg (· % nk) hi
            simp only [flow, Nat.add_mul_mod_self_left, Nat.mod_eq_of_lt (Fin.isLt _)] at this
            exact Fin.ext this
          · have h0 : 0 < nk := k1.pos
            have := congrArg (· / nk) hi
            simp only [flow, Nat.add_mul_div_left _ _ h0, Nat.div_eq_of_lt (Fin.isLt _), zero_add] at this
            exact Fin.ext this⟩
    unfold fitPkD fitBlockD fitMoversD
    simp only [hn, loopMv, close, Bool.false_and, Bool.false_eq_true, if_false, stepMv, nextPk, if_true]
    rw [hp _ fun i => posterior_sum _ i]
    rfl
  have := C97_settings_lost false false true e m _ herr
  refine ⟨herr, ?_, ?_⟩
  · show (fitBlockD false false true e m).2.opts.updA = _
    rw [this]
  · show (fitBlockD false false true e m).2.opts.updS = _
    rw [this]

/-! ### Persistence parameters are not held fixed -/

/-- One mover with wages 2, 1, 0, 0 and one type of firm. -/
noncomputable def persEnv (a : Argsort) : DEnv 1 1 1 where
  endo := true
  state := true
  d := ⟨fun _ => ⟨2, 1, 0, 0⟩, fun _ _ => 0⟩
  sA := fun _ _ => .ok none
  sS := fun _ _ => .ok none
  minType := fun _ => 0
  argsort := a
  pp := .first
  nIters := 2

/-- A model with means 0, standard deviations 1 and no persistence. -/
def persModel : DModel 1 1 where
  opts := ⟨true, true, true, false, false, true, 1, 0, 1⟩
  x := ⟨⟨fun _ _ _ => 0, fun _ _ => 0, fun _ _ _ => 1, fun _ _ => 1⟩, [], fun _ _ => 1, fun _ _ => 1, fun _ _ => 1,
    fun _ => 1⟩
  r := ⟨0, 0, 0⟩
  R32s := 0

theorem posterior_one (lp : Fin 1 → Fin 1 → ℝ) : posterior lp = fun _ _ => 1 := by
  funext i l
  have h : lp i l = lp i 0 := by rw [Subsingleton.elim l 0]
  rw [posterior, Util.C04_exact]
  simp [h]

/-- C97 fails: `fit_pk`, documented to update only the type proportions, changes the persistence of wages. -/
theorem C97_persistence_changed (a : Argsort) :
    (fitPkD (persEnv a) persModel).1 = .ok () ∧ persModel.r.R12 = 0 ∧ (fitPkD (persEnv a) persModel).2.r.R12 = 2 := by
  have hs : (persEnv a).sort persModel.x = persModel.x := by
    simp only [DEnv.sort, dSort, dSortWorkers, persModel, List.map_nil, ite_self, Bool.false_eq_true, if_false]
  have hp : updatePk (1 ^ 2) (flow (persEnv a).d) (fun (_ : Fin 1) (_ : Fin 1) => 1) 1 =
      .ok (fun p l => 1 / (∑ l', sumPk (flow (persEnv a).d) (fun _ (_ : Fin 1) => 1) 1 p l') *
        sumPk (flow (persEnv a).d) (fun (_ : Fin 1) (_ : Fin 1) => 1) 1 p l) := by
    unfold updatePk
    rw [if_neg]
    rintro ⟨p, hp, h⟩
    have : p = 0 := by simpa using hp
    subst this
    simp [sumPk, flow, persEnv] at h
  have hl : ∀ pm s0, ∃ s1, loopMv (persEnv a).d ⟨false, false, true, false, false, true, 1, 0, 1⟩ (persEnv a).sA
      (persEnv a).sS (persEnv a).minType 2 0 none pm ⟨persModel.x.base, persModel.r, s0, []⟩ = .ok s1 ∧
      s1.r.R12 = 2 := by
    intro pm s0
    simp only [loopMv, close, Bool.false_and, Bool.false_eq_true, if_false, stepMv, nextPk, if_true, posterior_one, hp,
      bind, Except.bind]
    simp [rhosMv, update12, rhoUpdate, xx12, yy12, ss12, persModel, persEnv, DBase.a, DBase.s2, Per.isB]
    rw [if_neg (not_lt.mpr (abs_nonneg _))]
    exact ⟨_, rfl, rfl⟩
  obtain ⟨s1, h1, h2⟩ := hl ((persEnv a).minType persModel.x.base) persModel.x.pk1
  have hm : fitMoversD (persEnv a) { persModel with opts := ⟨false, false, true, false, false, true, 1, 0, 1⟩ } =
      (.ok (), { persModel with
        opts := ⟨false, false, true, false, false, true, 1, 0, 1⟩
        x := { persModel.x with
          base := ((persEnv a).sort { persModel.x with base := s1.base, pk1 := s1.pk1 }).base
          pk1 := ((persEnv a).sort { persModel.x with base := s1.base, pk1 := s1.pk1 }).pk1
          pk0 := ((persEnv a).sort { persModel.x with base := s1.base, pk1 := s1.pk1 }).pk0 }
        r := s1.r }) := by
    unfold fitMoversD
    simp only [hs]
    rw [show (persEnv a).nIters = 2 from rfl, h1]
  unfold fitPkD fitBlockD
  rw [show ({ persModel with opts := { persModel.opts with updA := false, updS := false, updPk := true } } : DModel 1 1) =
    { persModel with opts := ⟨false, false, true, false, false, true, 1, 0, 1⟩ } from rfl, hm]
  exact ⟨rfl, rfl, h2⟩

/-! ## `fit_movers_cstr_uncstr` -/

/-- C97 (partial: normal returns): `fit_movers_cstr_uncstr` leaves the user's settings, and its last fit is run with
the user's constraints and a stabilising factor half as far from one. -/
theorem C97_cstr_partial {σ : Type} (nl nt : ℕ) (start : Option (σ → σ)) (fit : Settings4 → σ → Py Unit × σ)
    (conn : σ → Py Unit × σ) (user : Settings4) (x : σ) (h : (cstrUncstr4 nl nt start fit conn user x).1 = .ok ()) :
    (cstrUncstr4 nl nt start fit conn user x).2.1 = user ∧
    ∃ x' x'', fit ⟨true, true, true, user.consAll, 1 + (user.dX - 1) / 2⟩ x' = (.ok (), x'') ∧
      conn x'' = (.ok (), (cstrUncstr4 nl nt start fit conn user x).2.2) := by
  unfold cstrUncstr4 at h ⊢
  simp only at h ⊢
  generalize startOf start x = x0 at h ⊢
  generalize h1 : fit { user with updA := false, updS := true, updPk := start.isNone } x0 = r1 at h ⊢
  obtain ⟨_ | ⟨⟨⟩⟩, x1⟩ := r1
  · cases h
  · simp only at h ⊢
    by_cases hnl : nl > 1
    · rw [if_pos hnl] at h ⊢
      generalize h3 : fit _ x1 = r3 at h ⊢
      obtain ⟨_ | ⟨⟨⟩⟩, x3⟩ := r3
      · cases h
      · simp only at h ⊢
        generalize h4 : fit _ x3 = r4 at h ⊢
        obtain ⟨_ | ⟨⟨⟩⟩, x4⟩ := r4
        · cases h
        · simp only at h ⊢
          generalize h5 : fit _ x4 = r5 at h ⊢
          obtain ⟨_ | ⟨⟨⟩⟩, x5⟩ := r5
          · cases h
          · simp only at h ⊢
            generalize h6 : conn x5 = r6 at h ⊢
            obtain ⟨_ | ⟨⟨⟩⟩, x6⟩ := r6
            · cases h
            · exact ⟨rfl, x4, x5, h5, h6⟩
    · rw [if_neg hnl] at h ⊢
      simp only at h ⊢
      generalize h5 : fit _ x1 = r5 at h ⊢
      obtain ⟨_ | ⟨⟨⟩⟩, x5⟩ := r5
      · cases h
      · simp only at h ⊢
        generalize h6 : conn x5 = r6 at h ⊢
        obtain ⟨_ | ⟨⟨⟩⟩, x6⟩ := r6
        · cases h
        · exact ⟨rfl, x1, x5, h5, h6⟩

/-- C97: the settings of the successive fits, recorded by a fit that always succeeds.  Means are fixed in the first;
type proportions are fixed too if they come from a static model.  The last three update everything, whatever the user's
settings; the two constrained ones need more than one worker type; the last one uses the user's constraints and a
factor closer to one. -/
theorem C97_cstr_sequence (nl nt : ℕ) (start : Option (List Settings4 → List Settings4)) (hs : ∀ g ∈ start, g [] = [])
    (user : Settings4) :
    (cstrUncstr4 nl nt start (fun s l => (.ok (), l ++ [s])) (fun l => (.ok (), l)) user []).2.2 =
      if nl > 1 then
        [⟨false, true, start.isNone, user.consAll, user.dX⟩,
         ⟨true, true, true, some (user.consAll.getD [] ++ [.linearAdditive nt]), user.dX⟩,
         ⟨true, true, true, some (user.consAll.getD [] ++ [.stationary [1, 2, 3] nt]), user.dX⟩,
         ⟨true, true, true, user.consAll, 1 + (user.dX - 1) / 2⟩]
      else [⟨false, true, start.isNone, user.consAll, user.dX⟩,
        ⟨true, true, true, user.consAll, 1 + (user.dX - 1) / 2⟩] := by
  have ha : ∀ c, addCon user.consAll c = some (user.consAll.getD [] ++ [c]) := fun c => by
    cases h : user.consAll <;> simp [addCon]
  have hx : startOf start ([] : List Settings4) = [] := by
    cases start with
    | none => rfl
    | some g => exact hs g rfl
  unfold cstrUncstr4
  simp only [hx, ha]
  by_cases h : nl > 1
  · simp [h]
  · simp [h]

/-- C97 fails: if a fit (or the connectedness) raises, the settings stay those of one of the intermediate fits. -/
theorem C97_cstr_lost {σ : Type} (nl nt : ℕ) (start : Option (σ → σ)) (fit : Settings4 → σ → Py Unit × σ)
    (conn : σ → Py Unit × σ) (user : Settings4) (x : σ) (err : String)
    (h : (cstrUncstr4 nl nt start fit conn user x).1 = .error err) :
    (cstrUncstr4 nl nt start fit conn user x).2.1 ∈
      [(⟨false, true, start.isNone, user.consAll, user.dX⟩ : Settings4),
       ⟨true, true, true, some (user.consAll.getD [] ++ [.linearAdditive nt]), user.dX⟩,
       ⟨true, true, true, some (user.consAll.getD [] ++ [.stationary [1, 2, 3] nt]), user.dX⟩,
       ⟨true, true, true, user.consAll, 1 + (user.dX - 1) / 2⟩] := by
  have ha : ∀ c, addCon user.consAll c = some (user.consAll.getD [] ++ [c]) := fun c => by
    cases h : user.consAll <;> simp [addCon]
  unfold cstrUncstr4 at h ⊢
  simp only at h ⊢
  generalize startOf start x = x0 at h ⊢
  generalize h1 : fit { user with updA := false, updS := true, updPk := start.isNone } x0 = r1 at h ⊢
  obtain ⟨_ | ⟨⟨⟩⟩, x1⟩ := r1
  · simp
  · simp only at h ⊢
    by_cases hnl : nl > 1
    · rw [if_pos hnl] at h ⊢
      generalize h3 : fit _ x1 = r3 at h ⊢
      obtain ⟨_ | ⟨⟨⟩⟩, x3⟩ := r3
      · simp [ha]
      · simp only at h ⊢
        generalize h4 : fit _ x3 = r4 at h ⊢
        obtain ⟨_ | ⟨⟨⟩⟩, x4⟩ := r4
        · simp [ha]
        · simp only at h ⊢
          generalize h5 : fit _ x4 = r5 at h ⊢
          obtain ⟨_ | ⟨⟨⟩⟩, x5⟩ := r5
          · simp [ha]
          · simp only at h ⊢
            generalize h6 : conn x5 = r6 at h ⊢
            obtain ⟨_ | ⟨⟨⟩⟩, x6⟩ := r6
            · simp [ha]
            · cases h
    · rw [if_neg hnl] at h ⊢
      simp only at h ⊢
      generalize h5 : fit _ x1 = r5 at h ⊢
      obtain ⟨_ | ⟨⟨⟩⟩, x5⟩ := r5
      · simp [ha]
      · simp only at h ⊢
        generalize h6 : conn x5 = r6 at h ⊢
        obtain ⟨_ | ⟨⟨⟩⟩, x6⟩ := r6
        · simp [ha]
        · cases h

/-- C97: the number of periods passed to the constraints is the number of periods of movers in the model. -/
theorem C97_periods (endo state : Bool) :
    nPeriods endo state = Fintype.card {p : Per // inModel endo state p = true} := by
  cases endo <;> cases state <;> rfl

/-- C97: with all starting values taken from a static model with means `A1`, `A2`, a mover's four wages are independent
in the first fit, with the static means of the first period in periods 1 and 2 and of the second in periods 3 and 4;
a stayer's likewise; type proportions are those of the static model. -/
theorem C97_start_static (A1 A2 : Fin nl → Fin nk → ℝ) (pk1 : ℕ → Fin nl → ℝ) (pk0 : Fin nk → Fin nl → ℝ)
    (m : DModel nl nk) (l : Fin nl) (G : Fin 2 → Fin nk) (y : Wages) :
    let m' := startStatic true A1 A2 pk1 pk0 m
    let s2 := m.x.base.s2 l G
    Spec.moverDensity (m'.x.base.a l G) (m'.x.base.s2 l G) m'.r y =
      gaussianPDFReal (A1 l (G 0)) (s2 .p12).toNNReal y.y1 *
      gaussianPDFReal (A1 l (G 0)) (s2 .p2ma + s2 .p2mb).toNNReal y.y2 *
      gaussianPDFReal (A2 l (G 1)) (s2 .p3ma + s2 .p3mb).toNNReal y.y3 *
      gaussianPDFReal (A2 l (G 1)) (s2 .p43).toNNReal y.y4 ∧
    Spec.stayerDensity (m'.x.base.a l G) (m'.x.base.s2 l G) { m'.r with R32 := m'.R32s } y =
      gaussianPDFReal (A1 l (G 0)) (s2 .p12).toNNReal y.y1 *
      gaussianPDFReal (A1 l (G 0)) (s2 .p2s).toNNReal y.y2 *
      gaussianPDFReal (A2 l (G 1)) (s2 .p3s).toNNReal y.y3 *
      gaussianPDFReal (A2 l (G 1)) (s2 .p43).toNNReal y.y4 ∧
    m'.x.pk1 = pk1 ∧ m'.x.pk0 = pk0 := by
  refine ⟨?_, ?_, rfl, rfl⟩ <;>
    simp [startStatic, Spec.moverDensity, Spec.stayerDensity, DBase.a, DBase.s2, Per.isB, slot]

/-- C97: otherwise only the means of the first and last wages and the type proportions come from the static model. -/
theorem C97_start_some (A1 A2 : Fin nl → Fin nk → ℝ) (pk1 : ℕ → Fin nl → ℝ) (pk0 : Fin nk → Fin nl → ℝ)
    (m : DModel nl nk) (l : Fin nl) (G : Fin 2 → Fin nk) :
    let m' := startStatic false A1 A2 pk1 pk0 m
    m'.x.base.a l G .p12 = A1 l (G 0) ∧ m'.x.base.a l G .p43 = A2 l (G 1) ∧
    (∀ p, p ≠ .p12 → p ≠ .p43 → m'.x.base.a l G p = m.x.base.a l G p) ∧ m'.x.base.s2 l G = m.x.base.s2 l G ∧
    m'.r = m.r ∧ m'.R32s = m.R32s ∧ m'.x.pk1 = pk1 ∧ m'.x.pk0 = pk0 ∧ m'.opts = m.opts := by
  refine ⟨rfl, rfl, fun p h1 h2 => ?_, rfl, rfl, rfl, rfl, rfl, rfl⟩
  cases p <;> first | exact absurd rfl h1 | exact absurd rfl h2 | rfl

end Pytwoway.Dynamic
