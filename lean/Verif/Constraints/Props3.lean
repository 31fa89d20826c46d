import Verif.Constraints.Props2

/-!
# Properties C07 and C58: the state of `QPConstrained`
-/

namespace Pytwoway.Constraints

open scoped BigOperators

/-! ## Specification -/

/-- A call on a `QPConstrained` object. -/
inductive Call
  | add (cs : List ConObj)
  | clear (inequality equality : Bool)

/-- The object after a sequence of calls. -/
def QP.run (q : QP) : List Call → Py QP
  | [] => .ok q
  | .add cs :: rest => do (← q.add cs).run rest
  | .clear i e :: rest => (q.clear i e).run rest

/-- The inequality half of a constraint dictionary. -/
def Con.SatIneq (c : Con) (x : ℕ → ℝ) : Prop :=
  ∀ G h, c.G = some G → c.h = some h → ∀ r < G.rows, G.dot x r ≤ h.v r
/-- The equality half of a constraint dictionary. -/
def Con.SatEq (c : Con) (x : ℕ → ℝ) : Prop :=
  ∀ A b, c.A = some A → c.b = some b → ∀ r < A.rows, A.dot x r = b.v r

/-- The constraints whose inequalities are still in force after a history (`acc` before it). -/
def activeIneq (acc : List ConObj) : List Call → List ConObj
  | [] => acc
  | .add cs :: rest => activeIneq (acc ++ cs) rest
  | .clear i _ :: rest => activeIneq (if i then [] else acc) rest
/-- The constraints whose equalities are still in force after a history. -/
def activeEq (acc : List ConObj) : List Call → List ConObj
  | [] => acc
  | .add cs :: rest => activeEq (acc ++ cs) rest
  | .clear _ e :: rest => activeEq (if e then [] else acc) rest

/-- A constraint object that, when it returns, returns arrays of consistent shapes. -/
def ConObj.WF (c : ConObj) : Prop := ∀ nl nk con, c nl nk = .ok con → ∃ n, con.Shaped n

/-! ## Lemmas -/

/-- Satisfaction of one matrix/bound pair. -/
def partSat (rel : ℝ → ℝ → Prop) (M : NP) (v : Vec) (x : ℕ → ℝ) : Prop :=
  ∀ A, M = .d2 A → ∀ r < A.rows, rel (A.dot x r) (v.v r)

/-- Representation invariant of one matrix/bound pair. -/
def PartOK (M : NP) (v : Vec) : Prop := M.len = v.n ∧ ∀ a, M = .d1 a → a.n = 0

theorem partSat_of_len {rel : ℝ → ℝ → Prop} {M : NP} {v : Vec} (h : M.len = 0) (x : ℕ → ℝ) :
    partSat rel M v x := by
  rintro A rfl r hr
  simp only [NP.len] at h
  omega

theorem addPart_spec {rel : ℝ → ℝ → Prop} {M M' M2 : NP} {v v' v2 : Vec} (h1 : PartOK M v)
    (h2 : PartOK M' v') (h : addPart M v M' v' = .ok (M2, v2)) :
    PartOK M2 v2 ∧ ∀ x, partSat rel M2 v2 x ↔ partSat rel M v x ∧ partSat rel M' v' x := by
  rw [addPart] at h
  split at h
  · rename_i hlen'
    split at h
    · rename_i hlen
      cases M' with
      | d1 a => exact absurd (h2.2 a rfl) (by simp only [NP.len] at hlen'; omega)
      | d2 B =>
        cases M with
        | d1 a => exact absurd (h1.2 a rfl) (by simp only [NP.len] at hlen; omega)
        | d2 A =>
          simp only [NP.append] at h
          by_cases hc : A.cols = B.cols
          · rw [if_pos hc] at h
            cases h
            have hA : A.rows = v.n := h1.1
            have hB : B.rows = v'.n := h2.1
            refine ⟨⟨by simp [NP.len, Vec.append, hA, hB], by intro a ha; cases ha⟩, fun x => ?_⟩
            constructor
            · intro hs
              constructor
              · rintro A' hA' r hr
                cases hA'
                have := hs _ rfl r (by simp only; omega)
                simpa [Mat.dot, hr, Vec.append, hA ▸ hr] using this
              · rintro B' hB' r hr
                cases hB'
                have := hs _ rfl (A.rows + r) (by simp only; omega)
                simpa [Mat.dot, Vec.append, ← hA, hc] using this
            · rintro ⟨ha, hb⟩ C hC r hr
              cases hC
              simp only [Mat.dot, Vec.append]
              by_cases hr' : r < A.rows
              · have := ha A rfl r hr'
                simpa [Mat.dot, hr', hA ▸ hr'] using this
              · have := hb B rfl (r - A.rows) (by simp only at hr; omega)
                simpa [Mat.dot, hr', ← hA, hc] using this
          · rw [if_neg hc] at h; cases h
    · rename_i hlen
      cases h
      exact ⟨h2, fun x => ⟨fun h => ⟨partSat_of_len (by omega) x, h⟩, fun h => h.2⟩⟩
  · rename_i hlen'
    cases h
    exact ⟨h1, fun x => ⟨fun h => ⟨h, partSat_of_len (by omega) x⟩, fun h => h.1⟩⟩

/-- The representation invariant of the object. -/
def QP.OK (q : QP) : Prop := PartOK q.G q.h ∧ PartOK q.A q.b

theorem partOK_empty : PartOK .empty ⟨0, fun _ => 0⟩ :=
  ⟨rfl, by intro a ha; cases ha; rfl⟩

theorem QP.init_ok (nl nk : ℕ) : (QP.init nl nk).OK := ⟨partOK_empty, partOK_empty⟩

theorem addPart_none (M : NP) (v : Vec) (v' : Vec) : addPart M v .empty v' = .ok (M, v) := by
  simp [addPart, NP.empty, NP.len]; rfl

theorem addOne_spec {q q' : QP} {c : Con} {n : ℕ} (hq : q.OK) (hc : c.Shaped n)
    (h : q.addOne c = .ok q') : q'.OK ∧ q'.nl = q.nl ∧ q'.nk = q.nk ∧
      (∀ x, partSat (· ≤ ·) q'.G q'.h x ↔ partSat (· ≤ ·) q.G q.h x ∧ c.SatIneq x) ∧
      (∀ x, partSat (· = ·) q'.A q'.b x ↔ partSat (· = ·) q.A q.b x ∧ c.SatEq x) := by
  obtain ⟨cG, ch, cA, cb⟩ := c
  simp only [QP.addOne] at h
  have key : ∀ (rel : ℝ → ℝ → Prop) (M : NP) (v : Vec) (cG : Option Mat) (ch : Option Vec) (M2 : NP) (v2 : Vec),
      PartOK M v → (∀ G, cG = some G → G.cols = n ∧ ∃ h, ch = some h ∧ h.n = G.rows) →
      addPart M v (npOf cG) (vecOf ch) = .ok (M2, v2) →
      PartOK M2 v2 ∧ ∀ x, partSat rel M2 v2 x ↔ partSat rel M v x ∧
        ∀ G h, cG = some G → ch = some h → ∀ r < G.rows, rel (G.dot x r) (h.v r) := by
    intro rel M v cG ch M2 v2 hM hcG hadd
    cases cG with
    | none =>
      rw [npOf, addPart_none] at hadd
      cases hadd
      exact ⟨hM, fun x => by simp⟩
    | some G =>
      obtain ⟨_, b, rfl, hb⟩ := hcG G rfl
      have := addPart_spec (rel := rel) hM (M' := npOf (some G)) (v' := vecOf (some b))
        ⟨by simp [npOf, vecOf, NP.len, hb], by intro a ha; cases ha⟩ hadd
      refine ⟨this.1, fun x => (this.2 x).trans (and_congr_right fun _ => ?_)⟩
      constructor
      · rintro h G' h' hG' hh'
        cases hG'; cases hh'
        exact h G rfl
      · rintro h A hA
        cases hA
        exact h G b rfl rfl
  cases h1 : addPart q.G q.h (npOf cG) (vecOf ch) with
  | error e => rw [h1] at h; cases h
  | ok p =>
    obtain ⟨G2, h2⟩ := p
    rw [h1] at h
    simp only [bind, Except.bind] at h
    cases h3 : addPart q.A q.b (npOf cA) (vecOf cb) with
    | error e => rw [h3] at h; cases h
    | ok p =>
      obtain ⟨A2, b2⟩ := p
      rw [h3] at h
      cases h
      have k1 := key (· ≤ ·) _ _ _ _ _ _ hq.1 hc.1 h1
      have k2 := key (· = ·) _ _ _ _ _ _ hq.2 hc.2 h3
      exact ⟨⟨k1.1, k2.1⟩, rfl, rfl, k1.2, k2.2⟩

theorem add_spec (cs : List ConObj) (hcs : ∀ c ∈ cs, ConObj.WF c) {q q' : QP} (hq : q.OK)
    (h : q.add cs = .ok q') : q'.OK ∧ q'.nl = q.nl ∧ q'.nk = q.nk ∧
      (∀ x, partSat (· ≤ ·) q'.G q'.h x ↔ partSat (· ≤ ·) q.G q.h x ∧
        ∀ c ∈ cs, ∀ con, c q.nl q.nk = .ok con → con.SatIneq x) ∧
      (∀ x, partSat (· = ·) q'.A q'.b x ↔ partSat (· = ·) q.A q.b x ∧
        ∀ c ∈ cs, ∀ con, c q.nl q.nk = .ok con → con.SatEq x) := by
  induction cs generalizing q with
  | nil =>
    simp only [QP.add, List.foldlM_nil] at h
    cases h
    exact ⟨hq, rfl, rfl, by simp, by simp⟩
  | cons c cs ih =>
    simp only [QP.add, List.foldlM_cons] at h
    cases hc : c q.nl q.nk with
    | error e => rw [hc] at h; cases h
    | ok con =>
      rw [hc] at h
      simp only [bind, Except.bind] at h
      cases h1 : q.addOne con with
      | error e => rw [h1] at h; cases h
      | ok q1 =>
        rw [h1] at h
        obtain ⟨n, hn⟩ := hcs c (by simp) _ _ _ hc
        obtain ⟨a1, a2, a3, a4, a5⟩ := addOne_spec hq hn h1
        obtain ⟨b1, b2, b3, b4, b5⟩ := ih (fun c' hc' => hcs c' (by simp [hc'])) a1 h
        rw [a2, a3] at b4 b5
        refine ⟨b1, b2.trans a2, b3.trans a3, fun x => ?_, fun x => ?_⟩
        · rw [b4, a4, and_assoc]
          refine and_congr_right fun _ => ?_
          simp only [List.mem_cons, forall_eq_or_imp]
          refine and_congr_left fun _ => ?_
          constructor
          · intro h con' h'; rw [hc] at h'; cases h'; exact h
          · intro h; exact h con hc
        · rw [b5, a5, and_assoc]
          refine and_congr_right fun _ => ?_
          simp only [List.mem_cons, forall_eq_or_imp]
          refine and_congr_left fun _ => ?_
          constructor
          · intro h con' h'; rw [hc] at h'; cases h'; exact h
          · intro h; exact h con hc

theorem clear_ok {q : QP} (hq : q.OK) (i e : Bool) : (q.clear i e).OK := by
  cases i <;> cases e <;> simp only [QP.clear, QP.OK, if_true, Bool.false_eq_true, if_false] <;>
    first | exact hq | exact ⟨partOK_empty, hq.2⟩ | exact ⟨hq.1, partOK_empty⟩ | exact ⟨partOK_empty, partOK_empty⟩

/-! ## C07 -/

theorem run_spec (calls : List Call) (accI accE : List ConObj) {q q' : QP} (hq : q.OK)
    (hwf : ∀ cs, Call.add cs ∈ calls → ∀ c ∈ cs, ConObj.WF c) (h : q.run calls = .ok q')
    (hI : ∀ x, partSat (· ≤ ·) q.G q.h x ↔ ∀ c ∈ accI, ∀ con, c q.nl q.nk = .ok con → con.SatIneq x)
    (hE : ∀ x, partSat (· = ·) q.A q.b x ↔ ∀ c ∈ accE, ∀ con, c q.nl q.nk = .ok con → con.SatEq x) :
    q'.OK ∧ q'.nl = q.nl ∧ q'.nk = q.nk ∧
      (∀ x, partSat (· ≤ ·) q'.G q'.h x ↔
        ∀ c ∈ activeIneq accI calls, ∀ con, c q.nl q.nk = .ok con → con.SatIneq x) ∧
      (∀ x, partSat (· = ·) q'.A q'.b x ↔
        ∀ c ∈ activeEq accE calls, ∀ con, c q.nl q.nk = .ok con → con.SatEq x) := by
  induction calls generalizing q accI accE with
  | nil => simp only [QP.run] at h; cases h; exact ⟨hq, rfl, rfl, hI, hE⟩
  | cons call calls ih =>
    have hwf' : ∀ cs, Call.add cs ∈ calls → ∀ c ∈ cs, ConObj.WF c :=
      fun cs hcs => hwf cs (by simp [hcs])
    cases call with
    | add cs =>
      simp only [QP.run] at h
      cases h1 : q.add cs with
      | error e => rw [h1] at h; cases h
      | ok q1 =>
        rw [h1] at h
        obtain ⟨a1, a2, a3, a4, a5⟩ := add_spec cs (hwf cs (by simp)) hq h1
        have := ih (accI ++ cs) (accE ++ cs) a1 hwf' h
          (fun x => by
            rw [a4, hI, a2, a3]
            simp only [List.mem_append, or_imp, forall_and])
          (fun x => by
            rw [a5, hE, a2, a3]
            simp only [List.mem_append, or_imp, forall_and])
        rw [a2, a3] at this
        exact this
    | clear i e =>
      simp only [QP.run] at h
      have hn : (q.clear i e).nl = q.nl ∧ (q.clear i e).nk = q.nk := by
        cases i <;> cases e <;> exact ⟨rfl, rfl⟩
      have := ih (if i then [] else accI) (if e then [] else accE) (clear_ok hq i e) hwf' h
        (fun x => by
          rw [hn.1, hn.2]
          cases i
          · cases e <;> simpa [QP.clear] using hI x
          · have : partSat (· ≤ ·) (q.clear true e).G (q.clear true e).h x :=
              partSat_of_len (by cases e <;> rfl) x
            simpa using this)
        (fun x => by
          rw [hn.1, hn.2]
          cases e
          · cases i <;> simpa [QP.clear] using hE x
          · have : partSat (· = ·) (q.clear i true).A (q.clear i true).b x :=
              partSat_of_len (by cases i <;> rfl) x
            simpa using this)
      rw [hn.1, hn.2] at this
      exact this

/-- C07: after any sequence of `add_constraints` and `clear_constraints` calls that does not raise, a
vector is accepted exactly when it satisfies the inequalities of every constraint added since the last
clearing of inequalities and the equalities of every constraint added since the last clearing of
equalities. -/
theorem C07_history (nl nk : ℕ) (calls : List Call) (q : QP)
    (hwf : ∀ cs, Call.add cs ∈ calls → ∀ c ∈ cs, ConObj.WF c)
    (h : (QP.init nl nk).run calls = .ok q) (x : ℕ → ℝ) :
    q.Sat x ↔ (∀ c ∈ activeIneq [] calls, ∀ con, c nl nk = .ok con → con.SatIneq x) ∧
      (∀ c ∈ activeEq [] calls, ∀ con, c nl nk = .ok con → con.SatEq x) := by
  obtain ⟨_, _, _, h1, h2⟩ := run_spec calls [] [] (QP.init_ok nl nk) hwf h
    (fun x => by
      have : partSat (· ≤ ·) (QP.init nl nk).G (QP.init nl nk).h x := partSat_of_len rfl x
      simpa using this)
    (fun x => by
      have : partSat (· = ·) (QP.init nl nk).A (QP.init nl nk).b x := partSat_of_len rfl x
      simpa using this)
  exact and_congr (h1 x) (h2 x)

/-- C07: when only `add_constraints` is used, a vector is accepted exactly when it satisfies every
added constraint. -/
theorem C07_add_only (nl nk : ℕ) (cs : List ConObj) (q : QP) (hwf : ∀ c ∈ cs, ConObj.WF c)
    (h : (QP.init nl nk).add cs = .ok q) (x : ℕ → ℝ) :
    q.Sat x ↔ ∀ c ∈ cs, ∀ con, c nl nk = .ok con → con.Sat x := by
  have := C07_history nl nk [.add cs] q (by simpa using hwf) (by simp [QP.run, h]; rfl) x
  rw [this]
  simp only [activeIneq, activeEq, List.nil_append, Con.Sat, Con.SatIneq, Con.SatEq]
  exact ⟨fun h c hc con hcon => ⟨h.1 c hc con hcon, h.2 c hc con hcon⟩,
    fun h => ⟨fun c hc con hcon => (h c hc con hcon).1, fun c hc con hcon => (h c hc con hcon).2⟩⟩

/-- C07: the order of adding, and adding a constraint more than once, make no difference: two
successful lists with the same members accept the same vectors. -/
theorem C07_order_irrelevant (nl nk : ℕ) (cs cs' : List ConObj) (q q' : QP)
    (hwf : ∀ c ∈ cs, ConObj.WF c) (hsame : ∀ c, c ∈ cs ↔ c ∈ cs')
    (h : (QP.init nl nk).add cs = .ok q) (h' : (QP.init nl nk).add cs' = .ok q') (x : ℕ → ℝ) :
    q.Sat x ↔ q'.Sat x := by
  rw [C07_add_only nl nk cs q hwf h, C07_add_only nl nk cs' q' (fun c hc => hwf c ((hsame c).mpr hc)) h']
  simp only [hsame]

/-- C07: one call with a list is the same as one call per element. -/
theorem C07_add_in_pieces (q : QP) (cs cs' : List ConObj) :
    q.add (cs ++ cs') = (do (← q.add cs).add cs') := by
  simp [QP.add, List.foldlM_append]

/-- C07: `clear_constraints()` makes every vector acceptable again, from any state. -/
theorem C07_clear (q : QP) (x : ℕ → ℝ) : (q.clear true true).Sat x :=
  ⟨fun M hM => by (cases hM), fun M hM => by (cases hM)⟩

/-- All stored rows have `n` columns. -/
def QP.Cols (q : QP) (n : ℕ) : Prop :=
  (∀ M, q.G = .d2 M → 0 < M.rows → M.cols = n) ∧ (∀ M, q.A = .d2 M → 0 < M.rows → M.cols = n)

theorem addPart_succeeds {M : NP} {v : Vec} {n : ℕ} (hM : PartOK M v)
    (hc : ∀ A, M = .d2 A → 0 < A.rows → A.cols = n) (B : Option Mat) (v' : Vec)
    (hB : ∀ A, B = some A → A.cols = n) :
    ∃ M2 v2, addPart M v (npOf B) v' = .ok (M2, v2) ∧ ∀ A, M2 = .d2 A → 0 < A.rows → A.cols = n := by
  cases B with
  | none => exact ⟨M, v, addPart_none M v v', hc⟩
  | some B =>
    have hBn := hB B rfl
    by_cases hr : 0 < B.rows
    · cases M with
      | d1 a =>
        have := hM.2 a rfl
        refine ⟨.d2 B, v', ?_, ?_⟩
        · simp [addPart, npOf, NP.len, hr, this]; rfl
        · intro A hA _; cases hA; exact hBn
      | d2 A =>
        by_cases hA : 0 < A.rows
        · have hAn := hc A rfl hA
          refine ⟨.d2 ⟨A.rows + B.rows, n, fun i j => if i < A.rows then A.e i j else B.e (i - A.rows) j⟩,
            v.append v', ?_, ?_⟩
          · simp only [addPart, npOf, NP.len, hr, hA, if_true, NP.append, hAn, hBn]; rfl
          · intro A' hA' _; cases hA'; rfl
        · refine ⟨.d2 B, v', ?_, ?_⟩
          · simp [addPart, npOf, NP.len, hr, hA]; rfl
          · intro A hA _; cases hA; exact hBn
    · refine ⟨M, v, ?_, hc⟩
      simp [addPart, npOf, NP.len, hr]; rfl

/-- C07: constraints built for the same number of parameters can always be added. -/
theorem C07_add_succeeds (nl nk n : ℕ) (cs : List ConObj)
    (hcs : ∀ c ∈ cs, ∃ con, c nl nk = .ok con ∧ con.Shaped n) :
    ∃ q, (QP.init nl nk).add cs = .ok q ∧ q.Cols n := by
  suffices H : ∀ q : QP, q.nl = nl → q.nk = nk → q.OK → q.Cols n → ∃ q', q.add cs = .ok q' ∧ q'.Cols n by
    exact H _ rfl rfl (QP.init_ok nl nk) ⟨fun M hM => by (cases hM), fun M hM => by (cases hM)⟩
  induction cs with
  | nil => intro q _ _ _ hc; exact ⟨q, rfl, hc⟩
  | cons c cs ih =>
    intro q h1 h2 hok hcol
    obtain ⟨con, hcon, hsh⟩ := hcs c (by simp)
    obtain ⟨G2, w2, e1, c1⟩ := addPart_succeeds hok.1 hcol.1 con.G (vecOf con.h) (fun A hA => (hsh.1 A hA).1)
    obtain ⟨A2, b2, e2, c2⟩ := addPart_succeeds hok.2 hcol.2 con.A (vecOf con.b) (fun A hA => (hsh.2 A hA).1)
    have hone : q.addOne con = .ok { q with G := G2, h := w2, A := A2, b := b2 } := by
      rw [QP.addOne, e1]; simp only [bind, Except.bind]; rw [e2]; rfl
    have hok' := (addOne_spec hok hsh hone).1
    obtain ⟨q', hq', hc'⟩ := ih (fun c' hc' => hcs c' (by simp [hc']))
      { q with G := G2, h := w2, A := A2, b := b2 } h1 h2 hok' ⟨c1, c2⟩
    refine ⟨q', ?_, hc'⟩
    rw [QP.add, List.foldlM_cons, h1, h2, hcon]
    simp only [bind, Except.bind]
    rw [hone]
    exact hq'

/-- C07: constraints for different numbers of periods cannot be mixed: the second call raises. -/
theorem C07_mixed_periods_raise :
    (QP.init 2 2).add [fun nl nk => .ok (boundedBelow 0 1 nl nk), fun nl nk => .ok (boundedAbove 1 2 nl nk)]
      = .error .valueError := by
  simp [QP.add, QP.init, QP.addOne, addPart, boundedBelow, boundedAbove, npOf, vecOf, NP.len, eye,
    Mat.scale, NP.empty, NP.append, bind, Except.bind, pure, Except.pure]

/-- Anything that `Encodes` a predicate for all dimensions it is used with is well-formed. -/
theorem C07_nonvacuous : ∃ q, (QP.init 2 2).add [monotonic 1 true 2, fun nl nk => .ok (boundedBelow 0 2 nl nk),
    stationary (-1) 2] = .ok q ∧ q.Sat (fun i => if i / 2 % 2 = 0 then 0 else 1) ∧ ¬ q.Sat (fun _ => 0) := by
  have w1 : ∀ nl nk con, monotonic 1 true 2 nl nk = .ok con → ∃ n, con.Shaped n := by
    intro nl nk con h
    rcases Nat.eq_zero_or_pos nl with rfl | hnl
    · rcases Nat.eq_zero_or_pos nk with rfl | hnk
      · have h' : monotonic 1 true 2 0 0 = .ok (ineqCon 1 true ⟨0, 0, fun _ _ => 0⟩) := by
          simp [monotonic, zeros2, monotonicOps, Mat.writes, bind, Except.bind, pure, Except.pure,
            List.range, List.range.loop]
        rw [h'] at h; cases h
        refine ⟨0, ?_, ?_⟩
        · intro G hG; simp only [ineqCon, if_true, Option.some.injEq] at hG; subst hG
          exact ⟨rfl, _, rfl, rfl⟩
        · intro A hA; cases hA
      · rw [C08_no_worker_types 1 true 2 nk (by norm_num) hnk] at h; cases h
    · obtain ⟨c, h1, h2, _⟩ := C08_monotonic 1 true 2 nl nk hnl
      rw [h1] at h; cases h; exact ⟨_, h2⟩
  have w2 : ∀ nl nk con, (Except.ok (boundedBelow 0 2 nl nk) : Py Con) = .ok con → ∃ n, con.Shaped n := by
    intro nl nk con h
    obtain ⟨c, h1, h2, _⟩ := C14_boundedBelow 0 2 nl nk
    rw [h1] at h; cases h; exact ⟨_, h2⟩
  have w3 : ∀ nl nk con, stationary (-1) 2 nl nk = .ok con → ∃ n, con.Shaped n := by
    intro nl nk con h
    obtain ⟨c, h1, h2, _⟩ := C12_stationary_all 2 nl nk (by norm_num)
    rw [h1] at h; cases h; exact ⟨_, h2⟩
  obtain ⟨c1, a1, b1, d1⟩ := C08_monotonic 1 true 2 2 2 (by norm_num)
  obtain ⟨c2, a2, b2, d2⟩ := C14_boundedBelow 0 2 2 2
  obtain ⟨c3, a3, b3, d3⟩ := C12_stationary_all 2 2 2 (by norm_num)
  obtain ⟨q, hq, _⟩ := C07_add_succeeds 2 2 (2 * 2 * 2)
    [monotonic 1 true 2, fun nl nk => .ok (boundedBelow 0 2 nl nk), stationary (-1) 2]
    (by
      intro c hc
      simp only [List.mem_cons, List.not_mem_nil, or_false] at hc
      rcases hc with rfl | rfl | rfl
      · exact ⟨c1, a1, b1⟩
      · exact ⟨c2, a2, b2⟩
      · exact ⟨c3, a3, b3⟩)
  have hs := C07_add_only 2 2 _ q (by
    intro c hc
    simp only [List.mem_cons, List.not_mem_nil, or_false] at hc
    rcases hc with rfl | rfl | rfl
    · exact w1
    · exact w2
    · exact w3) hq
  refine ⟨q, hq, (hs _).mpr ?_, fun h => ?_⟩
  · simp only [List.mem_cons, List.not_mem_nil, or_false, forall_eq_or_imp, forall_eq]
    refine ⟨?_, ?_, ?_⟩
    · intro con h
      rw [a1] at h; cases h
      refine (d1 _).mpr fun t ht k hk l hl => ?_
      have : l = 0 := by omega
      subst this
      have e1 : ((t * 2 + 0) * 2 + k) / 2 % 2 = 0 := by omega
      have e2 : ((t * 2 + (0 + 1)) * 2 + k) / 2 % 2 = 1 := by omega
      simp only [eff, e1, e2]; norm_num
    · intro con h
      rw [a2] at h; cases h
      refine (d2 _).mpr fun t ht l hl k hk => ?_
      simp only [eff]; split <;> norm_num
    · intro con h
      rw [a3] at h; cases h
      refine (d3 _).mpr fun l hl k hk t ht t' ht' => ?_
      have e1 : ((t * 2 + l) * 2 + k) / 2 % 2 = l % 2 := by omega
      have e2 : ((t' * 2 + l) * 2 + k) / 2 % 2 = l % 2 := by omega
      simp only [eff, e1, e2]
  · have := ((hs _).mp h) (monotonic 1 true 2) (by simp) c1 a1
    have := (d1 _).mp this 0 (by norm_num) 0 (by norm_num) 0 (by norm_num)
    simp only [eff, if_true] at this
    norm_num at this

/-! ## C58 -/

/-- Objective `1/2 x'Px + q'x` in `n` variables. -/
noncomputable def QPProblem.obj (p : QPProblem) (x : ℕ → ℝ) : ℝ :=
  1 / 2 * (∑ i ∈ Finset.range p.n, ∑ j ∈ Finset.range p.n, x i * p.P i j * x j)
    + ∑ i ∈ Finset.range p.n, p.q i * x i

/-- `x` satisfies the constraint arguments that are present. -/
def QPProblem.Feasible (p : QPProblem) (x : ℕ → ℝ) : Prop :=
  (∀ M v, p.ineq = some (.d2 M, v) → ∀ r < M.rows, M.dot x r ≤ v.v r) ∧
  (∀ M v, p.eq = some (.d2 M, v) → ∀ r < M.rows, M.dot x r = v.v r)

/-- `P` is positive definite on the first `n` coordinates. -/
def QPProblem.PosDef (p : QPProblem) : Prop :=
  ∀ x : ℕ → ℝ, (∃ i < p.n, x i ≠ 0) →
    0 < ∑ i ∈ Finset.range p.n, ∑ j ∈ Finset.range p.n, x i * p.P i j * x j

/-- What is assumed of the external solver `qpsolvers.solve_qp` (in exact arithmetic): wrong shapes
raise; for a positive definite `P` it returns the minimiser, or None when nothing is feasible. -/
def SolverSpec (solver : QPProblem → Py (Option (ℕ → ℝ))) : Prop :=
  ∀ p, (¬ (shapeOk p.n p.ineq ∧ shapeOk p.n p.eq) → solver p = .error .valueError) ∧
    (shapeOk p.n p.ineq ∧ shapeOk p.n p.eq → p.PosDef →
      (∃ x, solver p = .ok (some x) ∧ p.Feasible x ∧ ∀ y, p.Feasible y → p.obj x ≤ p.obj y) ∨
      (solver p = .ok none ∧ ¬ ∃ x, p.Feasible x))

theorem problem_feasible (s : QP) (n : ℕ) (P : ℕ → ℕ → ℝ) (q : ℕ → ℝ) (x : ℕ → ℝ) :
    (s.problem n P q).Feasible x ↔ s.Sat x := by
  have hz : ∀ {M : NP} {A : Mat} {r : ℕ}, ¬ 0 < M.len → M = .d2 A → ¬ r < A.rows := by
    rintro M A r h rfl; simp only [NP.len] at h; omega
  rw [QP.problem]
  split
  · rename_i h
    simp only [QPProblem.Feasible, QP.Sat, Option.some.injEq, Prod.mk.injEq]
    constructor
    · rintro ⟨a, b⟩; exact ⟨fun M hM => a M _ ⟨hM, rfl⟩, fun M hM => b M _ ⟨hM, rfl⟩⟩
    · rintro ⟨a, b⟩
      exact ⟨by rintro M v ⟨h1, rfl⟩; exact a M h1, by rintro M v ⟨h1, rfl⟩; exact b M h1⟩
  · rename_i h
    split
    · rename_i hG
      have hA : ¬ 0 < s.A.len := fun h' => h ⟨hG, h'⟩
      simp only [QPProblem.Feasible, QP.Sat, Option.some.injEq, Prod.mk.injEq]
      constructor
      · rintro ⟨a, _⟩; exact ⟨fun M hM => a M _ ⟨hM, rfl⟩, fun M hM r hr => absurd hr (hz hA hM)⟩
      · rintro ⟨a, _⟩
        exact ⟨by rintro M v ⟨h1, rfl⟩; exact a M h1, by simp⟩
    · rename_i hG
      split
      · simp only [QPProblem.Feasible, QP.Sat, Option.some.injEq, Prod.mk.injEq]
        constructor
        · rintro ⟨_, b⟩; exact ⟨fun M hM r hr => absurd hr (hz hG hM), fun M hM => b M _ ⟨hM, rfl⟩⟩
        · rintro ⟨_, b⟩
          exact ⟨by simp, by rintro M v ⟨h1, rfl⟩; exact b M h1⟩
      · rename_i hA
        simp only [QPProblem.Feasible, QP.Sat]
        exact ⟨fun _ => ⟨fun M hM r hr => absurd hr (hz hG hM), fun M hM r hr => absurd hr (hz hA hM)⟩,
          fun _ => ⟨by simp, by simp⟩⟩

theorem problem_n (s : QP) (n : ℕ) (P : ℕ → ℕ → ℝ) (q : ℕ → ℝ) :
    (s.problem n P q).n = n ∧ (s.problem n P q).P = P ∧ (s.problem n P q).q = q := by
  rw [QP.problem]; split
  · exact ⟨rfl, rfl, rfl⟩
  · split
    · exact ⟨rfl, rfl, rfl⟩
    · split <;> exact ⟨rfl, rfl, rfl⟩

theorem problem_ineq (s : QP) (n : ℕ) (P : ℕ → ℕ → ℝ) (q : ℕ → ℝ) (h : 0 < s.G.len) :
    (s.problem n P q).ineq = some (s.G, s.h) := by
  rw [QP.problem]; split <;> simp [h]

theorem problem_shapes (s : QP) (hs : s.OK) (n : ℕ) (hc : s.Cols n) (P : ℕ → ℕ → ℝ) (q : ℕ → ℝ) :
    shapeOk n (s.problem n P q).ineq ∧ shapeOk n (s.problem n P q).eq := by
  have key : ∀ {M : NP} {v : Vec}, PartOK M v → (∀ A, M = .d2 A → 0 < A.rows → A.cols = n) →
      0 < M.len → shapeOk n (some (M, v)) := by
    intro M v hM hA hl
    cases M with
    | d1 a => have := hM.2 a rfl; simp only [NP.len] at hl; omega
    | d2 A => exact ⟨hA A rfl hl, hM.1.symm⟩
  rw [QP.problem]
  split
  · rename_i h; exact ⟨key hs.1 hc.1 h.1, key hs.2 hc.2 h.2⟩
  · split
    · rename_i h; exact ⟨key hs.1 hc.1 h, trivial⟩
    · split
      · rename_i h; exact ⟨trivial, key hs.2 hc.2 h⟩
      · exact ⟨trivial, trivial⟩

/-- C58: whatever constraints were added, `solve(P, q)` with a positive definite `P` of matching size
ends either with the minimiser of `1/2 x'Px + q'x` among the vectors that satisfy all of them, or with
None when no vector does. -/
theorem C58_solve_minimises (solver : QPProblem → Py (Option (ℕ → ℝ))) (hsolver : SolverSpec solver)
    (nl nk n : ℕ) (cs : List ConObj) (s : QP) (hwf : ∀ c ∈ cs, ConObj.WF c)
    (hs : (QP.init nl nk).add cs = .ok s) (hc : s.Cols n) (P : ℕ → ℕ → ℝ) (q : ℕ → ℝ)
    (hP : (⟨n, P, q, none, none⟩ : QPProblem).PosDef) :
    let Ok := fun x => ∀ c ∈ cs, ∀ con, c nl nk = .ok con → con.Sat x
    let obj := (⟨n, P, q, none, none⟩ : QPProblem).obj
    (∃ x, solver (s.problem n P q) = .ok (some x) ∧ Ok x ∧ ∀ y, Ok y → obj x ≤ obj y) ∨
      (solver (s.problem n P q) = .ok none ∧ ¬ ∃ x, Ok x) := by
  intro Ok obj
  have hOk : ∀ x, (s.problem n P q).Feasible x ↔ Ok x := fun x =>
    (problem_feasible s n P q x).trans (C07_add_only nl nk cs s hwf hs x)
  have hsok : s.OK := (add_spec cs hwf (QP.init_ok nl nk) hs).1
  obtain ⟨e1, e2, e3⟩ := problem_n s n P q
  have hobj : ∀ x, (s.problem n P q).obj x = obj x := by
    intro x; simp only [QPProblem.obj, e1, e2, e3, obj]
  have hpd : (s.problem n P q).PosDef := by
    intro x hx; simp only [e1, e2] at hx ⊢; exact hP x hx
  have hsh := problem_shapes s hsok n hc P q
  rcases (hsolver (s.problem n P q)).2 (by rw [e1]; exact hsh) hpd with ⟨x, h1, h2, h3⟩ | ⟨h1, h2⟩
  · refine Or.inl ⟨x, h1, (hOk x).mp h2, fun y hy => ?_⟩
    rw [← hobj, ← hobj]; exact h3 y ((hOk y).mpr hy)
  · exact Or.inr ⟨h1, fun ⟨x, hx⟩ => h2 ⟨x, (hOk x).mpr hx⟩⟩

/-- C58: `check_feasible` is right for constraints over a single period (`nl * nk` parameters):
it returns True exactly when some vector satisfies all constraints (for draws with `M'M` positive
definite).  Missing: the default `nt=2`, see `C58_checkFeasible_two_periods_raises`. -/
theorem C58_checkFeasible_partial (solver : QPProblem → Py (Option (ℕ → ℝ)))
    (hsolver : SolverSpec solver) (nl nk : ℕ) (cs : List ConObj) (s : QP)
    (hwf : ∀ c ∈ cs, ConObj.WF c) (hs : (QP.init nl nk).add cs = .ok s) (hc : s.Cols (nl * nk))
    (M : ℕ → ℕ → ℝ) (x0 : ℕ → ℝ)
    (hM : ∀ q, (⟨nl * nk, fun i j => ∑ r ∈ Finset.range (2 * nl * nk), M r i * M r j, q, none, none⟩ : QPProblem).PosDef) :
    ∃ b, s.checkFeasible solver M x0 = .ok b ∧
      (b = true ↔ ∃ x, ∀ c ∈ cs, ∀ con, c nl nk = .ok con → con.Sat x) := by
  obtain ⟨_, e1, e2, _⟩ := add_spec cs hwf (QP.init_ok nl nk) hs
  have e1 : s.nl = nl := e1
  have e2 : s.nk = nk := e2
  simp only [QP.checkFeasible, e1, e2]
  rcases C58_solve_minimises solver hsolver nl nk (nl * nk) cs s hwf hs hc _ _ (hM _) with
    ⟨x, h1, h2, _⟩ | ⟨h1, h2⟩
  · rw [h1]
    exact ⟨true, rfl, by simpa using ⟨x, h2⟩⟩
  · rw [h1]
    exact ⟨false, rfl, by simpa using fun x hx => h2 ⟨x, hx⟩⟩

/-- C58: with any constraint for two periods (the default `nt=2` of every class), `check_feasible`
raises instead of answering, whatever the draws: it always sets up a problem in `nl * nk` variables. -/
theorem C58_checkFeasible_two_periods_raises (solver : QPProblem → Py (Option (ℕ → ℝ)))
    (hsolver : SolverSpec solver) (s : QP) (A : Mat) (hG : s.G = .d2 A) (hrows : 0 < A.rows)
    (hcols : A.cols = 2 * s.nl * s.nk) (hpos : 0 < s.nl * s.nk) (M : ℕ → ℕ → ℝ) (x0 : ℕ → ℝ) :
    s.checkFeasible solver M x0 = .error .valueError := by
  have hne : A.cols ≠ s.nl * s.nk := by rw [hcols, Nat.mul_assoc]; omega
  simp only [QP.checkFeasible]
  rw [(hsolver _).1]
  · rfl
  · rw [(problem_n s _ _ _).1]
    rintro ⟨h, _⟩
    rw [problem_ineq _ _ _ _ (by rw [hG]; exact hrows), hG] at h
    exact hne h.1

/-- C58: e.g. after `add_constraints(Monotonic())` on a 2 × 2 problem. -/
example (solver : QPProblem → Py (Option (ℕ → ℝ))) (hsolver : SolverSpec solver) (M : ℕ → ℕ → ℝ)
    (x0 : ℕ → ℝ) : ∃ s, (QP.init 2 2).add [fun nl nk => .ok (boundedBelow 0 2 nl nk)] = .ok s ∧
      s.checkFeasible solver M x0 = .error .valueError := by
  refine ⟨⟨2, 2, .d2 ((eye 8).scale (-1)), .const (-0) 8, .empty, ⟨0, fun _ => 0⟩⟩, ?_, ?_⟩
  · simp [QP.add, QP.init, QP.addOne, addPart, boundedBelow, npOf, vecOf, NP.len, eye,
      Mat.scale, NP.empty, bind, Except.bind, pure, Except.pure]
  · exact C58_checkFeasible_two_periods_raises solver hsolver _ _ rfl (by simp [Mat.scale, eye])
      (by simp [Mat.scale, eye]) (by norm_num) M x0

/-- C58: `pad(l, r)` on an object that has both kinds of constraints leaves them in force for the
middle block of parameters and puts no restriction on the `l + r` new ones.
Missing: objects with no inequality or no equality constraint, see `C58_pad_empty`. -/
theorem C58_pad_partial (q : QP) (l r : ℕ) (G A : Mat) (hG : q.G = .d2 G) (hA : q.A = .d2 A)
    (hGr : 0 < G.rows) (hAr : 0 < A.rows) (x : ℕ → ℝ) :
    (q.pad l r).Sat x ↔ q.Sat (fun i => x (l + i)) := by
  have key : ∀ (M : Mat) (i : ℕ),
      ∑ j ∈ Finset.range (l + M.cols + r),
        (if j < l then 0 else if j < l + M.cols then M.e i (j - l) else 0) * x j
      = M.dot (fun i => x (l + i)) i := by
    intro M i
    rw [Finset.sum_range_add, Finset.sum_range_add]
    have h1 : ∑ j ∈ Finset.range l, (if j < l then 0 else if j < l + M.cols then M.e i (j - l) else 0) * x j = 0 := by
      refine Finset.sum_eq_zero fun j hj => ?_
      rw [if_pos (Finset.mem_range.mp hj), zero_mul]
    have h3 : ∑ j ∈ Finset.range r, (if l + M.cols + j < l then 0 else if l + M.cols + j < l + M.cols then M.e i (l + M.cols + j - l) else 0) * x (l + M.cols + j) = 0 := by
      refine Finset.sum_eq_zero fun j hj => ?_
      rw [if_neg (by omega), if_neg (by omega), zero_mul]
    rw [h1, h3, zero_add, add_zero, Mat.dot]
    refine Finset.sum_congr rfl fun j hj => ?_
    have := Finset.mem_range.mp hj
    rw [if_neg (by omega), if_pos (by omega), Nat.add_sub_cancel_left]
  simp only [QP.Sat, QP.pad, padPart, hG, hA, hGr, hAr, if_true, NP.d2.injEq, forall_eq', Mat.dot, key]

/-- C58: `pad` on an object without inequality constraints stores a 1-D array of zeros as `G`, so a
later `solve` raises for `l + r > 0`. -/
theorem C58_pad_empty (solver : QPProblem → Py (Option (ℕ → ℝ))) (hsolver : SolverSpec solver)
    (q : QP) (hG : q.G = .empty) (l r : ℕ) (hlr : 0 < l + r) (n : ℕ) (P : ℕ → ℕ → ℝ) (c : ℕ → ℝ) :
    solver ((q.pad l r).problem n P c) = .error .valueError := by
  rw [(hsolver _).1]
  rintro ⟨h, _⟩
  have hG' : (q.pad l r).G = .d1 ⟨l + r, fun _ => 0⟩ := by
    simp [QP.pad, padPart, hG, NP.empty]
  rw [problem_ineq _ _ _ _ (by rw [hG']; exact hlr), hG'] at h
  exact h

end Pytwoway.Constraints
