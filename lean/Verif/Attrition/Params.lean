import Verif.Attrition.MonteCarlo

/-! # Attrition and SorkinAttrition: parameter dictionaries (attrition.py:32-112, sorkin.py:73-97), C103 -/

namespace Pytwoway.AttritionParams

open MonteCarlo

/-! ## Model

Dictionaries are shared objects, as in `Verif.Attrition.MonteCarlo`. -/

/-- The dictionaries an `Attrition` object holds.  Used for attrition.py:32-112 and attrition.py:232-255. -/
structure Obj where
  fe : ℕ
  cre : ℕ
  cluster : ℕ
  clean : ℕ
  feNon : ℕ
  feHe : ℕ
  cleanNon : ℕ
  cleanHe : ℕ
  clusterNon : ℕ
  clusterHe : ℕ
  models : List String

/-- attrition.py:71-73. -/
def cleanSet : List (String × Val) := [("is_sorted", .bool true), ("force", .bool false), ("copy", .bool false)]

/-- `Attrition.__init__`, attrition.py:32-112.  `self.clean_params.copy()` stored inside another dictionary is a
snapshot: nobody else holds it. -/
def init (D : Defaults) (fe cre cluster clean : Option ℕ) (bs : Bool) (h : Heap) : Obj × Heap :=
  let (fe, h) := orDefault h D.fe fe
  let (cre, h) := orDefault h D.cre cre
  let (cluster, h) := orDefault h D.cluster cluster
  let (clean, h) := orDefault h D.clean clean
  let models := ["fe", "cre"] ++ if bs then ["bs"] else []
  let (sfe, h) := h.copy fe
  let (scre, h) := h.copy cre
  let (scluster, h) := h.copy cluster
  let (sclean, h) := h.copy clean
  let h := h.setAll sclean cleanSet
  let h := h.setAll scluster [("clean_params", .dict (h.obj sclean)), ("is_sorted", .bool true), ("copy", .bool false)]
  let (feNon, h) := h.copy sfe
  let h := h.set feNon "he" (.bool false)
  let (feHe, h) := h.copy sfe
  let h := h.set feHe "he" (.bool true)
  let (cleanNon, h) := h.copy sclean
  let h := h.set cleanNon "connectedness" (.str "connected")
  let (cleanHe, h) := h.copy sclean
  let h := h.setAll cleanHe [("connectedness", .str "leave_out_observation"), ("drop_single_stayers", .bool true)]
  let (clusterNon, h) := h.copy scluster
  let h := h.set clusterNon "clean_params" (.dict (h.obj cleanNon))
  let (clusterHe, h) := h.copy scluster
  let h := h.set clusterHe "clean_params" (.dict (h.obj cleanHe))
  (⟨sfe, scre, scluster, sclean, feNon, feHe, cleanNon, cleanHe, clusterNon, clusterHe, models⟩, h)

/-- The parameters of one estimation.  Used for attrition.py:232-255. -/
structure Used where
  fe : Dict
  cre : Dict
  cluster : Dict
  clean : Dict

/-- `_attrition_single`, attrition.py:232-255: the parameters passed to `_attrition_interior` for the connected set
(`false`) or the leave-one-out set.  `increasing`: `_update_clean_params` (attrition_utils.py:199-212) works on a copy
of the cleaning parameters only. -/
def used (o : Obj) (h : Heap) (increasing he : Bool) : Used :=
  let clean := h.obj (if he then o.cleanHe else o.cleanNon)
  ⟨h.obj (if he then o.feHe else o.feNon), h.obj o.cre, h.obj (if he then o.clusterHe else o.clusterNon),
    if increasing then setItem clean "connectedness" .none else clean⟩

/-- `SorkinAttrition.__init__`, sorkin.py:73-97: the first cleaning parameters. -/
def sorkinInit (D : Defaults) (clean : Option ℕ) (h : Heap) : ℕ × Heap :=
  let (clean, h) := orDefault h D.clean clean
  let (c1, h) := h.copy clean
  (c1, h.setAll c1 [("connectedness", .str "strongly_connected"), ("is_sorted", .bool true), ("force", .bool false),
    ("copy", .bool false), ("verbose", .bool false)])

/-! ## Specification -/

/-- What a user expects the cleaning parameters to be, given the dictionary passed (or the default) and the kind of
connectedness. -/
def Spec.clean (d : Dict) (conn : Val) (he : Bool) (k : String) : Option Val :=
  if k = "connectedness" then some conn
  else if k = "is_sorted" then some (.bool true)
  else if k = "force" then some (.bool false)
  else if k = "copy" then some (.bool false)
  else if k = "drop_single_stayers" ∧ he = true then some (.bool true)
  else d k

/-! ## Proofs -/

theorem init_given (D : Defaults) (fe cre cluster clean : Option ℕ) (h : Heap)
    (hfe : ∀ r ∈ fe, r < h.next) (hcre : ∀ r ∈ cre, r < h.next) (hcl : ∀ r ∈ cluster, r < h.next)
    (hclean : ∀ r ∈ clean, r < h.next) :
    ∃ rfe rcre rcl rclean h1 h2 h3 h4, orDefault h D.fe fe = (rfe, h1) ∧ orDefault h1 D.cre cre = (rcre, h2) ∧
      orDefault h2 D.cluster cluster = (rcl, h3) ∧ orDefault h3 D.clean clean = (rclean, h4) ∧
      h.next ≤ h4.next ∧ rfe < h4.next ∧ rcre < h4.next ∧ rcl < h4.next ∧ rclean < h4.next ∧
      (∀ r < h.next, h4.obj r = h.obj r) ∧ h4.obj rfe = given h D.fe fe ∧ h4.obj rcre = given h D.cre cre ∧
      h4.obj rcl = given h D.cluster cluster ∧ h4.obj rclean = given h D.clean clean := by
  obtain ⟨a1, a2, a3, a4⟩ := orDefault_spec h D.fe fe hfe
  rcases e1 : orDefault h D.fe fe with ⟨rfe, h1⟩
  rw [e1] at a1 a2 a3 a4
  dsimp only at *
  obtain ⟨b1, b2, b3, b4⟩ := orDefault_spec h1 D.cre cre (fun r hr => lt_of_lt_of_le (hcre r hr) a2)
  have b5 : given h1 D.cre cre = given h D.cre cre := by
    cases cre with
    | none => rfl
    | some r => exact a3 r (hcre r rfl)
  rw [b5] at b4
  rcases e2 : orDefault h1 D.cre cre with ⟨rcre, h2⟩
  rw [e2] at b1 b2 b3 b4
  dsimp only at *
  obtain ⟨c1, c2, c3, c4⟩ := orDefault_spec h2 D.cluster cluster
    (fun r hr => lt_of_lt_of_le (hcl r hr) (a2.trans b2))
  have c5 : given h2 D.cluster cluster = given h D.cluster cluster := by
    cases cluster with
    | none => rfl
    | some r => exact (b3 r (lt_of_lt_of_le (hcl r rfl) a2)).trans (a3 r (hcl r rfl))
  rw [c5] at c4
  rcases e3 : orDefault h2 D.cluster cluster with ⟨rcl, h3⟩
  rw [e3] at c1 c2 c3 c4
  dsimp only at *
  obtain ⟨d1, d2, d3, d4⟩ := orDefault_spec h3 D.clean clean
    (fun r hr => lt_of_lt_of_le (hclean r hr) ((a2.trans b2).trans c2))
  have d5 : given h3 D.clean clean = given h D.clean clean := by
    cases clean with
    | none => rfl
    | some r =>
      have hr := hclean r rfl
      exact (c3 r (by omega)).trans ((b3 r (by omega)).trans (a3 r hr))
  rw [d5] at d4
  rcases e4 : orDefault h3 D.clean clean with ⟨rclean, h4⟩
  rw [e4] at d1 d2 d3 d4
  dsimp only at *
  refine ⟨rfe, rcre, rcl, rclean, h1, h2, h3, h4, rfl, e2, e3, e4, by omega, by omega, by omega, by omega, d1, ?_, ?_, ?_,
    ?_, d4⟩
  · intro r hr
    rw [d3 r (by omega), c3 r (by omega), b3 r (by omega), a3 r hr]
  · rw [d3 rfe (by omega), c3 rfe (by omega), b3 rfe (by omega), a4]
  · rw [d3 rcre (by omega), c3 rcre (by omega), b4]
  · rw [d3 rcl (by omega), c4]

theorem setAll_next (h : Heap) (r : ℕ) (l : List (String × Val)) : (h.setAll r l).next = h.next := by
  rw [setAll_obj]

theorem setAll_self (h : Heap) (r : ℕ) (l : List (String × Val)) : (h.setAll r l).obj r = assigned (h.obj r) l := by
  rw [setAll_obj]; simp

theorem setAll_other (h : Heap) (r r' : ℕ) (l : List (String × Val)) (hn : r' ≠ r) :
    (h.setAll r l).obj r' = h.obj r' := by
  rw [setAll_obj]; simp [hn]

/-- `init` as a sequence of copies with assignments. -/
def copySet (h : Heap) (r : ℕ) (l : List (String × Val)) : ℕ × Heap := ((h.copy r).1, (h.copy r).2.setAll (h.copy r).1 l)

theorem copySet_spec (h : Heap) (r : ℕ) (l : List (String × Val)) : (copySet h r l).1 = h.next ∧
    (copySet h r l).2.next = h.next + 1 ∧ (copySet h r l).2.obj h.next = assigned (h.obj r) l ∧
    ∀ r' < h.next, (copySet h r l).2.obj r' = h.obj r' := by
  have e : (h.copy r).1 = h.next := rfl
  have e2 : (h.copy r).2.obj h.next = h.obj r := by simp [Heap.copy, Heap.alloc]
  refine ⟨rfl, by simp only [copySet, setAll_next]; rfl, ?_, ?_⟩
  · simp only [copySet, e, setAll_self, e2]
  · intro r' h'
    simp only [copySet, e]
    rw [setAll_other _ _ _ _ (Nat.ne_of_lt h')]
    simp [Heap.copy, Heap.alloc, Nat.ne_of_lt h']

theorem spec_non (d : Dict) (k : String) : assigned (assigned d cleanSet) [("connectedness", .str "connected")] k =
    Spec.clean d (.str "connected") false k := by
  by_cases h1 : k = "connectedness"
  · subst h1; rfl
  by_cases h2 : k = "is_sorted"
  · subst h2; rfl
  by_cases h3 : k = "force"
  · subst h3; rfl
  by_cases h4 : k = "copy"
  · subst h4; rfl
  by_cases h5 : k = "drop_single_stayers"
  · subst h5; rfl
  simp only [assigned, cleanSet, setItem, Spec.clean, h1, h2, h3, h4, h5, if_false, false_and]

theorem spec_he (d : Dict) (k : String) : assigned (assigned d cleanSet)
    [("connectedness", .str "leave_out_observation"), ("drop_single_stayers", .bool true)] k =
    Spec.clean d (.str "leave_out_observation") true k := by
  by_cases h1 : k = "connectedness"
  · subst h1; rfl
  by_cases h2 : k = "is_sorted"
  · subst h2; rfl
  by_cases h3 : k = "force"
  · subst h3; rfl
  by_cases h4 : k = "copy"
  · subst h4; rfl
  by_cases h5 : k = "drop_single_stayers"
  · subst h5; rfl
  simp only [assigned, cleanSet, setItem, Spec.clean, h1, h2, h3, h4, h5, if_false, false_and]

theorem spec_none (d : Dict) (v : Val) (b : Bool) (k : String) : setItem (Spec.clean d v b) "connectedness" .none k =
    Spec.clean d .none b k := by
  unfold setItem Spec.clean
  by_cases h1 : k = "connectedness"
  · rw [if_pos h1, if_pos h1]
  · rw [if_neg h1, if_neg h1, if_neg h1]

theorem spec_cluster (d d' d'' : Dict) (k : String) (hk : k ≠ "clean_params") :
    assigned (assigned d [("clean_params", .dict d'), ("is_sorted", .bool true), ("copy", .bool false)])
      [("clean_params", .dict d'')] k =
    if k = "is_sorted" then some (.bool true) else if k = "copy" then some (.bool false) else d k := by
  simp only [assigned, setItem, hk, if_false]
  by_cases h1 : k = "is_sorted"
  · subst h1; rfl
  by_cases h2 : k = "copy"
  · subst h2; rfl
  simp only [h1, h2, if_false]

theorem spec_sorkin (d : Dict) (k : String) : assigned d [("connectedness", .str "strongly_connected"),
    ("is_sorted", .bool true), ("force", .bool false), ("copy", .bool false), ("verbose", .bool false)] k =
    if k = "verbose" then some (.bool false) else Spec.clean d (.str "strongly_connected") false k := by
  by_cases h0 : k = "verbose"
  · subst h0; rfl
  by_cases h1 : k = "connectedness"
  · subst h1; rfl
  by_cases h2 : k = "is_sorted"
  · subst h2; rfl
  by_cases h3 : k = "force"
  · subst h3; rfl
  by_cases h4 : k = "copy"
  · subst h4; rfl
  by_cases h5 : k = "drop_single_stayers"
  · subst h5; rfl
  simp only [assigned, setItem, Spec.clean, h0, h1, h2, h3, h4, h5, if_false, false_and]

set_option maxHeartbeats 1000000 in
/-- C103: the estimations use the given parameters (or the defaults) with exactly the documented entries overridden:
the connected set without and the leave-one-out set with the heteroskedastic correction, sorted data, no copies, no
forced cleaning; the dictionaries of the caller do not change, whichever of them are the same object.  With increasing
fractions the subsets are not connected again.  Missing: there the clustering step keeps connecting
(`C103_cluster_stale`). -/
theorem C103_parameters_partial (D : Defaults) (fe cre cluster clean : Option ℕ) (bs : Bool) (h : Heap)
    (hfe : ∀ r ∈ fe, r < h.next) (hcre : ∀ r ∈ cre, r < h.next) (hcl : ∀ r ∈ cluster, r < h.next)
    (hclean : ∀ r ∈ clean, r < h.next) (o : Obj) (h' : Heap) (hi : init D fe cre cluster clean bs h = (o, h'))
    (increasing he : Bool) :
    (∀ r < h.next, h'.obj r = h.obj r) ∧
    (∀ m, m ∈ o.models ↔ m = "fe" ∨ m = "cre" ∨ (m = "bs" ∧ bs = true)) ∧
    (∀ k, (used o h' increasing he).fe k = if k = "he" then some (.bool he) else given h D.fe fe k) ∧
    (used o h' increasing he).cre = given h D.cre cre ∧
    (∀ k, (used o h' increasing he).clean k = Spec.clean (given h D.clean clean)
      (if increasing then .none else .str (if he then "leave_out_observation" else "connected")) he k) ∧
    (∀ k, k ≠ "clean_params" → (used o h' increasing he).cluster k = if k = "is_sorted" then some (.bool true)
      else if k = "copy" then some (.bool false) else given h D.cluster cluster k) ∧
    ∃ d, (used o h' increasing he).cluster "clean_params" = some (.dict d) ∧
      ∀ k, d k = Spec.clean (given h D.clean clean) (.str (if he then "leave_out_observation" else "connected")) he k := by
  obtain ⟨rfe, rcre, rcl, rclean, h1, h2, h3, h4, q1, q2, q3, q4, f0, f1, f2, f3, f4, e5, e1, e2, e3, e4⟩ :=
    init_given D fe cre cluster clean h hfe hcre hcl hclean
  unfold init at hi
  rw [q1] at hi
  dsimp only at hi
  rw [q2] at hi
  dsimp only at hi
  rw [q3] at hi
  dsimp only at hi
  rw [q4] at hi
  clear q1 q2 q3 q4
  dsimp only at hi
  -- the four copies
  obtain ⟨u1, u2, u3, u4⟩ := copySet_spec h4 rfe []
  change (h4.copy rfe).1 = _ at u1
  change (h4.copy rfe).2.next = _ at u2
  change (h4.copy rfe).2.obj _ = _ at u3
  change ∀ r' < _, (h4.copy rfe).2.obj r' = _ at u4
  rcases hc1 : h4.copy rfe with ⟨s1, H1⟩
  rw [hc1] at hi u1 u2 u3 u4
  dsimp only at hi u1 u2 u3 u4
  obtain ⟨v1, v2, v3, v4⟩ := copySet_spec H1 rcre []
  change (H1.copy rcre).1 = _ at v1
  change (H1.copy rcre).2.next = _ at v2
  change (H1.copy rcre).2.obj _ = _ at v3
  change ∀ r' < _, (H1.copy rcre).2.obj r' = _ at v4
  rcases hc2 : H1.copy rcre with ⟨s2, H2⟩
  rw [hc2] at hi v1 v2 v3 v4
  dsimp only at hi v1 v2 v3 v4
  obtain ⟨w1, w2, w3, w4⟩ := copySet_spec H2 rcl []
  change (H2.copy rcl).1 = _ at w1
  change (H2.copy rcl).2.next = _ at w2
  change (H2.copy rcl).2.obj _ = _ at w3
  change ∀ r' < _, (H2.copy rcl).2.obj r' = _ at w4
  rcases hc3 : H2.copy rcl with ⟨s3, H3⟩
  rw [hc3] at hi w1 w2 w3 w4
  dsimp only at hi w1 w2 w3 w4
  obtain ⟨x1, x2, x3, x4⟩ := copySet_spec H3 rclean []
  change (H3.copy rclean).1 = _ at x1
  change (H3.copy rclean).2.next = _ at x2
  change (H3.copy rclean).2.obj _ = _ at x3
  change ∀ r' < _, (H3.copy rclean).2.obj r' = _ at x4
  rcases hc4 : H3.copy rclean with ⟨s4, H4⟩
  rw [hc4] at hi x1 x2 x3 x4
  dsimp only at hi x1 x2 x3 x4
  clear hc1 hc2 hc3 hc4
  -- the assignments
  have y1 := setAll_next H4 s4 cleanSet
  have y2 := setAll_self H4 s4 cleanSet
  have y3 := fun r h => setAll_other H4 s4 r cleanSet h
  generalize H4.setAll s4 cleanSet = H5 at hi y1 y2 y3
  have z1 := setAll_next H5 s3 [("clean_params", .dict (H5.obj s4)), ("is_sorted", .bool true), ("copy", .bool false)]
  have z2 := setAll_self H5 s3 [("clean_params", .dict (H5.obj s4)), ("is_sorted", .bool true), ("copy", .bool false)]
  have z3 := fun r h => setAll_other H5 s3 r
    [("clean_params", .dict (H5.obj s4)), ("is_sorted", .bool true), ("copy", .bool false)] h
  generalize H5.setAll s3 [("clean_params", .dict (H5.obj s4)), ("is_sorted", .bool true), ("copy", .bool false)] = H6
    at hi z1 z2 z3
  have t1 : H6.obj s1 = given h D.fe fe := by
    rw [z3 _ (by omega), y3 _ (by omega), x4 _ (by omega), w4 _ (by omega), v4 _ (by omega), u1, u3, ← e1]; rfl
  have t2 : H6.obj s2 = given h D.cre cre := by
    rw [z3 _ (by omega), y3 _ (by omega), x4 _ (by omega), w4 _ (by omega), v1, v3, ← e2]
    exact u4 _ (by omega)
  have t3 : H6.obj s4 = assigned (given h D.clean clean) cleanSet := by
    rw [z3 _ (by omega), y2, x1, x3, ← e4]
    show assigned (H3.obj rclean) _ = _
    rw [w4 _ (by omega), v4 _ (by omega), u4 _ (by omega)]
  have t4 : H6.obj s3 = assigned (given h D.cluster cluster)
      [("clean_params", .dict (H6.obj s4)), ("is_sorted", .bool true), ("copy", .bool false)] := by
    rw [z2, y3 _ (by omega), x4 _ (by omega), w1, w3, ← e3, z3 s4 (by omega)]
    show assigned (H2.obj rcl) _ = _
    rw [v4 _ (by omega), u4 _ (by omega)]
  have t5 : ∀ r < h.next, H6.obj r = h.obj r := by
    intro r hr
    rw [z3 _ (by omega), y3 _ (by omega), x4 _ (by omega), w4 _ (by omega), v4 _ (by omega), u4 _ (by omega), e5 r hr]
  have t6 : H6.next = h4.next + 4 := by omega
  have r1 : s1 = h4.next := u1
  have r2 : s2 = h4.next + 1 := by omega
  have r3 : s3 = h4.next + 2 := by omega
  have r4 : s4 = h4.next + 3 := by omega
  clear u1 u2 u3 u4 v1 v2 v3 v4 w1 w2 w3 w4 x1 x2 x3 x4 y1 y2 y3 z1 z2 z3 e1 e2 e3 e4 e5
  -- the second copies
  change (let (feNon, g) := copySet H6 s1 [("he", .bool false)]
    let (feHe, g) := copySet g s1 [("he", .bool true)]
    let (cleanNon, g) := copySet g s4 [("connectedness", .str "connected")]
    let (cleanHe, g) := copySet g s4 [("connectedness", .str "leave_out_observation"), ("drop_single_stayers", .bool true)]
    let (clusterNon, g) := copySet g s3 [("clean_params", .dict ((g.copy s3).2.obj cleanNon))]
    let (clusterHe, g) := copySet g s3 [("clean_params", .dict ((g.copy s3).2.obj cleanHe))]
    ((⟨s1, s2, s3, s4, feNon, feHe, cleanNon, cleanHe, clusterNon, clusterHe,
      ["fe", "cre"] ++ if bs then ["bs"] else []⟩ : Obj), g)) = (o, h') at hi
  obtain ⟨a1, a2, a3, a4⟩ := copySet_spec H6 s1 [("he", .bool false)]
  rcases hc : copySet H6 s1 [("he", .bool false)] with ⟨s5, H7⟩
  rw [hc] at hi a1 a2 a3 a4
  clear hc
  dsimp only at hi a1 a2 a3 a4
  obtain ⟨b1, b2, b3, b4⟩ := copySet_spec H7 s1 [("he", .bool true)]
  rcases hc : copySet H7 s1 [("he", .bool true)] with ⟨s6, H8⟩
  rw [hc] at hi b1 b2 b3 b4
  clear hc
  dsimp only at hi b1 b2 b3 b4
  obtain ⟨c1, c2, c3, c4⟩ := copySet_spec H8 s4 [("connectedness", .str "connected")]
  rcases hc : copySet H8 s4 [("connectedness", .str "connected")] with ⟨s7, H9⟩
  rw [hc] at hi c1 c2 c3 c4
  clear hc
  dsimp only at hi c1 c2 c3 c4
  obtain ⟨d1, d2, d3, d4⟩ := copySet_spec H9 s4 [("connectedness", .str "leave_out_observation"), ("drop_single_stayers", .bool true)]
  rcases hc : copySet H9 s4 [("connectedness", .str "leave_out_observation"), ("drop_single_stayers", .bool true)] with ⟨s8, H10⟩
  rw [hc] at hi d1 d2 d3 d4
  clear hc
  dsimp only at hi d1 d2 d3 d4
  have hk1 : (H10.copy s3).2.obj s7 = H10.obj s7 := (copySet_spec H10 s3 []).2.2.2 _ (by omega)
  rw [hk1] at hi
  obtain ⟨i1, i2, i3, i4⟩ := copySet_spec H10 s3 [("clean_params", .dict (H10.obj s7))]
  rcases hc : copySet H10 s3 [("clean_params", .dict (H10.obj s7))] with ⟨s9, H11⟩
  rw [hc] at hi i1 i2 i3 i4
  clear hc
  dsimp only at hi i1 i2 i3 i4
  have hk2 : (H11.copy s3).2.obj s8 = H11.obj s8 := (copySet_spec H11 s3 []).2.2.2 _ (by omega)
  rw [hk2] at hi
  obtain ⟨j1, j2, j3, j4⟩ := copySet_spec H11 s3 [("clean_params", .dict (H11.obj s8))]
  rcases hc : copySet H11 s3 [("clean_params", .dict (H11.obj s8))] with ⟨s10, H12⟩
  rw [hc] at hi j1 j2 j3 j4
  clear hc
  dsimp only at hi j1 j2 j3 j4
  obtain ⟨rfl, rfl⟩ := Prod.mk.inj hi
  clear hi hk1 hk2
  have F2 : H12.obj s2 = given h D.cre cre := by
    rw [j4 _ (by omega), i4 _ (by omega), d4 _ (by omega), c4 _ (by omega), b4 _ (by omega), a4 _ (by omega), t2]
  have F5 : H12.obj s5 = assigned (given h D.fe fe) [("he", .bool false)] := by
    rw [j4 _ (by omega), i4 _ (by omega), d4 _ (by omega), c4 _ (by omega), b4 _ (by omega), a1, a3, t1]
  have F6 : H12.obj s6 = assigned (given h D.fe fe) [("he", .bool true)] := by
    rw [j4 _ (by omega), i4 _ (by omega), d4 _ (by omega), c4 _ (by omega), b1, b3, a4 _ (by omega), t1]
  have F7 : H12.obj s7 = assigned (assigned (given h D.clean clean) cleanSet) [("connectedness", .str "connected")] := by
    rw [j4 _ (by omega), i4 _ (by omega), d4 _ (by omega), c1, c3, b4 _ (by omega), a4 _ (by omega), t3]
  have F8 : H12.obj s8 = assigned (assigned (given h D.clean clean) cleanSet)
      [("connectedness", .str "leave_out_observation"), ("drop_single_stayers", .bool true)] := by
    rw [j4 _ (by omega), i4 _ (by omega), d1, d3, c4 _ (by omega), b4 _ (by omega), a4 _ (by omega), t3]
  have F9 : H12.obj s9 = assigned (H6.obj s3) [("clean_params", .dict (H12.obj s7))] := by
    rw [j4 s9 (by omega), i1, i3, d4 s3 (by omega), c4 s3 (by omega), b4 s3 (by omega), a4 s3 (by omega),
      j4 s7 (by omega), i4 s7 (by omega)]
  have F10 : H12.obj s10 = assigned (H6.obj s3) [("clean_params", .dict (H12.obj s8))] := by
    rw [j1, j3, i4 s3 (by omega), d4 s3 (by omega), c4 s3 (by omega), b4 s3 (by omega), a4 s3 (by omega),
      j4 s8 (by omega)]
  have F0 : ∀ r < h.next, H12.obj r = h.obj r := by
    intro r hr
    rw [j4 _ (by omega), i4 _ (by omega), d4 _ (by omega), c4 _ (by omega), b4 _ (by omega), a4 _ (by omega), t5 r hr]
  have F7' : H12.obj s7 = Spec.clean (given h D.clean clean) (.str "connected") false := by
    rw [F7]; funext k; exact spec_non _ k
  have F8' : H12.obj s8 = Spec.clean (given h D.clean clean) (.str "leave_out_observation") true := by
    rw [F8]; funext k; exact spec_he _ k
  clear a1 a2 a3 a4 b1 b2 b3 b4 c1 c2 c3 c4 d1 d2 d3 d4 i1 i2 i3 i4 j1 j2 j3 j4 t1 t2 t3 t5 t6 r1 r2 r3 r4 F7 F8
  refine ⟨F0, ?_, ?_, F2, ?_, ?_, ?_⟩
  · intro m
    cases bs <;> simp
  · intro k
    cases he
    · show H12.obj s5 k = _
      rw [F5]
      simp [assigned, setItem]
    · show H12.obj s6 k = _
      rw [F6]
      simp [assigned, setItem]
  · intro k
    cases he
    · cases increasing
      · show H12.obj s7 k = _
        rw [F7']; rfl
      · show setItem (H12.obj s7) "connectedness" .none k = _
        rw [F7', spec_none]; rfl
    · cases increasing
      · show H12.obj s8 k = _
        rw [F8']; rfl
      · show setItem (H12.obj s8) "connectedness" .none k = _
        rw [F8', spec_none]; rfl
  · intro k hk
    cases he
    · show H12.obj s9 k = _
      rw [F9, t4]
      exact spec_cluster _ _ _ k hk
    · show H12.obj s10 k = _
      rw [F10, t4]
      exact spec_cluster _ _ _ k hk
  · cases he
    · refine ⟨H12.obj s7, ?_, fun k => by rw [F7']; rfl⟩
      show H12.obj s9 _ = _
      rw [F9]
      simp [assigned, setItem]
    · refine ⟨H12.obj s8, ?_, fun k => by rw [F8']; rfl⟩
      show H12.obj s10 _ = _
      rw [F10]
      simp [assigned, setItem]

/-- C103 fails in full: with increasing fractions the data is cleaned without looking at connectedness, but the
clustering step holds cleaning parameters that still ask for it. -/
theorem C103_cluster_stale (D : Defaults) (fe cre cluster clean : Option ℕ) (bs : Bool) (h : Heap)
    (hfe : ∀ r ∈ fe, r < h.next) (hcre : ∀ r ∈ cre, r < h.next) (hcl : ∀ r ∈ cluster, r < h.next)
    (hclean : ∀ r ∈ clean, r < h.next) (he : Bool) :
    (used (init D fe cre cluster clean bs h).1 (init D fe cre cluster clean bs h).2 true he).clean "connectedness" =
      some .none ∧
    ∃ d, (used (init D fe cre cluster clean bs h).1 (init D fe cre cluster clean bs h).2 true he).cluster
      "clean_params" = some (.dict d) ∧
      d "connectedness" = some (.str (if he then "leave_out_observation" else "connected")) := by
  rcases hi : init D fe cre cluster clean bs h with ⟨o, h'⟩
  obtain ⟨-, -, -, -, h1, -, d, h2, h3⟩ := C103_parameters_partial D fe cre cluster clean bs h hfe hcre hcl hclean o h' hi
    true he
  exact ⟨by rw [h1]; rfl, d, h2, by rw [h3]; rfl⟩

/-- C103: SorkinAttrition asks for the strongly connected set, sorted data without copies, forced cleaning or
messages, and otherwise uses the given cleaning parameters, which do not change. -/
theorem C103_sorkin (D : Defaults) (clean : Option ℕ) (h : Heap) (hclean : ∀ r ∈ clean, r < h.next) :
    (∀ r < h.next, (sorkinInit D clean h).2.obj r = h.obj r) ∧
    ∀ k, (sorkinInit D clean h).2.obj (sorkinInit D clean h).1 k =
      if k = "verbose" then some (.bool false)
      else Spec.clean (given h D.clean clean) (.str "strongly_connected") false k := by
  obtain ⟨d1, d2, d3, d4⟩ := orDefault_spec h D.clean clean hclean
  unfold sorkinInit
  rcases e4 : orDefault h D.clean clean with ⟨rclean, h4⟩
  rw [e4] at d1 d2 d3 d4
  dsimp only at *
  obtain ⟨u1, u2, u3, u4⟩ := copySet_spec h4 rclean [("connectedness", .str "strongly_connected"),
    ("is_sorted", .bool true), ("force", .bool false), ("copy", .bool false), ("verbose", .bool false)]
  constructor
  · intro r hr
    rw [← d3 r hr]
    exact u4 r (by omega)
  · intro k
    rw [← spec_sorkin, ← d4]
    exact congrFun u3 k

/-- The caller passes the same dictionary for cleaning and clustering. -/
example : ∃ (D : Defaults) (h : Heap), (∀ r ∈ some 0, r < h.next) ∧
    (init D none none (some 0) (some 0) true h).1.models = ["fe", "cre", "bs"] :=
  ⟨⟨fun _ => none, fun _ => none, fun _ => none, fun _ => none⟩, ⟨1, fun _ _ => some (.other 7)⟩, by simp, rfl⟩

end Pytwoway.AttritionParams
