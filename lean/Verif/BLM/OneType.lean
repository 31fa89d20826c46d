import Verif.BLM.Invariance

/-! # C124: one worker type, and worker types that start alike -/

namespace Pytwoway.BLM

open Finset

variable {ni nl nk : ℕ}

/-! ## Specification -/

/-- Weighted mean wage in period `t` of the movers whose firm in that period is of type `k`. -/
noncomputable def Spec.cellMean (d : Data ni nk) (t : Fin 2) (k : Fin nk) : ℝ :=
  (∑ i with d.G t i = k, d.W t i * d.Y t i) / ∑ i with d.G t i = k, d.W t i

/-- Weighted variance of the same wages. -/
noncomputable def Spec.cellVar (d : Data ni nk) (t : Fin 2) (k : Fin nk) : ℝ :=
  (∑ i with d.G t i = k, d.W t i * (d.Y t i - Spec.cellMean d t k) ^ 2) / ∑ i with d.G t i = k, d.W t i

/-- The estimates of a model with one worker type: means and variances by firm type (variances not below the bound
`lb`). -/
structure Spec.ByCell (d : Data ni nk) (lb : ℝ) (b : Base 1 nk) : Prop where
  mean : ∀ t l k, b.A t l k = Spec.cellMean d t k
  nonneg : ∀ t l k, 0 ≤ b.S t l k
  var : ∀ t l k, b.S t l k ^ 2 = max lb (Spec.cellVar d t k)

/-! ## Lemmas -/

theorem posterior_one (lp : Fin ni → Fin 1 → ℝ) : posterior lp = fun _ _ => 1 := by
  funext i l
  have := posterior_sum lp i
  rw [Fin.sum_univ_one] at this
  rw [Subsingleton.elim l 0, this]

theorem byCell_unique {d : Data ni nk} {lb : ℝ} {b b' : Base 1 nk} (h : Spec.ByCell d lb b) (h' : Spec.ByCell d lb b') :
    b = b' := by
  rcases b with ⟨A, S⟩
  rcases b' with ⟨A', S'⟩
  have e1 : A = A' := by
    funext t l k
    exact (h.mean t l k).trans (h'.mean t l k).symm
  have e2 : S = S' := by
    funext t l k
    exact (pow_left_inj₀ (h.nonneg t l k) (h'.nonneg t l k) two_ne_zero).1 ((h.var t l k).trans (h'.var t l k).symm)
  rw [e1, e2]

/-- The M-step with one worker type ends in the same place whatever the current values. -/
theorem mstep_one (d : Data ni nk) (lb : ℝ) (sA sS : Solver) (hnk : 0 < nk)
    (hsA : RightSolver (2 * (1 * nk)) (fun _ => True) sA) (hsS : RightSolver (2 * (1 * nk)) (BoundS 1 nk lb) sS)
    (hlb : 0 ≤ lb) (hobs : ∀ t k, ∃ i, d.G t i = k) (hW : ∀ t i, 0 < d.W t i) (b : Base 1 nk)
    (hS : ∀ t l k, 0 < b.S t l k) : ∃ b', mstep d (fun _ _ => 1) b true true sA sS = .ok b' ∧ Spec.ByCell d lb b' := by
  have hcell : ∀ t (l : Fin 1) k, cellW d (fun _ _ => 1) t l k = ∑ i with d.G t i = k, d.W t i := fun t l k => by
    unfold cellW
    exact sum_congr rfl fun i _ => mul_one _
  have hpos : ∀ t (l : Fin 1) k, 0 < cellW d (fun _ _ => 1) t l k := by
    intro t l k
    rw [hcell]
    obtain ⟨i, hi⟩ := hobs t k
    exact sum_pos (fun i _ => hW t i) ⟨i, by simp [hi]⟩
  obtain ⟨b', h, hb⟩ := C34_closed_form d (fun _ (_ : Fin 1) => 1) b lb sA sS hnk hsA hsS hlb hS hpos
  have hA : ∀ t l k, b'.A t l k = Spec.cellMean d t k := fun t l k => by
    rw [(hb t l k).1, hcell, Spec.cellMean]
    congr 1
    exact sum_congr rfl fun i _ => by rw [mul_one]
  refine ⟨b', h, hA, fun t l k => (hb t l k).2.1, fun t l k => ?_⟩
  rw [(hb t l k).2.2, hcell, hA, Spec.cellVar]
  congr 2
  exact sum_congr rfl fun i _ => by rw [mul_one]

theorem byCell_pos {d : Data ni nk} {lb : ℝ} (hlb : 0 < lb) {b : Base 1 nk} (h : Spec.ByCell d lb b) (t : Fin 2) (l : Fin 1)
    (k : Fin nk) : 0 < b.S t l k := by
  refine lt_of_le_of_ne (h.nonneg t l k) fun h0 => ?_
  have := h.var t l k
  rw [← h0] at this
  have : lb ≤ 0 := le_trans (le_max_left lb (Spec.cellVar d t k)) (by linarith)
  linarith

/-- Once the estimates have been reached they stay, and the loop ends after at most two more passes. -/
theorem loop_stays (d : Data ni nk) (o : MoverOpts) (sA sS : Solver) (minType : (Fin 2 → Fin 1 → Fin nk → ℝ) → ℕ)
    (b : Base 1 nk) (pk : ℕ → Fin 1 → ℝ) (hb : mstep d (fun _ _ => 1) b o.updA o.updS sA sS = .ok b)
    (hpk : nextPk1 o.updPk d (fun _ _ => 1) o.dprior pk = .ok pk) (fuel : ℕ) : ∀ (prev : Option ℝ) (pm : ℕ) (liks : List ℝ),
    ∃ s', moversLoop d o sA sS minType fuel false prev pm ⟨b, pk, liks⟩ = .ok s' ∧ s'.base = b ∧ s'.pk1 = pk ∧
      (0 < o.threshold → s'.liks.length ≤ liks.length + 2 ∧
        (prev = some (likMovers d b [] pk false o.updPk o.dprior) → pm = minType b.A → s'.liks.length ≤ liks.length + 1)) := by
  induction fuel with
  | zero => exact fun prev pm liks => ⟨_, rfl, rfl, rfl, fun _ => ⟨by simp, fun _ _ => by simp⟩⟩
  | succ fuel ih =>
    intro prev pm liks
    unfold moversLoop
    dsimp only
    split
    · exact ⟨_, rfl, rfl, rfl, fun _ => ⟨by simp, fun _ _ => by simp⟩⟩
    · rename_i hstop
      rw [posterior_one, hpk]
      simp only [bind, Except.bind, hb]
      obtain ⟨s', h1, h2, h3, h4⟩ := ih (some (likMovers d b [] pk false o.updPk o.dprior)) (minType b.A)
        (liks ++ [likMovers d b [] pk false o.updPk o.dprior])
      refine ⟨s', h1, h2, h3, fun ht => ⟨?_, fun hp hm => ?_⟩⟩
      · have := (h4 ht).2 rfl rfl
        simp only [List.length_append, List.length_singleton] at this
        omega
      · exfalso
        apply hstop
        rw [hp, hm]
        simp [stop, ht]

/-! ## The property -/

/-- C124: with one worker type (and no constraints) the mean wages and standard deviations returned are those by firm
type and period, whatever the starting values and however many iterations are allowed; the proportions are one; and
with a positive threshold the loop ends by itself within three iterations. -/
theorem C124_movers (d : Data ni nk) (o : MoverOpts) (hA : o.updA = true) (hSu : o.updS = true) (lb : ℝ) (sA sS : Solver)
    (hnk : 0 < nk) (hsA : RightSolver (2 * (1 * nk)) (fun _ => True) sA)
    (hsS : RightSolver (2 * (1 * nk)) (BoundS 1 nk lb) sS) (hlb : 0 < lb) (hobs : ∀ t k, ∃ i, d.G t i = k)
    (hpairs : o.updPk = true → ∀ k1 k2, ∃ i, d.G 0 i = k1 ∧ d.G 1 i = k2) (hdp : 1 ≤ o.dprior)
    (hW : ∀ t i, 0 < d.W t i) (minType : (Fin 2 → Fin 1 → Fin nk → ℝ) → ℕ) (nIters pm : ℕ) (b : Base 1 nk)
    (pk1 : ℕ → Fin 1 → ℝ) (hS : ∀ t l k, 0 < b.S t l k) :
    ∃ s', moversLoop d o sA sS minType (nIters + 1) true none pm ⟨b, pk1, []⟩ = .ok s' ∧ Spec.ByCell d lb s'.base ∧
      (o.updPk = true → ∀ (k1 k2 : Fin nk) l, s'.pk1 (k1.val + nk * k2.val) l = 1) ∧
      (o.updPk = false → s'.pk1 = pk1) ∧ (0 < o.threshold → s'.liks.length ≤ 3) := by
  have hm := mstep_one d lb sA sS hnk hsA hsS hlb.le hobs hW
  obtain ⟨b', h1, h2⟩ := hm b hS
  have hfix : mstep d (fun _ _ => 1) b' true true sA sS = .ok b' := by
    obtain ⟨b2, h3, h4⟩ := hm b' (byCell_pos hlb h2)
    rw [h3, byCell_unique h4 h2]
  have hpk : ∃ pk, (∀ pk0, nextPk1 o.updPk d (fun _ _ => 1) o.dprior pk0 = .ok (if o.updPk then pk else pk0)) ∧
      (o.updPk = true → ∀ (k1 k2 : Fin nk) (l : Fin 1), pk (k1.val + nk * k2.val) l = 1) := by
    rcases Bool.eq_false_or_eq_true o.updPk with h | h
    · obtain ⟨pk, h3, h4⟩ := C32_movers d (fun _ (_ : Fin 1) => 1) o.dprior hW hdp (fun _ _ => zero_le_one)
        (fun _ => by simp) hnk (hpairs h)
      refine ⟨pk, fun pk0 => by simp [nextPk1, h, h3], fun _ k1 k2 l => ?_⟩
      have := (h4 k1 k2).2.2
      rw [Fin.sum_univ_one] at this
      rw [Subsingleton.elim l 0, this]
    · exact ⟨pk1, fun pk0 => by simp [nextPk1, h], fun h' => by rw [h] at h'; cases h'⟩
  obtain ⟨pk, hpk, hone⟩ := hpk
  have hpk' : nextPk1 o.updPk d (fun _ _ => 1) o.dprior (if o.updPk then pk else pk1) = .ok (if o.updPk then pk else pk1) := by
    rw [hpk]; split <;> rfl
  unfold moversLoop
  dsimp only
  rw [if_neg (by simp [stop]), posterior_one, hpk, hA, hSu, h1]
  simp only [bind, Except.bind]
  obtain ⟨s', e1, e2, e3, e4⟩ := loop_stays d o sA sS minType b' _ (by rw [hA, hSu]; exact hfix) hpk' nIters
    (some (likMovers d b [] pk1 true o.updPk o.dprior)) (minType b.A) ([] ++ [likMovers d b [] pk1 true o.updPk o.dprior])
  refine ⟨s', e1, e2 ▸ h2, fun h k1 k2 l => ?_, fun h => ?_, fun ht => ?_⟩
  · rw [e3, if_pos h]; exact hone h k1 k2 l
  · rw [e3, h]; rfl
  · have := (e4 ht).1
    simpa using this

/-- With one worker type a pass of the stayers' loop gives proportions of one. -/
theorem stayers_one (d : Data ni nk) (b : Base 1 nk) (cs : List (Ctrl ni 1)) (dp thr : ℝ) (hW : ∀ i, 0 < d.W 0 i) (hdp : 1 ≤ dp)
    (fuel : ℕ) : ∀ (first : Bool) (prev : Option ℝ) (pk0 pk0' : Fin nk → Option (Fin 1 → ℝ)) (liks liks' : List (Option ℝ)),
    (∀ k, (∃ i, d.G 0 i = k) → pk0 k = some fun _ => 1) →
    stayersLoop d b cs dp thr fuel first prev pk0 liks = .ok (pk0', liks') →
    ∀ k, (∃ i, d.G 0 i = k) → pk0' k = some fun _ => 1 := by
  induction fuel with
  | zero =>
    intro first prev pk0 pk0' liks liks' hp h
    cases Except.ok.inj h
    exact hp
  | succ fuel ih =>
    intro first prev pk0 pk0' liks liks' hp h
    unfold stayersLoop at h
    dsimp only at h
    split at h
    · cases Except.ok.inj h
      exact hp
    · rw [posterior_one] at h
      rcases hu : updatePk0 d (fun _ (_ : Fin 1) => 1) dp with m | pk2
      · rw [hu] at h; cases h
      · rw [hu] at h
        simp only [bind, Except.bind] at h
        refine ih _ _ _ _ _ _ (fun k hk => ?_) h
        obtain ⟨row, h1, -, -, h4⟩ := C32_stayers d (fun _ (_ : Fin 1) => 1) dp hW hdp (fun _ _ => zero_le_one)
          (fun _ => by simp) pk2 hu k hk
        rw [h1]
        congr 1
        funext l
        rw [Fin.sum_univ_one] at h4
        rw [Subsingleton.elim l 0, h4]

/-- C124, stayers: with one worker type every observed firm type employs that type only. -/
theorem C124_stayers (d : Data ni nk) (b : Base 1 nk) (cs : List (Ctrl ni 1)) (dp thr : ℝ) (hW : ∀ i, 0 < d.W 0 i)
    (hdp : 1 ≤ dp) (nIters : ℕ) (pk0 : Fin nk → Fin 1 → ℝ) (pk0' : Fin nk → Option (Fin 1 → ℝ)) (liks : List (Option ℝ))
    (h : fitStayers d b cs dp thr (nIters + 1) pk0 = .ok (pk0', liks)) (k : Fin nk) (hk : ∃ i, d.G 0 i = k) :
    pk0' k = some fun _ => 1 := by
  unfold fitStayers stayersLoop at h
  dsimp only at h
  rw [if_neg (by unfold stopStayers; split <;> simp_all), posterior_one] at h
  rcases hu : updatePk0 d (fun _ (_ : Fin 1) => 1) dp with m | pk2
  · rw [hu] at h; cases h
  · rw [hu] at h
    simp only [bind, Except.bind] at h
    refine stayers_one d b cs dp thr hW hdp nIters _ _ _ _ _ _ (fun k hk => ?_) h k hk
    obtain ⟨row, h1, -, -, h4⟩ := C32_stayers d (fun _ (_ : Fin 1) => 1) dp hW hdp (fun _ _ => zero_le_one)
      (fun _ => by simp) pk2 hu k hk
    rw [h1]
    congr 1
    funext l
    rw [Fin.sum_univ_one] at h4
    rw [Subsingleton.elim l 0, h4]

/-- The renaming that exchanges two worker types and nothing else. -/
def Spec.swapTypes (ni nk : ℕ) (l1 l2 : Fin nl) : Spec.Renaming ni nl nk :=
  ⟨1, Equiv.swap l1 l2, 1, 1, 1, 0, one_pos⟩

/-- Two worker types have the same mean wages, standard deviations and proportions. -/
structure Spec.Alike (l1 l2 : Fin nl) (s : MoverState nl nk) : Prop where
  mean : ∀ t k, s.base.A t l1 k = s.base.A t l2 k
  sd : ∀ t k, s.base.S t l1 k = s.base.S t l2 k
  prop : ∀ k1 k2 : Fin nk, s.pk1 (k1.val + nk * k2.val) l1 = s.pk1 (k1.val + nk * k2.val) l2

theorem swap_fn {α : Type} (l1 l2 : Fin nl) (f : Fin nl → α) (h : f l1 = f l2) (l : Fin nl) : f (Equiv.swap l1 l2 l) = f l := by
  rw [Equiv.swap_apply_def]
  split
  · rename_i e; rw [e, h]
  split
  · rename_i e; rw [e, h]
  · rfl

/-- C124: worker types that start alike stay alike, for any number of types and iterations: the algorithm cannot tell
them apart (so starting values must differ).  `F` are the constraints on the means, which must not name one of the
types. -/
theorem C124_twins [NeZero nl] (d : Data ni nk) (o : MoverOpts) (sA sS : Solver)
    (minType : (Fin 2 → Fin nl → Fin nk → ℝ) → ℕ) (F : (Fin 2 → Fin nl → Fin nk → ℝ) → Prop) (lb : ℝ) (hlb : 0 < lb)
    (hnk : 0 < nk) (hdp : 1 ≤ o.dprior)
    (hsA : RightSolver (2 * (nl * nk)) (fun x => F (unflatten nl nk x)) sA)
    (hsS : RightSolver (2 * (nl * nk)) (BoundS nl nk lb) sS) (hFc : Spec.Midconvex F) (hF : ∃ A, F A) (l1 l2 : Fin nl)
    (hsym : ∀ A, F (fun t l k => A t (Equiv.swap l1 l2 l) k) ↔ F A)
    (hmin : ∀ A, minType (fun t l k => A t (Equiv.swap l1 l2 l) k) = minType A)
    (hobs : ∀ t k, ∃ i, d.G t i = k) (hW : ∀ t i, 0 < d.W t i) (nIters pm : ℕ) (s s' : MoverState nl nk)
    (hpos : ∀ t l k, 0 < s.base.S t l k) (hs : Spec.Alike l1 l2 s)
    (h : moversLoop d o sA sS minType nIters true none pm s = .ok s') : Spec.Alike l1 l2 s' := by
  set g := Spec.swapTypes (nl := nl) ni nk l1 l2 with hg
  have hmeans : ∀ A A', g.SameMeans A A' → A' = fun t l k => A t (Equiv.swap l1 l2 l) k := by
    intro A A' hh
    funext t l k
    have := hh t (Equiv.swap l1 l2 l) k
    simpa [hg, Spec.swapTypes] using this
  have hlik : g.likShift d = 0 := by simp [Spec.Renaming.likShift, hg, Spec.swapTypes]
  have hd : g.SameData d d := ⟨fun t i => by simp [hg, Spec.swapTypes], fun t i => by simp [hg, Spec.swapTypes],
    fun t i => by simp [hg, Spec.swapTypes]⟩
  have hss : g.SameState d s s := by
    refine ⟨fun t l k => ?_, fun t l k => ?_, fun k l => ?_, by rw [hlik]; simp⟩
    · have := swap_fn l1 l2 (fun l => s.base.A t l k) (hs.mean t k) l
      simpa [hg, Spec.swapTypes] using this
    · have := swap_fn l1 l2 (fun l => s.base.S t l k) (hs.sd t k) l
      simpa [hg, Spec.swapTypes] using this
    · have := swap_fn l1 l2 (fun l => s.pk1 ((k 0).val + nk * (k 1).val) l) (hs.prop _ _) l
      exact this
  have hb : RightSolver (2 * (nl * nk)) (BoundS nl nk (g.scale ^ 2 * lb)) sS := by
    have : g.scale ^ 2 * lb = lb := by simp [hg, Spec.swapTypes]
    rw [this]; exact hsS
  have key := C114_movers g d d o sA sA sS sS minType minType id F F lb hd hlb hnk hdp hsA hsA hsS hb hFc hF
    (fun A A' hh => by rw [hmeans A A' hh]; exact hsym A) Function.injective_id
    (fun A A' hh => by rw [hmeans A A' hh]; exact hmin A) hobs hW nIters true none pm s s hpos hss
  simp only [Option.map_none, id] at key
  rw [h] at key
  have k1 : g.SameState d s' s' := key
  refine ⟨fun t k => ?_, fun t k => ?_, fun a b => ?_⟩
  · have := k1.means t l2 k
    simpa [hg, Spec.swapTypes] using this
  · have := k1.sds t l2 k
    simpa [hg, Spec.swapTypes] using this
  · have e : s'.pk1 (a.val + nk * b.val) (Equiv.swap l1 l2 l2) = s'.pk1 (a.val + nk * b.val) l2 := k1.props ![a, b] l2
    rwa [Equiv.swap_apply_right] at e

/-- Non-vacuity of `C124_movers`: four movers, one for each pair of firm types; the mean wage of firm type 1 in period 0
is returned from any start. -/
example : ∃ sA sS : Solver, ∃ s', moversLoop fourMovers ⟨true, true, true, 1, 1 / 10⟩ sA sS (fun _ => 0) 1000 true none 0
    ⟨⟨fun _ _ _ => 7, fun _ _ _ => 1⟩, fun _ _ => 1, []⟩ = .ok s' ∧ Spec.ByCell fourMovers 1 s'.base ∧ s'.liks.length ≤ 3 := by
  obtain ⟨sA, hA⟩ := rightSolver_free (2 * (1 * 2))
  obtain ⟨sS, hS⟩ := rightSolver_box (2 * (1 * 2)) 1
  have hp : ∀ k1 k2 : Fin 2, ∃ i, fourMovers.G 0 i = k1 ∧ fourMovers.G 1 i = k2 := by
    intro k1 k2
    fin_cases k1 <;> fin_cases k2
    · exact ⟨0, by simp [fourMovers]⟩
    · exact ⟨2, by simp [fourMovers]⟩
    · exact ⟨1, by simp [fourMovers]⟩
    · exact ⟨3, by simp [fourMovers]⟩
  have ho : ∀ t k, ∃ i, fourMovers.G t i = k := by
    intro t k
    fin_cases t
    · obtain ⟨i, h, -⟩ := hp k 0; exact ⟨i, h⟩
    · obtain ⟨i, -, h⟩ := hp 0 k; exact ⟨i, h⟩
  obtain ⟨s', h1, h2, -, -, h5⟩ := C124_movers fourMovers ⟨true, true, true, 1, 1 / 10⟩ rfl rfl 1 sA sS two_pos hA hS one_pos ho
    (fun _ => hp) le_rfl (fun t i => by simp only [fourMovers]; split <;> norm_num) (fun _ => 0) 999 0 ⟨fun _ _ _ => 7, fun _ _ _ => 1⟩ (fun _ _ => 1)
    (fun _ _ _ => one_pos)
  exact ⟨sA, sS, s', h1, h2, h5 (by norm_num)⟩

/-- Non-vacuity of `C124_twins`: of three types, the first and the last start alike. -/
example : Spec.Alike (nk := 2) 0 2 (⟨⟨fun _ l _ => if l = 1 then 3 else 5, fun _ _ _ => 1⟩, fun _ _ => 1 / 3, []⟩ : MoverState 3 2) :=
  ⟨fun _ _ => rfl, fun _ _ => rfl, fun _ _ => rfl⟩

end Pytwoway.BLM
