import Verif.Attrition.Model
import Mathlib.Tactic.Linarith
import Mathlib.Tactic.Ring
import Mathlib.Tactic.NormNum
import Mathlib.Algebra.Ring.Int.Parity

/-! # Subsets of movers: C47 (increasing) and C80 (decreasing) -/

namespace Pytwoway.Attrition

open Finset

/-! ## Rounding -/

theorem npRound_floor (x : ℝ) : ⌊x⌋ ≤ npRound x ∧ npRound x ≤ ⌊x⌋ + 1 := by
  unfold npRound
  split
  · omega
  · split
    · omega
    · split <;> omega

theorem npRound_near (x : ℝ) : |(npRound x : ℝ) - x| ≤ 1 / 2 := by
  have h := Int.floor_add_fract x
  have h0 := Int.fract_nonneg x
  have h1 := Int.fract_lt_one x
  unfold npRound
  split
  · rw [abs_le]; constructor <;> linarith
  · split
    · push_cast; rw [abs_le]; constructor <;> linarith
    · split
      · rw [abs_le]; constructor <;> linarith
      · push_cast; rw [abs_le]; constructor <;> linarith

/-- Halves go to the even neighbour, everything else to the nearest integer: the only integer with both
properties. -/
theorem npRound_unique (x : ℝ) (n : ℤ) :
    npRound x = n ↔ |(n : ℝ) - x| ≤ 1 / 2 ∧ (|(n : ℝ) - x| = 1 / 2 → Even n) := by
  have h := Int.floor_add_fract x
  have h0 := Int.fract_nonneg x
  have h1 := Int.fract_lt_one x
  have hev : |(npRound x : ℝ) - x| = 1 / 2 → Even (npRound x) := by
    unfold npRound
    split
    · intro ha
      rw [abs_of_nonpos (by linarith)] at ha; linarith
    · split
      · intro ha
        push_cast at ha
        rw [abs_of_nonneg (by linarith)] at ha; linarith
      · split
        · intro _; assumption
        · rename_i hodd
          intro _
          rw [Int.not_even_iff_odd] at hodd
          exact hodd.add_one
  constructor
  · rintro rfl
    exact ⟨npRound_near x, hev⟩
  · rintro ⟨ha, hb⟩
    have hc := npRound_near x
    by_contra hne
    have hd : (1 : ℝ) ≤ |(npRound x : ℝ) - n| := by
      have : 1 ≤ |npRound x - n| := Int.one_le_abs (sub_ne_zero.mpr hne)
      exact_mod_cast this
    have he : |(npRound x : ℝ) - n| ≤ |(npRound x : ℝ) - x| + |(n : ℝ) - x| := by
      have := abs_sub_le (npRound x : ℝ) x n
      rwa [abs_sub_comm x] at this
    have e1 : |(npRound x : ℝ) - x| = 1 / 2 := by linarith
    have e2 : |(n : ℝ) - x| = 1 / 2 := by linarith
    have p1 := hev e1
    have p2 := hb e2
    have : |(npRound x : ℝ) - n| = 1 := by linarith
    have : |npRound x - n| = 1 := by exact_mod_cast this
    rcases abs_eq (by norm_num : (0 : ℤ) ≤ 1) |>.mp this with h | h
    · have := p1.sub p2
      rw [h] at this
      exact absurd this (by decide)
    · have := p1.sub p2
      rw [h] at this
      exact absurd this (by decide)

/-- C47, rounding: a number of movers that lies halfway is rounded to the even one (`np.round`), any
other to the nearest. -/
theorem C47_rounding (x : ℝ) : |(npRound x : ℝ) - x| ≤ 1 / 2 ∧ (|(npRound x : ℝ) - x| = 1 / 2 → Even (npRound x)) :=
  (npRound_unique x _).mp rfl

/-- Non-vacuity: `np.round(2.5) = 2`, `np.round(3.5) = 4`. -/
example : npRound 2.5 = 2 ∧ npRound 3.5 = 4 :=
  ⟨(npRound_unique _ _).mpr ⟨by norm_num [abs_le], fun _ => by decide⟩,
    (npRound_unique _ _).mpr ⟨by norm_num [abs_le], fun _ => by decide⟩⟩

theorem npRound_mono {x y : ℝ} (h : x ≤ y) : npRound x ≤ npRound y := by
  rcases (Int.floor_mono h).lt_or_eq with hlt | heq
  · have h1 := (npRound_floor x).2
    have h2 := (npRound_floor y).1
    omega
  · have hf : Int.fract x ≤ Int.fract y := by
      have h1 := Int.floor_add_fract x
      have h2 := Int.floor_add_fract y
      rw [heq] at h1
      linarith
    unfold npRound
    rw [heq]
    split_ifs <;> first | omega | linarith

theorem npRound_int (n : ℤ) : npRound n = n := by
  unfold npRound
  simp

theorem npRound_nonneg {x : ℝ} (h : 0 ≤ x) : 0 ≤ npRound x := by
  have := npRound_mono h
  have h0 := npRound_int 0
  simp only [Int.cast_zero] at h0
  omega

theorem npRound_le_nat {x : ℝ} {n : ℕ} (h : x ≤ n) : npRound x ≤ n := by
  have := npRound_mono h
  have h0 := npRound_int n
  simp only [Int.cast_natCast] at h0
  omega

/-! ## Frames -/

theorem mem_movers (f : Frame) (i : ℕ) : i ∈ movers f ↔ ∃ r ∈ f, ∃ r' ∈ f, r.i = i ∧ r'.i = i ∧ r.j ≠ r'.j := by
  unfold movers
  simp only [List.mem_toFinset, List.mem_map, List.mem_filter, List.any_eq_true, Bool.and_eq_true, beq_iff_eq,
    bne_iff_ne]
  constructor
  · rintro ⟨r, ⟨hr, r', hr', h1, h2⟩, rfl⟩
    exact ⟨r, hr, r', hr', rfl, h1, h2.symm⟩
  · rintro ⟨r, hr, r', hr', rfl, h1, h2⟩
    exact ⟨r, ⟨hr, r', hr', h1, h2.symm⟩, rfl⟩

theorem mem_firms (f : Frame) (j : ℕ) : j ∈ firms f ↔ ∃ r ∈ f, r.j = j := by
  simp [firms]

theorem movers_dropW (f : Frame) (S : Finset ℕ) : movers (dropW f S) = movers f \ S := by
  ext i
  simp only [mem_movers, dropW, List.mem_filter, decide_eq_true_eq, mem_sdiff]
  constructor
  · rintro ⟨r, ⟨hr, hS⟩, r', ⟨hr', -⟩, rfl, h1, h2⟩
    exact ⟨⟨r, hr, r', hr', rfl, h1, h2⟩, hS⟩
  · rintro ⟨⟨r, hr, r', hr', rfl, h1, h2⟩, hS⟩
    exact ⟨r, ⟨hr, hS⟩, r', ⟨hr', by rwa [h1]⟩, rfl, h1, h2⟩

theorem dropJ_eq (f : Frame) (V : Finset ℕ) : dropJ f (firms f \ V) = keepJ f V := by
  unfold dropJ keepJ
  refine List.filter_congr fun r hr => ?_
  have : r.j ∈ firms f := (mem_firms _ _).mpr ⟨r, hr, rfl⟩
  simp [this]

theorem sample_eq (bdf : Frame) (F S : Finset ℕ) : sample bdf (orNone F, orNone S) = dropW (dropJ bdf F) S := by
  unfold sample orNone
  have h1 : dropJ bdf ∅ = bdf := by simp [dropJ]
  have h2 : ∀ f : Frame, dropW f ∅ = f := by simp [dropW]
  by_cases hF : F = ∅ <;> by_cases hS : S = ∅ <;> simp [hF, hS, h1, h2]

theorem singleStayers_not_mover (f : Frame) : Disjoint (movers f) (singleStayers f) := by
  rw [Finset.disjoint_left]
  intro i hi h
  simp only [singleStayers, mem_filter] at h
  exact h.2.1 hi

/-! ## What is assumed of cleaning -/

/-- Cleaning invents no match of a worker and a firm. -/
def Env.CleanSub (e : Env) : Prop := ∀ p f r, e.clean p f = .ok r → ∀ x ∈ r, ∃ y ∈ f, y.i = x.i ∧ y.j = x.j

/-- Cleaning keeps a worker who moved between two firms that are kept: true of the largest connected set and of
leave-one-out connected sets, which are maximal. -/
def Env.CleanClosed (e : Env) : Prop := ∀ p f r, e.clean p f = .ok r → ∀ x ∈ f, ∀ y ∈ f, x.i = y.i → x.j ≠ y.j →
  x.j ∈ firms r → y.j ∈ firms r → x.i ∈ movers r

/-! ## Lemmas on the loops -/

theorem laterDrops_length (e : Env) (V : ℕ) : ∀ (ds : List ℝ) (t : ℕ) (S : Finset ℕ),
    (laterDrops e V t ds S).length = ds.length := by
  intro ds
  induction ds with
  | nil => intro t S; rfl
  | cons d ds ih => intro t S; simp [laterDrops, ih]

/-- One step of the loop only removes. -/
theorem step_sub (e : Env) (he : e.Draws) (V t : ℕ) (d : ℝ) (S : Finset ℕ) :
    (let n : ℤ := min (npRound (d * V)) #S
     if n = 0 then ∅ else if 0 < n ∧ n < #S then e.pick t S n.toNat else S) ⊆ S := by
  dsimp only
  split
  · exact empty_subset _
  · split
    · rename_i h
      exact (he t S _ (by omega)).1
    · exact Subset.rfl

theorem laterDrops_sub (e : Env) (he : e.Draws) (V : ℕ) : ∀ (ds : List ℝ) (t : ℕ) (S : Finset ℕ),
    ∀ T ∈ laterDrops e V t ds S, T ⊆ S := by
  intro ds
  induction ds with
  | nil => intro t S T hT; simp [laterDrops] at hT
  | cons d ds ih =>
    intro t S T hT
    have hs := step_sub e he V t d S
    simp only [laterDrops, List.mem_cons] at hT
    rcases hT with rfl | hT
    · exact hs
    · exact (ih _ _ T hT).trans hs

theorem laterDrops_nested (e : Env) (he : e.Draws) (V : ℕ) : ∀ (ds : List ℝ) (t : ℕ) (S : Finset ℕ),
    (laterDrops e V t ds S).Pairwise fun T T' => T' ⊆ T := by
  intro ds
  induction ds with
  | nil => intro t S; exact List.Pairwise.nil
  | cons d ds ih =>
    intro t S
    simp only [laterDrops, List.pairwise_cons]
    exact ⟨fun T hT => laterDrops_sub e he V ds _ _ T hT, ih _ _⟩

theorem step_card (e : Env) (he : e.Draws) (V t : ℕ) (d : ℝ) (hd : 0 ≤ d) (S : Finset ℕ) :
    (#(let n : ℤ := min (npRound (d * V)) #S
     if n = 0 then ∅ else if 0 < n ∧ n < #S then e.pick t S n.toNat else S) : ℤ) = min (npRound (d * V)) #S := by
  have h0 : 0 ≤ npRound (d * V) := npRound_nonneg (by positivity)
  dsimp only
  split
  · rename_i h
    rw [h]; rfl
  · split
    · rename_i h
      rw [(he t S _ (by omega)).2]
      omega
    · omega

/-- Sizes of the dropped sets: the rounded share of `V`, or all that can be dropped if that is less. -/
theorem laterDrops_card (e : Env) (he : e.Draws) (V : ℕ) : ∀ (ds : List ℝ), (∀ d ∈ ds, 0 ≤ d) →
    ds.Pairwise (fun a b => b ≤ a) → ∀ (t : ℕ) (S : Finset ℕ),
    (laterDrops e V t ds S).map (fun T => (#T : ℤ)) = ds.map fun d => min (npRound (d * V)) #S := by
  intro ds
  induction ds with
  | nil => intro _ _ t S; rfl
  | cons d ds ih =>
    intro hd hp t S
    rw [List.pairwise_cons] at hp
    have hc := step_card e he V t d (hd d (by simp)) S
    simp only [laterDrops, List.map_cons, List.cons.injEq]
    refine ⟨hc, ?_⟩
    rw [ih (fun x hx => hd x (by simp [hx])) hp.2]
    refine List.map_congr_left fun x hx => ?_
    dsimp only at hc ⊢
    rw [hc]
    have hm : npRound (x * V) ≤ npRound (d * V) :=
      npRound_mono (mul_le_mul_of_nonneg_right (hp.1 x hx) (Nat.cast_nonneg _))
    omega

theorem firstDraw_ok (e : Env) (he : e.Draws) (p : CleanParams) (bdf : Frame) (m : ℕ) (d : ℝ) (wid : Finset ℕ) (s1 : Frame) :
    ∀ n t, firstDraw e p bdf m d n t = .ok (wid, s1) →
      wid ⊆ movers bdf ∧ (#wid : ℤ) = npRound (d * #(movers bdf)) ∧ e.clean p (dropW bdf wid) = .ok s1 ∧ m ≤ #(firms s1) := by
  intro n
  induction n with
  | zero => intro t h; simp [firstDraw] at h
  | succ n ih =>
    intro t h
    unfold firstDraw at h
    cases hw : choice e t (movers bdf) (npRound (d * #(movers bdf))) with
    | error x => rw [hw] at h; cases h
    | ok w =>
      rw [hw] at h
      simp only [bind, Except.bind] at h
      unfold choice at hw
      split at hw
      · cases hw
      · rename_i hn
        simp only [Except.ok.injEq] at hw
        push Not at hn
        have hp := he t (movers bdf) (npRound (d * #(movers bdf))).toNat (by omega)
        rw [hw] at hp
        split at h
        · rename_i s hs
          split at h
          · rename_i hm
            simp only [Except.ok.injEq, Prod.mk.injEq] at h
            obtain ⟨rfl, rfl⟩ := h
            exact ⟨hp.1, by rw [hp.2]; omega, hs, hm⟩
          · split at h
            · cases h
            · exact ih _ h
        · split at h
          · split at h
            · cases h
            · exact ih _ h
          · cases h

/-! ## C47 -/

/-- What a successful call went through. -/
theorem genIncreasing_ok (a : Incr) (e : Env) (he : e.Draws) (bdf : Frame) (p p' : CleanParams) (l : List Subset)
    (h : genIncreasing a e bdf p = (.ok l, p')) :
    ∃ (wid : Finset ℕ) (s1 : Frame), wid ⊆ movers bdf ∧
      (#wid : ℤ) = npRound ((a.fracs.map fun f => 1 - f).headD 0 * #(movers bdf)) ∧
      (∃ q, e.clean q (dropW bdf wid) = .ok s1) ∧ a.minFirms ≤ #(firms s1) ∧
      l = (orNone (firms bdf \ firms s1), orNone (if p.dropSingle then wid ∪ singleStayers s1 else wid)) ::
        (laterDrops e #(movers (keepJ bdf (firms s1))) a.nDraws (a.fracs.map fun f => 1 - f).tail
          (movers (keepJ bdf (firms s1)) \ movers s1)).map fun S => (orNone (firms bdf \ firms s1),
            orNone (S ∪ if p.dropSingle then singleStayers (keepJ bdf (firms s1)) else ∅)) := by
  unfold genIncreasing at h
  split at h
  · cases h
  · dsimp only at h
    split at h
    · cases h
    · rename_i wid s1 hf
      obtain ⟨h1, h2, h3, h4⟩ := firstDraw_ok e he _ _ _ _ _ _ _ _ hf
      simp only [Prod.mk.injEq, Except.ok.injEq] at h
      exact ⟨wid, s1, h1, h2, ⟨_, h3⟩, h4, h.1.symm⟩

/-- C47: fractions are accepted exactly if there are at least two and they never fall. -/
theorem C47_fractions (fracs : List ℝ) (n m : ℕ) :
    ((∃ a, mkIncr fracs n m = .ok a) ↔ 2 ≤ fracs.length ∧ fracs.Pairwise (· ≤ ·)) ∧
    (∀ a, mkIncr fracs n m = .ok a → a.fracs = fracs ∧ a.nDraws = n ∧ a.minFirms = m) ∧
    ∀ x, mkIncr fracs n m = .error x → x = .value := by
  have hd : ∀ l : List ℝ, npDiff l = [] ↔ l.length < 2 := by
    intro l
    match l with
    | [] => simp [npDiff]
    | [a] => simp [npDiff]
    | a :: b :: l => simp [npDiff]
  have hp : ∀ l : List ℝ, (∀ d ∈ npDiff l, 0 ≤ d) ↔ l.Pairwise (· ≤ ·) := by
    intro l
    induction l with
    | nil => simp [npDiff]
    | cons a l ih =>
      cases l with
      | nil => simp [npDiff]
      | cons b l =>
        simp only [npDiff, List.mem_cons, forall_eq_or_imp, sub_nonneg]
        rw [ih]
        constructor
        · rintro ⟨h1, h2⟩
          rw [List.pairwise_cons]
          refine ⟨fun x hx => ?_, h2⟩
          rw [List.mem_cons] at hx
          rcases hx with rfl | hx
          · exact h1
          · exact h1.trans ((List.pairwise_cons.mp h2).1 x hx)
        · intro h
          rw [List.pairwise_cons] at h
          exact ⟨h.1 b (by simp), h.2⟩
  unfold mkIncr
  simp only [hd, hp]
  refine ⟨?_, ?_, ?_⟩
  · constructor
    · rintro ⟨a, h⟩
      split at h
      · cases h
      · split at h
        · exact ⟨by omega, by assumption⟩
        · cases h
    · rintro ⟨h1, h2⟩
      exact ⟨_, by rw [if_neg (by omega), if_pos h2]⟩
  · intro a h
    split at h
    · cases h
    · split at h
      · simp only [Except.ok.injEq] at h
        rw [← h]
        exact ⟨rfl, rfl, rfl⟩
      · cases h
  · intro x h
    split at h
    · cases h; rfl
    · split at h
      · cases h
      · cases h; rfl

/-- C47: one subset per fraction, and all of them keep the same firms. -/
theorem C47_one_per_fraction (a : Incr) (e : Env) (he : e.Draws) (bdf : Frame) (p p' : CleanParams) (l : List Subset)
    (ha : a.fracs ≠ []) (h : genIncreasing a e bdf p = (.ok l, p')) :
    l.length = a.fracs.length ∧ ∀ s ∈ l, ∀ s' ∈ l, s.1 = s'.1 := by
  obtain ⟨wid, s1, -, -, -, -, rfl⟩ := genIncreasing_ok a e he bdf p p' l h
  constructor
  · rw [List.length_cons, List.length_map, laterDrops_length, List.length_tail, List.length_map]
    have := List.length_pos_iff.mpr ha
    omega
  · have key : ∀ s ∈ ((orNone (firms bdf \ firms s1), orNone (if p.dropSingle then wid ∪ singleStayers s1 else wid)) ::
        (laterDrops e #(movers (keepJ bdf (firms s1))) a.nDraws (a.fracs.map fun f => 1 - f).tail
          (movers (keepJ bdf (firms s1)) \ movers s1)).map fun S => (orNone (firms bdf \ firms s1),
            orNone (S ∪ if p.dropSingle then singleStayers (keepJ bdf (firms s1)) else ∅)) : List Subset),
        s.1 = orNone (firms bdf \ firms s1) := by
      intro s hs
      rw [List.mem_cons] at hs
      rcases hs with rfl | hs
      · rfl
      · obtain ⟨T, -, rfl⟩ := List.mem_map.mp hs
        rfl
    intro s hs s' hs'
    rw [key s hs, key s' hs']

/-- Movers of the first sample. -/
theorem first_movers (e : Env) (hsub : e.CleanSub) (hcl : e.CleanClosed) (bdf : Frame) (q : CleanParams)
    (wid : Finset ℕ) (s1 : Frame) (hc : e.clean q (dropW bdf wid) = .ok s1) (b : Bool) :
    movers (sample bdf (orNone (firms bdf \ firms s1), orNone (if b then wid ∪ singleStayers s1 else wid))) = movers s1 ∧
    movers s1 ⊆ movers (keepJ bdf (firms s1)) := by
  have hin : movers s1 ⊆ movers (keepJ bdf (firms s1)) ∧ Disjoint (movers s1) wid := by
    constructor
    · intro i hi
      obtain ⟨r, hr, r', hr', hi1, hi2, hne⟩ := (mem_movers _ _).mp hi
      obtain ⟨y, hy, hy1, hy2⟩ := hsub _ _ _ hc r hr
      obtain ⟨y', hy', hy1', hy2'⟩ := hsub _ _ _ hc r' hr'
      simp only [dropW, List.mem_filter] at hy hy'
      refine (mem_movers _ _).mpr ⟨y, ?_, y', ?_, by rw [hy1, hi1], by rw [hy1', hi2], by rw [hy2, hy2']; exact hne⟩
      · simp only [keepJ, List.mem_filter, decide_eq_true_eq]
        exact ⟨hy.1, by rw [hy2]; exact (mem_firms _ _).mpr ⟨r, hr, rfl⟩⟩
      · simp only [keepJ, List.mem_filter, decide_eq_true_eq]
        exact ⟨hy'.1, by rw [hy2']; exact (mem_firms _ _).mpr ⟨r', hr', rfl⟩⟩
    · rw [Finset.disjoint_left]
      intro i hi hw
      obtain ⟨r, hr, -, -, hi1, -, -⟩ := (mem_movers _ _).mp hi
      obtain ⟨y, hy, hy1, -⟩ := hsub _ _ _ hc r hr
      simp only [dropW, List.mem_filter, decide_eq_true_eq] at hy
      exact hy.2 (by rw [hy1, hi1]; exact hw)
  refine ⟨?_, hin.1⟩
  rw [sample_eq, dropJ_eq, movers_dropW]
  have hout : movers (keepJ bdf (firms s1)) \ wid ⊆ movers s1 := by
    intro i hi
    rw [mem_sdiff] at hi
    obtain ⟨r, hr, r', hr', hi1, hi2, hne⟩ := (mem_movers _ _).mp hi.1
    simp only [keepJ, List.mem_filter, decide_eq_true_eq] at hr hr'
    have := hcl _ _ _ hc r (by simp only [dropW, List.mem_filter, decide_eq_true_eq]; exact ⟨hr.1, by rw [hi1]; exact hi.2⟩)
      r' (by simp only [dropW, List.mem_filter, decide_eq_true_eq]; exact ⟨hr'.1, by rw [hi2]; exact hi.2⟩)
      (by rw [hi1, hi2]) hne hr.2 hr'.2
    rwa [hi1] at this
  have hss := singleStayers_not_mover s1
  ext i
  rw [mem_sdiff]
  constructor
  · rintro ⟨h1, h2⟩
    refine hout (mem_sdiff.mpr ⟨h1, fun hw => h2 ?_⟩)
    cases b
    · exact hw
    · exact mem_union_left _ hw
  · intro hi
    refine ⟨hin.1 hi, ?_⟩
    cases b
    · exact Finset.disjoint_left.mp hin.2 hi
    · simp only [if_true, mem_union, not_or]
      exact ⟨Finset.disjoint_left.mp hin.2 hi, Finset.disjoint_left.mp hss hi⟩

theorem later_movers (bdf : Frame) (s1 : Frame) (S : Finset ℕ) (b : Bool) :
    movers (sample bdf (orNone (firms bdf \ firms s1),
      orNone (S ∪ if b then singleStayers (keepJ bdf (firms s1)) else ∅))) = movers (keepJ bdf (firms s1)) \ S := by
  rw [sample_eq, dropJ_eq, movers_dropW]
  have hss := singleStayers_not_mover (keepJ bdf (firms s1))
  ext i
  rw [mem_sdiff, mem_sdiff]
  constructor
  · rintro ⟨h1, h2⟩
    exact ⟨h1, fun hS => h2 (mem_union_left _ hS)⟩
  · rintro ⟨h1, h2⟩
    refine ⟨h1, ?_⟩
    rw [mem_union, not_or]
    refine ⟨h2, ?_⟩
    cases b
    · simp
    · exact Finset.disjoint_left.mp hss h1

/-- C47: samples are nested: the movers of each sample are movers of every later one. -/
theorem C47_nested (a : Incr) (e : Env) (he : e.Draws) (hsub : e.CleanSub) (hcl : e.CleanClosed) (bdf : Frame)
    (p p' : CleanParams) (l : List Subset) (h : genIncreasing a e bdf p = (.ok l, p')) :
    (l.map fun s => movers (sample bdf s)).Pairwise (· ⊆ ·) := by
  obtain ⟨wid, s1, -, -, ⟨q, hc⟩, -, rfl⟩ := genIncreasing_ok a e he bdf p p' l h
  obtain ⟨h1, h2⟩ := first_movers e hsub hcl bdf q wid s1 hc p.dropSingle
  rw [List.map_cons, h1, List.map_map, List.pairwise_cons]
  constructor
  · intro M hM
    obtain ⟨T, hT, rfl⟩ := List.mem_map.mp hM
    simp only [Function.comp_apply, later_movers]
    have := laterDrops_sub e he _ _ _ _ T hT
    intro i hi
    rw [mem_sdiff]
    exact ⟨h2 hi, fun hiT => (mem_sdiff.mp (this hiT)).2 hi⟩
  · rw [List.pairwise_map]
    refine (laterDrops_nested e he _ _ _ _).imp fun {T T'} hT => ?_
    simp only [Function.comp_apply, later_movers]
    exact sdiff_subset_sdiff Subset.rfl hT

/-- C47: sizes.  The first sample drops the rounded share `1 - f₀` of all movers and keeps `D` of them.  Every later
sample keeps, among the `V` workers who moved between the firms of the first sample, all but the rounded share
`1 - f`, and never fewer than the `D` of the first sample. -/
theorem C47_sizes (a : Incr) (e : Env) (he : e.Draws) (hsub : e.CleanSub) (hcl : e.CleanClosed) (bdf : Frame)
    (p p' : CleanParams) (l : List Subset) (h : genIncreasing a e bdf p = (.ok l, p')) (f0 : ℝ) (fs : List ℝ)
    (hf : a.fracs = f0 :: fs) (h1 : ∀ f ∈ fs, f ≤ 1) (hinc : a.fracs.Pairwise (· ≤ ·)) :
    ∃ (wid : Finset ℕ) (V D : ℕ) (s0 : Subset) (ss : List Subset), l = s0 :: ss ∧ D ≤ V ∧
      wid ⊆ movers bdf ∧ (#wid : ℤ) = npRound ((1 - f0) * #(movers bdf)) ∧
      movers (sample bdf s0) ⊆ movers bdf \ wid ∧ #(movers (sample bdf s0)) = D ∧
      ss.map (fun s => (#(movers (sample bdf s)) : ℤ)) = fs.map fun f => max (V - npRound ((1 - f) * V)) D := by
  obtain ⟨wid, s1, hw1, hw2, ⟨q, hc⟩, -, rfl⟩ := genIncreasing_ok a e he bdf p p' l h
  obtain ⟨e1, e2⟩ := first_movers e hsub hcl bdf q wid s1 hc p.dropSingle
  refine ⟨wid, #(movers (keepJ bdf (firms s1))), #(movers s1), _, _, rfl, card_le_card e2, hw1, ?_, ?_, ?_, ?_⟩
  · rw [hw2, hf]; rfl
  · rw [e1]
    intro i hi
    obtain ⟨r, hr, r', hr', hi1, hi2, hne⟩ := (mem_movers _ _).mp hi
    obtain ⟨y, hy, hy1, hy2⟩ := hsub _ _ _ hc r hr
    obtain ⟨y', hy', hy1', hy2'⟩ := hsub _ _ _ hc r' hr'
    rw [← movers_dropW]
    exact (mem_movers _ _).mpr ⟨y, hy, y', hy', by rw [hy1, hi1], by rw [hy1', hi2], by rw [hy2, hy2']; exact hne⟩
  · rw [e1]
  · rw [hf, List.map_cons, List.tail_cons, List.map_map]
    set V := movers (keepJ bdf (firms s1)) with hV
    set S := V \ movers s1 with hS
    have hSc : #S = #V - #(movers s1) := card_sdiff_of_subset e2
    have hle := card_le_card e2
    rw [hf, List.pairwise_cons] at hinc
    have hcard := laterDrops_card e he #V (fs.map fun f => 1 - f) (by
      intro d hd
      obtain ⟨f, hf', rfl⟩ := List.mem_map.mp hd
      linarith [h1 f hf']) (by
      rw [List.pairwise_map]
      exact hinc.2.imp fun {x y} hxy => by linarith) a.nDraws S
    have hfun : ∀ T ∈ laterDrops e #V a.nDraws (fs.map fun f => 1 - f) S,
        ((fun s => (#(movers (sample bdf s)) : ℤ)) ∘ fun T => (orNone (firms bdf \ firms s1),
          orNone (T ∪ if p.dropSingle then singleStayers (keepJ bdf (firms s1)) else ∅))) T =
        (fun z : ℤ => #V - z) ((fun T => (#T : ℤ)) T) := by
      intro T hT
      simp only [Function.comp_apply, later_movers]
      have hTV : T ⊆ V := (laterDrops_sub e he _ _ _ _ T hT).trans sdiff_subset
      rw [card_sdiff_of_subset hTV]
      have := card_le_card hTV
      omega
    rw [List.map_congr_left hfun, ← Function.comp_def, ← List.map_map, hcard, List.map_map, List.map_map]
    refine List.map_congr_left fun f hf' => ?_
    simp only [Function.comp_apply]
    omega

/-- C47: after a successful call the cleaning parameters are as before, apart from the two entries that
`Attrition` itself sets to the same values.  Missing: a call that raises (`C47_parameters_lost`). -/
theorem C47_parameters_partial (a : Incr) (e : Env) (bdf : Frame) (p p' : CleanParams) (l : List Subset)
    (h : genIncreasing a e bdf p = (.ok l, p')) : p' = { p with isSorted := true, copy := false } := by
  unfold genIncreasing at h
  split at h
  · cases h
  · dsimp only at h
    split at h
    · cases h
    · simp only [Prod.mk.injEq] at h
      rw [← h.2]

/-- C47 fails for a call that raises after the first check: the parameters stay set to keep single stayers. -/
theorem C47_parameters_lost (a : Incr) (e : Env) (bdf : Frame) (p p' : CleanParams) (x : Exc)
    (hp : p.dropSingle = true) (hn : a.minFirms ≤ #(firms bdf)) (h : genIncreasing a e bdf p = (.error x, p')) :
    p'.dropSingle = false ∧ p' ≠ { p with isSorted := true, copy := false } := by
  unfold genIncreasing at h
  rw [if_neg (by omega)] at h
  dsimp only at h
  split at h
  · simp only [Prod.mk.injEq] at h
    rw [← h.2]
    refine ⟨rfl, fun h' => ?_⟩
    have := congrArg CleanParams.dropSingle h'
    simp [hp] at this
  · cases h

/-- The closedness assumed of cleaning is needed: if cleaning drops a mover between two firms it keeps, that worker is
in the first sample (which is cleaned again without looking at connectedness) and may be missing from the second. -/
theorem C47_nested_needs_closed : ∃ (a : Incr) (e : Env) (bdf : Frame) (p p' : CleanParams) (s s' : Subset),
    e.Draws ∧ e.CleanSub ∧ genIncreasing a e bdf p = (.ok [s, s'], p') ∧
    ¬ movers (sample bdf s) ⊆ movers (sample bdf s') := by
  have hex : ∀ (S : Finset ℕ) (n : ℕ), ∃ T : Finset ℕ, n ≤ #S → T ⊆ S ∧ #T = n := by
    intro S n
    by_cases h : n ≤ #S
    · obtain ⟨T, h1, h2⟩ := exists_subset_card_eq h
      exact ⟨T, fun _ => ⟨h1, h2⟩⟩
    · exact ⟨∅, fun h' => absurd h' h⟩
  choose pick hpick using hex
  let e : Env := ⟨fun _ S n => if S = {1} ∧ n = 1 then {1} else pick S n,
    fun _ f => .ok (f.filter fun r => r.i = 0)⟩
  have hdr : e.Draws := by
    intro t S n hn
    show (if S = {1} ∧ n = 1 then {1} else pick S n) ⊆ S ∧ #(if S = {1} ∧ n = 1 then {1} else pick S n) = n
    split
    · rename_i h
      rw [h.1, h.2]
      simp
    · exact hpick S n hn
  have hr0 : npRound 0 = 0 := by simpa using npRound_int 0
  have hr1 : npRound 1 = 1 := by simpa using npRound_int 1
  have hp0 : pick {0, 1} 0 = ∅ := card_eq_zero.mp (hpick {0, 1} 0 (Nat.zero_le _)).2
  let bdf : Frame := [⟨0, 0, 1⟩, ⟨0, 1, 1⟩, ⟨1, 0, 1⟩, ⟨1, 1, 1⟩]
  have hmov : movers bdf = {0, 1} := by decide
  have hfir : firms bdf = {0, 1} := by decide
  have hfd : firstDraw e ⟨true, false, false, none, 0⟩ bdf 2 0 1 0 = .ok (∅, [⟨0, 0, 1⟩, ⟨0, 1, 1⟩]) := by
    have hpe : e.pick 0 {0, 1} 0 = ∅ := by
      show (if ({0, 1} : Finset ℕ) = {1} ∧ 0 = 1 then {1} else pick {0, 1} 0) = ∅
      rw [if_neg (by simp), hp0]
    have hdw : dropW bdf ∅ = bdf := by simp [dropW]
    have hcl : e.clean ⟨true, false, false, none, 0⟩ bdf = .ok [⟨0, 0, 1⟩, ⟨0, 1, 1⟩] := by
      show Except.ok (bdf.filter fun r => decide (r.i = 0)) = _
      simp [bdf]
    have hf1 : firms [⟨0, 0, 1⟩, ⟨0, 1, 1⟩] = {0, 1} := by decide
    unfold firstDraw
    simp only [choice, zero_mul, hr0, hmov, lt_irrefl, false_or, bind, Except.bind]
    simp [hpe, hdw, hcl, hf1]
  have hgen : genIncreasing ⟨[1, 1 / 2], 1, 2⟩ e bdf ⟨true, false, false, none, 0⟩ =
      (.ok [(none, none), (none, some {1})], ⟨true, false, false, none, 0⟩) := by
    have hk : keepJ bdf {0, 1} = bdf := by simp [keepJ, bdf]
    have hm1 : movers [⟨0, 0, 1⟩, ⟨0, 1, 1⟩] = {0} := by decide
    have hf1 : firms [⟨0, 0, 1⟩, ⟨0, 1, 1⟩] = {0, 1} := by decide
    have hsd : ({0, 1} : Finset ℕ) \ {0} = {1} := by decide
    have h12 : (1 - 1 / 2) * ((2 : ℕ) : ℝ) = 1 := by norm_num
    unfold genIncreasing
    rw [if_neg (by rw [hfir]; simp)]
    simp only [List.map_cons, List.map_nil, sub_self, List.headD_cons, hfd, Bool.false_eq_true, if_false, hf1, hfir, hk,
      hm1, hmov, hsd, List.tail_cons, laterDrops]
    have hc2 : #({0, 1} : Finset ℕ) = 2 := by decide
    rw [hc2, h12, hr1]
    simp [orNone]
  refine ⟨_, e, bdf, _, _, _, _, hdr, ?_, hgen, ?_⟩
  · intro p f r hr x hx
    have hr' : f.filter (fun r => decide (r.i = 0)) = r := by
      simpa using (Except.ok.inj hr)
    rw [← hr', List.mem_filter] at hx
    exact ⟨x, hx.1, rfl, rfl⟩
  · have h1 : movers (sample bdf (none, none)) = {0, 1} := hmov
    have h2 : movers (sample bdf (none, some {1})) = {0} := by
      show movers (dropW bdf {1}) = {0}
      rw [movers_dropW, hmov]
      decide
    rw [h1, h2]
    decide

/-- The assumptions can be met: cleaning that changes nothing is closed and invents nothing, and subsets of any size
can be drawn. -/
example : ∃ e : Env, e.Draws ∧ e.CleanSub ∧ e.CleanClosed := by
  have hex : ∀ (S : Finset ℕ) (n : ℕ), ∃ T : Finset ℕ, n ≤ #S → T ⊆ S ∧ #T = n := by
    intro S n
    by_cases h : n ≤ #S
    · obtain ⟨T, h1, h2⟩ := exists_subset_card_eq h
      exact ⟨T, fun _ => ⟨h1, h2⟩⟩
    · exact ⟨∅, fun h' => absurd h' h⟩
  choose pick hpick using hex
  refine ⟨⟨fun _ => pick, fun _ f => .ok f⟩, fun _ S n hn => hpick S n hn, ?_, ?_⟩
  · intro p f r hr x hx
    have : f = r := by simpa using hr
    exact ⟨x, by rwa [this], rfl, rfl⟩
  · intro p f r hr x hx y hy h1 h2 _ _
    have : f = r := by simpa using hr
    rw [← this]
    exact (mem_movers _ _).mpr ⟨x, hx, y, hy, rfl, h1.symm, h2⟩

/-- A call that raises after the first check: cleaning fails on every draw. -/
example (e : Env) (hc : ∀ p f, e.clean p f = .error .value) (bdf : Frame) (p : CleanParams) :
    ∃ x p', genIncreasing ⟨[1, 1], 5, 0⟩ e bdf p = (.error x, p') := by
  unfold genIncreasing
  rw [if_neg (by simp)]
  have : ∀ q n t, ∃ x, firstDraw e q bdf 0 0 n t = .error x := by
    intro q n
    induction n with
    | zero => intro t; exact ⟨_, rfl⟩
    | succ n ih =>
      intro t
      unfold firstDraw
      cases choice e t (movers bdf) (npRound (0 * #(movers bdf))) with
      | error x => exact ⟨x, rfl⟩
      | ok w =>
        simp only [bind, Except.bind, hc, if_true]
        split
        · exact ⟨_, rfl⟩
        · exact ih _
  obtain ⟨x, hx⟩ := this { p with isSorted := true, copy := false, dropSingle := false } 5 0
  refine ⟨x, { p with isSorted := true, copy := false, dropSingle := false }, ?_⟩
  simp only [List.map_cons, List.map_nil, sub_self, List.headD_cons, hx]

/-! ## C80: decreasing attrition -/

theorem decrLoop_spec (e : Env) (he : e.Draws) (N : Finset ℕ) : ∀ (fs : List ℝ) (t : ℕ) (prev : ℝ) (left dropped : Finset ℕ),
    left = N \ dropped → dropped ⊆ N →
    (decrLoop e t prev fs left dropped).length = fs.length ∧
    (∀ D ∈ decrLoop e t prev fs left dropped, dropped ⊆ D ∧ D ⊆ N) ∧
    (decrLoop e t prev fs left dropped).Pairwise (· ⊆ ·) := by
  intro fs
  induction fs with
  | nil => intro t prev left dropped _ _; simp [decrLoop]
  | cons f fs ih =>
    intro t prev left dropped hl hd
    simp only [decrLoop]
    set w := (if 0 < 1 - f / prev ∧ 0 < min (npRound ((1 - f / prev) * #left)) (#left : ℤ) then
      e.pick t left (min (npRound ((1 - f / prev) * #left)) (#left : ℤ)).toNat else ∅) with hw
    have hwl : w ⊆ left := by
      rw [hw]
      split
      · exact (he t left _ (by omega)).1
      · exact empty_subset _
    have hl' : left \ w = N \ (dropped ∪ w) := by
      rw [hl, sdiff_sdiff_left]
      rfl
    have hd' : dropped ∪ w ⊆ N := union_subset hd (hwl.trans (by rw [hl]; exact sdiff_subset))
    obtain ⟨h1, h2, h3⟩ := ih (t + 1) f (left \ w) (dropped ∪ w) hl' hd'
    refine ⟨by rw [List.length_cons, List.length_cons, h1], ?_, ?_⟩
    · intro D hD
      rw [List.mem_cons] at hD
      rcases hD with rfl | hD
      · exact ⟨subset_union_left, hd'⟩
      · exact ⟨subset_union_left.trans (h2 D hD).1, (h2 D hD).2⟩
    · rw [List.pairwise_cons]
      exact ⟨fun D hD => (h2 D hD).1, h3⟩

theorem decr_sample (bdf : Frame) (D : Finset ℕ) : movers (sample bdf (none, orNone D)) = movers bdf \ D := by
  have h : sample bdf (none, orNone D) = dropW bdf D := by
    unfold sample orNone
    by_cases hD : D = ∅
    · simp [hD, dropW]
    · simp [hD]
  rw [h, movers_dropW]

/-- C80: one subset per fraction, no firms are dropped, only movers are, and each sample's movers contain the
next one's. -/
theorem C80_nested (fracs : List ℝ) (e : Env) (he : e.Draws) (bdf : Frame) :
    (genDecreasing fracs e bdf).length = fracs.length ∧
    (∀ s ∈ genDecreasing fracs e bdf, s.1 = none ∧ s.2.getD ∅ ⊆ movers bdf) ∧
    ((genDecreasing fracs e bdf).map fun s => movers (sample bdf s)).Pairwise (· ⊇ ·) := by
  obtain ⟨h1, h2, h3⟩ := decrLoop_spec e he (movers bdf) fracs 0 1 (movers bdf) ∅ (by simp) (by simp)
  unfold genDecreasing
  refine ⟨by rw [List.length_map, h1], ?_, ?_⟩
  · intro s hs
    obtain ⟨D, hD, rfl⟩ := List.mem_map.mp hs
    refine ⟨rfl, ?_⟩
    unfold orNone
    dsimp only
    split
    · simp
    · exact (h2 D hD).2
  · rw [List.map_map, List.pairwise_map]
    refine h3.imp fun {D D'} h => ?_
    simp only [Function.comp_apply, decr_sample]
    exact sdiff_subset_sdiff Subset.rfl h

theorem decrLoop_size (e : Env) (he : e.Draws) (N : Finset ℕ) : ∀ (fs : List ℝ) (t : ℕ) (prev c : ℝ)
    (left dropped : Finset ℕ), left = N \ dropped → dropped ⊆ N → 0 < prev → (∀ f ∈ fs, 0 < f) →
    (prev :: fs).Pairwise (fun a b => b ≤ a) → |(#left : ℝ) - prev * #N| ≤ c →
    ∀ (k : ℕ) (hk : k < fs.length) (D : Finset ℕ), (decrLoop e t prev fs left dropped)[k]? = some D →
      |(#(N \ D) : ℝ) - fs[k] * #N| ≤ c + (k + 1) / 2 := by
  intro fs
  induction fs with
  | nil => intro _ _ _ _ _ _ _ _ _ _ _ k hk; simp at hk
  | cons f fs ih =>
    intro t prev c left dropped hl hd hprev hpos hdec hc k hk D hD
    simp only [decrLoop] at hD
    set w := (if 0 < 1 - f / prev ∧ 0 < min (npRound ((1 - f / prev) * #left)) (#left : ℤ) then
      e.pick t left (min (npRound ((1 - f / prev) * #left)) (#left : ℤ)).toNat else ∅) with hw
    have hf0 : 0 < f := hpos f (by simp)
    have hfp : f ≤ prev := (List.pairwise_cons.mp hdec).1 f (by simp)
    have hd0 : 0 ≤ 1 - f / prev := by
      rw [sub_nonneg, div_le_one hprev]
      exact hfp
    have hd1 : 1 - f / prev ≤ 1 := by
      have := div_pos hf0 hprev
      linarith
    have hr0 : 0 ≤ npRound ((1 - f / prev) * #left) := npRound_nonneg (by positivity)
    have hr1 : npRound ((1 - f / prev) * #left) ≤ #left :=
      npRound_le_nat (by
        have := mul_le_mul_of_nonneg_right hd1 (Nat.cast_nonneg (α := ℝ) #left)
        linarith)
    have hwc : w ⊆ left ∧ (#w : ℤ) = npRound ((1 - f / prev) * #left) := by
      rw [hw]
      split
      · rename_i h
        have := he t left (min (npRound ((1 - f / prev) * #left)) (#left : ℤ)).toNat (by omega)
        exact ⟨this.1, by rw [this.2]; omega⟩
      · rename_i h
        refine ⟨empty_subset _, ?_⟩
        rcases hd0.lt_or_eq with h1 | h1
        · have : ¬ 0 < min (npRound ((1 - f / prev) * #left)) (#left : ℤ) := fun h2 => h ⟨h1, h2⟩
          simp only [card_empty, Nat.cast_zero]
          omega
        · rw [← h1, zero_mul]
          have := npRound_int 0
          simp only [Int.cast_zero] at this
          rw [this]
          rfl
    have hl' : left \ w = N \ (dropped ∪ w) := by
      rw [hl, sdiff_sdiff_left]
      rfl
    have hd' : dropped ∪ w ⊆ N := union_subset hd (hwc.1.trans (by rw [hl]; exact sdiff_subset))
    have hcard : (#(left \ w) : ℝ) = #left - npRound ((1 - f / prev) * #left) := by
      rw [card_sdiff_of_subset hwc.1, Nat.cast_sub (card_le_card hwc.1), ← hwc.2]
      simp
    have hnear := npRound_near ((1 - f / prev) * #left)
    have hstep : |(#(left \ w) : ℝ) - f * #N| ≤ c + 1 / 2 := by
      have e1 : (#(left \ w) : ℝ) - f * #N = f / prev * (#left - prev * #N) -
          ((npRound ((1 - f / prev) * #left) : ℝ) - (1 - f / prev) * #left) := by
        rw [hcard]
        field_simp
        ring
      rw [e1]
      refine (abs_sub _ _).trans ?_
      have h2 : |f / prev * ((#left : ℝ) - prev * #N)| ≤ c := by
        rw [abs_mul, abs_of_pos (div_pos hf0 hprev)]
        have : f / prev ≤ 1 := (div_le_one hprev).mpr hfp
        calc f / prev * |(#left : ℝ) - prev * #N| ≤ 1 * |(#left : ℝ) - prev * #N| :=
              mul_le_mul_of_nonneg_right this (abs_nonneg _)
          _ ≤ c := by rw [one_mul]; exact hc
      linarith
    cases k with
    | zero =>
      simp only [List.getElem?_cons_zero, Option.some.injEq] at hD
      rw [← hD, ← hl']
      simpa using hstep
    | succ k =>
      simp only [List.getElem?_cons_succ] at hD
      have := ih (t + 1) f (c + 1 / 2) (left \ w) (dropped ∪ w) hl' hd' hf0
        (fun x hx => hpos x (by simp [hx])) (List.pairwise_cons.mp hdec).2 hstep k (by simpa using hk) D hD
      simp only [List.getElem_cons_succ]
      refine this.trans (le_of_eq ?_)
      push_cast
      ring

/-- C80: the `k`-th sample's number of movers differs from the requested share of all movers by rounding only, at most
half a worker per step. -/
theorem C80_sizes (fracs : List ℝ) (e : Env) (he : e.Draws) (bdf : Frame) (hpos : ∀ f ∈ fracs, 0 < f ∧ f ≤ 1)
    (hdec : fracs.Pairwise fun a b => b ≤ a) (k : ℕ) (hk : k < fracs.length) (s : Subset)
    (hs : (genDecreasing fracs e bdf)[k]? = some s) :
    |(#(movers (sample bdf s)) : ℝ) - fracs[k] * #(movers bdf)| ≤ (k + 1) / 2 := by
  unfold genDecreasing at hs
  rw [List.getElem?_map] at hs
  obtain ⟨D, hD, rfl⟩ := Option.map_eq_some_iff.mp hs
  rw [decr_sample]
  have := decrLoop_size e he (movers bdf) fracs 0 1 0 (movers bdf) ∅ (by simp) (by simp) one_pos
    (fun f hf => (hpos f hf).1) (List.pairwise_cons.mpr ⟨fun f hf => (hpos f hf).2, hdec⟩) (by simp) k hk D hD
  simpa using this

/-- C80: fractions are accepted exactly if there are at least two and they never rise. -/
theorem C80_fractions (fracs : List ℝ) :
    ((∃ l, mkDecr fracs = .ok l) ↔ 2 ≤ fracs.length ∧ fracs.Pairwise fun a b => b ≤ a) ∧
    (∀ l, mkDecr fracs = .ok l → l = fracs) ∧ ∀ x, mkDecr fracs = .error x → x = .value := by
  have hd : ∀ l : List ℝ, npDiff l = [] ↔ l.length < 2 := by
    intro l
    match l with
    | [] => simp [npDiff]
    | [a] => simp [npDiff]
    | a :: b :: l => simp [npDiff]
  have hp : ∀ l : List ℝ, (∀ d ∈ npDiff l, d ≤ 0) ↔ l.Pairwise fun a b => b ≤ a := by
    intro l
    induction l with
    | nil => simp [npDiff]
    | cons a l ih =>
      cases l with
      | nil => simp [npDiff]
      | cons b l =>
        simp only [npDiff, List.mem_cons, forall_eq_or_imp, sub_nonpos]
        rw [ih]
        constructor
        · rintro ⟨h1, h2⟩
          rw [List.pairwise_cons]
          refine ⟨fun x hx => ?_, h2⟩
          rw [List.mem_cons] at hx
          rcases hx with rfl | hx
          · exact h1
          · exact ((List.pairwise_cons.mp h2).1 x hx).trans h1
        · intro h
          rw [List.pairwise_cons] at h
          exact ⟨h.1 b (by simp), h.2⟩
  unfold mkDecr
  simp only [hd, hp]
  refine ⟨?_, ?_, ?_⟩
  · constructor
    · rintro ⟨a, h⟩
      split at h
      · cases h
      · split at h
        · exact ⟨by omega, by assumption⟩
        · cases h
    · rintro ⟨h1, h2⟩
      exact ⟨_, by rw [if_neg (by omega), if_pos h2]⟩
  · intro l h
    split at h
    · cases h
    · split at h
      · simp only [Except.ok.injEq] at h
        exact h.symm
      · cases h
  · intro x h
    split at h
    · cases h; rfl
    · split at h
      · cases h
      · cases h; rfl

/-- Fractions that are accepted. -/
example : ∃ l, mkDecr [1 / 2, 1 / 4] = .ok l :=
  (C80_fractions _).1.mpr ⟨by simp, by simp; norm_num⟩

end Pytwoway.Attrition
