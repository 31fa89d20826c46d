import Verif.FEControl.Model
import Verif.FE.Lemmas

/-! # Helper lemmas for the estimator with controls -/

namespace Pytwoway.FEControl

open scoped BigOperators

variable {n m nw : ℕ}

/-! ## Dictionaries and ranges -/

theorem dset_fresh {β : Type*} (d : List (String × β)) (k : String) (v : β) (h : k ∉ d.map (·.1)) :
    dset d k v = d ++ [(k, v)] := by
  induction d with
  | nil => rfl
  | cons a t ih =>
    obtain ⟨a1, a2⟩ := a
    simp only [List.map_cons, List.mem_cons, not_or] at h
    simp only [dset, if_neg (Ne.symm h.1), List.cons_append, ih h.2]

theorem dget_append_of_not_mem {β : Type*} (l r : List (String × β)) (k : String) (h : k ∉ l.map (·.1)) :
    dget (l ++ r) k = dget r k := by
  induction l with
  | nil => rfl
  | cons a t ih =>
    obtain ⟨a1, a2⟩ := a
    simp only [List.map_cons, List.mem_cons, not_or] at h
    have : (k == a1) = false := by simpa using h.1
    simp only [dget, List.cons_append, List.lookup_cons, this] at ih ⊢
    exact ih h.2

theorem dget_cons_self {β : Type*} (r : List (String × β)) (k : String) (v : β) :
    dget ((k, v) :: r) k = some v := by simp [dget]

/-- Consecutive ranges of the given sizes. -/
def ranges : ℕ → List (String × ℕ) → List (String × (ℕ × ℕ))
  | _, [] => []
  | s, (nm, k) :: t => (nm, (s, s + k)) :: ranges (s + k) t

theorem ranges_names (s : ℕ) (l : List (String × ℕ)) : (ranges s l).map (·.1) = l.map (·.1) := by
  induction l generalizing s with
  | nil => rfl
  | cons a t ih => simp [ranges, ih]

theorem ranges_append (s : ℕ) (l r : List (String × ℕ)) :
    ranges s (l ++ r) = ranges s l ++ ranges (s + (l.map (·.2)).sum) r := by
  induction l generalizing s with
  | nil => simp [ranges]
  | cons a t ih => simp [ranges, ih, Nat.add_assoc]

theorem dget_ranges (s : ℕ) (pre post : List (String × ℕ)) (nm : String) (k : ℕ)
    (h : nm ∉ pre.map (·.1)) :
    dget (ranges s (pre ++ (nm, k) :: post)) nm
      = some (s + (pre.map (·.2)).sum, s + (pre.map (·.2)).sum + k) := by
  rw [ranges_append, dget_append_of_not_mem _ _ _ (by rwa [ranges_names])]
  simp [ranges, dget_cons_self]

/-! ## Covariates -/

/-- A covariate of the regression. -/
inductive Cov (n : ℕ) | firm | worker | cat (c : Cat n) | cts (c : Cts n)

namespace CData

variable (d : CData n m nw)

/-- All covariates in the order of the columns of `A`. -/
def covs : List (Cov n) := .firm :: .worker :: (d.cats.map .cat ++ d.cts.map .cts)

end CData

namespace Cov

def name : Cov n → String
  | firm => "psi" | worker => "alpha" | cat c => c.name | cts c => c.name

def size (m nw : ℕ) : Cov n → ℕ
  | firm => m | worker => nw | cat c => c.k | cts _ => 1

def cols (d : CData n m nw) : Cov n → List (Fin n → ℝ)
  | firm => (indicators d.j).drop 1
  | worker => indicators d.i
  | cat c => (indicators c.val).drop 1
  | cts c => [c.val]

/-- The unpacked coefficients of a covariate given its slice of the coefficient vector. -/
def entry (l : List ℝ) : Cov n → CData.Entry
  | firm => .vec (0 :: l)
  | worker => .vec l
  | cat _ => .vec (0 :: l)
  | cts _ => .num (l.getD 0 0)

/-- The attached column of a covariate. -/
def attach (d : CData n m nw) (u : CData.Unpack) (o : Fin n) : Cov n → Option ℝ
  | firm => CData.attachVec u "psi" (d.j o)
  | worker => CData.attachVec u "alpha" (d.i o)
  | cat c => CData.attachVec u c.name (c.val o)
  | cts c => CData.attachNum u c.name (c.val o)

theorem cols_length (d : CData n m nw) (c : Cov n) : (c.cols d).length = c.size m nw := by
  cases c <;> simp [cols, size, indicators]

end Cov

/-- Names and sizes. -/
def sizes (d : CData n m nw) : List (String × ℕ) := d.covs.map fun c => (c.name, c.size m nw)

/-- The dictionary of coefficients built one covariate after the other from position `s`. -/
def entries (m nw : ℕ) (gh : List ℝ) : ℕ → List (Cov n) → List (String × CData.Entry)
  | _, [] => []
  | s, c :: t => (c.name, c.entry (slice gh s (s + c.size m nw))) :: entries m nw gh (s + c.size m nw) t

theorem entries_names (gh : List ℝ) (s : ℕ) (l : List (Cov n)) :
    (entries m nw gh s l).map (·.1) = l.map Cov.name := by
  induction l generalizing s with
  | nil => rfl
  | cons a t ih => simp [entries, ih]

theorem entries_append (gh : List ℝ) (s : ℕ) (l r : List (Cov n)) :
    entries m nw gh s (l ++ r)
      = entries m nw gh s l ++ entries m nw gh (s + (l.map (Cov.size m nw)).sum) r := by
  induction l generalizing s with
  | nil => simp [entries]
  | cons a t ih => simp [entries, ih, Nat.add_assoc]

theorem dget_entries (gh : List ℝ) (pre post : List (Cov n)) (c : Cov n)
    (h : c.name ∉ pre.map Cov.name) :
    dget (entries m nw gh 0 (pre ++ c :: post)) c.name
      = some (c.entry (slice gh (pre.map (Cov.size m nw)).sum
          ((pre.map (Cov.size m nw)).sum + c.size m nw))) := by
  rw [entries_append, dget_append_of_not_mem _ _ _ (by rwa [entries_names])]
  simp [entries, dget_cons_self]

theorem A_eq (d : CData n m nw) : d.A = (d.covs.map (Cov.cols d)).flatten := by
  have h1 : ∀ (l : List (Cat n)) (A : List (Fin n → ℝ)),
      l.foldl (fun A c => A ++ (indicators c.val).drop 1) A
        = A ++ ((l.map Cov.cat).map (Cov.cols d)).flatten := by
    intro l
    induction l with
    | nil => simp
    | cons a t ih => intro A; rw [List.foldl_cons, ih]; simp [Cov.cols]
  have h2 : ∀ (l : List (Cts n)) (A : List (Fin n → ℝ)),
      l.foldl (fun A c => A ++ [c.val]) A = A ++ ((l.map Cov.cts).map (Cov.cols d)).flatten := by
    intro l
    induction l with
    | nil => simp
    | cons a t ih => intro A; rw [List.foldl_cons, ih]; simp [Cov.cols]
  simp only [CData.A, h1, h2, CData.covs]
  simp [Cov.cols]

theorem nDict_eq (d : CData n m nw) (h : (d.covs.map Cov.name).Nodup) : d.nDict = sizes d := by
  have gen : ∀ (l pre : List (Cov n)), ((pre ++ l).map Cov.name).Nodup →
      l.foldl (fun t c => dset t c.name (c.size m nw)) (pre.map fun c => (c.name, c.size m nw))
        = (pre ++ l).map fun c => (c.name, c.size m nw) := by
    intro l
    induction l with
    | nil => simp
    | cons a t ih =>
      intro pre hn
      rw [List.foldl_cons, dset_fresh]
      · have := ih (pre ++ [a]) (by simpa using hn)
        simpa using this
      · simp only [List.map_map, Function.comp_def]
        simp only [List.map_append, List.map_cons] at hn
        have := (List.nodup_append.1 hn).2.2
        intro hm
        exact this _ hm _ (by simp) rfl
  have := gen (d.cats.map .cat ++ d.cts.map .cts) [.firm, .worker] h
  rw [List.foldl_append, List.foldl_map, List.foldl_map] at this
  simp only [CData.nDict, sizes, CData.covs]
  exact this

theorem slice_getD (gh : List ℝ) (s : ℕ) : (slice gh s (s + 1)).getD 0 0 = gh.getD s 0 := by
  simp [slice, List.getD_eq_getElem?_getD, List.getElem?_drop]

theorem unpack_eq (d : CData n m nw) (gh : List ℝ) (h : (d.covs.map Cov.name).Nodup) :
    (d.unpack gh).gamma = entries m nw gh 0 d.covs ∧ (d.unpack gh).idx = ranges 0 (sizes d) ∧
      (d.unpack gh).ncov = (d.covs.map (Cov.size m nw)).sum := by
  let step : CData.Unpack → Cov n → CData.Unpack := fun s c =>
    { gamma := dset s.gamma c.name (c.entry (slice gh s.ncov (s.ncov + c.size m nw)))
      idx := dset s.idx c.name (s.ncov, s.ncov + c.size m nw)
      ncov := s.ncov + c.size m nw }
  have gen : ∀ (l pre : List (Cov n)) (s : CData.Unpack), ((pre ++ l).map Cov.name).Nodup →
      s.gamma = entries m nw gh 0 pre → s.idx = ranges 0 (pre.map fun c => (c.name, c.size m nw)) →
      s.ncov = (pre.map (Cov.size m nw)).sum →
      (l.foldl step s).gamma = entries m nw gh 0 (pre ++ l) ∧
      (l.foldl step s).idx = ranges 0 ((pre ++ l).map fun c => (c.name, c.size m nw)) ∧
      (l.foldl step s).ncov = ((pre ++ l).map (Cov.size m nw)).sum := by
    intro l
    induction l with
    | nil => intro pre s _ h1 h2 h3; simp [h1, h2, h3]
    | cons a t ih =>
      intro pre s hn h1 h2 h3
      rw [List.foldl_cons]
      have hfresh : a.name ∉ pre.map Cov.name := by
        simp only [List.map_append, List.map_cons] at hn
        intro hm
        exact (List.nodup_append.1 hn).2.2 _ hm _ (by simp) rfl
      have := ih (pre ++ [a]) (step s a) (by simpa using hn) ?_ ?_ ?_
      · simpa using this
      · simp only [step]
        rw [h1, dset_fresh _ _ _ (by rwa [entries_names]), entries_append, h3]
        simp [entries]
      · simp only [step]
        rw [h2, dset_fresh _ _ _ (by rw [ranges_names]; simpa [Function.comp_def] using hfresh),
          List.map_append, ranges_append, h3]
        simp [ranges, Function.comp_def]
      · simp [step, h3]
  have hinit := gen (d.cats.map .cat ++ d.cts.map .cts) [.firm, .worker] (CData.unpackInit m nw gh) h
    (by simp [CData.unpackInit, entries, Cov.name, Cov.entry, Cov.size])
    (by simp [CData.unpackInit, ranges, Cov.name, Cov.size]) (by simp [CData.unpackInit, Cov.size])
  have hst : d.unpack gh = (d.cats.map Cov.cat ++ d.cts.map Cov.cts).foldl step (CData.unpackInit m nw gh) := by
    rw [List.foldl_append, List.foldl_map, List.foldl_map, CData.unpack]
    congr 1
    funext s c
    simp only [step, CData.unpackCts, Cov.name, Cov.entry, Cov.size, slice_getD]
  rw [hst]
  exact hinit

/-! ## Products -/

/-- Row `o` of a list of columns times a list of coefficients. -/
def dotL (cols : List (Fin n → ℝ)) (v : List ℝ) (o : Fin n) : ℝ :=
  (List.zipWith (fun c g => c o * g) cols v).sum

theorem dotL_append (a b : List (Fin n → ℝ)) (v w : List ℝ) (o : Fin n) (h : a.length = v.length) :
    dotL (a ++ b) (v ++ w) o = dotL a v o + dotL b w o := by
  rw [dotL, List.zipWith_append h, List.sum_append]; rfl

theorem dotL_indicators {k : ℕ} (v : Fin n → Fin k) (l : List ℝ) (o : Fin n) (h : l.length = k) :
    l[(v o : ℕ)]? = some (dotL (indicators v) l o) := by
  subst h
  have : dotL (indicators v) l o = ∑ c : Fin l.length, (if v o = c then 1 else 0) * l[c] := by
    have : List.zipWith (fun c g => c o * g) (indicators v) l
        = List.ofFn fun c : Fin l.length => (if v o = c then (1 : ℝ) else 0) * l[c] := by
      apply List.ext_getElem
      · simp [indicators]
      · intro i h1 h2
        simp [indicators]
    rw [dotL, this, List.sum_ofFn]
  rw [this]
  simp

theorem dotL_indicators_drop {k : ℕ} (v : Fin n → Fin (k + 1)) (l : List ℝ) (o : Fin n) (h : l.length = k) :
    (0 :: l)[(v o : ℕ)]? = some (dotL ((indicators v).drop 1) l o) := by
  rw [dotL_indicators v (0 :: l) o (by simp [h])]
  congr 1
  have : indicators v = (fun o => if v o = 0 then 1 else 0) :: (indicators v).drop 1 := by
    simp [indicators, List.ofFn_succ]
  conv_lhs => rw [this]
  simp [dotL]

theorem slice_length {α : Type*} (l : List α) (a k : ℕ) (h : a + k ≤ l.length) :
    (slice l a (a + k)).length = k := by
  simp [slice]; omega

/-- Slices of a concatenation. -/
theorem slice_flatten {α β : Type*} (f : β → List α) (pre post : List β) (c : β) :
    slice ((pre ++ c :: post).map f).flatten ((pre.map fun b => (f b).length).sum)
      ((pre.map fun b => (f b).length).sum + (f c).length) = f c := by
  have : (pre.map fun b => (f b).length).sum = ((pre.map f).flatten).length := by
    rw [List.length_flatten, List.map_map]; rfl
  rw [this]
  simp [slice]

end Pytwoway.FEControl
