import Mathlib.Probability.Distributions.Gaussian.Real
import Mathlib.Probability.Moments.Covariance
import Mathlib.Data.List.GetD
import Verif.Sim.Wages

/-! # The Borovickova-Shimer simulator (simbs.py): C51 and C82 -/

namespace Pytwoway.SimBS

open MeasureTheory ProbabilityTheory

inductive Exc
  | value
deriving DecidableEq

abbrev Py := Except Exc

/-! ## Model -/

/-- The parameters with which wages are drawn, simbs.py:36-52: nonnegative variances and `sigma_wages`, `rho` in
`[-1, 1]`. -/
structure Params where
  varL : ℝ
  varM : ℝ
  sw : ℝ
  rho : ℝ
  varL_nonneg : 0 ≤ varL
  varM_nonneg : 0 ≤ varM
  sw_nonneg : 0 ≤ sw
  rho_low : -1 ≤ rho
  rho_high : rho ≤ 1

/-- `sigma_lambda`, `sigma_mu`, simbs.py:69, 133. -/
noncomputable def Params.sl (p : Params) : ℝ := √p.varL

/-- `sigma_m`, simbs.py:71 and simbs.py:161-162. -/
noncomputable def Params.sm (p : Params) : ℝ := √p.varM

/-- Numerator of the threshold, simbs.py:71. -/
noncomputable def Params.num (p : Params) : ℝ := p.sl ^ 2 + p.sm ^ 2 - 2 * p.rho * p.sl * p.sm

/-- A float: finite, infinite or not a number.  Used for simbs.py:63-77. -/
inductive Fl
  | fin (x : ℝ)
  | inf
  | nan

open scoped Classical in
/-- The quotient of a nonnegative number by a nonnegative number.  Used for simbs.py:63-77. -/
noncomputable def fdiv (a b : ℝ) : Fl := if b = 0 then (if a = 0 then .nan else .inf) else .fin (a / b)

/-- `np.sqrt`.  Used for simbs.py:63-77. -/
noncomputable def fsqrt : Fl → Fl
  | .fin x => .fin (√x)
  | .inf => .inf
  | .nan => .nan

/-- A comparison with `nan` is false.  Used for simbs.py:63-77. -/
def flt (a : ℝ) : Fl → Prop
  | .fin x => a < x
  | .inf => True
  | .nan => False

open scoped Classical in
/-- `SimBS.__init__`, simbs.py:63-77. -/
noncomputable def init (p : Params) : Py Params :=
  if flt p.sw (fsqrt (fdiv p.num (1 - p.rho ^ 2))) then .error .value else .ok p

/-- The loop of `_simulate_workers_firms`, simbs.py:103-113; `d t` is the Poisson draw of iteration `t`.  `none`:
not finished within `fuel` tests. -/
def loop (d : ℕ → ℕ) : ℕ → ℕ → List ℕ → List ℕ → Option (List ℕ × List ℕ)
  | 0, _, _, _ => none
  | fuel + 1, t, ws, fs =>
    if ws.sum = fs.sum then some (ws, fs)
    else if fs.sum < ws.sum then loop d fuel (t + 1) ws (fs ++ [max (d t) 2])
    else loop d fuel (t + 1) (ws ++ [max (d t) 2]) fs

/-- `_simulate_workers_firms`, simbs.py:79-115: `w0` and `f0` are the first draws, one per worker and firm. -/
def counts (w0 f0 : List ℕ) (d : ℕ → ℕ) (fuel : ℕ) : Option (List ℕ × List ℕ) :=
  loop d fuel 0 (w0.map (max · 2)) (f0.map (max · 2))

/-- `np.repeat(np.arange(len(c)), c)` starting from `k`, simbs.py:153. -/
def rep : ℕ → List ℕ → List ℕ
  | _, [] => []
  | k, c :: cs => List.replicate c k ++ rep (k + 1) cs

/-- The loop over firms, simbs.py:154-158: `idx[pos: pos + c]` get the firm's number. -/
def assign (idx : List ℕ) : ℕ → ℕ → List ℕ → (ℕ → ℕ) → ℕ → ℕ
  | _, _, [], j => j
  | firm, pos, c :: cs, j => assign idx (firm + 1) (pos + c) cs
      fun s => if s ∈ (idx.drop pos).take c then firm else j s

/-- A result of `np.argsort`: any order that sorts. -/
def IsArgsort (key : ℕ → ℝ) (n : ℕ) (idx : List ℕ) : Prop :=
  idx.Perm (List.range n) ∧ idx.Pairwise fun a b => key a ≤ key b

/-- One row before cleaning.  Used for simbs.py:136-158. -/
structure Row where
  i : ℕ
  j : ℕ
  lam : ℝ
  mu : ℝ

/-- `simulate` up to the matching, simbs.py:136-158: `fo = np.argsort(mu_j)` reorders the firms, `idx` sorts the
slots by `chi`. -/
def matchRows (ws fs : List ℕ) (lam mu : ℕ → ℝ) (fo idx : List ℕ) : List Row :=
  let fs' := fo.map fun f => fs.getD f 0
  let i := rep 0 ws
  let j := assign idx 0 0 fs' fun _ => 0
  (List.range i.length).map fun s => ⟨i.getD s 0, j s, lam (i.getD s 0), mu (fo.getD (j s) 0)⟩

/-! ## C51: parameters -/

/-- The variance left for the noise in wages, simbs.py:163. -/
noncomputable def noiseVar (p : Params) : ℝ :=
  p.sw ^ 2 - (p.varL + p.varM - 2 * p.rho * √p.varL * √p.varM) / (1 - p.rho ^ 2)

theorem num_eq (p : Params) : p.num = p.varL + p.varM - 2 * p.rho * √p.varL * √p.varM := by
  unfold Params.num Params.sl Params.sm
  rw [Real.sq_sqrt p.varL_nonneg, Real.sq_sqrt p.varM_nonneg]

theorem num_nonneg (p : Params) : 0 ≤ p.num := by
  unfold Params.num
  have h1 : 0 ≤ p.sl := Real.sqrt_nonneg _
  have h2 : 0 ≤ p.sm := Real.sqrt_nonneg _
  nlinarith [mul_nonneg h1 h2, sq_nonneg (p.sl - p.sm), mul_nonneg (mul_nonneg h1 h2) (sub_nonneg.mpr p.rho_high)]

/-- C51: for a correlation strictly between -1 and 1, parameters are rejected, with a `ValueError`, exactly when the
variance left for the noise would be negative.  Missing: the ends of the range (`C51_perfect_correlation`). -/
theorem C51_rejects_partial (p : Params) (h1 : -1 < p.rho) (h2 : p.rho < 1) :
    init p = .error .value ↔ noiseVar p < 0 := by
  have hden : 0 < 1 - p.rho ^ 2 := by nlinarith
  have hq : 0 ≤ p.num / (1 - p.rho ^ 2) := div_nonneg (num_nonneg p) hden.le
  unfold init noiseVar
  rw [← num_eq]
  unfold fdiv
  rw [if_neg hden.ne']
  show (if p.sw < √(p.num / (1 - p.rho ^ 2)) then _ else _) = _ ↔ _
  constructor
  · intro h
    split at h
    · rename_i hlt
      have := (Real.lt_sqrt p.sw_nonneg).mp hlt
      linarith
    · cases h
  · intro h
    rw [if_pos ((Real.lt_sqrt p.sw_nonneg).mpr (by linarith))]

/-- C51: accepted parameters are stored unchanged. -/
theorem C51_stored (p p' : Params) (h : init p = .ok p') : p' = p := by
  unfold init at h
  split at h
  · cases h
  · cases h; rfl

/-- C51 fails at the ends of the documented range of `rho`: perfectly correlated effects with equal variances are
accepted, because the threshold is not a number. -/
theorem C51_perfect_correlation (p : Params) (h : p.rho = 1 ∨ p.rho = -1) :
    init p = .ok p ↔ p.num = 0 := by
  have hden : 1 - p.rho ^ 2 = 0 := by
    rcases h with h | h <;> rw [h] <;> norm_num
  unfold init fdiv
  rw [if_pos hden]
  by_cases hn : p.num = 0
  · rw [if_pos hn]
    simp only [fsqrt, flt, hn, iff_true]
    exact if_neg not_false
  · rw [if_neg hn]
    simp [fsqrt, flt, hn]

/-- The default parameters. -/
noncomputable def dflt : Params :=
  ⟨1, 1, 2, 1 / 4, by norm_num, by norm_num, by norm_num, by norm_num, by norm_num⟩

example : init dflt = .ok dflt := by
  have h : ¬ init dflt = .error .value := by
    rw [C51_rejects_partial dflt (by norm_num [dflt]) (by norm_num [dflt])]
    simp only [noiseVar, dflt, Real.sqrt_one]
    norm_num
  unfold init at h ⊢
  split at h
  · exact absurd rfl h
  · rename_i h'; rw [if_neg h']

/-! ## C51: counts -/

/-- C51: when the drawing of counts ends, the numbers of jobs and of employees agree, every worker has at least two
jobs and every firm at least two employees, and the requested workers and firms keep their draws. -/
theorem C51_counts (w0 f0 : List ℕ) (d : ℕ → ℕ) (fuel : ℕ) (ws fs : List ℕ)
    (h : counts w0 f0 d fuel = some (ws, fs)) :
    ws.sum = fs.sum ∧ (∀ n ∈ ws, 2 ≤ n) ∧ (∀ n ∈ fs, 2 ≤ n) ∧
    w0.map (max · 2) <+: ws ∧ f0.map (max · 2) <+: fs := by
  have key : ∀ (fuel t : ℕ) (a b : List ℕ), (∀ n ∈ a, 2 ≤ n) → (∀ n ∈ b, 2 ≤ n) →
      loop d fuel t a b = some (ws, fs) →
      ws.sum = fs.sum ∧ (∀ n ∈ ws, 2 ≤ n) ∧ (∀ n ∈ fs, 2 ≤ n) ∧ a <+: ws ∧ b <+: fs := by
    intro fuel
    induction fuel with
    | zero => intro t a b _ _ h; cases h
    | succ n ih =>
      intro t a b ha hb h
      unfold loop at h
      split at h
      · rename_i he
        simp only [Option.some.injEq, Prod.mk.injEq] at h
        obtain ⟨rfl, rfl⟩ := h
        exact ⟨he, ha, hb, List.prefix_rfl, List.prefix_rfl⟩
      · split at h
        · obtain ⟨k1, k2, k3, k4, k5⟩ := ih (t + 1) a (b ++ [max (d t) 2]) ha (by
            intro n hn
            rw [List.mem_append, List.mem_singleton] at hn
            rcases hn with hn | rfl
            · exact hb n hn
            · exact le_max_right _ _) h
          exact ⟨k1, k2, k3, k4, (List.prefix_append _ _).trans k5⟩
        · obtain ⟨k1, k2, k3, k4, k5⟩ := ih (t + 1) (a ++ [max (d t) 2]) b (by
            intro n hn
            rw [List.mem_append, List.mem_singleton] at hn
            rcases hn with hn | rfl
            · exact ha n hn
            · exact le_max_right _ _) hb h
          exact ⟨k1, k2, k3, (List.prefix_append _ _).trans k4, k5⟩
  refine key fuel 0 _ _ ?_ ?_ h <;>
  · intro n hn
    obtain ⟨m, -, rfl⟩ := List.mem_map.mp hn
    exact le_max_right _ _

/-- The result does not depend on the number of steps allowed. -/
theorem C51_counts_unique (w0 f0 : List ℕ) (d : ℕ → ℕ) (n m : ℕ) (r r' : List ℕ × List ℕ)
    (h : counts w0 f0 d n = some r) (h' : counts w0 f0 d m = some r') : r = r' := by
  have key : ∀ (n m t : ℕ) (a b : List ℕ), loop d n t a b = some r → loop d m t a b = some r' → r = r' := by
    intro n
    induction n with
    | zero => intro m t a b h; cases h
    | succ n ih =>
      intro m t a b h h'
      cases m with
      | zero => cases h'
      | succ m =>
        unfold loop at h h'
        split at h
        · rename_i he
          rw [if_pos he] at h'
          rw [← Option.some.inj h, ← Option.some.inj h']
        · rename_i he
          rw [if_neg he] at h'
          split at h
          · rename_i hl
            rw [if_pos hl] at h'
            exact ih m _ _ _ h h'
          · rename_i hl
            rw [if_neg hl] at h'
            exact ih m _ _ _ h h'
  exact key n m 0 _ _ h h'

theorem loop_prefix (d : ℕ → ℕ) (fuel : ℕ) : ∀ (t : ℕ) (a b ws fs : List ℕ), loop d fuel t a b = some (ws, fs) →
    a <+: ws ∧ b <+: fs := by
  induction fuel with
  | zero => intro t a b ws fs h; cases h
  | succ n ih =>
    intro t a b ws fs h
    unfold loop at h
    split at h
    · cases h
      exact ⟨List.prefix_rfl, List.prefix_rfl⟩
    · split at h
      · obtain ⟨h1, h2⟩ := ih _ _ _ _ _ h
        exact ⟨h1, (List.prefix_append _ _).trans h2⟩
      · obtain ⟨h1, h2⟩ := ih _ _ _ _ _ h
        exact ⟨(List.prefix_append _ _).trans h1, h2⟩

/-- C51: the side with the smaller total is the one that grows: if firms were added, the last one was drawn when the
others employed fewer than the workers' jobs, and likewise for workers. -/
theorem C51_smaller_side_grows (w0 f0 : List ℕ) (d : ℕ → ℕ) (fuel : ℕ) (ws fs : List ℕ)
    (h : counts w0 f0 d fuel = some (ws, fs)) :
    (f0.length < fs.length → fs.dropLast.sum < ws.sum) ∧ (w0.length < ws.length → ws.dropLast.sum < fs.sum) := by
  have mono : ∀ (fuel t : ℕ) (a b : List ℕ), loop d fuel t a b = some (ws, fs) → a.sum ≤ ws.sum ∧ b.sum ≤ fs.sum ∧
      (b.length < fs.length → fs.dropLast.sum < ws.sum) ∧ (a.length < ws.length → ws.dropLast.sum < fs.sum) := by
    intro fuel
    induction fuel with
    | zero => intro t a b h; cases h
    | succ n ih =>
      intro t a b h
      unfold loop at h
      split at h
      · cases h
        exact ⟨le_rfl, le_rfl, fun h => absurd h (lt_irrefl _), fun h => absurd h (lt_irrefl _)⟩
      · split at h
        · rename_i hlt
          obtain ⟨h1, h2, h3, h4⟩ := ih _ _ _ h
          rw [List.sum_append] at h2
          refine ⟨h1, by omega, fun _ => ?_, h4⟩
          by_cases hl : (b ++ [max (d t) 2]).length < fs.length
          · exact h3 hl
          · have hpre := (loop_prefix d n (t + 1) a (b ++ [max (d t) 2]) ws fs h).2
            have he : b ++ [max (d t) 2] = fs := hpre.eq_of_length_le (by omega)
            rw [← he]
            simp only [List.dropLast_concat]
            omega
        · rename_i hne hlt
          obtain ⟨h1, h2, h3, h4⟩ := ih _ _ _ h
          rw [List.sum_append] at h1
          refine ⟨by omega, h2, h3, fun _ => ?_⟩
          by_cases hl : (a ++ [max (d t) 2]).length < ws.length
          · exact h4 hl
          · have hpre := (loop_prefix d n (t + 1) (a ++ [max (d t) 2]) b ws fs h).1
            have he : a ++ [max (d t) 2] = ws := hpre.eq_of_length_le (by omega)
            rw [← he]
            simp only [List.dropLast_concat]
            omega
  obtain ⟨-, -, h1, h2⟩ := mono fuel 0 _ _ h
  simpa using And.intro h1 h2

/-- C51: a draw that equals what is missing ends the drawing. -/
theorem C51_gap_closed (w0 f0 : List ℕ) (d : ℕ → ℕ) (fuel : ℕ) (h2 : 2 ≤ d 0) :
    ((f0.map (max · 2)).sum + d 0 = (w0.map (max · 2)).sum →
      counts w0 f0 d (fuel + 2) = some (w0.map (max · 2), f0.map (max · 2) ++ [d 0])) ∧
    ((w0.map (max · 2)).sum + d 0 = (f0.map (max · 2)).sum →
      counts w0 f0 d (fuel + 2) = some (w0.map (max · 2) ++ [d 0], f0.map (max · 2))) := by
  constructor <;> intro h <;> unfold counts loop <;> rw [if_neg (by omega)]
  · rw [if_pos (by omega), max_eq_left h2, loop, if_pos (by rw [List.sum_append]; simp; omega)]
  · rw [if_neg (by omega), max_eq_left h2, loop, if_pos (by rw [List.sum_append]; simp; omega)]

/-- The drawing may go on forever: one worker with three jobs, one firm with two employees, and only draws of at most
two afterwards. -/
theorem C51_counts_may_not_end (fuel : ℕ) : counts [3] [2] (fun _ => 2) fuel = none := by
  have key : ∀ (fuel t : ℕ) (a b : List ℕ), a.sum % 2 = 1 → b.sum % 2 = 0 → loop (fun _ => 2) fuel t a b = none := by
    intro fuel
    induction fuel with
    | zero => intros; rfl
    | succ n ih =>
      intro t a b ha hb
      unfold loop
      rw [if_neg (by omega)]
      split
      · exact ih _ _ _ ha (by simp; omega)
      · exact ih _ _ _ (by simp; omega) hb
  exact key fuel 0 _ _ (by decide) (by decide)

/-! ## C51: matching -/

theorem length_rep : ∀ (cs : List ℕ) (k : ℕ), (rep k cs).length = cs.sum := by
  intro cs
  induction cs with
  | nil => intro k; rfl
  | cons c cs ih => intro k; simp [rep, ih]

theorem count_rep : ∀ (cs : List ℕ) (k a : ℕ), (rep k cs).count a = if k ≤ a then cs.getD (a - k) 0 else 0 := by
  intro cs
  induction cs with
  | nil => intro k a; simp [rep]
  | cons c cs ih =>
    intro k a
    rw [rep, List.count_append, ih, List.count_replicate]
    by_cases h1 : k = a
    · subst h1; simp
    · rw [if_neg (by simpa using h1)]
      by_cases h2 : k ≤ a
      · rw [if_pos h2, if_pos (by omega), zero_add]
        obtain ⟨m, hm⟩ : ∃ m, a - k = m + 1 := ⟨a - k - 1, by omega⟩
        rw [hm, show a - (k + 1) = m by omega]
        simp
      · rw [if_neg h2, if_neg (by omega)]

theorem rep_bounds : ∀ (cs : List ℕ) (k a : ℕ), a ∈ rep k cs → k ≤ a ∧ a < k + cs.length := by
  intro cs
  induction cs with
  | nil => intro k a h; simp [rep] at h
  | cons c cs ih =>
    intro k a h
    rw [rep, List.mem_append] at h
    rcases h with h | h
    · rw [List.eq_of_mem_replicate h]; simp
    · have := ih _ _ h
      rw [List.length_cons]
      omega

theorem rep_sorted : ∀ (cs : List ℕ) (k : ℕ), (rep k cs).Pairwise (· ≤ ·) := by
  intro cs
  induction cs with
  | nil => intro k; exact List.Pairwise.nil
  | cons c cs ih =>
    intro k
    rw [rep, List.pairwise_append]
    refine ⟨List.pairwise_replicate.mpr (Or.inr le_rfl), ih _, ?_⟩
    intro a ha b hb
    rw [List.eq_of_mem_replicate ha]
    have := (rep_bounds _ _ _ hb).1
    omega

theorem assign_spec (idx : List ℕ) (hn : idx.Nodup) : ∀ (cs : List ℕ) (firm pos : ℕ) (j : ℕ → ℕ),
    pos + cs.sum = idx.length →
    (idx.drop pos).map (assign idx firm pos cs j) = rep firm cs ∧
    ∀ s, s ∉ idx.drop pos → assign idx firm pos cs j s = j s := by
  intro cs
  induction cs with
  | nil =>
    intro firm pos j h
    have : idx.drop pos = [] := List.drop_eq_nil_of_le (by simp at h; omega)
    rw [this]
    exact ⟨rfl, fun _ _ => rfl⟩
  | cons c cs ih =>
    intro firm pos j h
    rw [List.sum_cons] at h
    have hsplit : idx.drop pos = (idx.drop pos).take c ++ idx.drop (pos + c) := by
      rw [← List.drop_drop, List.take_append_drop]
    obtain ⟨h1, h2⟩ := ih (firm + 1) (pos + c) (fun s => if s ∈ (idx.drop pos).take c then firm else j s) (by omega)
    have hnd : (idx.drop pos).Nodup := hn.sublist (List.drop_sublist _ _)
    rw [hsplit] at hnd
    have hdis := (List.nodup_append.mp hnd).2.2
    show (idx.drop pos).map (assign idx (firm + 1) (pos + c) cs _) = _ ∧ ∀ s, _ → assign idx (firm + 1) (pos + c) cs _ s = _
    refine ⟨?_, ?_⟩
    · generalize hA : assign idx (firm + 1) (pos + c) cs
        (fun s => if s ∈ (idx.drop pos).take c then firm else j s) = A at h1 h2 ⊢
      rw [hsplit, List.map_append, h1, rep]
      congr 1
      rw [List.eq_replicate_iff]
      refine ⟨by simp; omega, ?_⟩
      intro b hb
      obtain ⟨s, hs, rfl⟩ := List.mem_map.mp hb
      rw [h2 s fun hs' => hdis s hs s hs' rfl, if_pos hs]
    · intro s hs
      rw [hsplit, List.mem_append, not_or] at hs
      rw [h2 s hs.2, if_neg hs.1]

/-- C51: every slot is filled: every worker appears in as many rows as they have jobs, every firm (numbered by its
rank in firm effects) in as many rows as it drew employees, with its own effect, and better slots are matched with
better firms. -/
theorem C51_matching (ws fs : List ℕ) (hsum : ws.sum = fs.sum) (lam mu : ℕ → ℝ) (fo idx : List ℕ) (chi : ℕ → ℝ)
    (hfo : IsArgsort mu fs.length fo) (hidx : IsArgsort chi ws.sum idx) :
    (matchRows ws fs lam mu fo idx).length = ws.sum ∧
    (∀ i, ((matchRows ws fs lam mu fo idx).map Row.i).count i = ws.getD i 0) ∧
    (∀ f, ((matchRows ws fs lam mu fo idx).map Row.j).count f = if f < fs.length then fs.getD (fo.getD f 0) 0 else 0) ∧
    (∀ r ∈ matchRows ws fs lam mu fo idx, r.i < ws.length ∧ r.j < fs.length ∧ r.lam = lam r.i ∧
      r.mu = mu (fo.getD r.j 0)) ∧
    (∀ f g, f < g → g < fs.length → mu (fo.getD f 0) ≤ mu (fo.getD g 0)) ∧
    ∀ s s' r r', (matchRows ws fs lam mu fo idx)[s]? = some r → (matchRows ws fs lam mu fo idx)[s']? = some r' →
      chi s < chi s' → r.j ≤ r'.j ∧ r.mu ≤ r'.mu := by
  set fs' := fo.map fun f => fs.getD f 0 with hfs'
  have hlen : fo.length = fs.length := by simpa using hfo.1.length_eq
  have hsum' : fs'.sum = fs.sum := by
    have h1 := (hfo.1.map fun f => fs.getD f 0).sum_eq
    rw [← hfs'] at h1
    rw [h1]
    congr 1
    refine List.ext_getElem (by simp) ?_
    intro k hk hk'
    simp [List.getD_eq_getElem?_getD, hk']
  have hidxl : idx.length = ws.sum := by simpa using hidx.1.length_eq
  have hnd : idx.Nodup := hidx.1.nodup_iff.mpr List.nodup_range
  set j := assign idx 0 0 fs' fun _ => 0 with hj
  have hmap : idx.map j = rep 0 fs' := by
    have := (assign_spec idx hnd fs' 0 0 (fun _ => 0) (by rw [hsum', ← hsum, hidxl]; omega)).1
    rwa [List.drop_zero] at this
  have hrows : matchRows ws fs lam mu fo idx = (List.range ws.sum).map fun s =>
      ⟨(rep 0 ws).getD s 0, j s, lam ((rep 0 ws).getD s 0), mu (fo.getD (j s) 0)⟩ := by
    show (List.range (rep 0 ws).length).map _ = _
    rw [length_rep]
  have hjperm : ((List.range ws.sum).map j).Perm (rep 0 fs') := by
    rw [← hmap]
    exact (hidx.1.map j).symm
  have hflen : fs'.length = fs.length := by rw [hfs', List.length_map, hlen]
  have hjlt : ∀ s < ws.sum, j s < fs.length := by
    intro s hs
    have : j s ∈ rep 0 fs' := hjperm.mem_iff.mp (List.mem_map_of_mem (by simpa using hs))
    have := (rep_bounds _ _ _ this).2
    rw [hflen] at this
    omega
  have hmono : ∀ f g, f < g → g < fs.length → mu (fo.getD f 0) ≤ mu (fo.getD g 0) := by
    intro f g hfg hg
    have hg' : g < fo.length := by omega
    have hf' : f < fo.length := by omega
    rw [List.getD_eq_getElem _ _ hg', List.getD_eq_getElem _ _ hf']
    exact List.pairwise_iff_getElem.mp hfo.2 f g hf' hg' hfg
  refine ⟨by rw [hrows]; simp, ?_, ?_, ?_, hmono, ?_⟩
  · intro i
    have : (matchRows ws fs lam mu fo idx).map Row.i = rep 0 ws := by
      rw [hrows, List.map_map]
      refine List.ext_getElem (by simp [length_rep]) ?_
      intro k hk hk'
      simp [List.getD_eq_getElem?_getD, hk']
    rw [this, count_rep]
    simp
  · intro f
    have : (matchRows ws fs lam mu fo idx).map Row.j = (List.range ws.sum).map j := by
      rw [hrows, List.map_map]
      rfl
    rw [this, hjperm.count_eq, count_rep, if_pos (Nat.zero_le _), Nat.sub_zero]
    split
    · rename_i hf
      rw [hfs', List.getD_eq_getElem?_getD, List.getElem?_map, List.getD_eq_getElem _ _ (by omega : f < fo.length)]
      simp [List.getElem?_eq_getElem (by omega : f < fo.length)]
    · rename_i hf
      rw [List.getD_eq_default _ _ (by rw [hflen]; omega)]
  · intro r hr
    rw [hrows] at hr
    obtain ⟨s, hs, rfl⟩ := List.mem_map.mp hr
    have hs' : s < ws.sum := by simpa using hs
    refine ⟨?_, hjlt s hs', rfl, rfl⟩
    have hsl : s < (rep 0 ws).length := by rw [length_rep]; exact hs'
    show (rep 0 ws).getD s 0 < _
    rw [List.getD_eq_getElem _ _ hsl]
    have := (rep_bounds ws 0 _ (List.getElem_mem hsl)).2
    omega
  · intro s s' r r' hr hr' hlt
    rw [hrows, List.getElem?_map, Option.map_eq_some_iff] at hr hr'
    obtain ⟨t, ht, rfl⟩ := hr
    obtain ⟨t', ht', rfl⟩ := hr'
    obtain ⟨hs, e⟩ := List.getElem?_eq_some_iff.mp ht
    obtain ⟨hs', e'⟩ := List.getElem?_eq_some_iff.mp ht'
    rw [List.getElem_range] at e e'
    subst e e'
    rw [List.length_range] at hs hs'
    have hle : j s ≤ j s' := by
      obtain ⟨p, hp, hps⟩ := List.getElem_of_mem (hidx.1.mem_iff.mpr (List.mem_range.mpr hs))
      obtain ⟨q, hq, hqs⟩ := List.getElem_of_mem (hidx.1.mem_iff.mpr (List.mem_range.mpr hs'))
      have hpq : p < q := by
        by_contra hc
        push Not at hc
        rcases hc.lt_or_eq with hc | hc
        · have := List.pairwise_iff_getElem.mp hidx.2 q p hq hp hc
          rw [hps, hqs] at this
          linarith
        · subst hc
          rw [hps] at hqs
          subst hqs
          exact lt_irrefl _ hlt
      have hsorted := rep_sorted fs' 0
      rw [← hmap] at hsorted
      have := List.pairwise_iff_getElem.mp hsorted p q (by simpa using hp) (by simpa using hq) hpq
      rw [List.getElem_map, List.getElem_map, hps, hqs] at this
      exact this
    refine ⟨hle, ?_⟩
    show mu (fo.getD (j s) 0) ≤ mu (fo.getD (j s') 0)
    rcases hle.lt_or_eq with h | h
    · exact hmono _ _ h (hjlt s' hs')
    · rw [h]

/-- Two workers with two jobs each, two firms with two employees; the second firm is the worse one. -/
example : ∃ fuel, counts [1, 2] [2, 0] (fun _ => 0) fuel = some ([2, 2], [2, 2]) := ⟨1, by decide⟩

example : IsArgsort (fun f => if f = 0 then 1 else 0) ([2, 2] : List ℕ).length [1, 0] ∧
    IsArgsort (fun s => -(s : ℝ)) ([2, 2] : List ℕ).sum [3, 2, 1, 0] := by
  refine ⟨⟨by decide, by simp⟩, ⟨by decide, ?_⟩⟩
  simp only [List.pairwise_cons, List.mem_cons, List.not_mem_nil]
  norm_num

/-! ## C82: wages -/

open scoped Classical in
/-- A float quotient; `none` stands for a result that is not finite, which sums and products preserve.
Used for simbs.py:161-162 and simbs.py:164-167. -/
noncomputable def odiv (a b : ℝ) : Option ℝ := if b = 0 then none else some (a / b)

/-- `a`, `b`, simbs.py:161-162. -/
noncomputable def Params.a (p : Params) : Option ℝ := odiv (p.sl - p.rho * p.sm) (p.sl * (1 - p.rho ^ 2))

/-- The slope of the second sum, simbs.py:164-167. -/
noncomputable def Params.b (p : Params) : Option ℝ := odiv (p.sm - p.rho * p.sl) (p.sm * (1 - p.rho ^ 2))

/-- `chi_i_j`, simbs.py:149, of a worker with effect `lam` and standard normal draw `z`. -/
noncomputable def Params.chi (p : Params) (lam z : ℝ) : Option ℝ :=
  (odiv (lam * p.rho * p.sm) p.sl).map fun m => m + p.sm * √(1 - p.rho ^ 2) * z

/-- `sigma_eps`, simbs.py:163. -/
noncomputable def Params.se (p : Params) : Option ℝ := (odiv p.num (1 - p.rho ^ 2)).map fun t => √(p.sw ^ 2 - t)

/-- Wage and the columns `lambda_i`, `mu_j`, simbs.py:164-167. -/
noncomputable def Params.wage (p : Params) (lam mu z : ℝ) : Option (ℝ × ℝ × ℝ) := do
  let a ← p.a
  let b ← p.b
  let s ← p.se
  some (a * lam + b * mu + s * z, a * lam, b * mu)

/-- C82 fails on the border of the documented ranges: whenever a variance is zero or the correlation is perfect, no
simulated wage is a finite number, although such parameters may be accepted. -/
theorem C82_degenerate_undefined (p : Params) (h : p.varL = 0 ∨ p.varM = 0 ∨ p.rho = 1 ∨ p.rho = -1) (lam mu z : ℝ) :
    p.wage lam mu z = none := by
  unfold Params.wage
  have hden : p.rho = 1 ∨ p.rho = -1 → 1 - p.rho ^ 2 = 0 := by
    rintro (h | h) <;> rw [h] <;> norm_num
  rcases h with h | h | h
  · have : p.a = none := by
      unfold Params.a odiv Params.sl
      rw [if_pos (by rw [h]; simp)]
    rw [this]
    rfl
  · have : p.b = none := by
      unfold Params.b odiv Params.sm
      rw [if_pos (by rw [h]; simp)]
    rw [this]
    cases p.a <;> rfl
  · have : p.a = none := by
      unfold Params.a odiv
      rw [if_pos (by rw [hden h]; simp)]
    rw [this]
    rfl

/-- Such parameters are accepted: a worker variance of zero with the default wages. -/
theorem C82_degenerate_accepted : ∃ p : Params, p.varL = 0 ∧ init p = .ok p := by
  refine ⟨⟨0, 1, 2, 1 / 4, by norm_num, by norm_num, by norm_num, by norm_num, by norm_num⟩, rfl, ?_⟩
  have h : ¬ init ⟨0, 1, 2, 1 / 4, by norm_num, by norm_num, by norm_num, by norm_num, by norm_num⟩ = .error .value := by
    rw [C51_rejects_partial _ (by norm_num) (by norm_num)]
    simp only [noiseVar, Real.sqrt_one, Real.sqrt_zero]
    norm_num
  unfold init at h ⊢
  split at h
  · exact absurd rfl h
  · rename_i h'; rw [if_neg h']

/-- The columns `lambda_i` and `mu_j` of the simulated data are not the worker's and firm's types but multiples of
them: with the default parameters four fifths. -/
theorem C82_columns_scaled (lam mu z : ℝ) : ∃ y, dflt.wage lam mu z = some (y, 4 / 5 * lam, 4 / 5 * mu) := by
  have hs : dflt.sl = 1 := by simp [Params.sl, dflt]
  have hm : dflt.sm = 1 := by simp [Params.sm, dflt]
  have ha : dflt.a = some (4 / 5) := by
    unfold Params.a odiv
    rw [hs, hm, if_neg (by norm_num [dflt])]
    norm_num [dflt]
  have hb : dflt.b = some (4 / 5) := by
    unfold Params.b odiv
    rw [hs, hm, if_neg (by norm_num [dflt])]
    norm_num [dflt]
  unfold Params.wage Params.se odiv
  rw [ha, hb, if_neg (by norm_num [dflt])]
  exact ⟨_, rfl⟩

variable {Ω : Type} [MeasurableSpace Ω]

/-- C82 (partial): for positive variances and an imperfect correlation, take a match between a worker of type
`lambda` and a firm whose type is exactly the drawn `chi`, three independent standard normal draws behind them and the
noise.  The firm type has the requested variance and correlation `rho` with the worker's, the wage has standard
deviation `sigma_wages`, and wages vary one for one with each type: `cov(y, lambda) = var(lambda)` and
`cov(y, mu) = var(mu)`.  Missing: the code assigns the firm whose rank fits `chi`, so its type is only close to it;
the columns (`C82_columns_scaled`); the border (`C82_degenerate_undefined`). -/
theorem C82_moments_partial (P : Measure Ω) [IsProbabilityMeasure P] (z : Fin 3 → Ω → ℝ)
    (hz : ∀ k, P.map (z k) = gaussianReal 0 1) (hind : iIndepFun z P) (p : Params) (hL : 0 < p.varL) (hM : 0 < p.varM)
    (h1 : -1 < p.rho) (h2 : p.rho < 1) (hok : init p = .ok p) :
    ∃ (lam mu y : Ω → ℝ), lam = (fun ω => √p.varL * z 0 ω) ∧ (∀ ω, p.chi (lam ω) (z 1 ω) = some (mu ω)) ∧
      (∀ ω, (p.wage (lam ω) (mu ω) (z 2 ω)).map Prod.fst = some (y ω)) ∧
      P.map lam = gaussianReal 0 p.varL.toNNReal ∧ P.map mu = gaussianReal 0 p.varM.toNNReal ∧
      P.map y = gaussianReal 0 (p.sw ^ 2).toNNReal ∧
      cov[lam, mu; P] = p.rho * √p.varL * √p.varM ∧ cov[y, lam; P] = p.varL ∧ cov[y, mu; P] = p.varM := by
  have hsl : 0 < p.sl := Real.sqrt_pos.mpr hL
  have hsm : 0 < p.sm := Real.sqrt_pos.mpr hM
  have hden : 0 < 1 - p.rho ^ 2 := by nlinarith
  set r := √(1 - p.rho ^ 2) with hr
  have hr2 : r ^ 2 = 1 - p.rho ^ 2 := Real.sq_sqrt hden.le
  have hr0 : 0 < r := Real.sqrt_pos.mpr hden
  have hnv : 0 ≤ p.sw ^ 2 - p.num / (1 - p.rho ^ 2) := by
    have : ¬ noiseVar p < 0 := by
      rw [← C51_rejects_partial p h1 h2, hok]
      simp
    unfold noiseVar at this
    rw [← num_eq] at this
    push Not at this
    exact this
  set e := √(p.sw ^ 2 - p.num / (1 - p.rho ^ 2)) with he
  have he2 : e ^ 2 = p.sw ^ 2 - p.num / (1 - p.rho ^ 2) := Real.sq_sqrt hnv
  set ca := (p.sl - p.rho * p.sm) / (p.sl * (1 - p.rho ^ 2)) with hca
  set cb := (p.sm - p.rho * p.sl) / (p.sm * (1 - p.rho ^ 2)) with hcb
  have ha : p.a = some ca := by
    unfold Params.a odiv
    rw [if_neg (by positivity)]
  have hb : p.b = some cb := by
    unfold Params.b odiv
    rw [if_neg (by positivity)]
  have hse : p.se = some e := by
    unfold Params.se odiv
    rw [if_neg hden.ne']
    rfl
  have hm : ∀ k, AEMeasurable (z k) P := by
    intro k
    by_contra hc
    have := hz k
    rw [Measure.map_of_not_aemeasurable hc] at this
    have h0 : (gaussianReal 0 1) Set.univ = 0 := by rw [← this]; simp
    simp at h0
  -- laws of combinations
  have hlin : ∀ c d f : ℝ, P.map (fun ω => c * z 0 ω + d * z 1 ω + f * z 2 ω) =
      gaussianReal 0 (c ^ 2 + d ^ 2 + f ^ 2).toNNReal := by
    intro c d f
    have hi := hind.comp (fun k x => (![c, d, f] k) * x) fun k => by fun_prop
    have hl : ∀ k, P.map ((fun x => (![c, d, f] k) * x) ∘ z k) = gaussianReal 0 ((![c, d, f] k) ^ 2).toNNReal := by
      intro k
      have := Sim.law_scale P (z k) (hz k) 0 (![c, d, f] k)
      simp only [zero_add] at this
      exact this
    have hmm : ∀ k, AEMeasurable ((fun x => (![c, d, f] k) * x) ∘ z k) P := fun k => (hm k).const_mul _
    have h01 := gaussianReal_add_gaussianReal_of_indepFun (hi.indepFun (show (0 : Fin 3) ≠ 1 by decide)) (hl 0) (hl 1)
    have h2' := gaussianReal_add_gaussianReal_of_indepFun
      (hi.indepFun_add_left₀ hmm 0 1 2 (by decide) (by decide)) h01 (hl 2)
    rw [← Real.toNNReal_add (sq_nonneg _) (sq_nonneg _), ← Real.toNNReal_add (by positivity) (sq_nonneg _)] at h2'
    simp only [Matrix.cons_val_zero, Matrix.cons_val_one, Matrix.cons_val, zero_add, add_zero] at h2'
    exact h2'
  have hcov : ∀ c d f c' d' f' : ℝ, cov[fun ω => c * z 0 ω + d * z 1 ω + f * z 2 ω,
      fun ω => c' * z 0 ω + d' * z 1 ω + f' * z 2 ω; P] = c * c' + d * d' + f * f' := by
    intro c d f c' d' f'
    have hL2 : ∀ k, MemLp (z k) 2 P := by
      intro k
      have h := (memLp_id_gaussianReal (μ := 0) (v := 1) 2)
      rw [← hz k] at h
      exact (memLp_map_measure_iff aestronglyMeasurable_id (hm k)).mp h
    have hzz : ∀ k l, cov[z k, z l; P] = if k = l then 1 else 0 := by
      intro k l
      split
      · rename_i hkl
        subst hkl
        rw [covariance_self (hm k)]
        have h := variance_fun_id_gaussianReal (μ := 0) (v := 1)
        rw [← hz k, variance_map (X := fun x => x) (by fun_prop) (hm k)] at h
        simpa [Function.comp_def] using h
      · rename_i hkl
        exact (hind.indepFun hkl).covariance_eq_zero (hL2 k) (hL2 l)
    have e1 : ∀ a b c : ℝ, (fun ω => a * z 0 ω + b * z 1 ω + c * z 2 ω) = fun ω => ∑ k, ![a, b, c] k * z k ω := by
      intro a b c
      funext ω
      simp [Fin.sum_univ_three]
    rw [e1, e1, covariance_fun_sum_fun_sum (fun k => (hL2 k).const_mul _) (fun k => (hL2 k).const_mul _)]
    simp only [covariance_const_mul_left, covariance_const_mul_right, hzz]
    simp [Fin.sum_univ_three]
    ring
  have elam : (fun ω => √p.varL * z 0 ω) = fun ω => p.sl * z 0 ω + 0 * z 1 ω + 0 * z 2 ω := by
    funext ω; simp [Params.sl]
  have emu : (fun ω => p.rho * p.sm * z 0 ω + p.sm * r * z 1 ω) =
      fun ω => (p.rho * p.sm) * z 0 ω + (p.sm * r) * z 1 ω + 0 * z 2 ω := by
    funext ω; ring
  have ey : (fun ω => ca * (p.sl * z 0 ω) + cb * (p.rho * p.sm * z 0 ω + p.sm * r * z 1 ω) + e * z 2 ω) =
      fun ω => p.sl * z 0 ω + (cb * (p.sm * r)) * z 1 ω + e * z 2 ω := by
    funext ω
    have : ca * p.sl + cb * (p.rho * p.sm) = p.sl := by
      rw [hca, hcb]
      field_simp
      ring
    linear_combination (z 0 ω) * this
  refine ⟨fun ω => √p.varL * z 0 ω, fun ω => p.rho * p.sm * z 0 ω + p.sm * r * z 1 ω,
    fun ω => ca * (p.sl * z 0 ω) + cb * (p.rho * p.sm * z 0 ω + p.sm * r * z 1 ω) + e * z 2 ω, rfl, ?_, ?_, ?_, ?_, ?_, ?_, ?_, ?_⟩
  · intro ω
    unfold Params.chi odiv
    rw [if_neg hsl.ne']
    simp only [Option.map_some, Option.some.injEq]
    show p.sl * z 0 ω * p.rho * p.sm / p.sl + _ = _
    rw [← hr]
    field_simp
  · intro ω
    unfold Params.wage
    rw [ha, hb, hse]
    rfl
  · rw [elam, hlin]
    congr 2
    rw [Params.sl, Real.sq_sqrt hL.le]
    ring
  · rw [emu, hlin]
    congr 2
    have : p.sm ^ 2 = p.varM := Real.sq_sqrt hM.le
    linear_combination p.sm ^ 2 * hr2 + this
  · rw [ey, hlin]
    congr 2
    rw [he2, hcb, mul_pow, mul_pow, hr2]
    unfold Params.num
    field_simp
    ring
  · rw [elam, emu, hcov]
    show p.sl * (p.rho * p.sm) + _ + _ = p.rho * p.sl * p.sm
    ring
  · rw [ey, elam, hcov]
    have : p.sl ^ 2 = p.varL := Real.sq_sqrt hL.le
    linear_combination this
  · rw [ey, emu, hcov]
    have hv : p.sm ^ 2 = p.varM := Real.sq_sqrt hM.le
    have h3 : cb * p.sm * (1 - p.rho ^ 2) = p.sm - p.rho * p.sl := by
      rw [hcb]
      field_simp
    linear_combination hv + cb * p.sm ^ 2 * hr2 + p.sm * h3

/-- Three independent standard normal draws, and the default parameters. -/
example : ∃ (Ω : Type) (_ : MeasurableSpace Ω) (P : Measure Ω) (z : Fin 3 → Ω → ℝ), IsProbabilityMeasure P ∧
    (∀ k, P.map (z k) = gaussianReal 0 1) ∧ iIndepFun z P ∧ 0 < dflt.varL ∧ 0 < dflt.varM ∧ -1 < dflt.rho ∧
    dflt.rho < 1 := by
  refine ⟨Fin 3 → ℝ, inferInstance, Measure.pi fun _ => gaussianReal 0 1, fun k ω => ω k, inferInstance, ?_, ?_,
    by norm_num [dflt], by norm_num [dflt], by norm_num [dflt], by norm_num [dflt]⟩
  · intro k
    exact (measurePreserving_eval (fun _ : Fin 3 => gaussianReal 0 1) k).map_eq
  · exact iIndepFun_pi (X := fun _ x => x) fun _ => aemeasurable_id

end Pytwoway.SimBS
