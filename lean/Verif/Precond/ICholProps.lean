import Verif.Precond.ICholRefine
import Verif.Precond.Estimator

/-! # Incomplete Cholesky preconditioner: C52, C83 -/

namespace Pytwoway.Precond

open Matrix
open scoped BigOperators

/-- The input as a matrix. -/
noncomputable def toMat (A : Csc) : Matrix (Fin A.n) (Fin A.n) ℝ := of fun i j => ent A i j

/-- `ichol` returns what `_ichol` stores for the first shift that does not end with code -1. -/
theorem ichol_some {A : Csc} {o : Opts} : ∀ {shifts : List ℝ} {st : St}, ichol A o shifts = some st →
    ∃ shift ∈ shifts, icholRun A { o with shift := shift } = .ok st := by
  intro shifts
  induction shifts with
  | nil => intro st h; cases h
  | cons s shifts ih =>
    intro st h
    unfold ichol at h
    split at h
    · rename_i st' hst
      cases h
      exact ⟨s, List.mem_cons_self .., hst⟩
    · obtain ⟨t, ht, h⟩ := ih h
      exact ⟨t, List.mem_cons_of_mem _ ht, h⟩
    · cases h

/-- C52: whatever the thresholds and shifts, when `ichol` returns, its result acts as a linear, symmetric and positive
definite map. -/
theorem C52_ichol_spd {A : Csc} (hA : Canonical A) {o : Opts} {shifts : List ℝ} {st : St}
    (h : ichol A o shifts = some st) : SPD fun b : Fin A.n → ℝ => fun i : Fin A.n => cholApply st.L A.n (arr b) i := by
  obtain ⟨s, _, hs⟩ := ichol_some h
  have hr := ichol_refines hA { o with shift := s }
  rw [hs] at hr
  exact C52_cholesky_spd hr.1

theorem colAbs_eq {A : Csc} {j : ℕ} (hs : Sorted (A.cols j)) (hlt : ∀ e ∈ A.cols j, e.1 < A.n) :
    colAbs A j = ∑ k ∈ Finset.range A.n, if j ≤ k then |ent A k j| else 0 := by
  unfold colAbs ent
  generalize A.cols j = c at hs hlt
  induction c with
  | nil => simp [entry_nil]
  | cons e c ih =>
    obtain ⟨h1, h2⟩ := List.pairwise_cons.mp hs
    have ih := ih h2 fun x hx => hlt x (List.mem_cons_of_mem _ hx)
    have he := hlt e (List.mem_cons_self ..)
    have hz : entry c e.1 = 0 := entry_zero fun x hx => (h1 x hx).ne'
    have hsplit : ∀ k, (if j ≤ k then |entry (e :: c) k| else 0) =
        (if k = e.1 then (if j ≤ e.1 then |e.2| else 0) else 0) + if j ≤ k then |entry c k| else 0 := by
      intro k
      rw [entry_cons]
      by_cases hk : k = e.1
      · subst hk
        simp only [if_true, hz, add_zero, abs_zero, ite_self]
      · rw [if_neg hk, if_neg (Ne.symm hk), zero_add, zero_add]
    simp only [hsplit, Finset.sum_add_distrib]
    rw [← ih, Finset.sum_ite_eq' (Finset.range A.n) e.1, if_pos (Finset.mem_range.mpr he), List.filter_cons]
    by_cases hj : j ≤ e.1
    · simp only [hj, decide_true, if_true, List.map_cons, List.sum_cons]
    · simp only [hj, decide_false, Bool.false_eq_true, if_false, zero_add]

section Ok

variable {A : Csc} {o : Opts} {st : St}

theorem run_factor (hA : Canonical A) (h : icholRun A o = .ok st) :
    ∃ L, IsFactor (ent A) (colAbs A) o A.n L ∧ ∀ k < A.n, ∀ i, L i k = entry (st.L k) i := by
  have hr := ichol_refines hA o
  rw [h] at hr
  obtain ⟨_, ds, h1, h2⟩ := hr
  exact ⟨ds.L, (dense_factor _ _ _ _ _ h1).1, h2⟩

theorem gram_factor {L : ℕ → ℕ → ℝ} (hL : ∀ k < A.n, ∀ i, L i k = entry (st.L k) i) (i j : Fin A.n) :
    (factor st.L A.n * (factor st.L A.n)ᵀ) i j = gram A.n L i j := by
  rw [Matrix.mul_apply, gram, Finset.sum_range]
  exact Finset.sum_congr rfl fun k _ => by rw [hL k k.isLt, hL k k.isLt]; rfl

/-- C83: below the diagonal, the product of the factor and its transpose differs from the matrix by at most
`discard_threshold` times the factor's diagonal entry of that column or `relative_discard_threshold` times the sum of
the absolute values of the column. -/
theorem C83_error_bound (hA : Canonical A) (h0 : 0 ≤ o.discard) (h : icholRun A o = .ok st) (i j : Fin A.n)
    (hij : j < i) : |toMat A i j - (factor st.L A.n * (factor st.L A.n)ᵀ) i j| ≤
      max (o.discard * factor st.L A.n j j) (o.rel * ∑ k with j ≤ k, |toMat A k j|) := by
  obtain ⟨L, hf, hL⟩ := run_factor hA h
  rw [gram_factor hL]
  have hb := gram_bound hf j.isLt hij h0
  have e1 : factor st.L A.n j j = L j j := (hL j j.isLt j).symm
  have e2 : ∑ k with j ≤ k, |toMat A k j| = colAbs A j := by
    rw [colAbs_eq (hA j j.isLt).1 (hA j j.isLt).2.1, Finset.sum_range, Finset.sum_filter]
    rfl
  rw [e1, e2]
  exact hb

/-- C83: with zero thresholds the product of the factor and its transpose is the matrix plus the shift. -/
theorem C83_exact (hA : Canonical A) (hsym : (toMat A)ᵀ = toMat A) (h1 : o.discard = 0) (h2 : o.rel = 0)
    (h : icholRun A o = .ok st) : factor st.L A.n * (factor st.L A.n)ᵀ = toMat A + o.shift • 1 := by
  obtain ⟨L, hf, hL⟩ := run_factor hA h
  have low : ∀ i j : Fin A.n, j ≤ i → (factor st.L A.n * (factor st.L A.n)ᵀ) i j = (toMat A + o.shift • 1) i j := by
    intro i j hij
    rw [gram_factor hL, gram_exact hf h1 h2 j.isLt hij, Matrix.add_apply, Matrix.smul_apply, Matrix.one_apply]
    by_cases hc : i = j
    · subst hc; simp [toMat]
    · have : (i : ℕ) ≠ j := fun h => hc (Fin.ext h)
      simp [toMat, hc, this]
  ext i j
  rcases le_total j i with hij | hij
  · exact low i j hij
  · have h1 : (factor st.L A.n * (factor st.L A.n)ᵀ) i j = (factor st.L A.n * (factor st.L A.n)ᵀ) j i := by
      conv_lhs => rw [← transpose_apply (factor st.L A.n * (factor st.L A.n)ᵀ), transpose_mul, transpose_transpose]
    rw [h1, low j i hij]
    conv_lhs => rw [← hsym]
    rw [Matrix.add_apply, Matrix.add_apply, transpose_apply, Matrix.smul_apply, Matrix.smul_apply, Matrix.one_apply,
      Matrix.one_apply]
    congr 2
    simp only [eq_comm]

/-- C83: with zero thresholds and enough room, `ichol` of a symmetric positive definite matrix returns for the first
shift, if that is zero, and then applying the result solves the system exactly. -/
theorem C83_direct_solver (hA : Canonical A) (hpd : (toMat A).PosDef) (h1 : o.discard = 0) (h2 : o.rel = 0)
    (hmax : A.n * A.n ≤ o.maxNnz) (more : List ℝ) : ∃ st, ichol A o (0 :: more) = some st ∧
      ∀ b : Fin A.n → ℝ, toMat A *ᵥ (fun i : Fin A.n => cholApply st.L A.n (arr b) i) = b := by
  have hsym : (toMat A)ᵀ = toMat A := by
    have := hpd.1
    rwa [IsHermitian, conjTranspose_eq_transpose_of_trivial] at this
  have hs : ∀ i < A.n, ∀ k < A.n, ent A i k = ent A k i := fun i hi k hk =>
    congrFun (congrFun hsym ⟨k, hk⟩) ⟨i, hi⟩
  obtain ⟨ds, hds⟩ := dense_posDef (o := { o with shift := 0 }) (r := colAbs A) hs (by
    rintro x ⟨i, hi, hx⟩
    have := hpd.dotProduct_mulVec_pos (x := fun k : Fin A.n => x k) fun h => hx (congrFun h ⟨i, hi⟩)
    rw [star_trivial] at this
    have e : ∑ i ∈ Finset.range A.n, ∑ k ∈ Finset.range A.n, ent A i k * x i * x k =
        (fun k : Fin A.n => x k) ⬝ᵥ toMat A *ᵥ (fun k : Fin A.n => x k) := by
      rw [Finset.sum_range, dotProduct]
      refine Finset.sum_congr rfl fun a _ => ?_
      rw [Finset.sum_range, mulVec, dotProduct, Finset.mul_sum]
      exact Finset.sum_congr rfl fun b _ => by simp only [toMat, of_apply]; ring
    rw [e]
    exact this) le_rfl h1 h2
  have hr := ichol_refines hA { o with shift := 0 }
  cases hrun : icholRun A { o with shift := 0 } with
  | error c =>
    rw [hrun] at hr
    cases c with
    | notPosDef => rw [hds] at hr; cases hr
    | tooMany => exact absurd hr (by simpa using hmax)
  | ok st =>
    rw [hrun] at hr
    refine ⟨st, by rw [ichol, hrun], fun b => ?_⟩
    have he := C83_exact hA hsym (o := { o with shift := 0 }) h1 h2 hrun
    have hb := C52_cholesky_solves hr.1 b
    rw [he] at hb
    simpa using hb

end Ok

/-! ## The estimator's matrix -/

/-- A symmetric positive definite matrix with non-positive off-diagonal entries maps some positive vector to the vector
of ones. -/
theorem positive_solution {m : ℕ} (A : Matrix (Fin m) (Fin m) ℝ) (hA : A.PosDef) (hoff : ∀ i j, i ≠ j → A i j ≤ 0) :
    ∃ v : Fin m → ℝ, (∀ i, 0 < v i) ∧ A *ᵥ v = fun _ => 1 := by
  have hu : IsUnit A.det := (isUnit_iff_isUnit_det _).mp hA.isUnit
  set v := A⁻¹ *ᵥ (fun _ => (1 : ℝ)) with hv
  have hAv : A *ᵥ v = fun _ => 1 := by rw [hv, mulVec_mulVec, mul_nonsing_inv _ hu, one_mulVec]
  set w : Fin m → ℝ := fun i => max (-v i) 0 with hw
  have hw0 : ∀ i, 0 ≤ w i := fun i => le_max_right _ _
  have hp : ∀ i, 0 ≤ v i + w i := fun i => by
    have := le_max_left (-v i) 0
    simp only [hw]
    linarith
  have hcompl : ∀ i, w i * (v i + w i) = 0 := fun i => by
    simp only [hw]
    rcases le_total (-v i) 0 with h | h
    · rw [max_eq_right h, zero_mul]
    · rw [max_eq_left h, add_neg_cancel, mul_zero]
  have hzero : w = 0 := by
    by_contra hne
    have h1 := hA.dotProduct_mulVec_pos hne
    rw [star_trivial] at h1
    have h2 : w ⬝ᵥ A *ᵥ (v + w) ≤ 0 := by
      rw [dotProduct]
      refine Finset.sum_nonpos fun i _ => ?_
      rw [mulVec, dotProduct, Finset.mul_sum]
      refine Finset.sum_nonpos fun j _ => ?_
      rw [Pi.add_apply]
      by_cases hij : i = j
      · subst hij
        have : w i * (A i i * (v i + w i)) = A i i * (w i * (v i + w i)) := by ring
        rw [this, hcompl, mul_zero]
      · exact mul_nonpos_of_nonneg_of_nonpos (hw0 i) (mul_nonpos_of_nonpos_of_nonneg (hoff i j hij) (hp j))
    have h3 : 0 ≤ w ⬝ᵥ A *ᵥ v := by
      rw [hAv]
      exact Finset.sum_nonneg fun i _ => by simpa using hw0 i
    rw [mulVec_add, dotProduct_add] at h2
    linarith
  have hv0 : ∀ i, 0 ≤ v i := fun i => by
    have := hp i
    rw [hzero] at this
    simpa using this
  refine ⟨v, fun i => ?_, hAv⟩
  have h := congrFun hAv i
  rw [mulVec, dotProduct, ← Finset.add_sum_erase _ _ (Finset.mem_univ i)] at h
  have hs : ∑ j ∈ Finset.univ.erase i, A i j * v j ≤ 0 := Finset.sum_nonpos fun j hj =>
    mul_nonpos_of_nonpos_of_nonneg (hoff i j (Finset.ne_of_mem_erase hj).symm) (hv0 j)
  have hi : 0 < A i i * v i := by linarith
  exact (mul_pos_iff_of_pos_left hA.diag_pos).mp hi

/-- C83: on connected data with positive weights, `ichol` of the two-way estimator's matrix returns for the first shift
already, for all thresholds and both values of `diag_keep_discarded`, if there is room for `n * n` entries. -/
theorem C83_fe_succeeds {n m nw : ℕ} (d : FE.Panel n m nw) (hv : d.Valid) (hc : d.Connected) {A : Csc}
    (hA : Canonical A) (hn : A.n = m) (hent : ∀ i j : Fin m, ent A i j = d.Minv i j) (o : Opts)
    (hmax : A.n * A.n ≤ o.maxNnz) (s : ℝ) (hs : 0 ≤ s) (more : List ℝ) :
    ∃ st, icholRun A { o with shift := s } = .ok st ∧ ichol A o (s :: more) = some st := by
  subst hn
  have hpd := Minv_posDef d hv hc
  obtain ⟨v, hv1, hv2⟩ := positive_solution d.Minv hpd fun i j => Minv_off d hv
  obtain ⟨ds, hds⟩ := dense_mmatrix (A := ent A) (r := colAbs A) (o := { o with shift := s }) (n := A.n)
    (fun i hi k hk => by
      have h1 := hent ⟨i, hi⟩ ⟨k, hk⟩
      have h2 := hent ⟨k, hk⟩ ⟨i, hi⟩
      have h3 := congrFun (congrFun d.Minv_symm ⟨i, hi⟩) ⟨k, hk⟩
      rw [transpose_apply] at h3
      simp only at h1 h2
      rw [h1, h2, h3])
    (fun i hi k hk hik => by
      have h1 := hent ⟨i, hi⟩ ⟨k, hk⟩
      simp only at h1
      rw [h1]
      exact Minv_off d hv fun h => hik (by simpa using h))
    (arr v)
    (fun i hi => by rw [arr, dif_pos hi]; exact hv1 _)
    (fun i hi => by
      have h := congrFun hv2 ⟨i, hi⟩
      rw [Finset.sum_range]
      have e : ∑ k : Fin A.n, ent A i k * arr v k = (d.Minv *ᵥ v) ⟨i, hi⟩ := by
        rw [mulVec, dotProduct]
        refine Finset.sum_congr rfl fun k _ => ?_
        rw [← hent ⟨i, hi⟩ k, arr, dif_pos k.isLt]
      rw [e, h]
      exact one_pos) hs
  have hr := ichol_refines hA { o with shift := s }
  cases hrun : icholRun A { o with shift := s } with
  | error c =>
    rw [hrun] at hr
    cases c with
    | notPosDef => rw [hds] at hr; cases hr
    | tooMany => exact absurd hr (by simpa using hmax)
  | ok st => exact ⟨st, rfl, by rw [ichol, hrun]⟩

/-- A matrix with every entry stored. -/
noncomputable def ofMat {m : ℕ} (M : Matrix (Fin m) (Fin m) ℝ) : Csc where
  n := m
  cols j := if h : j < m then List.ofFn fun i : Fin m => ((i : ℕ), M i ⟨j, h⟩) else []

theorem entry_ofFn {m : ℕ} (f : Fin m → ℝ) (i : Fin m) : entry (List.ofFn fun k : Fin m => ((k : ℕ), f k)) i = f i := by
  unfold entry
  rw [List.map_ofFn, List.sum_ofFn, Finset.sum_eq_single i]
  · simp
  · intro k _ hk
    simp only [Function.comp]
    rw [if_neg fun h => hk (Fin.ext h)]
  · intro h; exact absurd (Finset.mem_univ i) h

theorem ofMat_ent {m : ℕ} (M : Matrix (Fin m) (Fin m) ℝ) (i j : Fin m) : ent (ofMat M) i j = M i j := by
  unfold ent ofMat
  simp only [j.isLt, dif_pos]
  exact entry_ofFn (fun k => M k j) i

theorem ofMat_canonical {m : ℕ} (M : Matrix (Fin m) (Fin m) ℝ) : Canonical (ofMat M) := by
  intro j hj
  have hj' : j < m := hj
  unfold ofMat
  simp only [hj', dif_pos]
  refine ⟨?_, ?_, ?_⟩
  · unfold Sorted
    rw [List.pairwise_ofFn]
    intro a b hab
    exact hab
  · intro e he
    obtain ⟨k, rfl⟩ := List.mem_ofFn.mp he
    exact k.isLt
  · exact ⟨(j, M ⟨j, hj'⟩ ⟨j, hj'⟩), List.mem_ofFn.mpr ⟨⟨j, hj'⟩, rfl⟩, rfl⟩

/-- The package's default options for the two-way estimator, fe.py:533-535, ichol.py:186-193. -/
noncomputable def feOpts : Opts where
  discard := 5 / 100
  shift := 0
  maxNnz := 250000000
  rel := 0
  keep := true

example : ∃ st, ichol (ofMat FE.ex.Minv) feOpts [0, 1 / 10 ^ 4] = some st := by
  obtain ⟨st, _, h⟩ := C83_fe_succeeds FE.ex FE.ex_valid FE.ex_connected (ofMat_canonical _) rfl
    (ofMat_ent _) feOpts (by simp [ofMat, feOpts]) 0 le_rfl [1 / 10 ^ 4]
  exact ⟨st, h⟩

example : ∃ st, ichol (ofMat conMat) { feOpts with discard := 0 } [0] = some st ∧
    ∀ b : Fin 3 → ℝ, conMat *ᵥ (fun i : Fin 3 => cholApply st.L 3 (arr b) i) = b := by
  have e : toMat (ofMat conMat) = conMat := by
    ext i j
    exact ofMat_ent _ i j
  have h := C83_direct_solver (A := ofMat conMat) (o := { feOpts with discard := 0 }) (ofMat_canonical _)
    (by rw [e]; exact conMat_posDef) rfl rfl (by simp [ofMat, feOpts]) []
  rw [e] at h
  exact h

/-- A symmetric matrix whose second column stores nothing. -/
def gapMat : Csc where
  n := 3
  cols := fun j => if j = 0 then [(0, 3), (2, 2)] else if j = 2 then [(0, 2), (2, 5)] else []

/-- C83 needs stored diagonal entries: without one, the entries of earlier columns are taken for those of this one.  Here
entry 2, 1 of the matrix is 0, but `ichol` with zero thresholds and shift 1 returns a factor whose product has 2. -/
theorem C83_missing_diagonal : ent gapMat 2 1 = 0 ∧
    ∃ st, ichol gapMat { feOpts with discard := 0 } [1] = some st ∧ gram 3 (fun i j => entry (st.L j) i) 2 1 = 2 := by
  refine ⟨by simp [ent, gapMat, entry], ?_⟩
  have h4 : √(1 + 3 : ℝ) = 2 := by
    rw [show (1 + 3 : ℝ) = 2 ^ 2 by norm_num]
    exact Real.sqrt_sq (by norm_num)
  have c4 : ¬ (1 + 3 : ℝ) ≤ 0 := by norm_num
  have c1 : ¬ (1 : ℝ) ≤ 0 := by norm_num
  have e5 : √(5 - 2 * 2 : ℝ) = 1 := by norm_num
  have c5 : ¬ (5 - 2 * 2 : ℝ) ≤ 0 := by norm_num
  simp [ichol, icholRun, gapMat, List.range_succ, icholStep, icholInit, feOpts, scan, loadCol, Acc.add, walk, diag0,
    Function.update, colAbs, emit, bind, Except.bind, h4, c4, c5, c1, e5]
  refine ⟨_, rfl, ?_⟩
  simp [gram, Finset.sum_range_succ, entry, Function.update]

end Pytwoway.Precond
