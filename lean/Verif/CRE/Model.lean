import Mathlib.Data.Real.Basic
import Mathlib.Data.Fintype.BigOperators
import Mathlib.Data.Matrix.Mul
import Mathlib.LinearAlgebra.Matrix.NonsingularInverse

/-! # Model of `pytwoway/cre.py`: the correlated random effects estimator

Floats are exact reals.  `nf` firms are `Fin nf`, and `K + 1` clusters are `Fin (K + 1)`; the last cluster is
the normalised one.  The mover frame `jdata` is a family of rows indexed by `Fin mn`, the stayer frame
`sdata` a family indexed by `Fin ns`; both contain only rows with `cs == 1` (cre.py:152, 157).  The length
check made by `set_index(np.arange(self.ns) + self.mn)` (cre.py:157) is not modelled: the stayer frame is
taken to have exactly one row per stayer, as collapsed data do.  A pandas `groupby(...).agg` followed by an
inner `merge` on the key is modelled as attaching to each row the aggregate of its key, dropping the row when
the key is absent; the order of rows after a merge is not modelled (no result depends on it). -/

namespace Pytwoway.CRE

open Matrix

variable {nf K mn ns : ℕ}

/-- A row of the event-study mover frame (cre.py:81-103): firms, clusters and outcomes of two spells. -/
structure MRow (nf K : ℕ) where
  j1 : Fin nf
  j2 : Fin nf
  g1 : Fin (K + 1)
  g2 : Fin (K + 1)
  y1 : ℝ
  y2 : ℝ

/-- A stayer row: columns `j1`, `g1` and `y1` (cre.py:81-103). -/
structure SRow (nf K : ℕ) where
  j1 : Fin nf
  g1 : Fin (K + 1)
  y1 : ℝ

/-- The two frames built in `CREEstimator.fit` (cre.py:152-157). -/
structure Data (nf K mn ns : ℕ) where
  mv : Fin mn → MRow nf K
  st : Fin ns → SRow nf K

/-- pandas `mean` of a group: sum over the rows of the group divided by their number.
Used for cre.py:53-56 and cre.py:288-291. -/
noncomputable def gmean {n : ℕ} (S : Finset (Fin n)) (f : Fin n → ℝ) : ℝ := (∑ k ∈ S, f k) / (S.card : ℝ)

/-- `_pipe_qcov` (cre.py:53-56), the off-diagonal entry of `np.cov` (`ddof=1`) over the rows in `S`. -/
noncomputable def qcov {n : ℕ} (S : Finset (Fin n)) (u v : Fin n → ℝ) : ℝ :=
  (∑ k ∈ S, (u k - gmean S u) * (v k - gmean S v)) / ((S.card : ℝ) - 1)

/-! ## `__estimate_between_cluster` (cre.py:257-312) -/

/-- `Jc = J2c - J1c` restricted to all clusters but the last (cre.py:270-273). -/
def Data.Jc (d : Data nf K mn ns) : Matrix (Fin mn) (Fin K) ℝ := fun r c =>
  (if (d.mv r).g2 = c.castSucc then 1 else 0) - (if (d.mv r).g1 = c.castSucc then 1 else 0)

/-- `Yc = y2 - y1` (cre.py:274). -/
def Data.Yc (d : Data nf K mn ns) : Fin mn → ℝ := fun r => (d.mv r).y2 - (d.mv r).y1

/-- `A = spsolve(Mc, Jc.T * Yc)` with `Mc = Jc.T * Jc` (cre.py:279-280); `solve` is scipy's sparse solver. -/
def Data.A (d : Data nf K mn ns) (solve : Matrix (Fin K) (Fin K) ℝ → (Fin K → ℝ) → (Fin K → ℝ)) : Fin K → ℝ :=
  solve (d.Jcᵀ * d.Jc) (d.Jcᵀ *ᵥ d.Yc)

/-- `pb['Afill']`: zeroed when `wo_btw`, then a zero appended for the last cluster (cre.py:281-283). -/
def afill (wo : Bool) (A : Fin K → ℝ) : Fin (K + 1) → ℝ :=
  Fin.snoc (α := fun _ => ℝ) (if wo then 0 else A) 0

/-- `jdata['psi1_tmp']` (cre.py:285). -/
def Data.psi1 (d : Data nf K mn ns) (af : Fin (K + 1) → ℝ) (r : Fin mn) : ℝ := af (d.mv r).g1

/-- `jdata["psi2_tmp"]` (cre.py:286). -/
def Data.psi2 (d : Data nf K mn ns) (af : Fin (K + 1) → ℝ) (r : Fin mn) : ℝ := af (d.mv r).g2

/-- `sdata["psi1_tmp"]` (cre.py:296). -/
def Data.psiS (d : Data nf K mn ns) (af : Fin (K + 1) → ℝ) (r : Fin ns) : ℝ := af (d.st r).g1

/-- The mover column `mx`: the mean over the rows of the same pair of clusters of the average outcome net of
the cluster effects, or zero with `wo_btw` (cre.py:288-291). -/
noncomputable def Data.mxM (d : Data nf K mn ns) (wo : Bool) (af : Fin (K + 1) → ℝ) (r : Fin mn) : ℝ :=
  if wo then 0 else
    gmean (Finset.univ.filter fun r' => (d.mv r').g1 = (d.mv r).g1 ∧ (d.mv r').g2 = (d.mv r).g2)
      fun r' => 1 / 2 * ((d.mv r').y2 - d.psi2 af r' + (d.mv r').y1 - d.psi1 af r')

/-- The stayer column `mx`: the mean over the stayers of the same cluster of the outcome net of the cluster
effect, or zero with `wo_btw` (cre.py:297-300). -/
noncomputable def Data.mxS (d : Data nf K mn ns) (wo : Bool) (af : Fin (K + 1) → ℝ) (r : Fin ns) : ℝ :=
  if wo then 0 else
    gmean (Finset.univ.filter fun r' => (d.st r').g1 = (d.st r).g1) fun r' => (d.st r').y1 - d.psiS af r'

/-! ## `_estimate_within_cluster` (cre.py:314-402)

`NM` and `NS` are the frames `dm` and `ds` right after line 328: firms, clusters, and outcomes net of the
between-cluster means. -/

/-- A row of `dm` (cre.py:325-327). -/
structure NMRow (nf K : ℕ) where
  j1 : Fin nf
  j2 : Fin nf
  g1 : Fin (K + 1)
  g2 : Fin (K + 1)
  y1n : ℝ
  y2n : ℝ

/-- A row of `ds` (cre.py:328). -/
structure NSRow (nf K : ℕ) where
  j1 : Fin nf
  g1 : Fin (K + 1)
  y1n : ℝ

/-- `dm` (cre.py:325-327). -/
noncomputable def Data.dm (d : Data nf K mn ns) (wo : Bool) (af : Fin (K + 1) → ℝ) : Fin mn → NMRow nf K := fun r =>
  { j1 := (d.mv r).j1, j2 := (d.mv r).j2, g1 := (d.mv r).g1, g2 := (d.mv r).g2
    y1n := (d.mv r).y1 - d.psi1 af r - d.mxM wo af r
    y2n := (d.mv r).y2 - d.psi2 af r - d.mxM wo af r }

/-- `ds` (cre.py:328). -/
noncomputable def Data.ds (d : Data nf K mn ns) (wo : Bool) (af : Fin (K + 1) → ℝ) : Fin ns → NSRow nf K := fun r =>
  { j1 := (d.st r).j1, g1 := (d.st r).g1, y1n := (d.st r).y1 - d.psiS af r - d.mxS wo af r }

/-- One row of an aggregated frame: the means of one or two columns and the count of the group.
Used for cre.py:331 and cre.py:333. -/
structure Agg where
  m1 : ℝ
  m2 : ℝ
  cnt : ℕ

/-- `groupby(key).agg(mean, mean, count)` looked up at one key: absent when no row has the key.
Used for cre.py:331 and cre.py:333. -/
noncomputable def agg {n : ℕ} (S : Finset (Fin n)) (f1 f2 : Fin n → ℝ) : Option Agg :=
  if S.card = 0 then none else some { m1 := gmean S f1, m2 := gmean S f2, cnt := S.card }

variable (dm : Fin mn → NMRow nf K) (ds : Fin ns → NSRow nf K)

/-- `dsf` at firm `j` (cre.py:331); only the first mean is used. -/
noncomputable def dsf (j : Fin nf) : Option Agg :=
  agg (Finset.univ.filter fun r => (ds r).j1 = j) (fun r => (ds r).y1n) fun r => (ds r).y1n

/-- `dm1f` at firm `j`: movers leaving the firm (cre.py:333). -/
noncomputable def dm1f (j : Fin nf) : Option Agg :=
  agg (Finset.univ.filter fun r => (dm r).j1 = j) (fun r => (dm r).y1n) fun r => (dm r).y2n

/-- `dm2f` at firm `j`: movers joining the firm (cre.py:335). -/
noncomputable def dm2f (j : Fin nf) : Option Agg :=
  agg (Finset.univ.filter fun r => (dm r).j2 = j) (fun r => (dm r).y1n) fun r => (dm r).y2n

/-- `dm1c` at a firm and a destination cluster (cre.py:338). -/
noncomputable def dm1c (j : Fin nf) (g : Fin (K + 1)) : Option Agg :=
  agg (Finset.univ.filter fun r => (dm r).j1 = j ∧ (dm r).g2 = g) (fun r => (dm r).y1n) fun r => (dm r).y2n

/-- `dm2c` at a firm and an origin cluster (cre.py:339). -/
noncomputable def dm2c (j : Fin nf) (g : Fin (K + 1)) : Option Agg :=
  agg (Finset.univ.filter fun r => (dm r).j2 = j ∧ (dm r).g1 = g) (fun r => (dm r).y1n) fun r => (dm r).y2n

/-- The columns of the merged stayer frame that are read later (cre.py:342-344, 351). -/
structure SExt where
  nsj : ℕ
  y1s_lo : ℝ
  y1m1j : ℝ
  y2m1j : ℝ
  nm1j : ℕ
  y1m2j : ℝ
  y2m2j : ℝ
  nm2j : ℕ

/-- The stayer row after the three inner merges and `y1s_lo` (cre.py:342-344, 351); `none` when a merge drops
the row. -/
noncomputable def sExt (r : Fin ns) : Option SExt := do
  let f ← dsf ds (ds r).j1
  let m1 ← dm1f dm (ds r).j1
  let m2 ← dm2f dm (ds r).j1
  some
    { nsj := f.cnt
      y1s_lo := ((f.cnt : ℝ) * f.m1 - (ds r).y1n) / ((f.cnt : ℝ) - 1)
      y1m1j := m1.m1, y2m1j := m1.m2, nm1j := m1.cnt
      y1m2j := m2.m1, y2m2j := m2.m2, nm2j := m2.cnt }

/-- The columns of the merged mover frame that are read later (cre.py:345-348, 356-359). -/
structure MExt where
  nm1j : ℕ
  nm1c : ℕ
  nm2j : ℕ
  nm2c : ℕ
  y1m1j_lo : ℝ
  y2m1j_lo : ℝ
  y1m2j_lo : ℝ
  y2m2j_lo : ℝ

/-- `(n * m - nc * mc) / (n - nc)`, the expression of each leave-out column (cre.py:356-359). -/
noncomputable def leaveOut (n nc : ℕ) (m mc : ℝ) : ℝ := ((n : ℝ) * m - (nc : ℝ) * mc) / ((n : ℝ) - (nc : ℝ))

/-- The mover row after the four inner merges and the four leave-out columns (cre.py:345-348, 356-359). -/
noncomputable def mExt (r : Fin mn) : Option MExt := do
  let a ← dm1f dm (dm r).j1
  let b ← dm2f dm (dm r).j2
  let ac ← dm1c dm (dm r).j1 (dm r).g2
  let bc ← dm2c dm (dm r).j2 (dm r).g1
  some
    { nm1j := a.cnt, nm1c := ac.cnt, nm2j := b.cnt, nm2c := bc.cnt
      y1m1j_lo := leaveOut a.cnt ac.cnt a.m1 ac.m1
      y2m1j_lo := leaveOut a.cnt ac.cnt a.m2 ac.m2
      y1m2j_lo := leaveOut b.cnt bc.cnt b.m1 bc.m1
      y2m2j_lo := leaveOut b.cnt bc.cnt b.m2 bc.m2 }

/-- The rows of a merged frame satisfying a `query` (the dropped rows satisfy none).  Used for cre.py:361-399. -/
noncomputable def query {n : ℕ} {α : Type} (e : Fin n → Option α) (p : Fin n → α → Prop) : Finset (Fin n) := by
  classical exact Finset.univ.filter fun r => ∃ a, e r = some a ∧ p r a

/-- A column of a merged frame.  Used for cre.py:361-399. -/
noncomputable def col {n : ℕ} {α : Type} (e : Fin n → Option α) (f : α → ℝ) (r : Fin n) : ℝ := (e r).elim 0 f

/-- The entries of `moments_within` used by `__estimate_within_parameters` (cre.py:361-399). -/
structure Moments where
  y1s_y1s : ℝ
  y1s_y1m1 : ℝ
  y1s_y2m1 : ℝ
  y1m1_y1m1 : ℝ
  y2m1_y1m1 : ℝ
  y2m1_y2m1 : ℝ
  y1s_y1m2 : ℝ
  y1s_y2m2 : ℝ
  y1m2_y1m2 : ℝ
  y2m2_y1m2 : ℝ
  y2m2_y2m2 : ℝ
  dym_dym : ℝ

/-- `moments_within` (cre.py:361-399); the counts, `y1s_var`, `y1m_var`, `y2m_var` and `y1m_y2m`, which no later
step reads, are left out.  The guards `nm1j > 0`, `nm2j > 0` hold for every merged row. -/
noncomputable def momentsWithin : Moments :=
  let s := sExt dm ds
  let m := mExt dm
  let y1 := fun r => (ds r).y1n
  let m1 := fun r => (dm r).y1n
  let m2 := fun r => (dm r).y2n
  let q1 := query m fun _ e => e.nm1c < e.nm1j
  let q2 := query m fun _ e => e.nm2c < e.nm2j
  { y1s_y1s := qcov (query s fun _ e => 1 < e.nsj) y1 (col s SExt.y1s_lo)
    y1s_y1m1 := qcov (query s fun _ e => 0 < e.nm1j) y1 (col s SExt.y1m1j)
    y1s_y2m1 := qcov (query s fun _ e => 0 < e.nm1j) y1 (col s SExt.y2m1j)
    y1m1_y1m1 := qcov q1 m1 (col m MExt.y1m1j_lo)
    y2m1_y1m1 := qcov q1 m2 (col m MExt.y1m1j_lo)
    y2m1_y2m1 := qcov q1 m2 (col m MExt.y2m1j_lo)
    y1s_y1m2 := qcov (query s fun _ e => 0 < e.nm2j) y1 (col s SExt.y1m2j)
    y1s_y2m2 := qcov (query s fun _ e => 0 < e.nm2j) y1 (col s SExt.y2m2j)
    y1m2_y1m2 := qcov q2 m1 (col m MExt.y1m2j_lo)
    y2m2_y1m2 := qcov q2 m2 (col m MExt.y1m2j_lo)
    y2m2_y2m2 := qcov q2 m2 (col m MExt.y2m2j_lo)
    dym_dym := qcov (query m fun r _ => (dm r).g1 ≠ (dm r).g2) (fun r => m2 r - m1 r) fun r => m2 r - m1 r }

/-! ## `__estimate_within_parameters` (cre.py:404-432) -/

/-- `within_params` (cre.py:408-429). -/
structure Params where
  cov_Am1Am1 : ℝ
  cov_Am1Psi1 : ℝ
  var_psi_m1 : ℝ
  cov_Am2Am2 : ℝ
  cov_Am2Psi2 : ℝ
  var_psi_m2 : ℝ
  cov_AsAm1 : ℝ
  cov_AsAm2 : ℝ
  psi_plus_cov1 : ℝ
  psi_plus_cov2 : ℝ
  var_psi : ℝ
  cov_AsPsi1 : ℝ
  cov_AsAs : ℝ
  var_eps : ℝ

/-- `__estimate_within_parameters` (cre.py:404-432), line by line. -/
noncomputable def withinParams (m : Moments) : Params :=
  let a11 := m.y2m1_y2m1
  let ap1 := m.y2m1_y1m1 - a11
  let v1 := m.y1m1_y1m1 - a11 - 2 * ap1
  let a22 := m.y1m2_y1m2
  let ap2 := m.y2m2_y1m2 - a22
  let v2 := m.y2m2_y2m2 - a22 - 2 * ap2
  let p1 := m.y1s_y1m1 - m.y1s_y2m1
  let p2 := m.y1s_y2m2 - m.y1s_y1m2
  let v := (v2 + v1) / 2
  let asp := p1 + p2 - v
  { cov_Am1Am1 := a11, cov_Am1Psi1 := ap1, var_psi_m1 := v1
    cov_Am2Am2 := a22, cov_Am2Psi2 := ap2, var_psi_m2 := v2
    cov_AsAm1 := m.y1s_y2m1 - ap1
    cov_AsAm2 := m.y1s_y1m2 - ap2
    psi_plus_cov1 := p1, psi_plus_cov2 := p2
    var_psi := v
    cov_AsPsi1 := asp
    cov_AsAs := m.y1s_y1s - v - 2 * asp
    var_eps := max 0 (m.dym_dym - 2 * v) }

/-! ## `__collect_res` (cre.py:465-496) -/

/-- The result and summary entries written by `__collect_res`. -/
structure Res where
  var_y : ℝ
  var_bw : ℝ
  cov_bw : ℝ
  var_wt : ℝ
  cov_wt : ℝ
  tot_var : ℝ
  tot_cov : ℝ
  /-- `summary['var_y']`, `summary['var_bw']`, `summary['cov_bw']`, `summary['var_tot']`, `summary['cov_tot']` -/
  s_var_y : ℝ
  s_var_bw : ℝ
  s_cov_bw : ℝ
  s_var_tot : ℝ
  s_cov_tot : ℝ

/-- A column of `cdata`, the stayer rows followed by the mover rows (cre.py:162). -/
def cat (s : Fin ns → ℝ) (m : Fin mn → ℝ) : Fin (ns + mn) → ℝ := Fin.append s m

/-- `__collect_res` (cre.py:465-496): `psi`, `mx` and `y` are the columns of `cdata`; `Yq` (cre.py:452-463) is the
outcome of the same cross-section rows in the original order, and its variance (`ddof=0`, line 486, which
overwrites line 473) does not depend on the order.  The `ns` of the formula is the number of workers who are
not movers (cre.py:217-218); it equals the number of stayer rows (see the header). -/
noncomputable def collectRes (psi mx y : Fin (ns + mn) → ℝ) (pw : Params) : Res :=
  let varBw := qcov Finset.univ psi psi
  let covBw := qcov Finset.univ psi mx
  let covWt := ((ns : ℝ) * pw.cov_AsPsi1 + (mn : ℝ) * pw.cov_Am1Psi1) / ((ns : ℝ) + (mn : ℝ))
  let totVar := varBw + pw.var_psi
  let totCov := covBw + covWt
  let varY := (∑ r, (y r - gmean Finset.univ y) ^ 2) / (((ns + mn : ℕ) : ℝ))
  { var_y := varY, var_bw := varBw, cov_bw := covBw, var_wt := pw.var_psi, cov_wt := covWt
    tot_var := totVar, tot_cov := totCov
    s_var_y := varY, s_var_bw := varBw, s_cov_bw := covBw, s_var_tot := totVar, s_cov_tot := totCov }

/-- `CREEstimator.fit` up to `__collect_res` (cre.py:135-165). -/
noncomputable def Data.fit (d : Data nf K mn ns)
    (solve : Matrix (Fin K) (Fin K) ℝ → (Fin K → ℝ) → (Fin K → ℝ)) (wo : Bool) : Res :=
  let af := afill wo (d.A solve)
  let pw := withinParams (momentsWithin (d.dm wo af) (d.ds wo af))
  collectRes (cat (d.psiS af) (d.psi1 af)) (cat (d.mxS wo af) (d.mxM wo af))
    (cat (fun r => (d.st r).y1) fun r => (d.mv r).y1) pw

/-! ## Posterior (cre.py:498-567) -/

/-- `self.Mud = Jf * Afill` (cre.py:498-507), where `Jf` has a one for every distinct pair of a firm and a
cluster seen in the mover frame, in either spell. -/
noncomputable def Data.mud (d : Data nf K mn ns) (af : Fin (K + 1) → ℝ) (j : Fin nf) : ℝ := by
  classical exact ∑ g : Fin (K + 1),
    if ∃ r, ((d.mv r).j1 = j ∧ (d.mv r).g1 = g) ∨ ((d.mv r).j2 = j ∧ (d.mv r).g2 = g) then af g else 0

/-- `Jd = J2 - J1` (cre.py:518-520). -/
def Data.Jd (d : Data nf K mn ns) : Matrix (Fin mn) (Fin nf) ℝ := fun r j =>
  (if (d.mv r).j2 = j then 1 else 0) - (if (d.mv r).j1 = j then 1 else 0)

/-- `Jq` (cre.py:522-526): the firm of every cross-section row, in the order of `cdata`. -/
def Data.Jq (d : Data nf K mn ns) : Matrix (Fin (ns + mn)) (Fin nf) ℝ := fun r j =>
  if Fin.append (fun s => (d.st s).j1) (fun m => (d.mv m).j1) r = j then 1 else 0

/-- `M` (cre.py:534). -/
noncomputable def Data.M (d : Data nf K mn ns) (varPsi varEps : ℝ) : Matrix (Fin nf) (Fin nf) ℝ :=
  (1 / varPsi) • (1 : Matrix (Fin nf) (Fin nf) ℝ) + (1 / varEps) • (d.Jdᵀ * d.Jd)

/-- `v1` (cre.py:548-549). -/
noncomputable def Data.v1 (d : Data nf K mn ns) (varPsi varEps : ℝ) (mud : Fin nf → ℝ) : Fin nf → ℝ :=
  (1 / varPsi) • mud + (1 / varEps) • (d.Jdᵀ *ᵥ d.Yc)

/-- The direct term `t1 = np.var(Jq * solve(v1))`, `ddof=0` (cre.py:550-551). -/
noncomputable def Data.postT1 (d : Data nf K mn ns) (solve : (Fin nf → ℝ) → (Fin nf → ℝ)) (v : Fin nf → ℝ) : ℝ :=
  let v2 := d.Jq *ᵥ solve v
  (∑ r, (v2 r - gmean Finset.univ v2) ^ 2) / (((ns + mn : ℕ) : ℝ))

/-- One draw of the trace term `np.cov(Jq * Zpsi, Jq * solve(Zpsi))[0][1]`, `ddof=1` (cre.py:560-564). -/
noncomputable def Data.postDraw (d : Data nf K mn ns) (solve : (Fin nf → ℝ) → (Fin nf → ℝ)) (z : Fin nf → ℝ) : ℝ :=
  qcov Finset.univ (d.Jq *ᵥ z) (d.Jq *ᵥ solve z)

/-- `posterior_var = t1 + mean of the draws` (cre.py:566-567). -/
noncomputable def Data.posteriorVar (d : Data nf K mn ns) (solve : (Fin nf → ℝ) → (Fin nf → ℝ)) (v : Fin nf → ℝ)
    {R : ℕ} (z : Fin R → Fin nf → ℝ) : ℝ :=
  d.postT1 solve v + (∑ k, d.postDraw solve (z k)) / (R : ℝ)

end Pytwoway.CRE
