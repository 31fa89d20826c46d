import Verif.BLM.MStep

/-! # The M-step with control variables: blm.py:1463-1899 (C87, C88)

A control column carries its number of categories (`1` for a continuous column) and the solvers of its constraints.
Simplifications: `quadprog` is any solver meeting `RightSolver`; what numpy keeps in `weights1_cat` and `Xw1_cts`
between the two passes is computed again from the standard deviations, which the first pass does not change; the
check for cycles of the lowest firm type (blm.py:1438-1453) is left out. -/

namespace Pytwoway.BLM

open Finset

variable {ni nl nk : ℕ}

/-- A control column: its data and parameters, the number of categories, and `cons_a_dict[col]`, `cons_s_dict[col]`,
blm.py:748-772. -/
structure Col (ni nl : ℕ) where
  c : Ctrl ni nl
  n : ℕ
  sA : Solver
  sS : Solver

/-- `worker_type_interaction` of the column.  Used for blm.py:1597-1677 and blm.py:1389-1899. -/
def Ctrl.wi : Ctrl ni nl → Bool
  | .catW .. | .ctsW .. => true
  | .catN .. | .ctsN .. => false

/-- What a column without interaction adds to the mean: blm.py:1600, 1686. -/
def Ctrl.nonA (t : Fin 2) (i : Fin ni) : Ctrl ni nl → ℝ
  | .catN C A _ => A t (C t i)
  | .ctsN C A _ => A t * C t i
  | _ => 0

/-- What a column with interaction adds to the mean for worker type `l`: blm.py:1631, 1715. -/
def Ctrl.byA (l : Fin nl) (t : Fin 2) (i : Fin ni) : Ctrl ni nl → ℝ
  | .catW C A _ => A t l (C t i)
  | .ctsW C A _ => A t l * C t i
  | _ => 0

/-- The column's own variance for worker type `l`: blm.py:1607-1612, 1691-1696. -/
def Ctrl.var (l : Fin nl) (t : Fin 2) (i : Fin ni) : Ctrl ni nl → ℝ
  | .catW C _ S => S t l (C t i) ^ 2
  | .catN C _ S => S t (C t i) ^ 2
  | .ctsW _ _ S => S t l ^ 2
  | .ctsN _ _ S => S t ^ 2

/-- blm.py:1615-1616, 1699-1700: `W * qi[:, l] / S_l`. -/
noncomputable def colWts (d : Data ni nk) (q : Fin ni → Fin nl → ℝ) (c : Ctrl ni nl) (t : Fin 2) (l : Fin nl)
    (i : Fin ni) : ℝ :=
  d.W t i * q i l / c.var l t i

/-- A vector of one value per period, worker type and category: `np.bincount` of a categorical column stored in its
slice (a `ValueError` if the lengths differ), blm.py:1623-1624, 1646-1647, 1804-1805; for a continuous column the sum
over rows of the column times the weights, blm.py:1707-1708, 1719-1720. -/
noncomputable def assembleCol (k : Col ni nl) (f : Fin 2 → Fin nl → Fin ni → ℝ) : Py (ℕ → ℝ) :=
  let cat := fun (C : Fin 2 → Fin ni → ℕ) =>
    let a := fun t l => bincount (C t) (f t l)
    open scoped Classical in
    if ∀ t l, Assignable k.n (a t l) then
      (.ok fun p =>
        if hp : p < nl * k.n then
          assigned k.n (a 0 ⟨p / k.n, Nat.div_lt_of_lt_mul (by rwa [Nat.mul_comm] at hp)⟩) (p % k.n)
        else if hp : p - nl * k.n < nl * k.n then
          assigned k.n (a 1 ⟨(p - nl * k.n) / k.n, Nat.div_lt_of_lt_mul (by rwa [Nat.mul_comm k.n])⟩)
            ((p - nl * k.n) % k.n)
        else 0 : Py (ℕ → ℝ))
    else .error "ValueError"
  let cts := fun (C : Fin 2 → Fin ni → ℝ) =>
    (.ok fun p =>
      if hp : p < nl then ∑ i, C 0 i * f 0 ⟨p, hp⟩ i
      else if hp : p - nl < nl then ∑ i, C 1 i * f 1 ⟨p - nl, hp⟩ i
      else 0 : Py (ℕ → ℝ))
  match k.c with
  | .catW C _ _ | .catN C _ _ => cat C
  | .ctsW C _ _ | .ctsN C _ _ => cts C

/-- What multiplies the coefficient in the design: 1 for a category, the value for a continuous column.
Used for blm.py:1622-1624, 1706-1708. -/
def Ctrl.load (t : Fin 2) (i : Fin ni) : Ctrl ni nl → ℝ
  | .ctsW C _ _ | .ctsN C _ _ => C t i
  | _ => 1

/-- blm.py:1666-1671, 1741-1746: the solution, read back as the column's effects. -/
def Ctrl.setA (n : ℕ) (x : ℕ → ℝ) : Ctrl ni nl → Ctrl ni nl
  | .catW C _ S => .catW C (fun t l k => x (t.val * (nl * n) + l.val * n + k)) S
  | .catN C _ S => .catN C (fun t k => x (t.val * (nl * n) + k)) S
  | .ctsW C _ S => .ctsW C (fun t l => x (t.val * nl + l.val)) S
  | .ctsN C _ S => .ctsN C (fun t => x (t.val * nl)) S

/-- blm.py:1857-1862, 1882-1887: square roots of the solution, read back as standard deviations. -/
noncomputable def Ctrl.setS (n : ℕ) (x : ℕ → ℝ) : Ctrl ni nl → Ctrl ni nl
  | .catW C A _ => .catW C A fun t l k => √(x (t.val * (nl * n) + l.val * n + k))
  | .catN C A _ => .catN C A fun t k => √(x (t.val * (nl * n) + k))
  | .ctsW C A _ => .ctsW C A fun t l => √(x (t.val * nl + l.val))
  | .ctsN C A _ => .ctsN C A fun t => √(x (t.val * nl))

/-- blm.py:1651-1674, 1727-1750: solve; keep the old effects when there is no solution or `quadprog` raises. -/
noncomputable def Col.solveA (k : Col ni nl) (XwX XwY : ℕ → ℝ) : Col ni nl :=
  match k.sA XwX (fun p => - XwY p) with
  | .ok (some x) => { k with c := k.c.setA k.n x }
  | .ok none => k
  | .error _ => k

/-- blm.py:1844-1867, 1871-1893. -/
noncomputable def Col.solveS (k : Col ni nl) (XwX XwS : ℕ → ℝ) : Col ni nl :=
  match k.sS XwX (fun p => - XwS p) with
  | .ok (some x) => { k with c := k.c.setS k.n x }
  | .ok none => k
  | .error _ => k

/-- `XwX_cat[col]`, `XwX_cts[col]`: blm.py:1622-1624, 1706-1708. -/
noncomputable def colXwX (d : Data ni nk) (q : Fin ni → Fin nl → ℝ) (k : Col ni nl) : Py (ℕ → ℝ) :=
  assembleCol k fun t l i => colWts d q k.c t l i * k.c.load t i

/-- One column of the first pass, blm.py:1597-1677 and 1684-1753: `done` are the columns already updated, `todo` those
still to come.  The column's own effect is taken out of the adjusted outcome (and of the sum over interacted columns),
the constrained regression is solved, and the new effect is put back. -/
noncomputable def colA (d : Data ni nk) (q : Fin ni → Fin nl → ℝ) (A : Fin 2 → Fin nl → Fin nk → ℝ) (updA : Bool)
    (done : List (Col ni nl)) (k : Col ni nl) (todo : List (Col ni nl)) (Yadj : Fin 2 → Fin ni → ℝ) :
    Py (Col ni nl × (Fin 2 → Fin ni → ℝ)) := do
  let Y1 : Fin 2 → Fin ni → ℝ := fun t i => if k.c.wi then Yadj t i else Yadj t i + k.c.nonA t i
  let XwX ← colXwX d q k
  let k' ← if updA then do
      let sum := fun l t i => sumByA ((done ++ k :: todo).map (·.c)) l t i - if k.c.wi then k.c.byA l t i else 0
      let XwY ← assembleCol k fun t l i => colWts d q k.c t l i * (Y1 t i - sum l t i - A t l (d.G t i))
      pure (k.solveA XwX XwY)
    else pure k
  pure (k', fun t i => if k.c.wi then Y1 t i else Y1 t i - k'.c.nonA t i)

/-- The loop over columns of the first pass, categorical before continuous (the order of the list).
Used for blm.py:1591-1899. -/
noncomputable def colsA (d : Data ni nk) (q : Fin ni → Fin nl → ℝ) (A : Fin 2 → Fin nl → Fin nk → ℝ) (updA : Bool) :
    (done todo : List (Col ni nl)) → (Fin 2 → Fin ni → ℝ) → Py (List (Col ni nl) × (Fin 2 → Fin ni → ℝ))
  | done, [], Yadj => .ok (done, Yadj)
  | done, k :: todo, Yadj => do
    let r ← colA d q A updA done k todo Yadj
    colsA d q A updA (done ++ [r.1]) todo r.2

/-- One column of the second pass: blm.py:1794-1819 and 1843-1893; `eps` are the squared residuals.  For a continuous
column the right-hand side is the absolute value of the sum of column times weights times squared residuals. -/
noncomputable def colS (d : Data ni nk) (q : Fin ni → Fin nl → ℝ) (eps : Fin 2 → Fin nl → Fin ni → ℝ) (k : Col ni nl) :
    Py (Col ni nl) := do
  let XwX ← colXwX d q k
  let XwS ← assembleCol k fun t l i => colWts d q k.c t l i * eps t l i
  pure (k.solveS XwX (match k.c with
    | .catW .. | .catN .. => XwS
    | .ctsW .. | .ctsN .. => fun p => |XwS p|))

/-- The M-step after the base effects, blm.py:1591-1899: effects of the control columns, then all standard deviations.
Without `update_s` the clean-up at line 1895 deletes a name that was never bound. -/
noncomputable def mstepRest (d : Data ni nk) (q : Fin ni → Fin nl → ℝ) (b : Base nl nk) (ks : List (Col ni nl))
    (Yadj : Fin 2 → Fin ni → ℝ) (updA updS : Bool) (sS : Solver) (XwX : ℕ → ℝ) (A' : Fin 2 → Fin nl → Fin nk → ℝ) :
    Py (Base nl nk × List (Col ni nl) × (Fin 2 → Fin ni → ℝ)) := do
  let r ← colsA d q A' updA [] ks Yadj
  if updS then
    let eps := fun t l i => (r.2 t i - sumByA (r.1.map (·.c)) l t i - A' t l (d.G t i)) ^ 2
    let XwS ← assemble d fun t l i => wts d b.S q t l i * eps t l i
    let ks' ← r.1.mapM (colS d q eps)
    pure (⟨A', solveS sS XwX XwS b.S⟩, ks', r.2)
  else .error "UnboundLocalError"

/-- The M-step with controls, blm.py:1463-1899. -/
noncomputable def mstepC (d : Data ni nk) (q : Fin ni → Fin nl → ℝ) (b : Base nl nk) (ks : List (Col ni nl))
    (Yadj : Fin 2 → Fin ni → ℝ) (updA updS : Bool) (sA sS : Solver) :
    Py (Base nl nk × List (Col ni nl) × (Fin 2 → Fin ni → ℝ)) := do
  if updA || updS then
    let XwX ← assemble d fun t l i => wts d b.S q t l i
    if updA then
      let XwY ← assemble d fun t l i => wts d b.S q t l i * (Yadj t i - sumByA (ks.map (·.c)) l t i)
      mstepRest d q b ks Yadj updA updS sS XwX (solveA sA XwX XwY b.A)
    else mstepRest d q b ks Yadj updA updS sS XwX b.A
  else pure (b, ks, Yadj)

/-- blm.py:1401-1406, with the sum of the columns without interaction given: `A_sum` is computed in the first
iteration only, blm.py:1396-1399, and otherwise carried over. -/
noncomputable def lpWageC (d : Data ni nk) (b : Base nl nk) (cs : List (Ctrl ni nl)) (Asum : Fin 2 → Fin ni → ℝ)
    (t : Fin 2) (l : Fin nl) (i : Fin ni) : ℝ :=
  lnvar (d.Y t i) (b.A t l (d.G t i) + Asum t i + sumByA cs l t i)
    (b.S t l (d.G t i) ^ 2 + sumNonS cs t i + sumByS cs l t i)

/-- blm.py:1406. -/
noncomputable def lpMoversC (d : Data ni nk) (b : Base nl nk) (cs : List (Ctrl ni nl)) (Asum : Fin 2 → Fin ni → ℝ)
    (pk1 : ℕ → Fin nl → ℝ) (i : Fin ni) (l : Fin nl) : ℝ :=
  Real.log (pk1 (KK d i) l) + d.W 0 i * lpWageC d b cs Asum 0 l i + d.W 1 i * lpWageC d b cs Asum 1 l i

/-- Values carried through the loop: parameters, the cached `A1_sum`, `A2_sum`, and `Y1_adj`, `Y2_adj` (set in the
first M-step, blm.py:1493-1501). -/
structure StateC (ni nl nk : ℕ) where
  base : Base nl nk
  cols : List (Col ni nl)
  pk1 : ℕ → Fin nl → ℝ
  Asum : Fin 2 → Fin ni → ℝ
  Yadj : Option (Fin 2 → Fin ni → ℝ)
  liks : List ℝ

/-- The loop of `_fit_movers` with at least one control column, blm.py:1389-1899.  `sA m` is the solver of the
constraints generated for the lowest firm type `m`, blm.py:1569-1571. -/
noncomputable def loopC [NeZero nl] (d : Data ni nk) (o : MoverOpts) (sA : ℕ → Solver) (sS : Solver)
    (minType : (Fin 2 → Fin nl → Fin nk → ℝ) → ℕ) :
    (fuel : ℕ) → (first : Bool) → (prev : Option ℝ) → (prevMin : ℕ) → StateC ni nl nk → Py (StateC ni nl nk)
  | 0, _, _, _, s => .ok s
  | fuel + 1, first, prev, prevMin, s => do
    let cs := s.cols.map (·.c)
    let Asum := if first then sumNonA cs else s.Asum
    let lp := lpMoversC d s.base cs Asum s.pk1
    let q := posterior lp
    let lik := meanLse lp +
      if !first && o.updPk then (o.dprior - 1) * ∑ p ∈ range (nk ^ 2), ∑ l, Real.log (s.pk1 p l) else 0
    let m := minType s.base.A
    let liks := s.liks ++ [lik]
    if stop lik prev o.threshold (m == prevMin) then .ok { s with Asum := Asum, liks := liks }
    else do
      let pk1 ← nextPk1 o.updPk d q o.dprior s.pk1
      let anyNon := s.cols.any fun k => !k.c.wi
      let Yadj := s.Yadj.getD (if anyNon then fun t i => d.Y t i - Asum t i else d.Y)
      let r ← mstepC d q s.base s.cols Yadj o.updA o.updS (sA m) sS
      let Asum' := if (o.updA || o.updS) && anyNon then fun t i => d.Y t i - r.2.2 t i else Asum
      loopC d o sA sS minType fuel false (some lik) m
        ⟨r.1, r.2.1, pk1, Asum', if o.updA || o.updS then some r.2.2 else none, liks⟩

end Pytwoway.BLM
