import Verif.FEControl.Tolerance
import Verif.FEControl.Probes
import Verif.FE.Invariance

/-! # C119: with controls, estimates do not depend on labels, on order or on units

The specification is `Spec.Renamed`: the same observations in another order, other names for firms, workers, categories
and controls, controls listed in another order, continuous controls in other units, all weights multiplied by `c`.
Outcomes may be in other units too: `a * y + b`. -/

namespace Pytwoway.FEControl

open Matrix Pytwoway.Util MeasureTheory FE
open scoped BigOperators
open FE.Panel (WOpt Stayers LevAvg)
open Tol (effects multA_fit gammaTrue_effects attached_effects exists_ofFn)
open Tol.Spec (fit)

namespace Spec

/-- The two lists match item by item when the second is put in another order. -/
def Listed {α : Type*} (rel : α → α → Prop) (l l' : List α) : Prop :=
  ∃ l'', List.Forall₂ rel l l'' ∧ l''.Perm l'

/-- `d'` holds the observations of `d`: row `o` of `d` is row `σ o` of `d'`, firm `k` is called `f k`, worker `i` is
called `g i`; control `s` is called `ν s` and may be listed elsewhere; category `v` of control `s` is called `κ s v`;
a continuous control `s` is `r s` times the one of `d` plus `e s`; weights (if there are any) are `c` times those of `d`.
The names `psi` and `alpha` the estimator gives to firms and workers stay. -/
structure Renamed {n m nw : ℕ} (d d' : CData n m nw) (σ : Fin n ≃ Fin n) (f : Fin (m + 1) ≃ Fin (m + 1))
    (g : Fin nw ≃ Fin nw) (ν : String ≃ String) (κ : String → ℕ ≃ ℕ) (r e : String → ℝ) (c : ℝ) : Prop where
  firm : ∀ o, d'.j (σ o) = f (d.j o)
  worker : ∀ o, d'.i (σ o) = g (d.i o)
  weighted : d'.weighted = d.weighted
  weight : ∀ o, d'.w (σ o) = c * d.w o
  pos : 0 < c
  psi : ν "psi" = "psi"
  alpha : ν "alpha" = "alpha"
  unit : ∀ s, r s ≠ 0
  cats : Listed (fun x x' => x'.name = ν x.name ∧ x'.k = x.k ∧ ∀ o, (x'.val (σ o) : ℕ) = κ x.name (x.val o)) d.cats d'.cats
  cts : Listed (fun x x' => x'.name = ν x.name ∧ ∀ o, x'.val (σ o) = r x.name * x.val o + e x.name) d.cts d'.cts

/-- The column attached to the data for the named covariate, at row `o`. -/
def column {n m nw : ℕ} (d : CData n m nw) (gh : List ℝ) (s : String) (o : Fin n) : Option ℝ := do
  let l ← d.attached gh o
  l[d.names.idxOf s]?

end Spec

variable {n m nw R : ℕ} {d d' : CData n m nw} {σ : Fin n ≃ Fin n} {f : Fin (m + 1) ≃ Fin (m + 1)}
  {g : Fin nw ≃ Fin nw} {ν : String ≃ String} {κ : String → ℕ ≃ ℕ} {r e : String → ℝ} {a b c : ℝ}
  {solve solve' : List ℝ → List ℝ}

/-! ## Lists in another order -/

theorem Listed_sum {α : Type*} {rel : α → α → Prop} {l l' : List α} (h : Spec.Listed rel l l') (u u' : α → ℝ)
    (hu : ∀ x ∈ l, ∀ x', rel x x' → u' x' = u x) : (l'.map u').sum = (l.map u).sum := by
  obtain ⟨l2, h1, h2⟩ := h
  rw [← (h2.map u').sum_eq]
  clear h2
  induction h1 with
  | nil => rfl
  | cons hx _ ih =>
    rw [List.map_cons, List.map_cons, List.sum_cons, List.sum_cons, hu _ (by simp) _ hx,
      ih fun x hx => hu x (List.mem_cons_of_mem _ hx)]

theorem Listed_map {α β : Type*} {rel : α → α → Prop} {l l' : List α} (h : Spec.Listed rel l l') (u u' : α → β)
    (hu : ∀ x x', rel x x' → u' x' = u x) : (l'.map u').Perm (l.map u) := by
  obtain ⟨l2, h1, h2⟩ := h
  refine (h2.map u').symm.trans (List.Perm.of_eq ?_)
  clear h2
  induction h1 with
  | nil => rfl
  | cons hx _ ih => rw [List.map_cons, List.map_cons, hu _ _ hx, ih]

theorem Listed_mem {α : Type*} {rel : α → α → Prop} {l l' : List α} (h : Spec.Listed rel l l') {x : α} (hx : x ∈ l) :
    ∃ x' ∈ l', rel x x' := by
  obtain ⟨l2, h1, h2⟩ := h
  have : ∃ x' ∈ l2, rel x x' := by
    clear h2
    induction h1 with
    | nil => simp at hx
    | cons hr _ ih =>
      rcases List.mem_cons.1 hx with rfl | hx
      · exact ⟨_, by simp, hr⟩
      · obtain ⟨x', m1, m2⟩ := ih hx
        exact ⟨x', List.mem_cons_of_mem _ m1, m2⟩
  obtain ⟨x', m1, m2⟩ := this
  exact ⟨x', h2.mem_iff.1 m1, m2⟩

/-! ## Effects with the same fitted values -/

theorem gammaTrue_slice (t : Truth m nw) {pre post : List (Cov n)} {q : Cov n} (hs : d.covs = pre ++ q :: post) :
    slice (d.gammaTrue t) (start m nw pre) (start m nw pre + q.size m nw)
      = t.co (t.psi 0 + (d.cats.map fun c => t.eff c.name 0).sum) q := by
  set base := t.psi 0 + (d.cats.map fun c => t.eff c.name 0).sum with hbase
  have := slice_flatten (t.co base) pre post q
  rw [← hs] at this
  have hl1 : ∀ c : Cov n, (t.co base c).length = c.size m nw := fun c => by
    rw [co_length (d := d), Cov.cols_length]
  rw [CData.gammaTrue, start]
  simpa only [hl1] using this

theorem coef_gammaTrue (h : d.names.Nodup) (t : Truth m nw) {x : Cts n} (hx : x ∈ d.cts) :
    dget (d.unpack (d.gammaTrue t)).gamma x.name = some (.num (t.coef x.name)) := by
  obtain ⟨pre, post, hs⟩ := mem_of_split (show Cov.cts x ∈ d.covs by simp [CData.covs, hx])
  have h1 := gamma_of_split h (d.gammaTrue t) hs
  rw [gammaTrue_slice t hs] at h1
  exact h1

theorem effect_of_gamma (h : d.names.Nodup) {t u : Truth m nw} (he : d.gammaTrue t = d.gammaTrue u) (s : String)
    (hsn : s ∈ d.names) : ∃ k, ∀ o, d.effect t s o = d.effect u s o + k := by
  obtain ⟨k1, e1⟩ := qCol_gammaTrue h t [s] (by simpa using hsn) []
  obtain ⟨k2, e2⟩ := qCol_gammaTrue h u [s] (by simpa using hsn) []
  rw [he, e2, Option.some_inj] at e1
  refine ⟨k2 - k1, fun o => ?_⟩
  have := congrFun e1 o
  simp only [List.map_cons, List.map_nil, List.sum_cons, List.sum_nil, add_zero] at this
  linarith

theorem gamma_of_fit (hd : d.Ok) {t u : Truth m nw} (hf : ∀ o, fit d t o = fit d u o) :
    d.gammaTrue t = d.gammaTrue u :=
  hd.ident _ _ (gammaTrue_length hd.names t) (gammaTrue_length hd.names u) fun o => by
    rw [multA_fit, multA_fit, hf]

/-- Effects `a * t`, with `b` added to every worker. -/
def Truth.lin (a b : ℝ) (t : Truth m nw) : Truth m nw :=
  ⟨fun k => a * t.psi k, fun i => a * t.alpha i + b, fun s v => a * t.eff s v, fun s => a * t.coef s⟩

theorem fit_lin (t : Truth m nw) (o : Fin n) : fit d (t.lin a b) o = a * fit d t o + b := by
  have h1 : ∀ {α : Type} (l : List α) (u : α → ℝ), (l.map fun x => a * u x).sum = a * (l.map u).sum := fun l u =>
    List.sum_map_mul_left _ _ _
  simp only [fit, Truth.lin, mul_assoc, h1]
  ring

theorem effect_lin (t : Truth m nw) (s : String) (o : Fin n) :
    d.effect (t.lin a b) s o = a * d.effect t s o + if s = "alpha" then b else 0 := by
  have h1 : ∀ {α : Type} (l : List α) (p : α → Prop) [DecidablePred p] (u : α → ℝ),
      (l.map fun x => if p x then a * u x else 0).sum = a * (l.map fun x => if p x then u x else 0).sum := by
    intro α l p _ u
    rw [← List.sum_map_mul_left]
    congr 1
    exact List.map_congr_left fun x _ => by split <;> simp
  simp only [CData.effect, Truth.lin, mul_assoc, h1]
  by_cases h2 : s = "psi" <;> by_cases h3 : s = "alpha" <;> simp [h2, h3] <;> ring

/-! ## Normal equations -/

theorem orth (h : d.names.Nodup) (hw : ∀ o, 0 ≤ d.Dp o) (hs : d.GoodSolver solve) (u : Truth m nw) :
    ∑ o, d.Dp o * fit d u o * (d.y o - fit d (effects d (d.gammaHat solve)) o) = 0 := by
  obtain ⟨hl, hN⟩ := gammaHat_spec h hw hs
  have h2 := congrArg (dotR (d.gammaTrue u)) hN
  rw [CData.AtDpA, dotR_multAT, dotR_multAT] at h2
  have h3 : ∀ o, fit d (effects d (d.gammaHat solve)) o = d.multA (d.gammaHat solve) o := fun o => by
    rw [← multA_fit, gammaTrue_effects h _ hl]
  simp only [h3, mul_sub, Finset.sum_sub_distrib, ← multA_fit u]
  rw [h2, sub_self]

theorem fit_of_orth (hw : ∀ o, 0 < d.Dp o) {y y' : Fin n → ℝ} {t t' : Truth m nw} {a b : ℝ}
    (h1 : ∀ u, ∑ o, d.Dp o * fit d u o * (y o - fit d t o) = 0)
    (h2 : ∀ u, ∑ o, d.Dp o * fit d u o * (y' o - fit d t' o) = 0) (hy : ∀ o, y' o = a * y o + b) (o : Fin n) :
    fit d t' o = a * fit d t o + b := by
  have e : ∀ u, ∑ o, d.Dp o * fit d u o * (a * fit d t o + b - fit d t' o) = 0 := by
    intro u
    have h3 : ∑ o, d.Dp o * fit d u o * (a * fit d t o + b - fit d t' o)
        = ∑ o, d.Dp o * fit d u o * (y' o - fit d t' o) - a * ∑ o, d.Dp o * fit d u o * (y o - fit d t o) := by
      rw [Finset.mul_sum, ← Finset.sum_sub_distrib]
      exact Finset.sum_congr rfl fun o _ => by rw [hy]; ring
    rw [h3, h1, h2]; ring
  have e1 : ∑ o, d.Dp o * (a * fit d t o + b - fit d t' o) ^ 2 = 0 := by
    have h3 : ∑ o, d.Dp o * (a * fit d t o + b - fit d t' o) ^ 2
        = ∑ o, d.Dp o * fit d (t.lin a b) o * (a * fit d t o + b - fit d t' o)
          - ∑ o, d.Dp o * fit d t' o * (a * fit d t o + b - fit d t' o) := by
      rw [← Finset.sum_sub_distrib]
      exact Finset.sum_congr rfl fun o _ => by rw [fit_lin]; ring
    rw [h3, e, e, sub_zero]
  have e2 := (Finset.sum_eq_zero_iff_of_nonneg fun o _ => mul_nonneg (hw o).le (sq_nonneg _)).1 e1 o (Finset.mem_univ o)
  rcases mul_eq_zero.1 e2 with h3 | h3
  · exact absurd h3 (hw o).ne'
  · have := pow_eq_zero_iff (two_ne_zero) |>.1 h3
    linarith

/-! ## Effects under other names -/

/-- The effects `t` of `d` are the effects `t'` of `d'`. -/
structure Match (d : CData n m nw) (f : Fin (m + 1) ≃ Fin (m + 1)) (g : Fin nw ≃ Fin nw) (ν : String ≃ String)
    (κ : String → ℕ ≃ ℕ) (r e : String → ℝ) (t t' : Truth m nw) : Prop where
  psi : ∀ k, t'.psi (f k) = t.psi k
  alpha : ∀ i, t'.alpha (g i) = t.alpha i - (d.cts.map fun x => t'.coef (ν x.name) * e x.name).sum
  eff : ∀ s v, t'.eff (ν s) (κ s v) = t.eff s v
  coef : ∀ s, t'.coef (ν s) * r s = t.coef s

theorem exists_right (d : CData n m nw) (f : Fin (m + 1) ≃ Fin (m + 1)) (g : Fin nw ≃ Fin nw) (ν : String ≃ String)
    (κ : String → ℕ ≃ ℕ) (r e : String → ℝ) (hr : ∀ s, r s ≠ 0) (t : Truth m nw) : ∃ t', Match d f g ν κ r e t t' :=
  ⟨⟨fun k => t.psi (f.symm k), fun i => t.alpha (g.symm i) - (d.cts.map fun x => t.coef x.name / r x.name * e x.name).sum,
    fun s v => t.eff (ν.symm s) ((κ (ν.symm s)).symm v), fun s => t.coef (ν.symm s) / r (ν.symm s)⟩,
    ⟨by simp, by simp, by simp, fun s => by simp [hr s]⟩⟩

theorem exists_left (d : CData n m nw) (f : Fin (m + 1) ≃ Fin (m + 1)) (g : Fin nw ≃ Fin nw) (ν : String ≃ String)
    (κ : String → ℕ ≃ ℕ) (r e : String → ℝ) (t' : Truth m nw) : ∃ t, Match d f g ν κ r e t t' :=
  ⟨⟨fun k => t'.psi (f k), fun i => t'.alpha (g i) + (d.cts.map fun x => t'.coef (ν x.name) * e x.name).sum,
    fun s v => t'.eff (ν s) (κ s v), fun s => t'.coef (ν s) * r s⟩, ⟨by simp, by simp, by simp, by simp⟩⟩

namespace Spec.Renamed

variable (h : Renamed d d' σ f g ν κ r e c)
include h

theorem names_perm : d'.names.Perm (d.names.map ν) := by
  have h1 := Listed_map h.cats (fun x => ν x.name) Cat.name fun _ _ hx => hx.1
  have h2 := Listed_map h.cts (fun x => ν x.name) Cts.name fun _ _ hx => hx.1
  simp only [CData.names, List.map_cons, List.map_append, List.map_map, Function.comp_def, h.psi, h.alpha]
  exact ((h1.append h2).cons _).cons _

theorem names_nodup (hd : d.names.Nodup) : d'.names.Nodup :=
  h.names_perm.nodup_iff.2 (hd.map ν.injective)

theorem names_mem {s : String} (hs : s ∈ d.names) : ν s ∈ d'.names :=
  h.names_perm.mem_iff.2 (List.mem_map_of_mem hs)

theorem nCov (hd : d.names.Nodup) : d'.nCov = d.nCov := by
  have h1 := (Listed_map h.cats Cat.k Cat.k fun _ _ hx => hx.2.1).sum_eq
  have h2 := (Listed_map h.cts (fun _ => 1) (fun _ => 1) fun _ _ _ => rfl).sum_eq
  rw [nCov_eq hd, nCov_eq (h.names_nodup hd)]
  simp only [CData.covs, List.map_cons, List.map_append, List.map_map, Function.comp_def, Cov.size, List.sum_cons,
    List.sum_append]
  rw [h2, h1]

/-- The factor on the weights that counts. -/
theorem factor_pos : 0 < (if d.weighted then c else 1) := by
  split
  · exact h.pos
  · norm_num

theorem Dp (o : Fin n) : d'.Dp (σ o) = (if d.weighted then c else 1) * d.Dp o := by
  unfold CData.Dp
  rw [h.weighted]
  split
  · exact h.weight o
  · simp

theorem Dp_pos (hd : ∀ o, 0 < d.Dp o) (o : Fin n) : 0 < d'.Dp o := by
  obtain ⟨o, rfl⟩ := σ.surjective o
  rw [h.Dp]; exact mul_pos h.factor_pos (hd o)

theorem withY (y y' : Fin n → ℝ) : Renamed (d.withY y) (d'.withY y') σ f g ν κ r e c :=
  ⟨h.firm, h.worker, h.weighted, h.weight, h.pos, h.psi, h.alpha, h.unit, h.cats, h.cts⟩

theorem fit_eq {t t' : Truth m nw} (hm : Match d f g ν κ r e t t') (o : Fin n) : fit d' t' (σ o) = fit d t o := by
  have h1 := Listed_sum h.cats (fun x => t.eff x.name (x.val o)) (fun x => t'.eff x.name (x.val (σ o)))
    fun x _ x' hx => by rw [hx.1, hx.2.2, hm.eff]
  have h2 := Listed_sum h.cts (fun x => t.coef x.name * x.val o + t'.coef (ν x.name) * e x.name)
    (fun x => t'.coef x.name * x.val (σ o)) fun x _ x' hx => by rw [hx.1, hx.2, ← hm.coef]; ring
  rw [List.sum_map_add] at h2
  simp only [fit, h1, h2, h.firm, h.worker, hm.psi, hm.alpha]
  ring

theorem effect_eq {t t' : Truth m nw} (hm : Match d f g ν κ r e t t') (s : String) :
    ∃ k, ∀ o, d'.effect t' (ν s) (σ o) = d.effect t s o + k := by
  refine ⟨(if s = "alpha" then - (d.cts.map fun x => t'.coef (ν x.name) * e x.name).sum else 0)
    + (d.cts.map fun x => if x.name = s then t'.coef (ν s) * e s else 0).sum, fun o => ?_⟩
  have h1 := Listed_sum h.cats (fun x => if x.name = s then t.eff s (x.val o) else 0)
    (fun x => if x.name = ν s then t'.eff (ν s) (x.val (σ o)) else 0) fun x _ x' hx => by
      rw [hx.1, hx.2.2]
      simp only [ν.apply_eq_iff_eq]
      split
      · next hn => rw [hn, hm.eff]
      · rfl
  have h2 := Listed_sum h.cts (fun x => (if x.name = s then t.coef s * x.val o else 0)
      + if x.name = s then t'.coef (ν s) * e s else 0)
    (fun x => if x.name = ν s then t'.coef (ν s) * x.val (σ o) else 0) fun x _ x' hx => by
      rw [hx.1, hx.2]
      simp only [ν.apply_eq_iff_eq]
      split
      · next hn => rw [hn, ← hm.coef]; ring
      · simp
  rw [List.sum_map_add] at h2
  have e1 : ν s = "psi" ↔ s = "psi" := ⟨fun hh => ν.injective (hh.trans h.psi.symm), fun hh => hh ▸ h.psi⟩
  have e2 : ν s = "alpha" ↔ s = "alpha" := ⟨fun hh => ν.injective (hh.trans h.alpha.symm), fun hh => hh ▸ h.alpha⟩
  simp only [CData.effect, h1, h2, e1, e2, h.firm, h.worker, hm.psi, hm.alpha]
  by_cases h3 : s = "alpha"
  · simp only [h3, if_true, String.reduceEq, if_false]; ring
  · simp only [h3, if_false]; ring

end Spec.Renamed

/-! ## Identification -/

theorem range_fit (h : d.names.Nodup) (v : Fin n → ℝ) :
    v ∈ LinearMap.range d.amat.mulVecLin ↔ ∃ t, v = fit d t := by
  constructor
  · rintro ⟨x, rfl⟩
    refine ⟨effects d (List.ofFn x), ?_⟩
    ext o
    rw [← multA_fit, gammaTrue_effects h _ (by simp), multA_ofFn h]; rfl
  · rintro ⟨t, rfl⟩
    obtain ⟨x, -, hx⟩ := Tol.vec_of h t
    exact ⟨x, funext hx⟩

theorem identified_iff (h : d.names.Nodup) :
    d.Identified ↔ Module.finrank ℝ (LinearMap.range d.amat.mulVecLin) = d.nCov := by
  have hker : d.Identified ↔ LinearMap.ker d.amat.mulVecLin = ⊥ := by
    rw [LinearMap.ker_eq_bot]
    constructor
    · intro hi x y hxy
      refine List.ofFn_injective (hi _ _ (by simp) (by simp) fun o => ?_)
      rw [multA_ofFn h, multA_ofFn h]; exact congrFun hxy o
    · intro hi x y hx hy hxy
      obtain ⟨x, rfl⟩ := exists_ofFn hx
      obtain ⟨y, rfl⟩ := exists_ofFn hy
      rw [hi (funext fun o => ?_ : d.amat.mulVecLin x = d.amat.mulVecLin y)]
      have := hxy o
      rwa [multA_ofFn h, multA_ofFn h] at this
  rw [hker]
  have hrk := LinearMap.finrank_range_add_finrank_ker d.amat.mulVecLin
  rw [Module.finrank_fin_fun] at hrk
  rw [← Submodule.finrank_eq_zero (R := ℝ)]
  omega

/-- C119: the effects of `d'` are identified if those of `d` are; names stay distinct and weights positive. -/
theorem C119_identified (h : Spec.Renamed d d' σ f g ν κ r e c) (hd : d.Ok) : d'.Ok where
  names := h.names_nodup hd.names
  pos := h.Dp_pos hd.pos
  ident := by
    have hn' := h.names_nodup hd.names
    rw [identified_iff hn']
    refine Eq.trans ?_ (h.nCov hd.names).symm
    refine Eq.trans ?_ ((identified_iff hd.names).1 hd.ident)
    have hmap : (LinearMap.range d'.amat.mulVecLin).map (LinearEquiv.funCongrLeft ℝ ℝ σ).toLinearMap
        = LinearMap.range d.amat.mulVecLin := by
      ext v
      rw [Submodule.mem_map, range_fit hd.names]
      constructor
      · rintro ⟨v', hv', rfl⟩
        obtain ⟨t', rfl⟩ := (range_fit hn' _).1 hv'
        obtain ⟨t, ht⟩ := exists_left d f g ν κ r e t'
        exact ⟨t, funext fun o => h.fit_eq ht o⟩
      · rintro ⟨t, rfl⟩
        obtain ⟨t', ht⟩ := exists_right d f g ν κ r e h.unit t
        exact ⟨fit d' t', (range_fit hn' _).2 ⟨t', rfl⟩, funext fun o => h.fit_eq ht o⟩
    rw [← hmap]
    exact (LinearEquiv.finrank_map_eq _ _).symm

/-! ## Estimates -/

theorem Spec.Renamed.estimates (h : Spec.Renamed d d' σ f g ν κ r e c) (hd : d.Ok) (hs : d.GoodSolver solve)
    (hs' : d'.GoodSolver solve') (hy : ∀ o, d'.y (σ o) = a * d.y o + b) :
    ∃ p, Match d f g ν κ r e p (effects d' (d'.gammaHat solve')) ∧
      d.gammaTrue p = d.gammaTrue ((effects d (d.gammaHat solve)).lin a b) := by
  obtain ⟨p, hp⟩ := exists_left d f g ν κ r e (effects d' (d'.gammaHat solve'))
  refine ⟨p, hp, gamma_of_fit hd fun o => ?_⟩
  rw [fit_lin]
  refine fit_of_orth hd.pos (orth hd.names (fun o => (hd.pos o).le) hs) (y' := fun o => d'.y (σ o)) (fun u => ?_) hy o
  obtain ⟨u', hu⟩ := exists_right d f g ν κ r e h.unit u
  have h1 := orth (h.names_nodup hd.names) (fun o => (h.Dp_pos hd.pos o).le) hs' u'
  rw [← Equiv.sum_comp σ] at h1
  simp only [h.fit_eq hu, h.fit_eq hp, h.Dp, mul_assoc] at h1
  rw [← Finset.mul_sum] at h1
  simpa only [mul_assoc] using (mul_eq_zero.1 h1).resolve_left h.factor_pos.ne'

theorem column_eq (h : d.names.Nodup) {gh : List ℝ} (hl : gh.length = d.nCov) {s : String} (hs : s ∈ d.names)
    (o : Fin n) : Spec.column d gh s o = some (d.effect (effects d gh) s o) := by
  have h1 := attached_effects h gh hl o
  have h2 : (effects d gh).psi (d.j o) :: (effects d gh).alpha (d.i o) ::
      ((d.cats.map fun c => (effects d gh).eff c.name (c.val o)) ++ d.cts.map fun c => (effects d gh).coef c.name * c.val o)
      = d.names.map fun s => d.effect (effects d gh) s o := by
    rw [← covs_names, List.map_map]
    have h3 : d.covs.map ((fun s => d.effect (effects d gh) s o) ∘ Cov.name) = d.covs.map (Truth.at d (effects d gh) o) :=
      List.map_congr_left fun q hq => effect_cov h _ q hq o
    rw [h3]
    simp [CData.covs, Truth.at, Function.comp_def]
  rw [Spec.column, h1, h2]
  simp only [Option.bind_eq_bind, Option.bind_some, List.getElem?_map]
  rw [List.getElem?_eq_getElem (List.idxOf_lt_length_iff.2 hs), Option.map_some, List.getElem_idxOf]

/-- C119, attached columns: the column of every covariate is `a` times the one before up to a constant. -/
theorem C119_effects (h : Spec.Renamed d d' σ f g ν κ r e c) (hd : d.Ok) (hs : d.GoodSolver solve)
    (hs' : d'.GoodSolver solve') (hy : ∀ o, d'.y (σ o) = a * d.y o + b) (s : String) (hsn : s ∈ d.names) :
    ∃ k, ∀ o, ∃ v, Spec.column d (d.gammaHat solve) s o = some v ∧
      Spec.column d' (d'.gammaHat solve') (ν s) (σ o) = some (a * v + k) := by
  obtain ⟨p, hp, hg⟩ := h.estimates hd hs hs' hy
  obtain ⟨k1, e1⟩ := h.effect_eq hp s
  obtain ⟨k2, e2⟩ := effect_of_gamma hd.names hg s hsn
  have hl := (gammaHat_spec hd.names (fun o => (hd.pos o).le) hs).1
  have hl' := (gammaHat_spec (h.names_nodup hd.names) (fun o => (h.Dp_pos hd.pos o).le) hs').1
  refine ⟨(if s = "alpha" then b else 0) + k2 + k1, fun o => ⟨_, column_eq hd.names hl hsn o, ?_⟩⟩
  rw [column_eq (h.names_nodup hd.names) hl' (h.names_mem hsn), e1, e2, effect_lin, Option.some_inj]
  ring

/-- C119, coefficients: the coefficient of a continuous control is `a / r` times the one before. -/
theorem C119_coefficients (h : Spec.Renamed d d' σ f g ν κ r e c) (hd : d.Ok) (hs : d.GoodSolver solve)
    (hs' : d'.GoodSolver solve') (hy : ∀ o, d'.y (σ o) = a * d.y o + b) (x : Cts n) (hx : x ∈ d.cts) :
    ∃ v, dget (d.unpack (d.gammaHat solve)).gamma x.name = some (.num v) ∧
      dget (d'.unpack (d'.gammaHat solve')).gamma (ν x.name) = some (.num (a / r x.name * v)) := by
  obtain ⟨p, hp, hg⟩ := h.estimates hd hs hs' hy
  have hl := (gammaHat_spec hd.names (fun o => (hd.pos o).le) hs).1
  have hl' := (gammaHat_spec (h.names_nodup hd.names) (fun o => (h.Dp_pos hd.pos o).le) hs').1
  obtain ⟨x', hx', hn, -⟩ := Listed_mem h.cts hx
  have h1 := coef_gammaTrue hd.names (effects d (d.gammaHat solve)) hx
  have h2 := coef_gammaTrue (h.names_nodup hd.names) (effects d' (d'.gammaHat solve')) hx'
  rw [gammaTrue_effects hd.names _ hl] at h1
  rw [gammaTrue_effects (h.names_nodup hd.names) _ hl', hn] at h2
  have h3 := coef_gammaTrue hd.names p hx
  rw [hg, coef_gammaTrue hd.names _ hx] at h3
  simp only [Option.some.injEq, CData.Entry.num.injEq, Truth.lin] at h3
  refine ⟨_, h1, ?_⟩
  rw [h2]
  congr 2
  have h4 := hp.coef x.name
  rw [← h3] at h4
  have := h.unit x.name
  field_simp
  exact h4

theorem E_fit (h : d.names.Nodup) (hw : ∀ o, 0 ≤ d.Dp o) (hs : d.GoodSolver solve) (o : Fin n) :
    d.E solve o = d.y o - fit d (effects d (d.gammaHat solve)) o := by
  rw [CData.E, ← multA_fit, gammaTrue_effects h _ (gammaHat_spec h hw hs).1]

/-- C119, residuals are `a` times the residuals before. -/
theorem C119_residuals (h : Spec.Renamed d d' σ f g ν κ r e c) (hd : d.Ok) (hs : d.GoodSolver solve)
    (hs' : d'.GoodSolver solve') (hy : ∀ o, d'.y (σ o) = a * d.y o + b) (o : Fin n) :
    d'.E solve' (σ o) = a * d.E solve o := by
  obtain ⟨p, hp, hg⟩ := h.estimates hd hs hs' hy
  have hd' := C119_identified h hd
  rw [E_fit hd.names (fun o => (hd.pos o).le) hs, E_fit hd'.names (fun o => (hd'.pos o).le) hs', h.fit_eq hp,
    ← multA_fit p, hg, multA_fit, fit_lin, hy]
  ring

/-! ## Variance components -/

theorem Spec.Renamed.cov (h : Spec.Renamed d d' σ f g ν κ r e c) (hd : d.Ok) {x y x' y' : Fin n → ℝ} {k s t : ℝ}
    (hx : ∀ o, x' (σ o) = k * x o + s) (hy : ∀ o, y' (σ o) = k * y o + t) :
    weightedCov x' y' d'.DpW d'.DpW 0 = k ^ 2 * weightedCov x y d.DpW d.DpW 0 := by
  rcases Nat.eq_zero_or_pos n with hn | hn
  · subst hn
    unfold CData.DpW
    rw [h.weighted]
    split <;> simp [weightedCov]
  · rw [← weightedCov_affine x y _ (usable_DpW hd hn) k s t, ← weightedCov_relabel x' y' _ σ]
    simp only [hx, hy]
    unfold CData.DpW
    rw [h.weighted]
    by_cases hw : d.weighted = true
    · simp only [hw, if_true, wcomp, h.weight]
      exact C02_cov_weight_scale _ _ _ _ _ h.pos
    · simp only [hw, wcomp]; rfl

theorem Spec.Renamed.mean (h : Spec.Renamed d d' σ f g ν κ r e c) {x x' : Fin n → ℝ} (hx : ∀ o, x' (σ o) = x o) :
    weightedMean x' d'.DpW = weightedMean x d.DpW := by
  rw [← weightedMean_relabel x' _ σ]
  simp only [hx]
  unfold CData.DpW
  rw [h.weighted]
  by_cases hw : d.weighted = true
  · simp only [hw, if_true, wcomp, h.weight, weightedMean, mul_assoc, ← Finset.mul_sum]
    rw [mul_div_mul_left _ _ h.pos.ne']
  · simp only [hw, wcomp]; rfl

theorem Spec.Renamed.qCol (h : Spec.Renamed d d' σ f g ν κ r e c) (hd : d.Ok) (hs : d.GoodSolver solve)
    (hs' : d'.GoodSolver solve') (hy : ∀ o, d'.y (σ o) = a * d.y o + b) (l : List String) (hl : ∀ s ∈ l, s ∈ d.names) :
    ∃ v v' k, d.qCol (d.unpack (d.gammaHat solve)) l (d.gammaHat solve) = some v ∧
      d'.qCol (d'.unpack (d'.gammaHat solve')) (l.map ν) (d'.gammaHat solve') = some v' ∧ ∀ o, v' (σ o) = a * v o + k := by
  obtain ⟨p, hp, hg⟩ := h.estimates hd hs hs' hy
  have hl1 := (gammaHat_spec hd.names (fun o => (hd.pos o).le) hs).1
  have hl2 := (gammaHat_spec (h.names_nodup hd.names) (fun o => (h.Dp_pos hd.pos o).le) hs').1
  obtain ⟨k1, e1⟩ := qCol_gammaTrue hd.names (effects d (d.gammaHat solve)) l hl (d.gammaHat solve)
  obtain ⟨k2, e2⟩ := qCol_gammaTrue (h.names_nodup hd.names) (effects d' (d'.gammaHat solve')) (l.map ν)
    (by
      intro s hs
      obtain ⟨s, hs2, rfl⟩ := List.mem_map.1 hs
      exact h.names_mem (hl s hs2)) (d'.gammaHat solve')
  rw [gammaTrue_effects hd.names _ hl1] at e1
  rw [gammaTrue_effects (h.names_nodup hd.names) _ hl2] at e2
  have key : ∀ l : List String, (∀ s ∈ l, s ∈ d.names) → ∃ k, ∀ o,
      ((l.map ν).map fun s => d'.effect (effects d' (d'.gammaHat solve')) s (σ o)).sum
        = a * (l.map fun s => d.effect (effects d (d.gammaHat solve)) s o).sum + k := by
    intro l
    induction l with
    | nil => exact fun _ => ⟨0, by simp⟩
    | cons s l ih =>
      intro hl
      obtain ⟨k, hk⟩ := ih fun s hs => hl s (List.mem_cons_of_mem _ hs)
      obtain ⟨k1, e1⟩ := h.effect_eq hp s
      obtain ⟨k2, e2⟩ := effect_of_gamma hd.names hg s (hl s (by simp))
      refine ⟨k + k1 + k2 + if s = "alpha" then b else 0, fun o => ?_⟩
      simp only [List.map_cons, List.sum_cons, hk, e1, e2, effect_lin]
      ring
  obtain ⟨k, hk⟩ := key l hl
  exact ⟨_, _, k + k2 - a * k1, e1, e2, fun o => by rw [hk]; ring⟩

/-- C119, plug-in components: every variance and covariance of lists of covariates is `a ^ 2` times the one before. -/
theorem C119_plug_in (h : Spec.Renamed d d' σ f g ν κ r e c) (hd : d.Ok) (hs : d.GoodSolver solve)
    (hs' : d'.GoodSolver solve') (hy : ∀ o, d'.y (σ o) = a * d.y o + b) (l1 l2 : List String)
    (hl1 : ∀ s ∈ l1, s ∈ d.names) (hl2 : ∀ s ∈ l2, s ∈ d.names) :
    ∃ v w, d.varFe solve l1 = some v ∧ d'.varFe solve' (l1.map ν) = some (a ^ 2 * v) ∧
      d.covFe solve l1 l2 = some w ∧ d'.covFe solve' (l1.map ν) (l2.map ν) = some (a ^ 2 * w) := by
  obtain ⟨v, v', k, e1, e2, e3⟩ := h.qCol hd hs hs' hy l1 hl1
  obtain ⟨w, w', k', f1, f2, f3⟩ := h.qCol hd hs hs' hy l2 hl2
  refine ⟨weightedVar v d.DpW 0, weightedCov v w d.DpW d.DpW 0, ?_, ?_, ?_, ?_⟩
  · simp only [CData.varFe, e1]; rfl
  · simp only [CData.varFe, e2]
    rw [weightedVar_eq_cov _ (stdWeight_DpW hd), ← h.cov hd e3 e3,
      ← weightedVar_eq_cov _ (stdWeight_DpW (C119_identified h hd))]; rfl
  · simp only [CData.covFe, e1, f1]; rfl
  · simp only [CData.covFe, e2, f2]
    rw [← h.cov hd e3 f3]; rfl

/-! ## Error variance and leverages -/

theorem Ok_withY (hd : d.Ok) (y : Fin n → ℝ) : (d.withY y).Ok := ⟨hd.names, hd.pos, hd.ident⟩

theorem single_rel (σ : Fin n ≃ Fin n) (o x : Fin n) :
    (Pi.single (σ o) 1 : Fin n → ℝ) (σ x) = 1 * (Pi.single o 1 : Fin n → ℝ) x + 0 := by
  by_cases hx : x = o
  · subst hx; simp
  · simp [hx]

/-- C119, leverages: the weight of every outcome in every fitted value stays, so every observation keeps its leverage. -/
theorem C119_leverages (h : Spec.Renamed d d' σ f g ν κ r e c) (hd : d.Ok) (hs : d.GoodSolver solve)
    (hs' : d'.GoodSolver solve') (o b : Fin n) : d'.influence solve' (σ o) (σ b) = d.influence solve o b := by
  have h1 := C119_residuals (h.withY (Pi.single b 1) (Pi.single (σ b) 1)) (Ok_withY hd _) (solve := solve)
    (solve' := solve') (a := 1) (b := 0) hs hs' (single_rel σ b) o
  simp only [CData.E, one_mul] at h1
  have h2 : (d'.withY (Pi.single (σ b) 1)).y (σ o) = (d.withY (Pi.single b 1)).y o := by
    have := single_rel σ b o
    rw [one_mul, add_zero] at this
    exact this
  rw [h2] at h1
  unfold CData.influence
  linarith

theorem Spec.Renamed.hat (h : Spec.Renamed d d' σ f g ν κ r e c) (hd : d.Ok) (o b : Fin n) :
    hat d'.amat d'.Dp (σ o) (σ b) = hat d.amat d.Dp o b := by
  obtain ⟨solve, hs⟩ := exists_goodSolver d
  obtain ⟨solve', hs'⟩ := exists_goodSolver d'
  rw [← influence_eq hd hs, ← influence_eq (C119_identified h hd) hs', C119_leverages h hd hs hs']

/-- C119, error variances: the plug-in estimate and, with the exact trace, the corrected estimate are `a ^ 2` times the
ones before; with weights they are in units of the weights. -/
theorem C119_sigma2 (h : Spec.Renamed d d' σ f g ν κ r e c) (hd : d.Ok) (hs : d.GoodSolver solve)
    (hs' : d'.GoodSolver solve') (hy : ∀ o, d'.y (σ o) = a * d.y o + b) :
    d'.sigma2fe solve' = (if d.weighted then c else 1) * a ^ 2 * d.sigma2fe solve ∧
    d'.exactTraceSigma2 = d.exactTraceSigma2 / (if d.weighted then c else 1) ∧
    d'.sigma2ho solve' d'.exactTraceSigma2
      = (if d.weighted then c else 1) * a ^ 2 * d.sigma2ho solve d.exactTraceSigma2 := by
  have hE := C119_residuals h hd hs hs' hy
  have hd' := C119_identified h hd
  have hk := h.factor_pos
  set F : ℝ := if d.weighted = true then c else 1 with hF
  have e1 : d'.sigma2fe solve' = F * a ^ 2 * d.sigma2fe solve := by
    have e := h.mean (x := fun o => F * a ^ 2 * (d.Dp o * d.E solve o ^ 2))
      (x' := fun o => d'.Dp o * d'.E solve' o ^ 2) (fun o => by simp only [h.Dp, hE]; ring)
    rw [CData.sigma2fe, e, weightedMean_smul]; rfl
  have e2 : d'.exactTraceSigma2 = d.exactTraceSigma2 / F := by
    rw [exactTraceSigma2_eq hd, exactTraceSigma2_eq hd', ← Equiv.sum_comp σ, Finset.sum_div]
    refine Finset.sum_congr rfl fun o _ => ?_
    rw [h.hat hd, h.Dp, mul_comm, div_div]
  refine ⟨e1, e2, ?_⟩
  rw [e2]
  unfold CData.sigma2ho
  rw [h.weighted]
  split
  · have e3 : ∑ o, d'.E solve' o ^ 2 = a ^ 2 * ∑ o, d.E solve o ^ 2 := by
      rw [← Equiv.sum_comp σ, Finset.mul_sum]
      exact Finset.sum_congr rfl fun o _ => by rw [hE]; ring
    have e4 : ∑ o, 1 / d'.Dp o = (∑ o, 1 / d.Dp o) / F := by
      rw [← Equiv.sum_comp σ, Finset.sum_div]
      exact Finset.sum_congr rfl fun o _ => by rw [h.Dp, mul_comm, div_div]
    rw [e3, e4, ← sub_div, div_div_eq_mul_div]
    ring
  · rw [e1, h.nCov hd.names]; ring

/-- C119, approximate leverages: with probes carried along with the rows, all averages of every observation stay. -/
theorem C119_approximate_leverages (h : Spec.Renamed d d' σ f g ν κ r e c) (hd : d.Ok) (hs : d.GoodSolver solve)
    (hs' : d'.GoodSolver solve') (draws draws' : List (Fin n → ℝ))
    (hz : List.Forall₂ (fun z z' => ∀ o, z' (σ o) = z o) draws draws') (o : Fin n) :
    let v := d.leverageApprox solve draws
    let v' := d'.leverageApprox solve' draws'
    v'.Pii (σ o) = v.Pii o ∧ v'.PiiSq (σ o) = v.PiiSq o ∧ v'.Mii (σ o) = v.Mii o ∧ v'.MiiSq (σ o) = v.MiiSq o ∧
      v'.PiiMii (σ o) = v.PiiMii o := by
  have hd' := C119_identified h hd
  have hq : ∀ z z' : Fin n → ℝ, (∀ o, z' (σ o) = z o) →
      d'.proj solve' z' .sqrt .sqrt (σ o) = d.proj solve z .sqrt .sqrt o := by
    intro z z' hzz
    rw [proj_sqrt hd hs, proj_sqrt hd' hs']
    simp only [mulVec, dotProduct]
    rw [← Equiv.sum_comp σ]
    refine Finset.sum_congr rfl fun b _ => ?_
    rw [hzz]
    congr 1
    have h1 := h.hat hd o b
    rw [hat_apply, hat_apply] at h1
    have p := hd.pos b
    have p' := hd'.pos (σ b)
    have q1 := Real.sqrt_pos.2 p
    have q2 := Real.sqrt_pos.2 h.factor_pos
    have q3 := Real.mul_self_sqrt h.factor_pos.le
    simp only [sgen, of_apply, h.Dp, Real.sqrt_mul h.factor_pos.le] at h1 ⊢
    set F : ℝ := if d.weighted = true then c else 1
    set u := (d'.amat * (nmat d'.amat d'.Dp)⁻¹ * d'.amatᵀ) (σ o) (σ b)
    set v := (d.amat * (nmat d.amat d.Dp)⁻¹ * d.amatᵀ) o b
    have h2 : F * u = v := mul_right_cancel₀ p.ne' (by linarith)
    rw [← h2]
    linear_combination (Real.sqrt (d.Dp o) * u * Real.sqrt (d.Dp b)) * q3
  have hsum : ∀ (F F' : (Fin n → ℝ) → ℝ), (∀ z z' : Fin n → ℝ, (∀ o, z' (σ o) = z o) → F' z' = F z) →
      draws'.foldl (fun acc z => acc + F' z) 0 / (draws'.length : ℝ) = draws.foldl (fun acc z => acc + F z) 0 / (draws.length : ℝ) := by
    intro F F' hF
    rw [foldl_add_eq_sum, foldl_add_eq_sum, hz.length_eq]
    congr 2
    clear hq
    induction hz with
    | nil => rfl
    | cons hx _ ih => rw [List.map_cons, List.map_cons, List.sum_cons, List.sum_cons, hF _ _ hx, ih]
  refine ⟨hsum _ _ ?_, hsum _ _ ?_, hsum _ _ ?_, hsum _ _ ?_, hsum _ _ ?_⟩ <;> intro z z' hzz <;>
    simp only [hq z z' hzz, hzz]

/-! ## Corrected components -/

theorem unit_plug (h : Spec.Renamed d d' σ f g ν κ r e c) (hd : d.Ok) (hs : d.GoodSolver solve)
    (hs' : d'.GoodSolver solve') {l1 l2 : List String} (hl1 : ∀ s ∈ l1, s ∈ d.names) (hl2 : ∀ s ∈ l2, s ∈ d.names)
    {u u' : Fin n → ℝ} (hu : ∀ o, (d.withY (Pi.single o 1)).covFe solve l1 l2 = some (u o))
    (hu' : ∀ o, (d'.withY (Pi.single o 1)).covFe solve' (l1.map ν) (l2.map ν) = some (u' o)) (o : Fin n) :
    u' (σ o) = u o := by
  obtain ⟨-, w, -, -, h1, h2⟩ := C119_plug_in (h.withY (Pi.single o 1) (Pi.single (σ o) 1)) (Ok_withY hd _)
    (solve := solve) (solve' := solve') (a := 1) (b := 0) hs hs' (single_rel σ o) l1 l2 hl1 hl2
  rw [hu, Option.some_inj] at h1
  rw [hu', Option.some_inj] at h2
  rw [h1, h2]; ring

theorem names_map (h : Spec.Renamed d d' σ f g ν κ r e c) {l : List String} (hl : ∀ s ∈ l, s ∈ d.names) :
    ∀ s ∈ l.map ν, s ∈ d'.names := by
  intro s hs
  obtain ⟨s, hs2, rfl⟩ := List.mem_map.1 hs
  exact h.names_mem (hl s hs2)

variable {Ω Ω' : Type*} [MeasurableSpace Ω] [MeasurableSpace Ω'] {μ : Measure Ω} {μ' : Measure Ω'}

/-- C119, homoskedastic correction with the exact trace in the error variance: averaged over the probes, the corrected
covariance of any two lists of covariates is `a ^ 2` times the one before. -/
theorem C119_homoskedastic (h : Spec.Renamed d d' σ f g ν κ r e c) (hd : d.Ok) (hs : d.GoodSolver solve)
    (hs' : d'.GoodSolver solve') (hy : ∀ o, d'.y (σ o) = a * d.y o + b) (l1 l2 : List String)
    (hl1 : ∀ s ∈ l1, s ∈ d.names) (hl2 : ∀ s ∈ l2, s ∈ d.names) {R R' : ℕ} (hR : 0 < R) (hR' : 0 < R')
    (z : Fin R → Ω → Fin d.nCov → ℝ) (hz : ∀ k, Noise μ (z k) fun _ => 1)
    (z' : Fin R' → Ω' → Fin d'.nCov → ℝ) (hz' : ∀ k, Noise μ' (z' k) fun _ => 1) :
    ∃ (p : Ω → ℝ) (p' : Ω' → ℝ),
      (∀ ω, d.covHo solve l1 l2 d.exactTraceSigma2 (fun k => List.ofFn (z k ω)) = some (p ω)) ∧
      (∀ ω, d'.covHo solve' (l1.map ν) (l2.map ν) d'.exactTraceSigma2 (fun k => List.ofFn (z' k ω)) = some (p' ω)) ∧
      ∫ ω, p' ω ∂μ' = a ^ 2 * ∫ ω, p ω ∂μ := by
  have hd' := C119_identified h hd
  obtain ⟨-, w, -, -, w1, w2⟩ := C119_plug_in h hd hs hs' hy l1 l2 hl1 hl2
  obtain ⟨q, u, hq, hu, iq, eq⟩ := C85_draws hd hs hR l1 l2 hl1 hl2 z hz
  obtain ⟨q', u', hq', hu', iq', eq'⟩ := C85_draws hd' hs' hR' (l1.map ν) (l2.map ν) (names_map h hl1) (names_map h hl2) z' hz'
  obtain ⟨-, -, e3⟩ := C119_sigma2 h hd hs hs' hy
  have hP := (hz ⟨0, hR⟩).prob
  have hP' := (hz' ⟨0, hR'⟩).prob
  refine ⟨fun ω => w - d.sigma2ho solve d.exactTraceSigma2 * ((∑ k, q k ω) / (R : ℝ)),
    fun ω => a ^ 2 * w - d'.sigma2ho solve' d'.exactTraceSigma2 * ((∑ k, q' k ω) / (R' : ℝ)), fun ω => ?_, fun ω => ?_, ?_⟩
  · rw [CData.covHo, w1, mapM_ofFn _ _ (fun k => q k ω) fun k => hq k ω]
    simp [List.sum_ofFn]
  · rw [CData.covHo, w2, mapM_ofFn _ _ (fun k => q' k ω) fun k => hq' k ω]
    simp [List.sum_ofFn]
  · have I1 := integral_sub (integrable_const w) (iq.const_mul (d.sigma2ho solve d.exactTraceSigma2))
    have I2 := integral_sub (integrable_const (a ^ 2 * w)) (iq'.const_mul (d'.sigma2ho solve' d'.exactTraceSigma2))
    rw [integral_const_mul, eq, integral_const, probReal_univ, one_smul] at I1
    rw [integral_const_mul (d'.sigma2ho solve' d'.exactTraceSigma2), eq', integral_const, probReal_univ, one_smul] at I2
    refine I2.trans (Eq.trans ?_ (congrArg _ I1.symm))
    rw [e3]
    have e4 : ∑ o, 1 / d'.Dp o * u' o = (∑ o, 1 / d.Dp o * u o) / (if d.weighted then c else 1) := by
      rw [← Equiv.sum_comp σ, Finset.sum_div]
      refine Finset.sum_congr rfl fun o _ => ?_
      rw [h.Dp, unit_plug h hd hs hs' hl1 hl2 hu hu']
      have := h.factor_pos.ne'
      have := (hd.pos o).ne'
      field_simp
    rw [e4]
    have := h.factor_pos.ne'
    field_simp

theorem Spec.Renamed.mover (h : Spec.Renamed d d' σ f g ν κ r e c) (o : Fin n) : d'.workerM (σ o) ↔ d.workerM o := by
  constructor
  · rintro ⟨o', h1, h2⟩
    obtain ⟨o', rfl⟩ := σ.surjective o'
    rw [h.worker, h.worker, g.apply_eq_iff_eq] at h1
    rw [h.firm, h.firm] at h2
    exact ⟨o', h1, fun e => h2 (by rw [e])⟩
  · rintro ⟨o', h1, h2⟩
    exact ⟨σ o', by rw [h.worker, h.worker, h1], by rw [h.firm, h.firm]; exact fun e => h2 (f.injective e)⟩

theorem Spec.Renamed.meanY (h : Spec.Renamed d d' σ f g ν κ r e c) (hd : d.Ok) (hy : ∀ o, d'.y (σ o) = a * d.y o + b)
    (o : Fin n) : weightedMean d'.y (.vec d'.Dp) = a * weightedMean d.y (.vec d.Dp) + b := by
  have hS : 0 < ∑ o, d.Dp o := Finset.sum_pos (fun o _ => hd.pos o) ⟨o, Finset.mem_univ o⟩
  simp only [weightedMean]
  rw [← Equiv.sum_comp σ, ← Equiv.sum_comp σ d'.Dp]
  simp only [h.Dp, hy]
  rw [← Finset.mul_sum]
  set F : ℝ := if d.weighted = true then c else 1
  have e : ∑ x, F * d.Dp x * (a * d.y x + b) = F * (a * ∑ x, d.Dp x * d.y x + b * ∑ x, d.Dp x) := by
    rw [Finset.mul_sum, Finset.mul_sum, ← Finset.sum_add_distrib, Finset.mul_sum]
    exact Finset.sum_congr rfl fun x _ => by ring
  rw [e, mul_div_mul_left _ _ h.factor_pos.ne', add_div, mul_div_assoc, mul_div_assoc b, div_self hS.ne', mul_one]

theorem Spec.Renamed.loo (h : Spec.Renamed d d' σ f g ν κ r e c) (hd : d.Ok) (hs : d.GoodSolver solve)
    (hs' : d'.GoodSolver solve') (hy : ∀ o, d'.y (σ o) = a * d.y o + b) {P P' : Fin n → ℝ} (hP : ∀ o, P' (σ o) = P o)
    (o : Fin n) : d'.looSii solve' P' (σ o) = a ^ 2 * d.looSii solve P o := by
  unfold CData.looSii
  rw [hP, hy, h.meanY hd hy o, C119_residuals h hd hs hs' hy]
  ring

/-- C119, observation-level variances: with the same leverages, the values used for movers and for stayers, and the
refusals, are the same up to `a ^ 2`.  Missing from the full claim: other units of the weights with
`stayers='upper_bound'`, which takes one over the total weight of a stayer for the leverage. -/
theorem C119_sii_partial (h : Spec.Renamed d d' σ f g ν κ r e c) (hd : d.Ok) (hs : d.GoodSolver solve)
    (hs' : d'.GoodSolver solve') (hy : ∀ o, d'.y (σ o) = a * d.y o + b) {P P' : Fin n → ℝ} (hP : ∀ o, P' (σ o) = P o)
    (st : Stayers) (hst : st = .firmMean ∨ d.weighted = false ∨ c = 1) (o : Fin n) :
    d'.siiHe solve' st P' (σ o) = (d.siiHe solve st P o).map (a ^ 2 * ·) := by
  have hl := h.loo hd hs hs' hy hP
  have hj : ∀ o o', (d'.workerM (σ o') ∧ d'.j (σ o') = d'.j (σ o)) ↔ (d.workerM o' ∧ d.j o' = d.j o) := fun o o' => by
    rw [h.mover, h.firm, h.firm, f.apply_eq_iff_eq]
  have hi : ∀ o o', (¬ d'.workerM (σ o') ∧ d'.i (σ o') = d'.i (σ o)) ↔ (¬ d.workerM o' ∧ d.i o' = d.i o) := fun o o' => by
    rw [h.mover, h.worker, h.worker, g.apply_eq_iff_eq]
  cases st with
  | firmMean =>
    have hex : (∃ o', d'.workerM o' ∧ d'.j o' = d'.j (σ o)) ↔ ∃ o', d.workerM o' ∧ d.j o' = d.j o :=
      ⟨fun ⟨o', e⟩ => ⟨σ.symm o', (hj _ _).1 (by rwa [σ.apply_symm_apply])⟩, fun ⟨o', e⟩ => ⟨σ o', (hj _ _).2 e⟩⟩
    have hk := h.factor_pos.ne'
    have hDp := h.Dp
    set F : ℝ := if d.weighted = true then c else 1
    have s1 := FE.Spec.Renamed.sum_filter σ
      (P := fun o' => d.workerM o' ∧ d.j o' = d.j o) (P' := fun o' => d'.workerM o' ∧ d'.j o' = d'.j (σ o)) (hj o)
      (x := fun o' => F ^ 2 * a ^ 2 * (d.Dp o' ^ 2 * d.looSii solve P o'))
      (x' := fun o' => d'.Dp o' ^ 2 * d'.looSii solve' P' o') (fun o' => by simp only [hDp, hl]; ring)
    have s2 := FE.Spec.Renamed.sum_filter σ
      (P := fun o' => d.workerM o' ∧ d.j o' = d.j o) (P' := fun o' => d'.workerM o' ∧ d'.j o' = d'.j (σ o)) (hj o)
      (x := fun o' => F * d.Dp o') (x' := d'.Dp) hDp
    have s3 := FE.Spec.Renamed.sum_filter σ
      (P := fun o' => d.workerM o' ∧ d.j o' = d.j o) (P' := fun o' => d'.workerM o' ∧ d'.j o' = d'.j (σ o)) (hj o)
      (x := fun o' => a ^ 2 * d.looSii solve P o')
      (x' := fun o' => d'.looSii solve' P' o') (fun o' => hl o')
    have s4 := FE.Spec.Renamed.sum_filter σ
      (P := fun o' => d.workerM o' ∧ d.j o' = d.j o) (P' := fun o' => d'.workerM o' ∧ d'.j o' = d'.j (σ o)) (hj o)
      (x := fun _ => 1) (x' := fun _ => 1) (fun _ => rfl)
    rw [Finset.sum_const, Finset.sum_const, nsmul_one, nsmul_one] at s4
    simp only [CData.siiHe, h.mover, hex, h.weighted, hl, s1, s2, s3, s4, hDp, ← Finset.mul_sum]
    split_ifs
    · rfl
    · simp only [Option.map_some]; congr 1
      have : ∀ p q t : ℝ, F ^ 2 * a ^ 2 * p / (F * q) / (F * t) = a ^ 2 * (p / q / t) := by
        intro p q t
        by_cases hq : q = 0
        · simp [hq]
        by_cases ht : t = 0
        · simp [ht]
        field_simp
      exact this _ _ _
    · simp only [Option.map_some]; congr 1; ring
    · rfl
  | upperBound =>
    have hm := h.meanY hd hy o
    by_cases hw : d.weighted = true
    · have hc1 : c = 1 := by
        rcases hst with e | e | e
        · cases e
        · rw [e] at hw; cases hw
        · exact e
      have hD : ∀ o, d'.Dp (σ o) = d.Dp o := fun o => by rw [h.Dp, hw, if_pos rfl, hc1, one_mul]
      have s1 := fun s => FE.Spec.Renamed.sum_filter σ
        (P := fun o' => ¬ d.workerM o' ∧ d.i o' = d.i s) (P' := fun o' => ¬ d'.workerM o' ∧ d'.i o' = d'.i (σ s)) (hi s)
        (x := d.Dp) (x' := d'.Dp) hD
      have e1 : (∃ s, ¬ d'.workerM s ∧ 1 / (∑ o' with ¬ d'.workerM o' ∧ d'.i o' = d'.i s, d'.Dp o') = 1)
          ↔ ∃ s, ¬ d.workerM s ∧ 1 / (∑ o' with ¬ d.workerM o' ∧ d.i o' = d.i s, d.Dp o') = 1 := by
        rw [← σ.exists_congr_right]; simp only [h.mover, s1]
      simp only [CData.siiHe, h.mover, h.weighted, hw, if_true, e1, hl, s1, hD, hy, hm, C119_residuals h hd hs hs' hy]
      split_ifs
      · rfl
      · rfl
      · simp only [Option.map_some]; congr 1; ring
    · have s2 : ∀ s, (Finset.univ.filter fun o' => ¬ d'.workerM o' ∧ d'.i o' = d'.i (σ s)).card
          = (Finset.univ.filter fun o' => ¬ d.workerM o' ∧ d.i o' = d.i s).card := fun s =>
        (Finset.card_bij (fun x _ => σ x) (fun x hx => by
            simp only [Finset.mem_filter, Finset.mem_univ, true_and] at hx ⊢; exact (hi s x).2 hx)
          (fun x _ y _ e => σ.injective e) (fun y hy => ⟨σ.symm y, by
            simp only [Finset.mem_filter, Finset.mem_univ, true_and] at hy ⊢
            exact (hi s _).1 (by rwa [σ.apply_symm_apply]), σ.apply_symm_apply y⟩)).symm
      have e2 : (∃ s, ¬ d'.workerM s ∧ (Finset.univ.filter fun o' => ¬ d'.workerM o' ∧ d'.i o' = d'.i s).card = 1)
          ↔ ∃ s, ¬ d.workerM s ∧ (Finset.univ.filter fun o' => ¬ d.workerM o' ∧ d.i o' = d.i s).card = 1 := by
        rw [← σ.exists_congr_right]; simp only [h.mover, s2]
      simp only [CData.siiHe, h.weighted, hw, e2, hl]
      simp only [Bool.false_eq_true, if_false]
      split_ifs <;> rfl

/-- C119, heteroskedastic correction: with observation-level variances that are `a ^ 2` times the ones before
(`C119_sii_partial`), the corrected covariance averaged over the probes is `a ^ 2` times the one before. -/
theorem C119_heteroskedastic (h : Spec.Renamed d d' σ f g ν κ r e c) (hd : d.Ok) (hs : d.GoodSolver solve)
    (hs' : d'.GoodSolver solve') (hy : ∀ o, d'.y (σ o) = a * d.y o + b) (l1 l2 : List String)
    (hl1 : ∀ s ∈ l1, s ∈ d.names) (hl2 : ∀ s ∈ l2, s ∈ d.names) {S S' : Fin n → ℝ} (hS : ∀ o, S' (σ o) = a ^ 2 * S o)
    {R R' : ℕ} (hR : 0 < R) (hR' : 0 < R')
    (z : Fin R → Ω → Fin d.nCov → ℝ) (hz : ∀ k, Noise μ (z k) fun _ => 1)
    (z' : Fin R' → Ω' → Fin d'.nCov → ℝ) (hz' : ∀ k, Noise μ' (z' k) fun _ => 1) :
    ∃ (p : Ω → ℝ) (p' : Ω' → ℝ),
      (∀ ω, d.covHe solve l1 l2 S (fun k => List.ofFn (z k ω)) = some (p ω)) ∧
      (∀ ω, d'.covHe solve' (l1.map ν) (l2.map ν) S' (fun k => List.ofFn (z' k ω)) = some (p' ω)) ∧
      ∫ ω, p' ω ∂μ' = a ^ 2 * ∫ ω, p ω ∂μ := by
  have hd' := C119_identified h hd
  obtain ⟨-, w, -, -, w1, w2⟩ := C119_plug_in h hd hs hs' hy l1 l2 hl1 hl2
  obtain ⟨q, u, hq, hu, iq, eq⟩ := C86_draws hd hs S hR l1 l2 hl1 hl2 z hz
  obtain ⟨q', u', hq', hu', iq', eq'⟩ := C86_draws hd' hs' S' hR' (l1.map ν) (l2.map ν) (names_map h hl1) (names_map h hl2) z' hz'
  have hP := (hz ⟨0, hR⟩).prob
  have hP' := (hz' ⟨0, hR'⟩).prob
  refine ⟨fun ω => w - (∑ k, q k ω) / (R : ℝ), fun ω => a ^ 2 * w - (∑ k, q' k ω) / (R' : ℝ), fun ω => ?_, fun ω => ?_, ?_⟩
  · rw [CData.covHe, w1, mapM_ofFn _ _ (fun k => q k ω) fun k => hq k ω]
    simp [List.sum_ofFn]
  · rw [CData.covHe, w2, mapM_ofFn _ _ (fun k => q' k ω) fun k => hq' k ω]
    simp [List.sum_ofFn]
  · have I1 := integral_sub (integrable_const w) iq
    have I2 := integral_sub (integrable_const (a ^ 2 * w)) iq'
    rw [eq, integral_const, probReal_univ, one_smul] at I1
    rw [eq', integral_const, probReal_univ, one_smul] at I2
    refine I2.trans (Eq.trans ?_ (congrArg _ I1.symm))
    have e4 : ∑ o, S' o * u' o = a ^ 2 * ∑ o, S o * u o := by
      rw [← Equiv.sum_comp σ, Finset.mul_sum]
      refine Finset.sum_congr rfl fun o _ => ?_
      rw [hS, unit_plug h hd hs hs' hl1 hl2 hu hu']; ring
    rw [e4]; ring

/-! ## Standard errors -/

/-- The coefficient of a continuous control as a sum over outcomes, and its clustered variance. -/
theorem sandwich_all (hd : d.Ok) (hs : d.GoodSolver solve) (cl : Option (List String))
    (hcl : d.Clusters (CData.clusterNames cl)) (x : Cts n) (hx : x ∈ d.cts) :
    ∃ A : Fin n → ℝ,
      (∀ y, dget ((d.withY y).unpack ((d.withY y).gammaHat solve)).gamma x.name
        = some (.num (∑ o, d.Dp o * A o * y o))) ∧
      d.clusteredSq solve cl x.name = some (∑ o, ∑ b,
        (d.S (d.unpack (d.gammaHat solve)) (CData.clusterNames cl) o b).getD 0 * ((A o * d.E solve o) * (A b * d.E solve b))) ∧
      d.standardSq solve x.name = some (if d.weighted then (∑ o, d.E solve o ^ 2) / n * ∑ o, A o ^ 2
        else d.sigma2fe solve * ∑ o, d.Dp o * A o ^ 2) := by
  have hw := fun o => (hd.pos o).le
  obtain ⟨pre, post, hsp⟩ := mem_of_split (show Cov.cts x ∈ d.covs by simp [CData.covs, hx])
  have hidx := fun gh => idx_of_split hd.names gh hsp
  have hbd := bound_of_split hd.names hsp
  set p := start m nw pre with hp
  have hid : ∃ z, z.length = d.nCov ∧ d.AtDpA z = CData.unitVec d.nCov p := by
    obtain ⟨v, hv⟩ := exists_ofFn (show (CData.unitVec d.nCov p).length = d.nCov by simp [CData.unitVec])
    refine ⟨List.ofFn ((nmat d.amat d.Dp)⁻¹ *ᵥ v), by simp, ?_⟩
    rw [AtDpA_ofFn hd.names, mulVec_mulVec, mul_nonsing_inv _ hd.unit, one_mulVec, hv]
  obtain ⟨hz1, hz2⟩ := hs _ hid
  obtain ⟨M, hM⟩ := subA_isSome hd.names (d.gammaHat solve) _ hcl
  refine ⟨d.multA (solve (CData.unitVec d.nCov p)), fun y => ?_, ?_, ?_⟩
  · obtain ⟨hl, hN⟩ := gammaHat_spec (d := d.withY y) hd.names hw hs
    have hg := gamma_of_split hd.names ((d.withY y).gammaHat solve) hsp
    set gh := (d.withY y).gammaHat solve with hgh
    have hl' : gh.length = d.nCov := hl
    have hlt : p < gh.length := by rw [hl']; simp only [Cov.size] at hbd; omega
    have hsl : slice gh p (p + 1) = [gh[p]] := by
      rw [slice, Nat.add_sub_cancel_left, List.drop_eq_getElem_cons hlt, List.take_succ_cons, List.take_zero]
    simp only [Cov.name, Cov.size, ← hp, hsl, Cov.entry] at hg
    have h1 := dotR_unit gh d.nCov p (by omega) hl'
    rw [List.getElem?_eq_getElem hlt, Option.some_inj] at h1
    have h3 := dotR_multAT (d := d) gh fun o => d.multA (solve (CData.unitVec d.nCov p)) o
    have h4 : d.multAT (fun o => d.multA (solve (CData.unitVec d.nCov p)) o) = CData.unitVec d.nCov p := hz2
    rw [h4] at h3
    have h2 := congrArg (dotR (solve (CData.unitVec d.nCov p))) hN
    have h5 : ∀ z v, dotR z ((d.withY y).multAT v) = ∑ o, d.Dp o * d.multA z o * v o := fun z v =>
      dotR_multAT (d := d) z v
    rw [CData.AtDpA, h5, h5] at h2
    refine (hg : dget ((d.withY y).unpack gh).gamma x.name = _).trans ?_
    have h6 : gh[p] = ∑ o, d.Dp o * d.multA (solve (CData.unitVec d.nCov p)) o * y o := by
      rw [h1, h3]
      refine Eq.trans ?_ h2
      exact Finset.sum_congr rfl fun o _ => by
        rw [show (d.withY y).multA ((d.withY y).gammaHat solve) o = d.multA gh o from rfl]; ring
    simp [h6]
  · have hi := hidx (d.gammaHat solve)
    simp only [Cov.name, Cov.size] at hi
    simp only [CData.clusteredSq, hM, hi]
    simp only [Option.bind_eq_bind, Option.bind_some, Option.pure_def, Option.some_inj]
    refine Finset.sum_congr rfl fun o _ => Finset.sum_congr rfl fun b _ => ?_
    simp only [CData.epsA]; ring
  · have hi := hidx (d.gammaHat solve)
    simp only [Cov.name, Cov.size] at hi hbd
    have h1 := dotR_unit (solve (CData.unitVec d.nCov p)) d.nCov p (by omega) hz1
    have h3 := dotR_multAT (d := d) (solve (CData.unitVec d.nCov p)) fun o => d.multA (solve (CData.unitVec d.nCov p)) o
    have h4 : d.multAT (fun o => d.multA (solve (CData.unitVec d.nCov p)) o) = CData.unitVec d.nCov p := hz2
    rw [h4] at h3
    rw [h3] at h1
    simp only [CData.standardSq, hi, h1, Option.bind_eq_bind, Option.bind_some, Option.pure_def]
    split
    · rfl
    · simp only [mul_assoc, pow_two]

theorem Spec.Renamed.share (h : Spec.Renamed d d' σ f g ν κ r e c) (s : String) (o b : Fin n) :
    d'.Share (ν s) (σ o) (σ b) ↔ d.Share s o b := by
  have e1 : ν s = "psi" ↔ s = "psi" := ⟨fun hh => ν.injective (hh.trans h.psi.symm), fun hh => hh ▸ h.psi⟩
  have e2 : ν s = "alpha" ↔ s = "alpha" := ⟨fun hh => ν.injective (hh.trans h.alpha.symm), fun hh => hh ▸ h.alpha⟩
  have key : ∀ x x' : Cat n, (x'.name = ν x.name ∧ x'.k = x.k ∧ ∀ o, (x'.val (σ o) : ℕ) = κ x.name (x.val o)) →
      (x'.val (σ o) = x'.val (σ b) ↔ x.val o = x.val b) := by
    rintro x x' ⟨-, -, hv⟩
    rw [Fin.ext_iff, hv, hv, (κ x.name).apply_eq_iff_eq, Fin.ext_iff]
  have e3 : (∃ q ∈ d'.cats, q.name = ν s ∧ q.val (σ o) = q.val (σ b)) ↔ ∃ q ∈ d.cats, q.name = s ∧ q.val o = q.val b := by
    constructor
    · rintro ⟨x', hx', hn, hv⟩
      obtain ⟨l2, h1, h2⟩ := h.cats
      have : ∃ x ∈ d.cats, x'.name = ν x.name ∧ x'.k = x.k ∧ ∀ o, (x'.val (σ o) : ℕ) = κ x.name (x.val o) := by
        have hm := h2.mem_iff.2 hx'
        clear h2 hx'
        generalize d.cats = l at h1
        induction h1 with
        | nil => simp at hm
        | cons hr _ ih =>
          rcases List.mem_cons.1 hm with rfl | hm
          · exact ⟨_, by simp, hr⟩
          · obtain ⟨x, m1, m2⟩ := ih hm
            exact ⟨x, List.mem_cons_of_mem _ m1, m2⟩
      obtain ⟨x, hx, hr⟩ := this
      exact ⟨x, hx, ν.injective (hr.1.symm.trans hn), (key x x' hr).1 hv⟩
    · rintro ⟨x, hx, hn, hv⟩
      obtain ⟨x', hx', hr⟩ := Listed_mem h.cats hx
      exact ⟨x', hx', by rw [hr.1, hn], (key x x' hr).2 hv⟩
  simp only [CData.Share, e1, e2, e3, h.firm, h.worker, f.apply_eq_iff_eq, g.apply_eq_iff_eq]

theorem Spec.Renamed.clusters (h : Spec.Renamed d d' σ f g ν κ r e c) {cl : List String} (hcl : d.Clusters cl) :
    d'.Clusters (cl.map ν) := by
  intro s hs
  obtain ⟨s, hs2, rfl⟩ := List.mem_map.1 hs
  rcases hcl s hs2 with rfl | rfl | ⟨x, hx, rfl⟩
  · exact Or.inl h.alpha
  · exact Or.inr (Or.inl h.psi)
  · obtain ⟨x', hx', hr⟩ := Listed_mem h.cats hx
    exact Or.inr (Or.inr ⟨x', hx', hr.1⟩)

theorem Spec.Renamed.sens (h : Spec.Renamed d d' σ f g ν κ r e c) (hd : d.Ok) (hs : d.GoodSolver solve)
    (hs' : d'.GoodSolver solve') {x : Cts n} (hx : x ∈ d.cts) {A A' : Fin n → ℝ}
    (hA : ∀ y, dget ((d.withY y).unpack ((d.withY y).gammaHat solve)).gamma x.name
      = some (.num (∑ o, d.Dp o * A o * y o)))
    (hA' : ∀ y, dget ((d'.withY y).unpack ((d'.withY y).gammaHat solve')).gamma (ν x.name)
      = some (.num (∑ o, d'.Dp o * A' o * y o))) (o : Fin n) :
    A' (σ o) = A o / r x.name / (if d.weighted then c else 1) := by
  have hk := h.factor_pos
  have hDp := h.Dp
  set F : ℝ := if d.weighted = true then c else 1
  obtain ⟨v, h1, h2⟩ := C119_coefficients (h.withY (Pi.single o 1) (Pi.single (σ o) 1)) (Ok_withY hd _)
    (solve := solve) (solve' := solve') (a := 1) (b := 0) hs hs' (single_rel σ o) x hx
  rw [hA, Option.some_inj] at h1
  rw [hA', Option.some_inj] at h2
  simp only [CData.Entry.num.injEq, Pi.single_apply, mul_ite, mul_one, mul_zero, Finset.sum_ite_eq', Finset.mem_univ,
    if_true] at h1 h2
  rw [← h1, hDp] at h2
  have p := (hd.pos o).ne'
  have := h.unit x.name
  have hk := hk.ne'
  field_simp at h2 ⊢
  linarith

/-- C119, standard errors without clusters: the squared standard error of a continuous control is `(a / r) ^ 2` times the
one before without weights; with weights it is also divided by `c ^ 2`. -/
theorem C119_standard_partial (h : Spec.Renamed d d' σ f g ν κ r e c) (hd : d.Ok) (hs : d.GoodSolver solve)
    (hs' : d'.GoodSolver solve') (hy : ∀ o, d'.y (σ o) = a * d.y o + b) (x : Cts n) (hx : x ∈ d.cts) :
    ∃ q, d.standardSq solve x.name = some q ∧
      d'.standardSq solve' (ν x.name) = some ((a / r x.name / (if d.weighted then c else 1)) ^ 2 * q) := by
  have hd' := C119_identified h hd
  obtain ⟨x', hx', hn, -⟩ := Listed_mem h.cts hx
  obtain ⟨A, hA, -, hq⟩ := sandwich_all hd hs (some []) (by simp [CData.clusterNames, CData.Clusters]) x hx
  obtain ⟨A', hA', -, hq'⟩ := sandwich_all hd' hs' (some []) (by simp [CData.clusterNames, CData.Clusters]) x' hx'
  rw [hn] at hA' hq'
  have hAA := h.sens hd hs hs' hx hA hA'
  have hE := C119_residuals h hd hs hs' hy
  have e0 := (C119_sigma2 h hd hs hs' hy).1
  have hDp := h.Dp
  refine ⟨_, hq, ?_⟩
  rw [hq', h.weighted, Option.some_inj]
  by_cases hw : d.weighted = true
  · simp only [hw, if_true] at hAA ⊢
    have e3 : ∑ o, d'.E solve' o ^ 2 = a ^ 2 * ∑ o, d.E solve o ^ 2 := by
      rw [← Equiv.sum_comp σ, Finset.mul_sum]
      exact Finset.sum_congr rfl fun o _ => by rw [hE]; ring
    have e4 : ∑ o, A' o ^ 2 = (1 / r x.name / c) ^ 2 * ∑ o, A o ^ 2 := by
      rw [← Equiv.sum_comp σ, Finset.mul_sum]
      exact Finset.sum_congr rfl fun o _ => by rw [hAA]; ring
    rw [e3, e4]; ring
  · simp only [hw] at hAA e0 hDp ⊢
    simp only [Bool.false_eq_true, if_false] at hAA e0 hDp ⊢
    have e4 : ∑ o, d'.Dp o * A' o ^ 2 = (1 / r x.name) ^ 2 * ∑ o, d.Dp o * A o ^ 2 := by
      rw [← Equiv.sum_comp σ, Finset.mul_sum]
      exact Finset.sum_congr rfl fun o _ => by rw [hAA, hDp]; ring
    rw [e0, e4]; ring

/-- C119, clustered standard errors of continuous controls: `|a / r|` times the ones before, if the rows that are in the
first category of a cluster covariate still are and, with weights, divided by `c`.  Missing from the full claim: another
first category (`C119_first_matters`), other units of the weights. -/
theorem C119_clustered_partial (h : Spec.Renamed d d' σ f g ν κ r e c) (hd : d.Ok) (hs : d.GoodSolver solve)
    (hs' : d'.GoodSolver solve') (hy : ∀ o, d'.y (σ o) = a * d.y o + b) (ha : a ≠ 0) (cl cl' : Option (List String))
    (hcl : d.Clusters (CData.clusterNames cl)) (hcl' : CData.clusterNames cl' = (CData.clusterNames cl).map ν)
    (hfirst : ∀ s ∈ CData.clusterNames cl, ∀ o, d'.First (ν s) (σ o) ↔ d.First s o) (x : Cts n) (hx : x ∈ d.cts) :
    d'.clusteredSe solve' cl' (ν x.name)
      = (d.clusteredSe solve cl x.name).map (|a / r x.name| / (if d.weighted then c else 1) * ·) := by
  have hd' := C119_identified h hd
  obtain ⟨x', hx', hn, -⟩ := Listed_mem h.cts hx
  obtain ⟨A, hA, hq, -⟩ := sandwich_all hd hs cl hcl x hx
  obtain ⟨A', hA', hq', -⟩ := sandwich_all hd' hs' cl' (by rw [hcl']; exact h.clusters hcl) x' hx'
  rw [hn] at hA' hq'
  have hk := h.factor_pos
  have hDp := h.Dp
  set F : ℝ := if d.weighted = true then c else 1
  have hAA := h.sens hd hs hs' hx hA hA'
  have hE := C119_residuals h hd hs hs' hy
  have hS : ∀ o b, (d'.S (d'.unpack (d'.gammaHat solve')) (CData.clusterNames cl') (σ o) (σ b)).getD 0
      = (d.S (d.unpack (d.gammaHat solve)) (CData.clusterNames cl) o b).getD 0 := by
    intro o b
    obtain ⟨p1, p2⟩ := C25_pairs_partial hd.names (d.gammaHat solve) _ hcl o b
    obtain ⟨q1, q2⟩ := C25_pairs_partial hd'.names (d'.gammaHat solve') (CData.clusterNames cl')
      (by rw [hcl']; exact h.clusters hcl) (σ o) (σ b)
    have hiff : (∃ s ∈ CData.clusterNames cl', d'.Share s (σ o) (σ b) ∧ ¬ d'.First s (σ o))
        ↔ ∃ s ∈ CData.clusterNames cl, d.Share s o b ∧ ¬ d.First s o := by
      rw [hcl']
      constructor
      · rintro ⟨s, hs, h1, h2⟩
        obtain ⟨s, hs2, rfl⟩ := List.mem_map.1 hs
        exact ⟨s, hs2, (h.share s o b).1 h1, fun e => h2 ((hfirst s hs2 o).2 e)⟩
      · rintro ⟨s, hs, h1, h2⟩
        exact ⟨ν s, List.mem_map_of_mem hs, (h.share s o b).2 h1, fun e => h2 ((hfirst s hs o).1 e)⟩
    rw [hiff, ← p2] at q2
    rcases p1 with e1 | e1
    · rw [e1, q2.2 e1]
    · rcases q1 with e2 | e2
      · have := q2.1 e2
        rw [e1] at this; simp at this
      · rw [e1, e2]
  set Q := ∑ o, ∑ b, (d.S (d.unpack (d.gammaHat solve)) (CData.clusterNames cl) o b).getD 0
    * ((A o * d.E solve o) * (A b * d.E solve b)) with hQ
  have hQ' : d'.clusteredSq solve' cl' (ν x.name) = some ((a / r x.name / F) ^ 2 * Q) := by
    rw [hq', ← Equiv.sum_comp σ, Option.some_inj, hQ, Finset.mul_sum]
    refine Finset.sum_congr rfl fun o _ => ?_
    rw [← Equiv.sum_comp σ, Finset.mul_sum]
    refine Finset.sum_congr rfl fun b _ => ?_
    rw [hS, hAA, hAA, hE, hE]; ring
  simp only [CData.clusteredSe, hq, hQ', Option.bind_eq_bind, Option.bind_some]
  have ht : |a / r x.name / F| = |a / r x.name| / F := by rw [abs_div, abs_of_pos hk]
  have hr := h.unit x.name
  have hpos : 0 < (a / r x.name / F) ^ 2 := by positivity
  by_cases hneg : Q < 0
  · rw [if_pos hneg, if_pos (mul_neg_of_pos_of_neg hpos hneg)]; rfl
  · rw [if_neg hneg, if_neg (not_lt.2 (mul_nonneg hpos.le (not_lt.1 hneg)))]
    rw [Real.sqrt_mul (sq_nonneg _), Real.sqrt_sq_eq_abs, ht]; rfl

/-! ## The first firm matters for clustered standard errors -/

/-- One worker at three firms, two observations each, and a control. -/
def exF : CData 6 2 1 where
  j := ![0, 0, 1, 1, 2, 2]
  i := fun _ => 0
  y := ![0, 0, 0, 0, 0, 3]
  weighted := false
  w := fun _ => 1
  cats := []
  cts := [⟨"age", ![0, 1, 0, 1, 0, 1]⟩]

/-- The same observations, the names of the first and the last firm swapped. -/
def exF2 : CData 6 2 1 := { exF with j := ![2, 2, 1, 1, 0, 0] }

theorem exF_nCov : exF.nCov = 4 := by decide
theorem exF2_nCov : exF2.nCov = 4 := by decide

theorem exF_fit (a b c e : ℝ) (o : Fin 6) : exF.multA [a, b, c, e] o
    = ![c, c + e, a + c, a + c + e, b + c, b + c + e] o := by
  fin_cases o <;> simp [CData.multA, CData.A, exF, indicators, add_assoc]

theorem exF2_fit (a b c e : ℝ) (o : Fin 6) : exF2.multA [a, b, c, e] o
    = ![b + c, b + c + e, a + c, a + c + e, c, c + e] o := by
  fin_cases o <;> simp [CData.multA, CData.A, exF, exF2, indicators, add_assoc]

theorem exF_ok : exF.Ok where
  names := by decide
  pos := by intro o; fin_cases o <;> norm_num [CData.Dp, exF]
  ident := by
    intro x y hx hy h
    rw [exF_nCov] at hx hy
    match x, y, hx, hy with
    | [a, b, c, e], [a', b', c', e'], _, _ =>
      simp only [exF_fit] at h
      have h0 := h 0; have h1 := h 1; have h2 := h 2; have h4 := h 4
      simp at h0 h1 h2 h4
      simp only [List.cons.injEq, and_true]
      refine ⟨?_, ?_, ?_, ?_⟩ <;> linarith

theorem exF_renamed : Spec.Renamed exF exF2 (Equiv.refl _) (Equiv.swap 0 2) (Equiv.refl _) (Equiv.refl _)
    (fun _ => Equiv.refl _) (fun _ => 1) (fun _ => 0) 1 where
  firm o := by revert o; decide
  worker _ := rfl
  weighted := rfl
  weight o := by simp [exF, exF2]
  pos := one_pos
  psi := rfl
  alpha := rfl
  unit _ := one_ne_zero
  cats := ⟨[], by simp [exF], by simp [exF, exF2]⟩
  cts := ⟨[⟨"age", ![0, 1, 0, 1, 0, 1]⟩], by simp [exF], by simp [exF, exF2]⟩

theorem solve_unique (hd : d.Ok) (hs : d.GoodSolver solve) {x v : List ℝ} (hx : x.length = d.nCov) (hv : d.AtDpA x = v) :
    solve v = x := by
  obtain ⟨x, rfl⟩ := exists_ofFn hx
  rw [← hv, AtDpA_ofFn hd.names, solve_ofFn hd.names hd.unit hs, mulVec_mulVec, nonsing_inv_mul _ hd.unit, one_mulVec]

/-- C119 is false of the standard errors clustered by firm: they change when the first firm changes, although nothing
but names does. -/
theorem C119_first_matters : Spec.Renamed exF exF2 (Equiv.refl _) (Equiv.swap 0 2) (Equiv.refl _) (Equiv.refl _)
      (fun _ => Equiv.refl _) (fun _ => 1) (fun _ => 0) 1 ∧ exF.Ok ∧ exF2.y = exF.y ∧
    ∃ (solve solve' : List ℝ → List ℝ), exF.GoodSolver solve ∧ exF2.GoodSolver solve' ∧
    exF.clusteredSq solve (some ["j"]) "age" = some (5 / 9) ∧ exF2.clusteredSq solve' (some ["j"]) "age" = some (2 / 9) := by
  refine ⟨exF_renamed, exF_ok, rfl, ?_⟩
  obtain ⟨solve, hs⟩ := exists_goodSolver exF
  obtain ⟨solve', hs'⟩ := exists_goodSolver exF2
  have hd' := C119_identified exF_renamed exF_ok
  have g1 : exF.gammaHat solve = [0, 3 / 2, -1 / 2, 1] := by
    refine solve_unique exF_ok hs (by rw [exF_nCov]; rfl) ?_
    simp only [CData.AtDpA, CData.multAT, exF_fit]
    simp [CData.A, CData.Dp, exF, indicators, Fin.sum_univ_succ]
    norm_num
  have g2 : exF2.gammaHat solve' = [-3 / 2, -3 / 2, 1, 1] := by
    refine solve_unique hd' hs' (by rw [exF2_nCov]; rfl) ?_
    simp only [CData.AtDpA, CData.multAT, exF2_fit]
    simp [CData.A, CData.Dp, exF, exF2, indicators, Fin.sum_univ_succ]
    norm_num
  have u1 : solve (CData.unitVec 4 3) = [0, 0, -1 / 3, 2 / 3] := by
    refine solve_unique exF_ok hs (by rw [exF_nCov]; rfl) ?_
    simp only [CData.AtDpA, CData.multAT, exF_fit]
    simp [CData.A, CData.Dp, exF, indicators, Fin.sum_univ_succ, CData.unitVec]
    norm_num
  have u2 : solve' (CData.unitVec 4 3) = [0, 0, -1 / 3, 2 / 3] := by
    refine solve_unique hd' hs' (by rw [exF2_nCov]; rfl) ?_
    simp only [CData.AtDpA, CData.multAT, exF2_fit]
    simp [CData.A, CData.Dp, exF, exF2, indicators, Fin.sum_univ_succ, CData.unitVec]
    norm_num
  have i1 : ∀ gh, dget (exF.unpack gh).idx "age" = some (3, 4) := fun gh => rfl
  have i2 : ∀ gh, dget (exF2.unpack gh).idx "age" = some (3, 4) := fun gh => rfl
  have e1 : ∀ o, exF.epsA solve 3 o = ![-1 / 6, -1 / 6, -1 / 6, -1 / 6, 1 / 3, 1 / 3] o := by
    intro o
    rw [CData.epsA, CData.E, g1, exF_nCov, u1, exF_fit, exF_fit]
    fin_cases o <;> simp [exF] <;> norm_num
  have e2 : ∀ o, exF2.epsA solve' 3 o = ![-1 / 6, -1 / 6, -1 / 6, -1 / 6, 1 / 3, 1 / 3] o := by
    intro o
    rw [CData.epsA, CData.E, g2, exF2_nCov, u2, exF2_fit, exF2_fit]
    fin_cases o <;> simp [exF, exF2] <;> norm_num
  have key : ∀ (d : CData 6 2 1), d.names.Nodup → d.cats = [] → ∀ gh o b, d.S (d.unpack gh) ["psi"] o b
      = some (if d.j o = d.j b ∧ d.j o ≠ 0 then 1 else 0) := by
    intro d hn hc gh o b
    obtain ⟨p1, p2⟩ := C25_pairs_partial hn gh ["psi"] (by simp [CData.Clusters]) o b
    have hp : (∃ nm ∈ ["psi"], d.Share nm o b ∧ ¬ d.First nm o) ↔ d.j o = d.j b ∧ d.j o ≠ 0 := by
      simp [CData.Share, CData.First, hc]
    rw [hp] at p2
    split
    · next h => exact p2.2 h
    · next h => exact p1.resolve_left fun e => h (p2.1 e)
  have c0 : CData.clusterNames (some ["j"]) = ["psi"] := rfl
  obtain ⟨M1, m1⟩ := subA_isSome exF_ok.names (exF.gammaHat solve) ["psi"] (by simp [CData.Clusters])
  obtain ⟨M2, m2⟩ := subA_isSome hd'.names (exF2.gammaHat solve') ["psi"] (by simp [CData.Clusters])
  refine ⟨solve, solve', hs, hs', ?_, ?_⟩
  · simp only [CData.clusteredSq, c0, m1, i1, Option.bind_eq_bind, Option.bind_some, Option.pure_def, Option.some_inj,
      key exF exF_ok.names rfl, Option.getD_some, e1]
    simp [exF, Fin.sum_univ_succ]
    norm_num
  · simp only [CData.clusteredSq, c0, m2, i2, Option.bind_eq_bind, Option.bind_some, Option.pure_def, Option.some_inj,
      key exF2 hd'.names rfl, Option.getD_some, e2]
    simp [exF2, Fin.sum_univ_succ]
    norm_num

/-- One stayer with two observations of weight `w / 2`. -/
noncomputable def exW (w : ℝ) : CData 2 0 1 where
  j := fun _ => 0
  i := fun _ => 0
  y := ![0, 1]
  weighted := true
  w := fun _ => w / 2
  cats := []
  cts := []

theorem exW_ok (w : ℝ) (hw : 0 < w) : (exW w).Ok where
  names := by simp [CData.names, exW]
  pos := by intro o; simp [CData.Dp, exW, hw]
  ident := by
    intro x y hx hy h
    have hn : (exW w).nCov = 1 := by simp [CData.nCov, CData.nDict, exW]
    rw [hn] at hx hy
    match x, y, hx, hy with
    | [a], [b], _, _ => simpa [CData.multA, CData.A, exW, indicators] using h 0

/-- C119 is false of `stayers='upper_bound'` with weights: a stayer whose weights add up to one is refused, and no longer
when all weights are doubled. -/
theorem C119_upper_bound_units : Spec.Renamed (exW 1) (exW 2) (Equiv.refl _) (Equiv.refl _) (Equiv.refl _) (Equiv.refl _)
      (fun _ => Equiv.refl _) (fun _ => 1) (fun _ => 0) 2 ∧ (exW 1).Ok ∧ (exW 2).y = (exW 1).y ∧
    ∀ solve P o, (exW 1).siiHe solve .upperBound P o = none ∧ ∃ v, (exW 2).siiHe solve .upperBound P o = some v := by
  have hm : ∀ w o, ¬ (exW w).workerM o := by
    rintro w o ⟨b, -, hb⟩; exact hb rfl
  refine ⟨⟨fun _ => rfl, fun _ => rfl, rfl, fun o => ?_, two_pos, rfl, rfl, fun _ => one_ne_zero, ⟨[], .nil, .nil⟩,
    ⟨[], .nil, .nil⟩⟩, exW_ok 1 one_pos, rfl, fun solve P o => ⟨?_, ?_⟩⟩
  · show (2 : ℝ) / 2 = 2 * (1 / 2); norm_num
  · have : ∃ s, ¬ (exW 1).workerM s ∧
        1 / (∑ o' with ¬ (exW 1).workerM o' ∧ (exW 1).i o' = (exW 1).i s, (exW 1).Dp o') = 1 :=
      ⟨0, hm _ _, by simp [hm]; simp [exW, CData.Dp]⟩
    rw [CData.siiHe, if_pos (show (exW 1).weighted = true from rfl), if_pos this]
  · have : ¬ ∃ s, ¬ (exW 2).workerM s ∧
        1 / (∑ o' with ¬ (exW 2).workerM o' ∧ (exW 2).i o' = (exW 2).i s, (exW 2).Dp o') = 1 := by
      rintro ⟨s, -, hs⟩
      simp only [hm, not_false_eq_true, true_and] at hs
      simp [exW, CData.Dp] at hs
    rw [CData.siiHe, if_pos (show (exW 2).weighted = true from rfl), if_neg this]
    split <;> exact ⟨_, rfl⟩

/-! ## Hypotheses can be met -/

/-- Data under other names, controls listed in reverse. -/
noncomputable def Spec.rename (d : CData n m nw) (σ : Fin n ≃ Fin n) (f : Fin (m + 1) ≃ Fin (m + 1)) (g : Fin nw ≃ Fin nw)
    (ν : String ≃ String) (κ : String → ℕ ≃ ℕ) (r e : String → ℝ) (a b c : ℝ) : CData n m nw where
  j o := f (d.j (σ.symm o))
  i o := g (d.i (σ.symm o))
  y o := a * d.y (σ.symm o) + b
  weighted := d.weighted
  w o := c * d.w (σ.symm o)
  cats := (d.cats.map fun x => ⟨ν x.name, x.k, fun o => Fin.ofNat (x.k + 1) (κ x.name (x.val (σ.symm o)))⟩).reverse
  cts := (d.cts.map fun x => ⟨ν x.name, fun o => r x.name * x.val (σ.symm o) + e x.name⟩).reverse

/-- Any data can be renamed in any way that permutes the categories of every control. -/
theorem Spec.rename_renamed (d : CData n m nw) (σ : Fin n ≃ Fin n) (f : Fin (m + 1) ≃ Fin (m + 1)) (g : Fin nw ≃ Fin nw)
    (ν : String ≃ String) (κ : String → ℕ ≃ ℕ) (r e : String → ℝ) (a b c : ℝ) (hc : 0 < c) (h1 : ν "psi" = "psi")
    (h2 : ν "alpha" = "alpha") (hr : ∀ s, r s ≠ 0) (hκ : ∀ x ∈ d.cats, ∀ v ≤ x.k, κ x.name v ≤ x.k) :
    Spec.Renamed d (Spec.rename d σ f g ν κ r e a b c) σ f g ν κ r e c ∧
      ∀ o, (Spec.rename d σ f g ν κ r e a b c).y (σ o) = a * d.y o + b := by
  have hF : ∀ {α β : Type} (rel : α → β → Prop) (u : α → β) (l : List α), (∀ x ∈ l, rel x (u x)) →
      List.Forall₂ rel l (l.map u) := by
    intro α β rel u l hl
    induction l with
    | nil => exact .nil
    | cons x l ih => exact .cons (hl x (by simp)) (ih fun x hx => hl x (List.mem_cons_of_mem _ hx))
  refine ⟨⟨fun o => by simp [Spec.rename], fun o => by simp [Spec.rename], rfl, fun o => by simp [Spec.rename], hc, h1, h2, hr,
    ⟨_, hF _ (fun x => ⟨ν x.name, x.k, fun o => Fin.ofNat (x.k + 1) (κ x.name (x.val (σ.symm o)))⟩) _
      fun x hx => ⟨rfl, rfl, fun o => ?_⟩, (List.reverse_perm _).symm⟩,
    ⟨_, hF _ (fun x => ⟨ν x.name, fun o => r x.name * x.val (σ.symm o) + e x.name⟩) _
      fun x _ => ⟨rfl, fun o => by simp⟩, (List.reverse_perm _).symm⟩⟩, fun o => by simp [Spec.rename]⟩
  have := hκ x hx (x.val o) (Nat.lt_succ_iff.1 (x.val o).2)
  simp [Nat.mod_eq_of_lt (Nat.lt_succ_of_le this)]

/-- The hypotheses of the C119 theorems can be met with everything changed at once. -/
example : ∃ (d' : CData 8 1 2) (s s' : List ℝ → List ℝ),
    Spec.Renamed exT d' (Equiv.swap 0 3) (Equiv.swap 0 1) (Equiv.swap 0 1) (Equiv.swap "region" "area")
      (fun _ => Equiv.swap 0 1) (fun _ => 12) (fun _ => 1) 2 ∧
    (∀ o, d'.y (Equiv.swap 0 3 o) = 2 * exT.y o + 3) ∧ exT.Ok ∧ exT.GoodSolver s ∧ d'.GoodSolver s' ∧
    (∀ l ∈ ["psi", "region"], l ∈ exT.names) ∧ exT.Clusters (CData.clusterNames (some ["i"])) ∧
    CData.clusterNames (some ["i"]) = (CData.clusterNames (some ["i"])).map (Equiv.swap "region" "area") ∧
    (∀ q ∈ CData.clusterNames (some ["i"]), ∀ o, d'.First (Equiv.swap "region" "area" q) (Equiv.swap 0 3 o) ↔ exT.First q o) ∧
    ∃ x ∈ exT.cts, x.name = "age" := by
  obtain ⟨h1, h2⟩ := Spec.rename_renamed exT (Equiv.swap 0 3) (Equiv.swap 0 1) (Equiv.swap 0 1) (Equiv.swap "region" "area")
    (fun _ => Equiv.swap 0 1) (fun _ => 12) (fun _ => 1) 2 3 2 two_pos (by decide) (by decide) (fun _ => by norm_num) (by
      intro x hx v hv
      simp only [exT, List.mem_singleton] at hx
      subst hx
      simp only at hv ⊢
      interval_cases v <;> simp)
  obtain ⟨s, hs⟩ := exists_goodSolver exT
  obtain ⟨s', hs'⟩ := exists_goodSolver (Spec.rename exT (Equiv.swap 0 3) (Equiv.swap 0 1) (Equiv.swap 0 1)
    (Equiv.swap "region" "area") (fun _ => Equiv.swap 0 1) (fun _ => 12) (fun _ => 1) 2 3 2)
  have e0 : (Equiv.swap "region" "area") "alpha" = "alpha" := by decide
  refine ⟨_, s, s', h1, h2, exT_ok, hs, hs', by decide, by simp [CData.Clusters, CData.clusterNames], ?_, ?_,
    ⟨_, List.mem_singleton.2 rfl, rfl⟩⟩
  · simp [CData.clusterNames, e0]
  · intro q hq o
    simp only [CData.clusterNames, List.map_cons, List.map_nil, List.mem_singleton, if_true] at hq
    subst hq
    rw [e0]
    simp [CData.First, exT, Spec.rename]

end Pytwoway.FEControl
