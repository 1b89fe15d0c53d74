import Verif.Timestep.Model
import Verif.Integ.StepLemmas
import Verif.Props.Pairwise
import Mathlib.Order.Bounds.Basic
import Mathlib.Tactic.IntervalCases
import Mathlib.Tactic.NormNum

/-!
# C21: the selected timestep respects the limit and the direction
-/

namespace Heyoka.Timestep

open Heyoka.Integ (HOk)

/-! ## Specification -/

/-- `M` is the infinity norm of the values `v i`, `i < n`. -/
def IsNorm (n : Nat) (v : Nat → ℝ) (M : ℝ) : Prop := IsGreatest {x | ∃ i < n, |v i| = x} M

/-- The estimate of the radius of convergence: `(ν / D) ^ (1 / k)`, infinite (`none`) if the coefficients are
all zero. -/
noncomputable def radius (ν D : ℝ) (k : Nat) : Option ℝ := if D = 0 then none else some ((ν / D) ^ (1 / (k : ℝ)))

/-- Jorba and Zou's timestep: the minimum of the two estimates times the safety factor, clamped by `L` (which
may be infinite, `none`). All quantities are non-negative. -/
noncomputable def jorba (o : Nat) (M D1 D2 : ℝ) (L : Option ℝ) : Option ℝ :=
  let ν := max 1 M
  let clamp : Option ℝ → Option ℝ → Option ℝ
    | none, b => b
    | a, none => a
    | some a, some b => some (min a b)
  let ρ := clamp (radius ν D1 o) (radius ν D2 (o - 1))
  clamp (ρ.map fun r => r * (Real.exp (-7 / (10 * ((o : ℝ) - 1))) / Real.exp 2)) L

/-! ## The limit -/

theorem rhofac_pos (order : Nat) : 0 < rhofac order := by
  unfold rhofac
  positivity

theorem xpow_nonneg {a : XF ℝ} {p x : ℝ} (h : xpow a p = .fin x) : 0 ≤ x := by
  cases a with
  | fin y =>
    simp only [xpow] at h
    split at h
    · simp at h
    · rename_i h2
      simp only [XF.fin.injEq] at h
      rw [← h]
      exact Real.rpow_nonneg (not_lt.mp h2) _
  | pinf => simp [xpow] at h
  | ninf => simp [xpow] at h
  | nan => simp [xpow] at h

/-- **C21.** For all norms (finite, infinite or NaN) and every limit which is not NaN: the timestep, when
finite, does not exceed the limit and has its sign. -/
theorem timestep_within_limit (order : Nat) (a b c m : XF ℝ) (hm : m.isNan = false) :
    HOk m (hFromNorms order a b c m) := by
  intro x hx
  -- The unclamped timestep.
  obtain ⟨h0, hh0⟩ : ∃ h0, h0 = xscale
      ((xpow (xdiv (if a.le (.fin 1) then .fin 1 else a) b) (1 / (order : ℝ))).min
        (xpow (xdiv (if a.le (.fin 1) then .fin 1 else a) c) (1 / ((order - 1 : Nat) : ℝ)))) (rhofac order) :=
    ⟨_, rfl⟩
  have hpos : ∀ y, h0 = .fin y → 0 ≤ y := by
    intro y hy
    rw [hh0] at hy
    obtain ⟨q, hq⟩ : ∃ q, q = (xpow (xdiv (if a.le (.fin 1) then .fin 1 else a) b) (1 / (order : ℝ))).min
        (xpow (xdiv (if a.le (.fin 1) then .fin 1 else a) c) (1 / ((order - 1 : Nat) : ℝ))) := ⟨_, rfl⟩
    rw [← hq] at hy
    have hq0 : ∀ z, q = .fin z → 0 ≤ z := by
      intro z hz
      rw [hq] at hz
      obtain ⟨ν, hν⟩ : ∃ ν, ν = (if a.le (.fin 1) then .fin 1 else a) := ⟨_, rfl⟩
      rw [← hν] at hz
      unfold XF.min at hz
      split at hz
      · exact xpow_nonneg hz
      · exact xpow_nonneg hz
    cases q with
    | fin z =>
      simp only [xscale, XF.fin.injEq] at hy
      rw [← hy]
      exact mul_nonneg (hq0 z rfl) (rhofac_pos order).le
    | pinf => simp [xscale] at hy
    | ninf => simp [xscale] at hy
    | nan => simp [xscale] at hy
  have hx' : (if m.lt (.fin 0) then (h0.min m.abs).neg else h0.min m.abs) = .fin x := by
    rw [hh0]; exact hx
  have key : ∀ y, h0.min m.abs = .fin y → 0 ≤ y ∧ XF.le (.fin y) m.abs = true := by
    intro y hy
    unfold XF.min at hy
    split at hy
    · rename_i hlt
      refine ⟨?_, ?_⟩
      · cases m with
        | fin z => simp only [XF.abs_fin, XF.fin.injEq] at hy; rw [← hy]; exact abs_nonneg z
        | pinf => simp [XF.abs] at hy
        | ninf => simp [XF.abs] at hy
        | nan => simp [XF.abs] at hy
      · rw [hy]; simp
    · rename_i hlt
      refine ⟨hpos y hy, ?_⟩
      rw [hy] at hlt
      cases m with
      | fin z =>
        simp only [XF.abs_fin, XF.lt_fin, decide_eq_true_eq, not_lt] at hlt
        simpa using hlt
      | pinf => simp [XF.abs, XF.le, XF.lt]
      | ninf => simp [XF.abs, XF.le, XF.lt]
      | nan => simp [XF.isNan] at hm
  by_cases hneg : m.lt (.fin 0) = true
  · rw [if_pos hneg] at hx'
    obtain ⟨y, hy⟩ : ∃ y, h0.min m.abs = .fin y := by
      cases hc : h0.min m.abs with
      | fin y => exact ⟨y, rfl⟩
      | pinf => rw [hc] at hx'; simp [XF.neg] at hx'
      | ninf => rw [hc] at hx'; simp [XF.neg] at hx'
      | nan => rw [hc] at hx'; simp [XF.neg] at hx'
    obtain ⟨k1, k2⟩ := key y hy
    rw [hy] at hx'
    simp only [XF.neg_fin, XF.fin.injEq] at hx'
    subst hx'
    refine ⟨fun h => ?_, fun _ => by linarith, ?_⟩
    · rw [hneg] at h; simp at h
    · rw [abs_neg, abs_of_nonneg k1]; exact k2
  · rw [if_neg hneg] at hx'
    obtain ⟨k1, k2⟩ := key x hx'
    exact ⟨fun _ => k1, fun h => absurd h hneg, by rw [abs_of_nonneg k1]; exact k2⟩

/-! ## The norms -/

theorem isNorm_max {n : Nat} {v : Nat → ℝ} {M : ℝ} (h : IsNorm n v M) :
    IsNorm (n + 1) v (max M |v n|) := by
  constructor
  · rcases le_total M |v n| with hc | hc
    · rw [max_eq_right hc]; exact ⟨n, by omega, rfl⟩
    · rw [max_eq_left hc]
      obtain ⟨i, hi, he⟩ := h.1
      exact ⟨i, by omega, he⟩
  · rintro x ⟨i, hi, rfl⟩
    by_cases hin : i = n
    · rw [hin]; exact le_max_right _ _
    · exact (h.2 ⟨i, by omega, rfl⟩).trans (le_max_left _ _)

theorem normLoop_fin {tape : List (XF ℝ)} {nUvars k : Nat} {v : Nat → ℝ} : ∀ {is : List Nat},
    (∀ i ∈ is, tape[k * nUvars + i]? = some (.fin (v i))) → ∀ acc : ℝ,
    normLoop tape nUvars k is (.fin acc) = .ok (.fin (is.foldl (fun a i => max a |v i|) acc)) := by
  intro is
  induction is with
  | nil => intro _ acc; rfl
  | cons i is ih =>
    intro h acc
    have h1 := h i List.mem_cons_self
    simp only [normLoop, ld, h1, Res.bind_ok, maxAbs, XF.abs_fin, XF.max_fin, List.foldl_cons]
    exact ih (fun j hj => h j (List.mem_cons_of_mem _ hj)) _

theorem foldl_max_isNorm : ∀ (w : List ℝ) (a : ℝ), 0 ≤ a →
    IsGreatest {x | x = a ∨ ∃ y ∈ w, |y| = x} (w.foldl (fun a y => max a |y|) a) := by
  intro w
  induction w with
  | nil => intro a _; simp [IsGreatest, upperBounds]
  | cons y w ih =>
    intro a ha
    have h := ih (max a |y|) (ha.trans (le_max_left _ _))
    simp only [List.foldl_cons]
    refine ⟨?_, ?_⟩
    · rcases h.1 with h1 | ⟨z, hz, h1⟩
      · rw [h1]
        rcases le_total a |y| with hc | hc
        · rw [max_eq_right hc]; exact .inr ⟨y, List.mem_cons_self, rfl⟩
        · rw [max_eq_left hc]; exact .inl rfl
      · exact .inr ⟨z, List.mem_cons_of_mem _ hz, h1⟩
    · rintro x (rfl | ⟨z, hz, rfl⟩)
      · exact (le_max_left _ _).trans (h.2 (.inl rfl))
      · rcases List.mem_cons.mp hz with rfl | hz
        · exact (le_max_right _ _).trans (h.2 (.inl rfl))
        · exact h.2 (.inr ⟨z, hz, rfl⟩)

theorem isNorm_unique {n : Nat} {v : Nat → ℝ} {M M' : ℝ} (h : IsNorm n v M) (h' : IsNorm n v M') : M = M' :=
  h.unique h'

/-- **C21.** In compact mode, for finite derivatives, the norm is the infinity norm over the state variables
and the functions of the state variables. -/
theorem norm_compact_correct {tape : List (XF ℝ)} {nUvars nEq k : Nat} {svf : List Nat} (h0 : 0 < nEq)
    {v : Nat → ℝ} (hsv : ∀ i < nEq, tape[k * nUvars + i]? = some (.fin (v i)))
    (hsf : ∀ j, (h : j < svf.length) → tape[k * nUvars + svf[j]]? = some (.fin (v (nEq + j)))) :
    ∃ M, normCompact tape nUvars nEq k svf = .ok (.fin M) ∧ IsNorm (nEq + svf.length) v M := by
  have e0 : tape[k * nUvars]? = some (.fin (v 0)) := by simpa using hsv 0 h0
  have e1 := normLoop_fin (tape := tape) (nUvars := nUvars) (k := k) (v := v)
    (is := (List.range nEq).drop 1) (by
      intro i hi
      exact hsv i (List.mem_range.mp (List.mem_of_mem_drop hi))) |v 0|
  -- Values of the functions.
  obtain ⟨u, hu⟩ : ∃ u : Nat → ℝ, ∀ j ∈ svf, tape[k * nUvars + j]? = some (.fin (u j)) := by
    refine ⟨fun j => match tape[k * nUvars + j]? with | some (.fin x) => x | _ => 0, fun j hj => ?_⟩
    obtain ⟨i, hi, rfl⟩ := List.mem_iff_getElem.mp hj
    simp only [hsf i hi]
  have hu' : ∀ j, (h : j < svf.length) → u (svf[j]) = v (nEq + j) := by
    intro j h
    have := hu svf[j] (List.getElem_mem h)
    rw [hsf j h] at this
    simpa using this.symm
  refine ⟨svf.foldl (fun a i => max a |u i|)
    (((List.range nEq).drop 1).foldl (fun a i => max a |v i|) |v 0|), ?_, ?_⟩
  · simp only [normCompact, ld, e0, Res.bind_ok, XF.abs_fin, e1]
    exact normLoop_fin hu _
  · have hw := foldl_max_isNorm (((List.range nEq).drop 1).map v ++ svf.map u) |v 0| (abs_nonneg _)
    rw [List.foldl_append, List.foldl_map, List.foldl_map] at hw
    have hset : {x | x = |v 0| ∨ ∃ y ∈ ((List.range nEq).drop 1).map v ++ svf.map u, |y| = x}
        = {x | ∃ i < nEq + svf.length, |v i| = x} := by
      ext x
      simp only [Set.mem_ofPred_eq, List.mem_append, List.mem_map]
      constructor
      · rintro (rfl | ⟨y, ⟨i, hi, rfl⟩ | ⟨j, hj, rfl⟩, rfl⟩)
        · exact ⟨0, by omega, rfl⟩
        · have := List.mem_range.mp (List.mem_of_mem_drop hi)
          exact ⟨i, by omega, rfl⟩
        · obtain ⟨i, hi, rfl⟩ := List.mem_iff_getElem.mp hj
          exact ⟨nEq + i, by omega, by rw [hu' i hi]⟩
      · rintro ⟨i, hi, rfl⟩
        by_cases hi0 : i = 0
        · left; rw [hi0]
        · right
          by_cases hi1 : i < nEq
          · refine ⟨v i, .inl ⟨i, ?_, rfl⟩, rfl⟩
            rw [List.mem_iff_getElem]
            exact ⟨i - 1, by simp; omega, by simp; omega⟩
          · refine ⟨v i, .inr ⟨svf[i - nEq]'(by omega), List.getElem_mem _, ?_⟩, rfl⟩
            rw [hu' (i - nEq) (by omega)]
            congr 1
            omega
    rw [hset] at hw
    exact hw

theorem absDiffs_fin {diffs : List (XF ℝ)} {nEq nSvf k : Nat} {v : Nat → ℝ} : ∀ {is : List Nat},
    (∀ i ∈ is, diffs[k * (nEq + nSvf) + i]? = some (.fin (v i))) →
    absDiffs diffs nEq nSvf k is = .ok (is.map fun i => .fin |v i|) := by
  intro is
  induction is with
  | nil => intro _; rfl
  | cons i is ih =>
    intro h
    simp only [absDiffs, ld, h i List.mem_cons_self, Res.bind_ok,
      ih fun j hj => h j (List.mem_cons_of_mem _ hj), XF.abs_fin, List.map_cons]

theorem pairPass_map_fin : ∀ l : List ℝ,
    Util.pairPass XF.max (l.map XF.fin) = (Util.pairPass max l).map XF.fin
  | [] => rfl
  | [a] => rfl
  | a :: b :: t => by simp [Util.pairPass, pairPass_map_fin t]

theorem pairwiseReduce_map_fin (l : List ℝ) :
    Util.pairwiseReduce XF.max (l.map XF.fin) = (Util.pairwiseReduce max l).map XF.fin := by
  match l with
  | [] => simp [Util.pairwiseReduce]
  | [a] => simp [Util.pairwiseReduce]
  | a :: b :: t =>
    have h := pairPass_map_fin (a :: b :: t)
    simp only [List.map_cons] at h ⊢
    rw [Util.pairwiseReduce, h, pairwiseReduce_map_fin, ← Util.pairwiseReduce]
termination_by l.length
decreasing_by
  have := Util.pairPass_length_le (max : ℝ → ℝ → ℝ) t
  simp only [Util.pairPass, List.length_cons]; omega

/-- **C21.** In default mode, for finite derivatives, the norm is the infinity norm over the state variables
and the functions of the state variables. -/
theorem norm_default_correct {diffs : List (XF ℝ)} {nEq nSvf k : Nat} (h0 : 0 < nEq) {v : Nat → ℝ}
    (hv : ∀ i < nEq + nSvf, diffs[k * (nEq + nSvf) + i]? = some (.fin (v i))) :
    ∃ M, normDefault diffs nEq nSvf k = .ok (.fin M) ∧ IsNorm (nEq + nSvf) v M := by
  have e1 := absDiffs_fin (diffs := diffs) (nEq := nEq) (nSvf := nSvf) (k := k) (v := v)
    (is := List.range (nEq + nSvf)) (fun i hi => hv i (List.mem_range.mp hi))
  have e2 : (List.range (nEq + nSvf)).map (fun i => (XF.fin |v i| : XF ℝ))
      = ((List.range (nEq + nSvf)).map fun i => |v i|).map XF.fin := by
    rw [List.map_map]; rfl
  obtain ⟨n, hn⟩ : ∃ n, nEq + nSvf = n + 1 := ⟨nEq + nSvf - 1, by omega⟩
  have e3 : (List.range (nEq + nSvf)).map (fun i => |v i|)
      = |v 0| :: ((List.range n).map fun i => |v (i + 1)|) := by
    rw [hn, List.range_succ_eq_map]
    simp [Function.comp_def]
  refine ⟨((List.range n).map fun i => |v (i + 1)|).foldl max |v 0|, ?_, ?_⟩
  · simp only [normDefault, e1, Res.bind_ok]
    rw [e2, pairwiseReduce_map_fin, e3, Util.pairwiseReduce_eq_foldl _ max_assoc]
    rfl
  · have hw := foldl_max_isNorm ((List.range n).map fun i => v (i + 1)) |v 0| (abs_nonneg _)
    rw [List.foldl_map] at hw
    rw [List.foldl_map]
    have hset : {x | x = |v 0| ∨ ∃ y ∈ (List.range n).map fun i => v (i + 1), |y| = x}
        = {x | ∃ i < nEq + nSvf, |v i| = x} := by
      ext x
      simp only [Set.mem_ofPred_eq, List.mem_map, List.mem_range]
      constructor
      · rintro (rfl | ⟨y, ⟨i, hi, rfl⟩, rfl⟩)
        · exact ⟨0, by omega, rfl⟩
        · exact ⟨i + 1, by omega, rfl⟩
      · rintro ⟨i, hi, rfl⟩
        cases i with
        | zero => exact .inl rfl
        | succ i => exact .inr ⟨_, ⟨i, by omega, rfl⟩, rfl⟩
    rw [hset] at hw
    exact hw

/-! ## The formula -/

/-- The limit as an absolute value. -/
noncomputable def absLimit : XF ℝ → Option ℝ
  | .fin x => some |x|
  | _ => none

/-- A timestep with the sign of the limit. -/
noncomputable def signed (m : XF ℝ) : Option ℝ → XF ℝ
  | some x => if m.lt (.fin 0) then .fin (-x) else .fin x
  | none => if m.lt (.fin 0) then .ninf else .pinf

theorem xpow_xdiv {ν D : ℝ} {k : Nat} (hν : 0 < ν) (hD : 0 ≤ D) :
    xpow (xdiv (.fin ν) (.fin D)) (1 / (k : ℝ)) = match radius ν D k with
      | some r => .fin r
      | none => .pinf := by
  unfold xdiv radius
  by_cases h0 : D = 0
  · simp [h0, hν, hν.ne', xpow]
  · have : ¬ ν / D < 0 := not_lt.mpr (div_nonneg hν.le hD)
    simp [h0, xpow, this]

/-- **C21.** For finite norms the timestep is given by Jorba and Zou's formula, with the sign of the limit. If
the formula gives an infinite timestep (all the coefficients are zero and the limit is infinite) the timestep is
infinite. -/
theorem timestep_formula {order : Nat} (ho : 2 ≤ order) {M D1 D2 : ℝ} (hD1 : 0 ≤ D1)
    (hD2 : 0 ≤ D2) {m : XF ℝ} (hm : m.isNan = false) :
    hFromNorms order (.fin M) (.fin D1) (.fin D2) m = signed m (jorba order M D1 D2 (absLimit m)) := by
  have hnum : (if (XF.fin M).le (.fin 1) then XF.fin 1 else XF.fin M) = XF.fin (max 1 M) := by
    simp only [XF.le_fin, decide_eq_true_eq]
    split
    · rename_i h; rw [max_eq_left h]
    · rename_i h; rw [max_eq_right (not_le.mp h).le]
  have hν : (0 : ℝ) < max 1 M := lt_of_lt_of_le one_pos (le_max_left _ _)
  have hfac : rhofac order = Real.exp (-7 / (10 * ((order : ℝ) - 1))) / Real.exp 2 := by
    unfold rhofac
    have h1 : ((order - 1 : Nat) : ℝ) = (order : ℝ) - 1 := by
      rw [Nat.cast_sub (by omega)]; simp
    rw [h1, ← Real.exp_add, div_div]
    norm_num
  have hpos := rhofac_pos order
  unfold hFromNorms jorba
  simp only [hnum, xpow_xdiv hν hD1, xpow_xdiv hν hD2, ← hfac]
  cases hr1 : radius (max 1 M) D1 order with
  | none =>
    cases hr2 : radius (max 1 M) D2 (order - 1) with
    | none =>
      cases m with
      | nan => simp [XF.isNan] at hm
      | pinf => simp [XF.min, XF.lt, xscale, minAbs, XF.abs, absLimit, signed]
      | ninf => simp [XF.min, XF.lt, xscale, minAbs, XF.abs, absLimit, signed, XF.neg]
      | fin x =>
        by_cases hx : x < 0 <;>
          simp [XF.min, XF.lt, xscale, minAbs, XF.abs, absLimit, signed, XF.neg, hx]
    | some r2 =>
      cases m with
      | nan => simp [XF.isNan] at hm
      | pinf => simp [XF.min, XF.lt, xscale, minAbs, XF.abs, absLimit, signed]
      | ninf => simp [XF.min, XF.lt, xscale, minAbs, XF.abs, absLimit, signed, XF.neg]
      | fin x =>
        have : (XF.pinf : XF ℝ).min (.fin r2) = .fin r2 := by simp [XF.min, XF.lt]
        simp only [this, xscale, minAbs, XF.abs_fin, XF.min_fin, absLimit, signed, Option.map_some]
        split <;> simp
  | some r1 =>
    cases hr2 : radius (max 1 M) D2 (order - 1) with
    | none =>
      have hmin : (XF.fin r1).min .pinf = .fin r1 := by simp [XF.min, XF.lt]
      cases m with
      | nan => simp [XF.isNan] at hm
      | pinf => simp [XF.min, XF.lt, xscale, minAbs, XF.abs, absLimit, signed]
      | ninf => simp [XF.min, XF.lt, xscale, minAbs, XF.abs, absLimit, signed, XF.neg]
      | fin x =>
        simp only [hmin, xscale, minAbs, XF.abs_fin, XF.min_fin, absLimit, signed, Option.map_some]
        split <;> simp
    | some r2 =>
      cases m with
      | nan => simp [XF.isNan] at hm
      | pinf =>
        simp only [XF.min_fin, xscale, minAbs, absLimit, signed, Option.map_some, XF.abs]
        simp [XF.min, XF.lt]
      | ninf =>
        simp only [XF.min_fin, xscale, minAbs, absLimit, signed, Option.map_some, XF.abs]
        simp [XF.min, XF.lt, XF.neg]
      | fin x =>
        simp only [xscale, minAbs, XF.abs_fin, XF.min_fin, absLimit, signed, Option.map_some]
        split <;> simp

/-- **C21.** The timestep in compact mode and in default mode is the same, for finite derivatives: both modes
compute the timestep of the formula from the norms of the state (order 0) and of the derivatives of the last two
orders. `c k i` is the normalised derivative of order `k` of the `i`-th state variable or function. -/
theorem timestep_correct {order : Nat} (ho : 2 ≤ order) {nEq : Nat} (h0 : 0 < nEq) {svf : List Nat}
    {nUvars : Nat} {c : Nat → Nat → ℝ} {tape diffs : List (XF ℝ)} {m : XF ℝ} (hm : m.isNan = false)
    (hsv : ∀ k ≤ order, ∀ i < nEq, tape[k * nUvars + i]? = some (.fin (c k i)))
    (hsf : ∀ k ≤ order, ∀ j, (h : j < svf.length) →
      tape[k * nUvars + svf[j]]? = some (.fin (c k (nEq + j))))
    (hd : ∀ k ≤ order, ∀ i < nEq + svf.length,
      diffs[k * (nEq + svf.length) + i]? = some (.fin (c k i))) :
    ∃ M D1 D2, IsNorm (nEq + svf.length) (c 0) M ∧ IsNorm (nEq + svf.length) (c order) D1 ∧
      IsNorm (nEq + svf.length) (c (order - 1)) D2 ∧
      determineHCompact tape nUvars nEq order svf m
        = .ok (signed m (jorba order M D1 D2 (absLimit m)), .fin M) ∧
      determineHDefault diffs nEq svf.length order m
        = .ok (signed m (jorba order M D1 D2 (absLimit m)), .fin M) := by
  obtain ⟨M, a1, a2⟩ := norm_compact_correct (k := 0) h0 (hsv 0 (by omega)) (hsf 0 (by omega))
  obtain ⟨D1, b1, b2⟩ := norm_compact_correct (k := order) h0 (hsv order le_rfl) (hsf order le_rfl)
  obtain ⟨D2, c1, c2⟩ := norm_compact_correct (k := order - 1) h0 (hsv _ (by omega)) (hsf _ (by omega))
  obtain ⟨M', a1', a2'⟩ := norm_default_correct (k := 0) h0 (hd 0 (by omega))
  obtain ⟨D1', b1', b2'⟩ := norm_default_correct (k := order) h0 (hd order le_rfl)
  obtain ⟨D2', c1', c2'⟩ := norm_default_correct (k := order - 1) h0 (hd _ (by omega))
  rw [isNorm_unique a2' a2] at a1'
  rw [isNorm_unique b2' b2] at b1'
  rw [isNorm_unique c2' c2] at c1'
  have hD1 : 0 ≤ D1 := by obtain ⟨i, -, h⟩ := b2.1; rw [← h]; exact abs_nonneg _
  have hD2 : 0 ≤ D2 := by obtain ⟨i, -, h⟩ := c2.1; rw [← h]; exact abs_nonneg _
  refine ⟨M, D1, D2, a2, b2, c2, ?_, ?_⟩
  · simp only [determineHCompact, a1, b1, c1, Res.bind_ok, timestep_formula ho hD1 hD2 hm]
  · simp only [determineHDefault, a1', b1', c1', Res.bind_ok, timestep_formula ho hD1 hD2 hm]

/-- **C21** (observation). With a NaN among the values, the norm depends on the mode (a NaN is ignored or not
depending on its position): with values 1, NaN, 2 the norm is 2 in compact mode. -/
theorem norm_nan_dependent :
    normCompact [.fin 1, .nan, .fin 2] 3 3 0 [] = .ok (.fin 2) ∧
    normDefault [.fin 2, .fin 1, .nan, .fin 3] 4 0 0 = .ok (.fin 2) ∧
    normCompact [.fin 2, .fin 1, .nan, .fin 3] 4 4 0 [] = .ok (.fin 3) := by
  refine ⟨?_, ?_, ?_⟩
  · simp [normCompact, ld, normLoop, maxAbs, XF.max, XF.abs, XF.lt, List.range_succ]
  · simp [normDefault, ld, absDiffs, Util.pairwiseReduce, Util.pairPass, XF.max, XF.abs, XF.lt,
      List.range_succ]
  · simp [normCompact, ld, normLoop, maxAbs, XF.max, XF.abs, XF.lt, List.range_succ]
    norm_num

/-! ## Concrete cases -/

/-- Two state variables and one function, order 2, `c k i = k + i`; the hypotheses of `timestep_correct` are
satisfied with an auxiliary u variable (index 2) in the tape. -/
example : ∃ (c : Nat → Nat → ℝ) (tape diffs : List (XF ℝ)),
    (∀ k ≤ 2, ∀ i < 2, tape[k * 4 + i]? = some (.fin (c k i))) ∧
    (∀ k ≤ 2, ∀ j, (h : j < [3].length) → tape[k * 4 + [3][j]]? = some (.fin (c k (2 + j)))) ∧
    (∀ k ≤ 2, ∀ i < 2 + [3].length, diffs[k * (2 + [3].length) + i]? = some (.fin (c k i))) := by
  refine ⟨fun k i => k + i,
    (List.range 12).map (fun p => .fin ((p / 4 : Nat) + (if p % 4 = 3 then 2 else p % 4 : Nat))),
    (List.range 9).map (fun p => .fin ((p / 3 : Nat) + (p % 3 : Nat))), ?_, ?_, ?_⟩
  · intro k hk i hi
    interval_cases k <;> interval_cases i <;> simp
  · intro k hk j hj
    simp only [List.length_singleton] at hj
    interval_cases k <;> interval_cases j <;> simp
  · intro k hk i hi
    simp only [List.length_singleton] at hi
    interval_cases k <;> interval_cases i <;> simp

/-- The constant system: all the coefficients vanish, the timestep is the (negative) limit. -/
example : hFromNorms 2 (.fin 3) (.fin 0) (.fin 0) (.fin (-5)) = .fin (-5) := by
  rw [timestep_formula le_rfl le_rfl le_rfl rfl]
  simp [signed, jorba, radius, absLimit]

end Heyoka.Timestep
