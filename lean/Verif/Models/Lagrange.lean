import Verif.Models.Rsw
import Verif.Kepler.Math
import Mathlib.Analysis.Calculus.Deriv.Prod

/-!
# The Lagrange propagator

`src/model/lagrange_prop.cpp`.
-/

set_option linter.unusedSectionVars false

namespace Heyoka.Models

open Heyoka.Sym Matrix

section
variable {K : Type} [Field K] [LinearOrder K] [FloorRing K] [Fold K]

/-- The intermediate expressions of `lagrange_prop()` which do not depend on the propagation time
(`src/model/lagrange_prop.cpp` 39-51). -/
structure LagConst (K : Type) where
  r0 : Expr K
  a : Expr K
  sigma0 : Expr K
  s0 : Expr K
  c0 : Expr K
  n : Expr K

/-- `src/model/lagrange_prop.cpp` 39-51. -/
def lagConst (pos0 vel0 : Fin 3 → Expr K) (mu : Expr K) : LagConst K :=
  let v02 := norm2 vel0
  let r0 := sqrtE (norm2 pos0)
  let eps := subE (mulE v02 (.dbl (1 / 2))) (divE mu r0)
  let a := divE (negE mu) (mulE (.dbl 2) eps)
  let sigma0 := divE (sumE [mulE (pos0 0) (vel0 0), mulE (pos0 1) (vel0 1), mulE (pos0 2) (vel0 2)]) (sqrtE mu)
  { r0 := r0, a := a, sigma0 := sigma0, s0 := divE sigma0 (sqrtE a), c0 := subE (.dbl 1) (divE r0 a),
    n := sqrtE (divE mu (powE a (.dbl 3))) }

/-- `DE` (`src/model/lagrange_prop.cpp` 52-54). -/
def lagDE (k : LagConst K) (tm : Expr K) : Expr K := kepDEE k.s0 k.c0 (mulE k.n tm)

/-- `r` (`src/model/lagrange_prop.cpp` 59); `C` and `S` are `cDE` and `sDE`. -/
def lagR (k : LagConst K) (C S : Expr K) : Expr K :=
  sumE [k.a, mulE (subE k.r0 k.a) C, mulE (mulE k.sigma0 (sqrtE k.a)) S]

/-- `F` (`src/model/lagrange_prop.cpp` 61). -/
def lagF (k : LagConst K) (C : Expr K) : Expr K := subE (.dbl 1) (mulE (divE k.a k.r0) (subE (.dbl 1) C))
/-- `G` (`src/model/lagrange_prop.cpp` 62). -/
def lagG (k : LagConst K) (mu C S : Expr K) : Expr K :=
  addE (mulE (divE (mulE k.a k.sigma0) (sqrtE mu)) (subE (.dbl 1) C)) (mulE (mulE k.r0 (sqrtE (divE k.a mu))) S)
/-- `Ft` (`src/model/lagrange_prop.cpp` 63). -/
def lagFt (k : LagConst K) (mu C S : Expr K) : Expr K :=
  mulE (divE (negE (sqrtE (mulE mu k.a))) (mulE (lagR k C S) k.r0)) S
/-- `Gt` (`src/model/lagrange_prop.cpp` 64). -/
def lagGt (k : LagConst K) (C S : Expr K) : Expr K := subE (.dbl 1) (mulE (divE k.a (lagR k C S)) (subE (.dbl 1) C))

/-- `lagrange_prop()` (`src/model/lagrange_prop.cpp` 27-70). -/
def lagrangeProp (pos0 vel0 : Fin 3 → Expr K) (mu tm : Expr K) : (Fin 3 → Expr K) × (Fin 3 → Expr K) :=
  let k := lagConst pos0 vel0 mu
  let C := unaryE (.cos false) (lagDE k tm)
  let S := unaryE (.sin false) (lagDE k tm)
  (fun i => addE (mulE (lagF k C) (pos0 i)) (mulE (lagG k mu C S) (vel0 i)),
    fun i => addE (mulE (lagFt k mu C S) (pos0 i)) (mulE (lagGt k C S) (vel0 i)))

end

/-! ### Specification -/

/-- The motion with position `P` and velocity `V` in the gravitational field of a centre at the origin, of gravitational parameter
`μ`, at the times of the set `I`. -/
def KeplerMotion (μ : ℝ) (P V : ℝ → Fin 3 → ℝ) (I : Set ℝ) : Prop :=
  ∀ t ∈ I, P t ≠ 0 ∧ HasDerivAt P (V t) t ∧ HasDerivAt V (-(μ / len (P t) ^ 3) • P t) t

/-! ### Lemmas -/

section
variable [DFunc] {v : Env ℝ}

theorem ev_kepDEE {e1 e2 e3 : Expr ℝ} {s c M : ℝ} (h1 : e1.eval v = some s) (h2 : e2.eval v = some c) (h3 : e3.eval v = some M)
    (h : s ^ 2 + c ^ 2 < 1) : ∃ w, (kepDEE e1 e2 e3).eval v = some w ∧ Real.cos w = Real.cos (Kepler.kepSol (-s) (-c) (M - s)) ∧
      Real.sin w = Real.sin (Kepler.kepSol (-s) (-c) (M - s)) := by
  have hgen : (Expr.fn .kepDE [e1, e2, e3]).eval v = some (Kepler.red (Kepler.kepSol (-s) (-c) (M - s))) := by
    rw [Expr.eval_fn _ _ _ (Or.inl (by simp)), evalL_cons_some h1 (evalL_cons_some h2 (evalL_cons_some h3 (l := []) (xs := []) (by simp)))]
    simp [app_def, realApp, h]
  have hgen' : ∃ w, (Expr.fn .kepDE [e1, e2, e3]).eval v = some w ∧ Real.cos w = Real.cos (Kepler.kepSol (-s) (-c) (M - s)) ∧
      Real.sin w = Real.sin (Kepler.kepSol (-s) (-c) (M - s)) := ⟨_, hgen, Kepler.cos_red _, Kepler.sin_red _⟩
  unfold kepDEE
  split
  · rename_i _ a b
    split_ifs with hz
    · rw [Bool.and_eq_true, Num.isZero_iff, Num.isZero_iff] at hz
      have hs : s = 0 := by
        have : a.toK? = some s := h1
        rw [hz.1] at this; exact (Option.some.inj this).symm
      have hc : c = 0 := by
        have : b.toK? = some c := h2
        rw [hz.2] at this; exact (Option.some.inj this).symm
      subst hs hc
      refine ⟨M, h3, ?_⟩
      have : Kepler.kepSol (-0) (-0) (M - 0) = M := by
        rw [Kepler.kepSol_eq_iff (by norm_num)]
        simp [Kepler.kepG]
      rw [this]
      exact ⟨rfl, rfl⟩
    · exact hgen'
  · exact hgen'

end

/-! ### The orbit -/

section
variable {α m r0 σ : ℝ}

/-- The eccentric anomaly since the initial time. -/
noncomputable def orbU (α m r0 σ t : ℝ) : ℝ := Kepler.kepSol (-(σ / α)) (-(1 - r0 / α ^ 2)) (m / α ^ 3 * t - σ / α)
/-- The distance. -/
noncomputable def orbR (α r0 σ u : ℝ) : ℝ := α ^ 2 + (r0 - α ^ 2) * Real.cos u + σ * α * Real.sin u

theorem orbR_pos (hα : 0 < α) (h : (σ / α) ^ 2 + (1 - r0 / α ^ 2) ^ 2 < 1) (u : ℝ) : 0 < orbR α r0 σ u := by
  have h1 := Kepler.abs_lin_lt_one (p := -(1 - r0 / α ^ 2)) (q := σ / α) (by nlinarith) u
  have h2 := (abs_lt.1 h1).1
  have h3 : orbR α r0 σ u = α ^ 2 * (1 + (-(1 - r0 / α ^ 2) * Real.cos u + σ / α * Real.sin u)) := by
    unfold orbR
    field_simp
    ring
  rw [h3]
  have : 0 < α ^ 2 := by positivity
  nlinarith

theorem orbU_deriv (hα : 0 < α) (h : (σ / α) ^ 2 + (1 - r0 / α ^ 2) ^ 2 < 1) (t : ℝ) :
    HasDerivAt (orbU α m r0 σ) (m / (α * orbR α r0 σ (orbU α m r0 σ t))) t := by
  have h1 := Kepler.kepSol_hasDerivAt (A := fun _ => -(σ / α)) (B := fun _ => -(1 - r0 / α ^ 2))
    (C := fun t => m / α ^ 3 * t - σ / α) (t := t) (hasDerivAt_const _ _) (hasDerivAt_const _ _)
    (((hasDerivAt_id t).const_mul _).sub_const _) (by nlinarith)
  refine h1.congr_deriv ?_
  have hp := orbR_pos hα h (orbU α m r0 σ t)
  have e : 1 - -(σ / α) * Real.sin (orbU α m r0 σ t) + -(1 - r0 / α ^ 2) * Real.cos (orbU α m r0 σ t) =
      orbR α r0 σ (orbU α m r0 σ t) / α ^ 2 := by
    unfold orbR
    field_simp
    ring
  show (m / α ^ 3 * 1 - 0 * _ - 0 * _) / (1 - -(σ / α) * Real.sin (orbU α m r0 σ t) + -(1 - r0 / α ^ 2) * Real.cos (orbU α m r0 σ t)) = _
  rw [e]
  field_simp
  ring

theorem orbU_zero (h : (σ / α) ^ 2 + (1 - r0 / α ^ 2) ^ 2 < 1) : orbU α m r0 σ 0 = 0 := by
  unfold orbU
  rw [Kepler.kepSol_eq_iff (by nlinarith)]
  simp [Kepler.kepG]

/-- The coefficients of the initial position and of the initial velocity. -/
noncomputable def orbF (α r0 u : ℝ) : ℝ := 1 - α ^ 2 / r0 * (1 - Real.cos u)
noncomputable def orbG (α m r0 σ u : ℝ) : ℝ := α ^ 2 * σ / m * (1 - Real.cos u) + r0 * (α / m) * Real.sin u
noncomputable def orbFt (α m r0 σ u : ℝ) : ℝ := -(m * α) / (orbR α r0 σ u * r0) * Real.sin u
noncomputable def orbGt (α r0 σ u : ℝ) : ℝ := 1 - α ^ 2 / orbR α r0 σ u * (1 - Real.cos u)

theorem orbit_deriv (hα : 0 < α) (hm : 0 < m) (hr : 0 < r0) (h : (σ / α) ^ 2 + (1 - r0 / α ^ 2) ^ 2 < 1) (t : ℝ) :
    HasDerivAt (fun τ => orbF α r0 (orbU α m r0 σ τ)) (orbFt α m r0 σ (orbU α m r0 σ t)) t ∧
    HasDerivAt (fun τ => orbG α m r0 σ (orbU α m r0 σ τ)) (orbGt α r0 σ (orbU α m r0 σ t)) t ∧
    HasDerivAt (fun τ => orbFt α m r0 σ (orbU α m r0 σ τ)) (-(m ^ 2 / orbR α r0 σ (orbU α m r0 σ t) ^ 3) * orbF α r0 (orbU α m r0 σ t)) t ∧
    HasDerivAt (fun τ => orbGt α r0 σ (orbU α m r0 σ τ)) (-(m ^ 2 / orbR α r0 σ (orbU α m r0 σ t) ^ 3) * orbG α m r0 σ (orbU α m r0 σ t)) t := by
  have hu := orbU_deriv (m := m) hα h t
  have hp := orbR_pos hα h (orbU α m r0 σ t)
  have hC := hu.cos
  have hS := hu.sin
  have hR : HasDerivAt (fun τ => orbR α r0 σ (orbU α m r0 σ τ)) _ t :=
    ((hC.const_mul (r0 - α ^ 2)).const_add (α ^ 2)).fun_add (hS.const_mul (σ * α))
  have cs := Real.sin_sq_add_cos_sq (orbU α m r0 σ t)
  have eR : orbR α r0 σ (orbU α m r0 σ t) = α ^ 2 + (r0 - α ^ 2) * Real.cos (orbU α m r0 σ t) + σ * α * Real.sin (orbU α m r0 σ t) := rfl
  refine ⟨?_, ?_, ?_, ?_⟩
  · refine (((hC.const_sub 1).const_mul (α ^ 2 / r0)).const_sub 1).congr_deriv ?_
    unfold orbFt
    clear hR hC hS hu
    generalize Real.cos (orbU α m r0 σ t) = C at *
    generalize Real.sin (orbU α m r0 σ t) = S at *
    generalize orbR α r0 σ (orbU α m r0 σ t) = R at *
    have hR0 := hp.ne'
    field_simp
  · refine (((hC.const_sub 1).const_mul (α ^ 2 * σ / m)).fun_add (hS.const_mul (r0 * (α / m)))).congr_deriv ?_
    unfold orbGt
    clear hR hC hS hu
    generalize Real.cos (orbU α m r0 σ t) = C at *
    generalize Real.sin (orbU α m r0 σ t) = S at *
    generalize orbR α r0 σ (orbU α m r0 σ t) = R at *
    have hR0 := hp.ne'
    field_simp
    linear_combination -eR
  · refine (((hasDerivAt_const t (-(m * α))).fun_div (hR.mul_const r0) (by positivity)).fun_mul hS).congr_deriv ?_
    unfold orbF
    clear hR hC hS hu
    generalize Real.cos (orbU α m r0 σ t) = C at *
    generalize Real.sin (orbU α m r0 σ t) = S at *
    generalize orbR α r0 σ (orbU α m r0 σ t) = R at *
    have hR0 := hp.ne'
    field_simp
    linear_combination (-m ^ 2 * C) * eR - m ^ 2 * (r0 - α ^ 2) * cs
  · refine ((((hasDerivAt_const t (α ^ 2)).fun_div hR hp.ne').fun_mul (hC.const_sub 1)).const_sub 1).congr_deriv ?_
    unfold orbG
    clear hR hC hS hu
    generalize Real.cos (orbU α m r0 σ t) = C at *
    generalize Real.sin (orbU α m r0 σ t) = S at *
    generalize orbR α r0 σ (orbU α m r0 σ t) = R at *
    have hR0 := hp.ne'
    field_simp
    linear_combination (-α * m * S) * eR - α ^ 2 * m * σ * cs

theorem orbit_radius (hα : 0 < α) (hm : 0 < m) (hr : 0 < r0) (u : ℝ) :
    orbF α r0 u ^ 2 * r0 ^ 2 + 2 * (orbF α r0 u * orbG α m r0 σ u) * (σ * m) + orbG α m r0 σ u ^ 2 * (m ^ 2 * (2 / r0 - 1 / α ^ 2)) =
      orbR α r0 σ u ^ 2 := by
  have cs := Real.sin_sq_add_cos_sq u
  unfold orbF orbG orbR
  generalize Real.cos u = C at *
  generalize Real.sin u = S at *
  field_simp
  linear_combination (r0 ^ 2 * (2 * α ^ 2 - r0) - r0 * α ^ 2 * σ ^ 2) * cs

end

end Heyoka.Models
