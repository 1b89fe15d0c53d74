import Verif.Models.Rsw
import Mathlib.Analysis.Calculus.Deriv.Prod

/-!
# The RSW frames (C54)

The transformations of `model::state_to_rsw()` and related functions: values, inverse transformations, meaning of the
velocities. The specification is in terms of the axes of the frame, `rswAxis` (`Verif/Models/Rsw.lean`), and of the coordinates
of a vector with respect to them.
-/

set_option linter.unusedSectionVars false

namespace Heyoka.Models

open Heyoka.Sym Matrix

/-- The axes are a right-handed orthonormal system; the first one has the direction of the position and the last one the
direction of the angular momentum. -/
theorem rsw_axes {r v : Fin 3 → ℝ} (h : r ⨯₃ v ≠ 0) :
    (∀ i j, rswAxis r v i ⬝ᵥ rswAxis r v j = if i = j then 1 else 0) ∧ rswAxis r v 0 ⨯₃ rswAxis r v 1 = rswAxis r v 2 ∧
      (∃ c : ℝ, 0 < c ∧ r = c • rswAxis r v 0) ∧ ∃ c : ℝ, 0 < c ∧ r ⨯₃ v = c • rswAxis r v 2 := by
  have hH := len_pos h
  have hL := len_pos (ne_zero_of_cross h)
  refine ⟨axis_dot h, ?_, ⟨len r, hL, ?_⟩, ⟨len (r ⨯₃ v), hH, ?_⟩⟩
  · have e1 := len_sq r
    have e3 : len r ^ 2 * (1 / len r) ^ 2 = 1 := by field_simp
    rw [e1] at e3
    ext a
    fin_cases a <;>
      simp only [rswAxis, Pi.smul_apply, smul_eq_mul, cross0, cross1, cross2, Fin.zero_eta, Fin.isValue, Fin.mk_one,
        Fin.reduceFinMk] <;>
      generalize 1 / len r = l at * <;> generalize 1 / len (r ⨯₃ v) = k at *
    · linear_combination e3 * k * (r 1 * v 2 - r 2 * v 1)
    · linear_combination e3 * k * (r 2 * v 0 - r 0 * v 2)
    · linear_combination e3 * k * (r 0 * v 1 - r 1 * v 0)
  · rw [rswAxis, smul_smul, mul_one_div_cancel hL.ne', one_smul]
  · rw [rswAxis, smul_smul, mul_one_div_cancel hH.ne', one_smul]

section
variable [DFunc] {v : Env ℝ} {pos vel r u : Fin 3 → Expr ℝ} {p q ρ ν : Fin 3 → ℝ}

/-- `model::state_to_rsw()`: the coordinates of the relative position; the coordinates of the relative velocity with the
correction for the rotation of the frame. -/
theorem state_to_rsw_value (hp : VVal v pos p) (hq : VVal v vel q) (hr : VVal v r ρ) (hu : VVal v u ν) (h : ρ ⨯₃ ν ≠ 0) :
    VVal v (stateToRsw pos vel r u).1 (coords ρ ν (p - ρ)) ∧
      VVal v (stateToRsw pos vel r u).2 (coords ρ ν (q - ν) - rswRate ρ ν ⨯₃ coords ρ ν (p - ρ)) := by
  have h1 : VVal v (rot (rswMatrix r u) fun a => subE (pos a) (r a)) (coords ρ ν (p - ρ)) :=
    ev_rot hr hu h fun a => ev_sub (hp a) (hr a)
  have h2 : VVal v (rot (rswMatrix r u) fun a => subE (vel a) (u a)) (coords ρ ν (q - ν)) :=
    ev_rot hr hu h fun a => ev_sub (hq a) (hu a)
  exact ⟨h1, fun a => ev_sub (h2 a) (ev_crossE (ev_rswOmega hr hu h) h1 a)⟩

/-- `model::state_to_rsw_inertial()`: the coordinates of the relative position and of the velocity. -/
theorem state_to_rsw_inertial_value (hp : VVal v pos p) (hq : VVal v vel q) (hr : VVal v r ρ) (hu : VVal v u ν) (h : ρ ⨯₃ ν ≠ 0) :
    VVal v (stateToRswInertial pos vel r u).1 (coords ρ ν (p - ρ)) ∧ VVal v (stateToRswInertial pos vel r u).2 (coords ρ ν q) :=
  ⟨ev_rot hr hu h fun a => ev_sub (hp a) (hr a), ev_rot hr hu h hq⟩

/-- `model::state_from_rsw()`. -/
theorem state_from_rsw_value (hp : VVal v pos p) (hq : VVal v vel q) (hr : VVal v r ρ) (hu : VVal v u ν) (h : ρ ⨯₃ ν ≠ 0) :
    VVal v (stateFromRsw pos vel r u).1 (uncoords ρ ν p + ρ) ∧
      VVal v (stateFromRsw pos vel r u).2 (uncoords ρ ν (q + rswRate ρ ν ⨯₃ p) + ν) := by
  refine ⟨ev_rotTAdd hr hu h hp, fun a => ev_add (ev_rotT hr hu h (fun a => ?_) a) (hu a)⟩
  exact ev_add (hq a) (ev_crossE (ev_rswOmega hr hu h) hp a)

/-- `model::state_from_rsw_inertial()`. -/
theorem state_from_rsw_inertial_value (hp : VVal v pos p) (hq : VVal v vel q) (hr : VVal v r ρ) (hu : VVal v u ν) (h : ρ ⨯₃ ν ≠ 0) :
    VVal v (stateFromRswInertial pos vel r u).1 (uncoords ρ ν p + ρ) ∧ VVal v (stateFromRswInertial pos vel r u).2 (uncoords ρ ν q) :=
  ⟨ev_rotTAdd hr hu h hp, ev_rotT hr hu h hq⟩

/-- The transformations to and from the RSW frame are inverse to each other. -/
theorem rsw_roundtrip (hp : VVal v pos p) (hq : VVal v vel q) (hr : VVal v r ρ) (hu : VVal v u ν) (h : ρ ⨯₃ ν ≠ 0) :
    (VVal v (stateFromRsw (stateToRsw pos vel r u).1 (stateToRsw pos vel r u).2 r u).1 p ∧
      VVal v (stateFromRsw (stateToRsw pos vel r u).1 (stateToRsw pos vel r u).2 r u).2 q) ∧
    VVal v (stateToRsw (stateFromRsw pos vel r u).1 (stateFromRsw pos vel r u).2 r u).1 p ∧
      VVal v (stateToRsw (stateFromRsw pos vel r u).1 (stateFromRsw pos vel r u).2 r u).2 q := by
  obtain ⟨a1, a2⟩ := state_to_rsw_value hp hq hr hu h
  obtain ⟨b1, b2⟩ := state_from_rsw_value a1 a2 hr hu h
  obtain ⟨c1, c2⟩ := state_from_rsw_value hp hq hr hu h
  obtain ⟨d1, d2⟩ := state_to_rsw_value c1 c2 hr hu h
  rw [(uncoords_coords h _).1, sub_add_cancel] at b1
  rw [sub_add_cancel, (uncoords_coords h _).1, sub_add_cancel] at b2
  rw [add_sub_cancel_right, (uncoords_coords h _).2] at d1
  rw [add_sub_cancel_right, add_sub_cancel_right, (uncoords_coords h _).2, (uncoords_coords h _).2, add_sub_cancel_right] at d2
  exact ⟨⟨b1, b2⟩, d1, d2⟩

/-- The transformations to and from the inertial RSW frame are inverse to each other. -/
theorem rsw_inertial_roundtrip (hp : VVal v pos p) (hq : VVal v vel q) (hr : VVal v r ρ) (hu : VVal v u ν) (h : ρ ⨯₃ ν ≠ 0) :
    (VVal v (stateFromRswInertial (stateToRswInertial pos vel r u).1 (stateToRswInertial pos vel r u).2 r u).1 p ∧
      VVal v (stateFromRswInertial (stateToRswInertial pos vel r u).1 (stateToRswInertial pos vel r u).2 r u).2 q) ∧
    VVal v (stateToRswInertial (stateFromRswInertial pos vel r u).1 (stateFromRswInertial pos vel r u).2 r u).1 p ∧
      VVal v (stateToRswInertial (stateFromRswInertial pos vel r u).1 (stateFromRswInertial pos vel r u).2 r u).2 q := by
  obtain ⟨a1, a2⟩ := state_to_rsw_inertial_value hp hq hr hu h
  obtain ⟨b1, b2⟩ := state_from_rsw_inertial_value a1 a2 hr hu h
  obtain ⟨c1, c2⟩ := state_from_rsw_inertial_value hp hq hr hu h
  obtain ⟨d1, d2⟩ := state_to_rsw_inertial_value c1 c2 hr hu h
  rw [(uncoords_coords h _).1, sub_add_cancel] at b1
  rw [(uncoords_coords h _).1] at b2
  rw [add_sub_cancel_right, (uncoords_coords h _).2] at d1
  rw [(uncoords_coords h _).2] at d2
  exact ⟨⟨b1, b2⟩, d1, d2⟩

/-- The transformed position has the same length as the relative position. -/
theorem rsw_isometry (h : ρ ⨯₃ ν ≠ 0) (x : Fin 3 → ℝ) : len (coords ρ ν x) = len x := by
  have h1 : coords ρ ν x ⬝ᵥ coords ρ ν x = x ⬝ᵥ x := by
    conv_rhs => rw [← (uncoords_coords h x).1]
    simp only [uncoords, Fin.sum_univ_three, add_dotProduct, dotProduct_add, smul_dotProduct, dotProduct_smul, axis_dot h, smul_eq_mul]
    simp [dotProduct, Fin.sum_univ_three]
  rw [len, len, h1]

/-- The velocity of `model::state_to_rsw()` is the velocity with respect to the moving frame, when the reference body moves in a
central field: it is the derivative of the transformed position. -/
theorem state_to_rsw_velocity {X : ℝ → Env ℝ} {t κ : ℝ} {p q ρ ν : ℝ → Fin 3 → ℝ}
    (hp : ∀ τ, VVal (X τ) pos (p τ)) (hq : VVal (X t) vel (q t)) (hr : ∀ τ, VVal (X τ) r (ρ τ)) (hu : ∀ τ, VVal (X τ) u (ν τ))
    (h : ∀ τ, ρ τ ⨯₃ ν τ ≠ 0) (dp : HasDerivAt p (q t) t) (dρ : HasDerivAt ρ (ν t) t) (dν : HasDerivAt ν (κ • ρ t) t) (a : Fin 3) :
    ∃ (P : ℝ → ℝ) (V : ℝ), (∀ τ, ((stateToRsw pos vel r u).1 a).eval (X τ) = some (P τ)) ∧
      ((stateToRsw pos vel r u).2 a).eval (X t) = some V ∧ HasDerivAt P V t := by
  have hpos (τ : ℝ) : VVal (X τ) (stateToRsw pos vel r u).1 (coords (ρ τ) (ν τ) (p τ - ρ τ)) :=
    ev_rot (hr τ) (hu τ) (h τ) fun a => ev_sub (hp τ a) (hr τ a)
  obtain ⟨-, hvel⟩ := state_to_rsw_value (hp t) hq (hr t) (hu t) (h t)
  refine ⟨fun τ => coords (ρ τ) (ν τ) (p τ - ρ τ) a, _, fun τ => hpos τ a, hvel a, ?_⟩
  have dp' := hasDerivAt_pi.1 dp
  have dρ' := hasDerivAt_pi.1 dρ
  have dν' := hasDerivAt_pi.1 dν
  simp only [Pi.smul_apply, smul_eq_mul] at dν'
  have hH := len_pos (h t)
  have hL := len_pos (ne_zero_of_cross (h t))
  -- the derivatives of the lengths
  have dL : HasDerivAt (fun τ => len (ρ τ)) ((ρ t 0 * ν t 0 + ρ t 1 * ν t 1 + ρ t 2 * ν t 2) / len (ρ t)) t := by
    have e : ∀ τ, len (ρ τ) = Real.sqrt (ρ τ 0 ^ 2 + ρ τ 1 ^ 2 + ρ τ 2 ^ 2) := fun τ => by
      rw [← len_sq, Real.sqrt_sq (show 0 ≤ len _ from Real.sqrt_nonneg _)]
    have e0 : ρ t 0 ^ 2 + ρ t 1 ^ 2 + ρ t 2 ^ 2 ≠ 0 := by rw [← len_sq]; positivity
    have := ((((dρ' 0).fun_pow 2).fun_add ((dρ' 1).fun_pow 2)).fun_add ((dρ' 2).fun_pow 2)).sqrt e0
    simp only [e]
    refine this.congr_deriv ?_
    simp only [Nat.cast_ofNat, Nat.add_one_sub_one, pow_one]
    ring
  have dc0 : HasDerivAt (fun τ => (ρ τ ⨯₃ ν τ) 0) 0 t := by
    simp only [cross0]
    refine (((dρ' 1).fun_mul (dν' 2)).fun_sub ((dρ' 2).fun_mul (dν' 1))).congr_deriv ?_
    ring
  have dc1 : HasDerivAt (fun τ => (ρ τ ⨯₃ ν τ) 1) 0 t := by
    simp only [cross1]
    refine (((dρ' 2).fun_mul (dν' 0)).fun_sub ((dρ' 0).fun_mul (dν' 2))).congr_deriv ?_
    ring
  have dc2 : HasDerivAt (fun τ => (ρ τ ⨯₃ ν τ) 2) 0 t := by
    simp only [cross2]
    refine (((dρ' 0).fun_mul (dν' 1)).fun_sub ((dρ' 1).fun_mul (dν' 0))).congr_deriv ?_
    ring
  have dH : HasDerivAt (fun τ => len (ρ τ ⨯₃ ν τ)) 0 t := by
    have e : ∀ τ, len (ρ τ ⨯₃ ν τ) = Real.sqrt ((ρ τ ⨯₃ ν τ) 0 ^ 2 + (ρ τ ⨯₃ ν τ) 1 ^ 2 + (ρ τ ⨯₃ ν τ) 2 ^ 2) := fun τ => by
      rw [← len_sq, Real.sqrt_sq (show 0 ≤ len _ from Real.sqrt_nonneg _)]
    have e0 : (ρ t ⨯₃ ν t) 0 ^ 2 + (ρ t ⨯₃ ν t) 1 ^ 2 + (ρ t ⨯₃ ν t) 2 ^ 2 ≠ 0 := by rw [← len_sq]; positivity
    have := (((dc0.fun_pow 2).fun_add (dc1.fun_pow 2)).fun_add (dc2.fun_pow 2)).sqrt e0
    simp only [e]
    refine this.congr_deriv ?_
    simp
  have dl : HasDerivAt (fun τ => 1 / len (ρ τ)) (-((ρ t 0 * ν t 0 + ρ t 1 * ν t 1 + ρ t 2 * ν t 2) * (1 / len (ρ t)) ^ 3)) t := by
    refine ((hasDerivAt_const t (1 : ℝ)).fun_div dL hL.ne').congr_deriv ?_
    field_simp
    ring
  have dk : HasDerivAt (fun τ => 1 / len (ρ τ ⨯₃ ν τ)) 0 t := by
    refine ((hasDerivAt_const t (1 : ℝ)).fun_div dH hH.ne').congr_deriv ?_
    simp
  have e1 := len_sq (ρ t)
  have e2 := len_sq (ρ t ⨯₃ ν t)
  have e3 : len (ρ t) ^ 2 * (1 / len (ρ t)) ^ 2 = 1 := by field_simp
  have e4 : len (ρ t ⨯₃ ν t) ^ 2 * (1 / len (ρ t ⨯₃ ν t)) ^ 2 = 1 := by field_simp
  have e5 : len (ρ t ⨯₃ ν t) * (1 / len (ρ t ⨯₃ ν t)) = 1 := by field_simp
  have e6 : len (ρ t ⨯₃ ν t) / len (ρ t) ^ 2 = len (ρ t ⨯₃ ν t) * (1 / len (ρ t)) ^ 2 := by field_simp
  rw [e1] at e3
  rw [e2] at e4
  have d0 (b : Fin 3) : HasDerivAt (fun τ => rswAxis (ρ τ) (ν τ) 0 b) (len (ρ t ⨯₃ ν t) / len (ρ t) ^ 2 * rswAxis (ρ t) (ν t) 1 b) t := by
    refine (dl.fun_mul (dρ' b)).congr_deriv ?_
    rw [e6]
    fin_cases b <;> simp only [rswAxis, Pi.smul_apply, smul_eq_mul, cross0, cross1, cross2, Fin.zero_eta, Fin.isValue, Fin.mk_one,
        Fin.reduceFinMk] <;>
      generalize 1 / len (ρ t) = l at * <;> generalize 1 / len (ρ t ⨯₃ ν t) = k at * <;> generalize len (ρ t ⨯₃ ν t) = H at *
    · linear_combination (-l * ν t 0) * e3 - l ^ 3 * ((ρ t 2 * ν t 0 - ρ t 0 * ν t 2) * ρ t 2 - (ρ t 0 * ν t 1 - ρ t 1 * ν t 0) * ρ t 1) * e5
    · linear_combination (-l * ν t 1) * e3 - l ^ 3 * ((ρ t 0 * ν t 1 - ρ t 1 * ν t 0) * ρ t 0 - (ρ t 1 * ν t 2 - ρ t 2 * ν t 1) * ρ t 2) * e5
    · linear_combination (-l * ν t 2) * e3 - l ^ 3 * ((ρ t 1 * ν t 2 - ρ t 2 * ν t 1) * ρ t 1 - (ρ t 2 * ν t 0 - ρ t 0 * ν t 2) * ρ t 0) * e5
  have d2 (b : Fin 3) : HasDerivAt (fun τ => rswAxis (ρ τ) (ν τ) 2 b) 0 t := by
    fin_cases b
    · exact (dk.fun_mul dc0).congr_deriv (by simp)
    · exact (dk.fun_mul dc1).congr_deriv (by simp)
    · exact (dk.fun_mul dc2).congr_deriv (by simp)
  have hx : ∀ τ, rswAxis (ρ τ) (ν τ) 1 = rswAxis (ρ τ) (ν τ) 2 ⨯₃ rswAxis (ρ τ) (ν τ) 0 := fun τ => rfl
  have hx2 : rswAxis (ρ t) (ν t) 2 ⨯₃ rswAxis (ρ t) (ν t) 1 = -rswAxis (ρ t) (ν t) 0 := by
    have hd := axis_dot (h t) 2 0
    have hn := axis_dot (h t) 2 2
    simp only [dotProduct, Fin.sum_univ_three, Fin.reduceEq, reduceIte] at hd hn
    rw [hx]
    generalize rswAxis (ρ t) (ν t) 2 = w at *
    generalize rswAxis (ρ t) (ν t) 0 = x at *
    ext b
    fin_cases b <;> simp only [cross0, cross1, cross2, Fin.zero_eta, Fin.isValue, Fin.mk_one, Fin.reduceFinMk, Pi.neg_apply]
    · linear_combination w 0 * hd - x 0 * hn
    · linear_combination w 1 * hd - x 1 * hn
    · linear_combination w 2 * hd - x 2 * hn
  have d1 (b : Fin 3) : HasDerivAt (fun τ => rswAxis (ρ τ) (ν τ) 1 b) (-(len (ρ t ⨯₃ ν t) / len (ρ t) ^ 2) * rswAxis (ρ t) (ν t) 0 b) t := by
    have hb := congrFun hx2 b
    simp only [hx]
    fin_cases b <;> simp only [cross0, cross1, cross2, Fin.zero_eta, Fin.isValue, Fin.mk_one, Fin.reduceFinMk, Pi.neg_apply] at hb ⊢
    · refine (((d2 1).fun_mul (d0 2)).fun_sub ((d2 2).fun_mul (d0 1))).congr_deriv ?_
      linear_combination (len (ρ t ⨯₃ ν t) / len (ρ t) ^ 2) * hb
    · refine (((d2 2).fun_mul (d0 0)).fun_sub ((d2 0).fun_mul (d0 2))).congr_deriv ?_
      linear_combination (len (ρ t ⨯₃ ν t) / len (ρ t) ^ 2) * hb
    · refine (((d2 0).fun_mul (d0 1)).fun_sub ((d2 1).fun_mul (d0 0))).congr_deriv ?_
      linear_combination (len (ρ t ⨯₃ ν t) / len (ρ t) ^ 2) * hb
  have dd (b : Fin 3) : HasDerivAt (fun τ => (p τ - ρ τ) b) ((q t - ν t) b) t := (dp' b).fun_sub (dρ' b)
  have fin (i : Fin 3) {W : Fin 3 → ℝ} (hW : ∀ b, HasDerivAt (fun τ => rswAxis (ρ τ) (ν τ) i b) (W b) t) :
      HasDerivAt (fun τ => coords (ρ τ) (ν τ) (p τ - ρ τ) i) (coords (ρ t) (ν t) (q t - ν t) i + W ⬝ᵥ (p t - ρ t)) t := by
    have := HasDerivAt.fun_sum (u := Finset.univ) fun b _ => (hW b).fun_mul (dd b)
    refine this.congr_deriv ?_
    rw [Finset.sum_add_distrib, add_comm]
    rfl
  fin_cases a
  · refine (fin 0 d0).congr_deriv ?_
    simp [cross0, rswRate, coords, dotProduct, Fin.sum_univ_three]
    ring
  · refine (fin 1 d1).congr_deriv ?_
    simp [cross1, rswRate, coords, dotProduct, Fin.sum_univ_three]
    ring
  · refine (fin 2 d2).congr_deriv ?_
    simp [cross2, rswRate, coords, dotProduct, Fin.sum_univ_three]

end

section
local instance instDFuncRsw : DFunc := ⟨none⟩

/-- A circular motion of unit radius and rate. -/
noncomputable def exRef (t : ℝ) : Env ℝ :=
  ⟨fun s => if s = "x" then Real.cos t else if s = "y" then Real.sin t else if s = "vx" then -Real.sin t
    else if s = "vy" then Real.cos t else 0, fun _ => 0, t⟩

theorem exRef_cross (t : ℝ) : ![Real.cos t, Real.sin t, 0] ⨯₃ ![-Real.sin t, Real.cos t, 0] = ![0, 0, 1] := by
  have := Real.sin_sq_add_cos_sq t
  simp [cross_apply]
  linear_combination this

/-- `state_to_rsw_velocity`, `state_to_rsw_value` and the round trips: the hypotheses are met by a body at rest at the point
`(1, 2, 3)`, seen from a reference body in circular motion. -/
example (t : ℝ) (a : Fin 3) :
    ∃ (P : ℝ → ℝ) (V : ℝ), (∀ τ, ((stateToRsw (fun b => .dbl (![1, 2, 3] b)) (fun _ => .dbl 0) (fun b => .var (crd b))
        (fun b => .var (vel b))).1 a).eval (exRef τ) = some (P τ)) ∧
      ((stateToRsw (fun b => .dbl (![1, 2, 3] b)) (fun _ => .dbl 0) (fun b => .var (crd b)) (fun b => .var (vel b))).2 a).eval
        (exRef t) = some V ∧ HasDerivAt P V t := by
  refine state_to_rsw_velocity (κ := -1) (p := fun _ => ![1, 2, 3]) (q := fun _ => 0) (ρ := fun τ => ![Real.cos τ, Real.sin τ, 0])
    (ν := fun τ => ![-Real.sin τ, Real.cos τ, 0]) (fun τ b => by simp) (fun b => by simp) (fun τ b => ?_) (fun τ b => ?_) (fun τ h => ?_)
    (hasDerivAt_const _ _) ?_ ?_ a
  · fin_cases b <;> simp [exRef, crd]
  · fin_cases b <;> simp [exRef, vel]
  · simp only [exRef_cross] at h
    have := congrFun h 2
    simp at this
  · refine hasDerivAt_pi.2 fun b => ?_
    fin_cases b
    · exact Real.hasDerivAt_cos t
    · exact Real.hasDerivAt_sin t
    · exact hasDerivAt_const t (0 : ℝ)
  · refine hasDerivAt_pi.2 fun b => ?_
    fin_cases b
    · exact (Real.hasDerivAt_sin t).neg.congr_deriv (by simp)
    · exact (Real.hasDerivAt_cos t).congr_deriv (by simp)
    · exact (hasDerivAt_const t (0 : ℝ)).congr_deriv (by simp)

end

end Heyoka.Models
