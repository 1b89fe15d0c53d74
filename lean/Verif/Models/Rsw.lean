import Verif.Models.Spec

/-!
# The RSW frames

`src/model/frame_transformations_rsw.cpp`. The components of a vector are indexed by `Fin 3`; the pairs are position and velocity.
-/

set_option linter.unusedSectionVars false

namespace Heyoka.Models

open Heyoka.Sym Matrix

section
variable {K : Type} [Field K] [LinearOrder K] [FloorRing K] [Fold K]

/-- `norm()` (`src/model/frame_transformations_rsw.cpp` 29-32). -/
def normE (v : Fin 3 → Expr K) : Expr K := sqrtE (norm2 v)

/-- `cross_product()` (`src/model/frame_transformations_rsw.cpp` 34-38). -/
def crossE (a b : Fin 3 → Expr K) : Fin 3 → Expr K
  | 0 => subE (mulE (a 1) (b 2)) (mulE (a 2) (b 1))
  | 1 => subE (mulE (a 2) (b 0)) (mulE (a 0) (b 2))
  | 2 => subE (mulE (a 0) (b 1)) (mulE (a 1) (b 0))

/-- `unit_r` (`src/model/frame_transformations_rsw.cpp` 48-50). -/
def unitR (r : Fin 3 → Expr K) (a : Fin 3) : Expr K := divE (r a) (normE r)

/-- `unit_w` (`src/model/frame_transformations_rsw.cpp` 52-55). -/
def unitW (r v : Fin 3 → Expr K) (a : Fin 3) : Expr K := divE (crossE r v a) (normE (crossE r v))

/-- `to_rsw_rotation_matrix()` (`src/model/frame_transformations_rsw.cpp` 40-61). -/
def rswMatrix (r v : Fin 3 → Expr K) : Fin 3 → Fin 3 → Expr K
  | 0 => unitR r
  | 1 => crossE (unitW r v) (unitR r)
  | 2 => unitW r v

/-- `rsw_keplerian_omega()` (`src/model/frame_transformations_rsw.cpp` 63-75). -/
def rswOmega (r v : Fin 3 → Expr K) : Fin 3 → Expr K
  | 0 => .dbl 0
  | 1 => .dbl 0
  | 2 => divE (normE (crossE r v)) (norm2 r)

/-- The sums `sum({R[i][0] * x, R[i][1] * y, R[i][2] * z})` (`src/model/frame_transformations_rsw.cpp` 100-108, 144-153). -/
def rot (R : Fin 3 → Fin 3 → Expr K) (x : Fin 3 → Expr K) (i : Fin 3) : Expr K :=
  sumE [mulE (R i 0) (x 0), mulE (R i 1) (x 1), mulE (R i 2) (x 2)]

/-- The sums `sum({R[0][a] * t0, R[1][a] * t1, R[2][a] * t2})` (`src/model/frame_transformations_rsw.cpp` 183-185, 214-216). -/
def rotT (R : Fin 3 → Fin 3 → Expr K) (x : Fin 3 → Expr K) (a : Fin 3) : Expr K :=
  sumE [mulE (R 0 a) (x 0), mulE (R 1 a) (x 1), mulE (R 2 a) (x 2)]

/-- The sums `sum({R[0][a] * pos[0], R[1][a] * pos[1], R[2][a] * pos[2], r[a]})` (`src/model/frame_transformations_rsw.cpp` 176-178,
209-211). -/
def rotTAdd (R : Fin 3 → Fin 3 → Expr K) (x r : Fin 3 → Expr K) (a : Fin 3) : Expr K :=
  sumE [mulE (R 0 a) (x 0), mulE (R 1 a) (x 1), mulE (R 2 a) (x 2), r a]

/-- `state_to_rsw()` (`src/model/frame_transformations_rsw.cpp` 81-117). -/
def stateToRsw (pos vel r v : Fin 3 → Expr K) : (Fin 3 → Expr K) × (Fin 3 → Expr K) :=
  let R := rswMatrix r v
  let p := rot R fun a => subE (pos a) (r a)
  let q := rot R fun a => subE (vel a) (v a)
  (p, fun a => subE (q a) (crossE (rswOmega r v) p a))

/-- `state_to_rsw_inertial()` (`src/model/frame_transformations_rsw.cpp` 119-156). -/
def stateToRswInertial (pos vel r v : Fin 3 → Expr K) : (Fin 3 → Expr K) × (Fin 3 → Expr K) :=
  let R := rswMatrix r v
  (rot R fun a => subE (pos a) (r a), rot R vel)

/-- `state_from_rsw()` (`src/model/frame_transformations_rsw.cpp` 158-188). -/
def stateFromRsw (pos vel r v : Fin 3 → Expr K) : (Fin 3 → Expr K) × (Fin 3 → Expr K) :=
  let R := rswMatrix r v
  let t := fun a => addE (vel a) (crossE (rswOmega r v) pos a)
  (rotTAdd R pos r, fun a => addE (rotT R t a) (v a))

/-- `state_from_rsw_inertial()` (`src/model/frame_transformations_rsw.cpp` 190-219). -/
def stateFromRswInertial (pos vel r v : Fin 3 → Expr K) : (Fin 3 → Expr K) × (Fin 3 → Expr K) :=
  let R := rswMatrix r v
  (rotTAdd R pos r, rotT R vel)

end

/-! ### Specification -/

/-- The length of a vector. -/
noncomputable def len (x : Fin 3 → ℝ) : ℝ := Real.sqrt (x ⬝ᵥ x)

/-- The axes of the frame for the position `r` and the velocity `v`: R is the direction of the position, W the direction of the
angular momentum, S completes a right-handed system. -/
noncomputable def rswAxis (r v : Fin 3 → ℝ) : Fin 3 → Fin 3 → ℝ
  | 0 => (1 / len r) • r
  | 1 => ((1 / len (r ⨯₃ v)) • r ⨯₃ v) ⨯₃ ((1 / len r) • r)
  | 2 => (1 / len (r ⨯₃ v)) • r ⨯₃ v

/-- The angular velocity of the frame for a Keplerian motion, with respect to the axes of the frame. -/
noncomputable def rswRate (r v : Fin 3 → ℝ) : Fin 3 → ℝ := ![0, 0, len (r ⨯₃ v) / len r ^ 2]

/-- The coordinates of a vector with respect to the axes. -/
noncomputable def coords (r v x : Fin 3 → ℝ) : Fin 3 → ℝ := fun i => rswAxis r v i ⬝ᵥ x

/-- The vector with given coordinates with respect to the axes. -/
noncomputable def uncoords (r v x : Fin 3 → ℝ) : Fin 3 → ℝ := ∑ i, x i • rswAxis r v i

/-! ### Lemmas -/

theorem len_sq (x : Fin 3 → ℝ) : len x ^ 2 = x 0 ^ 2 + x 1 ^ 2 + x 2 ^ 2 := by
  have : x ⬝ᵥ x = x 0 ^ 2 + x 1 ^ 2 + x 2 ^ 2 := by simp [dotProduct, Fin.sum_univ_three]; ring
  rw [len, this, Real.sq_sqrt (by positivity)]

theorem len_pos {x : Fin 3 → ℝ} (h : x ≠ 0) : 0 < len x := by
  refine Real.sqrt_pos.2 ?_
  obtain ⟨a, ha⟩ := Function.ne_iff.1 h
  exact Finset.sum_pos' (fun _ _ => mul_self_nonneg _) ⟨a, Finset.mem_univ _, mul_self_pos.2 ha⟩

theorem ne_zero_of_cross {r v : Fin 3 → ℝ} (h : r ⨯₃ v ≠ 0) : r ≠ 0 := by
  rintro rfl
  simp at h

theorem cross0 (a b : Fin 3 → ℝ) : (a ⨯₃ b) 0 = a 1 * b 2 - a 2 * b 1 := by simp [cross_apply]
theorem cross1 (a b : Fin 3 → ℝ) : (a ⨯₃ b) 1 = a 2 * b 0 - a 0 * b 2 := by simp [cross_apply]
theorem cross2 (a b : Fin 3 → ℝ) : (a ⨯₃ b) 2 = a 0 * b 1 - a 1 * b 0 := by simp [cross_apply]

/-- The axes are orthonormal. -/
theorem axis_dot {r v : Fin 3 → ℝ} (h : r ⨯₃ v ≠ 0) (i j : Fin 3) : rswAxis r v i ⬝ᵥ rswAxis r v j = if i = j then 1 else 0 := by
  have hH := (len_pos h).ne'
  have hL := (len_pos (ne_zero_of_cross h)).ne'
  have e1 := len_sq r
  have e2 := len_sq (r ⨯₃ v)
  rw [cross0, cross1, cross2] at e2
  have e3 : len r ^ 2 * (1 / len r) ^ 2 = 1 := by field_simp
  have e4 : len (r ⨯₃ v) ^ 2 * (1 / len (r ⨯₃ v)) ^ 2 = 1 := by field_simp
  rw [e1] at e3
  rw [e2] at e4
  fin_cases i <;> fin_cases j <;>
    simp only [rswAxis, dotProduct, Fin.sum_univ_three, Pi.smul_apply, smul_eq_mul, cross0, cross1, cross2, Fin.zero_eta, Fin.isValue,
      Fin.mk_one, Fin.reduceFinMk, reduceIte] <;> (try simp only [Fin.reduceEq, reduceIte]) <;>
    generalize 1 / len r = l at * <;> generalize 1 / len (r ⨯₃ v) = k at *
  · linear_combination e3
  · ring
  · ring
  · ring
  · linear_combination e3 * k ^ 2 * ((r 1 * v 2 - r 2 * v 1) ^ 2 + (r 2 * v 0 - r 0 * v 2) ^ 2 + (r 0 * v 1 - r 1 * v 0) ^ 2) + e4
  · ring
  · ring
  · ring
  · linear_combination e4

/-- The axes are a basis. -/
theorem uncoords_coords {r v : Fin 3 → ℝ} (h : r ⨯₃ v ≠ 0) (x : Fin 3 → ℝ) : uncoords r v (coords r v x) = x ∧ coords r v (uncoords r v x) = x := by
  let A : Matrix (Fin 3) (Fin 3) ℝ := rswAxis r v
  have h1 : A * Aᵀ = 1 := by
    ext i j
    rw [Matrix.mul_apply, Matrix.one_apply, ← axis_dot h i j]
    rfl
  have h2 : Aᵀ * A = 1 := mul_eq_one_comm.1 h1
  have hc : ∀ y, coords r v y = A *ᵥ y := fun y => rfl
  have hu : ∀ y, uncoords r v y = Aᵀ *ᵥ y := fun y => by
    ext a
    simp only [uncoords, Finset.sum_apply, Pi.smul_apply, smul_eq_mul, Matrix.mulVec, dotProduct, Matrix.transpose_apply]
    exact Finset.sum_congr rfl fun i _ => mul_comm _ _
  rw [hc, hu, hu, hc, Matrix.mulVec_mulVec, Matrix.mulVec_mulVec, h1, h2, Matrix.one_mulVec]
  exact ⟨rfl, rfl⟩

theorem coords_add (r v x y : Fin 3 → ℝ) : coords r v (x + y) = coords r v x + coords r v y := by
  ext i; simp [coords, dotProduct_add]

theorem coords_sub (r v x y : Fin 3 → ℝ) : coords r v (x - y) = coords r v x - coords r v y := by
  ext i; simp [coords, dotProduct_sub]

section
variable [DFunc] {v : Env ℝ}

/-- The values of the components of a vector. -/
def VVal (v : Env ℝ) (e : Fin 3 → Expr ℝ) (x : Fin 3 → ℝ) : Prop := ∀ a, (e a).eval v = some (x a)

theorem ev_normE {e : Fin 3 → Expr ℝ} {x : Fin 3 → ℝ} (h : VVal v e x) : (normE e).eval v = some (len x) := by
  rw [normE, eval_sqrtE (ev_norm2 h) (by positivity), len]
  simp [dotProduct, pow_two]

theorem ev_norm2_len {e : Fin 3 → Expr ℝ} {x : Fin 3 → ℝ} (h : VVal v e x) : (norm2 e).eval v = some (len x ^ 2) := by
  rw [ev_norm2 h, len_sq, Fin.sum_univ_three]

theorem ev_crossE {e f : Fin 3 → Expr ℝ} {x y : Fin 3 → ℝ} (he : VVal v e x) (hf : VVal v f y) : VVal v (crossE e f) (x ⨯₃ y) := by
  intro a
  fin_cases a
  · exact (ev_sub (eval_mulE (he 1) (hf 2)) (eval_mulE (he 2) (hf 1))).trans (congrArg some (cross0 _ _).symm)
  · exact (ev_sub (eval_mulE (he 2) (hf 0)) (eval_mulE (he 0) (hf 2))).trans (congrArg some (cross1 _ _).symm)
  · exact (ev_sub (eval_mulE (he 0) (hf 1)) (eval_mulE (he 1) (hf 0))).trans (congrArg some (cross2 _ _).symm)

section
variable {r u : Fin 3 → Expr ℝ} {ρ ν : Fin 3 → ℝ}

theorem ev_unitR (hr : VVal v r ρ) (h : ρ ≠ 0) : VVal v (unitR r) ((1 / len ρ) • ρ) := fun a => by
  rw [unitR, eval_divE (hr a) (ev_normE hr) (len_pos h).ne', Pi.smul_apply, smul_eq_mul, one_div_mul_eq_div]

theorem ev_unitW (hr : VVal v r ρ) (hu : VVal v u ν) (h : ρ ⨯₃ ν ≠ 0) : VVal v (unitW r u) ((1 / len (ρ ⨯₃ ν)) • ρ ⨯₃ ν) := fun a => by
  rw [unitW, eval_divE (ev_crossE hr hu a) (ev_normE (ev_crossE hr hu)) (len_pos h).ne', Pi.smul_apply, smul_eq_mul,
    one_div_mul_eq_div]

theorem ev_rswMatrix (hr : VVal v r ρ) (hu : VVal v u ν) (h : ρ ⨯₃ ν ≠ 0) (i : Fin 3) : VVal v (rswMatrix r u i) (rswAxis ρ ν i) := by
  have h1 := ev_unitR hr (ne_zero_of_cross h)
  have h2 := ev_unitW hr hu h
  fin_cases i
  · exact h1
  · exact ev_crossE h2 h1
  · exact h2

theorem ev_rswOmega (hr : VVal v r ρ) (hu : VVal v u ν) (h : ρ ⨯₃ ν ≠ 0) : VVal v (rswOmega r u) (rswRate ρ ν) := by
  intro a
  fin_cases a
  · simp [rswOmega, rswRate]
  · simp [rswOmega, rswRate]
  · exact eval_divE (ev_normE (ev_crossE hr hu)) (ev_norm2_len hr) (by have := len_pos (ne_zero_of_cross h); positivity)

theorem ev_rot {e : Fin 3 → Expr ℝ} {x : Fin 3 → ℝ} (hr : VVal v r ρ) (hu : VVal v u ν) (h : ρ ⨯₃ ν ≠ 0) (he : VVal v e x) :
    VVal v (rot (rswMatrix r u) e) (coords ρ ν x) := fun i => by
  have hm := ev_rswMatrix hr hu h i
  have := ev_sum (evalL_cons_some (eval_mulE (hm 0) (he 0)) (evalL_cons_some (eval_mulE (hm 1) (he 1))
    (evalL_cons_some (eval_mulE (hm 2) (he 2)) (l := []) (xs := []) (by simp))))
  rw [rot, this]
  simp [coords, dotProduct, Fin.sum_univ_three, add_assoc]

theorem ev_rotT {e : Fin 3 → Expr ℝ} {x : Fin 3 → ℝ} (hr : VVal v r ρ) (hu : VVal v u ν) (h : ρ ⨯₃ ν ≠ 0) (he : VVal v e x) :
    VVal v (rotT (rswMatrix r u) e) (uncoords ρ ν x) := fun a => by
  have hm := ev_rswMatrix hr hu h
  have := ev_sum (evalL_cons_some (eval_mulE (hm 0 a) (he 0)) (evalL_cons_some (eval_mulE (hm 1 a) (he 1))
    (evalL_cons_some (eval_mulE (hm 2 a) (he 2)) (l := []) (xs := []) (by simp))))
  rw [rotT, this]
  simp [uncoords, Fin.sum_univ_three, add_assoc, mul_comm]

theorem ev_rotTAdd {e : Fin 3 → Expr ℝ} {x : Fin 3 → ℝ} (hr : VVal v r ρ) (hu : VVal v u ν) (h : ρ ⨯₃ ν ≠ 0) (he : VVal v e x) :
    VVal v (rotTAdd (rswMatrix r u) e r) (uncoords ρ ν x + ρ) := fun a => by
  have hm := ev_rswMatrix hr hu h
  have := ev_sum (evalL_cons_some (eval_mulE (hm 0 a) (he 0)) (evalL_cons_some (eval_mulE (hm 1 a) (he 1))
    (evalL_cons_some (eval_mulE (hm 2 a) (he 2)) (evalL_cons_some (hr a) (l := []) (xs := []) (by simp)))))
  rw [rotTAdd, this]
  simp [uncoords, Fin.sum_univ_three, add_assoc, mul_comm]

end

end

end Heyoka.Models
