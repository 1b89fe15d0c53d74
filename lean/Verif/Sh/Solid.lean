import Verif.Sh.Legendre
import Mathlib.Analysis.Calculus.Deriv.Inv
import Mathlib.Analysis.Calculus.Deriv.Pow
import Mathlib.Analysis.SpecialFunctions.Sqrt
import Mathlib.Analysis.Complex.RealDeriv

/-!
# Solid harmonics

Mathematics for the specification of the gravity models: the exterior solid harmonics, and their derivatives along curves.
-/

namespace Heyoka.Sh

open Complex

/-- The distance from the origin. -/
noncomputable def rad (x y z : ℝ) : ℝ := Real.sqrt (x ^ 2 + y ^ 2 + z ^ 2)

/-- The exterior solid harmonic of degree `n` and order `m`, without normalisation. -/
noncomputable def solid (n m : ℕ) (x y z : ℝ) : ℂ := ((legD n m (z / rad x y z) / rad x y z ^ (n + m + 1) : ℝ) : ℂ) * ((x : ℂ) + y * I) ^ m

theorem rad_pos {x y z : ℝ} (h : 0 < x ^ 2 + y ^ 2 + z ^ 2) : 0 < rad x y z := Real.sqrt_pos.2 h

theorem rad_sq {x y z : ℝ} (h : 0 < x ^ 2 + y ^ 2 + z ^ 2) : rad x y z ^ 2 = x ^ 2 + y ^ 2 + z ^ 2 := Real.sq_sqrt h.le

section curve
variable {X Y Z : ℝ → ℝ} {X' Y' Z' t : ℝ} (hX : HasDerivAt X X' t) (hY : HasDerivAt Y Y' t) (hZ : HasDerivAt Z Z' t)
  (h0 : 0 < X t ^ 2 + Y t ^ 2 + Z t ^ 2)
include hX hY hZ h0

theorem hasDerivAt_rad : HasDerivAt (fun τ => rad (X τ) (Y τ) (Z τ)) ((X t * X' + Y t * Y' + Z t * Z') / rad (X t) (Y t) (Z t)) t := by
  have h := (((hX.fun_pow 2).add (hY.fun_pow 2)).add (hZ.fun_pow 2)).sqrt h0.ne'
  have hr : Real.sqrt (X t ^ 2 + Y t ^ 2 + Z t ^ 2) ≠ 0 := (Real.sqrt_pos.2 h0).ne'
  refine h.congr_deriv ?_
  unfold rad
  simp only [Pi.add_apply]
  field_simp
  ring

theorem hasDerivAt_radial (n m : ℕ) : HasDerivAt (fun τ => legD n m (Z τ / rad (X τ) (Y τ) (Z τ)) / rad (X τ) (Y τ) (Z τ) ^ (n + m + 1))
    (1 / rad (X t) (Y t) (Z t) ^ (n + m + 3) * (-(X t * X' + Y t * Y' + Z t * Z') * legD (n + 1) (m + 1) (Z t / rad (X t) (Y t) (Z t)) +
      Z' * rad (X t) (Y t) (Z t) * legD n (m + 1) (Z t / rad (X t) (Y t) (Z t)))) t := by
  have hr := hasDerivAt_rad hX hY hZ h0
  have hp := rad_pos h0
  have hu := hZ.fun_div hr hp.ne'
  have hq := (hasDerivAt_legD n m _).comp t hu
  have h := hq.fun_div (hr.fun_pow (n + m + 1)) (pow_ne_zero _ hp.ne')
  refine h.congr_deriv ?_
  rw [legD_A]
  generalize legD n (m + 1) (Z t / rad (X t) (Y t) (Z t)) = q1
  simp only [Function.comp_apply]
  generalize legD n m (Z t / rad (X t) (Y t) (Z t)) = q0
  generalize rad (X t) (Y t) (Z t) = r at hp
  have hr0 := hp.ne'
  simp only [Nat.add_sub_cancel]
  push_cast
  have e1 : r ^ (n + m + 1) = r ^ (n + m) * r := pow_succ _ _
  have e3 : r ^ (n + m + 3) = r ^ (n + m) * r ^ 3 := pow_add _ _ _
  rw [e1, e3]
  field_simp
  ring

theorem hasDerivAt_solid (n m : ℕ) : HasDerivAt (fun τ => solid n m (X τ) (Y τ) (Z τ))
    (((1 / rad (X t) (Y t) (Z t) ^ (n + m + 3) * (-(X t * X' + Y t * Y' + Z t * Z') * legD (n + 1) (m + 1) (Z t / rad (X t) (Y t) (Z t)) +
      Z' * rad (X t) (Y t) (Z t) * legD n (m + 1) (Z t / rad (X t) (Y t) (Z t))) : ℝ) : ℂ) * ((X t : ℂ) + Y t * I) ^ m +
      ((legD n m (Z t / rad (X t) (Y t) (Z t)) / rad (X t) (Y t) (Z t) ^ (n + m + 1) : ℝ) : ℂ) *
        (m * ((X t : ℂ) + Y t * I) ^ (m - 1) * (X' + Y' * I))) t := by
  have h1 := (hasDerivAt_radial hX hY hZ h0 n m).ofReal_comp
  have h2 : HasDerivAt (fun τ => ((X τ : ℂ) + Y τ * I)) ((X' : ℂ) + Y' * I) t := hX.ofReal_comp.add (hY.ofReal_comp.mul_const I)
  exact h1.mul (h2.fun_pow m)

/-- The derivative of a solid harmonic of order zero. -/
theorem hasDerivAt_solid_zero (n : ℕ) : HasDerivAt (fun τ => solid n 0 (X τ) (Y τ) (Z τ))
    (-X' * (solid (n + 1) 1 (X t) (Y t) (Z t)).re - Y' * (solid (n + 1) 1 (X t) (Y t) (Z t)).im -
      Z' * ((n + 1) * solid (n + 1) 0 (X t) (Y t) (Z t))) t := by
  refine (hasDerivAt_solid hX hY hZ h0 n 0).congr_deriv ?_
  have hp := rad_pos h0
  have h2 := legD_C n 0 (Z t / rad (X t) (Y t) (Z t))
  have e1 : (solid (n + 1) 1 (X t) (Y t) (Z t)).re = legD (n + 1) 1 (Z t / rad (X t) (Y t) (Z t)) / rad (X t) (Y t) (Z t) ^ (n + 3) * X t := by
    unfold solid
    rw [Complex.re_ofReal_mul]
    simp
  have e2 : (solid (n + 1) 1 (X t) (Y t) (Z t)).im = legD (n + 1) 1 (Z t / rad (X t) (Y t) (Z t)) / rad (X t) (Y t) (Z t) ^ (n + 3) * Y t := by
    unfold solid
    rw [Complex.im_ofReal_mul]
    simp
  rw [e1, e2]
  unfold solid
  simp only [pow_zero, mul_one, Nat.cast_zero, zero_mul, mul_zero, add_zero]
  rw [← Complex.ofReal_neg, ← Complex.ofReal_mul, ← Complex.ofReal_mul]
  norm_cast
  push_cast at h2 ⊢
  obtain ⟨u, hu⟩ : ∃ u, u = Z t / rad (X t) (Y t) (Z t) := ⟨_, rfl⟩
  have hz : Z t = u * rad (X t) (Y t) (Z t) := by rw [hu]; field_simp
  rw [← hu] at h2 ⊢
  clear hu e1 e2
  generalize rad (X t) (Y t) (Z t) = r at *
  have hr0 := hp.ne'
  have e3 : r ^ (n + 0 + 3) = r ^ n * r ^ 3 := pow_add _ _ _
  have e3' : r ^ (n + 3) = r ^ n * r ^ 3 := pow_add _ _ _
  have e2 : r ^ (n + 1 + 0 + 1) = r ^ n * r ^ 2 := by ring
  rw [e3, e2]
  rw [hz]
  field_simp
  simp only [Nat.zero_add, sub_zero] at h2
  linear_combination -(r * Z') * h2

/-- The derivative of a solid harmonic of positive order. -/
theorem hasDerivAt_solid_succ (n k : ℕ) : HasDerivAt (fun τ => solid n (k + 1) (X τ) (Y τ) (Z τ))
    (X' * (1 / 2 * (-solid (n + 1) (k + 2) (X t) (Y t) (Z t) + (n - k + 1) * (n - k) * solid (n + 1) k (X t) (Y t) (Z t))) +
      Y' * (I / 2 * (solid (n + 1) (k + 2) (X t) (Y t) (Z t) + (n - k + 1) * (n - k) * solid (n + 1) k (X t) (Y t) (Z t))) -
      Z' * ((n - k) * solid (n + 1) (k + 1) (X t) (Y t) (Z t))) t := by
  refine (hasDerivAt_solid hX hY hZ h0 n (k + 1)).congr_deriv ?_
  have hp := rad_pos h0
  have hr2 := rad_sq h0
  have h2 := legD_C n (k + 1) (Z t / rad (X t) (Y t) (Z t))
  have h4 := legD_4 n k (Z t / rad (X t) (Y t) (Z t))
  obtain ⟨u, hu⟩ : ∃ u, u = Z t / rad (X t) (Y t) (Z t) := ⟨_, rfl⟩
  have hz : Z t = u * rad (X t) (Y t) (Z t) := by rw [hu]; field_simp
  unfold solid
  rw [← hu] at h2 h4 ⊢
  clear hu h0 hX hY hZ
  generalize legD (n + 1) (k + 1) u = A at *
  generalize legD (n + 1) (k + 1 + 1) u = P at *
  generalize legD (n + 1) k u = B at *
  generalize legD n (k + 1) u = q0 at *
  generalize legD n (k + 1 + 1) u = q1 at *
  generalize rad (X t) (Y t) (Z t) = r at *
  generalize X t = x at *
  generalize Y t = y at *
  generalize Z t = z at *
  have hr0 : r ≠ 0 := hp.ne'
  obtain ⟨c, hc⟩ : ∃ c, c = 1 / r ^ (n + k + 4) := ⟨_, rfl⟩
  have c1 : 1 / r ^ (n + (k + 1) + 3) = c := by rw [hc]; congr 2
  have c2 : q0 / r ^ (n + (k + 1) + 1) = q0 * c * r ^ 2 := by
    rw [hc, show n + (k + 1) + 1 = n + k + 2 by ring, show n + k + 4 = (n + k + 2) + 2 by ring, pow_add r (n + k + 2) 2]
    field_simp
  have c3 : P / r ^ (n + 1 + (k + 2) + 1) = P * c := by
    rw [hc, show n + 1 + (k + 2) + 1 = n + k + 4 by ring]
    field_simp
  have c4 : B / r ^ (n + 1 + k + 1) = B * c * r ^ 2 := by
    rw [hc, show n + 1 + k + 1 = n + k + 2 by ring, show n + k + 4 = (n + k + 2) + 2 by ring, pow_add r (n + k + 2) 2]
    field_simp
  have c5 : A / r ^ (n + 1 + (k + 1) + 1) = A * c * r := by
    rw [hc, show n + 1 + (k + 1) + 1 = n + k + 3 by ring, show n + k + 4 = (n + k + 3) + 1 by ring, pow_add r (n + k + 3) 1]
    field_simp
  rw [c1, c2, c3, c4, c5]
  have hr2' : (r : ℂ) ^ 2 = x ^ 2 + y ^ 2 + z ^ 2 := by exact_mod_cast hr2
  have h2' : (u : ℂ) * P - q1 = (n - k) * A := by
    push_cast at h2
    have h2 : u * P - q1 = (n - k) * A := by linear_combination h2
    exact_mod_cast h2
  have h4' : (1 - (u : ℂ) ^ 2) * P = 2 * (k + 1) * q0 - (n - k + 1) * (n - k) * B := by exact_mod_cast h4
  have hz' : (z : ℂ) = u * r := by exact_mod_cast hz
  have hI := I_sq
  simp only [Nat.add_sub_cancel]
  push_cast
  generalize hw : ((x : ℂ) + y * I) = w
  have ex : w ^ (k + 1) = w ^ k * w := pow_succ _ _
  have ex2 : w ^ (k + 2) = w ^ k * w ^ 2 := pow_add _ _ _
  rw [ex, ex2]
  have hww : w * (2 * x - w) = x ^ 2 + y ^ 2 := by
    rw [← hw]
    linear_combination -(y : ℂ) ^ 2 * hI
  have hy : 2 * (y : ℂ) + I * w = I * (2 * x - w) := by
    rw [← hw]
    linear_combination 2 * (y : ℂ) * hI
  have hq : (r : ℂ) ^ 2 * (1 - u ^ 2) = x ^ 2 + y ^ 2 := by
    rw [hz'] at hr2'
    linear_combination hr2'
  linear_combination (c : ℂ) * w ^ k * ((X' + Y' * I) * (-1 / 2 * P * hww + 1 / 2 * P * hq - 1 / 2 * r ^ 2 * h4') - 1 / 2 * Y' * P * w * hy +
    Z' * (-P * w * hz' - r * w * h2'))

end curve

end Heyoka.Sh
