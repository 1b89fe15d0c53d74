import Verif.Sh.Solid

/-!
# Spherical harmonics: specification

The normalised solid harmonics, and the gravitational potential of a body with given (fully normalised) coefficients. The associated
Legendre functions are defined with the formula of Rodrigues in `Verif/Sh/Legendre.lean`.
-/

namespace Heyoka.Sh

open Complex

/-- The factor of the full normalisation. -/
noncomputable def nrm (n m : ℕ) : ℝ := Real.sqrt ((if m = 0 then 1 else 2) * (2 * n + 1) * (n - m).factorial / (n + m).factorial)

/-- The functions `V` (real part) and `W` (imaginary part), normalised. -/
noncomputable def vw (n m : ℕ) (a x y z : ℝ) : ℂ := ((nrm n m * a ^ (n + 1) : ℝ) : ℂ) * solid n m x y z

/-- The potential of the body with the coefficients `C`, `S`, with gravitational parameter `mu` and reference radius `a`, truncated at degree
`n` and order `m`. -/
noncomputable def potential (mu a : ℝ) (C S : ℕ → ℕ → ℝ) (n m : ℕ) (x y z : ℝ) : ℝ :=
  mu / a * ∑ i ∈ Finset.range (n + 1), ∑ j ∈ Finset.range (min m i + 1), (C i j * (vw i j a x y z).re + S i j * (vw i j a x y z).im)

/-! ### Relations between the factors -/

theorem nrm_pos (n m : ℕ) : 0 < nrm n m := by
  unfold nrm
  apply Real.sqrt_pos.2
  have h1 : (0 : ℝ) < (n - m).factorial := by exact_mod_cast Nat.factorial_pos _
  have h2 : (0 : ℝ) < (n + m).factorial := by exact_mod_cast Nat.factorial_pos _
  split <;> positivity

theorem nrm_sq (n m : ℕ) : nrm n m ^ 2 = (if m = 0 then 1 else 2) * (2 * n + 1) * (n - m).factorial / (n + m).factorial := by
  unfold nrm
  apply Real.sq_sqrt
  have h1 : (0 : ℝ) < (n - m).factorial := by exact_mod_cast Nat.factorial_pos _
  have h2 : (0 : ℝ) < (n + m).factorial := by exact_mod_cast Nat.factorial_pos _
  split <;> positivity

/-- Products of square roots, by comparison of the squares. -/
theorem sqrt_mul_eq {A b c d : ℝ} (hA : 0 ≤ A) (hb : 0 ≤ b) (hc : 0 ≤ c) (hd : 0 ≤ d) (h : A * b ^ 2 = c ^ 2 * d ^ 2) :
    Real.sqrt A * b = c * d := by
  have h1 : (Real.sqrt A * b) ^ 2 = (c * d) ^ 2 := by rw [mul_pow, Real.sq_sqrt hA, h, mul_pow]
  exact (pow_left_inj₀ (by positivity) (by positivity) two_ne_zero).1 h1

end Heyoka.Sh
