import Mathlib.Algebra.Polynomial.Derivative
import Mathlib.Analysis.Calculus.Deriv.Polynomial
import Mathlib.Tactic.LinearCombination
import Mathlib.Tactic.FieldSimp
import Mathlib.Data.Nat.Factorial.Basic

/-!
# Legendre polynomials

Mathematics for the specification of the gravity models: the Legendre polynomials by Rodrigues' formula, and the identities between their
derivatives.
-/

namespace Heyoka.Sh

open Polynomial

/-- The Legendre polynomial, by Rodrigues' formula. -/
noncomputable def legendre (n : ℕ) : ℝ[X] := C (1 / (2 ^ n * n.factorial : ℝ)) * derivative^[n] ((X ^ 2 - 1) ^ n)

/-- The derivatives of the Legendre polynomial: the associated Legendre function without the power of the cosine of the latitude. -/
noncomputable def legD (n m : ℕ) (u : ℝ) : ℝ := (derivative^[m] (legendre n)).eval u

theorem hasDerivAt_legD (n m : ℕ) (u : ℝ) : HasDerivAt (legD n m) (legD n (m + 1) u) u := by
  unfold legD
  rw [Function.iterate_succ_apply']
  exact (derivative^[m] (legendre n)).hasDerivAt u

theorem derivative_G (n : ℕ) : derivative ((X ^ 2 - 1 : ℝ[X]) ^ (n + 1)) = C (2 * (n + 1) : ℝ) * (X * (X ^ 2 - 1) ^ n) := by
  rw [derivative_pow]
  simp only [Nat.add_sub_cancel, derivative_sub, derivative_X_pow, derivative_one, sub_zero, Nat.cast_add, Nat.cast_one, map_mul, map_add,
    map_natCast, map_one, map_ofNat]
  simp only [Nat.cast_ofNat, Nat.add_one_sub_one, pow_one, map_ofNat]
  ring

theorem iter_X_mul (n : ℕ) (p : ℝ[X]) : derivative^[n + 1] (X * p) = X * derivative^[n + 1] p + C (n + 1 : ℝ) * derivative^[n] p := by
  induction n with
  | zero => simp [add_comm]
  | succ n ih =>
    rw [Function.iterate_succ_apply', ih]
    simp only [derivative_add, derivative_mul, derivative_X, derivative_C, ← Function.iterate_succ_apply' derivative]
    push_cast
    simp only [C_add, C_1]
    ring

theorem coef_succ (n : ℕ) : (1 / (2 ^ (n + 1) * (n + 1).factorial : ℝ)) * (2 * (n + 1)) = 1 / (2 ^ n * n.factorial) := by
  have : (n.factorial : ℝ) ≠ 0 := by exact_mod_cast n.factorial_ne_zero
  rw [Nat.factorial_succ]
  push_cast
  field_simp
  ring

/-- First identity: `P'(n+1) = X P'(n) + (n+1) P(n)`. -/
theorem legendre_A (n : ℕ) : derivative (legendre (n + 1)) = X * derivative (legendre n) + C (n + 1 : ℝ) * legendre n := by
  unfold legendre
  rw [derivative_C_mul, ← Function.iterate_succ_apply' derivative, Function.iterate_succ_apply, derivative_G, iterate_derivative_C_mul, iter_X_mul,
    derivative_C_mul, ← Function.iterate_succ_apply' derivative, ← mul_assoc, ← C_mul, coef_succ]
  ring

theorem legendre_B (n : ℕ) : C (n + 1 : ℝ) * legendre (n + 1) = (X ^ 2 - 1) * derivative (legendre n) + C (n + 1 : ℝ) * (X * legendre n) := by
  cases n with
  | zero =>
    have h1 : legendre 1 = X := by
      have e : C (2 : ℝ)⁻¹ * (C 2 * X) = X := by
        rw [← mul_assoc, ← C_mul]
        norm_num
      simpa [legendre, one_add_one_eq_two] using e
    have h0 : legendre 0 = 1 := by simp [legendre]
    rw [h1, h0]
    simp
  | succ n =>
    -- the derivative of order `n` in terms of the polynomials
    have h1 : legendre (n + 2) = X * legendre (n + 1) + C (n + 1 : ℝ) * (C (1 / (2 ^ (n + 1) * (n + 1).factorial : ℝ)) * derivative^[n] ((X ^ 2 - 1) ^ (n + 1))) := by
      unfold legendre
      rw [Function.iterate_succ_apply, derivative_G, iterate_derivative_C_mul, iter_X_mul, ← mul_assoc, ← C_mul, coef_succ]
      ring
    have h2 : C (2 * ((n + 1 : ℕ) + 1) : ℝ) * legendre (n + 2) = (X ^ 2 - 1) * derivative (legendre (n + 1)) + C (2 * (n + 2) : ℝ) * (X * legendre (n + 1)) +
        C ((n + 2) * (n + 1) : ℝ) * (C (1 / (2 ^ (n + 1) * (n + 1).factorial : ℝ)) * derivative^[n] ((X ^ 2 - 1) ^ (n + 1))) := by
      have e : ((X ^ 2 - 1 : ℝ[X]) ^ (n + 2)) = X * (X * (X ^ 2 - 1) ^ (n + 1)) - (X ^ 2 - 1) ^ (n + 1) := by ring
      have e2 : legendre (n + 2) = C (1 / (2 ^ (n + 2) * (n + 2).factorial : ℝ)) * derivative^[n + 2] ((X ^ 2 - 1) ^ (n + 2)) := rfl
      rw [e2, ← mul_assoc, ← C_mul, mul_comm (2 * _) _, coef_succ, e, iterate_derivative_sub, iter_X_mul, iter_X_mul, iter_X_mul]
      unfold legendre
      rw [derivative_C_mul, ← Function.iterate_succ_apply' derivative]
      push_cast
      simp only [C_mul, C_add, map_natCast, map_ofNat, map_one]
      ring
    have h3 : C ((n + 2 : ℝ)) * legendre (n + 2) = C ((n + 2 : ℝ)) * (X * legendre (n + 1)) +
        C ((n + 2) * (n + 1) : ℝ) * (C (1 / (2 ^ (n + 1) * (n + 1).factorial : ℝ)) * derivative^[n] ((X ^ 2 - 1) ^ (n + 1))) := by
      conv_lhs => rw [h1]
      rw [C_mul]
      ring
    push_cast at h2 ⊢
    simp only [C_mul, C_add, map_natCast, map_ofNat, map_one] at h2 h3 ⊢
    linear_combination h2 - h3

/-- Second identity: `X P'(n+1) - P'(n) = (n+1) P(n+1)`. -/
theorem legendre_C (n : ℕ) : X * derivative (legendre (n + 1)) - derivative (legendre n) = C (n + 1 : ℝ) * legendre (n + 1) := by
  rw [legendre_B, legendre_A]
  ring

theorem legD_zero : legD 0 0 = fun _ => 1 := by
  funext u
  simp [legD, legendre]

/-- `I1`. -/
theorem legD_A (n m : ℕ) (u : ℝ) : legD (n + 1) (m + 1) u = u * legD n (m + 1) u + (n + m + 1) * legD n m u := by
  unfold legD
  rw [Function.iterate_succ_apply, legendre_A, iterate_map_add, iterate_derivative_C_mul]
  cases m with
  | zero => simp
  | succ m =>
    rw [iter_X_mul, Function.iterate_succ_apply derivative (m + 1), ← Function.iterate_succ_apply derivative m]
    simp
    ring

/-- `I2`. -/
theorem legD_C (n m : ℕ) (u : ℝ) : u * legD (n + 1) (m + 1) u - legD n (m + 1) u = (n + 1 - m) * legD (n + 1) m u := by
  have h := congrArg (fun p => (derivative^[m] p).eval u) (legendre_C n)
  simp only [iterate_derivative_sub, iterate_derivative_C_mul] at h
  unfold legD
  rw [Function.iterate_succ_apply, Function.iterate_succ_apply]
  cases m with
  | zero => simpa using h
  | succ m =>
    rw [iter_X_mul, ← Function.iterate_succ_apply derivative m] at h
    simp at h ⊢
    linear_combination h

theorem legD_eq_zero : ∀ (n m : ℕ) (u : ℝ), n < m → legD n m u = 0
  | 0, m, u, h => by
    obtain ⟨m, rfl⟩ : ∃ k, m = k + 1 := ⟨m - 1, by omega⟩
    unfold legD
    rw [Function.iterate_succ_apply]
    simp [legendre]
  | n + 1, m, u, h => by
    obtain ⟨m, rfl⟩ : ∃ k, m = k + 1 := ⟨m - 1, by omega⟩
    rw [legD_A, legD_eq_zero n (m + 1) u (by omega), legD_eq_zero n m u (by omega)]
    ring

theorem legD_3 (n m : ℕ) (u : ℝ) : (n + m + 1) * u * legD n m u - (1 - u ^ 2) * legD n (m + 1) u = (n + 1 - m) * legD (n + 1) m u := by
  linear_combination legD_C n m u - u * legD_A n m u

theorem legD_4 (n k : ℕ) (u : ℝ) : (1 - u ^ 2) * legD (n + 1) (k + 2) u = 2 * (k + 1) * legD n (k + 1) u - (n - k + 1) * (n - k) * legD (n + 1) k u := by
  have h3 := legD_3 (n + 1) (k + 1) u
  have h1 := legD_A (n + 1) k u
  have h2 := legD_C n k u
  push_cast at h1 h2 h3
  linear_combination -h3 - (n - k + 1) * h1 + (2 * (k + 1)) * h2

/-- The recursion in the degree. -/
theorem legD_rec (n m : ℕ) (u : ℝ) : (n + 2 - m) * legD (n + 2) m u = (2 * n + 3) * u * legD (n + 1) m u - (n + m + 1) * legD n m u := by
  have h3 := legD_3 (n + 1) m u
  have h1 := legD_A n m u
  have h2 := legD_C n m u
  push_cast at h1 h2 h3
  linear_combination -h3 - h1 + u * h2

theorem legD_rec1 (m : ℕ) (u : ℝ) : legD (m + 1) m u = (2 * m + 1) * u * legD m m u := by
  have h3 := legD_3 m m u
  rw [legD_eq_zero m (m + 1) u (by omega)] at h3
  linear_combination -h3

theorem legD_diag (m : ℕ) (u : ℝ) : legD (m + 1) (m + 1) u = (2 * m + 1) * legD m m u := by
  have h1 := legD_A m m u
  rw [legD_eq_zero m (m + 1) u (by omega)] at h1
  linear_combination h1

end Heyoka.Sh
