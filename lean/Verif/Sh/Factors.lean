import Verif.Sh.Spec
import Verif.Sh.Model

/-!
# Spherical harmonics: the factors of the recursion
-/

namespace Heyoka.Sh

open Complex

theorem kdelta_real (m : ℕ) : (2 - kdelta 0 m : ℝ) = if m = 0 then 1 else 2 := by
  unfold kdelta
  by_cases h : m = 0
  · subst h; norm_num
  · rw [if_neg h, if_neg (by omega)]; norm_num

theorem fact_succ (n : ℕ) : (((n + 1).factorial : ℕ) : ℝ) = (n + 1) * (n.factorial : ℝ) := by
  rw [Nat.factorial_succ]; push_cast; ring

theorem fact_pos (n : ℕ) : (0 : ℝ) < (n.factorial : ℝ) := by exact_mod_cast Nat.factorial_pos n

/-- The factor of the first term of the recursion over the degree. -/
theorem fac1_nrm (m k : ℕ) : fac1 Real.sqrt (m + k + 1) m * nrm (m + k) m = (2 * (m + k) + 1) / (k + 1) * nrm (m + k + 1) m := by
  unfold fac1
  have h1 := fact_pos k
  have h2 := fact_pos (2 * m + k)
  apply sqrt_mul_eq
  · have e : ((m + k + 1 : ℕ) : ℝ) - m = k + 1 := by push_cast; ring
    have e2 : 2 * ((m + k + 1 : ℕ) : ℝ) - 1 = 2 * (m + k) + 1 := by push_cast; ring
    rw [e, e2]; positivity
  · exact (nrm_pos _ _).le
  · positivity
  · exact (nrm_pos _ _).le
  · rw [nrm_sq, nrm_sq, show m + k - m = k by omega, show m + k + 1 - m = k + 1 by omega, show m + k + m = 2 * m + k by omega,
      show m + k + 1 + m = 2 * m + k + 1 by omega, fact_succ, fact_succ]
    push_cast
    have h3 : (2 * (m : ℝ) + k + 1) ≠ 0 := by positivity
    have e : (m : ℝ) + k + 1 - m = k + 1 := by ring
    have e2 : (m : ℝ) + k + 1 + m = 2 * m + k + 1 := by ring
    rw [e, e2]
    field_simp
    ring

/-- The factor of the second term of the recursion over the degree. -/
theorem fac2_nrm (m k : ℕ) : fac2 Real.sqrt (m + k + 2) m * nrm (m + k) m = (2 * m + k + 1) / (k + 2) * nrm (m + k + 2) m := by
  unfold fac2
  have h1 := fact_pos k
  have h2 := fact_pos (2 * m + k)
  apply sqrt_mul_eq
  · have e : ((m + k + 2 : ℕ) : ℝ) - m = k + 2 := by push_cast; ring
    have e2 : 2 * ((m + k + 2 : ℕ) : ℝ) - 3 = 2 * (m + k) + 1 := by push_cast; ring
    have e3 : ((m + k + 2 : ℕ) : ℝ) + m - 1 = 2 * m + k + 1 := by push_cast; ring
    have e4 : (k : ℝ) + 2 - 1 = k + 1 := by ring
    rw [e, e2, e3, e4]; positivity
  · exact (nrm_pos _ _).le
  · positivity
  · exact (nrm_pos _ _).le
  · rw [nrm_sq, nrm_sq, show m + k - m = k by omega, show m + k + 2 - m = k + 1 + 1 by omega, show m + k + m = 2 * m + k by omega,
      show m + k + 2 + m = 2 * m + k + 1 + 1 by omega, fact_succ, fact_succ, fact_succ, fact_succ]
    push_cast
    have h3 : (2 * (m : ℝ) + k + 1) ≠ 0 := by positivity
    have h4 : (2 * (m : ℝ) + k + 1 + 1) ≠ 0 := by positivity
    have e : (m : ℝ) + k + 2 - m = k + 2 := by ring
    have e2 : (m : ℝ) + k + 2 + m = 2 * m + k + 1 + 1 := by ring
    have e3 : 2 * ((m : ℝ) + k + 2) - 3 = 2 * (m + k) + 1 := by ring
    have h5 : 2 * ((m : ℝ) + k) + 1 ≠ 0 := by positivity
    rw [e, e2, e3]
    field_simp
    ring

/-- The factor of the diagonal terms. -/
theorem fac0_nrm (m : ℕ) : fac0 Real.sqrt m * nrm m m = (2 * m + 1) * nrm (m + 1) (m + 1) := by
  unfold fac0
  rw [kdelta_real, kdelta_real]
  have h2 := fact_pos (m + m)
  apply sqrt_mul_eq
  · split <;> split <;> positivity
  · exact (nrm_pos _ _).le
  · positivity
  · exact (nrm_pos _ _).le
  · rw [nrm_sq, nrm_sq, Nat.sub_self, Nat.sub_self, show m + 1 + (m + 1) = m + m + 1 + 1 by omega, fact_succ, fact_succ]
    rw [if_neg (Nat.succ_ne_zero m)]
    push_cast
    have h3 : ((m : ℝ) + m + 1) ≠ 0 := by positivity
    have h4 : ((m : ℝ) + m + 1 + 1) ≠ 0 := by positivity
    have h5 : (if m = 0 then (1 : ℝ) else 2) ≠ 0 := by split <;> norm_num
    field_simp
    ring

/-- The coefficient of the terms of the acceleration with the next order. -/
theorem facXY0_nrm (k j : ℕ) : facXY0 Real.sqrt (j + k) j * nrm (j + k + 1) (j + 1) = 1 * nrm (j + k) j := by
  unfold facXY0
  rw [kdelta_real, kdelta_real]
  have h1 := fact_pos k
  have h2 := fact_pos (2 * j + k)
  apply sqrt_mul_eq
  · split <;> split <;> positivity
  · exact (nrm_pos _ _).le
  · positivity
  · exact (nrm_pos _ _).le
  · rw [nrm_sq, nrm_sq, show j + k - j = k by omega, show j + k + 1 - (j + 1) = k by omega, show j + k + j = 2 * j + k by omega,
      show j + k + 1 + (j + 1) = 2 * j + k + 1 + 1 by omega, fact_succ, fact_succ, if_neg (Nat.succ_ne_zero j)]
    push_cast
    have h3 : (2 * (j : ℝ) + k + 1) ≠ 0 := by positivity
    have h4 : (2 * (j : ℝ) + k + 1 + 1) ≠ 0 := by positivity
    have h6 : 2 * ((j : ℝ) + k) + 3 ≠ 0 := by positivity
    field_simp
    ring

/-- The coefficient of the terms of the third component of the acceleration. -/
theorem facZ_nrm (k j : ℕ) : facZ Real.sqrt (j + k) j * nrm (j + k + 1) j = (k + 1) * nrm (j + k) j := by
  unfold facZ
  have h1 := fact_pos k
  have h2 := fact_pos (2 * j + k)
  have e : (1 : ℝ) + (j + k : ℕ) - j = k + 1 := by push_cast; ring
  rw [e, mul_assoc]
  congr 1
  rw [← one_mul (nrm (j + k) j)]
  apply sqrt_mul_eq
  · positivity
  · exact (nrm_pos _ _).le
  · positivity
  · exact (nrm_pos _ _).le
  · rw [nrm_sq, nrm_sq, show j + k - j = k by omega, show j + k + 1 - j = k + 1 by omega, show j + k + j = 2 * j + k by omega,
      show j + k + 1 + j = 2 * j + k + 1 by omega, fact_succ, fact_succ]
    push_cast
    have h3 : (2 * (j : ℝ) + k + 1) ≠ 0 := by positivity
    have h6 : 2 * ((j : ℝ) + k) + 3 ≠ 0 := by positivity
    field_simp
    ring

/-- The coefficient of the terms of the acceleration with the previous order. -/
theorem facXY1_nrm (k j : ℕ) : facXY1 Real.sqrt (j + 1 + k) (j + 1) * nrm (j + 1 + k + 1) j = 1 / 2 * (k + 2) * (k + 1) * nrm (j + 1 + k) (j + 1) := by
  unfold facXY1
  rw [kdelta_real, kdelta_real, show j + 1 - 1 = j by omega]
  have h1 := fact_pos k
  have h2 := fact_pos (2 * j + k)
  have e : (1 : ℝ) + (j + 1 + k : ℕ) - (j + 1 : ℕ) = k + 1 := by push_cast; ring
  have e2 : (2 : ℝ) + (j + 1 + k : ℕ) - (j + 1 : ℕ) = k + 2 := by push_cast; ring
  rw [e, e2, mul_assoc]
  congr 1
  rw [← one_mul (nrm (j + 1 + k) (j + 1))]
  apply sqrt_mul_eq
  · split <;> split <;> positivity
  · exact (nrm_pos _ _).le
  · positivity
  · exact (nrm_pos _ _).le
  · rw [nrm_sq, nrm_sq, show j + 1 + k - (j + 1) = k by omega, show j + 1 + k + 1 - j = k + 1 + 1 by omega,
      show j + 1 + k + (j + 1) = 2 * j + k + 1 + 1 by omega, show j + 1 + k + 1 + j = 2 * j + k + 1 + 1 by omega, fact_succ k.succ, fact_succ k,
      fact_succ (2 * j + k + 1), fact_succ (2 * j + k), if_neg (Nat.succ_ne_zero j)]
    push_cast
    have h3 : (2 * (j : ℝ) + k + 1) ≠ 0 := by positivity
    have h4 : (2 * (j : ℝ) + k + 1 + 1) ≠ 0 := by positivity
    have h5 : (if j = 0 then (1 : ℝ) else 2) ≠ 0 := by split <;> norm_num
    field_simp
    ring

end Heyoka.Sh
