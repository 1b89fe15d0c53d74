import Verif.DFloat.Reduce
import Verif.Props.DFloatMul

/-!
# C69: reduction of the arguments of trigonometric functions

For every binary floating-point format of at least 5 bits with the IEEE rounding to nearest.
-/

namespace Heyoka.DFloat

variable {φ : Fmt}

/-- C69: **the reduced argument is always a number of the format in the half-open period**, whatever the errors of the reduction. -/
theorem trigReduce_range {P : DF} {x top : ℚ} (ht : φ.Rep top) (h0 : 0 ≤ top)
    (hP : φ.Rep (dlMod φ.rnd ⟨x, 0⟩ P).hi) :
    φ.Rep (trigReduce φ.rnd P top x) ∧ 0 ≤ trigReduce φ.rnd P top x ∧ trigReduce φ.rnd P top x ≤ top := by
  unfold trigReduce clampQ
  refine ⟨?_, le_min (le_max_right _ _) h0, min_le_right _ _⟩
  rcases min_choice (max (dlMod φ.rnd ⟨x, 0⟩ P).hi 0) top with h | h <;> rw [h]
  · rcases max_choice (dlMod φ.rnd ⟨x, 0⟩ P).hi 0 with h | h <;> rw [h]
    · exact hP
    · exact ⟨0, φ.emin, by simp, le_refl _, by simp⟩
  · exact ht

/-- C69: **the reduced argument differs from the argument by a whole number of periods**, up to the rounding of the result, errors of twice
the precision relative to the argument, and the distance between the period and the largest number below it. -/
theorem trigReduce_error (hp : 5 ≤ φ.p) (he : φ.emin ≤ 0) {x top : ℚ} {P : DF} (hx : φ.Rep x) (hP : Norm φ φ.rnd P) (hP0 : 0 < P.val)
    (ht : φ.Rep top) (h0 : 0 ≤ top) (h1 : top ≤ P.val)
    (hq : (2 : ℚ) ^ (φ.p - 1 + φ.emin) ≤ |x / P.hi|) (hm1 : Mul2 φ.emin (φ.rnd (x / P.hi) * P.hi))
    (hm2 : Mul2 φ.emin (φ.rnd (x / P.hi) * P.lo)) :
    φ.Rep (trigReduce φ.rnd P top x) ∧ 0 ≤ trigReduce φ.rnd P top x ∧ trigReduce φ.rnd P top x ≤ top ∧
    ∃ (n : ℤ) (D E : ℚ), D = 18 * (2 : ℚ) ^ (-2 * (φ.p : ℤ)) * |x / P.val| + 2 ^ φ.emin ∧
      E = 14 * (2 : ℚ) ^ (-2 * (φ.p : ℤ)) * (|x| + |n * P.val|) ∧
      -D ≤ x / P.val - n ∧ x / P.val - n < 1 + D ∧
      |trigReduce φ.rnd P top x - (x - n * P.val)| ≤
        E + (2 : ℚ) ^ (-(φ.p : ℤ)) * ((1 + D) * P.val + E) + D * P.val + (P.val - top) := by
  have hp1 : 1 ≤ φ.p := by omega
  have N := rnd_nearest (φ := φ) hp1
  have hz : φ.Rep 0 := ⟨0, φ.emin, by simp, le_refl _, by simp⟩
  have hX : Norm φ φ.rnd ⟨x, 0⟩ := ⟨hx, hz, by
    show φ.rnd (x + 0) = x
    rw [add_zero]; exact N.exact hx⟩
  have hv : (⟨x, 0⟩ : DF).val = x := by unfold DF.val; simp
  obtain ⟨mn, n, b1, b2, b3⟩ := dlMod_error hp he hX hP hq hm1 hm2
  rw [hv] at b1 b2 b3
  obtain ⟨r1, r2, r3⟩ := trigReduce_range (x := x) (P := P) ht h0 mn.hi
  refine ⟨r1, r2, r3, n, _, _, rfl, rfl, b2, b3, ?_⟩
  have hu0 := two_zpow_pos (-(φ.p : ℤ))
  have hr := N.rel hp1 (mn.hi.mul2.add mn.lo.mul2)
  have hnear := mn.near
  unfold DF.val at hnear
  rw [hnear] at hr
  have hmv : (dlMod φ.rnd ⟨x, 0⟩ P).hi + (dlMod φ.rnd ⟨x, 0⟩ P).lo = (dlMod φ.rnd ⟨x, 0⟩ P).val := rfl
  rw [hmv] at hr
  unfold trigReduce clampQ
  generalize (dlMod φ.rnd ⟨x, 0⟩ P).hi = h at *
  generalize (dlMod φ.rnd ⟨x, 0⟩ P).val = M at *
  have hD0 : (0 : ℚ) ≤ 18 * (2 : ℚ) ^ (-2 * (φ.p : ℤ)) * |x / P.val| + 2 ^ φ.emin := by positivity
  generalize 18 * (2 : ℚ) ^ (-2 * (φ.p : ℤ)) * |x / P.val| + 2 ^ φ.emin = D at *
  generalize 14 * (2 : ℚ) ^ (-2 * (φ.p : ℤ)) * (|x| + |n * P.val|) = E at *
  generalize (2 : ℚ) ^ (-(φ.p : ℤ)) = u at *
  have e : x / P.val * P.val = x := div_mul_cancel₀ _ hP0.ne'
  have t1 : -(D * P.val) ≤ x - n * P.val := by nlinarith
  have t2 : x - n * P.val ≤ (1 + D) * P.val := by nlinarith
  generalize x - n * P.val = t at *
  have hDP : 0 ≤ D * P.val := mul_nonneg hD0 hP0.le
  have ta : |t| ≤ (1 + D) * P.val := abs_le.2 ⟨by linarith, t2⟩
  have hM : |M| ≤ (1 + D) * P.val + E := by
    have := abs_add_le (M - t) t
    rw [sub_add_cancel] at this
    linarith
  have hM' := mul_le_mul_of_nonneg_left hM hu0.le
  have b1' := abs_le.1 b1
  have hr' := abs_le.1 (hr.trans hM')
  rw [abs_le]
  rcases le_total h 0 with g | g
  · rw [max_eq_right g, min_eq_left h0]
    constructor <;> linarith
  · rw [max_eq_left g]
    rcases le_total h top with g' | g'
    · rw [min_eq_left g']
      constructor <;> linarith
    · rw [min_eq_right g']
      constructor <;> linarith

/-! ### Non-vacuity -/

/-- The reduction of `16` modulo `3.0625`. -/
example : trigReduce fmt5.rnd ⟨3, 1 / 16⟩ (23 / 8) 16 = 11 / 16 ∧ 0 ≤ trigReduce fmt5.rnd ⟨3, 1 / 16⟩ (23 / 8) 16 := by
  have hr : fmt5.rnd (16 / 3) = 21 / 4 := by decide +kernel
  refine ⟨by decide +kernel, (trigReduce_error (by decide) (by decide) ⟨1, 4, by decide, by decide, by norm_num⟩ ex_norm3
    (by norm_num [DF.val]) ⟨23, -3, by decide, by decide, by norm_num⟩ (by norm_num) (by norm_num [DF.val]) ?_ ?_ ?_).2.1⟩
  · norm_num [fmt5]
  · exact ⟨16128, by rw [hr]; norm_num [fmt5]⟩
  · exact ⟨336, by rw [hr]; norm_num [fmt5]⟩

/-- The clamp matters below: the quotient of a tiny negative argument underflows, and the remainder is negative. -/
example : (dlMod fmt5.rnd ⟨-1 / 1024, 0⟩ ⟨3, 1 / 16⟩).hi = -1 / 1024 ∧ trigReduce fmt5.rnd ⟨3, 1 / 16⟩ (23 / 8) (-1 / 1024) = 0 := by
  decide +kernel

/-- The clamp matters above: the remainder of a small negative argument rounds to the high part of the period. -/
example : (dlMod fmt5.rnd ⟨-1 / 64, 0⟩ ⟨3, 1 / 16⟩).hi = 3 ∧ trigReduce fmt5.rnd ⟨3, 1 / 16⟩ (23 / 8) (-1 / 64) = 23 / 8 := by
  decide +kernel

end Heyoka.DFloat
