import Verif.Sh.Factors

/-!
# Spherical harmonics: the recursion and the gradient of the basis functions
-/

namespace Heyoka.Sh

open Complex

section
variable {x y z : ℝ} (h0 : 0 < x ^ 2 + y ^ 2 + z ^ 2)
include h0

theorem solid_rec (n m : ℕ) : ((n + 2 - m : ℝ) : ℂ) * solid (n + 2) m x y z =
    (((2 * n + 3) * (z / (x ^ 2 + y ^ 2 + z ^ 2)) : ℝ) : ℂ) * solid (n + 1) m x y z -
      (((n + m + 1) * (1 / (x ^ 2 + y ^ 2 + z ^ 2)) : ℝ) : ℂ) * solid n m x y z := by
  have hp := rad_pos h0
  rw [← rad_sq h0]
  unfold solid
  have h := legD_rec n m (z / rad x y z)
  generalize rad x y z = r at *
  rw [← mul_assoc, ← mul_assoc, ← mul_assoc, ← sub_mul]
  congr 1
  norm_cast
  rw [show n + 2 + m + 1 = n + m + 1 + 2 by omega, show n + 1 + m + 1 = n + m + 1 + 1 by omega, pow_add r (n + m + 1) 2, pow_add r (n + m + 1) 1]
  have e : (n + 2 - m : ℝ) * (legD (n + 2) m (z / r) / (r ^ (n + m + 1) * r ^ 2)) =
    ((n + 2 - m : ℝ) * legD (n + 2) m (z / r)) / (r ^ (n + m + 1) * r ^ 2) := by ring
  push_cast
  rw [e, h]
  field_simp


theorem solid_rec1 (m : ℕ) : solid (m + 1) m x y z = (((2 * m + 1) * (z / (x ^ 2 + y ^ 2 + z ^ 2)) : ℝ) : ℂ) * solid m m x y z := by
  have hp := rad_pos h0
  rw [← rad_sq h0]
  unfold solid
  have h := legD_rec1 m (z / rad x y z)
  generalize rad x y z = r at *
  rw [← mul_assoc]
  congr 1
  norm_cast
  rw [h, show m + 1 + m + 1 = m + m + 1 + 1 by omega, pow_add _ _ 1]
  push_cast
  field_simp

theorem solid_diag (m : ℕ) : solid (m + 1) (m + 1) x y z =
    ((2 * m + 1 : ℝ) : ℂ) * (((x / (x ^ 2 + y ^ 2 + z ^ 2) : ℝ) : ℂ) + ((y / (x ^ 2 + y ^ 2 + z ^ 2) : ℝ) : ℂ) * I) * solid m m x y z := by
  have hp := rad_pos h0
  rw [← rad_sq h0]
  unfold solid
  have h := legD_diag m (z / rad x y z)
  generalize rad x y z = r at *
  rw [h, show m + 1 + (m + 1) + 1 = m + m + 1 + 2 by omega, pow_add r _ 2]
  have hc : (r : ℂ) ≠ 0 := by exact_mod_cast hp.ne'
  push_cast
  field_simp
  ring

end

section
variable {x y z : ℝ} (h0 : 0 < x ^ 2 + y ^ 2 + z ^ 2) (a : ℝ)
include h0

theorem vw_rec (m k : ℕ) : vw (m + k + 2) m a x y z =
    ((fac1 Real.sqrt (m + k + 2) m * (z * (a / (x ^ 2 + y ^ 2 + z ^ 2))) : ℝ) : ℂ) * vw (m + k + 1) m a x y z -
      ((fac2 Real.sqrt (m + k + 2) m * (a * (a / (x ^ 2 + y ^ 2 + z ^ 2))) : ℝ) : ℂ) * vw (m + k) m a x y z := by
  have h1 := fac1_nrm m (k + 1)
  have h2 := fac2_nrm m k
  have h := solid_rec h0 (m + k) m
  unfold vw
  rw [show m + (k + 1) = m + k + 1 by omega, show m + k + 1 + 1 = m + k + 2 by omega] at h1
  generalize fac1 Real.sqrt (m + k + 2) m = F1 at *
  generalize fac2 Real.sqrt (m + k + 2) m = F2 at *
  generalize x ^ 2 + y ^ 2 + z ^ 2 = r2 at *
  have hk : ((k + 2 : ℝ) : ℂ) ≠ 0 := by
    have : (k + 2 : ℝ) ≠ 0 := by positivity
    exact_mod_cast this
  have e : ((m + k : ℕ) : ℝ) + 2 - m = k + 2 := by push_cast; ring
  rw [e] at h
  have hs : solid (m + k + 2) m x y z = ((1 / (k + 2) : ℝ) : ℂ) * (((k + 2 : ℝ) : ℂ) * solid (m + k + 2) m x y z) := by
    push_cast at hk ⊢
    field_simp
  rw [hs, h]
  generalize solid (m + k) m x y z = s0
  generalize solid (m + k + 1) m x y z = s1
  have e1 : nrm (m + k + 2) m * a ^ (m + k + 2 + 1) * (1 / (k + 2)) * ((2 * ((m + k : ℕ) : ℝ) + 3) * (z / r2)) =
      F1 * (z * (a / r2)) * (nrm (m + k + 1) m * a ^ (m + k + 1 + 1)) := by
    rw [show F1 * (z * (a / r2)) * (nrm (m + k + 1) m * a ^ (m + k + 1 + 1)) = F1 * nrm (m + k + 1) m * (z * (a / r2)) * a ^ (m + k + 1 + 1) by ring, h1]
    push_cast
    rw [show m + k + 2 + 1 = m + k + 1 + 1 + 1 by omega, pow_succ a (m + k + 1 + 1)]
    rw [show (k : ℝ) + 1 + 1 = k + 2 by ring]
    ring
  have e2 : nrm (m + k + 2) m * a ^ (m + k + 2 + 1) * (1 / (k + 2)) * ((((m + k : ℕ) : ℝ) + m + 1) * (1 / r2)) =
      F2 * (a * (a / r2)) * (nrm (m + k) m * a ^ (m + k + 1)) := by
    rw [show F2 * (a * (a / r2)) * (nrm (m + k) m * a ^ (m + k + 1)) = F2 * nrm (m + k) m * (a * (a / r2)) * a ^ (m + k + 1) by ring, h2]
    push_cast
    rw [show m + k + 2 + 1 = m + k + 1 + 2 by omega, pow_add a (m + k + 1) 2]
    ring
  have e1c := congrArg (fun u : ℝ => (u : ℂ)) e1
  have e2c := congrArg (fun u : ℝ => (u : ℂ)) e2
  simp only [ofReal_mul] at e1c e2c ⊢
  linear_combination s1 * e1c - s0 * e2c

theorem vw_rec1 (m : ℕ) : vw (m + 1) m a x y z =
    ((fac1 Real.sqrt (m + 1) m * (z * (a / (x ^ 2 + y ^ 2 + z ^ 2))) : ℝ) : ℂ) * vw m m a x y z := by
  have h1 := fac1_nrm m 0
  have h := solid_rec1 h0 m
  unfold vw
  simp only [Nat.add_zero] at h1
  rw [h, ← mul_assoc, ← mul_assoc, ← ofReal_mul, ← ofReal_mul]
  congr 2
  push_cast at h1
  rw [show fac1 Real.sqrt (m + 1) m * (z * (a / (x ^ 2 + y ^ 2 + z ^ 2))) * (nrm m m * a ^ (m + 1)) =
    fac1 Real.sqrt (m + 1) m * nrm m m * (z * (a / (x ^ 2 + y ^ 2 + z ^ 2))) * a ^ (m + 1) by ring, h1, pow_succ a (m + 1)]
  ring

theorem vw_diag (m : ℕ) : vw (m + 1) (m + 1) a x y z =
    ((fac0 Real.sqrt m : ℝ) : ℂ) * ((((x * (a / (x ^ 2 + y ^ 2 + z ^ 2)) : ℝ) : ℂ) + ((y * (a / (x ^ 2 + y ^ 2 + z ^ 2)) : ℝ) : ℂ) * I) *
      vw m m a x y z) := by
  have h1 := fac0_nrm m
  have h := solid_diag h0 m
  unfold vw
  rw [h]
  have h1c : ((fac0 Real.sqrt m : ℝ) : ℂ) * nrm m m = (2 * m + 1) * nrm (m + 1) (m + 1) := by exact_mod_cast h1
  generalize x ^ 2 + y ^ 2 + z ^ 2 = r2 at *
  push_cast
  rw [pow_succ (a : ℂ) (m + 1)]
  linear_combination -(((a : ℂ) ^ (m + 1)) * a * (x / r2 + y / r2 * I) * solid m m x y z) * h1c

omit h0 in
theorem vw_zero : vw 0 0 a x y z = ((a / Real.sqrt (x ^ 2 + y ^ 2 + z ^ 2) : ℝ) : ℂ) := by
  simp [vw, solid, nrm, legD_zero, rad]
  ring

end

/-! ### Gradient -/

/-- The components of the derivative of `C * V + S * W`. -/
noncomputable def gradVW (a C S : ℝ) (i j : ℕ) (x y z : ℝ) : Fin 3 → ℝ :=
  if j = 0 then
    ![-(C * facXY0 Real.sqrt i 0 * (vw (i + 1) 1 a x y z).re), -(C * facXY0 Real.sqrt i 0 * (vw (i + 1) 1 a x y z).im),
      -(C * facZ Real.sqrt i 0 * (vw (i + 1) 0 a x y z).re) - S * facZ Real.sqrt i 0 * (vw (i + 1) 0 a x y z).im]
  else
    ![-(C * (facXY0 Real.sqrt i j * (1 / 2)) * (vw (i + 1) (j + 1) a x y z).re) - S * (facXY0 Real.sqrt i j * (1 / 2)) * (vw (i + 1) (j + 1) a x y z).im +
        C * facXY1 Real.sqrt i j * (vw (i + 1) (j - 1) a x y z).re + S * facXY1 Real.sqrt i j * (vw (i + 1) (j - 1) a x y z).im,
      -(C * (facXY0 Real.sqrt i j * (1 / 2)) * (vw (i + 1) (j + 1) a x y z).im) + S * (facXY0 Real.sqrt i j * (1 / 2)) * (vw (i + 1) (j + 1) a x y z).re -
        C * facXY1 Real.sqrt i j * (vw (i + 1) (j - 1) a x y z).im + S * facXY1 Real.sqrt i j * (vw (i + 1) (j - 1) a x y z).re,
      -(C * facZ Real.sqrt i j * (vw (i + 1) j a x y z).re) - S * facZ Real.sqrt i j * (vw (i + 1) j a x y z).im]

theorem vw_re (n m : ℕ) (a x y z : ℝ) : (vw n m a x y z).re = nrm n m * a ^ (n + 1) * (solid n m x y z).re := by
  rw [vw, re_ofReal_mul]

theorem vw_im (n m : ℕ) (a x y z : ℝ) : (vw n m a x y z).im = nrm n m * a ^ (n + 1) * (solid n m x y z).im := by
  rw [vw, im_ofReal_mul]

theorem solid_zero_im (n : ℕ) (x y z : ℝ) : (solid n 0 x y z).im = 0 := by
  rw [solid, pow_zero, mul_one, ofReal_im]

section
variable {X Y Z : ℝ → ℝ} {X' Y' Z' t : ℝ} (hX : HasDerivAt X X' t) (hY : HasDerivAt Y Y' t) (hZ : HasDerivAt Z Z' t)
  (h0 : 0 < X t ^ 2 + Y t ^ 2 + Z t ^ 2)
include hX hY hZ h0

theorem hasDerivAt_vw {a : ℝ} (ha : a ≠ 0) (C S : ℝ) {i j : ℕ} (hij : j ≤ i) :
    HasDerivAt (fun τ => C * (vw i j a (X τ) (Y τ) (Z τ)).re + S * (vw i j a (X τ) (Y τ) (Z τ)).im)
      (1 / a * (X' * gradVW a C S i j (X t) (Y t) (Z t) 0 + Y' * gradVW a C S i j (X t) (Y t) (Z t) 1 +
        Z' * gradVW a C S i j (X t) (Y t) (Z t) 2)) t := by
  simp only [vw_re, vw_im]
  rcases j with _ | j
  · have h := hasDerivAt_solid_zero hX hY hZ h0 i
    have hr := reCLM.hasFDerivAt.comp_hasDerivAt t h
    have hm : HasDerivAt (fun τ => (solid i 0 (X τ) (Y τ) (Z τ)).im) 0 t := by
      simp only [solid_zero_im]; exact hasDerivAt_const _ _
    refine (((hr.const_mul (nrm i 0 * a ^ (i + 1))).const_mul C).add ((hm.const_mul (nrm i 0 * a ^ (i + 1))).const_mul S)).congr_deriv ?_
    have h1 := facXY0_nrm i 0
    have h2 := facZ_nrm i 0
    simp only [Nat.zero_add] at h1 h2
    simp only [gradVW, if_pos, vw_re, vw_im, solid_zero_im, reCLM_apply]
    simp only [sub_re, mul_re, neg_re, ofReal_re, ofReal_im, neg_im, add_re, natCast_re, one_re, add_im, natCast_im, one_im,
      Matrix.cons_val_zero, Matrix.cons_val_one, Matrix.cons_val, solid_zero_im]
    generalize (solid (i + 1) 1 (X t) (Y t) (Z t)).re = s1
    generalize (solid (i + 1) 1 (X t) (Y t) (Z t)).im = s2
    generalize (solid (i + 1) 0 (X t) (Y t) (Z t)).re = s3
    generalize facXY0 Real.sqrt i 0 = f0 at *
    generalize facZ Real.sqrt i 0 = f1 at *
    rw [pow_succ a (i + 1)]
    generalize a ^ (i + 1) = A
    field_simp
    linear_combination (C * A * X' * s1 + C * A * Y' * s2) * h1 + C * A * Z' * s3 * h2
  · obtain ⟨k, rfl⟩ := Nat.exists_eq_add_of_le hij
    have h := hasDerivAt_solid_succ hX hY hZ h0 (j + 1 + k) j
    have hr := reCLM.hasFDerivAt.comp_hasDerivAt t h
    have hm := imCLM.hasFDerivAt.comp_hasDerivAt t h
    refine (((hr.const_mul (nrm (j + 1 + k) (j + 1) * a ^ (j + 1 + k + 1))).const_mul C).add
      ((hm.const_mul (nrm (j + 1 + k) (j + 1) * a ^ (j + 1 + k + 1))).const_mul S)).congr_deriv ?_
    have h1 := facXY0_nrm k (j + 1)
    have h2 := facZ_nrm k (j + 1)
    have h3 := facXY1_nrm k j
    have e : (((j + 1 + k : ℕ) : ℂ) - j) = ((k + 1 : ℝ) : ℂ) := by push_cast; ring
    have e' : (((j + 1 + k : ℕ) : ℂ) - j + 1) = ((k + 2 : ℝ) : ℂ) := by push_cast; ring
    rw [e', e]
    simp only [gradVW, if_neg (Nat.succ_ne_zero j), vw_re, vw_im, reCLM_apply, imCLM_apply, Nat.add_sub_cancel]
    rw [show j + 1 + 1 = j + 2 by omega] at *
    generalize solid (j + 1 + k + 1) (j + 2) (X t) (Y t) (Z t) = s1
    generalize solid (j + 1 + k + 1) (j + 1) (X t) (Y t) (Z t) = s2
    generalize solid (j + 1 + k + 1) j (X t) (Y t) (Z t) = s3
    have hre : (X' * (1 / 2 * (-s1 + ((k + 2 : ℝ) : ℂ) * ((k + 1 : ℝ) : ℂ) * s3)) + Y' * (I / 2 * (s1 + ((k + 2 : ℝ) : ℂ) * ((k + 1 : ℝ) : ℂ) * s3)) -
        Z' * (((k + 1 : ℝ) : ℂ) * s2)).re = X' * (1 / 2 * (-s1.re + (k + 2) * (k + 1) * s3.re)) -
        Y' * (1 / 2 * (s1.im + (k + 2) * (k + 1) * s3.im)) - Z' * ((k + 1) * s2.re) := by
      have : ((1 : ℂ) / 2) = ((1 / 2 : ℝ) : ℂ) := by push_cast; rfl
      have h' : (I / 2) = ((1 / 2 : ℝ) : ℂ) * I := by push_cast; ring
      rw [this, h']
      simp only [sub_re, add_re, mul_re, mul_im, neg_re, neg_im, add_im, ofReal_re, ofReal_im, I_re, I_im]
      ring
    have him : (X' * (1 / 2 * (-s1 + ((k + 2 : ℝ) : ℂ) * ((k + 1 : ℝ) : ℂ) * s3)) + Y' * (I / 2 * (s1 + ((k + 2 : ℝ) : ℂ) * ((k + 1 : ℝ) : ℂ) * s3)) -
        Z' * (((k + 1 : ℝ) : ℂ) * s2)).im = X' * (1 / 2 * (-s1.im + (k + 2) * (k + 1) * s3.im)) +
        Y' * (1 / 2 * (s1.re + (k + 2) * (k + 1) * s3.re)) - Z' * ((k + 1) * s2.im) := by
      have : ((1 : ℂ) / 2) = ((1 / 2 : ℝ) : ℂ) := by push_cast; rfl
      have h' : (I / 2) = ((1 / 2 : ℝ) : ℂ) * I := by push_cast; ring
      rw [this, h']
      simp only [sub_im, sub_re, add_re, mul_re, mul_im, neg_re, neg_im, add_im, ofReal_re, ofReal_im, I_re, I_im]
      ring
    rw [hre, him]
    simp only [Matrix.cons_val_zero, Matrix.cons_val_one, Matrix.cons_val]
    generalize facXY0 Real.sqrt (j + 1 + k) (j + 1) = f0 at *
    generalize facZ Real.sqrt (j + 1 + k) (j + 1) = f1 at *
    generalize facXY1 Real.sqrt (j + 1 + k) (j + 1) = f2 at *
    rw [pow_succ a (j + 1 + k + 1)]
    generalize a ^ (j + 1 + k + 1) = A
    generalize s1.re = r1
    generalize s1.im = i1
    generalize s2.re = r2
    generalize s2.im = i2
    generalize s3.re = r3
    generalize s3.im = i3
    generalize nrm (j + 1 + k + 1) (j + 2) = n1 at *
    generalize nrm (j + 1 + k + 1) (j + 1) = n2 at *
    generalize nrm (j + 1 + k + 1) j = n3 at *
    generalize nrm (j + 1 + k) (j + 1) = n0 at *
    field_simp
    linear_combination (A * (X' * C * r1 + X' * S * i1 + Y' * C * i1 - Y' * S * r1)) * h1 + 2 * A * Z' * (C * r2 + S * i2) * h2 -
      2 * A * (X' * C * r3 + X' * S * i3 - Y' * C * i3 + Y' * S * r3) * h3

end

end Heyoka.Sh
