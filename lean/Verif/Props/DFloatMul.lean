import Verif.DFloat.Mul
import Verif.Props.DFloat

/-!
# C69: double-length products, quotients and floors

For every binary floating-point format of at least 5 bits with the IEEE rounding to nearest. The specification is the exact arithmetic of
the represented numbers `DF.val`.
-/

namespace Heyoka.DFloat

variable {φ : Fmt}

/-- C69: **the transformation of a product loses nothing**, unless the exact product is not a multiple of the smallest positive number. -/
theorem eftProduct_exact (hp : 1 ≤ φ.p) {a b : ℚ} (ha : φ.Rep a) (hb : φ.Rep b) (h : Mul2 φ.emin (a * b)) :
    (eftProduct φ.rnd a b).1 = φ.rnd (a * b) ∧ (eftProduct φ.rnd a b).1 + (eftProduct φ.rnd a b).2 = a * b := by
  rw [(rnd_nearest hp).eft_eq hp ha hb h]
  exact ⟨rfl, by ring⟩

/-- C69: **the floor is exact**: it represents the largest integer not above the represented number and is normalised, for scalars and for the elements of
vectors. -/
theorem dlFloor_exact (hp : 1 ≤ φ.p) (he : φ.emin ≤ 0) {x : DF} (hx : Norm φ φ.rnd x) :
    (dlFloor φ.rnd x).val = ⌊x.val⌋ ∧ Norm φ φ.rnd (dlFloor φ.rnd x) ∧ dlFloorVec φ.rnd x = dlFloor φ.rnd x := by
  have N := rnd_nearest (φ := φ) hp
  have hfh := rep_floor hp he hx.hi
  have hfl := rep_floor hp he hx.lo
  by_cases h : (⌊x.hi⌋ : ℚ) = x.hi
  · -- The high part is an integer.
    have hle : |(⌊x.lo⌋ : ℚ)| ≤ |(⌊x.hi⌋ : ℚ)| := by
      by_cases h0 : x.hi = 0
      · have hr : φ.rnd (x.hi + x.lo) = x.hi := hx.near
        rw [h0, zero_add, N.exact hx.lo] at hr
        rw [hr, h0]
      · have hlo : |x.lo| ≤ |x.hi| := by
          have hr : φ.rnd (x.hi + x.lo) = x.hi := hx.near
          have := N.near (x.hi + x.lo) 0 Fmt.Rep.zero
          by_contra hc
          push Not at hc
          have hn := N.near (x.hi + x.lo) x.lo hx.lo
          rw [hr] at hn
          rw [show x.hi - (x.hi + x.lo) = -x.lo by ring, show x.lo - (x.hi + x.lo) = -x.hi by ring, abs_neg, abs_neg] at hn
          exact absurd hn (not_le.2 hc)
        rw [← Int.cast_abs, ← Int.cast_abs, Int.cast_le]
        have h1 : |x.lo| ≤ ((|⌊x.hi⌋| : ℤ) : ℚ) := by rw [Int.cast_abs, h]; exact hlo
        rw [abs_le] at h1 ⊢
        constructor
        · rw [Int.le_floor]; push_cast; push_cast at h1; exact h1.1
        · have := (Int.floor_le x.lo).trans h1.2
          exact_mod_cast this
    have hd := N.dekker_abs hp hfh hfl hle
    have e : dlFloor φ.rnd x = ⟨φ.rnd (⌊x.hi⌋ + ⌊x.lo⌋), ⌊x.hi⌋ + ⌊x.lo⌋ - φ.rnd (⌊x.hi⌋ + ⌊x.lo⌋)⟩ := by
      unfold dlFloor
      rw [if_pos h, N.dekker_of _ _ hd]
    refine ⟨?_, ?_, ?_⟩
    · rw [e]
      unfold DF.val
      have : ⌊x.hi + x.lo⌋ = ⌊x.hi⌋ + ⌊x.lo⌋ := by
        conv_lhs => rw [← h]
        rw [Int.floor_intCast_add]
      rw [this]
      push_cast
      ring
    · rw [e]
      refine ⟨N.rep _, hd.2, ?_⟩
      unfold DF.val
      simp
    · unfold dlFloor dlFloorVec
      simp only [if_pos h]
  · -- The high part is not an integer.
    have hr : φ.rnd (x.hi + x.lo) = x.hi := hx.near
    have h1 : (⌊x.hi⌋ : ℚ) ≤ x.hi + x.lo := by
      by_contra hc
      push Not at hc
      have := N.le hfh hc.le
      rw [hr] at this
      exact h (le_antisymm (Int.floor_le _) this)
    have h2 : x.hi + x.lo < ⌊x.hi⌋ + 1 := by
      by_contra hc
      push Not at hc
      have hrep : φ.Rep ((⌊x.hi⌋ : ℚ) + 1) := by
        have h3 := (rep_floor hp he hx.hi.neg).neg
        have h4 : -((⌊-x.hi⌋ : ℤ) : ℚ) = ⌊x.hi⌋ + 1 := by
          have : ⌈x.hi⌉ = ⌊x.hi⌋ + 1 := by
            rw [Int.ceil_eq_iff]
            push_cast
            have a1 := Int.floor_le x.hi
            have a2 := Int.lt_floor_add_one x.hi
            refine ⟨?_, a2.le⟩
            have := lt_of_le_of_ne a1 h
            linarith
          rw [Int.floor_neg, this]
          push_cast
          ring
        rwa [h4] at h3
      have := N.ge hrep hc
      rw [hr] at this
      exact absurd (Int.lt_floor_add_one x.hi) (not_lt.2 this)
    have e : dlFloor φ.rnd x = ⟨⌊x.hi⌋, 0⟩ := by
      unfold dlFloor
      rw [if_neg h]
    rw [e]
    refine ⟨?_, ⟨hfh, Fmt.Rep.zero, ?_⟩, ?_⟩
    · unfold DF.val
      have : ⌊x.hi + x.lo⌋ = ⌊x.hi⌋ := Int.floor_eq_iff.2 ⟨h1, h2⟩
      rw [this]
      simp
    · unfold DF.val
      simpa using N.exact hfh
    · unfold dlFloorVec
      rw [if_neg h]
      simp [dekker, N.exact hfh, N.zero]

/-- The unit roundoff is small. -/
theorem u_le (hp : 5 ≤ φ.p) : (2 : ℚ) ^ (-(φ.p : ℤ)) ≤ 1 / 32 := by
  have := two_zpow_le (a := -(φ.p : ℤ)) (b := -5) (by omega)
  refine this.trans (by norm_num)

theorem abs_round {r x u b : ℚ} (h : |r - x| ≤ u * |x|) (hu : 0 ≤ u) (hx : |x| ≤ b) : |r - x| ≤ u * b ∧ |r| ≤ b + u * b := by
  have h1 : u * |x| ≤ u * b := mul_le_mul_of_nonneg_left hx hu
  have h2 : |r| ≤ |r - x| + |x| := by
    have := abs_add_le (r - x) x
    rwa [sub_add_cancel] at this
  exact ⟨h.trans h1, by linarith⟩

theorem abs_mul_le' {a b x y : ℚ} (ha : |a| ≤ x) (hb : |b| ≤ y) : |a * b| ≤ x * y := by
  rw [abs_mul]
  exact mul_le_mul ha hb (abs_nonneg _) ((abs_nonneg _).trans ha)

/-- C69: **the product is normalised and accurate to twice the precision**: the relative error is at most nine times the square of the unit roundoff,
unless one of the exact products of the parts is not a multiple of the smallest positive number. -/
theorem dlMul_error (hp : 5 ≤ φ.p) {a b : DF} (ha : Norm φ φ.rnd a) (hb : Norm φ φ.rnd b) (h1 : Mul2 φ.emin (a.hi * b.hi))
    (h2 : Mul2 φ.emin (a.hi * b.lo)) (h3 : Mul2 φ.emin (a.lo * b.hi)) :
    Norm φ φ.rnd (dlMul φ.rnd a b) ∧
      |(dlMul φ.rnd a b).val - a.val * b.val| ≤ 9 * (2 : ℚ) ^ (-2 * (φ.p : ℤ)) * |a.val * b.val| := by
  have hp1 : 1 ≤ φ.p := by omega
  have N := rnd_nearest (φ := φ) hp1
  have hu := u_le hp
  have hu0 := two_zpow_pos (-(φ.p : ℤ))
  have hu2 : (2 : ℚ) ^ (-2 * (φ.p : ℤ)) = 2 ^ (-(φ.p : ℤ)) * 2 ^ (-(φ.p : ℤ)) := by
    rw [← two_zpow_add]; congr 1; ring
  obtain ⟨al, ah⟩ := norm_bounds hp1 ha
  obtain ⟨bl, bh⟩ := norm_bounds hp1 hb
  have heft := N.eft_eq hp1 ha.hi hb.hi h1
  have r0 := N.rel hp1 h1
  have r1 := N.rel hp1 h2
  have r2 := N.rel hp1 h3
  have r3 := N.rel hp1 ((N.rep (a.hi * b.lo)).mul2.add (N.rep (a.lo * b.hi)).mul2)
  have hrep0 := N.eft_rep hp1 ha.hi hb.hi h1
  have r4 := N.rel hp1 ((N.rep (φ.rnd (a.hi * b.lo) + φ.rnd (a.lo * b.hi))).mul2.add hrep0.mul2)
  have hlow : |a.val| ≤ |a.hi| + |a.lo| := abs_add_le _ _
  have hlow' : |b.val| ≤ |b.hi| + |b.lo| := abs_add_le _ _
  rw [hu2, abs_mul]
  have hval : (a.val : ℚ) * b.val = a.hi * b.hi + a.hi * b.lo + a.lo * b.hi + a.lo * b.lo := by unfold DF.val; ring
  have hdl : dlMul φ.rnd a b = ⟨(dekker φ.rnd (φ.rnd (a.hi * b.hi)) (φ.rnd (φ.rnd (φ.rnd (a.hi * b.lo) + φ.rnd (a.lo * b.hi)) +
      (a.hi * b.hi - φ.rnd (a.hi * b.hi))))).1, (dekker φ.rnd (φ.rnd (a.hi * b.hi)) (φ.rnd (φ.rnd (φ.rnd (a.hi * b.lo) +
      φ.rnd (a.lo * b.hi)) + (a.hi * b.hi - φ.rnd (a.hi * b.hi))))).2⟩ := by
    unfold dlMul
    rw [heft]
  have hct := N.rep (φ.rnd (φ.rnd (a.hi * b.lo) + φ.rnd (a.lo * b.hi)) + (a.hi * b.hi - φ.rnd (a.hi * b.hi)))
  have hcr := N.rep (a.hi * b.hi)
  rw [hdl, hval]
  generalize (2 : ℚ) ^ (-(φ.p : ℤ)) = u at *
  have hA0 := abs_nonneg a.val
  have hB0 := abs_nonneg b.val
  generalize |a.val| = A at *
  generalize |b.val| = B at *
  have hV0 : 0 ≤ A * B := mul_nonneg hA0 hB0
  -- The bounds of the exact products.
  have bl1 : |a.hi * b.lo| ≤ (33 / 32) * (u * (A * B)) := by
    refine (abs_mul_le' ah bl).trans ?_
    have : u * (u * (A * B)) ≤ 1 / 32 * (u * (A * B)) := mul_le_mul_of_nonneg_right hu (mul_nonneg hu0.le hV0)
    linarith
  have bl2 : |a.lo * b.hi| ≤ (33 / 32) * (u * (A * B)) := by
    refine (abs_mul_le' al bh).trans ?_
    have : u * (u * (A * B)) ≤ 1 / 32 * (u * (A * B)) := mul_le_mul_of_nonneg_right hu (mul_nonneg hu0.le hV0)
    linarith
  have bll : |a.lo * b.lo| ≤ u * (u * (A * B)) := (abs_mul_le' al bl).trans (by linarith)
  have bhh : |a.hi * b.hi| ≤ (1089 / 1024) * (A * B) := by
    refine (abs_mul_le' ah bh).trans ?_
    have t1 : (1 + u) * A ≤ 33 / 32 * A := mul_le_mul_of_nonneg_right (by linarith) hA0
    have t2 : (1 + u) * B ≤ 33 / 32 * B := mul_le_mul_of_nonneg_right (by linarith) hB0
    have := mul_le_mul t1 t2 (mul_nonneg (by linarith) hB0) (by linarith)
    linarith
  have lhh : (961 / 1024) * (A * B) ≤ |a.hi * b.hi| := by
    have t1 : u * A ≤ 1 / 32 * A := mul_le_mul_of_nonneg_right hu hA0
    have t2 : u * B ≤ 1 / 32 * B := mul_le_mul_of_nonneg_right hu hB0
    have s1 : 31 / 32 * A ≤ |a.hi| := by linarith
    have s2 : 31 / 32 * B ≤ |b.hi| := by linarith
    rw [abs_mul]
    have := mul_le_mul s1 s2 (by linarith) (abs_nonneg _)
    linarith
  generalize a.hi * b.hi = hh at *
  generalize a.hi * b.lo = hl at *
  generalize a.lo * b.hi = lh at *
  generalize a.lo * b.lo = ll at *
  generalize A * B = V at *
  obtain ⟨q0, q0'⟩ := abs_round r0 hu0.le bhh
  obtain ⟨q1, q1'⟩ := abs_round r1 hu0.le bl1
  obtain ⟨q2, q2'⟩ := abs_round r2 hu0.le bl2
  have huW : u * (u * V) ≤ 1 / 32 * (u * V) := mul_le_mul_of_nonneg_right hu (mul_nonneg hu0.le hV0)
  have huV : u * V ≤ 1 / 32 * V := mul_le_mul_of_nonneg_right hu hV0
  have huV0 : 0 ≤ u * V := mul_nonneg hu0.le hV0
  obtain ⟨q3, q3'⟩ := abs_round r3 hu0.le (b := 2.128 * (u * V)) ((abs_add_le _ _).trans (by linarith))
  have q0'' : |hh - φ.rnd hh| ≤ 1089 / 1024 * (u * V) := by rw [abs_sub_comm]; linarith
  obtain ⟨q4, q4'⟩ := abs_round r4 hu0.le (b := 3.26 * (u * V)) ((abs_add_le _ _).trans (by linarith))
  have hcl : |φ.rnd (φ.rnd (φ.rnd hl + φ.rnd lh) + (hh - φ.rnd hh))| ≤ |φ.rnd hh| := by
    have : |hh| ≤ |φ.rnd hh| + |hh - φ.rnd hh| := by
      have := abs_add_le (φ.rnd hh) (hh - φ.rnd hh)
      rwa [add_sub_cancel] at this
    linarith
  have hd := N.dekker_abs hp1 hcr hct hcl
  rw [N.dekker_of _ _ hd]
  refine ⟨⟨N.rep _, hd.2, by unfold DF.val; simp⟩, ?_⟩
  have e : (⟨φ.rnd (φ.rnd hh + φ.rnd (φ.rnd (φ.rnd hl + φ.rnd lh) + (hh - φ.rnd hh))), φ.rnd hh + φ.rnd (φ.rnd (φ.rnd hl + φ.rnd lh) +
      (hh - φ.rnd hh)) - φ.rnd (φ.rnd hh + φ.rnd (φ.rnd (φ.rnd hl + φ.rnd lh) + (hh - φ.rnd hh)))⟩ : DF).val - (hh + hl + lh + ll) =
      (φ.rnd (φ.rnd (φ.rnd hl + φ.rnd lh) + (hh - φ.rnd hh)) - (φ.rnd (φ.rnd hl + φ.rnd lh) + (hh - φ.rnd hh))) +
      (φ.rnd (φ.rnd hl + φ.rnd lh) - (φ.rnd hl + φ.rnd lh)) + (φ.rnd hl - hl) + (φ.rnd lh - lh) - ll := by
    unfold DF.val; ring
  rw [e]
  have g1 := abs_sub (φ.rnd (φ.rnd (φ.rnd hl + φ.rnd lh) + (hh - φ.rnd hh)) - (φ.rnd (φ.rnd hl + φ.rnd lh) + (hh - φ.rnd hh)) +
      (φ.rnd (φ.rnd hl + φ.rnd lh) - (φ.rnd hl + φ.rnd lh)) + (φ.rnd hl - hl) + (φ.rnd lh - lh)) ll
  have g2 := abs_add_le (φ.rnd (φ.rnd (φ.rnd hl + φ.rnd lh) + (hh - φ.rnd hh)) - (φ.rnd (φ.rnd hl + φ.rnd lh) + (hh - φ.rnd hh)) +
      (φ.rnd (φ.rnd hl + φ.rnd lh) - (φ.rnd hl + φ.rnd lh)) + (φ.rnd hl - hl)) (φ.rnd lh - lh)
  have g3 := abs_add_le (φ.rnd (φ.rnd (φ.rnd hl + φ.rnd lh) + (hh - φ.rnd hh)) - (φ.rnd (φ.rnd hl + φ.rnd lh) + (hh - φ.rnd hh)) +
      (φ.rnd (φ.rnd hl + φ.rnd lh) - (φ.rnd hl + φ.rnd lh))) (φ.rnd hl - hl)
  have g4 := abs_add_le (φ.rnd (φ.rnd (φ.rnd hl + φ.rnd lh) + (hh - φ.rnd hh)) - (φ.rnd (φ.rnd hl + φ.rnd lh) + (hh - φ.rnd hh)))
      (φ.rnd (φ.rnd hl + φ.rnd lh) - (φ.rnd hl + φ.rnd lh))
  have hW0 : 0 ≤ u * (u * V) := mul_nonneg hu0.le huV0
  have w1 : u * (33 / 32 * (u * V)) = 33 / 32 * (u * (u * V)) := by ring
  have w2 : u * (2.128 * (u * V)) = 2.128 * (u * (u * V)) := by ring
  have w3 : u * (3.26 * (u * V)) = 3.26 * (u * (u * V)) := by ring
  have w4 : 9 * (u * u) * V = 9 * (u * (u * V)) := by ring
  rw [w1] at q1 q2
  rw [w2] at q3
  rw [w3] at q4
  rw [w4]
  linarith

/-- The exact remainder of the first quotient. -/
theorem div_step {x xl y yl c E : ℚ} (hy : y ≠ 0) (hB : y + yl ≠ 0) :
    c + (x - c * y + xl - c * yl + E) / y - (x + xl) / (y + yl) =
      ((x + xl - c * (y + yl)) * (yl / (y + yl)) + E) / y := by
  field_simp
  ring

/-- C69: **the quotient is normalised and accurate to twice the precision**: the error is at most eighteen times the square of the unit roundoff,
relatively, plus the smallest positive number, if the quotient of the high parts is in the normal range and its exact products with the parts of the
divisor are multiples of the smallest positive number. -/
theorem dlDiv_error (hp : 5 ≤ φ.p) {a b : DF} (ha : Norm φ φ.rnd a) (hb : Norm φ φ.rnd b)
    (hq : (2 : ℚ) ^ (φ.p - 1 + φ.emin) ≤ |a.hi / b.hi|) (h1 : Mul2 φ.emin (φ.rnd (a.hi / b.hi) * b.hi))
    (h2 : Mul2 φ.emin (φ.rnd (a.hi / b.hi) * b.lo)) :
    Norm φ φ.rnd (dlDiv φ.rnd a b) ∧
      |(dlDiv φ.rnd a b).val - a.val / b.val| ≤ 18 * (2 : ℚ) ^ (-2 * (φ.p : ℤ)) * |a.val / b.val| + 2 ^ φ.emin := by
  have hp1 : 1 ≤ φ.p := by omega
  have N := rnd_nearest (φ := φ) hp1
  have hu := u_le hp
  have hu0 := two_zpow_pos (-(φ.p : ℤ))
  have hu2 : (2 : ℚ) ^ (-2 * (φ.p : ℤ)) = 2 ^ (-(φ.p : ℤ)) * 2 ^ (-(φ.p : ℤ)) := by
    rw [← two_zpow_add]; congr 1; ring
  obtain ⟨al, ah⟩ := norm_bounds hp1 ha
  obtain ⟨bl, bh⟩ := norm_bounds hp1 hb
  have hy : b.hi ≠ 0 := by
    intro h
    rw [h, div_zero, abs_zero] at hq
    exact absurd (two_zpow_pos _) (not_lt.2 hq)
  have hη := two_zpow_pos φ.emin
  have hηq : 16 * (2 : ℚ) ^ φ.emin ≤ |a.hi / b.hi| := by
    refine le_trans ?_ hq
    have : (16 : ℚ) * 2 ^ φ.emin = 2 ^ (4 + φ.emin) := by rw [two_zpow_add]; norm_num
    rw [this]
    exact two_zpow_le (by omega)
  have r0 := N.rel_normal hp1 hq
  have hcR := N.rep (a.hi / b.hi)
  have hdl : dlDiv φ.rnd a b = (let c := φ.rnd (a.hi / b.hi)
      let d := φ.rnd (φ.rnd (φ.rnd (φ.rnd (φ.rnd (a.hi - φ.rnd (c * b.hi)) - (c * b.hi - φ.rnd (c * b.hi))) + a.lo) - φ.rnd (c * b.lo)) / b.hi)
      ⟨(dekker φ.rnd c d).1, (dekker φ.rnd c d).2⟩) := by
    unfold dlDiv
    simp only [N.eft_eq hp1 hcR hb.hi h1]
  rw [hdl, hu2]
  simp only
  have hx := ha.hi
  have hxl := ha.lo
  have hyr := hb.hi
  have hlowa : |a.val| ≤ |a.hi| + |a.lo| := abs_add_le _ _
  have hlowb : |b.val| ≤ |b.hi| + |b.lo| := abs_add_le _ _
  have haval : a.val = a.hi + a.lo := rfl
  have hbval : b.val = b.hi + b.lo := rfl
  have hxq : a.hi = a.hi / b.hi * b.hi := by field_simp
  generalize a.hi / b.hi = q at *
  generalize φ.rnd q = c at *
  generalize a.hi = x at *
  generalize a.lo = xl at *
  generalize b.hi = y at *
  generalize b.lo = yl at *
  generalize a.val = A at *
  generalize b.val = B at *
  have rp1 := N.rel hp1 h1
  have huu := N.eft_rep hp1 hcR hyr h1
  have e1 := N.rel hp1 (hx.mul2.sub (N.rep (c * y)).mul2)
  have e2 := N.rel hp1 ((N.rep (x - φ.rnd (c * y))).mul2.sub huu.mul2)
  have e3 := N.rel hp1 ((N.rep (φ.rnd (x - φ.rnd (c * y)) - (c * y - φ.rnd (c * y)))).mul2.add hxl.mul2)
  have em := N.rel hp1 h2
  have e4 := N.rel hp1 ((N.rep (φ.rnd (φ.rnd (x - φ.rnd (c * y)) - (c * y - φ.rnd (c * y))) + xl)).mul2.sub (N.rep (c * yl)).mul2)
  have e5 := N.rel_abs hp1 (φ.rnd (φ.rnd (φ.rnd (φ.rnd (x - φ.rnd (c * y)) - (c * y - φ.rnd (c * y))) + xl) - φ.rnd (c * yl)) / y)
  generalize (2 : ℚ) ^ (-(φ.p : ℤ)) = u at *
  generalize (2 : ℚ) ^ φ.emin = η at *
  have hY : 0 < |y| := abs_pos.2 hy
  have hQ0 : 0 ≤ |q| := abs_nonneg q
  have hXQ : |x| = |q| * |y| := by conv_lhs => rw [hxq]; rw [abs_mul]
  have hX0 : 0 ≤ |x| := abs_nonneg x
  have huX0 : 0 ≤ u * |x| := mul_nonneg hu0.le hX0
  have huX : u * |x| ≤ 1 / 32 * |x| := mul_le_mul_of_nonneg_right hu hX0
  have huuX : u * (u * |x|) ≤ 1 / 32 * (u * |x|) := mul_le_mul_of_nonneg_right hu huX0
  have huuX0 : 0 ≤ u * (u * |x|) := mul_nonneg hu0.le huX0
  -- The represented numbers and their high parts.
  have hA0 := abs_nonneg A
  have hB0 := abs_nonneg B
  have huA : u * |A| ≤ 1 / 32 * |A| := mul_le_mul_of_nonneg_right hu hA0
  have huB : u * |B| ≤ 1 / 32 * |B| := mul_le_mul_of_nonneg_right hu hB0
  have hAX : |A| ≤ 32 / 31 * |x| := by linarith
  have hBY : |B| ≤ 32 / 31 * |y| := by linarith
  have hYB : 31 / 32 * |B| ≤ |y| := by linarith
  have hXA : |x| ≤ 33 / 32 * |A| := by linarith
  have hBne : B ≠ 0 := by
    rintro rfl
    rw [abs_zero] at bh
    linarith
  have hxl' : |xl| ≤ 1.0323 * (u * |x|) := by
    have := mul_le_mul_of_nonneg_left hAX hu0.le
    linarith
  have hyl' : |yl| ≤ 1.0323 * (u * |y|) := by
    have := mul_le_mul_of_nonneg_left hBY hu0.le
    have h0 : 0 ≤ u * |y| := mul_nonneg hu0.le hY.le
    linarith
  -- The first quotient.
  have f0 : |c * y - x| ≤ u * |x| := by
    have : c * y - x = (c - q) * y := by rw [sub_mul, ← hxq]
    rw [this, abs_mul, hXQ, ← mul_assoc]
    exact mul_le_mul_of_nonneg_right r0 hY.le
  have f1 : |c * y| ≤ 33 / 32 * |x| := by
    have := abs_add_le (c * y - x) x
    rw [sub_add_cancel] at this
    linarith
  have f2 : |c * y - φ.rnd (c * y)| ≤ 33 / 32 * (u * |x|) := by
    rw [abs_sub_comm]
    refine rp1.trans ?_
    have := mul_le_mul_of_nonneg_left f1 hu0.le
    linarith
  have f3 : |c * yl| ≤ 1.0646 * (u * |x|) := by
    rw [abs_mul]
    have g1 := mul_le_mul_of_nonneg_left hyl' (abs_nonneg c)
    have g2 : |c| * (1.0323 * (u * |y|)) = 1.0323 * (u * |c * y|) := by rw [abs_mul]; ring
    have g3 := mul_le_mul_of_nonneg_left f1 hu0.le
    linarith
  -- The remainder.
  have s1 : |x - φ.rnd (c * y)| ≤ 2.0313 * (u * |x|) := by
    have : x - φ.rnd (c * y) = -(c * y - x) + (c * y - φ.rnd (c * y)) := by ring
    rw [this]
    refine (abs_add_le _ _).trans ?_
    rw [abs_neg]
    linarith
  obtain ⟨e1', -⟩ := abs_round e1 hu0.le s1
  have w1 : u * (2.0313 * (u * |x|)) = 2.0313 * (u * (u * |x|)) := by ring
  rw [w1] at e1'
  generalize hd1 : φ.rnd (x - φ.rnd (c * y)) = d1 at *
  generalize hp1' : φ.rnd (c * y) = p1 at *
  have s2 : |d1 - (c * y - p1)| ≤ 1.0635 * (u * |x|) := by
    have : d1 - (c * y - p1) = (d1 - (x - p1)) + -(c * y - x) := by ring
    rw [this]
    refine (abs_add_le _ _).trans ?_
    rw [abs_neg]
    linarith
  obtain ⟨e2', d2'⟩ := abs_round e2 hu0.le s2
  have w2 : u * (1.0635 * (u * |x|)) = 1.0635 * (u * (u * |x|)) := by ring
  rw [w2] at e2' d2'
  generalize φ.rnd (d1 - (c * y - p1)) = d2 at *
  have s3 : |d2 + xl| ≤ 2.1291 * (u * |x|) := (abs_add_le _ _).trans (by linarith)
  obtain ⟨e3', d3'⟩ := abs_round e3 hu0.le s3
  have w3 : u * (2.1291 * (u * |x|)) = 2.1291 * (u * (u * |x|)) := by ring
  rw [w3] at e3' d3'
  generalize φ.rnd (d2 + xl) = d3 at *
  obtain ⟨em', m'⟩ := abs_round em hu0.le f3
  have w4 : u * (1.0646 * (u * |x|)) = 1.0646 * (u * (u * |x|)) := by ring
  rw [w4] at em' m'
  generalize φ.rnd (c * yl) = m at *
  have s4 : |d3 - m| ≤ 3.2937 * (u * |x|) := (abs_sub _ _).trans (by linarith)
  obtain ⟨e4', d4'⟩ := abs_round e4 hu0.le s4
  have w5 : u * (3.2937 * (u * |x|)) = 3.2937 * (u * (u * |x|)) := by ring
  rw [w5] at e4' d4'
  generalize φ.rnd (d3 - m) = d4 at *
  have d4q : |d4 / y| ≤ 3.4 * (u * |q|) := by
    rw [abs_div, div_le_iff₀ hY]
    have : 3.4 * (u * |q|) * |y| = 3.4 * (u * |x|) := by rw [hXQ]; ring
    rw [this]
    linarith
  have huQ0 : 0 ≤ u * |q| := mul_nonneg hu0.le hQ0
  have huQ : u * |q| ≤ 1 / 32 * |q| := mul_le_mul_of_nonneg_right hu hQ0
  have huuQ0 : 0 ≤ u * (u * |q|) := mul_nonneg hu0.le huQ0
  have huuQ : u * (u * |q|) ≤ 1 / 32 * (u * |q|) := mul_le_mul_of_nonneg_right hu huQ0
  have e5' : |φ.rnd (d4 / y) - d4 / y| ≤ 3.4 * (u * (u * |q|)) + η / 2 := by
    have := mul_le_mul_of_nonneg_left d4q hu0.le
    linarith
  have hccR := N.rep (d4 / y)
  generalize φ.rnd (d4 / y) = cc at *
  have hle : |cc| ≤ |c| := by
    have g1 := abs_add_le (cc - d4 / y) (d4 / y)
    rw [sub_add_cancel] at g1
    have g2 := abs_sub c (c - q)
    rw [sub_sub_cancel] at g2
    linarith
  have hd := N.dekker_abs hp1 hcR hccR hle
  rw [N.dekker_of _ _ hd]
  refine ⟨⟨N.rep _, hd.2, by unfold DF.val; simp⟩, ?_⟩
  -- The error.
  have hE : |d4 - (x - c * y + xl - c * yl)| ≤ 9.5823 * (u * (u * |x|)) := by
    have : d4 - (x - c * y + xl - c * yl) = (d4 - (d3 - m)) + (d3 - (d2 + xl)) + (d2 - (d1 - (c * y - p1))) + (d1 - (x - p1)) - (m - c * yl) := by
      ring
    rw [this]
    have g1 := abs_sub ((d4 - (d3 - m)) + (d3 - (d2 + xl)) + (d2 - (d1 - (c * y - p1))) + (d1 - (x - p1))) (m - c * yl)
    have g2 := abs_add_le ((d4 - (d3 - m)) + (d3 - (d2 + xl)) + (d2 - (d1 - (c * y - p1)))) (d1 - (x - p1))
    have g3 := abs_add_le ((d4 - (d3 - m)) + (d3 - (d2 + xl))) (d2 - (d1 - (c * y - p1)))
    have g4 := abs_add_le (d4 - (d3 - m)) (d3 - (d2 + xl))
    linarith
  have hR : |x + xl - c * (y + yl)| ≤ 3.097 * (u * |x|) := by
    have : x + xl - c * (y + yl) = -(c * y - x) + xl - c * yl := by ring
    rw [this]
    have g1 := abs_sub (-(c * y - x) + xl) (c * yl)
    have g2 := abs_add_le (-(c * y - x)) xl
    rw [abs_neg] at g2
    linarith
  have hylB : |yl / (y + yl)| ≤ u := by
    rw [← hbval, abs_div, div_le_iff₀ (abs_pos.2 hBne)]
    exact bl
  have key := div_step (x := x) (xl := xl) (c := c) (E := d4 - (x - c * y + xl - c * yl)) hy (hbval ▸ hBne)
  rw [add_sub_cancel, ← haval, ← hbval] at key
  have hkey : |c + d4 / y - A / B| ≤ 12.68 * (u * (u * |q|)) := by
    rw [key, abs_div, div_le_iff₀ hY]
    have g0 : 12.68 * (u * (u * |q|)) * |y| = 12.68 * (u * (u * |x|)) := by rw [hXQ]; ring
    rw [g0]
    rw [← hbval, ← haval] at hR
    rw [← hbval] at hylB
    have g1 := abs_mul_le' hR hylB
    have g2 := abs_add_le ((A - c * B) * (yl / B)) (d4 - (x - c * y + xl - c * yl))
    linarith
  have hQAB : |q| ≤ 33 / 31 * |A / B| := by
    rw [abs_div, ← mul_div_assoc, le_div_iff₀ (abs_pos.2 hBne)]
    have := mul_le_mul_of_nonneg_left hYB hQ0
    linarith
  have hfin : u * (u * |q|) ≤ 33 / 31 * (u * (u * |A / B|)) := by
    have := mul_le_mul_of_nonneg_left (mul_le_mul_of_nonneg_left hQAB hu0.le) hu0.le
    linarith
  have hAB0 : 0 ≤ u * (u * |A / B|) := mul_nonneg hu0.le (mul_nonneg hu0.le (abs_nonneg _))
  have e : (⟨φ.rnd (c + cc), c + cc - φ.rnd (c + cc)⟩ : DF).val - A / B = (cc - d4 / y) + (c + d4 / y - A / B) := by
    unfold DF.val; ring
  rw [e]
  refine (abs_add_le _ _).trans ?_
  have w9 : 18 * (u * u) * |A / B| = 18 * (u * (u * |A / B|)) := by ring
  rw [w9]
  linarith

/-- C69: **the reduction modulo `y`**: the result is normalised, and up to errors of twice the precision it is `x - n y` for an integer `n` which
is the floor of `x / y` up to an error of the same size of the quotient. The products of the reduction need no hypotheses. -/
theorem dlMod_error (hp : 5 ≤ φ.p) (he : φ.emin ≤ 0) {x y : DF} (hx : Norm φ φ.rnd x) (hy : Norm φ φ.rnd y)
    (hq : (2 : ℚ) ^ (φ.p - 1 + φ.emin) ≤ |x.hi / y.hi|) (h1 : Mul2 φ.emin (φ.rnd (x.hi / y.hi) * y.hi))
    (h2 : Mul2 φ.emin (φ.rnd (x.hi / y.hi) * y.lo)) :
    Norm φ φ.rnd (dlMod φ.rnd x y) ∧ ∃ n : ℤ,
      |(dlMod φ.rnd x y).val - (x.val - n * y.val)| ≤ 14 * (2 : ℚ) ^ (-2 * (φ.p : ℤ)) * (|x.val| + |n * y.val|) ∧
      -(18 * (2 : ℚ) ^ (-2 * (φ.p : ℤ)) * |x.val / y.val| + 2 ^ φ.emin) ≤ x.val / y.val - n ∧
      x.val / y.val - n < 1 + (18 * (2 : ℚ) ^ (-2 * (φ.p : ℤ)) * |x.val / y.val| + 2 ^ φ.emin) := by
  have hp1 : 1 ≤ φ.p := by omega
  have N := rnd_nearest (φ := φ) hp1
  have hu := u_le hp
  have hu0 := two_zpow_pos (-(φ.p : ℤ))
  obtain ⟨dn, de⟩ := dlDiv_error hp hx hy hq h1 h2
  obtain ⟨fv, fn, -⟩ := dlFloor_exact hp1 he dn
  set F := dlFloor φ.rnd (dlDiv φ.rnd x y) with hF
  set n := ⌊(dlDiv φ.rnd x y).val⌋ with hn
  have i1 : Mul2 0 F.hi := by
    rw [← fn.near, fv]
    exact N.mul2 hp1 he ⟨n, by simp⟩
  have i2 : Mul2 0 F.lo := by
    have : F.lo = F.val - F.hi := by unfold DF.val; ring
    rw [this, fv]
    exact Mul2.sub ⟨n, by simp⟩ i1
  have hmul : ∀ {z f : ℚ}, φ.Rep z → Mul2 0 f → Mul2 φ.emin (z * f) := by
    rintro z f hz ⟨k, rfl⟩
    obtain ⟨m, hm⟩ := hz.mul2
    exact ⟨m * k, by rw [hm]; push_cast; simp; ring⟩
  obtain ⟨mn, me⟩ := dlMul_error hp hy fn (hmul hy.hi i1) (hmul hy.hi i2) (hmul hy.lo i1)
  obtain ⟨sn, se⟩ := sub_norm_error hp hx mn
  have hu2 : (2 : ℚ) ^ (-2 * (φ.p : ℤ)) = (2 ^ (-(φ.p : ℤ))) ^ 2 := by
    rw [sq, ← two_zpow_add]; congr 1; ring
  refine ⟨sn, n, ?_, ?_, ?_⟩
  · rw [fv] at me
    have hM : dlMod φ.rnd x y = sub φ.rnd x (dlMul φ.rnd y F) := rfl
    rw [hM]
    rw [hu2] at me ⊢
    have hw : ((2 : ℚ) ^ (-(φ.p : ℤ))) ^ 2 ≤ 1 / 1024 := by
      have := mul_le_mul hu hu hu0.le (by norm_num)
      rw [sq]
      linarith
    have hw0 : 0 ≤ ((2 : ℚ) ^ (-(φ.p : ℤ))) ^ 2 := sq_nonneg _
    generalize ((2 : ℚ) ^ (-(φ.p : ℤ))) ^ 2 = w at *
    rw [mul_comm (y.val)] at me
    have hny := abs_nonneg ((n : ℚ) * y.val)
    have hxv := abs_nonneg x.val
    have hP : |(dlMul φ.rnd y F).val| ≤ 2 * |(n : ℚ) * y.val| := by
      have := abs_add_le ((dlMul φ.rnd y F).val - n * y.val) (n * y.val)
      rw [sub_add_cancel] at this
      have h3 := mul_le_mul_of_nonneg_right hw hny
      linarith
    have hP2 : |(dlMul φ.rnd y F).val| ≤ |(n : ℚ) * y.val| + 9 * w * |(n : ℚ) * y.val| := by
      have := abs_add_le ((dlMul φ.rnd y F).val - n * y.val) (n * y.val)
      rw [sub_add_cancel] at this
      linarith
    have h3 := mul_le_mul_of_nonneg_right hw (mul_nonneg hw0 hny)
    have h4 := mul_le_mul_of_nonneg_left hP2 hw0
    have h5 : w * (|(n : ℚ) * y.val| + 9 * w * |(n : ℚ) * y.val|) = w * |(n : ℚ) * y.val| + 9 * (w * (w * |(n : ℚ) * y.val|)) := by ring
    have e : (sub φ.rnd x (dlMul φ.rnd y F)).val - (x.val - n * y.val) =
        ((sub φ.rnd x (dlMul φ.rnd y F)).val - (x.val - (dlMul φ.rnd y F).val)) - ((dlMul φ.rnd y F).val - n * y.val) := by ring
    rw [e]
    refine (abs_sub _ _).trans ?_
    have h6 : 0 ≤ w * |x.val| := mul_nonneg hw0 hxv
    have h7 : 0 ≤ w * |(n : ℚ) * y.val| := mul_nonneg hw0 hny
    nlinarith
  · have := Int.floor_le (dlDiv φ.rnd x y).val
    rw [abs_le] at de
    linarith [de.2]
  · have := Int.lt_floor_add_one (dlDiv φ.rnd x y).val
    rw [abs_le] at de
    linarith [de.1]

/-! ### Non-vacuity -/

theorem ex_norm16 : Norm fmt5 fmt5.rnd ⟨16, 5 / 16⟩ :=
  ⟨⟨1, 4, by decide, by decide, by norm_num⟩, ⟨5, -4, by decide, by decide, by norm_num⟩, by decide +kernel⟩

theorem ex_norm3 : Norm fmt5 fmt5.rnd ⟨3, 1 / 16⟩ :=
  ⟨⟨3, 0, by decide, by decide, by norm_num⟩, ⟨1, -4, by decide, by decide, by norm_num⟩, by decide +kernel⟩

/-- The product of two numbers with low parts. -/
example : dlMul fmt5.rnd ⟨16, 5 / 16⟩ ⟨3, 1 / 16⟩ = ⟨50, -1 / 16⟩ ∧
    |(dlMul fmt5.rnd ⟨16, 5 / 16⟩ ⟨3, 1 / 16⟩).val - (⟨16, 5 / 16⟩ : DF).val * (⟨3, 1 / 16⟩ : DF).val| ≤
      9 * (2 : ℚ) ^ (-2 * (fmt5.p : ℤ)) * |(⟨16, 5 / 16⟩ : DF).val * (⟨3, 1 / 16⟩ : DF).val| :=
  ⟨by decide +kernel, (dlMul_error (by decide) ex_norm16 ex_norm3 ⟨49152, by norm_num [fmt5]⟩ ⟨1024, by norm_num [fmt5]⟩
    ⟨960, by norm_num [fmt5]⟩).2⟩

/-- The remainder of `16.3125` modulo `3.0625` is `1`. -/
example : dlMod fmt5.rnd ⟨16, 5 / 16⟩ ⟨3, 1 / 16⟩ = ⟨1, 0⟩ ∧ Norm fmt5 fmt5.rnd (dlMod fmt5.rnd ⟨16, 5 / 16⟩ ⟨3, 1 / 16⟩) := by
  refine ⟨by decide +kernel, (dlMod_error (by decide) (by decide) ex_norm16 ex_norm3 ?_ ?_ ?_).1⟩
  · norm_num [fmt5]
  · have : fmt5.rnd (16 / 3) = 21 / 4 := by decide +kernel
    exact ⟨16128, by rw [this]; norm_num [fmt5]⟩
  · have : fmt5.rnd (16 / 3) = 21 / 4 := by decide +kernel
    exact ⟨336, by rw [this]; norm_num [fmt5]⟩

/-- The low part matters for the floor. -/
example : dlFloor fmt5.rnd ⟨16, -5 / 16⟩ = ⟨15, 0⟩ ∧ dlFloor fmt5.rnd ⟨16, 5 / 16⟩ = ⟨16, 0⟩ := by decide +kernel

/-- The product of the smallest positive number with itself is lost. -/
example : eftProduct fmt5.rnd (1 / 1024) (1 / 1024) = (0, 0) := by decide +kernel
end Heyoka.DFloat
