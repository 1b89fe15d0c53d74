import Verif.DFloat.Round
import Verif.DFloat.Add
import Mathlib.Tactic.FieldSimp

/-!
# Double-length multiplication, division and floor

Model of `llvm_eft_product()`, `llvm_dl_mul()`, `llvm_dl_div()`, `llvm_dl_floor()` and `llvm_dl_modulus()`
(`src/detail/llvm_helpers_dl.cpp`), with the same simplifications as `Verif/DFloat/Model.lean`.
-/

namespace Heyoka.DFloat

section ops
variable (rnd : ℚ → ℚ)

/-- `llvm_eft_product()`, llvm_helpers_dl.cpp:106-123; the fused multiply-add rounds once. -/
def eftProduct (a b : ℚ) : ℚ × ℚ :=
  let x := rnd (a * b)
  let y := rnd (a * b + -x)
  (x, y)

/-- `llvm_dl_mul()`, llvm_helpers_dl.cpp:130-150. -/
def dlMul (x y : DF) : DF :=
  let c := eftProduct rnd x.hi y.hi
  let x_yy := rnd (x.hi * y.lo)
  let xx_y := rnd (x.lo * y.hi)
  let cc := rnd (rnd (x_yy + xx_y) + c.2)
  let r := dekker rnd c.1 cc
  ⟨r.1, r.2⟩

/-- `llvm_dl_div()`, llvm_helpers_dl.cpp:157-183. -/
def dlDiv (x y : DF) : DF :=
  let c := rnd (x.hi / y.hi)
  let u := eftProduct rnd c y.hi
  let cc := rnd (x.hi - u.1)
  let cc := rnd (cc - u.2)
  let cc := rnd (cc + x.lo)
  let cc := rnd (cc - rnd (c * y.lo))
  let cc := rnd (cc / y.hi)
  let r := dekker rnd c cc
  ⟨r.1, r.2⟩

/-- `llvm_dl_floor()` for scalars, llvm_helpers_dl.cpp:188-238. -/
def dlFloor (x : DF) : DF :=
  if (⌊x.hi⌋ : ℚ) = x.hi then
    let r := dekker rnd ⌊x.hi⌋ ⌊x.lo⌋
    ⟨r.1, r.2⟩
  else ⟨⌊x.hi⌋, 0⟩

/-- `llvm_dl_floor()` for an element of a vector, llvm_helpers_dl.cpp:239-254. -/
def dlFloorVec (x : DF) : DF :=
  let lo : ℚ := if (⌊x.hi⌋ : ℚ) = x.hi then ⌊x.lo⌋ else 0
  let r := dekker rnd ⌊x.hi⌋ lo
  ⟨r.1, r.2⟩

/-- `llvm_dl_modulus()`, llvm_helpers_dl.cpp:258-281. -/
def dlMod (x y : DF) : DF := sub rnd x (dlMul rnd y (dlFloor rnd (dlDiv rnd x y)))

end ops

variable {φ : Fmt} {rnd : ℚ → ℚ} (N : Nearest φ rnd)

theorem rep_floor (hp : 1 ≤ φ.p) (he : φ.emin ≤ 0) {x : ℚ} (hx : φ.Rep x) : φ.Rep (⌊x⌋ : ℚ) := by
  obtain ⟨m, e, hm, hee, hxe⟩ := id hx
  rcases le_or_gt 0 e with h | h
  · obtain ⟨n, rfl⟩ := Int.eq_ofNat_of_zero_le h
    have : x = ((m * 2 ^ n : ℤ) : ℚ) := by rw [hxe]; push_cast; simp
    rw [this, Int.floor_intCast, ← this]
    exact hx
  · refine rep_of_mul2 hp he ⟨⌊x⌋, by simp⟩ ?_
    have hb : |x| ≤ (2 : ℚ) ^ ((φ.p : ℤ) + -1) := by
      rw [hxe, abs_mul, abs_of_pos (two_zpow_pos e)]
      have h1 : |(m : ℚ)| ≤ 2 ^ (φ.p : ℤ) := by
        rw [zpow_natCast, ← Int.cast_abs]; exact_mod_cast hm.le
      calc _ ≤ (2 : ℚ) ^ (φ.p : ℤ) * 2 ^ e := mul_le_mul_of_nonneg_right h1 (two_zpow_pos e).le
        _ = 2 ^ ((φ.p : ℤ) + e) := (two_zpow_add _ _).symm
        _ ≤ _ := two_zpow_le (by omega)
    have h2 : (2 : ℚ) ^ ((φ.p : ℤ) + 0) = 2 * 2 ^ ((φ.p : ℤ) + -1) := by
      rw [← two_zpow_succ]; congr 1; ring
    have h3 : (1 : ℚ) ≤ 2 ^ ((φ.p : ℤ) + -1) := by
      have := two_zpow_le (a := 0) (b := (φ.p : ℤ) + -1) (by omega)
      simpa using this
    have h4 := Int.floor_le x
    have h5 := Int.lt_floor_add_one x
    rw [h2]
    rw [abs_le] at hb ⊢
    constructor <;> linarith [hb.1, hb.2]

include N

/-- The error of a product is a number of the format. -/
theorem Nearest.eft_rep (hp : 1 ≤ φ.p) {a b : ℚ} (ha : φ.Rep a) (hb : φ.Rep b) (h : Mul2 φ.emin (a * b)) :
    φ.Rep (a * b - rnd (a * b)) := by
  obtain ⟨m, e, hm, -, hae⟩ := id ha
  obtain ⟨n, f, hn, -, hbf⟩ := id hb
  have hprod : a * b = ((m * n : ℤ) : ℚ) * 2 ^ (e + f) := by
    rw [hae, hbf, two_zpow_add]; push_cast; ring
  have habs : |a * b| ≤ (2 : ℚ) ^ ((φ.p : ℤ) + (φ.p + (e + f))) := by
    rw [hprod, abs_mul, abs_of_pos (two_zpow_pos _), two_zpow_add (φ.p : ℤ) (φ.p + (e + f)),
      two_zpow_add (φ.p : ℤ) (e + f), ← mul_assoc]
    refine mul_le_mul_of_nonneg_right ?_ (two_zpow_pos _).le
    push_cast
    rw [abs_mul]
    have h1 : |(m : ℚ)| ≤ 2 ^ (φ.p : ℤ) := by
      rw [zpow_natCast, ← Int.cast_abs]; exact_mod_cast hm.le
    have h2 : |(n : ℚ)| ≤ 2 ^ (φ.p : ℤ) := by
      rw [zpow_natCast, ← Int.cast_abs]; exact_mod_cast hn.le
    exact mul_le_mul h1 h2 (abs_nonneg _) (two_zpow_pos _).le
  obtain ⟨g, hg, hg2, hgl⟩ : ∃ g, φ.emin ≤ g ∧ Mul2 g (a * b) ∧ e + f ≤ g := by
    rcases le_total φ.emin (e + f) with h' | h'
    · exact ⟨e + f, h', ⟨m * n, hprod⟩, le_rfl⟩
    · exact ⟨φ.emin, le_rfl, h, h'⟩
  refine rep_of_mul2 hp hg (hg2.sub (N.mul2 hp hg hg2)) ?_
  have := N.half_ulp (x := a * b) (e := φ.p + g) hp (by omega) (habs.trans (two_zpow_le (by omega)))
  rw [abs_sub_comm]
  have h2 := two_zpow_pos ((φ.p : ℤ) + g)
  linarith

theorem Nearest.eft_eq (hp : 1 ≤ φ.p) {a b : ℚ} (ha : φ.Rep a) (hb : φ.Rep b) (h : Mul2 φ.emin (a * b)) :
    eftProduct rnd a b = (rnd (a * b), a * b - rnd (a * b)) := by
  unfold eftProduct
  simp only [← sub_eq_add_neg, N.exact (N.eft_rep hp ha hb h)]

/-- The error of an elementary operation whose exact result is arbitrary. -/
theorem Nearest.rel_abs (hp : 1 ≤ φ.p) (x : ℚ) :
    |rnd x - x| ≤ (2 : ℚ) ^ (-(φ.p : ℤ)) * |x| + 2 ^ φ.emin / 2 := by
  have hpos := two_zpow_pos φ.emin
  by_cases h0 : x = 0
  · rw [h0, N.zero, sub_self, abs_zero, mul_zero, zero_add]; linarith
  set e : ℤ := Int.log 2 |x| - φ.p + 1 with he
  have h1 : (2 : ℚ) ^ (φ.p - 1 + e) ≤ |x| := by
    have := Int.zpow_log_le_self (b := 2) (by norm_num) (abs_pos.mpr h0)
    rw [show (φ.p : ℤ) - 1 + e = Int.log 2 |x| by omega]; exact_mod_cast this
  have h2 : |x| < (2 : ℚ) ^ (φ.p + e) := by
    have := Int.lt_zpow_succ_log_self (b := 2) (by norm_num) |x|
    rw [show (φ.p : ℤ) + e = Int.log 2 |x| + 1 by omega]; exact_mod_cast this
  have hu := two_zpow_pos (-(φ.p : ℤ))
  rcases le_total φ.emin e with h3 | h3
  · refine (N.half_ulp hp h3 h2.le).trans ?_
    rw [show (φ.p : ℤ) - 1 + e = (φ.p : ℤ) + (e - 1) by ring, two_zpow_add, zpow_sub_one₀ (by norm_num)]
      at h1
    have : (2 : ℚ) ^ e / 2 ≤ 2 ^ (-(φ.p : ℤ)) * |x| := by
      rw [zpow_neg, inv_mul_eq_div, le_div_iff₀ (two_zpow_pos _)]
      linarith
    linarith
  · have := N.half_ulp hp le_rfl (h2.le.trans (two_zpow_le (b := φ.p + φ.emin) (by omega)))
    have h4 : 0 ≤ (2 : ℚ) ^ (-(φ.p : ℤ)) * |x| := mul_nonneg hu.le (abs_nonneg _)
    linarith

/-- The relative error for results in the normal range. -/
theorem Nearest.rel_normal (hp : 1 ≤ φ.p) {x : ℚ} (hx : (2 : ℚ) ^ (φ.p - 1 + φ.emin) ≤ |x|) :
    |rnd x - x| ≤ (2 : ℚ) ^ (-(φ.p : ℤ)) * |x| := by
  have h0 : x ≠ 0 := by
    rintro rfl
    rw [abs_zero] at hx
    exact absurd (two_zpow_pos _) (not_lt.2 hx)
  set e : ℤ := Int.log 2 |x| - φ.p + 1 with he
  have h1 : (2 : ℚ) ^ (φ.p - 1 + e) ≤ |x| := by
    have := Int.zpow_log_le_self (b := 2) (by norm_num) (abs_pos.mpr h0)
    rw [show (φ.p : ℤ) - 1 + e = Int.log 2 |x| by omega]; exact_mod_cast this
  have h2 : |x| < (2 : ℚ) ^ (φ.p + e) := by
    have := Int.lt_zpow_succ_log_self (b := 2) (by norm_num) |x|
    rw [show (φ.p : ℤ) + e = Int.log 2 |x| + 1 by omega]; exact_mod_cast this
  have h3 : φ.emin ≤ e := by
    have := lt_of_le_of_lt hx h2
    rw [two_zpow_lt_iff] at this
    omega
  refine (N.half_ulp hp h3 h2.le).trans ?_
  rw [show (φ.p : ℤ) - 1 + e = (φ.p : ℤ) + (e - 1) by ring, two_zpow_add, zpow_sub_one₀ (by norm_num)] at h1
  rw [zpow_neg, inv_mul_eq_div, le_div_iff₀ (two_zpow_pos _)]
  linarith

end Heyoka.DFloat
