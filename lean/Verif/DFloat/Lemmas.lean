import Verif.DFloat.Model
import Mathlib.Tactic.Linarith
import Mathlib.Tactic.Ring
import Mathlib.Tactic.Positivity
import Mathlib.Algebra.Order.Field.Basic
import Mathlib.Algebra.Order.Field.Power
import Mathlib.Tactic.FieldSimp

/-!
# Rounding to nearest and error-free transformations
-/

namespace Heyoka.DFloat

open Fmt

/-- Multiples of a power of two. -/
def Mul2 (e : ℤ) (x : ℚ) : Prop := ∃ k : ℤ, x = k * (2 : ℚ) ^ e

theorem two_zpow_pos (e : ℤ) : (0 : ℚ) < (2 : ℚ) ^ e := by positivity

theorem two_zpow_le {a b : ℤ} (h : a ≤ b) : (2 : ℚ) ^ a ≤ (2 : ℚ) ^ b :=
  zpow_le_zpow_right₀ (by norm_num) h

theorem two_zpow_lt {a b : ℤ} (h : a < b) : (2 : ℚ) ^ a < (2 : ℚ) ^ b :=
  zpow_lt_zpow_right₀ (by norm_num) h

theorem two_zpow_lt_iff {a b : ℤ} : (2 : ℚ) ^ a < (2 : ℚ) ^ b ↔ a < b :=
  zpow_lt_zpow_iff_right₀ (by norm_num)

theorem two_zpow_add (a b : ℤ) : (2 : ℚ) ^ (a + b) = 2 ^ a * 2 ^ b :=
  zpow_add₀ (by norm_num) a b

theorem two_zpow_succ (a : ℤ) : (2 : ℚ) ^ (a + 1) = 2 * 2 ^ a := by
  rw [two_zpow_add]; ring

theorem Mul2.mono {e e' : ℤ} {x : ℚ} (h : Mul2 e x) (he : e' ≤ e) : Mul2 e' x := by
  obtain ⟨k, rfl⟩ := h
  obtain ⟨n, rfl⟩ := Int.le.dest he
  exact ⟨k * 2 ^ n, by rw [two_zpow_add]; push_cast; rw [zpow_natCast]; ring⟩

theorem Mul2.add {e : ℤ} {x y : ℚ} (hx : Mul2 e x) (hy : Mul2 e y) : Mul2 e (x + y) := by
  obtain ⟨k, rfl⟩ := hx
  obtain ⟨l, rfl⟩ := hy
  exact ⟨k + l, by push_cast; ring⟩

theorem Mul2.neg {e : ℤ} {x : ℚ} (hx : Mul2 e x) : Mul2 e (-x) := by
  obtain ⟨k, rfl⟩ := hx
  exact ⟨-k, by push_cast; ring⟩

theorem Mul2.sub {e : ℤ} {x y : ℚ} (hx : Mul2 e x) (hy : Mul2 e y) : Mul2 e (x - y) := by
  rw [sub_eq_add_neg]; exact hx.add hy.neg

theorem Mul2.zero (e : ℤ) : Mul2 e 0 := ⟨0, by simp⟩

/-- A non-zero multiple of a power of two is at least that large. -/
theorem Mul2.le_abs {e : ℤ} {x : ℚ} (hx : Mul2 e x) (h0 : x ≠ 0) : (2 : ℚ) ^ e ≤ |x| := by
  obtain ⟨k, rfl⟩ := hx
  have hk : k ≠ 0 := by rintro rfl; simp at h0
  rw [abs_mul, abs_of_pos (two_zpow_pos e)]
  have : (1 : ℚ) ≤ |(k : ℚ)| := by
    rw [← Int.cast_abs]; exact_mod_cast Int.one_le_abs hk
  nlinarith [two_zpow_pos e]

variable {φ : Fmt}

theorem Fmt.Rep.mul2 {x : ℚ} (h : φ.Rep x) : Mul2 φ.emin x := by
  obtain ⟨m, e, _, he, rfl⟩ := h
  exact Mul2.mono ⟨m, rfl⟩ he

theorem Fmt.Rep.neg {x : ℚ} (h : φ.Rep x) : φ.Rep (-x) := by
  obtain ⟨m, e, hm, he, rfl⟩ := h
  exact ⟨-m, e, by rwa [abs_neg], he, by push_cast; ring⟩

theorem Fmt.Rep.zero : φ.Rep 0 := ⟨0, φ.emin, by simp, le_rfl, by simp⟩

theorem rep_pow (hp : 1 ≤ φ.p) {e : ℤ} (he : φ.emin ≤ e) : φ.Rep ((2 : ℚ) ^ e) :=
  ⟨1, e, by
    rw [abs_one]; exact one_lt_pow₀ (by norm_num) (by omega), he, by simp⟩

/-- Multiples of a power of two which are not too large are numbers of the format. -/
theorem rep_of_mul2 (hp : 1 ≤ φ.p) {e : ℤ} {x : ℚ} (he : φ.emin ≤ e) (hx : Mul2 e x)
    (hb : |x| ≤ (2 : ℚ) ^ (φ.p + e)) : φ.Rep x := by
  obtain ⟨k, rfl⟩ := hx
  rw [abs_mul, abs_of_pos (two_zpow_pos e), two_zpow_add] at hb
  have hk : |(k : ℚ)| ≤ 2 ^ (φ.p : ℤ) := le_of_mul_le_mul_right hb (two_zpow_pos e)
  rw [zpow_natCast, ← Int.cast_abs] at hk
  have hk' : |k| ≤ 2 ^ φ.p := by exact_mod_cast hk
  rcases lt_or_eq_of_le hk' with h | h
  · exact ⟨k, e, h, he, rfl⟩
  · have h2 : φ.emin ≤ φ.p + e := by omega
    rcases (abs_eq (by positivity)).mp h with h | h
    · have := rep_pow hp h2
      rwa [two_zpow_add, zpow_natCast, show ((2 : ℚ) ^ φ.p) = ((k : ℤ) : ℚ) by rw [h]; simp] at this
    · have := (rep_pow hp h2).neg
      rwa [two_zpow_add, zpow_natCast, ← neg_mul,
        show (-(2 : ℚ) ^ φ.p) = ((k : ℤ) : ℚ) by rw [h]; simp] at this

/-- Large numbers of the format are multiples of a large power of two. -/
theorem Fmt.Rep.big {x : ℚ} (h : φ.Rep x) {e : ℤ} (hb : (2 : ℚ) ^ (φ.p + e) ≤ |x|) :
    Mul2 (e + 1) x := by
  obtain ⟨m, k, hm, _, rfl⟩ := h
  rw [abs_mul, abs_of_pos (two_zpow_pos k)] at hb
  have hm' : |(m : ℚ)| < 2 ^ (φ.p : ℤ) := by
    rw [zpow_natCast, ← Int.cast_abs]; exact_mod_cast hm
  have h2 : (2 : ℚ) ^ (φ.p + e) < 2 ^ (φ.p + k) := by
    rw [two_zpow_add _ k]
    exact lt_of_le_of_lt hb (mul_lt_mul_of_pos_right hm' (two_zpow_pos k))
  rw [two_zpow_lt_iff] at h2
  exact Mul2.mono ⟨m, rfl⟩ (by omega)

/-- What is used about the rounding function. -/
structure Nearest (φ : Fmt) (rnd : ℚ → ℚ) : Prop where
  rep : ∀ x, φ.Rep (rnd x)
  near : ∀ x f, φ.Rep f → |rnd x - x| ≤ |f - x|
  neg : ∀ x, rnd (-x) = -rnd x

section nearest

variable {rnd : ℚ → ℚ} (N : Nearest φ rnd)
include N

theorem Nearest.exact {x : ℚ} (h : φ.Rep x) : rnd x = x := by
  have := N.near x x h
  rw [sub_self, abs_zero] at this
  have := abs_nonpos_iff.mp this
  linarith

theorem Nearest.zero : rnd 0 = 0 := N.exact Rep.zero

theorem Nearest.le {x f : ℚ} (hf : φ.Rep f) (h : x ≤ f) : rnd x ≤ f := by
  by_contra hc
  push Not at hc
  have := N.near x f hf
  rw [abs_of_pos (by linarith), abs_of_nonneg (by linarith)] at this
  linarith

theorem Nearest.ge {x f : ℚ} (hf : φ.Rep f) (h : f ≤ x) : f ≤ rnd x := by
  by_contra hc
  push Not at hc
  have := N.near x f hf
  rw [abs_of_neg (by linarith), abs_of_nonpos (by linarith)] at this
  linarith

theorem Nearest.mono {x y : ℚ} (h : x ≤ y) : rnd x ≤ rnd y := by
  rcases eq_or_lt_of_le h with rfl | h
  · exact le_rfl
  by_contra hc
  push Not at hc
  have h1 := N.near x _ (N.rep y)
  have h2 := N.near y _ (N.rep x)
  rcases le_total (rnd y) x with h3 | h3
  · have : rnd x ≤ y := by
      by_contra h4
      push Not at h4
      rw [abs_of_neg (by linarith : rnd y - y < 0), abs_of_pos (by linarith : 0 < rnd x - y)] at h2
      rw [abs_of_pos (by linarith : 0 < rnd x - x), abs_of_nonpos (by linarith : rnd y - x ≤ 0)] at h1
      linarith
    rw [abs_of_neg (by linarith : rnd y - y < 0), abs_of_nonpos (by linarith : rnd x - y ≤ 0)] at h2
    linarith
  · have := N.le (N.rep y) h3
    linarith

theorem Nearest.abs_le {x f : ℚ} (hf : φ.Rep f) (h : |x| ≤ f) : |rnd x| ≤ f := by
  rw [_root_.abs_le] at h ⊢
  exact ⟨N.ge hf.neg h.1, N.le hf h.2⟩

theorem Nearest.le_abs {x f : ℚ} (hf : φ.Rep f) (h : f ≤ |x|) : f ≤ |rnd x| := by
  rcases le_total 0 x with h0 | h0
  · rw [abs_of_nonneg h0] at h
    exact (N.ge hf h).trans (le_abs_self _)
  · rw [abs_of_nonpos h0] at h
    have := N.le hf.neg (by linarith : x ≤ -f)
    exact (by linarith : f ≤ -rnd x).trans (neg_le_abs _)

/-- Rounding an inexact multiple of a power of two yields a multiple of twice that power. -/
theorem Nearest.mul2_succ (hp : 1 ≤ φ.p) {e : ℤ} {x : ℚ} (he : φ.emin ≤ e) (hx : Mul2 e x)
    (hr : ¬ φ.Rep x) : Mul2 (e + 1) (rnd x) := by
  have h1 : (2 : ℚ) ^ (φ.p + e) ≤ |x| := by
    by_contra hc
    push Not at hc
    exact hr (rep_of_mul2 hp he hx hc.le)
  exact (N.rep x).big (N.le_abs (rep_pow hp (by omega)) h1)

theorem Nearest.mul2 (hp : 1 ≤ φ.p) {e : ℤ} {x : ℚ} (he : φ.emin ≤ e) (hx : Mul2 e x) :
    Mul2 e (rnd x) := by
  by_cases hr : φ.Rep x
  · rwa [N.exact hr]
  · exact (N.mul2_succ hp he hx hr).mono (by omega)

/-- Half a unit in the last place. -/
theorem Nearest.half_ulp (hp : 1 ≤ φ.p) {e : ℤ} {x : ℚ} (he : φ.emin ≤ e)
    (hx : |x| ≤ (2 : ℚ) ^ (φ.p + e)) : |rnd x - x| ≤ (2 : ℚ) ^ e / 2 := by
  have hpos := two_zpow_pos e
  have hr : φ.Rep ((round (x / 2 ^ e) : ℤ) * (2 : ℚ) ^ e) := by
    refine rep_of_mul2 hp he ⟨_, rfl⟩ ?_
    rw [abs_mul, abs_of_pos hpos, two_zpow_add]
    refine mul_le_mul_of_nonneg_right ?_ hpos.le
    rw [two_zpow_add] at hx
    have h1 : |x / 2 ^ e| ≤ 2 ^ (φ.p : ℤ) := by
      rw [abs_div, abs_of_pos hpos, div_le_iff₀ hpos]; exact hx
    rw [zpow_natCast] at h1 ⊢
    rw [_root_.abs_le] at h1 ⊢
    have h6 := _root_.abs_le.mp (abs_sub_round (x / (2 : ℚ) ^ e))
    set k : ℤ := round (x / (2 : ℚ) ^ e) with hk
    constructor
    · have h7 : ((-2 ^ φ.p - 1 : ℤ) : ℚ) < (k : ℚ) := by push_cast; linarith [h1.1, h6.2]
      have h8 : -2 ^ φ.p - 1 < k := by exact_mod_cast h7
      have h9 : -2 ^ φ.p ≤ k := by omega
      exact_mod_cast h9
    · have h7 : (k : ℚ) < ((2 ^ φ.p + 1 : ℤ) : ℚ) := by push_cast; linarith [h1.2, h6.1]
      have h8 : k < 2 ^ φ.p + 1 := by exact_mod_cast h7
      have h9 : k ≤ 2 ^ φ.p := by omega
      exact_mod_cast h9
  refine (N.near x _ hr).trans ?_
  have h2 := abs_sub_round (x / 2 ^ e)
  have h3 : (round (x / 2 ^ e) : ℤ) * (2 : ℚ) ^ e - x = -((x / 2 ^ e - round (x / 2 ^ e)) * 2 ^ e) := by
    field_simp; ring
  rw [h3, abs_neg, abs_mul, abs_of_pos hpos]
  nlinarith

/-- Relative error of an elementary operation whose exact result is a multiple of the smallest
number of the format, e.g. a sum of two numbers of the format. -/
theorem Nearest.rel (hp : 1 ≤ φ.p) {x : ℚ} (hx : Mul2 φ.emin x) :
    |rnd x - x| ≤ (2 : ℚ) ^ (-(φ.p : ℤ)) * |x| := by
  by_cases hr : φ.Rep x
  · rw [N.exact hr, sub_self, abs_zero]; positivity
  have h0 : 0 < |x| := abs_pos.mpr (by rintro rfl; exact hr Rep.zero)
  set e : ℤ := Int.log 2 |x| - φ.p + 1 with he
  have h1 : (2 : ℚ) ^ (φ.p - 1 + e) ≤ |x| := by
    have := Int.zpow_log_le_self (b := 2) (by norm_num) h0
    rw [show (φ.p : ℤ) - 1 + e = Int.log 2 |x| by omega]; exact_mod_cast this
  have h2 : |x| < (2 : ℚ) ^ (φ.p + e) := by
    have := Int.lt_zpow_succ_log_self (b := 2) (by norm_num) |x|
    rw [show (φ.p : ℤ) + e = Int.log 2 |x| + 1 by omega]; exact_mod_cast this
  have h3 : φ.emin ≤ e := by
    by_contra hc
    push Not at hc
    exact hr (rep_of_mul2 hp le_rfl hx (h2.le.trans (two_zpow_le (by omega))))
  refine (N.half_ulp hp h3 h2.le).trans ?_
  rw [show (φ.p : ℤ) - 1 + e = (φ.p : ℤ) + (e - 1) by ring, two_zpow_add, zpow_sub_one₀ (by norm_num)]
    at h1
  rw [zpow_neg, inv_mul_eq_div, le_div_iff₀ (two_zpow_pos _)]
  linarith

/-- **Dekker's transformation is exact** if the first operand is a multiple of a power of two
with respect to which the second one is not too large. -/
theorem Nearest.dekker_lattice (hp : 1 ≤ φ.p) {a b : ℚ} (ha : φ.Rep a) (hb : φ.Rep b)
    {e : ℤ} (he : φ.emin ≤ e) (hae : Mul2 e a) (hbe : |b| < (2 : ℚ) ^ (φ.p + e)) :
    φ.Rep (rnd (a + b) - a) ∧ φ.Rep (a + b - rnd (a + b)) := by
  -- A common exponent.
  obtain ⟨e, he, hae, hb2, hbe⟩ : ∃ e, φ.emin ≤ e ∧ Mul2 e a ∧ Mul2 e b ∧ |b| < (2 : ℚ) ^ (φ.p + e) := by
    obtain ⟨m, k, hm, hk, hbk⟩ := id hb
    rcases le_total e k with h | h
    · exact ⟨e, he, hae, Mul2.mono ⟨m, hbk⟩ h, hbe⟩
    · refine ⟨k, hk, hae.mono h, ⟨m, hbk⟩, ?_⟩
      rw [hbk, abs_mul, abs_of_pos (two_zpow_pos k), two_zpow_add, zpow_natCast, ← Int.cast_abs]
      refine mul_lt_mul_of_pos_right ?_ (two_zpow_pos k)
      exact_mod_cast hm
  have hs := hae.add hb2
  have herr : |a + b - rnd (a + b)| ≤ |b| := by
    have := N.near (a + b) a ha
    rw [abs_sub_comm, show a - (a + b) = -b by ring, abs_neg] at this
    exact this
  have h2 : φ.Rep (a + b - rnd (a + b)) :=
    rep_of_mul2 hp he (hs.sub (N.mul2 hp he hs)) (herr.trans hbe.le)
  refine ⟨?_, h2⟩
  by_cases hr : φ.Rep (a + b)
  · rw [N.exact hr, add_sub_cancel_left]; exact hb
  have hx1 := N.mul2_succ hp he hs hr
  have hd : rnd (a + b) - a = b - (a + b - rnd (a + b)) := by ring
  by_cases ha1 : Mul2 (e + 1) a
  · refine rep_of_mul2 hp (by omega) (hx1.sub ha1) ?_
    rw [hd, ← add_assoc, two_zpow_succ]
    refine (abs_sub _ _).trans ?_
    linarith
  · have ha2 : |a| < (2 : ℚ) ^ (φ.p + e) := by
      by_contra hc
      push Not at hc
      exact ha1 (ha.big hc)
    have h3 : |a + b| ≤ (2 : ℚ) ^ (φ.p + (e + 1)) := by
      rw [← add_assoc, two_zpow_succ]
      exact (abs_add_le _ _).trans (by linarith)
    have h4 := N.half_ulp hp (by omega) h3
    rw [two_zpow_succ, mul_div_cancel_left₀ _ (by norm_num : (2 : ℚ) ≠ 0)] at h4
    refine rep_of_mul2 hp he ((N.mul2 hp he hs).sub hae) ?_
    obtain ⟨k, hk⟩ := hb2
    have hk1 : |(k : ℚ)| + 1 ≤ 2 ^ (φ.p : ℤ) := by
      rw [hk, abs_mul, abs_of_pos (two_zpow_pos e), two_zpow_add] at hbe
      have := lt_of_mul_lt_mul_right hbe (two_zpow_pos e).le
      rw [zpow_natCast, ← Int.cast_abs] at this ⊢
      have : |k| < 2 ^ φ.p := by exact_mod_cast this
      exact_mod_cast Int.add_one_le_iff.mpr this
    rw [hd]
    refine (abs_sub _ _).trans ?_
    rw [hk, abs_mul, abs_of_pos (two_zpow_pos e), two_zpow_add, ← hk]
    rw [abs_sub_comm] at h4
    nlinarith [two_zpow_pos e]

/-- The result of Dekker's transformation when it is exact. -/
theorem Nearest.dekker_of (a b : ℚ)
    (h : φ.Rep (rnd (a + b) - a) ∧ φ.Rep (a + b - rnd (a + b))) :
    dekker rnd a b = (rnd (a + b), a + b - rnd (a + b)) := by
  have h1 : φ.Rep (a - rnd (a + b)) := by
    have := h.1.neg
    rwa [neg_sub] at this
  unfold dekker
  simp only [N.exact h1]
  rw [show a - rnd (a + b) + b = a + b - rnd (a + b) by ring, N.exact h.2]

/-- The usual condition on the magnitudes is sufficient. -/
theorem Nearest.dekker_abs (hp : 1 ≤ φ.p) {a b : ℚ} (ha : φ.Rep a) (hb : φ.Rep b)
    (h : |b| ≤ |a|) : φ.Rep (rnd (a + b) - a) ∧ φ.Rep (a + b - rnd (a + b)) := by
  obtain ⟨m, e, hm, he, hae⟩ := id ha
  refine N.dekker_lattice hp ha hb he ⟨m, hae⟩ (lt_of_le_of_lt h ?_)
  rw [hae, abs_mul, abs_of_pos (two_zpow_pos e), two_zpow_add, zpow_natCast, ← Int.cast_abs]
  refine mul_lt_mul_of_pos_right ?_ (two_zpow_pos e)
  exact_mod_cast hm

/-- **Knuth's transformation is exact** for all operands. -/
theorem Nearest.knuth_eq (hp : 1 ≤ φ.p) {a b : ℚ} (ha : φ.Rep a) (hb : φ.Rep b) :
    knuth rnd a b = (rnd (a + b), a + b - rnd (a + b)) := by
  rcases le_total |b| |a| with hab | hab
  · have h := N.dekker_abs hp ha hb hab
    unfold knuth
    simp only [N.exact h.1]
    rw [show rnd (a + b) - (rnd (a + b) - a) = a by ring, N.exact ha, sub_self, N.zero,
      show b - (rnd (a + b) - a) = a + b - rnd (a + b) by ring, N.exact h.2, zero_add, N.exact h.2]
  -- The second operand is the larger one.
  have hdk := N.dekker_abs hp hb ha hab
  rw [add_comm b a] at hdk
  set x := rnd (a + b) with hx
  set z := rnd (x - a) with hz
  set d1 := x - (a + b) with hd1
  set d2 := z - (x - a) with hd2
  have key : φ.Rep (x - z) ∧ φ.Rep (a - (x - z)) ∧ φ.Rep (b - z) := by
    by_cases hr1 : φ.Rep (x - a)
    · have : z = x - a := N.exact hr1
      rw [this, show x - (x - a) = a by ring, sub_self, show b - (x - a) = a + b - x by ring]
      exact ⟨ha, Rep.zero, hdk.2⟩
    have hrs : ¬ φ.Rep (a + b) := by
      intro hc
      apply hr1
      rw [hx, N.exact hc, add_sub_cancel_left]; exact hb
    obtain ⟨m, k, hm, hk, hak⟩ := id ha
    have hma : |a| < (2 : ℚ) ^ (φ.p + k) := by
      rw [hak, abs_mul, abs_of_pos (two_zpow_pos k), two_zpow_add, zpow_natCast, ← Int.cast_abs]
      refine mul_lt_mul_of_pos_right ?_ (two_zpow_pos k)
      exact_mod_cast hm
    obtain ⟨e, he, hae, hbe, habs⟩ :
        ∃ e, φ.emin ≤ e ∧ Mul2 e a ∧ Mul2 e b ∧ |a| < (2 : ℚ) ^ (φ.p + e) := by
      obtain ⟨m', k', hm', hk', hbk⟩ := id hb
      have hmb : |b| < (2 : ℚ) ^ (φ.p + k') := by
        rw [hbk, abs_mul, abs_of_pos (two_zpow_pos k'), two_zpow_add, zpow_natCast, ← Int.cast_abs]
        refine mul_lt_mul_of_pos_right ?_ (two_zpow_pos k')
        exact_mod_cast hm'
      rcases le_total k k' with h | h
      · exact ⟨k, hk, ⟨m, hak⟩, Mul2.mono ⟨m', hbk⟩ h, hma⟩
      · exact ⟨k', hk', Mul2.mono ⟨m, hak⟩ h, ⟨m', hbk⟩, lt_of_le_of_lt hab hmb⟩
    have hx1 : Mul2 (e + 1) x := N.mul2_succ hp he (hae.add hbe) hrs
    have hxa : Mul2 e (x - a) := (hx1.mono (by omega)).sub hae
    have hz1 : Mul2 (e + 1) z := N.mul2_succ hp he hxa hr1
    have h1a : |d1| ≤ |a| := by
      have := N.near (a + b) b hb
      rwa [show b - (a + b) = -a by ring, abs_neg] at this
    have h2a : |d2| ≤ |a| := by
      have := N.near (x - a) x (N.rep _)
      rwa [show x - (x - a) = a by ring] at this
    have h21 : |d2| ≤ |d1| := by
      have := N.near (x - a) b hb
      rwa [show b - (x - a) = -d1 by rw [hd1]; ring, abs_neg] at this
    refine ⟨?_, ?_, ?_⟩
    · refine rep_of_mul2 hp (by omega) (hx1.sub hz1) ?_
      rw [show x - z = a - d2 by rw [hd2]; ring, ← add_assoc, two_zpow_succ]
      exact (abs_sub _ _).trans (by linarith)
    · rw [show a - (x - z) = d2 by rw [hd2]; ring]
      refine rep_of_mul2 hp he ?_ (h2a.trans habs.le)
      exact (hz1.mono (by omega)).sub hxa
    · have hbz : b - z = -(d1 + d2) := by rw [hd1, hd2]; ring
      by_cases hb1 : Mul2 (e + 1) b
      · refine rep_of_mul2 hp (by omega) (hb1.sub hz1) ?_
        rw [hbz, abs_neg, ← add_assoc, two_zpow_succ]
        exact (abs_add_le _ _).trans (by linarith)
      · have hb2 : |b| < (2 : ℚ) ^ (φ.p + e) := by
          by_contra hc
          push Not at hc
          exact hb1 (hb.big hc)
        have h3 : |a + b| ≤ (2 : ℚ) ^ (φ.p + (e + 1)) := by
          rw [← add_assoc, two_zpow_succ]
          exact (abs_add_le _ _).trans (by linarith)
        have h4 := N.half_ulp hp (by omega) h3
        rw [two_zpow_succ, mul_div_cancel_left₀ _ (by norm_num : (2 : ℚ) ≠ 0)] at h4
        refine rep_of_mul2 hp he (hbe.sub (hz1.mono (by omega))) ?_
        rw [hbz, abs_neg]
        refine (abs_add_le _ _).trans ?_
        have h5 : |d1| ≤ 2 ^ e := h4
        calc |d1| + |d2| ≤ 2 ^ (e + 1) := by rw [two_zpow_succ]; linarith
          _ ≤ _ := two_zpow_le (by omega)
  obtain ⟨k1, k2, k3⟩ := key
  have : knuth rnd a b = (x, rnd (rnd (a - rnd (x - z)) + rnd (b - z))) := rfl
  rw [this, N.exact k1, N.exact k2, N.exact k3]
  rw [show a - (x - z) + (b - z) = a + b - x by ring, N.exact hdk.2]

end nearest

end Heyoka.DFloat
