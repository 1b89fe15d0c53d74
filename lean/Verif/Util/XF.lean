import Mathlib.Algebra.Order.Field.Basic
import Mathlib.Algebra.Order.Group.Abs

/-!
# Extended numbers

Floating-point values with exact finite part: finite values are elements of an ordered field `K`
(rounding and overflow are not modelled), and the non-finite values `+inf`, `-inf` and `nan` are
kept, with the IEEE 754 comparison rules (every ordered comparison with `nan` is false, `nan` is not
equal to itself).
-/

namespace Heyoka

/-- A floating-point value with an exact finite part. -/
inductive XF (K : Type*) where
  /-- finite value -/
  | fin (x : K)
  /-- `+inf` -/
  | pinf
  /-- `-inf` -/
  | ninf
  /-- `nan` -/
  | nan
deriving DecidableEq

namespace XF

variable {K : Type*}

/-- `isfinite(x)`. -/
def isFin : XF K → Bool
  | fin _ => true
  | _ => false

/-- `isnan(x)`. -/
def isNan : XF K → Bool
  | nan => true
  | _ => false

section order
variable [LinearOrder K]

/-- `a < b`. -/
def lt : XF K → XF K → Bool
  | fin x, fin y => decide (x < y)
  | fin _, pinf => true
  | ninf, fin _ => true
  | ninf, pinf => true
  | _, _ => false

/-- `a == b`. -/
def feq : XF K → XF K → Bool
  | fin x, fin y => decide (x = y)
  | pinf, pinf => true
  | ninf, ninf => true
  | _, _ => false

/-- `a <= b`. -/
def le (a b : XF K) : Bool := lt a b || feq a b

/-- `std::min(a, b)`, i.e. `(b < a) ? b : a`. -/
def min (a b : XF K) : XF K := if lt b a then b else a

/-- `std::max(a, b)`, i.e. `(a < b) ? b : a`. -/
def max (a b : XF K) : XF K := if lt a b then b else a

end order

section arith
variable [Field K] [LinearOrder K] [IsStrictOrderedRing K]

/-- `a + b`. -/
def add : XF K → XF K → XF K
  | fin x, fin y => fin (x + y)
  | nan, _ => nan
  | _, nan => nan
  | pinf, ninf => nan
  | ninf, pinf => nan
  | pinf, _ => pinf
  | _, pinf => pinf
  | ninf, _ => ninf
  | _, ninf => ninf

/-- `-a`. -/
def neg : XF K → XF K
  | fin x => fin (-x)
  | pinf => ninf
  | ninf => pinf
  | nan => nan

/-- `a - b`. -/
def sub (a b : XF K) : XF K := add a (neg b)

/-- `abs(a)`. -/
def abs : XF K → XF K
  | fin x => fin |x|
  | pinf => pinf
  | ninf => pinf
  | nan => nan

@[simp] theorem add_fin (x y : K) : add (fin x) (fin y) = fin (x + y) := rfl
@[simp] theorem sub_fin (x y : K) : sub (fin x) (fin y) = fin (x - y) := by
  simp [sub, neg, sub_eq_add_neg]
@[simp] theorem neg_fin (x : K) : neg (fin x) = fin (-x) := rfl
@[simp] theorem abs_fin (x : K) : abs (fin x) = fin |x| := rfl

end arith

section order
variable [LinearOrder K]

@[simp] theorem lt_fin (x y : K) : lt (fin x) (fin y) = decide (x < y) := rfl
@[simp] theorem feq_fin (x y : K) : feq (fin x) (fin y) = decide (x = y) := rfl
@[simp] theorem le_fin (x y : K) : le (fin x) (fin y) = decide (x ≤ y) := by
  simp [le, lt, feq, le_iff_lt_or_eq]
@[simp] theorem isFin_fin (x : K) : isFin (fin x) = true := rfl

theorem isFin_iff (a : XF K) : a.isFin = true ↔ ∃ x, a = fin x := by
  cases a <;> simp [isFin]

theorem feq_iff {a b : XF K} : feq a b = true ↔ a = b ∧ a ≠ nan := by
  cases a <;> cases b <;> simp [feq]

@[simp] theorem min_fin (x y : K) : min (fin x) (fin y) = fin (Min.min x y) := by
  simp only [min, lt_fin, decide_eq_true_eq]
  split
  · rename_i h; rw [min_eq_right h.le]
  · rename_i h; rw [min_eq_left (not_lt.mp h)]

@[simp] theorem max_fin (x y : K) : max (fin x) (fin y) = fin (Max.max x y) := by
  simp only [max, lt_fin, decide_eq_true_eq]
  split
  · rename_i h; rw [max_eq_right h.le]
  · rename_i h; rw [max_eq_left (not_lt.mp h)]

end order

end XF

end Heyoka
