import Mathlib.Algebra.Order.Field.Basic
import Mathlib.Tactic.Ring
import Mathlib.Tactic.Linarith

/-!
# Numbers

Model of the class `number` (`/repo/include/heyoka/number.hpp`, `/repo/src/number.cpp`).

A number is a floating-point value tagged with its C++ type. The arithmetic is idealised: finite
values are elements of an ordered field `K` and finite results are exact (no rounding, no overflow
or underflow). NaN, the infinities and the negative zero are kept as separate values because the
comparison, the hashing and the constant folding react to them. NaN payloads and the precision of
`mppp::real` are not modelled.
-/

set_option linter.unusedSectionVars false

namespace Heyoka.Sym

/-- The floating-point types a number can hold, in the order of the alternatives of
`number::value_type` (`include/heyoka/number.hpp` 56-80: float, double, long double, real128,
real). -/
inductive NumTy
  | flt | dbl | ldbl | f128 | mp
  deriving DecidableEq, Repr

/-- The index of the alternative in the variant (`n.value().index()`). -/
def NumTy.idx : NumTy → Nat
  | .flt => 0 | .dbl => 1 | .ldbl => 2 | .f128 => 3 | .mp => 4

/-- The type of the result of an arithmetic operation between two floating-point values: the usual
arithmetic conversions, which mp++ extends to `real128` and `real`.
Simplification: combinations that mp++ may not support at compile time (they make heyoka throw,
`src/number.cpp` 307-373) are not distinguished. -/
def NumTy.promote (a b : NumTy) : NumTy := if a.idx ≤ b.idx then b else a

theorem NumTy.idx_inj {a b : NumTy} (h : a.idx = b.idx) : a = b := by
  cases a <;> cases b <;> simp_all [NumTy.idx]

/-- A floating-point value. `nzero` is the negative zero, `fin 0` the positive one. -/
inductive FVal (K : Type) where
  | nan | pinf | ninf | nzero
  | fin (x : K)
  deriving DecidableEq

/-- The class `number` (`include/heyoka/number.hpp` 52-120). -/
structure Num (K : Type) where
  ty : NumTy
  val : FVal K
  deriving DecidableEq

variable {K : Type}

section
variable [Field K] [LinearOrder K]

namespace FVal

/-- The real value represented, if finite. -/
def toK? : FVal K → Option K
  | .nzero => some 0
  | .fin x => some x
  | _ => none

/-- The sign bit of a value (of a NaN: irrelevant). -/
def neg? : FVal K → Bool
  | .ninf => true
  | .nzero => true
  | .fin x => decide (x < 0)
  | _ => false

/-- `arg == 0` (`src/number.cpp` 208-225). -/
def isZero : FVal K → Bool
  | .nzero => true
  | .fin x => decide (x = 0)
  | _ => false

/-- `arg == 1` (`src/number.cpp` 227-244). -/
def isOne : FVal K → Bool
  | .fin x => decide (x = 1)
  | _ => false

/-- `arg == -1` (`src/number.cpp` 246-249). -/
def isNegOne : FVal K → Bool
  | .fin x => decide (x = -1)
  | _ => false

/-- `arg < 0` (`src/number.cpp` 251-254). -/
def isNegative : FVal K → Bool
  | .ninf => true
  | .fin x => decide (x < 0)
  | _ => false

/-- An infinity with the given sign bit. -/
def inf (neg : Bool) : FVal K := if neg then .ninf else .pinf

/-- A finite result with the given sign bit, used when the result is zero. -/
def mk (neg : Bool) (x : K) : FVal K := if x = 0 then (if neg then .nzero else .fin 0) else .fin x

/-- Floating-point negation (exact arithmetic). -/
def neg : FVal K → FVal K
  | .nan => .nan
  | .pinf => .ninf
  | .ninf => .pinf
  | .nzero => .fin 0
  | .fin x => if x = 0 then .nzero else .fin (-x)

/-- Floating-point addition (exact arithmetic). -/
def add : FVal K → FVal K → FVal K
  | .nan, _ => .nan
  | _, .nan => .nan
  | .pinf, .ninf => .nan
  | .ninf, .pinf => .nan
  | .pinf, _ => .pinf
  | _, .pinf => .pinf
  | .ninf, _ => .ninf
  | _, .ninf => .ninf
  | .nzero, y => y
  | .fin x, .nzero => .fin x
  | .fin x, .fin y => .fin (x + y)

/-- Floating-point multiplication (exact arithmetic). -/
def mul (a b : FVal K) : FVal K :=
  let s := xor a.neg? b.neg?
  match a, b with
  | .nan, _ => .nan
  | _, .nan => .nan
  | .pinf, b => if b.isZero then .nan else inf s
  | .ninf, b => if b.isZero then .nan else inf s
  | a, .pinf => if a.isZero then .nan else inf s
  | a, .ninf => if a.isZero then .nan else inf s
  | .nzero, .nzero => mk s 0
  | .nzero, .fin _ => mk s 0
  | .fin _, .nzero => mk s 0
  | .fin x, .fin y => mk s (x * y)

/-- Floating-point division (exact arithmetic). -/
def div (a b : FVal K) : FVal K :=
  let s := xor a.neg? b.neg?
  match a, b with
  | .nan, _ => .nan
  | _, .nan => .nan
  | .pinf, .pinf => .nan
  | .pinf, .ninf => .nan
  | .ninf, .pinf => .nan
  | .ninf, .ninf => .nan
  | .pinf, _ => inf s
  | .ninf, _ => inf s
  | _, .pinf => mk s 0
  | _, .ninf => mk s 0
  | .nzero, b => if b.isZero then .nan else mk s 0
  | .fin x, .nzero => if x = 0 then .nan else inf s
  | .fin x, .fin y => if y = 0 then (if x = 0 then .nan else inf s) else mk s (x / y)

/-- Floating-point `a == b`. -/
def feq : FVal K → FVal K → Bool
  | .pinf, .pinf => true
  | .ninf, .ninf => true
  | .nzero, b => b.isZero
  | .fin x, .nzero => decide (x = 0)
  | .fin x, .fin y => decide (x = y)
  | _, _ => false

/-- Floating-point `a < b`. -/
def flt : FVal K → FVal K → Bool
  | .nan, _ => false
  | _, .nan => false
  | .ninf, .ninf => false
  | .ninf, _ => true
  | _, .ninf => false
  | .pinf, _ => false
  | _, .pinf => true
  | .nzero, .nzero => false
  | .nzero, .fin y => decide (0 < y)
  | .fin x, .nzero => decide (x < 0)
  | .fin x, .fin y => decide (x < y)

/-- `isnan(v)`. -/
def isNan : FVal K → Bool
  | .nan => true
  | _ => false

@[simp] theorem toK?_nan : (nan : FVal K).toK? = none := rfl
@[simp] theorem toK?_pinf : (pinf : FVal K).toK? = none := rfl
@[simp] theorem toK?_ninf : (ninf : FVal K).toK? = none := rfl
@[simp] theorem toK?_nzero : (nzero : FVal K).toK? = some 0 := rfl
@[simp] theorem toK?_fin (x : K) : (fin x).toK? = some x := rfl

theorem toK?_neg {a : FVal K} {x : K} (h : a.toK? = some x) : a.neg.toK? = some (-x) := by
  cases a <;> simp only [toK?_nan, toK?_pinf, toK?_ninf, toK?_nzero, toK?_fin, Option.some.injEq,
    reduceCtorEq] at h
  · subst h; simp [neg]
  · subst h
    simp only [neg]
    split
    · rename_i h; simp [h]
    · simp

theorem toK?_mk (s : Bool) (x : K) : (mk s x).toK? = some x := by
  unfold mk
  split
  · rename_i h
    cases s <;> simp [h]
  · simp

theorem toK?_add {a b : FVal K} {x y : K} (ha : a.toK? = some x) (hb : b.toK? = some y) :
    (a.add b).toK? = some (x + y) := by
  cases a <;> cases b <;> simp only [toK?_nan, toK?_pinf, toK?_ninf, toK?_nzero, toK?_fin,
    Option.some.injEq, reduceCtorEq] at ha hb <;> subst ha <;> subst hb <;> simp [add]

theorem toK?_mul {a b : FVal K} {x y : K} (ha : a.toK? = some x) (hb : b.toK? = some y) :
    (a.mul b).toK? = some (x * y) := by
  cases a <;> cases b <;> simp only [toK?_nan, toK?_pinf, toK?_ninf, toK?_nzero, toK?_fin,
    Option.some.injEq, reduceCtorEq] at ha hb <;> subst ha <;> subst hb <;> simp [mul, toK?_mk]

theorem toK?_div {a b : FVal K} {x y : K} (ha : a.toK? = some x) (hb : b.toK? = some y)
    (hy : y ≠ 0) : (a.div b).toK? = some (x / y) := by
  cases a <;> cases b <;> simp only [toK?_nan, toK?_pinf, toK?_ninf, toK?_nzero, toK?_fin,
    Option.some.injEq, reduceCtorEq] at ha hb <;> subst ha <;> subst hb <;>
    simp_all [div, toK?_mk, isZero]

theorem isZero_iff {a : FVal K} : a.isZero = true ↔ a.toK? = some 0 := by
  cases a <;> simp [isZero, toK?]

theorem isOne_iff {a : FVal K} : a.isOne = true ↔ a.toK? = some 1 := by
  cases a <;> simp [isOne, toK?]

theorem isNegOne_iff {a : FVal K} : a.isNegOne = true ↔ a.toK? = some (-1) := by
  cases a <;> simp [isNegOne, toK?]

theorem isZero_mul {a b : FVal K} (ha : a.toK?.isSome) (hb : b.isZero) : (a.mul b).isZero := by
  obtain ⟨x, hx⟩ := Option.isSome_iff_exists.mp ha
  rw [isZero_iff] at hb ⊢
  simpa using toK?_mul hx hb

end FVal

namespace Num

/-- `is_zero()` (`src/number.cpp` 208-225). -/
def isZero (n : Num K) : Bool := n.val.isZero
/-- `is_one()` (`src/number.cpp` 227-244). -/
def isOne (n : Num K) : Bool := n.val.isOne
/-- `is_negative_one()` (`src/number.cpp` 246-249). -/
def isNegOne (n : Num K) : Bool := n.val.isNegOne
/-- `is_negative()` (`src/number.cpp` 251-254). -/
def isNegative (n : Num K) : Bool := n.val.isNegative

/-- Unary minus (`src/number.cpp` 261-264). -/
def neg (n : Num K) : Num K := ⟨n.ty, n.val.neg⟩
/-- `operator+` (`src/number.cpp` 307-322). -/
def add (a b : Num K) : Num K := ⟨a.ty.promote b.ty, a.val.add b.val⟩
/-- `operator-` (`src/number.cpp` 324-339). -/
def sub (a b : Num K) : Num K := ⟨a.ty.promote b.ty, a.val.add b.val.neg⟩
/-- `operator*` (`src/number.cpp` 341-356). -/
def mul (a b : Num K) : Num K := ⟨a.ty.promote b.ty, a.val.mul b.val⟩
/-- `operator/` (`src/number.cpp` 358-373). -/
def div (a b : Num K) : Num K := ⟨a.ty.promote b.ty, a.val.div b.val⟩

/-- `operator==` (`src/number.cpp` 386-403): same type and equal values, NaN equal to NaN. -/
def beq (a b : Num K) : Bool :=
  if a.ty = b.ty then
    if a.val.isNan && b.val.isNan then true else a.val.feq b.val
  else false

/-- `operator<` (`src/number.cpp` 416-440): NaN is the greatest value of its type; numbers of
different types are ordered by type. -/
def blt (a b : Num K) : Bool :=
  if a.ty = b.ty then
    if a.val.isNan then false
    else if b.val.isNan then true
    else a.val.flt b.val
  else decide (a.ty.idx < b.ty.idx)

/-- `hash(number)` (`src/number.cpp` 154-170): NaNs hash to the hash of the index of their type,
other values to the `std::hash` of their type. `h` stands for the hash functions of the
floating-point types, `hidx` for `std::hash<std::size_t>`. -/
def hash (h : NumTy → FVal K → Nat) (hidx : Nat → Nat) (n : Num K) : Nat :=
  if n.val.isNan then hidx n.ty.idx
  else h n.ty n.val

/-- The finite value of a number. -/
def toK? (n : Num K) : Option K := n.val.toK?

/-- The literal `x_dbl`, `expression{number{x}}` with a finite double. -/
def dbl (x : K) : Num K := ⟨.dbl, .fin x⟩

end Num
end
end Heyoka.Sym
