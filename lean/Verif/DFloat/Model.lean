import Mathlib.Data.Rat.Floor
import Mathlib.Data.Int.Log
import Mathlib.Algebra.Order.Round

/-!
# Double-length floating-point arithmetic

Model of `include/heyoka/detail/dfloat.hpp`.

A binary floating-point format is given by its precision `p` and by the exponent `emin` of the
smallest positive number (gradual underflow is included). Simplification: no overflow, i.e. the
exponents are not bounded from above, and no NaN (the C++ code checks `isfinite()` before using
the arithmetic modelled here).
-/

namespace Heyoka.DFloat

/-- A binary floating-point format: precision and exponent of the smallest positive number.
The C++ type `double` is `⟨53, -1074⟩`. -/
structure Fmt where
  p : ℕ
  emin : ℤ

/-- The numbers of the format. -/
def Fmt.Rep (φ : Fmt) (x : ℚ) : Prop :=
  ∃ m e : ℤ, |m| < 2 ^ φ.p ∧ φ.emin ≤ e ∧ x = m * (2 : ℚ) ^ e

/-- Nearest integer, ties to the even one. -/
def roundEven (x : ℚ) : ℤ :=
  if x - ⌊x⌋ < 1 / 2 then ⌊x⌋
  else if 1 / 2 < x - ⌊x⌋ then ⌊x⌋ + 1
  else if ⌊x⌋ % 2 = 0 then ⌊x⌋ else ⌊x⌋ + 1

/-- The exponent at which a number is rounded. -/
def Fmt.expo (φ : Fmt) (x : ℚ) : ℤ :=
  if x = 0 then φ.emin else max φ.emin (Int.log 2 |x| - φ.p + 1)

/-- The result of an elementary operation of the floating-point unit whose exact result is `x`:
round to nearest, ties to even (IEEE-754, and MPFR for `mppp::real`). -/
def Fmt.rnd (φ : Fmt) (x : ℚ) : ℚ :=
  roundEven (x / (2 : ℚ) ^ φ.expo x) * (2 : ℚ) ^ φ.expo x

/-- `struct dfloat`, dfloat.hpp:36-58. -/
@[ext] structure DF where
  hi : ℚ
  lo : ℚ
deriving DecidableEq

section ops
variable (rnd : ℚ → ℚ)

/-- `eft_add_dekker()`, dfloat.hpp:104-110. -/
def dekker (a b : ℚ) : ℚ × ℚ :=
  let x := rnd (a + b)
  let y := rnd (rnd (a - x) + b)
  (x, y)

/-- `eft_add_knuth()`, dfloat.hpp:117-125. -/
def knuth (a b : ℚ) : ℚ × ℚ :=
  let x := rnd (a + b)
  let z := rnd (x - a)
  let y := rnd (rnd (a - rnd (x - z)) + rnd (b - z))
  (x, y)

/-- `dfloat(F)`, dfloat.hpp:40. -/
def DF.ofF (x : ℚ) : DF := ⟨x, 0⟩

/-- `normalise()`, dfloat.hpp:131-147. The assertion of the debug builds on the magnitudes is a
hypothesis of the theorem about this function. -/
def normalise (x : DF) : DF :=
  let r := dekker rnd x.hi x.lo
  ⟨r.1, r.2⟩

/-- `operator+(dfloat, dfloat)`, dfloat.hpp:150-170, and `llvm_dl_add()`,
src/detail/llvm_helpers_dl.cpp:60-94. -/
def add (a b : DF) : DF :=
  let h := knuth rnd a.hi b.hi
  let l := knuth rnd a.lo b.lo
  let q := dekker rnd h.1 (rnd (h.2 + l.1))
  let r := dekker rnd q.1 (rnd (q.2 + l.2))
  ⟨r.1, r.2⟩

/-- `operator-(dfloat, dfloat)`, dfloat.hpp:173-177, and `llvm_dl_sub()`,
src/detail/llvm_helpers_dl.cpp:97-101. -/
def sub (x y : DF) : DF := add rnd x ⟨-y.hi, -y.lo⟩

/-- `operator+(dfloat, F)` and `operator+=(dfloat, F)`, dfloat.hpp:180-184, 192-196. -/
def addF (x : DF) (y : ℚ) : DF := add rnd x (.ofF y)

/-- Repeated `+=` of single-length increments, as in the accumulation of the time coordinate,
`taylor_adaptive::step_impl()`, src/taylor_adaptive.cpp:781, 896 (`m_time += h`). -/
def accumulate (x : DF) (hs : List ℚ) : DF := hs.foldl (addF rnd) x

end ops

/-- `operator==`, dfloat.hpp:211-215. -/
def DF.eq (x y : DF) : Bool := x.hi == y.hi && x.lo == y.lo

/-- `operator<`, dfloat.hpp:229-233, and `llvm_dl_lt()`, llvm_helpers_dl.cpp:285-300. -/
def DF.lt (x y : DF) : Bool := decide (x.hi < y.hi) || (x.hi == y.hi && decide (x.lo < y.lo))

/-- `operator>`, dfloat.hpp:235-239, and `llvm_dl_gt()`, llvm_helpers_dl.cpp:304-319. -/
def DF.gt (x y : DF) : Bool := decide (x.hi > y.hi) || (x.hi == y.hi && decide (x.lo > y.lo))

/-- `operator<=`, dfloat.hpp:247-251. -/
def DF.le (x y : DF) : Bool := decide (x.hi < y.hi) || (x.hi == y.hi && decide (x.lo ≤ y.lo))

/-- `operator>=`, dfloat.hpp:259-263. -/
def DF.ge (x y : DF) : Bool := decide (x.hi > y.hi) || (x.hi == y.hi && decide (x.lo ≥ y.lo))

end Heyoka.DFloat
