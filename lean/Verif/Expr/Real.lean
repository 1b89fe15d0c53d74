import Verif.Expr.Build
import Verif.Kepler.Math
import Mathlib.Analysis.SpecialFunctions.Arsinh
import Mathlib.Analysis.SpecialFunctions.Arcosh
import Mathlib.Analysis.SpecialFunctions.Artanh
import Mathlib.Analysis.SpecialFunctions.Sigmoid
import Mathlib.Analysis.SpecialFunctions.Pow.Real
import Mathlib.Analysis.SpecialFunctions.Complex.Arg
import Mathlib.Analysis.SpecialFunctions.Trigonometric.Inverse
import Mathlib.Analysis.SpecialFunctions.Trigonometric.Arctan
import Mathlib.MeasureTheory.Integral.IntervalIntegral.Basic
import Mathlib.Analysis.Calculus.Deriv.Basic

/-!
# The real interpretation of the function symbols

The mathematical meaning of heyoka's functions, with their domains. It is a specification: it says
what the generated code is supposed to compute, it does not model the code generation of each
function (which mostly calls into the C library or LLVM intrinsics).
-/

namespace Heyoka.Sym

/-- The error function. -/
noncomputable def realErf (x : ℝ) : ℝ :=
  2 / Real.sqrt Real.pi * ∫ t in (0 : ℝ)..x, Real.exp (-t ^ 2)

/-- The domain of the power function: positive base, zero base with a non-negative exponent, negative
base with an integral exponent. -/
def PowDom (b e : ℝ) : Prop := 0 < b ∨ (b = 0 ∧ 0 ≤ e) ∨ (b < 0 ∧ ∃ n : ℤ, e = n)

/-- The truth value of a relational operator. -/
def RelOp.holds : RelOp → ℝ → ℝ → Prop
  | .eq, a, b => a = b
  | .neq, a, b => a ≠ b
  | .lt, a, b => a < b
  | .gt, a, b => a > b
  | .lte, a, b => a ≤ b
  | .gte, a, b => a ≥ b

/-- The meaning of the implicit functions named in `dfun`: real functions of any number of arguments. Unless such an
interpretation is introduced they have none. -/
class DFunc where
  fn : Option (String → List ℝ → ℝ)

instance (priority := low) noDFunc : DFunc := ⟨none⟩

/-- The partial derivative of a function with respect to its argument of index `i`. -/
noncomputable def lpd (i : Nat) (F : List ℝ → ℝ) (l : List ℝ) : ℝ := deriv (fun t => F (l.set i t)) (l.getD i 0)

/-- The partial derivative of a function for a multi-index: pairs of the index of an argument and an order. -/
noncomputable def dpart : List (Nat × Nat) → (List ℝ → ℝ) → List ℝ → ℝ
  | [], F => F
  | (i, n) :: t, F => (lpd i)^[n] (dpart t F)

open Classical in
/-- The meaning of the function symbols over the reals: `none` outside of the domain or with a wrong
number of arguments. The flags of `prod`, `pow`, `sin` and `cos` only select between equivalent
implementations and have no meaning here. `kepE`, `kepF` and `kepDE` return the solution reduced to
`[0, 2π)` as the code does (`src/detail/llvm_helpers_celmec.cpp`). The functions `time` (its value
comes from the assignment) and `other` have no value. A `dfun` is a partial derivative of the function it names. -/
noncomputable def realApp [DFunc] : Fn ℝ → List ℝ → Option ℝ
  | .sum, xs => some xs.sum
  | .prod _, xs => some xs.prod
  | .pow _, [b, e] => if PowDom b e then some (b ^ e) else none
  | .sub, [a, b] => some (a - b)
  | .div, [a, b] => if b = 0 then none else some (a / b)
  | .sumSq, xs => some (xs.map fun x => x ^ 2).sum
  | .sin _, [x] => some (Real.sin x)
  | .cos _, [x] => some (Real.cos x)
  | .tan, [x] => if Real.cos x = 0 then none else some (Real.tan x)
  | .asin, [x] => if -1 ≤ x ∧ x ≤ 1 then some (Real.arcsin x) else none
  | .acos, [x] => if -1 ≤ x ∧ x ≤ 1 then some (Real.arccos x) else none
  | .atan, [x] => some (Real.arctan x)
  | .atan2, [y, x] => if x = 0 ∧ y = 0 then none else some (Complex.arg ⟨x, y⟩)
  | .sinh, [x] => some (Real.sinh x)
  | .cosh, [x] => some (Real.cosh x)
  | .tanh, [x] => some (Real.tanh x)
  | .asinh, [x] => some (Real.arsinh x)
  | .acosh, [x] => if 1 ≤ x then some (Real.arcosh x) else none
  | .atanh, [x] => if -1 < x ∧ x < 1 then some (Real.artanh x) else none
  | .erf, [x] => some (realErf x)
  | .exp, [x] => some (Real.exp x)
  | .log, [x] => if 0 < x then some (Real.log x) else none
  | .sigmoid, [x] => some (Real.sigmoid x)
  | .relu s, [x] => some (if 0 < x then x else s * x)
  | .relup s, [x] => some (if 0 < x then 1 else s)
  | .select, [c, t, f] => some (if c ≠ 0 then t else f)
  | .rel op, [a, b] => some (if op.holds a b then 1 else 0)
  | .land, xs => some (if ∀ x ∈ xs, x ≠ 0 then 1 else 0)
  | .lor, xs => some (if ∃ x ∈ xs, x ≠ 0 then 1 else 0)
  | .const name, [] => if name = "pi" then some Real.pi else none
  | .kepE, [e, M] =>
    if 0 ≤ e ∧ e < 1 then some (Kepler.red (Kepler.kepSol 0 (-e) M)) else none
  | .kepF, [h, k, lam] =>
    if h ^ 2 + k ^ 2 < 1 then some (Kepler.red (Kepler.kepSol h (-k) lam)) else none
  | .kepDE, [s, c, DM] =>
    if s ^ 2 + c ^ 2 < 1 then some (Kepler.red (Kepler.kepSol (-s) (-c) (DM - s))) else none
  | .numId, [x] => some x
  | .dfun id didx, xs => DFunc.fn.map fun φ => dpart didx (φ id) xs
  | _, _ => none

/-- The constants are folded to the exact values. -/
noncomputable instance foldReal : Fold ℝ := ⟨@realApp noDFunc⟩

noncomputable instance realInterp [DFunc] : Interp ℝ := ⟨realApp⟩

theorem app_def [DFunc] (f : Fn ℝ) (xs : List ℝ) : Interp.app f xs = realApp f xs := rfl

end Heyoka.Sym
