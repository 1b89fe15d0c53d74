import Verif.Expr.Basic
import Mathlib.Algebra.Order.Floor.Ring

/-!
# Construction of expressions

Model of the functions that build expressions: `sum()`, `prod()`, `pow()`, the arithmetic
operators and the elementary functions, with the constant folding and the simplifications they
perform.
-/

set_option linter.unusedSectionVars false

namespace Heyoka.Sym

variable {K : Type} [Field K] [LinearOrder K] [FloorRing K] [Fold K]

/-- Constant folding of a function of numbers: the C++ code calls the standard library function on
the values of the numbers (e.g. `src/math/sin.cpp` 381-397). The result is exact here; it is a NaN
outside the domain. Simplification: a NaN is also returned whenever an argument is not finite (the
C library may return something else, e.g. `exp(inf) = inf`). -/
def foldFn (f : Fn K) (ty : NumTy) (ns : List (Num K)) : Num K :=
  ⟨ty, match ns.mapM Num.toK? with
    | some xs => match Fold.fold f xs with
      | some x => .fin x
      | none => .nan
    | none => .nan⟩

/-- The common tail of `sum()` (`src/math/sum.cpp` 584-599): special cases for zero and one
argument, otherwise the numbers are moved to the front (`std::stable_partition`) and the function
is created. -/
def sumFinish (args : List (Expr K)) : Expr K :=
  match args with
  | [] => .dbl 0
  | [a] => a
  | _ => .fn .sum (args.filter (·.isNum) ++ args.filter (!·.isNum))

/-- `sum()` (`src/math/sum.cpp` 545-600): the numbers are moved to the end (`std::stable_partition`)
and folded from left to right; a folded zero is dropped unless it is the only term. -/
def sumE (args : List (Expr K)) : Expr K :=
  let nn := args.filter (!·.isNum)
  match args.filterMap (·.num?) with
  | [] => sumFinish nn
  | n :: ns =>
    let c := ns.foldl Num.add n
    if c.isZero then
      if nn.isEmpty then .num c else sumFinish nn
    else sumFinish (nn ++ [.num c])

/-- `prod_is_negation_impl()` (`src/math/prod.cpp` 110-118). -/
def prodIsNegation (args : List (Expr K)) : Bool :=
  match args with
  | .num n :: _ :: _ => n.isNegOne
  | _ => false

/-- The constructor of `prod_impl` (`src/math/prod.cpp` 124-128). -/
def mkProd (args : List (Expr K)) : Expr K := .fn (.prod (prodIsNegation args)) args

/-- The common tail of `prod()` (`src/math/prod.cpp` 953-972). -/
def prodFinish (args : List (Expr K)) : Expr K :=
  match args with
  | [] => .dbl 1
  | [a] => a
  | _ => mkProd (args.filter (·.isNum) ++ args.filter (!·.isNum))

/-- `prod()` (`src/math/prod.cpp` 913-973): as `sum()`; a folded one is dropped unless it is the only
term, a folded zero is returned as the result. -/
def prodE (args : List (Expr K)) : Expr K :=
  let nn := args.filter (!·.isNum)
  match args.filterMap (·.num?) with
  | [] => prodFinish nn
  | n :: ns =>
    let c := ns.foldl Num.mul n
    if c.isOne then
      if nn.isEmpty then .num c else prodFinish nn
    else if c.isZero then .num c
    else prodFinish (nn ++ [.num c])

/-- `ex_is_integral()` (`src/math/pow.cpp` 158-209). Simplification: the conversion to a 64-bit
integer throws in the C++ code when the value is too large, here it cannot fail. -/
def exIsIntegral : Expr K → Option Int
  | .num n => match n.toK? with
    | some x => if x = (⌊x⌋ : K) then some ⌊x⌋ else none
    | none => none
  | _ => none

/-- `ex_is_odd_integral_half()` (`src/math/pow.cpp` 214-287). -/
def exIsOddIntegralHalf : Expr K → Option Int
  | .num n => match n.toK? with
    | some x => if x = (⌊x⌋ : K) then none
      else if 2 * x = (⌊2 * x⌋ : K) then some ⌊2 * x⌋ else none
    | none => none
  | _ => none

/-- `get_pow_eval_algo()` (`src/math/pow.cpp` 292-355), as a function of the exponent. -/
def powAlgo (e : Expr K) : PowAlgo :=
  let small : Option PowAlgo :=
    match exIsIntegral e with
    | some n =>
      if 0 ≤ n ∧ n ≤ 16 then some (.posInt n.toNat)
      else if n < 0 ∧ -n ≤ 16 then some (.negInt (-n).toNat)
      else none
    | none => none
  match small with
  | some a => a
  | none =>
    match exIsOddIntegralHalf e with
    | some n =>
      if 0 ≤ n ∧ n ≤ 16 then .posHalf n.toNat
      else if n < 0 ∧ -n ≤ 16 then .negHalf (-n).toNat
      else .general
    | none => .general

/-- The constructor of `pow_impl` (`src/math/pow.cpp` 83-86). -/
def mkPow (b e : Expr K) : Expr K := .fn (.pow (powAlgo e)) [b, e]

/-- `pow()` (`src/math/pow.cpp` 1024-1063). -/
def powE (b e : Expr K) : Expr K :=
  match b, e with
  | .num x, .num y => .num (foldFn (.pow .general) (x.ty.promote y.ty) [x, y])
  | b, .num y => if y.isZero then .dbl 1 else if y.isOne then b else mkPow b (.num y)
  | b, e => mkPow b e

/-- Unary minus (`src/expression_ops.cpp` 45-52). -/
def negE : Expr K → Expr K
  | .num n => .num n.neg
  | e => prodE [.dbl (-1), e]

/-- `operator+` (`src/expression_ops.cpp` 55-62). -/
def addE : Expr K → Expr K → Expr K
  | .num a, .num b => .num (a.add b)
  | a, b => sumE [a, b]

/-- `operator-` (`src/expression_ops.cpp` 65-72). -/
def subE : Expr K → Expr K → Expr K
  | .num a, .num b => .num (a.sub b)
  | a, b => addE a (negE b)

/-- `operator*` (`src/expression_ops.cpp` 75-82). -/
def mulE : Expr K → Expr K → Expr K
  | .num a, .num b => .num (a.mul b)
  | a, b => prodE [a, b]

/-- `operator/` (`src/expression_ops.cpp` 85-92). -/
def divE : Expr K → Expr K → Expr K
  | .num a, .num b => .num (a.div b)
  | a, b => prodE [a, powE b (.dbl (-1))]

/-- The constructors of the unary elementary functions with constant folding, e.g. `sin()`
(`src/math/sin.cpp` 381-411), `exp()` (`src/math/exp.cpp` 299-312), `log()` (320-333), `asin()`
(370-383) and so on for `cos`, `tan`, `acos`, `atan`, `sinh`, `cosh`, `tanh`, `asinh`, `acosh`,
`atanh`, `erf`, `sigmoid`. -/
def unaryE (f : Fn K) : Expr K → Expr K
  | .num n => .num (foldFn f n.ty [n])
  | e => .fn f [e]

/-- `sqrt()` (`src/math/sqrt.cpp` 16-19). The literal is one half. -/
def sqrtE (e : Expr K) : Expr K := powE e (.dbl (1 / 2))

/-- `atan2()` (`src/math/atan2.cpp` 763-785). -/
def atan2E : Expr K → Expr K → Expr K
  | .num y, .num x => .num (foldFn .atan2 (y.ty.promote x.ty) [y, x])
  | y, x => .fn .atan2 [y, x]

/-- `relu()` (`src/math/relu.cpp` 580-590): the folded value is `x > 0 ? x : slope * x`, where the
slope is a double. Simplification: the slope is any finite number (the C++ code requires it to be
finite and not negative and throws otherwise). -/
def reluE (slope : K) : Expr K → Expr K
  | .num n =>
    let pos := FVal.flt (.fin 0) n.val
    .num ⟨NumTy.promote .dbl n.ty, if pos then n.val else (FVal.fin slope).mul n.val⟩
  | e => .fn (.relu slope) [e]

/-- `relup()` (`src/math/relu.cpp` 592-602): the folded value is the double `x > 0 ? 1. : slope`. -/
def relupE (slope : K) : Expr K → Expr K
  | .num n => .num ⟨.dbl, if FVal.flt (.fin 0) n.val then .fin 1 else .fin slope⟩
  | e => .fn (.relup slope) [e]

/-- `select()` (`src/math/select.cpp` 267-270). -/
def selectE (c t f : Expr K) : Expr K := .fn .select [c, t, f]

/-- The relational operators (`src/math/relational.cpp` 343-355). -/
def relE (op : RelOp) (a b : Expr K) : Expr K := .fn (.rel op) [a, b]

/-- `logical_and()` (`src/math/logical.cpp` 314-325). -/
def landE : List (Expr K) → Expr K
  | [] => .dbl 1
  | [a] => a
  | as => .fn .land as

/-- `logical_or()` (`src/math/logical.cpp` 327-338). -/
def lorE : List (Expr K) → Expr K
  | [] => .dbl 0
  | [a] => a
  | as => .fn .lor as

/-- `kepE()` (`src/math/kepE.cpp` 801-809). -/
def kepEE : Expr K → Expr K → Expr K
  | .num n, M => if n.isZero then M else .fn .kepE [.num n, M]
  | e, M => .fn .kepE [e, M]

/-- `kepF()` (`src/math/kepF.cpp` 1689-1699). -/
def kepFE : Expr K → Expr K → Expr K → Expr K
  | .num h, .num k, lam =>
    if h.isZero && k.isZero then lam else .fn .kepF [.num h, .num k, lam]
  | h, k, lam => .fn .kepF [h, k, lam]

/-- `kepDE()` (`src/math/kepDE.cpp` 113-123). -/
def kepDEE : Expr K → Expr K → Expr K → Expr K
  | .num s, .num c, DM =>
    if s.isZero && c.isZero then DM else .fn .kepDE [.num s, .num c, DM]
  | s, c, DM => .fn .kepDE [s, c, DM]

/-- The time (`src/math/time.cpp`, `include/heyoka/math/time.hpp`). -/
def timeE : Expr K := .fn .time []

/-- The constant pi (`include/heyoka/math/constants.hpp`). -/
def piE : Expr K := .fn (.const "pi") []

end Heyoka.Sym
