import Verif.Expr.Build
import Verif.Expr.TravInst

/-!
# The rewrites applied before the decomposition
-/

set_option linter.unusedSectionVars false

namespace Heyoka.Sym

variable {K : Type} [Field K] [LinearOrder K] [FloorRing K] [Fold K]

/-! ### Splitting of long sums and products -/

/-- The loop of `udf_split()` (`include/heyoka/detail/udf_split.hpp` 68-92) collecting the arguments
into functions of `split` arguments each; `tmp` holds the arguments collected so far. A single
remaining argument is not wrapped. -/
def groupArgs {α : Type} (mk : List α → α) (split : Nat) : List α → List α → List α
  | tmp, [] =>
    match tmp with
    | [] => []
    | [a] => [a]
    | _ => [mk tmp]
  | tmp, a :: as =>
    if (tmp ++ [a]).length = split then mk (tmp ++ [a]) :: groupArgs mk split [] as
    else groupArgs mk split (tmp ++ [a]) as

theorem groupArgs_length_le {α : Type} (mk : List α → α) (split : Nat) (tmp as : List α) :
    (groupArgs mk split tmp as).length ≤ as.length + min tmp.length 1 := by
  induction as generalizing tmp with
  | nil =>
    cases tmp with
    | nil => simp [groupArgs]
    | cons a t => cases t <;> simp [groupArgs]
  | cons a as ih =>
    rw [groupArgs]
    split_ifs
    · have := ih []
      simp at this ⊢
      omega
    · have := ih (tmp ++ [a])
      simp at this ⊢
      omega

theorem groupArgs_length_lt {α : Type} (mk : List α → α) (split : Nat)
    (tmp as : List α) (ht : tmp.length < split) (h : split ≤ tmp.length + as.length) :
    (groupArgs mk split tmp as).length + split ≤ tmp.length + as.length + 1 := by
  induction as generalizing tmp with
  | nil => simp at h; omega
  | cons a as ih =>
    rw [groupArgs]
    split_ifs with hc
    · have := groupArgs_length_le mk split [] as
      simp at this hc ⊢
      omega
    · have := ih (tmp ++ [a]) (by simp at hc ⊢; omega) (by simp at h ⊢; omega)
      simp at this ⊢
      omega

/-- `udf_split()` (`include/heyoka/detail/udf_split.hpp` 48-96) on the arguments of a function of the
right kind; `mk` is the constructor of the function. The assertion `split >= 2` is a precondition
(the callers pass 2 and 8). -/
def udfSplit {α : Type} (mk : List α → α) (split : Nat) (hs : 2 ≤ split) (args : List α) : α :=
  if _h : args.length ≤ split then mk args
  else udfSplit mk split hs (groupArgs mk split [] args)
termination_by args.length
decreasing_by
  have := groupArgs_length_lt mk split [] args (by simp; omega) (by simp; omega)
  simp at this
  omega

/-- `sum_split()` (`src/math/sum.cpp` 377-380). A sum that is short enough is returned as it is. -/
def sumSplit (split : Nat) (hs : 2 ≤ split) : Expr K → Expr K
  | .fn .sum args => udfSplit (.fn .sum) split hs args
  | e => e

/-- `prod_split()` (`src/math/prod.cpp` 742-745). A product that is short enough is returned as it is;
the constructor of `prod_impl` determines the LLVM name of the parts. -/
def prodSplit (split : Nat) (hs : 2 ≤ split) : Expr K → Expr K
  | .fn (.prod neg) args =>
    if args.length ≤ split then .fn (.prod neg) args else udfSplit mkProd split hs args
  | e => e

/-! ### Sums of squares -/

/-- `is_square()` (`src/math/sum.cpp` 387-421): the base of a `pow()` whose exponent is the number
two. -/
def isSquare : Expr K → Option (Expr K)
  | .fn (.pow _) [b, .num n] => if n.val.toK? = some 2 then some b else none
  | _ => none

/-- The loop collecting the bases (`src/math/sum.cpp` 443-452). -/
def allSquares : List (Expr K) → Option (List (Expr K))
  | [] => some []
  | e :: es => (isSquare e).bind fun b => (allSquares es).map (b :: ·)

/-- `sum_to_sum_sq()` (`src/math/sum.cpp` 428-455). -/
def sumToSumSq : Expr K → Expr K
  | .fn .sum args =>
    match allSquares args with
    | some bs => .fn .sumSq bs
    | none => .fn .sum args
  | e => e

/-! ### Sums to subtractions -/

/-- The partitioning predicate of `sum_to_sub()`, negated (`src/math/sum.cpp` 481-489): a product of
at least two factors, the first one being the number -1. Returns the other factors. -/
def negatedProd : Expr K → Option (List (Expr K))
  | .fn (.prod _) (.num n :: a :: as) => if n.isNegOne then some (a :: as) else none
  | _ => none

/-- The transformation of `sum_to_sub()` (`src/math/sum.cpp` 466-537). -/
def sumToSub : Expr K → Expr K
  | .fn .sum args =>
    let pos := args.filter fun a => (negatedProd a).isNone
    let neg := args.filterMap negatedProd
    if neg.isEmpty then .fn .sum args
    else
      let st := sumE (neg.map prodE)
      if pos.isEmpty then prodE [.dbl (-1), st]
      else .fn .sub [sumE pos, st]
  | e => e

/-! ### Products to divisions -/

/-- The factors collected in the divisor by `prod_to_div_llvm_eval()`, as base and exponent
(`src/math/prod.cpp` 822-845): small negative (half-)integral powers. -/
def divFactorEval : Expr K → Option (Expr K × Num K)
  | .fn (.pow _) [b, .num n] =>
    match powAlgo (.num n : Expr K) with
    | .negInt _ => some (b, n)
    | .negHalf _ => some (b, n)
    | _ => none
  | _ => none

/-- The factors collected in the divisor by `prod_to_div_taylor_diff()` (`src/math/prod.cpp` 870-895):
the powers with exponent -1. -/
def divFactorTaylor : Expr K → Option (Expr K × Num K)
  | .fn (.pow _) [b, .num n] => if n.isNegOne then some (b, n) else none
  | _ => none

/-- `prod_to_div_tfunc()` (`src/math/prod.cpp` 754-807); `part` is the partitioning function, it
returns the base and the exponent of the factors to be moved to the divisor. -/
def prodToDiv (part : Expr K → Option (Expr K × Num K)) : Expr K → Expr K
  | .fn (.prod neg) args =>
    let keep := args.filter fun a => (part a).isNone
    let ps := args.filterMap part
    if ps.isEmpty then .fn (.prod neg) args
    else .fn .div [prodE keep, prodE (ps.map fun p => powE p.1 (.num p.2.neg))]
  | e => e

/-! ### Powers to exponentials -/

/-- The transformation of `pow_to_explog()` (`src/taylor_01.cpp` 811-830): `x**y` becomes
`exp(y * log(x))` unless `y` is a number. -/
def powToExplog : Expr K → Expr K
  | .fn (.pow a) [b, e] =>
    if e.isNum then .fn (.pow a) [b, e] else unaryE .exp (mulE e (.fn .log [b]))
  | e => e

/-! ### The pipelines -/

/-- The rewrites applied by `function_decompose()` (`src/expression_cfunc.cpp` 790-805), each one over
the whole expression. -/
def rewritesEval (e : Expr K) : Expr K :=
  ((((e.mapNodes id sumToSub).mapNodes id (sumSplit 8 (by decide))).mapNodes id sumToSumSq).mapNodes
    id (prodToDiv divFactorEval)).mapNodes id (prodSplit 8 (by decide))

/-- The rewrites applied by `taylor_decompose_sys()` (`src/taylor_01.cpp` 870-888). -/
def rewritesTaylor (e : Expr K) : Expr K :=
  (((((e.mapNodes id powToExplog).mapNodes id sumToSub).mapNodes id
    (sumSplit 8 (by decide))).mapNodes id sumToSumSq).mapNodes id
    (prodToDiv divFactorTaylor)).mapNodes id (prodSplit 2 (by decide))

/-! ### Evaluation of powers -/

/-- `pow_ebs()` (`src/math/pow.cpp` 136-152): exponentiation by squaring. -/
def powEbs (b : K) (n : Nat) : K :=
  if n = 0 then 1
  else if n = 1 then b
  else if n % 2 = 0 then powEbs (b * b) (n / 2)
  else b * powEbs (b * b) ((n - 1) / 2)
termination_by n
decreasing_by all_goals omega

end Heyoka.Sym
