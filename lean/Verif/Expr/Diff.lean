import Verif.Expr.Build
import Verif.Util.Res

/-!
# Symbolic differentiation

Model of `diff()` (`src/expression_diff.cpp` 54-339) and of the `gradient()` members of the
functions (`src/math/*.cpp`). The traversal with caches used by the C++ code is replaced by plain
recursion; the equivalence of the two is the subject of `Verif/Expr/Traverse.lean`.
-/

set_option linter.unusedSectionVars false

namespace Heyoka.Sym

variable {K : Type} [Field K] [LinearOrder K] [FloorRing K] [Fold K]

/-- What one can differentiate with respect to: a variable or a parameter. -/
inductive DVar
  | var (name : String)
  | par (idx : Nat)
  deriving DecidableEq

/-- The new multi-index of a partial derivative of a `dfun` with respect to the argument `i`
(`src/math/dfun.cpp` 267-318): the loop over the existing pairs with the flag `done`.
Simplification: the overflow check on the 32-bit order is not modelled. -/
def bumpIdx (i : Nat) : Bool → List (Nat × Nat) → List (Nat × Nat)
  | done, [] => if done then [] else [(i, 1)]
  | done, (j, o) :: r =>
    if j < i then (j, o) :: bumpIdx i done r
    else if j = i then (j, o + 1) :: bumpIdx i true r
    else (if done then [(j, o)] else [(i, 1), (j, o)]) ++ bumpIdx i true r

/-- The partial derivatives of a product (`src/math/prod.cpp` 261-282). -/
def prodGradient (args : List (Expr K)) : List (Expr K) :=
  (List.range args.length).map fun i => prodE (args.eraseIdx i)

/-- The `gradient()` members of the functions. Functions without the member throw
(`src/func.cpp` 324-331); a wrong number of arguments is excluded by an assertion. -/
def gradient (f : Fn K) (args : List (Expr K)) : Res (List (Expr K)) :=
  match f, args with
  -- src/math/sum.cpp 170-173
  | .sum, _ => .ok (args.map fun _ => .dbl 1)
  | .prod _, _ => .ok (prodGradient args)
  -- src/math/pow.cpp 998-1002
  | .pow _, [b, e] => .ok [mulE e (powE b (subE e (.dbl 1))), mulE (powE b e) (unaryE .log b)]
  -- src/math/sin.cpp 372-376
  | .sin c, [x] => .ok [unaryE (.cos c) x]
  -- src/math/cos.cpp 372-376
  | .cos c, [x] => .ok [negE (unaryE (.sin c) x)]
  -- src/math/tan.cpp 315-320
  | .tan, [x] => .ok [addE (.dbl 1) (powE (unaryE .tan x) (.dbl 2))]
  -- src/math/asin.cpp 65-69
  | .asin, [x] => .ok [powE (subE (.dbl 1) (powE x (.dbl 2))) (.dbl (-(1 / 2)))]
  -- src/math/acos.cpp 65-69
  | .acos, [x] => .ok [negE (powE (subE (.dbl 1) (powE x (.dbl 2))) (.dbl (-(1 / 2))))]
  -- src/math/atan.cpp 63-67
  | .atan, [x] => .ok [powE (addE (.dbl 1) (powE x (.dbl 2))) (.dbl (-1))]
  -- src/math/atan2.cpp 73-83
  | .atan2, [y, x] =>
    let den := powE (addE (powE x (.dbl 2)) (powE y (.dbl 2))) (.dbl (-1))
    .ok [mulE x den, mulE (negE y) den]
  -- src/math/sinh.cpp 63-67
  | .sinh, [x] => .ok [unaryE .cosh x]
  -- src/math/cosh.cpp 63-67
  | .cosh, [x] => .ok [unaryE .sinh x]
  -- src/math/tanh.cpp 63-68
  | .tanh, [x] => .ok [subE (.dbl 1) (powE (unaryE .tanh x) (.dbl 2))]
  -- src/math/asinh.cpp 64-68
  | .asinh, [x] => .ok [powE (addE (powE x (.dbl 2)) (.dbl 1)) (.dbl (-(1 / 2)))]
  -- src/math/acosh.cpp 64-68
  | .acosh, [x] => .ok [powE (subE (powE x (.dbl 2)) (.dbl 1)) (.dbl (-(1 / 2)))]
  -- src/math/atanh.cpp 63-68
  | .atanh, [x] => .ok [powE (subE (.dbl 1) (powE x (.dbl 2))) (.dbl (-1))]
  -- src/math/erf.cpp 374-378
  | .erf, [x] =>
    .ok [mulE (divE (.dbl 2) (sqrtE piE)) (unaryE .exp (negE (powE x (.dbl 2))))]
  -- src/math/exp.cpp 291-295
  | .exp, [x] => .ok [unaryE .exp x]
  -- src/math/log.cpp 311-316
  | .log, [x] => .ok [powE x (.dbl (-1))]
  -- src/math/sigmoid.cpp 361-365
  | .sigmoid, [x] => .ok [mulE (subE (.dbl 1) (unaryE .sigmoid x)) (unaryE .sigmoid x)]
  -- src/math/relu.cpp 108-112
  | .relu s, [x] => .ok [relupE s x]
  -- src/math/relu.cpp 355-359
  | .relup _, [_] => .ok [.dbl 0]
  -- src/math/select.cpp 64-67
  | .select, [c, _, _] => .ok [.dbl 0, selectE c (.dbl 1) (.dbl 0), selectE c (.dbl 0) (.dbl 1)]
  -- src/math/relational.cpp 143-146
  | .rel _, [_, _] => .ok [.dbl 0, .dbl 0]
  -- src/math/logical.cpp 53-56, 255-258
  | .land, _ => .ok (args.map fun _ => .dbl 0)
  | .lor, _ => .ok (args.map fun _ => .dbl 0)
  -- src/math/time.cpp 60-63, src/math/constants.cpp 185-188
  | .time, [] => .ok []
  | .const _, [] => .ok []
  -- src/math/kepE.cpp 71-82
  | .kepE, [e, M] =>
    let E : Expr K := .fn .kepE [e, M]
    let den := powE (subE (.dbl 1) (mulE e (unaryE (.cos false) E))) (.dbl (-1))
    .ok [mulE (unaryE (.sin false) E) den, den]
  -- src/math/kepF.cpp 80-92
  | .kepF, [h, k, lam] =>
    let F : Expr K := .fn .kepF [h, k, lam]
    let den := powE (subE (subE (.dbl 1) (mulE h (unaryE (.sin false) F)))
      (mulE k (unaryE (.cos false) F))) (.dbl (-1))
    .ok [mulE (negE (unaryE (.cos false) F)) den, mulE (unaryE (.sin false) F) den, den]
  -- src/math/kepDE.cpp 78-90
  | .kepDE, [s0, c0, DM] =>
    let DE : Expr K := .fn .kepDE [s0, c0, DM]
    let den := powE (subE (addE (.dbl 1) (mulE s0 (unaryE (.sin false) DE)))
      (mulE c0 (unaryE (.cos false) DE))) (.dbl (-1))
    .ok [mulE (subE (unaryE (.cos false) DE) (.dbl 1)) den, mulE (unaryE (.sin false) DE) den, den]
  -- src/math/dfun.cpp 251-330
  | .dfun id didx, _ =>
    .ok ((List.range args.length).map fun i => .fn (.dfun id (bumpIdx i false didx)) args)
  -- src/func.cpp 324-331: no gradient available
  | .sub, _ => .throw
  | .div, _ => .throw
  | .sumSq, _ => .throw
  | .numId, _ => .throw
  | .other _, _ => .throw
  | _, _ => .ub

mutual
/-- `diff_impl()` (`src/expression_diff.cpp` 68-256) without the caches: the derivative of a
number is a zero of the same type, the derivative of a function is the sum of the products of the
partial derivatives with the derivatives of the arguments. -/
def Expr.diff (x : DVar) : Expr K → Res (Expr K)
  | .num n => .ok (.num ⟨n.ty, .fin 0⟩)
  | .par i => .ok (match x with
    | .par j => if i = j then .dbl 1 else .dbl 0
    | .var _ => .dbl 0)
  | .var s => .ok (match x with
    | .par _ => .dbl 0
    | .var t => if s = t then .dbl 1 else .dbl 0)
  | .fn f args =>
    (Expr.diffL x args).bind fun ds =>
      (gradient f args).bind fun gs =>
        if gs.length ≠ args.length then .throw
        else .ok (sumE (List.zipWith mulE gs ds))
/-- The derivatives of a list of expressions; the last one is computed first. -/
def Expr.diffL (x : DVar) : List (Expr K) → Res (List (Expr K))
  | [] => .ok []
  | e :: es => (Expr.diffL x es).bind fun ds => (Expr.diff x e).bind fun d => .ok (d :: ds)
end

/-- `diff(e, x)` where `x` is an expression (`src/expression_diff.cpp` 297-313, 330-339): throws if
`x` is neither a variable nor a parameter. -/
def diffEx (e x : Expr K) : Res (Expr K) :=
  match x with
  | .var s => e.diff (.var s)
  | .par i => e.diff (.par i)
  | _ => .throw

mutual
/-- Does the variable or parameter occur in the expression? (Specification.) -/
def Expr.occurs (x : DVar) : Expr K → Bool
  | .num _ => false
  | .var s => x = .var s
  | .par i => x = .par i
  | .fn _ args => Expr.occursL x args
/-- Does the variable or parameter occur in one of the expressions? -/
def Expr.occursL (x : DVar) : List (Expr K) → Bool
  | [] => false
  | e :: es => Expr.occurs x e || Expr.occursL x es
end

theorem Expr.occursL_eq_any (x : DVar) (es : List (Expr K)) :
    Expr.occursL x es = es.any (Expr.occurs x) := by
  induction es with
  | nil => simp [Expr.occursL]
  | cons e es ih => simp [Expr.occursL, ih]

/-- The value of a variable or parameter in an assignment. -/
def Env.get (v : Env K) : DVar → K
  | .var s => v.var s
  | .par i => v.par i

/-- The assignment with the value of a variable or parameter replaced. -/
def Env.set (v : Env K) (x : DVar) (t : K) : Env K :=
  match x with
  | .var s => { v with var := fun r => if r = s then t else v.var r }
  | .par i => { v with par := fun j => if j = i then t else v.par j }

@[simp] theorem Env.set_get (v : Env K) (x : DVar) : v.set x (v.get x) = v := by
  obtain ⟨f, g, t⟩ := v
  cases x with
  | var s =>
    simp only [Env.set, Env.get, Env.mk.injEq, and_true]
    funext r
    by_cases h : r = s <;> simp [h]
  | par i =>
    simp only [Env.set, Env.get, Env.mk.injEq, and_true, true_and]
    funext r
    by_cases h : r = i <;> simp [h]

end Heyoka.Sym
