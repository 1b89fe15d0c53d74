import Verif.Taylor.Value
import Verif.Decomp.Model

/-!
# The recurrences for the normalised derivatives, default mode

`taylor_diff()` of every function (`src/math/*.cpp`, `src/detail/{sub,div,sum_sq,num_identity}.cpp`): the
normalised derivative of order `n` of the `u` variable of index `idx`, defined as a function of numbers,
parameters and `u` variables, given the normalised derivatives already computed. The generated code
is modelled by the values it computes. The reading of the derivative of order `o` of the `u` variable `u`
is the function `rd u o`; it fails (`ub`) if that derivative is not available.
-/

set_option linter.unusedSectionVars false

namespace Heyoka.Taylor

open Heyoka.Sym

variable {K : Type}

/-- The mathematical constant used by the recurrence of `erf`: `sqrt_pi_2_like()`, that is `√π/2`
(`src/detail/num_utils.cpp`). -/
class TConst (K : Type) where
  sqrtPi2 : K

/-- `taylor_fetch_diff()` (`src/taylor_01.cpp` 265-276): the derivatives are in a vector growing by order
and, for each order, by index. The two assertions (265-270) are the possible undefined behaviours. -/
def fetch (arr : List (V K)) (nu : Nat) (u o : Nat) : Res (V K) :=
  if u < nu then
    match arr[o * nu + u]? with
    | some x => .ok x
    | none => .ub
  else .ub

/-- An argument of a function in a Taylor decomposition: a number (`isNum`) or a parameter with its value, or
a `u` variable with its index. -/
inductive TArg (K : Type) where
  | cst (isNum : Bool) (c : V K)
  | u (i : Nat)

section
variable [Field K] [LinearOrder K] [Interp K] [TConst K]

/-- The alternatives of the argument visited by the `taylor_diff()` functions: `taylor_codegen_numparam()`
(`src/taylor_01.cpp` 202-260) for numbers and parameters, `uname_to_index()` for variables; a function is an
invalid argument. -/
def targ (par : Nat → K) : Expr K → Res (TArg K)
  | .num x => .ok (.cst true (V.ofOption x.toK?))
  | .par i => .ok (.cst false (V.fin (par i)))
  | .var s => do
    let i ← unameToIndex s
    pure (.u i)
  | .fn _ _ => .throw

/-- The arguments of a function. -/
def targs (par : Nat → K) : List (Expr K) → Res (List (TArg K))
  | [] => .ok []
  | a :: as => do
    let x ← targ par a
    let xs ← targs par as
    pure (x :: xs)

/-- The value of a function at order 0: the code calls the same function as `llvm_evaluate()`. -/
def app (f : Fn K) (vs : List (V K)) : V K :=
  V.ofOption ((allSome (vs.map V.toOption)).bind (Interp.app f))

/-- The value of order `n` of an argument: the derivative of a `u` variable, and, for a constant, its value
at order 0 and zero otherwise. -/
def argVal (rd : Nat → Nat → Res (V K)) (n : Nat) : TArg K → Res (V K)
  | .cst _ c => .ok (if n = 0 then c else 0)
  | .u i => rd i n

/-- The values of order `n` of several arguments. -/
def argVals (rd : Nat → Nat → Res (V K)) (n : Nat) : List (TArg K) → Res (List (V K))
  | [] => .ok []
  | a :: as => do
    let x ← argVal rd n a
    let xs ← argVals rd n as
    pure (x :: xs)

/-- A function of constants: its value at order 0, zero otherwise. -/
def cstDiff (f : Fn K) (n : Nat) (cs : List (V K)) : Res (V K) :=
  .ok (if n = 0 then app f cs else 0)

/-- The sum of `j * (c^[n - j] * b^[j])` for `j` in `[1, hi)`. -/
def jsum (rd : Nat → Nat → Res (V K)) (c b n hi : Nat) : Res (V K) :=
  sumR 1 hi fun j => do
    let x ← rd c (n - j)
    let y ← rd b j
    pure (V.nat j * (x * y))

/-- `taylor_diff_exp_impl()` (`src/math/exp.cpp` 82-115). -/
def expDiff (rd : Nat → Nat → Res (V K)) (n a b : Nat) : Res (V K) := do
  if n = 0 then
    let b0 ← rd b 0
    pure (app .exp [b0])
  else
    let s ← jsum rd a b n (n + 1)
    pure (s / V.nat n)

/-- `taylor_diff_log_impl()` (`src/math/log.cpp` 85-128). -/
def logDiff (rd : Nat → Nat → Res (V K)) (n a b : Nat) : Res (V K) := do
  if n = 0 then
    let b0 ← rd b 0
    pure (app .log [b0])
  else
    let b0 ← rd b 0
    let bn ← rd b n
    let ret ← if 1 < n then do
        let s ← jsum rd b a n n
        pure (V.nat n * bn - s)
      else pure (V.nat n * bn)
    pure (ret / (V.nat n * b0))

/-- `taylor_diff_sin_impl()` (`src/math/sin.cpp` 152-188), `taylor_diff_sinh_impl()` (`src/math/sinh.cpp` 113-149),
`taylor_diff_cosh_impl()` (`src/math/cosh.cpp` 112-147): `c` is the hidden dependency. -/
def sinDiff (f : Fn K) (rd : Nat → Nat → Res (V K)) (n c b : Nat) : Res (V K) := do
  if n = 0 then
    let b0 ← rd b 0
    pure (app f [b0])
  else
    let s ← jsum rd c b n (n + 1)
    pure (s / V.nat n)

/-- `taylor_diff_cos_impl()` (`src/math/cos.cpp` 152-188). -/
def cosDiff (f : Fn K) (rd : Nat → Nat → Res (V K)) (n c b : Nat) : Res (V K) := do
  if n = 0 then
    let b0 ← rd b 0
    pure (app f [b0])
  else
    let s ← jsum rd c b n (n + 1)
    pure (s / -V.nat n)

/-- `taylor_diff_tan_impl()` (`src/math/tan.cpp` 103-140). -/
def tanDiff (rd : Nat → Nat → Res (V K)) (n c b : Nat) : Res (V K) := do
  if n = 0 then
    let b0 ← rd b 0
    pure (app .tan [b0])
  else
    let bn ← rd b n
    let s ← jsum rd c b n (n + 1)
    pure (bn + s / V.nat n)

/-- `taylor_diff_tanh_impl()` (`src/math/tanh.cpp` 111-148). -/
def tanhDiff (rd : Nat → Nat → Res (V K)) (n c b : Nat) : Res (V K) := do
  if n = 0 then
    let b0 ← rd b 0
    pure (app .tanh [b0])
  else
    let bn ← rd b n
    let s ← jsum rd c b n (n + 1)
    pure (bn - s / V.nat n)

/-- `taylor_diff_asin_impl()` (`src/math/asin.cpp` 127-178), `taylor_diff_asinh_impl()` (`src/math/asinh.cpp`
120-171), `taylor_diff_acosh_impl()` (`src/math/acosh.cpp` 120-171). -/
def asinDiff (f : Fn K) (rd : Nat → Nat → Res (V K)) (n a c b : Nat) : Res (V K) := do
  if n = 0 then
    let b0 ← rd b 0
    pure (app f [b0])
  else
    let c0 ← rd c 0
    let bn ← rd b n
    if n = 1 then pure (bn / c0)
    else
      let s ← jsum rd c a n n
      pure ((V.nat n * bn - s) / (V.nat n * c0))

/-- `taylor_diff_acos_impl()` (`src/math/acos.cpp` 127-179). -/
def acosDiff (rd : Nat → Nat → Res (V K)) (n a c b : Nat) : Res (V K) := do
  if n = 0 then
    let b0 ← rd b 0
    pure (app .acos [b0])
  else
    let c0 ← rd c 0
    let bn ← rd b n
    if n = 1 then pure (-(bn / c0))
    else
      let s ← jsum rd c a n n
      pure ((V.nat n * bn + s) / -(V.nat n * c0))

/-- `taylor_diff_atan_impl()` (`src/math/atan.cpp` 110-165). -/
def atanDiff (rd : Nat → Nat → Res (V K)) (n a c b : Nat) : Res (V K) := do
  if n = 0 then
    let b0 ← rd b 0
    pure (app .atan [b0])
  else
    let c0 ← rd c 0
    let bn ← rd b n
    if n = 1 then pure (bn / (c0 + 1))
    else
      let s ← jsum rd c a n n
      pure ((V.nat n * bn - s) / (V.nat n * (c0 + 1)))

/-- `taylor_diff_atanh_impl()` (`src/math/atanh.cpp` 110-165). -/
def atanhDiff (rd : Nat → Nat → Res (V K)) (n a c b : Nat) : Res (V K) := do
  if n = 0 then
    let b0 ← rd b 0
    pure (app .atanh [b0])
  else
    let c0 ← rd c 0
    let bn ← rd b n
    if n = 1 then pure (bn / (1 - c0))
    else
      let s ← jsum rd c a n n
      pure ((V.nat n * bn + s) / (V.nat n * (1 - c0)))

/-- `taylor_diff_erf_impl()` (`src/math/erf.cpp` 157-196). -/
def erfDiff (rd : Nat → Nat → Res (V K)) (n c b : Nat) : Res (V K) := do
  if n = 0 then
    let b0 ← rd b 0
    pure (app .erf [b0])
  else
    let s ← jsum rd c b n (n + 1)
    pure (s / (V.nat n * V.fin TConst.sqrtPi2))

/-- `taylor_diff_sigmoid_impl()` (`src/math/sigmoid.cpp` 138-179). -/
def sigmoidDiff (rd : Nat → Nat → Res (V K)) (n a c b : Nat) : Res (V K) := do
  if n = 0 then
    let b0 ← rd b 0
    pure (app .sigmoid [b0])
  else
    let s ← sumR 1 (n + 1) fun j => do
      let anj ← rd a (n - j)
      let bj ← rd b j
      let cnj ← rd c (n - j)
      pure ((anj - cnj) * bj * V.nat j)
    pure (s / V.nat n)

/-- The second part of the dividend of the recurrences of `atan2`, `kepE`, `kepF`, added only for orders
greater than 1. -/
def addSum (n : Nat) (x : V K) (s : Res (V K)) : Res (V K) := do
  if 1 < n then
    let y ← s
    pure (x + y)
  else pure x

/-- `taylor_diff_atan2_impl()` (`src/math/atan2.cpp` 113-313): `a` is the index of the result, `d` the hidden
dependency, the arguments are `y` and `x`. -/
def atan2Diff (rd : Nat → Nat → Res (V K)) (n a d : Nat) : TArg K → TArg K → Res (V K)
  | .cst _ y, .cst _ x => cstDiff .atan2 n [y, x]
  | .u y, .cst _ x => do
    if n = 0 then
      let y0 ← rd y 0
      pure (app .atan2 [y0, x])
    else
      let d0 ← rd d 0
      let yn ← rd y n
      let s ← addSum n (V.nat n * (x * yn)) (sumR 1 n fun j => do
        let dnj ← rd d (n - j)
        let aj ← rd a j
        pure (-V.nat j * (dnj * aj)))
      pure (s / (V.nat n * d0))
  | .cst _ y, .u x => do
    if n = 0 then
      let x0 ← rd x 0
      pure (app .atan2 [y, x0])
    else
      let d0 ← rd d 0
      let xn ← rd x n
      let s ← addSum n (-V.nat n * (y * xn)) (sumR 1 n fun j => do
        let dnj ← rd d (n - j)
        let aj ← rd a j
        pure (-V.nat j * (dnj * aj)))
      pure (s / (V.nat n * d0))
  | .u y, .u x => do
    let x0 ← rd x 0
    let y0 ← rd y 0
    if n = 0 then pure (app .atan2 [y0, x0])
    else
      let d0 ← rd d 0
      let yn ← rd y n
      let xn ← rd x n
      let s ← addSum n (V.nat n * (x0 * yn - y0 * xn)) (sumR 1 n fun j => do
        let cnj ← rd x (n - j)
        let bj ← rd y j
        let bnj ← rd y (n - j)
        let cj ← rd x j
        let dnj ← rd d (n - j)
        let aj ← rd a j
        pure (V.nat j * (cnj * bj - bnj * cj - dnj * aj)))
      pure (s / (V.nat n * d0))

/-- `taylor_diff_kepE_impl()` (`src/math/kepE.cpp` 140-361): `a` is the index of the result, the hidden
dependencies are `c` (`e cos a`) and `d` (`sin a`), the arguments are `e` and `M`. -/
def kepEDiff (rd : Nat → Nat → Res (V K)) (n a c d : Nat) : TArg K → TArg K → Res (V K)
  | .cst _ e, .cst _ M => cstDiff .kepE n [e, M]
  | .u e, .cst _ M => do
    if n = 0 then
      let e0 ← rd e 0
      pure (app .kepE [e0, M])
    else
      let c0 ← rd c 0
      let en ← rd e n
      let d0 ← rd d 0
      let s ← addSum n (V.nat n * (en * d0)) (sumR 1 n fun j => do
        let cnj ← rd c (n - j)
        let aj ← rd a j
        let dnj ← rd d (n - j)
        let ej ← rd e j
        pure (V.nat j * (cnj * aj + dnj * ej)))
      pure (s / (V.nat n * (1 - c0)))
  | .cst _ e, .u M => do
    if n = 0 then
      let M0 ← rd M 0
      pure (app .kepE [e, M0])
    else
      let c0 ← rd c 0
      let Mn ← rd M n
      let s ← addSum n (V.nat n * Mn) (sumR 1 n fun j => do
        let cnj ← rd c (n - j)
        let aj ← rd a j
        pure (V.nat j * (cnj * aj)))
      pure (s / (V.nat n * (1 - c0)))
  | .u e, .u M => do
    if n = 0 then
      let e0 ← rd e 0
      let M0 ← rd M 0
      pure (app .kepE [e0, M0])
    else
      let c0 ← rd c 0
      let en ← rd e n
      let d0 ← rd d 0
      let Mn ← rd M n
      let s ← addSum n (V.nat n * (en * d0 + Mn)) (sumR 1 n fun j => do
        let cnj ← rd c (n - j)
        let aj ← rd a j
        let dnj ← rd d (n - j)
        let ej ← rd e j
        pure (V.nat j * (cnj * aj + dnj * ej)))
      pure (s / (V.nat n * (1 - c0)))

/-- `taylor_diff_kepF_impl()` (`src/math/kepF.cpp` 160-711): `a` is the index of the result, the hidden
dependencies are `c` (`h sin a`), `d` (`k cos a`), `e` (`sin a`), `f` (`cos a`), the arguments are `h`, `k` and
`λ`. -/
def kepFDiff (rd : Nat → Nat → Res (V K)) (n a c d e f : Nat) :
    TArg K → TArg K → TArg K → Res (V K)
  | .cst _ h, .cst _ k, .cst _ l => cstDiff .kepF n [h, k, l]
  | .cst _ h, .cst _ k, .u l => do
    if n = 0 then
      let l0 ← rd l 0
      pure (app .kepF [h, k, l0])
    else
      let c0 ← rd c 0
      let d0 ← rd d 0
      let ln ← rd l n
      let s ← addSum n (V.nat n * ln) (sumR 1 n fun j => do
        let cnj ← rd c (n - j)
        let dnj ← rd d (n - j)
        let aj ← rd a j
        pure ((cnj + dnj) * (V.nat j * aj)))
      pure (s / (V.nat n * (1 - c0 - d0)))
  | .cst _ h, .u k, .cst _ l => do
    if n = 0 then
      let k0 ← rd k 0
      pure (app .kepF [h, k0, l])
    else
      let c0 ← rd c 0
      let d0 ← rd d 0
      let kn ← rd k n
      let e0 ← rd e 0
      let s ← addSum n (V.nat n * kn * e0) (sumR 1 n fun j => do
        let cnj ← rd c (n - j)
        let dnj ← rd d (n - j)
        let enj ← rd e (n - j)
        let aj ← rd a j
        let kj ← rd k j
        pure (V.nat j * (aj * (cnj + dnj) + kj * enj)))
      pure (s / (V.nat n * (1 - c0 - d0)))
  | .u h, .cst _ k, .cst _ l => do
    if n = 0 then
      let h0 ← rd h 0
      pure (app .kepF [h0, k, l])
    else
      let c0 ← rd c 0
      let d0 ← rd d 0
      let hn ← rd h n
      let f0 ← rd f 0
      let s ← addSum n (-(V.nat n * hn * f0)) (sumR 1 n fun j => do
        let cnj ← rd c (n - j)
        let dnj ← rd d (n - j)
        let fnj ← rd f (n - j)
        let aj ← rd a j
        let hj ← rd h j
        pure (V.nat j * (aj * (cnj + dnj) - hj * fnj)))
      pure (s / (V.nat n * (1 - c0 - d0)))
  | .cst _ h, .u k, .u l => do
    if n = 0 then
      let k0 ← rd k 0
      let l0 ← rd l 0
      pure (app .kepF [h, k0, l0])
    else
      let c0 ← rd c 0
      let d0 ← rd d 0
      let kn ← rd k n
      let e0 ← rd e 0
      let ln ← rd l n
      let s ← addSum n (V.nat n * (kn * e0 + ln)) (sumR 1 n fun j => do
        let cnj ← rd c (n - j)
        let dnj ← rd d (n - j)
        let enj ← rd e (n - j)
        let aj ← rd a j
        let kj ← rd k j
        pure (V.nat j * (aj * (cnj + dnj) + kj * enj)))
      pure (s / (V.nat n * (1 - c0 - d0)))
  | .u h, .cst _ k, .u l => do
    if n = 0 then
      let h0 ← rd h 0
      let l0 ← rd l 0
      pure (app .kepF [h0, k, l0])
    else
      let c0 ← rd c 0
      let d0 ← rd d 0
      let hn ← rd h n
      let f0 ← rd f 0
      let ln ← rd l n
      let s ← addSum n (V.nat n * (ln - hn * f0)) (sumR 1 n fun j => do
        let cnj ← rd c (n - j)
        let dnj ← rd d (n - j)
        let fnj ← rd f (n - j)
        let aj ← rd a j
        let hj ← rd h j
        pure (V.nat j * (aj * (cnj + dnj) - hj * fnj)))
      pure (s / (V.nat n * (1 - c0 - d0)))
  | .u h, .u k, .cst _ l => do
    if n = 0 then
      let h0 ← rd h 0
      let k0 ← rd k 0
      pure (app .kepF [h0, k0, l])
    else
      let c0 ← rd c 0
      let d0 ← rd d 0
      let kn ← rd k n
      let e0 ← rd e 0
      let hn ← rd h n
      let f0 ← rd f 0
      let s ← addSum n (V.nat n * (kn * e0 - hn * f0)) (sumR 1 n fun j => do
        let cnj ← rd c (n - j)
        let dnj ← rd d (n - j)
        let enj ← rd e (n - j)
        let fnj ← rd f (n - j)
        let aj ← rd a j
        let hj ← rd h j
        let kj ← rd k j
        pure (V.nat j * (aj * (cnj + dnj) + (kj * enj - hj * fnj))))
      pure (s / (V.nat n * (1 - c0 - d0)))
  | .u h, .u k, .u l => do
    if n = 0 then
      let h0 ← rd h 0
      let k0 ← rd k 0
      let l0 ← rd l 0
      pure (app .kepF [h0, k0, l0])
    else
      let c0 ← rd c 0
      let d0 ← rd d 0
      let kn ← rd k n
      let e0 ← rd e 0
      let hn ← rd h n
      let f0 ← rd f 0
      let ln ← rd l n
      let s ← addSum n (V.nat n * (kn * e0 - hn * f0 + ln)) (sumR 1 n fun j => do
        let cnj ← rd c (n - j)
        let dnj ← rd d (n - j)
        let enj ← rd e (n - j)
        let fnj ← rd f (n - j)
        let aj ← rd a j
        let hj ← rd h j
        let kj ← rd k j
        pure (V.nat j * (aj * (cnj + dnj) + (kj * enj - hj * fnj))))
      pure (s / (V.nat n * (1 - c0 - d0)))

/-- `sum_taylor_diff_impl()` (`src/math/sum.cpp` 185-233). -/
def sumDiff (rd : Nat → Nat → Res (V K)) (n : Nat) (as : List (TArg K)) : Res (V K) := do
  let vals ← argVals rd n as
  psum vals

/-- The product of two `u` variables (`src/math/prod.cpp` 374-396). -/
def prodVV (rd : Nat → Nat → Res (V K)) (n a b : Nat) : Res (V K) :=
  sumR 0 (n + 1) fun j => do
    let x ← rd a (n - j)
    let y ← rd b j
    pure (x * y)

/-- `prod_taylor_diff_impl()` (`src/math/prod.cpp` 314-396). A literal −1 as first factor is a
negation. -/
def prodDiff (rd : Nat → Nat → Res (V K)) (n : Nat) : TArg K → TArg K → Res (V K)
  | .cst m x, .cst _ y =>
    if m = true ∧ x = -1 ∧ n = 0 then .ok (-y)
    else .ok (if n = 0 then x * y else 0)
  | .u a, .cst _ y => do
    let an ← rd a n
    pure (y * an)
  | .cst m x, .u b => do
    let bn ← rd b n
    if m = true ∧ x = -1 then pure (-bn)
    else pure (x * bn)
  | .u a, .u b => prodVV rd n a b

/-- `taylor_diff_square_impl()` (`src/math/pow.cpp` 390-426). -/
def squareDiff (rd : Nat → Nat → Res (V K)) (n b : Nat) : Res (V K) := do
  if n % 2 = 1 then
    let s ← sumR 0 ((n - 1) / 2 + 1) fun j => do
      let x ← rd b (n - j)
      let y ← rd b j
      pure (x * y)
    pure (s + s)
  else
    let m ← rd b (n / 2)
    let s ← sumR 0 ((n - 2) / 2 + 1) fun j => do
      let x ← rd b (n - j)
      let y ← rd b j
      pure (x * y)
    pure (s + s + m * m)

/-- `taylor_diff_sqrt_impl()` (`src/math/pow.cpp` 432-480). -/
def sqrtDiff (rd : Nat → Nat → Res (V K)) (n a b : Nat) : Res (V K) := do
  let a0 ← rd a 0
  let bn ← rd b n
  let hi := if n % 2 = 1 then (n - 1) / 2 + 1 else (n - 2) / 2 + 1
  let fac ← if n % 2 = 1 then pure bn else do
    let m ← rd a (n / 2)
    pure (bn - m * m)
  let fac ← if 1 < hi then do
      let s ← sumR 1 hi fun j => do
        let x ← rd a (n - j)
        let y ← rd a j
        pure (x * y)
      pure (fac - (s + s))
    else pure fac
  pure (fac / (a0 + a0))

/-- The general case of `taylor_diff_pow_impl()` for a variable base (`src/math/pow.cpp` 519-549). -/
def powGenDiff (rd : Nat → Nat → Res (V K)) (n a b : Nat) (e : V K) : Res (V K) := do
  let s ← sumR 0 n fun j => do
    let x ← rd b (n - j)
    let y ← rd a j
    pure ((V.nat n * e - V.nat j * (e + 1)) * (x * y))
  let b0 ← rd b 0
  pure (s / (V.nat n * b0))

/-- `taylor_diff_pow_impl()` (`src/math/pow.cpp` 371-387, 484-563): two constants, or a variable base with a
constant exponent (the special cases are selected by the literal exponents 1/2 and 2); the other cases
throw. -/
def powDiff (algo : PowAlgo) (rd : Nat → Nat → Res (V K)) (n a : Nat) : TArg K → TArg K → Res (V K)
  | .cst _ x, .cst _ y => cstDiff (.pow algo) n [x, y]
  | .u b, .cst m e => do
    if n = 0 then
      let b0 ← rd b 0
      pure (app (.pow algo) [b0, e])
    else if m = true ∧ e = V.fin (1 / 2) then sqrtDiff rd n a b
    else if m = true ∧ e = V.fin 2 then squareDiff rd n b
    else powGenDiff rd n a b e
  | _, _ => .throw

/-- `taylor_diff_sub_impl()` (`src/detail/sub.cpp` 64-124). -/
def subDiff (rd : Nat → Nat → Res (V K)) (n : Nat) : TArg K → TArg K → Res (V K)
  | .cst _ x, .cst _ y => .ok (if n = 0 then x - y else 0)
  | .cst _ x, .u b => do
    let bn ← rd b n
    pure (if n = 0 then x - bn else -bn)
  | .u a, .cst _ y => do
    let an ← rd a n
    pure (if n = 0 then an - y else an)
  | .u a, .u b => do
    let an ← rd a n
    let bn ← rd b n
    pure (an - bn)

/-- `taylor_diff_div_impl()` (`src/detail/div.cpp` 64-146). -/
def divDiff (rd : Nat → Nat → Res (V K)) (n a : Nat) : TArg K → TArg K → Res (V K)
  | .cst _ x, .cst _ y => .ok (if n = 0 then x / y else 0)
  | .u b, .cst _ y => do
    let bn ← rd b n
    pure (bn / y)
  | x, .u c => do
    if n = 0 then
      let x0 ← argVal rd 0 x
      let c0 ← rd c 0
      pure (x0 / c0)
    else
      let s ← sumR 1 (n + 1) fun j => do
        let anj ← rd a (n - j)
        let cj ← rd c j
        pure (anj * cj)
      let c0 ← rd c 0
      match x with
      | .cst _ _ => pure (-s / c0)
      | .u b => do
        let bn ← rd b n
        pure ((bn - s) / c0)

/-- The half sum of the square of one argument of a sum of squares: `looper` in `sum_sq_taylor_diff_impl()`
(`src/detail/sum_sq.cpp` 129-162) for all the values of `j` below `hi`, followed by `pairwise_sum()`. The
vector of a constant contains a single zero. Simplification: the loops over `j` and over the
arguments are exchanged. -/
def sqHalf (rd : Nat → Nat → Res (V K)) (n hi : Nat) : TArg K → Res (V K)
  | .cst _ _ => if 0 < hi then .ok 0 else .ub
  | .u i => sumR 0 hi fun j => do
    let x ← rd i (n - j)
    let y ← rd i j
    pure (x * y)

/-- The square of the derivative of order `n / 2` of one argument (`src/detail/sum_sq.cpp` 182-219). -/
def sqMid (rd : Nat → Nat → Res (V K)) (n : Nat) : TArg K → Res (V K)
  | .cst _ c => .ok (if n = 0 then c * c else 0)
  | .u i => do
    let x ← rd i (n / 2)
    pure (x * x)

/-- The contribution of one argument for an even order (`src/detail/sum_sq.cpp` 182-219). -/
def sqEven (rd : Nat → Nat → Res (V K)) (n : Nat) (a : TArg K) : Res (V K) := do
  let t ← sqMid rd n a
  if 0 < n then
    let p ← sqHalf rd n ((n - 2) / 2 + 1) a
    pure (p + p + t)
  else pure t

/-- Run a computation for every argument. -/
def mapArgs (g : TArg K → Res (V K)) : List (TArg K) → Res (List (V K))
  | [] => .ok []
  | a :: as => do
    let x ← g a
    let xs ← mapArgs g as
    pure (x :: xs)

/-- `sum_sq_taylor_diff_impl()` (`src/detail/sum_sq.cpp` 100-226). -/
def sumSqDiff (rd : Nat → Nat → Res (V K)) (n : Nat) (as : List (TArg K)) : Res (V K) := do
  if n % 2 = 1 then
    let l ← mapArgs (sqHalf rd n ((n - 1) / 2 + 1)) as
    let s ← psum l
    pure (s + s)
  else
    let l ← mapArgs (sqEven rd n) as
    psum l

/-- Selection of a value by a positive number (`fcmp ogt` followed by `select`). An undefined condition gives
an undefined value (simplification: in the code it selects the second value). -/
def selPos (c x y : V K) : V K :=
  match c.toOption with
  | some c => if 0 < c then x else y
  | none => V.nan

/-- `taylor_diff_relu_impl()` (`src/math/relu.cpp` 144-180). -/
def reluDiff (s : K) (rd : Nat → Nat → Res (V K)) (n : Nat) : TArg K → Res (V K)
  | .cst _ c => cstDiff (.relu s) n [c]
  | .u b => do
    let b0 ← rd b 0
    let bn ← rd b n
    if s = 0 then pure (selPos b0 bn 0)
    else pure (selPos b0 bn (V.fin s * bn))

/-- `taylor_diff_relup_impl()` (`src/math/relu.cpp` 391-425). -/
def relupDiff (s : K) (rd : Nat → Nat → Res (V K)) (n : Nat) : TArg K → Res (V K)
  | .cst _ c => cstDiff (.relup s) n [c]
  | .u b => do
    let b0 ← rd b 0
    pure (if n = 0 then app (.relup s) [b0] else 0)

/-- `select_eval_impl()` (`src/math/select.cpp` 72-77). An undefined condition gives an undefined value
(simplification: a NaN selects the first value). -/
def selNz (c x y : V K) : V K :=
  match c.toOption with
  | some c => if c ≠ 0 then x else y
  | none => V.nan

/-- `select_impl::taylor_diff()` (`src/math/select.cpp` 88-142): the condition is taken at order 0. -/
def selectDiff (rd : Nat → Nat → Res (V K)) (n : Nat) (c x y : TArg K) : Res (V K) := do
  let c0 ← argVal rd 0 c
  let xn ← argVal rd n x
  let yn ← argVal rd n y
  pure (selNz c0 xn yn)

/-- `rel_impl::taylor_diff()` (`src/math/relational.cpp` 197-235), `logical_and_impl::taylor_diff()` and
`logical_or_impl::taylor_diff()` (`src/math/logical.cpp` 93-130, 266-300): the value at order 0, zero
otherwise. -/
def boolDiff (f : Fn K) (rd : Nat → Nat → Res (V K)) (n : Nat) (as : List (TArg K)) : Res (V K) := do
  if n = 0 then
    let vs ← argVals rd 0 as
    pure (app f vs)
  else pure 0

/-- The functions of one argument without hidden dependencies: a constant argument is handled by
`cstDiff`; the number of arguments is asserted, the hidden dependencies are checked. -/
def unDiff (f : Fn K) (n : Nat) (deps : List Nat) (as : List (TArg K)) (var : Nat → Res (V K)) :
    Res (V K) :=
  match as with
  | [a] =>
    if deps ≠ [] then .throw
    else match a with
      | .cst _ c => cstDiff f n [c]
      | .u b => var b
  | _ => .ub

/-- The functions of one argument with one hidden dependency. -/
def unDiff1 (f : Fn K) (n : Nat) (deps : List Nat) (as : List (TArg K)) (var : Nat → Nat → Res (V K)) :
    Res (V K) :=
  match as with
  | [a] =>
    match deps with
    | [d] =>
      match a with
      | .cst _ c => cstDiff f n [c]
      | .u b => var d b
    | _ => .throw
  | _ => .ub

/-- `func::taylor_diff()` for the function `f` with the arguments `as` and the hidden dependencies `deps`: the
normalised derivative of order `n` of the `u` variable `idx`. The wrong numbers of arguments are
assertions, the wrong numbers of hidden dependencies are exceptions (assertions for `select`, the
relational and logical operators and the number identity). `kepDE`, `dfun` and the other functions do not
have a Taylor derivative (`src/func.cpp`: the default implementation throws). -/
def taylorDiff (time : K) (rd : Nat → Nat → Res (V K)) (n idx : Nat) (deps : List Nat) :
    Fn K → List (TArg K) → Res (V K)
  | .sum, as => if as = [] then .ub else if deps ≠ [] then .throw else sumDiff rd n as
  | .prod _, [a, b] => if deps ≠ [] then .throw else prodDiff rd n a b
  | .prod _, _ => .throw
  | .pow algo, [a, b] => if deps ≠ [] then .throw else powDiff algo rd n idx a b
  | .sub, [a, b] => if deps ≠ [] then .throw else subDiff rd n a b
  | .div, [a, b] => if deps ≠ [] then .throw else divDiff rd n idx a b
  | .sumSq, as => if as = [] then .ub else if deps ≠ [] then .throw else sumSqDiff rd n as
  | .sin c, as => unDiff1 (.sin c) n deps as (sinDiff (.sin c) rd n)
  | .cos c, as => unDiff1 (.cos c) n deps as (cosDiff (.cos c) rd n)
  | .tan, as => unDiff1 .tan n deps as (tanDiff rd n)
  | .asin, as => unDiff1 .asin n deps as (asinDiff .asin rd n idx)
  | .acos, as => unDiff1 .acos n deps as (acosDiff rd n idx)
  | .atan, as => unDiff1 .atan n deps as (atanDiff rd n idx)
  | .atan2, [y, x] => match deps with
    | [d] => atan2Diff rd n idx d y x
    | _ => .throw
  | .sinh, as => unDiff1 .sinh n deps as (sinDiff .sinh rd n)
  | .cosh, as => unDiff1 .cosh n deps as (sinDiff .cosh rd n)
  | .tanh, as => unDiff1 .tanh n deps as (tanhDiff rd n)
  | .asinh, as => unDiff1 .asinh n deps as (asinDiff .asinh rd n idx)
  | .acosh, as => unDiff1 .acosh n deps as (asinDiff .acosh rd n idx)
  | .atanh, as => unDiff1 .atanh n deps as (atanhDiff rd n idx)
  | .erf, as => unDiff1 .erf n deps as (erfDiff rd n)
  | .exp, as => unDiff .exp n deps as (expDiff rd n idx)
  | .log, as => unDiff .log n deps as (logDiff rd n idx)
  | .sigmoid, as => unDiff1 .sigmoid n deps as (sigmoidDiff rd n idx)
  | .relu s, [a] => if deps ≠ [] then .throw else reluDiff s rd n a
  | .relup s, [a] => if deps ≠ [] then .throw else relupDiff s rd n a
  | .select, [c, x, y] => if deps ≠ [] then .ub else selectDiff rd n c x y
  | .rel op, [a, b] => if deps ≠ [] then .ub else boolDiff (.rel op) rd n [a, b]
  | .land, as => if as = [] ∨ deps ≠ [] then .ub else boolDiff .land rd n as
  | .lor, as => if as = [] ∨ deps ≠ [] then .ub else boolDiff .lor rd n as
  | .time, _ => .ok (if n = 0 then V.fin time else if n = 1 then 1 else 0)
  | .const name, _ => .ok (if n = 0 then app (.const name) [] else 0)
  | .kepE, [e, M] => match deps with
    | [c, d] => kepEDiff rd n idx c d e M
    | _ => .throw
  | .kepF, [h, k, l] => match deps with
    | [c, d, e, f] => kepFDiff rd n idx c d e f h k l
    | _ => .throw
  | .numId, [.cst true c] => if deps ≠ [] then .ub else .ok (if n = 0 then c else 0)
  | .kepDE, _ => .throw
  | .dfun _ _, _ => .throw
  | .other _, _ => .throw
  | _, _ => .ub

end

end Heyoka.Taylor
