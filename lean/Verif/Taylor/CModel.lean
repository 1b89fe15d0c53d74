import Verif.Taylor.Model
import Verif.Compact.Model

/-!
# The recurrences for the normalised derivatives, compact mode

`taylor_c_diff_func()` of every function (`src/math/*.cpp`, `src/detail/{sub,div,sum_sq,num_identity}.cpp`). In compact
mode the recurrence of a function is a function of the generated code, whose arguments are the order, the index of
the `u` variable, the arguments (numbers by value, parameters and `u` variables by index) and the indices of
the hidden dependencies. The sums are computed by loops with an accumulator initialised to zero and the order is
tested at run time; there are no special cases for the first order.
-/

set_option linter.unusedSectionVars false

namespace Heyoka.Taylor

open Heyoka.Sym
open EopSw (decimal)

variable {K : Type}

section
variable [Field K]

/-- The iterations of a loop adding the results of the body to an accumulator. -/
def accLoop (body : Nat → Res (V K)) : List Nat → V K → Res (V K)
  | [], acc => .ok acc
  | j :: js, acc => do
    let x ← body j
    accLoop body js (acc + x)

/-- `llvm_loop_u32()` for `j` in `[a, b)` (`src/detail/llvm_helpers_control.cpp`: the condition is checked before the
first iteration) with an accumulator initialised to zero. -/
def accR (a b : Nat) (body : Nat → Res (V K)) : Res (V K) := accLoop body (List.range' a (b - a)) 0

end

section
variable [Field K] [LinearOrder K] [Interp K] [TConst K]

/-- The loop adding `j * (c^[n - j] * b^[j])` for `j` in `[1, hi)`. -/
def jacc (rd : Nat → Nat → Res (V K)) (c b n hi : Nat) : Res (V K) :=
  accR 1 hi fun j => do
    let x ← rd c (n - j)
    let y ← rd b j
    pure (V.nat j * (x * y))

/-- `taylor_c_diff_func_numpar()` (`include/heyoka/detail/taylor_common.hpp` 70-157): a function of numbers and
parameters, its value at order 0 and zero otherwise. -/
def cstDiffC (f : Fn K) (n : Nat) (cs : List (V K)) : Res (V K) :=
  .ok (if n = 0 then app f cs else 0)

/-- `taylor_c_diff_func_exp_impl()` (`src/math/exp.cpp` 182-275). -/
def expDiffC (rd : Nat → Nat → Res (V K)) (n a b : Nat) : Res (V K) := do
  if n = 0 then
    let b0 ← rd b 0
    pure (app .exp [b0])
  else
    let acc ← jacc rd a b n (n + 1)
    pure (acc / V.nat n)

/-- `taylor_c_diff_func_log_impl()` (`src/math/log.cpp` 195-290). -/
def logDiffC (rd : Nat → Nat → Res (V K)) (n a b : Nat) : Res (V K) := do
  if n = 0 then
    let b0 ← rd b 0
    pure (app .log [b0])
  else
    let acc ← jacc rd b a n n
    let bn ← rd b n
    let b0 ← rd b 0
    pure ((V.nat n * bn - acc) / (V.nat n * b0))

/-- `taylor_c_diff_func_sin_impl()` (`src/math/sin.cpp` 256-345), `taylor_c_diff_func_sinh_impl()` (`src/math/sinh.cpp`
214-295), `taylor_c_diff_func_cosh_impl()` (`src/math/cosh.cpp` 212-294). -/
def sinDiffC (f : Fn K) (rd : Nat → Nat → Res (V K)) (n c b : Nat) : Res (V K) := do
  if n = 0 then
    let b0 ← rd b 0
    pure (app f [b0])
  else
    let acc ← jacc rd c b n (n + 1)
    pure (acc / V.nat n)

/-- `taylor_c_diff_func_cos_impl()` (`src/math/cos.cpp` 256-345). -/
def cosDiffC (f : Fn K) (rd : Nat → Nat → Res (V K)) (n c b : Nat) : Res (V K) := do
  if n = 0 then
    let b0 ← rd b 0
    pure (app f [b0])
  else
    let acc ← jacc rd c b n (n + 1)
    pure (acc / -V.nat n)

/-- `taylor_c_diff_func_tan_impl()` (`src/math/tan.cpp` 204-289). -/
def tanDiffC (rd : Nat → Nat → Res (V K)) (n c b : Nat) : Res (V K) := do
  if n = 0 then
    let b0 ← rd b 0
    pure (app .tan [b0])
  else
    let acc ← jacc rd c b n (n + 1)
    let bn ← rd b n
    pure (bn + acc / V.nat n)

/-- `taylor_c_diff_func_tanh_impl()` (`src/math/tanh.cpp` 213-298). -/
def tanhDiffC (rd : Nat → Nat → Res (V K)) (n c b : Nat) : Res (V K) := do
  if n = 0 then
    let b0 ← rd b 0
    pure (app .tanh [b0])
  else
    let acc ← jacc rd c b n (n + 1)
    let bn ← rd b n
    pure (bn - acc / V.nat n)

/-- `taylor_c_diff_func_asin_impl()` (`src/math/asin.cpp` 243-342), `taylor_c_diff_func_asinh_impl()`
(`src/math/asinh.cpp` 236-335), `taylor_c_diff_func_acosh_impl()` (`src/math/acosh.cpp` 236-335). -/
def asinDiffC (f : Fn K) (rd : Nat → Nat → Res (V K)) (n a c b : Nat) : Res (V K) := do
  if n = 0 then
    let b0 ← rd b 0
    pure (app f [b0])
  else
    let acc ← jacc rd c a n n
    let c0 ← rd c 0
    let bn ← rd b n
    pure ((V.nat n * bn - acc) / (V.nat n * c0))

/-- `taylor_c_diff_func_acos_impl()` (`src/math/acos.cpp` 244-344). -/
def acosDiffC (rd : Nat → Nat → Res (V K)) (n a c b : Nat) : Res (V K) := do
  if n = 0 then
    let b0 ← rd b 0
    pure (app .acos [b0])
  else
    let acc ← jacc rd c a n n
    let c0 ← rd c 0
    let bn ← rd b n
    pure ((V.nat n * bn + acc) / -(V.nat n * c0))

/-- `taylor_c_diff_func_atan_impl()` (`src/math/atan.cpp` 230-333). -/
def atanDiffC (rd : Nat → Nat → Res (V K)) (n a c b : Nat) : Res (V K) := do
  if n = 0 then
    let b0 ← rd b 0
    pure (app .atan [b0])
  else
    let acc ← jacc rd c a n n
    let c0 ← rd c 0
    let bn ← rd b n
    pure ((V.nat n * bn - acc) / (V.nat n * (c0 + 1)))

/-- `taylor_c_diff_func_atanh_impl()` (`src/math/atanh.cpp` 230-333). -/
def atanhDiffC (rd : Nat → Nat → Res (V K)) (n a c b : Nat) : Res (V K) := do
  if n = 0 then
    let b0 ← rd b 0
    pure (app .atanh [b0])
  else
    let acc ← jacc rd c a n n
    let c0 ← rd c 0
    let bn ← rd b n
    pure ((V.nat n * bn + acc) / (V.nat n * (1 - c0)))

/-- `taylor_c_diff_func_erf_impl()` (`src/math/erf.cpp` 260-348). -/
def erfDiffC (rd : Nat → Nat → Res (V K)) (n c b : Nat) : Res (V K) := do
  if n = 0 then
    let b0 ← rd b 0
    pure (app .erf [b0])
  else
    let acc ← jacc rd c b n (n + 1)
    pure (acc / (V.fin TConst.sqrtPi2 * V.nat n))

/-- `taylor_c_diff_func_sigmoid_impl()` (`src/math/sigmoid.cpp` 244-334). -/
def sigmoidDiffC (rd : Nat → Nat → Res (V K)) (n a c b : Nat) : Res (V K) := do
  if n = 0 then
    let b0 ← rd b 0
    pure (app .sigmoid [b0])
  else
    let acc ← accR 1 (n + 1) fun j => do
      let anj ← rd a (n - j)
      let bj ← rd b j
      let cnj ← rd c (n - j)
      pure ((anj - cnj) * bj * V.nat j)
    pure (acc / V.nat n)

/-- `taylor_c_diff_func_atan2_impl()` (`src/math/atan2.cpp` 369-710). -/
def atan2DiffC (rd : Nat → Nat → Res (V K)) (n a d : Nat) : TArg K → TArg K → Res (V K)
  | .cst _ y, .cst _ x => cstDiffC .atan2 n [y, x]
  | .u y, .cst _ x => do
    if n = 0 then
      let y0 ← rd y 0
      pure (app .atan2 [y0, x])
    else
      let acc ← jacc rd d a n n
      let yn ← rd y n
      let d0 ← rd d 0
      pure ((V.nat n * x * yn - acc) / (V.nat n * d0))
  | .cst _ y, .u x => do
    if n = 0 then
      let x0 ← rd x 0
      pure (app .atan2 [y, x0])
    else
      let acc ← jacc rd d a n n
      let xn ← rd x n
      let d0 ← rd d 0
      pure ((-V.nat n * y * xn - acc) / (V.nat n * d0))
  | .u y, .u x => do
    if n = 0 then
      let y0 ← rd y 0
      let x0 ← rd x 0
      pure (app .atan2 [y0, x0])
    else
      let d0 ← rd d 0
      let x0 ← rd x 0
      let yn ← rd y n
      let y0 ← rd y 0
      let xn ← rd x n
      let acc ← accR 1 n fun j => do
        let cnj ← rd x (n - j)
        let bj ← rd y j
        let bnj ← rd y (n - j)
        let cj ← rd x j
        let dnj ← rd d (n - j)
        let aj ← rd a j
        pure (V.nat j * (cnj * bj - bnj * cj - dnj * aj))
      pure ((V.nat n * (x0 * yn - y0 * xn) + acc) / (V.nat n * d0))

/-- The accumulator of `kepE` for a variable eccentricity (`src/math/kepE.cpp` 495-520, 715-740). -/
def kepEAcc (rd : Nat → Nat → Res (V K)) (n a c d e : Nat) : Res (V K) :=
  accR 1 n fun j => do
    let dnj ← rd d (n - j)
    let ej ← rd e j
    let cnj ← rd c (n - j)
    let aj ← rd a j
    pure (V.nat j * (dnj * ej + cnj * aj))

/-- `taylor_c_diff_func_kepE_impl()` (`src/math/kepE.cpp` 410-765). -/
def kepEDiffC (rd : Nat → Nat → Res (V K)) (n a c d : Nat) : TArg K → TArg K → Res (V K)
  | .cst _ e, .cst _ M => cstDiffC .kepE n [e, M]
  | .u e, .cst _ M => do
    if n = 0 then
      let e0 ← rd e 0
      pure (app .kepE [e0, M])
    else
      let c0 ← rd c 0
      let en ← rd e n
      let d0 ← rd d 0
      let acc ← kepEAcc rd n a c d e
      pure ((V.nat n * en * d0 + acc) / (V.nat n * (1 - c0)))
  | .cst _ e, .u M => do
    if n = 0 then
      let M0 ← rd M 0
      pure (app .kepE [e, M0])
    else
      let c0 ← rd c 0
      let Mn ← rd M n
      let acc ← jacc rd c a n n
      pure ((V.nat n * Mn + acc) / (V.nat n * (1 - c0)))
  | .u e, .u M => do
    if n = 0 then
      let e0 ← rd e 0
      let M0 ← rd M 0
      pure (app .kepE [e0, M0])
    else
      let c0 ← rd c 0
      let en ← rd e n
      let d0 ← rd d 0
      let Mn ← rd M n
      let acc ← kepEAcc rd n a c d e
      pure ((V.nat n * (en * d0 + Mn) + acc) / (V.nat n * (1 - c0)))

/-- The accumulators of `kepF` (`src/math/kepF.cpp` 765-1650). The second and third terms are present if `k` and `h` are
variables. -/
def kepFAccL (rd : Nat → Nat → Res (V K)) (n a c d : Nat) : Res (V K) :=
  accR 1 n fun j => do
    let cnj ← rd c (n - j)
    let dnj ← rd d (n - j)
    let aj ← rd a j
    pure (V.nat j * aj * (cnj + dnj))

@[inherit_doc kepFAccL]
def kepFAccK (rd : Nat → Nat → Res (V K)) (n a c d e k : Nat) : Res (V K) :=
  accR 1 n fun j => do
    let cnj ← rd c (n - j)
    let dnj ← rd d (n - j)
    let aj ← rd a j
    let kj ← rd k j
    let enj ← rd e (n - j)
    pure (V.nat j * (aj * (cnj + dnj) + kj * enj))

@[inherit_doc kepFAccL]
def kepFAccH (rd : Nat → Nat → Res (V K)) (n a c d f h : Nat) : Res (V K) :=
  accR 1 n fun j => do
    let cnj ← rd c (n - j)
    let dnj ← rd d (n - j)
    let aj ← rd a j
    let hj ← rd h j
    let fnj ← rd f (n - j)
    pure (V.nat j * (aj * (cnj + dnj) - hj * fnj))

@[inherit_doc kepFAccL]
def kepFAccHK (rd : Nat → Nat → Res (V K)) (n a c d e f h k : Nat) : Res (V K) :=
  accR 1 n fun j => do
    let cnj ← rd c (n - j)
    let dnj ← rd d (n - j)
    let aj ← rd a j
    let kj ← rd k j
    let enj ← rd e (n - j)
    let hj ← rd h j
    let fnj ← rd f (n - j)
    pure (V.nat j * (aj * (cnj + dnj) + (kj * enj - hj * fnj)))

/-- `taylor_c_diff_func_kepF_impl()` (`src/math/kepF.cpp` 765-1650). -/
def kepFDiffC (rd : Nat → Nat → Res (V K)) (n a c d e f : Nat) : TArg K → TArg K → TArg K → Res (V K)
  | .cst _ h, .cst _ k, .cst _ l => cstDiffC .kepF n [h, k, l]
  | .cst _ h, .cst _ k, .u l => do
    if n = 0 then
      let l0 ← rd l 0
      pure (app .kepF [h, k, l0])
    else
      let c0 ← rd c 0
      let d0 ← rd d 0
      let ln ← rd l n
      let acc ← kepFAccL rd n a c d
      pure ((V.nat n * ln + acc) / (V.nat n * (1 - c0 - d0)))
  | .cst _ h, .u k, .cst _ l => do
    if n = 0 then
      let k0 ← rd k 0
      pure (app .kepF [h, k0, l])
    else
      let c0 ← rd c 0
      let d0 ← rd d 0
      let kn ← rd k n
      let e0 ← rd e 0
      let acc ← kepFAccK rd n a c d e k
      pure ((V.nat n * kn * e0 + acc) / (V.nat n * (1 - c0 - d0)))
  | .u h, .cst _ k, .cst _ l => do
    if n = 0 then
      let h0 ← rd h 0
      pure (app .kepF [h0, k, l])
    else
      let c0 ← rd c 0
      let d0 ← rd d 0
      let hn ← rd h n
      let f0 ← rd f 0
      let acc ← kepFAccH rd n a c d f h
      pure ((-(V.nat n * hn * f0) + acc) / (V.nat n * (1 - c0 - d0)))
  | .cst _ h, .u k, .u l => do
    if n = 0 then
      let k0 ← rd k 0
      let l0 ← rd l 0
      pure (app .kepF [h, k0, l0])
    else
      let c0 ← rd c 0
      let d0 ← rd d 0
      let kn ← rd k n
      let e0 ← rd e 0
      let ln ← rd l n
      let acc ← kepFAccK rd n a c d e k
      pure ((V.nat n * (kn * e0 + ln) + acc) / (V.nat n * (1 - c0 - d0)))
  | .u h, .cst _ k, .u l => do
    if n = 0 then
      let h0 ← rd h 0
      let l0 ← rd l 0
      pure (app .kepF [h0, k, l0])
    else
      let c0 ← rd c 0
      let d0 ← rd d 0
      let hn ← rd h n
      let f0 ← rd f 0
      let ln ← rd l n
      let acc ← kepFAccH rd n a c d f h
      pure ((V.nat n * (ln - hn * f0) + acc) / (V.nat n * (1 - c0 - d0)))
  | .u h, .u k, .cst _ l => do
    if n = 0 then
      let h0 ← rd h 0
      let k0 ← rd k 0
      pure (app .kepF [h0, k0, l])
    else
      let c0 ← rd c 0
      let d0 ← rd d 0
      let kn ← rd k n
      let e0 ← rd e 0
      let hn ← rd h n
      let f0 ← rd f 0
      let acc ← kepFAccHK rd n a c d e f h k
      pure ((V.nat n * (kn * e0 - hn * f0) + acc) / (V.nat n * (1 - c0 - d0)))
  | .u h, .u k, .u l => do
    if n = 0 then
      let h0 ← rd h 0
      let k0 ← rd k 0
      let l0 ← rd l 0
      pure (app .kepF [h0, k0, l0])
    else
      let c0 ← rd c 0
      let d0 ← rd d 0
      let kn ← rd k n
      let e0 ← rd e 0
      let hn ← rd h n
      let f0 ← rd f 0
      let ln ← rd l n
      let acc ← kepFAccHK rd n a c d e f h k
      pure ((V.nat n * (kn * e0 - hn * f0 + ln) + acc) / (V.nat n * (1 - c0 - d0)))

/-- `sum_taylor_c_diff_func_impl()` (`src/math/sum.cpp` 248-355). -/
def sumDiffC (rd : Nat → Nat → Res (V K)) (n : Nat) (as : List (TArg K)) : Res (V K) := do
  let vals ← argVals rd n as
  psum vals

/-- `prod_taylor_c_diff_func_impl()` (`src/math/prod.cpp` 441-715) for the function named `prod`. -/
def prodDiffC (rd : Nat → Nat → Res (V K)) (n : Nat) : TArg K → TArg K → Res (V K)
  | .cst _ x, .cst _ y => .ok (if n = 0 then x * y else 0)
  | .u a, .cst _ y => do
    let an ← rd a n
    pure (an * y)
  | .cst _ x, .u b => do
    let bn ← rd b n
    pure (bn * x)
  | .u a, .u b => accR 0 (n + 1) fun j => do
    let x ← rd a (n - j)
    let y ← rd b j
    pure (x * y)

/-- `prod_taylor_c_diff_func_impl()` (`src/math/prod.cpp` 446-461, 530-585) for the function named `prod_neg`. -/
def negDiffC (rd : Nat → Nat → Res (V K)) (n : Nat) : TArg K → TArg K → Res (V K)
  | .cst _ _, .cst _ y => .ok (if n = 0 then -y else 0)
  | .cst _ _, .u b => do
    let bn ← rd b n
    pure (-bn)
  | _, _ => .ub

/-- The loop adding `x^[n - j] * x^[j]`. -/
def sqAcc (rd : Nat → Nat → Res (V K)) (x n a hi : Nat) : Res (V K) :=
  accR a hi fun j => do
    let y ← rd x (n - j)
    let z ← rd x j
    pure (y * z)

/-- `taylor_c_diff_func_square_impl()` (`src/math/pow.cpp` 615-730). -/
def squareDiffC (rd : Nat → Nat → Res (V K)) (n b : Nat) : Res (V K) := do
  if n = 0 then
    let b0 ← rd b 0
    pure (b0 * b0)
  else if n % 2 = 1 then
    let acc ← sqAcc rd b n 0 ((n - 1) / 2 + 1)
    pure (acc + acc)
  else
    let acc ← sqAcc rd b n 0 ((n - 2) / 2 + 1)
    let m ← rd b (n / 2)
    pure (acc + acc + m * m)

/-- The square root of the generated code, `llvm_sqrt()`. -/
def sqrtV (x : V K) : V K := app (.pow (.posHalf 1)) [x, V.fin (1 / 2)]

/-- `taylor_c_diff_func_sqrt_impl()` (`src/math/pow.cpp` 732-845). -/
def sqrtDiffC (rd : Nat → Nat → Res (V K)) (n a b : Nat) : Res (V K) := do
  if n = 0 then
    let b0 ← rd b 0
    pure (sqrtV b0)
  else
    let bn ← rd b n
    let a0 ← rd a 0
    let upper := if n % 2 = 1 then (n - 1) / 2 else (n - 2) / 2
    let acc ← sqAcc rd a n 1 (upper + 1)
    if n % 2 = 1 then pure ((bn - (acc + acc)) / (a0 + a0))
    else
      let m ← rd a (n / 2)
      pure ((bn - m * m - (acc + acc)) / (a0 + a0))

variable [CodeInterp K]

/-- The power computed by the strategy `a`: `pow_eval_algo::eval_f` (`src/math/pow.cpp` 292-355). -/
def powV (a : PowAlgo) (x y : V K) : V K :=
  V.ofOption ((allSome ([x, y].map V.toOption)).bind (CodeInterp.code (.pow a)))

/-- `taylor_c_diff_func_pow_impl()` (`src/math/pow.cpp` 603-614, 847-945), the general case, for the strategy `algo` of
the evaluation of the power. -/
def powDiffC (algo : PowAlgo) (rd : Nat → Nat → Res (V K)) (n a : Nat) : TArg K → TArg K → Res (V K)
  | .cst _ x, .cst _ y => .ok (if n = 0 then powV algo x y else 0)
  | .u b, .cst _ e => do
    if n = 0 then
      let b0 ← rd b 0
      pure (powV algo b0 e)
    else
      let acc ← accR 0 n fun j => do
        let x ← rd b (n - j)
        let y ← rd a j
        pure ((V.nat n * e - V.nat j * (e + 1)) * (x * y))
      let b0 ← rd b 0
      pure (acc / (V.nat n * b0))
  | _, _ => .ub

/-- `taylor_c_diff_func_sub_impl()` (`src/detail/sub.cpp` 168-405). -/
def subDiffC (rd : Nat → Nat → Res (V K)) (n : Nat) : TArg K → TArg K → Res (V K)
  | .cst _ x, .cst _ y => .ok (if n = 0 then x - y else 0)
  | .cst _ x, .u b => do
    if n = 0 then
      let b0 ← rd b 0
      pure (x - b0)
    else
      let bn ← rd b n
      pure (-bn)
  | .u a, .cst _ y => do
    let an ← rd a n
    if n = 0 then pure (an - y) else pure an
  | .u a, .u b => do
    let an ← rd a n
    let bn ← rd b n
    pure (an - bn)

/-- The accumulator of a division (`src/detail/div.cpp` 320-340, 405-425). -/
def divAcc (rd : Nat → Nat → Res (V K)) (n a c : Nat) : Res (V K) :=
  accR 1 (n + 1) fun j => do
    let cj ← rd c j
    let anj ← rd a (n - j)
    pure (cj * anj)

/-- `taylor_c_diff_func_div_impl()` (`src/detail/div.cpp` 189-435). -/
def divDiffC (rd : Nat → Nat → Res (V K)) (n a : Nat) : TArg K → TArg K → Res (V K)
  | .cst _ x, .cst _ y => .ok (if n = 0 then x / y else 0)
  | .u b, .cst _ y => do
    let bn ← rd b n
    pure (bn / y)
  | .cst _ x, .u c => do
    if n = 0 then
      let c0 ← rd c 0
      pure (x / c0)
    else
      let acc ← divAcc rd n a c
      let c0 ← rd c 0
      pure (-acc / c0)
  | .u b, .u c => do
    let acc ← divAcc rd n a c
    let bn ← rd b n
    let c0 ← rd c 0
    pure ((bn - acc) / c0)

/-- The accumulator of one argument of a sum of squares (`src/detail/sum_sq.cpp` 300-350): only the variables are
visited by the loop. -/
def sqHalfC (rd : Nat → Nat → Res (V K)) (n hi : Nat) : TArg K → Res (V K)
  | .cst _ _ => .ok 0
  | .u i => sqAcc rd i n 0 hi

/-- The square of the derivative of order `n / 2` of one argument (`src/detail/sum_sq.cpp` 395-440). -/
def sqMidC (rd : Nat → Nat → Res (V K)) (n : Nat) : TArg K → Res (V K)
  | .cst _ c => .ok (if n = 0 then c * c else 0 * 0)
  | .u i => do
    let x ← rd i (n / 2)
    pure (x * x)

/-- The contribution of one argument for an even order (`src/detail/sum_sq.cpp` 375-445). -/
def sqEvenC (rd : Nat → Nat → Res (V K)) (n : Nat) (a : TArg K) : Res (V K) := do
  let acc ← if 0 < n then sqHalfC rd n ((n - 2) / 2 + 1) a else .ok 0
  let m ← sqMidC rd n a
  pure (acc + acc + m)

/-- `sum_sq_taylor_c_diff_func_impl()` (`src/detail/sum_sq.cpp` 250-470). Simplification: the loops over the
arguments and over `j` are exchanged. -/
def sumSqDiffC (rd : Nat → Nat → Res (V K)) (n : Nat) (as : List (TArg K)) : Res (V K) := do
  if n % 2 = 1 then
    let l ← mapArgs (sqHalfC rd n ((n - 1) / 2 + 1)) as
    let s ← psum l
    pure (s + s)
  else
    let l ← mapArgs (sqEvenC rd n) as
    psum l

/-- `taylor_c_diff_func_relu_impl()` (`src/math/relu.cpp` 222-303). -/
def reluDiffC (s : K) (rd : Nat → Nat → Res (V K)) (n : Nat) : TArg K → Res (V K)
  | .cst _ c => cstDiffC (.relu s) n [c]
  | .u b => do
    let b0 ← rd b 0
    let bn ← rd b n
    pure (selPos b0 bn (if s = 0 then 0 else V.fin s * bn))

/-- `taylor_c_diff_func_relup_impl()` (`src/math/relu.cpp` 466-555). -/
def relupDiffC (s : K) (rd : Nat → Nat → Res (V K)) (n : Nat) : TArg K → Res (V K)
  | .cst _ c => cstDiffC (.relup s) n [c]
  | .u b => do
    if n = 0 then
      let b0 ← rd b 0
      pure (app (.relup s) [b0])
    else pure 0

/-- The condition of `select` (`src/math/select.cpp` 205-220): constants do not depend on the order. -/
def condC (rd : Nat → Nat → Res (V K)) : TArg K → Res (V K)
  | .cst _ c => .ok c
  | .u i => rd i 0

/-- `select_impl::taylor_c_diff_func()` (`src/math/select.cpp` 144-257). -/
def selectDiffC (rd : Nat → Nat → Res (V K)) (n : Nat) (c x y : TArg K) : Res (V K) := do
  let c0 ← condC rd c
  let xn ← argVal rd n x
  let yn ← argVal rd n y
  pure (selNz c0 xn yn)

/-- `rel_impl::taylor_c_diff_func()` (`src/math/relational.cpp` 237-333), `logical_taylor_c_diff_func_impl()`
(`src/math/logical.cpp` 136-232). -/
def boolDiffC (f : Fn K) (rd : Nat → Nat → Res (V K)) (n : Nat) (as : List (TArg K)) : Res (V K) := do
  if n = 0 then
    let vs ← argVals rd 0 as
    pure (app f vs)
  else pure 0

end

/-- A function of the generated code: what its recurrence is. The recurrences of squares, square roots and negations
have their own functions; the powers are determined by the strategy of evaluation, the products and powers do not
depend on what was recorded when the function object was constructed. -/
inductive CFun (K : Type) where
  | square | sqrt | neg
  | pow (a : PowAlgo)
  | fn (f : Fn K)

section
variable [Field K] [LinearOrder K] [FloorRing K]

/-- The choice of the recurrence of a function, from its arguments (`src/math/pow.cpp` 603-614, 847-870, `src/math/prod.cpp`
441-475, 575-600). -/
def cfun : Fn K → List (Expr K) → CFun K
  | .pow _, [.var _, e] =>
    match powAlgo e with
    | .posHalf 1 => .sqrt
    | .posInt 2 => .square
    | a => .pow a
  | .pow _, [_, e] => .pow (powAlgo e)
  | .prod _, .num n :: _ => if n.isNegOne then .neg else .fn (.prod false)
  | .prod _, _ => .fn (.prod false)
  | f, _ => .fn f

variable [FmtName K]

/-- The names passed to `taylor_c_diff_func_name_args()`. -/
def CFun.name : CFun K → List Char
  | .square => ['p', 'o', 'w', '_', 's', 'q', 'u', 'a', 'r', 'e']
  | .sqrt => ['p', 'o', 'w', '_', 's', 'q', 'r', 't']
  | .neg => ['p', 'r', 'o', 'd', '_', 'n', 'e', 'g']
  | .pow a => ['p', 'o', 'w'] ++ a.suffix
  | .fn (.const c) => ['c', 'o', 'n', 's', 't', 'a', 'n', 't', '_'] ++ c.toList
  | .fn f => f.name.toList

/-- `taylor_c_diff_func_name_args()` (`src/taylor_01.cpp` 93-199): the mangled name of the recurrence of a function for
`nu` variables. The constant first field and the field for the floating-point type are omitted. -/
def tmangled (nu : Nat) (cf : CFun K) (args : List (Expr K)) : Res (List Char) :=
  if cf.name.any (· = '.') then .throw else
  (kindsOf args).bind fun ks => .ok (cf.name ++ '.' :: (kindsChars ks ++ '.' ::
    ((if Kind.var ∈ ks then ['n', '_', 'u', 'v', 'a', 'r', 's', '_'] ++ decimal nu
      else ['n', 'o', '_', 'u', 'v', 'a', 'r', 's']) ++ ['.'])))

end

section
variable [Field K] [LinearOrder K] [Interp K] [CodeInterp K] [TConst K]

/-- The functions of one argument without hidden dependencies. -/
def unDiffC (f : Fn K) (n : Nat) (as : List (TArg K)) (var : Nat → Res (V K)) : Res (V K) :=
  match as with
  | [.cst _ c] => cstDiffC f n [c]
  | [.u b] => var b
  | _ => .ub

/-- The functions of one argument with one hidden dependency. -/
def unDiff1C (f : Fn K) (n : Nat) (deps : List Nat) (as : List (TArg K)) (var : Nat → Nat → Res (V K)) : Res (V K) :=
  match deps, as with
  | [_], [.cst _ c] => cstDiffC f n [c]
  | [d], [.u b] => var d b
  | _, _ => .ub

/-- A call to the function of the generated code for the recurrence `cf`: the derivative of order `n` of the `u` variable
`idx`. The numbers of arguments of the call are those of the function. -/
def taylorDiffC (time : K) (rd : Nat → Nat → Res (V K)) (n idx : Nat) (deps : List Nat) :
    CFun K → List (TArg K) → Res (V K)
  | .square, [.u b, _] => squareDiffC rd n b
  | .sqrt, [.u b, _] => sqrtDiffC rd n idx b
  | .neg, [a, b] => negDiffC rd n a b
  | .pow algo, [a, b] => powDiffC algo rd n idx a b
  | .fn .sum, as => sumDiffC rd n as
  | .fn (.prod _), [a, b] => prodDiffC rd n a b
  | .fn .sub, [a, b] => subDiffC rd n a b
  | .fn .div, [a, b] => divDiffC rd n idx a b
  | .fn .sumSq, as => sumSqDiffC rd n as
  | .fn (.sin c), as => unDiff1C (.sin c) n deps as (sinDiffC (.sin c) rd n)
  | .fn (.cos c), as => unDiff1C (.cos c) n deps as (cosDiffC (.cos c) rd n)
  | .fn .tan, as => unDiff1C .tan n deps as (tanDiffC rd n)
  | .fn .asin, as => unDiff1C .asin n deps as (asinDiffC .asin rd n idx)
  | .fn .acos, as => unDiff1C .acos n deps as (acosDiffC rd n idx)
  | .fn .atan, as => unDiff1C .atan n deps as (atanDiffC rd n idx)
  | .fn .atan2, [y, x] => match deps with
    | [d] => atan2DiffC rd n idx d y x
    | _ => .ub
  | .fn .sinh, as => unDiff1C .sinh n deps as (sinDiffC .sinh rd n)
  | .fn .cosh, as => unDiff1C .cosh n deps as (sinDiffC .cosh rd n)
  | .fn .tanh, as => unDiff1C .tanh n deps as (tanhDiffC rd n)
  | .fn .asinh, as => unDiff1C .asinh n deps as (asinDiffC .asinh rd n idx)
  | .fn .acosh, as => unDiff1C .acosh n deps as (asinDiffC .acosh rd n idx)
  | .fn .atanh, as => unDiff1C .atanh n deps as (atanhDiffC rd n idx)
  | .fn .erf, as => unDiff1C .erf n deps as (erfDiffC rd n)
  | .fn .exp, as => unDiffC .exp n as (expDiffC rd n idx)
  | .fn .log, as => unDiffC .log n as (logDiffC rd n idx)
  | .fn .sigmoid, as => unDiff1C .sigmoid n deps as (sigmoidDiffC rd n idx)
  | .fn (.relu s), [a] => reluDiffC s rd n a
  | .fn (.relup s), [a] => relupDiffC s rd n a
  | .fn .select, [c, x, y] => selectDiffC rd n c x y
  | .fn (.rel op), [a, b] => boolDiffC (.rel op) rd n [a, b]
  | .fn .land, as => boolDiffC .land rd n as
  | .fn .lor, as => boolDiffC .lor rd n as
  | .fn .time, _ => .ok (if n = 0 then V.fin time else if n = 1 then 1 else 0)
  | .fn (.const name), _ => .ok (if n = 0 then app (.const name) [] else 0)
  | .fn .kepE, [e, M] => match deps with
    | [c, d] => kepEDiffC rd n idx c d e M
    | _ => .ub
  | .fn .kepF, [h, k, l] => match deps with
    | [c, d, e, f] => kepFDiffC rd n idx c d e f h k l
    | _ => .ub
  | .fn .numId, [.cst true c] => .ok (if n = 0 then c else 0)
  | _, _ => .ub

end

end Heyoka.Taylor
