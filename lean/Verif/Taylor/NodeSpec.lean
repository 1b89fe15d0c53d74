import Verif.Taylor.Spec
import Verif.Taylor.Model
import Verif.Expr.Real

/-!
# Specification: a node of a Taylor decomposition along a curve

The `u` variables are functions of time, `F : ℕ → ℝ → ℝ`. A node says that the `u` variable of index `idx` is,
around `t0`, a function `f` of numbers, parameters and other `u` variables.
-/

open Filter Topology

namespace Heyoka.Taylor

open Heyoka.Sym

/-- The value of an argument at the time `t`. -/
def argAt (F : ℕ → ℝ → ℝ) (t : ℝ) : TArg ℝ → Option ℝ
  | .cst _ c => c.toOption
  | .u i => some (F i t)

/-- The value of the function `f` at the time `t`; the function `time` is the time itself. -/
noncomputable def nodeVal (t : ℝ) : Fn ℝ → List (Option ℝ) → Option ℝ
  | .time, [] => some t
  | f, xs => (allSome xs).bind (realApp f)

/-- The argument as a function of time. -/
noncomputable def argFn (F : ℕ → ℝ → ℝ) : TArg ℝ → ℝ → ℝ
  | .cst _ c => fun _ => c.toOption.getD 0
  | .u i => F i

/-- The argument is a number or a parameter. -/
def TArg.isCst {K : Type} : TArg K → Prop
  | .cst _ _ => True
  | .u _ => False

/-- The functions and the shapes of arguments for which the code has a recurrence: binary products,
constant exponents, non-empty sums and logical operators; the identity only wraps numbers. -/
def Supported : Fn ℝ → List (TArg ℝ) → Prop
  | .sum, as | .sumSq, as | .land, as | .lor, as => as ≠ []
  | .prod _, as => as.length = 2
  | .pow _, as => ∃ x m e, as = [x, .cst m e]
  | .numId, as => ∃ c, as = [.cst true c]
  | .kepDE, _ => False
  | _, _ => True

/-- The hidden dependencies hold the functions needed by the recurrence. -/
def DepsOk (F : ℕ → ℝ → ℝ) (t0 : ℝ) (idx : ℕ) : Fn ℝ → List (TArg ℝ) → List ℕ → Prop
  | .sin _, [b], ds => ∃ d, ds = [d] ∧ F d =ᶠ[𝓝 t0] fun t => Real.cos (argFn F b t)
  | .cos _, [b], ds => ∃ d, ds = [d] ∧ F d =ᶠ[𝓝 t0] fun t => Real.sin (argFn F b t)
  | .sinh, [b], ds => ∃ d, ds = [d] ∧ F d =ᶠ[𝓝 t0] fun t => Real.cosh (argFn F b t)
  | .cosh, [b], ds => ∃ d, ds = [d] ∧ F d =ᶠ[𝓝 t0] fun t => Real.sinh (argFn F b t)
  | .tan, [_], ds | .tanh, [_], ds | .sigmoid, [_], ds =>
    ∃ d, ds = [d] ∧ F d =ᶠ[𝓝 t0] fun t => F idx t ^ 2
  | .asin, [b], ds | .acos, [b], ds =>
    ∃ d, ds = [d] ∧ F d =ᶠ[𝓝 t0] fun t => Real.sqrt (1 - argFn F b t ^ 2)
  | .asinh, [b], ds => ∃ d, ds = [d] ∧ F d =ᶠ[𝓝 t0] fun t => Real.sqrt (1 + argFn F b t ^ 2)
  | .acosh, [b], ds => ∃ d, ds = [d] ∧ F d =ᶠ[𝓝 t0] fun t => Real.sqrt (argFn F b t ^ 2 - 1)
  | .atan, [b], ds | .atanh, [b], ds => ∃ d, ds = [d] ∧ F d =ᶠ[𝓝 t0] fun t => argFn F b t ^ 2
  | .erf, [b], ds => ∃ d, ds = [d] ∧ F d =ᶠ[𝓝 t0] fun t => Real.exp (-argFn F b t ^ 2)
  | .atan2, [y, x], ds => ∃ d, ds = [d] ∧ F d =ᶠ[𝓝 t0] fun t => argFn F x t ^ 2 + argFn F y t ^ 2
  | .kepE, [e, _], ds => ∃ c d, ds = [c, d] ∧
      (F c =ᶠ[𝓝 t0] fun t => argFn F e t * Real.cos (F idx t)) ∧
      (F d =ᶠ[𝓝 t0] fun t => Real.sin (F idx t))
  | .kepF, [h, k, _], ds => ∃ c d e f, ds = [c, d, e, f] ∧
      (F c =ᶠ[𝓝 t0] fun t => argFn F h t * Real.sin (F idx t)) ∧
      (F d =ᶠ[𝓝 t0] fun t => argFn F k t * Real.cos (F idx t)) ∧
      (F e =ᶠ[𝓝 t0] fun t => Real.sin (F idx t)) ∧
      (F f =ᶠ[𝓝 t0] fun t => Real.cos (F idx t))
  | _, _, ds => ds = []

/-- Points at which the function is smooth: the recurrences are not meaningful at the end points of
`asin`, `acos`, `acosh`, at the branch cut of `atan2`, at the jumps of `kepE`, `kepF` and of the piecewise
functions, and at a zero base of a power. -/
def Regular (F : ℕ → ℝ → ℝ) (t0 : ℝ) (idx : ℕ) : Fn ℝ → List (TArg ℝ) → Prop
  | .asin, [b] | .acos, [b] => -1 < argFn F b t0 ∧ argFn F b t0 < 1
  | .acosh, [b] => 1 < argFn F b t0
  | .atan2, [y, x] => 0 < argFn F x t0 ∨ argFn F y t0 ≠ 0
  | .pow _, [b, .cst m e] => argFn F b t0 ≠ 0 ∨ (m = true ∧ e = V.fin 2)
  | .kepE, _ | .kepF, _ => F idx t0 ≠ 0
  | .relu _, [b] | .relup _, [b] => ∀ᶠ t in 𝓝 t0, (0 < argFn F b t ↔ 0 < argFn F b t0)
  | .select, [c, _, _] => ∀ᶠ t in 𝓝 t0, (argFn F c t ≠ 0 ↔ argFn F c t0 ≠ 0)
  | .rel op, [a, b] =>
    ∀ᶠ t in 𝓝 t0, (op.holds (argFn F a t) (argFn F b t) ↔ op.holds (argFn F a t0) (argFn F b t0))
  | .land, as => ∀ᶠ t in 𝓝 t0, ((∀ a ∈ as, argFn F a t ≠ 0) ↔ ∀ a ∈ as, argFn F a t0 ≠ 0)
  | .lor, as => ∀ᶠ t in 𝓝 t0, ((∃ a ∈ as, argFn F a t ≠ 0) ↔ ∃ a ∈ as, argFn F a t0 ≠ 0)
  | _, _ => True

/-- The `u` variable `idx` is the function `f` of the arguments `as` around `t0`. -/
structure Node (F : ℕ → ℝ → ℝ) (t0 : ℝ) (idx : ℕ) (deps : List ℕ) (f : Fn ℝ) (as : List (TArg ℝ)) :
    Prop where
  /-- its value -/
  val : ∀ᶠ t in 𝓝 t0, nodeVal t f (as.map (argAt F t)) = some (F idx t)
  /-- the arguments are smooth -/
  smooth : ∀ u, .u u ∈ as → SmoothAt (F u) t0
  sup : Supported f as
  deps : DepsOk F t0 idx f as deps
  /-- the values of the arguments are regular points (nothing is required of constants) -/
  reg : (∀ a ∈ as, a.isCst) ∨ Regular F t0 idx f as

/-- What the recurrence of order `n` may read: the orders below `n` of the variable itself, of the hidden
dependencies and of the arguments, and the order `n` of the arguments only. -/
structure Reads (F : ℕ → ℝ → ℝ) (t0 : ℝ) (rd : ℕ → ℕ → Res (V ℝ)) (n idx : ℕ) (deps : List ℕ)
    (as : List (TArg ℝ)) : Prop where
  lower : ∀ u, (u = idx ∨ u ∈ deps ∨ .u u ∈ as) → ∀ o < n, rd u o = .ok (V.fin (tc (F u) t0 o))
  last : ∀ u, .u u ∈ as → rd u n = .ok (V.fin (tc (F u) t0 n))

end Heyoka.Taylor
