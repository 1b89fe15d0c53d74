import Verif.Expr.Real
import Verif.Expr.Diff
import Mathlib.Analysis.Calculus.ContDiff.Basic

/-!
# Specification of the points of differentiability

The property of `diff()` is stated at the points at which every function occurring in the expression
is differentiable. This file says which points these are, function by function.
-/

open Filter Topology ContDiff

namespace Heyoka.Sym

variable [DFunc]

/-- A well-formed multi-index in sparse format (`src/math/dfun.cpp` 154-177): strictly increasing
indices and no zero order. -/
def DIdxOk (didx : List (Nat × Nat)) : Prop :=
  (didx.map (·.1)).Pairwise (· < ·) ∧ ∀ p ∈ didx, 0 < p.2

/-- The order of the derivative with respect to the argument `j` in a multi-index in sparse
format. -/
def dOrder (didx : List (Nat × Nat)) (j : Nat) : Nat :=
  ((didx.filter fun p => p.1 = j).map (·.2)).sum

/-- A function of lists, as a function of the elements of lists of length `n`. -/
def onVec (n : Nat) (F : List ℝ → ℝ) (y : Fin n → ℝ) : ℝ := F (List.ofFn y)

/-- A function is infinitely often differentiable near a list of arguments. -/
def SmoothFn (F : List ℝ → ℝ) (l : List ℝ) : Prop :=
  ∀ᶠ y in 𝓝 (fun i : Fin l.length => l[i]), ContDiffAt ℝ ∞ (onVec l.length F) y

/-- What matters about an argument of a function: does it depend on the differentiation variable, is
it a relational or logical expression, its value. -/
structure ArgVal where
  dep : Prop
  isBool : Prop
  val : ℝ

/-- Is the expression a relational or logical function? Its value is 0 or 1. -/
def Expr.isBool {K : Type} : Expr K → Prop
  | .fn (.rel _) _ => True
  | .fn .land _ => True
  | .fn .lor _ => True
  | _ => False

/-- The truth value of an argument does not change in a neighbourhood: it does not depend on the
differentiation variable, or it is not zero, or it is the result of a comparison (which itself has to
be locally constant). -/
def ArgVal.TruthStable (a : ArgVal) : Prop := a.dep → a.val ≠ 0 ∨ a.isBool

/-- The points at which a function is differentiable with respect to those of its arguments that
depend on the differentiation variable. For an argument that does not depend on it nothing is
required beyond the function being defined. Functions without derivatives (`sub`, `div`, ..., used
only after the preparation of an expression for compilation) and functions without a real
interpretation (user-defined functions) have no such points. -/
def DiffPt : Fn ℝ → List ArgVal → Prop
  | .sum, _ => True
  | .prod _, _ => True
  | .pow _, [b, e] =>
    PowDom b.val e.val ∧
      (b.dep ∨ e.dep →
        0 < b.val ∨ (¬ e.dep ∧ (∃ n : ℤ, e.val = n) ∧ (b.val ≠ 0 ∨ 1 ≤ e.val)))
  | .sin _, [_] => True
  | .cos _, [_] => True
  | .tan, [x] => Real.cos x.val ≠ 0
  | .asin, [x] => (-1 ≤ x.val ∧ x.val ≤ 1) ∧ (x.dep → -1 < x.val ∧ x.val < 1)
  | .acos, [x] => (-1 ≤ x.val ∧ x.val ≤ 1) ∧ (x.dep → -1 < x.val ∧ x.val < 1)
  | .atan, [_] => True
  -- not on the branch cut
  | .atan2, [y, x] => ¬ (x.val = 0 ∧ y.val = 0) ∧ (y.dep ∨ x.dep → 0 < x.val ∨ y.val ≠ 0)
  | .sinh, [_] => True
  | .cosh, [_] => True
  | .tanh, [_] => True
  | .asinh, [_] => True
  | .acosh, [x] => 1 ≤ x.val ∧ (x.dep → 1 < x.val)
  | .atanh, [x] => -1 < x.val ∧ x.val < 1
  | .erf, [_] => True
  | .exp, [_] => True
  | .log, [x] => 0 < x.val
  | .sigmoid, [_] => True
  | .relu _, [x] => x.dep → x.val ≠ 0
  | .relup _, [x] => x.dep → x.val ≠ 0
  | .select, [c, _, _] => c.TruthStable
  | .rel _, [a, b] => a.dep ∨ b.dep → a.val ≠ b.val
  | .land, as => ∀ a ∈ as, a.TruthStable
  | .lor, as => ∀ a ∈ as, a.TruthStable
  | .time, [] => True
  | .const name, [] => name = "pi"
  -- the results of `kepE`, `kepF` and `kepDE` jump by `2π` where they reach zero
  | .kepE, [e, M] =>
    (0 ≤ e.val ∧ e.val < 1) ∧ (e.dep → 0 < e.val) ∧
      (e.dep ∨ M.dep → Kepler.red (Kepler.kepSol 0 (-e.val) M.val) ≠ 0)
  | .kepF, [h, k, lam] =>
    h.val ^ 2 + k.val ^ 2 < 1 ∧
      (h.dep ∨ k.dep ∨ lam.dep → Kepler.red (Kepler.kepSol h.val (-k.val) lam.val) ≠ 0)
  | .kepDE, [s, c, DM] =>
    s.val ^ 2 + c.val ^ 2 < 1 ∧
      (s.dep ∨ c.dep ∨ DM.dep →
        Kepler.red (Kepler.kepSol (-s.val) (-c.val) (DM.val - s.val)) ≠ 0)
  | .dfun id didx, as => DIdxOk didx ∧ ∃ φ, DFunc.fn = some φ ∧ SmoothFn (φ id) (as.map (·.val))
  | _, _ => False

mutual
/-- The expression is differentiable with respect to `x` at the assignment `v`: its numbers are
finite and every function occurring in it is differentiable there (`DiffPt`) with respect to the
arguments that depend on `x`. A function applied to numbers only has to be differentiable with
respect to all of them: its derivatives would otherwise be undefined numbers, which the zero factors
coming from the chain rule do not make disappear (see `diff_of_constant_may_be_nan`). -/
def Smooth (x : DVar) (v : Env ℝ) : Expr ℝ → Prop
  | .num n => n.toK?.isSome
  | .var _ => True
  | .par _ => True
  | .fn f args =>
    SmoothL x v args ∧
      ∃ vals : List ℝ, Expr.evalL v args = some vals ∧
        DiffPt f (List.zipWith (fun a y =>
          ⟨a.occurs x = true ∨ ∀ b ∈ args, b.isNum = true, a.isBool, y⟩) args vals)
/-- All the expressions are differentiable. -/
def SmoothL (x : DVar) (v : Env ℝ) : List (Expr ℝ) → Prop
  | [] => True
  | e :: es => Smooth x v e ∧ SmoothL x v es
end

theorem SmoothL_iff {x : DVar} {v : Env ℝ} {es : List (Expr ℝ)} :
    SmoothL x v es ↔ ∀ e ∈ es, Smooth x v e := by
  induction es with
  | nil => simp [SmoothL]
  | cons e es ih => simp [SmoothL, ih]

end Heyoka.Sym
