import Verif.Expr.Num

/-!
# Expressions

Model of the class `expression` (`/repo/include/heyoka/expression.hpp`): a number, a variable, a
parameter or a function applied to a list of expressions
(`expression::value_type = std::variant<number, variable, func, param>`).

Functions are reference-counted and may be shared in the C++ code; here an expression is the
unfolded tree. The equivalence of the two views for the traversal algorithms is the subject of
`Verif/Expr/Traverse.lean`.
-/

set_option linter.unusedSectionVars false

namespace Heyoka.Sym

/-- Relational operators (`include/heyoka/math/relational.hpp`, `rel_op`). -/
inductive RelOp
  | eq | neq | lt | gt | lte | gte
  deriving DecidableEq, Repr

/-- The evaluation algorithm selected for a `pow()` (`pow_eval_algo`,
`include/heyoka/math/pow.hpp`, `src/math/pow.cpp` 292-355), with the magnitude of the (doubled, for
the half-integral cases) exponent. -/
inductive PowAlgo
  | general
  | posInt (n : Nat) | negInt (n : Nat)
  | posHalf (n : Nat) | negHalf (n : Nat)
  deriving DecidableEq, Repr

/-- The function symbols. `pow` and `prod` carry the part of the LLVM name that is computed when
the function object is constructed (`src/math/pow.cpp` 83-86, `src/math/prod.cpp` 124-128) and that
is *not* recomputed when the arguments are replaced (`src/func.cpp` 159-172, 261-317). `sin` and
`cos` carry the flag of the combined variants (`src/math/sin.cpp` 99-103). `relu` and `relup` carry
the slope. `const` is a named constant such as `pi` (`src/math/constants.cpp`). `other` stands for
all the functions whose internals are not modelled (user-defined functions, Earth orientation and
space weather functions). -/
inductive Fn (K : Type) where
  | sum | prod (neg : Bool) | pow (algo : PowAlgo) | sub | div | sumSq
  | sin (comb : Bool) | cos (comb : Bool) | tan | asin | acos | atan | atan2
  | sinh | cosh | tanh | asinh | acosh | atanh
  | erf | exp | log | sigmoid
  | relu (slope : K) | relup (slope : K)
  | select | rel (op : RelOp) | land | lor
  | time | const (name : String)
  | kepE | kepF | kepDE
  | numId
  | dfun (id : String) (didx : List (Nat × Nat))
  | other (name : String)
  deriving DecidableEq

/-- Expressions (`include/heyoka/expression.hpp`, `expression::value_type`). -/
inductive Expr (K : Type) where
  | num (n : Num K)
  | var (name : String)
  | par (idx : Nat)
  | fn (f : Fn K) (args : List (Expr K))

variable {K : Type}

/-- Induction over expressions, with the hypothesis for every argument of a function. -/
@[elab_as_elim]
theorem Expr.ind {P : Expr K → Prop} (num : ∀ n, P (.num n)) (var : ∀ s, P (.var s))
    (par : ∀ i, P (.par i)) (fn : ∀ f args, (∀ a ∈ args, P a) → P (.fn f args)) (e : Expr K) :
    P e :=
  Expr.rec (motive_1 := P) (motive_2 := fun l => ∀ a ∈ l, P a) num var par
    (fun f args h => fn f args h) (by simp)
    (fun _ _ h1 h2 => by simpa using ⟨h1, h2⟩) e

namespace Expr

/-- Is the expression a number? (`std::holds_alternative<number>`) -/
def isNum : Expr K → Bool
  | .num _ => true
  | _ => false

/-- The number held by an expression. -/
def num? : Expr K → Option (Num K)
  | .num n => some n
  | _ => none

/-- Is the expression a function? (`std::holds_alternative<func>`) -/
def isFn : Expr K → Bool
  | .fn _ _ => true
  | _ => false

/-- The literal `x_dbl`. -/
def dbl (x : K) : Expr K := .num (Num.dbl x)

@[simp] theorem isNum_num (n : Num K) : (num n : Expr K).isNum = true := rfl
@[simp] theorem isNum_var (s : String) : (var s : Expr K).isNum = false := rfl
@[simp] theorem isNum_par (i : Nat) : (par i : Expr K).isNum = false := rfl
@[simp] theorem isNum_fn (f : Fn K) (as : List (Expr K)) : (fn f as).isNum = false := rfl
@[simp] theorem num?_num (n : Num K) : (num n : Expr K).num? = some n := rfl
@[simp] theorem num?_var (s : String) : (var s : Expr K).num? = none := rfl
@[simp] theorem num?_par (i : Nat) : (par i : Expr K).num? = none := rfl
@[simp] theorem num?_fn (f : Fn K) (as : List (Expr K)) : (fn f as).num? = none := rfl

theorem isNum_iff {e : Expr K} : e.isNum = true ↔ ∃ n, e = .num n := by
  cases e <;> simp [isNum]

theorem isNum_false {e : Expr K} : e.isNum = false ↔ ∀ n, e ≠ .num n := by
  cases e <;> simp [isNum]

end Expr

mutual
/-- Decidable structural equality (not the C++ `operator==`, see `Expr.beq`). -/
def Expr.decEq [DecidableEq K] : (a b : Expr K) → Decidable (a = b)
  | .num n, .num m => if h : n = m then isTrue (by rw [h]) else isFalse (by simpa using h)
  | .var s, .var t => if h : s = t then isTrue (by rw [h]) else isFalse (by simpa using h)
  | .par s, .par t => if h : s = t then isTrue (by rw [h]) else isFalse (by simpa using h)
  | .fn f as, .fn g bs =>
    if h : f = g then
      match Expr.decEqL as bs with
      | isTrue h' => isTrue (by rw [h, h'])
      | isFalse h' => isFalse (by simp [h'])
    else isFalse (by simp [h])
  | .num _, .var _ => isFalse (by simp)
  | .num _, .par _ => isFalse (by simp)
  | .num _, .fn _ _ => isFalse (by simp)
  | .var _, .num _ => isFalse (by simp)
  | .var _, .par _ => isFalse (by simp)
  | .var _, .fn _ _ => isFalse (by simp)
  | .par _, .num _ => isFalse (by simp)
  | .par _, .var _ => isFalse (by simp)
  | .par _, .fn _ _ => isFalse (by simp)
  | .fn _ _, .num _ => isFalse (by simp)
  | .fn _ _, .var _ => isFalse (by simp)
  | .fn _ _, .par _ => isFalse (by simp)
/-- Decidable equality of lists of expressions. -/
def Expr.decEqL [DecidableEq K] : (a b : List (Expr K)) → Decidable (a = b)
  | [], [] => isTrue rfl
  | [], _ :: _ => isFalse (by simp)
  | _ :: _, [] => isFalse (by simp)
  | a :: as, b :: bs =>
    match Expr.decEq a b, Expr.decEqL as bs with
    | isTrue h, isTrue h' => isTrue (by rw [h, h'])
    | isFalse h, _ => isFalse (by simp [h])
    | _, isFalse h => isFalse (by simp [h])
end

instance [DecidableEq K] : DecidableEq (Expr K) := Expr.decEq

/-! ### Evaluation -/

/-- An assignment of values to the variables, the parameters and the time. -/
structure Env (K : Type) where
  var : String → K
  par : Nat → K
  time : K

/-- The values of functions of numbers, used by the code when it folds constants. -/
class Fold (K : Type) where
  fold : Fn K → List K → Option K

/-- The meaning of the function symbols: `app f vs` is the value of `f` at the argument values
`vs`, `none` if the point is outside the domain of `f` (the C++ evaluation would give a NaN or an
infinity there) or if the number of arguments is wrong. The theorems about evaluation order,
substitution and compilation hold for any interpretation. -/
class Interp (K : Type) extends Fold K where
  app : Fn K → List K → Option K

section
variable [Field K] [LinearOrder K] [Interp K]

mutual
/-- The value of an expression under an assignment. This is the specification of evaluation
(plain recursion); `none` when a number is not finite or a function is outside its domain. The time
is read from the assignment (`src/math/time.cpp` 67-79). -/
def Expr.eval (v : Env K) : Expr K → Option K
  | .num n => n.toK?
  | .var s => some (v.var s)
  | .par i => some (v.par i)
  | .fn .time [] => some v.time
  | .fn f args => (Expr.evalL v args).bind (Interp.app f)
/-- The values of a list of expressions. -/
def Expr.evalL (v : Env K) : List (Expr K) → Option (List K)
  | [] => some []
  | e :: es => (Expr.eval v e).bind fun x => (Expr.evalL v es).map (x :: ·)
end

@[simp] theorem Expr.eval_num (v : Env K) (n : Num K) : (Expr.num n).eval v = n.toK? := by
  simp [Expr.eval]
@[simp] theorem Expr.eval_var (v : Env K) (s : String) : (Expr.var s).eval v = some (v.var s) := by
  simp [Expr.eval]
@[simp] theorem Expr.eval_par (v : Env K) (i : Nat) : (Expr.par i).eval v = some (v.par i) := by
  simp [Expr.eval]
@[simp] theorem Expr.eval_dbl (v : Env K) (x : K) : (Expr.dbl x).eval v = some x := by
  simp [Expr.dbl, Num.dbl, Num.toK?]
theorem Expr.eval_fn (v : Env K) (f : Fn K) (args : List (Expr K)) (hf : f ≠ .time ∨ args ≠ []) :
    (Expr.fn f args).eval v = (Expr.evalL v args).bind (Interp.app f) := by
  unfold Expr.eval
  split <;> simp_all
@[simp] theorem Expr.eval_time (v : Env K) : (Expr.fn .time []).eval v = some v.time := by
  simp [Expr.eval]

@[simp] theorem Expr.evalL_nil (v : Env K) : Expr.evalL v [] = some [] := by simp [Expr.evalL]
@[simp] theorem Expr.evalL_cons (v : Env K) (e : Expr K) (es : List (Expr K)) :
    Expr.evalL v (e :: es) =
      (Expr.eval v e).bind fun x => (Expr.evalL v es).map (x :: ·) := by
  simp [Expr.evalL]

/-- `evalL` succeeds exactly when every element does, with the values in order. -/
theorem Expr.evalL_eq_some {v : Env K} {es : List (Expr K)} {xs : List K} :
    Expr.evalL v es = some xs ↔ List.Forall₂ (fun e x => Expr.eval v e = some x) es xs := by
  induction es generalizing xs with
  | nil =>
    simp only [Expr.evalL_nil, Option.some.injEq]
    constructor
    · rintro rfl; exact .nil
    · intro h; cases h; rfl
  | cons e es ih =>
    rw [Expr.evalL_cons]
    constructor
    · intro h
      simp only [Option.bind_eq_some_iff, Option.map_eq_some_iff] at h
      obtain ⟨x, hx, ys, hys, rfl⟩ := h
      exact .cons hx (ih.mp hys)
    · intro h
      cases h with
      | cons hx hxs => simp [hx, ih.mpr hxs]

theorem Expr.evalL_append {v : Env K} {es fs : List (Expr K)} {xs ys : List K}
    (h1 : Expr.evalL v es = some xs) (h2 : Expr.evalL v fs = some ys) :
    Expr.evalL v (es ++ fs) = some (xs ++ ys) := by
  induction es generalizing xs with
  | nil => simp at h1; subst h1; simpa using h2
  | cons e es ih =>
    simp only [Expr.evalL_cons, Option.bind_eq_some_iff, Option.map_eq_some_iff] at h1
    obtain ⟨x, hx, zs, hzs, rfl⟩ := h1
    simp [hx, ih hzs]

theorem Expr.evalL_append_inv {v : Env K} {es fs : List (Expr K)} {zs : List K}
    (h : Expr.evalL v (es ++ fs) = some zs) :
    ∃ xs ys, Expr.evalL v es = some xs ∧ Expr.evalL v fs = some ys ∧ zs = xs ++ ys := by
  induction es generalizing zs with
  | nil => exact ⟨[], zs, by simp, by simpa using h, by simp⟩
  | cons e es ih =>
    simp only [List.cons_append, Expr.evalL_cons, Option.bind_eq_some_iff,
      Option.map_eq_some_iff] at h
    obtain ⟨x, hx, ws, hws, rfl⟩ := h
    obtain ⟨xs, ys, h1, h2, rfl⟩ := ih hws
    exact ⟨x :: xs, ys, by simp [hx, h1], h2, rfl⟩

end
end Heyoka.Sym
