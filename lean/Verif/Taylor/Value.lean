import Verif.Util.Res
import Verif.Util.Pairwise
import Mathlib.Algebra.Field.Basic
import Mathlib.Algebra.BigOperators.Group.List.Basic

/-!
# Computed values

The arithmetic of the generated code: the values are the elements of a field (rounding is not
modelled) and an additional element `nan` standing for NaN and the infinities, which absorbs every
operation. The division by zero is `nan`.
-/

set_option linter.unusedSectionVars false

namespace Heyoka

/-- The monadic notation for outcomes. -/
instance : Monad Res where
  pure := .ok
  bind := Res.bind

@[simp] theorem Res.bind_eq {α β : Type _} (x : Res α) (f : α → Res β) : (x >>= f) = x.bind f := rfl
@[simp] theorem Res.pure_eq {α : Type _} (a : α) : (pure a : Res α) = .ok a := rfl

end Heyoka

namespace Heyoka.Taylor

/-- A computed value: `none` is a NaN or an infinity. -/
def V (K : Type) := Option K

namespace V

variable {K : Type}

instance [DecidableEq K] : DecidableEq (V K) := inferInstanceAs (DecidableEq (Option K))

/-- A finite value. -/
def fin (x : K) : V K := some x

/-- A NaN or an infinity. -/
def nan : V K := none

/-- From a partial value. -/
def ofOption (x : Option K) : V K := x

/-- To a partial value. -/
def toOption (x : V K) : Option K := x

@[simp] theorem ofOption_some (x : K) : ofOption (some x) = fin x := rfl
@[simp] theorem toOption_fin (x : K) : toOption (fin x) = some x := rfl
@[simp] theorem ofOption_none : ofOption (none : Option K) = nan := rfl
@[simp] theorem toOption_nan : toOption (nan : V K) = none := rfl
@[simp] theorem ofOption_toOption (x : V K) : ofOption x.toOption = x := rfl
@[simp] theorem toOption_ofOption (x : Option K) : (ofOption x).toOption = x := rfl

theorem fin_inj {x y : K} (h : fin x = fin y) : x = y := Option.some.inj h

@[simp] theorem fin_eq_iff {x y : K} : fin x = fin y ↔ x = y := ⟨fin_inj, congrArg _⟩

/-- Case analysis on a value. -/
@[elab_as_elim] theorem ind {P : V K → Prop} (hn : P nan) (hf : ∀ x, P (fin x)) (v : V K) : P v := by
  cases v with
  | none => exact hn
  | some x => exact hf x

/-- Lift a binary operation. -/
def lift₂ (op : K → K → K) (x y : V K) : V K :=
  ofOption (x.toOption.bind fun a => y.toOption.map fun b => op a b)

/-- `llvm_fadd()` (`src/detail/llvm_helpers_arith.cpp`). -/
instance [Add K] : Add (V K) := ⟨lift₂ (· + ·)⟩
/-- `llvm_fsub()`. -/
instance [Sub K] : Sub (V K) := ⟨lift₂ (· - ·)⟩
/-- `llvm_fmul()`. -/
instance [Mul K] : Mul (V K) := ⟨lift₂ (· * ·)⟩
/-- `llvm_fneg()`. -/
instance [Neg K] : Neg (V K) := ⟨fun x => ofOption (x.toOption.map fun a => -a)⟩
/-- `llvm_fdiv()`: the division by zero gives an infinity or a NaN. -/
instance [Field K] [DecidableEq K] : Div (V K) :=
  ⟨fun x y => ofOption (x.toOption.bind fun a => y.toOption.bind fun b =>
    if b = 0 then none else some (a / b))⟩
/-- The constant 0. -/
instance [Zero K] : Zero (V K) := ⟨fin 0⟩
/-- The constant 1. -/
instance [One K] : One (V K) := ⟨fin 1⟩

/-- An unsigned integer converted to floating-point (`number(static_cast<double>(n))`). -/
def nat [NatCast K] (n : Nat) : V K := fin (n : K)

section
variable [Field K]

@[simp] theorem fin_add (x y : K) : fin x + fin y = fin (x + y) := rfl
@[simp] theorem fin_sub (x y : K) : fin x - fin y = fin (x - y) := rfl
@[simp] theorem fin_mul (x y : K) : fin x * fin y = fin (x * y) := rfl
@[simp] theorem fin_neg (x : K) : -fin x = fin (-x) := rfl
@[simp] theorem nan_add (y : V K) : nan + y = nan := rfl
@[simp] theorem nan_sub (y : V K) : nan - y = nan := rfl
@[simp] theorem nan_mul (y : V K) : nan * y = nan := rfl
@[simp] theorem neg_nan : -(nan : V K) = nan := rfl
@[simp] theorem add_nan (x : V K) : x + nan = nan := by cases x <;> rfl
@[simp] theorem sub_nan (x : V K) : x - nan = nan := by cases x <;> rfl
@[simp] theorem mul_nan (x : V K) : x * nan = nan := by cases x <;> rfl
theorem zero_def : (0 : V K) = fin 0 := rfl
theorem one_def : (1 : V K) = fin 1 := rfl
theorem nat_def (n : Nat) : (nat n : V K) = fin (n : K) := rfl

/-- The computed values with the addition are a commutative monoid. -/
instance : AddCommMonoid (V K) where
  add_assoc x y z := by
    induction x using ind <;> induction y using ind <;> induction z using ind <;> simp [add_assoc]
  zero_add x := by induction x using ind <;> simp [zero_def]
  add_zero x := by induction x using ind <;> simp [zero_def]
  add_comm x y := by induction x using ind <;> induction y using ind <;> simp [add_comm]
  nsmul := nsmulRec

theorem mul_comm (x y : V K) : x * y = y * x := by
  induction x using ind <;> induction y using ind <;> simp [_root_.mul_comm]

theorem one_mul (x : V K) : 1 * x = x := by
  induction x using ind <;> simp [one_def]

theorem sum_fin (l : List K) : (l.map fin).sum = fin l.sum := by
  induction l with
  | nil => rfl
  | cons a l ih => simp [ih]

variable [DecidableEq K]

theorem fin_div (x y : K) : fin x / fin y = if y = 0 then nan else fin (x / y) := by
  show ofOption (if y = 0 then none else some (x / y)) = _
  split <;> rfl

theorem fin_div_of_ne {x y : K} (h : y ≠ 0) : fin x / fin y = fin (x / y) := by
  rw [fin_div, if_neg h]

@[simp] theorem fin_div_zero (x : K) : fin x / fin 0 = nan := by rw [fin_div, if_pos rfl]

@[simp] theorem nan_div (y : V K) : nan / y = nan := rfl
@[simp] theorem div_nan (x : V K) : x / nan = nan := by cases x <;> rfl

end

end V

section
variable {K : Type}

/-- Run the body of a loop for every index and collect the results in a vector. -/
def collect (body : Nat → Res (V K)) : List Nat → Res (List (V K))
  | [] => .ok []
  | j :: js => do
    let x ← body j
    let xs ← collect body js
    pure (x :: xs)

variable [Field K]

/-- `pairwise_sum()` (`src/detail/llvm_helpers_algo.cpp` 305-308); the vector cannot be empty
(assertion at 274). -/
def psum (l : List (V K)) : Res (V K) :=
  match Util.pairwiseSum l with
  | some x => .ok x
  | none => .ub

/-- The idiom of the recurrences: collect the terms for `j` in `[a, b)` in a vector and call
`pairwise_sum()`. -/
def sumR (a b : Nat) (body : Nat → Res (V K)) : Res (V K) := do
  let l ← collect body (List.range' a (b - a))
  psum l

end

end Heyoka.Taylor
