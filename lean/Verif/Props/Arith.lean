import Verif.Expr.BuildLemmas

/-!
# Property C01: arithmetic on expressions preserves the mathematical value

`e.eval v` is the value of the expression `e` under the assignment `v` (`none` if it is undefined
there). Numbers of any type, including the negative zero, the infinities and NaN, may occur.
-/

namespace Heyoka.Sym

variable [DFunc] (v : Env ℝ)

/-- `sum(args)` has the value of the sum of the arguments. It is undefined exactly when one of the
arguments is. -/
theorem sum_value (args : List (Expr ℝ)) :
    (∀ xs, List.Forall₂ (fun e x => e.eval v = some x) args xs →
      (sumE args).eval v = some xs.sum) ∧
    ((∃ e ∈ args, e.eval v = none) → (sumE args).eval v = none) := by
  constructor
  · intro xs h
    rw [eval_sumE, Expr.evalL_eq_some.mpr h]; rfl
  · rintro ⟨e, he, hn⟩
    rw [eval_sumE, Option.map_eq_none_iff]
    cases h : Expr.evalL v args with
    | none => rfl
    | some xs =>
      rw [Expr.evalL_eq_some] at h
      exfalso
      induction h with
      | nil => simp at he
      | cons h1 _ ih =>
        rcases List.mem_cons.mp he with rfl | he
        · simp [hn] at h1
        · exact ih he

/-- The terms are reordered, the numbers folded and the zero dropped, yet the value is kept. -/
example : (sumE [.dbl 2, .var "x", .dbl (-2), .par 0]).eval (⟨fun _ => 3, fun _ => 5, 0⟩ : Env ℝ)
    = some ([2, 3, -2, 5] : List ℝ).sum :=
  (sum_value _ _).1 _ (by simp)

/-- `prod(args)` has the value of the product of the arguments. -/
theorem prod_value (args : List (Expr ℝ)) (xs : List ℝ)
    (h : List.Forall₂ (fun e x => e.eval v = some x) args xs) :
    (prodE args).eval v = some xs.prod :=
  eval_prodE (Expr.evalL_eq_some.mpr h)

example : (prodE [.dbl 2, .var "x", .dbl (1 / 2), .par 0]).eval
      (⟨fun _ => 3, fun _ => 5, 0⟩ : Env ℝ) = some ([2, 3, 1 / 2, 5] : List ℝ).prod :=
  prod_value _ _ _ (by simp)

/-- The converse of `prod_value` fails by design: a numerical zero factor makes the product zero
whatever the other factors are. -/
theorem prod_zero_hides_undefined :
    ∃ args : List (Expr ℝ), (∃ e ∈ args, e.eval v = none) ∧ (prodE args).eval v = some 0 := by
  refine ⟨[.dbl 0, .fn .log [.dbl (-1)]], ⟨.fn .log [.dbl (-1)], by simp, ?_⟩, ?_⟩
  · rw [Expr.eval_fn _ _ _ (by simp)]
    simp [app_def, realApp]
  · have h0 : (Num.dbl (0 : ℝ)).isZero = true := by rw [Num.isZero_iff]; rfl
    have h1 : ¬ ((Num.dbl (0 : ℝ)).isOne = true) := by
      rw [Num.isOne_iff, Num.toK?_dbl]; norm_num
    have hf : ([.dbl 0, .fn .log [.dbl (-1)]] : List (Expr ℝ)).filterMap (·.num?)
        = [Num.dbl 0] := rfl
    simp only [prodE, hf, List.foldl_nil, h0, h1, if_true]
    simp

/-- Unary minus. -/
theorem neg_value (a : Expr ℝ) (x : ℝ) (ha : a.eval v = some x) :
    (negE a).eval v = some (-x) := by
  rw [eval_negE, ha]; rfl

example : (negE (.var "x")).eval (⟨fun _ => 3, fun _ => 0, 0⟩ : Env ℝ) = some (-3) :=
  neg_value _ _ _ (by simp)

variable {v} {a b : Expr ℝ} {x y : ℝ}

/-- Addition. -/
theorem add_value (ha : a.eval v = some x) (hb : b.eval v = some y) :
    (addE a b).eval v = some (x + y) := by
  rw [eval_addE, ha, hb]; rfl

/-- Subtraction. -/
theorem sub_value (ha : a.eval v = some x) (hb : b.eval v = some y) :
    (subE a b).eval v = some (x - y) := by
  rw [eval_subE, ha, hb]; rfl

/-- Addition, subtraction and unary minus never make an undefined operand disappear. -/
theorem add_sub_neg_undefined (h : a.eval v = none ∨ b.eval v = none) :
    (addE a b).eval v = none ∧ (subE a b).eval v = none := by
  rw [eval_addE, eval_subE]
  rcases h with h | h <;> rw [h]
  · simp
  · cases a.eval v <;> simp

/-- Multiplication. -/
theorem mul_value (ha : a.eval v = some x) (hb : b.eval v = some y) :
    (mulE a b).eval v = some (x * y) :=
  eval_mulE ha hb

/-- Division. -/
theorem div_value (ha : a.eval v = some x) (hb : b.eval v = some y) (hy : y ≠ 0) :
    (divE a b).eval v = some (x / y) :=
  eval_divE ha hb hy

example : (divE (subE (.var "x") (.dbl 1)) (mulE (.var "x") (addE (.par 0) (.dbl 0)))).eval
      (⟨fun _ => 3, fun _ => 5, 0⟩ : Env ℝ) = some ((3 - 1) / (3 * (5 + 0))) :=
  div_value (sub_value (by simp) (by simp)) (mul_value (by simp) (add_value (by simp) (by simp)))
    (by norm_num)

/-- `pow(a, b)`: on the domain of the real power function (positive base; zero base and non-negative
exponent; negative base and integral exponent). -/
theorem pow_value (ha : a.eval v = some x) (hb : b.eval v = some y)
    (h : 0 < x ∨ (x = 0 ∧ 0 ≤ y) ∨ (x < 0 ∧ ∃ n : ℤ, y = n)) :
    (powE a b).eval v = some (x ^ y) :=
  eval_powE ha hb h

example : (powE (.var "x") (.dbl 3)).eval (⟨fun _ => -2, fun _ => 5, 0⟩ : Env ℝ)
    = some ((-2 : ℝ) ^ (3 : ℝ)) :=
  pow_value (by simp) (by simp) (Or.inr (Or.inr ⟨by norm_num, 3, by norm_num⟩))

/-- `sqrt(a)`. -/
theorem sqrt_value (ha : a.eval v = some x) (hx : 0 ≤ x) :
    (sqrtE a).eval v = some (Real.sqrt x) :=
  eval_sqrtE ha hx

/-- The elementary functions, with or without constant folding: the value is the mathematical one
on the domain and undefined outside. -/
theorem unary_value (ha : a.eval v = some x) :
    (unaryE (.sin false) a).eval v = some (Real.sin x) ∧
    (unaryE (.cos false) a).eval v = some (Real.cos x) ∧
    (unaryE .exp a).eval v = some (Real.exp x) ∧
    (unaryE .sinh a).eval v = some (Real.sinh x) ∧
    (unaryE .cosh a).eval v = some (Real.cosh x) ∧
    (unaryE .tanh a).eval v = some (Real.tanh x) ∧
    (unaryE .atan a).eval v = some (Real.arctan x) ∧
    (unaryE .asinh a).eval v = some (Real.arsinh x) ∧
    (0 < x → (unaryE .log a).eval v = some (Real.log x)) ∧
    (x ≤ 0 → (unaryE .log a).eval v = none) ∧
    (-1 ≤ x ∧ x ≤ 1 → (unaryE .asin a).eval v = some (Real.arcsin x)) ∧
    (-1 ≤ x ∧ x ≤ 1 → (unaryE .acos a).eval v = some (Real.arccos x)) ∧
    (1 ≤ x → (unaryE .acosh a).eval v = some (Real.arcosh x)) ∧
    (-1 < x ∧ x < 1 → (unaryE .atanh a).eval v = some (Real.artanh x)) := by
  refine ⟨?_, ?_, ?_, ?_, ?_, ?_, ?_, ?_, ?_, ?_, ?_, ?_, ?_, ?_⟩ <;>
    (rw [eval_unaryE (by simp), ha]; simp +contextual [realApp])

/-- `relu` and `relup` with a slope, with or without constant folding. -/
theorem relu_value (slope : ℝ) (ha : a.eval v = some x) :
    (reluE slope a).eval v = some (if 0 < x then x else slope * x) ∧
    (relupE slope a).eval v = some (if 0 < x then 1 else slope) := by
  cases a with
  | num n =>
    obtain ⟨ty, val⟩ := n
    rw [Expr.eval_num] at ha
    have hpos : FVal.flt (.fin 0) val = decide (0 < x) := by
      cases val <;> simp only [Num.toK?, FVal.toK?_nan, FVal.toK?_pinf, FVal.toK?_ninf,
        FVal.toK?_nzero, FVal.toK?_fin, Option.some.injEq, reduceCtorEq] at ha <;> subst ha <;>
        simp [FVal.flt]
    constructor
    · simp only [reluE, Expr.eval_num, Num.toK?, hpos]
      by_cases h : 0 < x
      · simpa [h, Num.toK?] using ha
      · simp only [h, decide_false, Bool.false_eq_true, if_false]
        exact FVal.toK?_mul (FVal.toK?_fin _) ha
    · simp only [relupE, Expr.eval_num, Num.toK?, hpos]
      by_cases h : 0 < x <;> simp [h]
  | var s =>
    constructor <;> simp only [reluE, relupE] <;> rw [Expr.eval_fn _ _ _ (by simp)] <;>
      simp only [Expr.evalL_cons, Expr.evalL_nil, ha] <;> simp [app_def, realApp]
  | par s =>
    constructor <;> simp only [reluE, relupE] <;> rw [Expr.eval_fn _ _ _ (by simp)] <;>
      simp only [Expr.evalL_cons, Expr.evalL_nil, ha] <;> simp [app_def, realApp]
  | fn f as =>
    constructor <;> simp only [reluE, relupE] <;> rw [Expr.eval_fn _ _ _ (by simp)] <;>
      simp only [Expr.evalL_cons, Expr.evalL_nil, ha] <;> simp [app_def, realApp]

end Heyoka.Sym
