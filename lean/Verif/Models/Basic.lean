import Verif.Expr.BuildLemmas
import Mathlib.Analysis.Calculus.MeanValue
import Mathlib.Analysis.SpecialFunctions.Sqrt
import Mathlib.Analysis.SpecialFunctions.Pow.Real

/-!
# Dynamical models: auxiliary definitions, solutions, first integrals
-/

set_option linter.unusedSectionVars false

namespace Heyoka.Models

open Heyoka.Sym

section
variable {K : Type} [Field K] [LinearOrder K] [FloorRing K] [Fold K]

/-- `pow(e, 2_dbl)`. -/
def sq (e : Expr K) : Expr K := powE e (.dbl 2)

/-- The expression `sum({pow(d[0], 2_dbl), pow(d[1], 2_dbl), pow(d[2], 2_dbl)})`, which is used throughout `src/model`. -/
def norm2 (d : Fin 3 → Expr K) : Expr K := sumE [sq (d 0), sq (d 1), sq (d 2)]

end

/-! ### Specification -/

/-- The functions `X` (values of the variables, the parameters and the time) are a solution of the system on the set `I` of times. -/
def Solves [DFunc] (sys : List (Expr ℝ × Expr ℝ)) (X : ℝ → Env ℝ) (I : Set ℝ) : Prop :=
  ∀ t ∈ I, ∀ s e, (.var s, e) ∈ sys → ∃ d, e.eval (X t) = some d ∧ HasDerivAt (fun τ => (X τ).var s) d t

/-- The expression has a value, the same for all the times in `I`. -/
def Conserved [DFunc] (E : Expr ℝ) (X : ℝ → Env ℝ) (I : Set ℝ) : Prop := ∃ c, ∀ t ∈ I, E.eval (X t) = some c

/-! ### Lemmas -/

section
variable [DFunc] {v : Env ℝ} {a b : Expr ℝ} {x y : ℝ}

theorem ev_add (ha : a.eval v = some x) (hb : b.eval v = some y) : (addE a b).eval v = some (x + y) := by
  rw [eval_addE, ha, hb]; rfl

theorem ev_sub (ha : a.eval v = some x) (hb : b.eval v = some y) : (subE a b).eval v = some (x - y) := by
  rw [eval_subE, ha, hb]; rfl

theorem ev_neg (ha : a.eval v = some x) : (negE a).eval v = some (-x) := by
  rw [eval_negE, ha]; rfl

theorem ev_sq (ha : a.eval v = some x) : (sq a).eval v = some (x ^ 2) := by
  have h : (powE a (.dbl 2)).eval v = some (x ^ (2 : ℝ)) := by
    refine eval_powE ha (by simp) ?_
    rcases lt_trichotomy x 0 with h | h | h
    · exact .inr (.inr ⟨h, 2, by norm_num⟩)
    · exact .inr (.inl ⟨h, by norm_num⟩)
    · exact .inl h
  rw [sq, h, Real.rpow_two]

theorem ev_rpow (p : ℝ) (ha : a.eval v = some x) (hx : 0 < x) : (powE a (.dbl p)).eval v = some (x ^ p) :=
  eval_powE ha (by simp) (.inl hx)

theorem ev_sum : ∀ {es : List (Expr ℝ)} {xs : List ℝ}, Expr.evalL v es = some xs → (sumE es).eval v = some xs.sum := by
  intro es xs h
  rw [eval_sumE, h]; rfl

theorem evalL_cons_some {e : Expr ℝ} {l : List (Expr ℝ)} {x : ℝ} {xs : List ℝ} (h1 : e.eval v = some x) (h2 : Expr.evalL v l = some xs) :
    Expr.evalL v (e :: l) = some (x :: xs) := by
  simp [h1, h2]

theorem ev_norm2 {d : Fin 3 → Expr ℝ} {δ : Fin 3 → ℝ} (h : ∀ i, (d i).eval v = some (δ i)) :
    (norm2 d).eval v = some (∑ i, δ i ^ 2) := by
  have h2 : (sumE [sq (d 0), sq (d 1), sq (d 2)]).eval v = some ([δ 0 ^ 2, δ 1 ^ 2, δ 2 ^ 2].sum) :=
    ev_sum (by simp [ev_sq (h 0), ev_sq (h 1), ev_sq (h 2)])
  rw [norm2, h2, Fin.sum_univ_three]
  simp [add_assoc]

theorem ev_unary {f : Fn ℝ} (hf : f ≠ .time) (hd : ∀ id ix, f ≠ .dfun id ix) (ha : a.eval v = some x)
    (h : realApp f [x] = some y) : (unaryE f a).eval v = some y := by
  rw [eval_unaryE hf a hd, ha]
  exact h

theorem ev_sin (ha : a.eval v = some x) : (unaryE (.sin false) a).eval v = some (Real.sin x) :=
  ev_unary (by simp) (by simp) ha (by simp [realApp])

theorem ev_cos (ha : a.eval v = some x) : (unaryE (.cos false) a).eval v = some (Real.cos x) :=
  ev_unary (by simp) (by simp) ha (by simp [realApp])

end

theorem rpow_m32 {x : ℝ} (hx : 0 < x) : x ^ (-3 / 2 : ℝ) = 1 / Real.sqrt x ^ 3 := by
  rw [Real.sqrt_eq_rpow, ← Real.rpow_natCast, ← Real.rpow_mul hx.le, one_div, ← Real.rpow_neg hx.le]
  norm_num

/-- The derivative of an inverse distance. -/
theorem hasDerivAt_inv_sqrt {f : ℝ → ℝ} {f' t c : ℝ} (hf : HasDerivAt f f' t) (h0 : 0 < f t) :
    HasDerivAt (fun τ => c / Real.sqrt (f τ)) (-(c * f' / 2) * (1 / Real.sqrt (f t) ^ 3)) t := by
  have hs : 0 < Real.sqrt (f t) := Real.sqrt_pos.2 h0
  have h := (hasDerivAt_const t c).fun_div (hf.sqrt h0.ne') hs.ne'
  refine h.congr_deriv ?_
  field_simp
  ring

/-- Vanishing derivatives along a curve. -/
theorem conserved_of_deriv [DFunc] {E : Expr ℝ} {X : ℝ → Env ℝ} {I : Set ℝ} (ho : IsOpen I) (hc : IsPreconnected I) {F : ℝ → ℝ}
    (hE : ∀ t ∈ I, E.eval (X t) = some (F t)) (hF : ∀ t ∈ I, HasDerivAt F 0 t) : Conserved E X I := by
  obtain ⟨c, h⟩ := ho.exists_is_const_of_deriv_eq_zero hc (fun t ht => (hF t ht).differentiableAt.differentiableWithinAt)
    (fun t ht => (hF t ht).deriv)
  exact ⟨c, fun t ht => by rw [hE t ht, h t ht]⟩

end Heyoka.Models
