import Verif.Taylor.Node2
import Verif.Taylor.Congr
import Mathlib.Tactic.NormNum
import Mathlib.Tactic.Linarith

/-!
# C17: the recurrences for the normalised derivatives

`NodeSpec.lean` is the specification: around the time `t0` the `u` variable `idx` is the function `f` of the arguments
`as`, the `u` variables being functions `F` of time.
-/

open Filter Topology Nat

namespace Heyoka.Taylor

open Heyoka.Sym

/-- C17: for every supported function, the recurrence applied to the Taylor coefficients of the arguments, of the
hidden dependencies and of the function itself at the lower orders gives the Taylor coefficient of order `n` of the
composed function. At any order `n`. -/
theorem taylor_recurrence {F : ℕ → ℝ → ℝ} {t0 : ℝ} {idx : ℕ} {deps : List ℕ} {f : Fn ℝ} {as : List (TArg ℝ)}
    (h : Node F t0 idx deps f as) {rd : ℕ → ℕ → Res (V ℝ)} {n : ℕ} (hr : Reads F t0 rd n idx deps as) :
    taylorDiff t0 rd n idx deps f as = .ok (V.fin (iteratedDeriv n (F idx) t0 / n !)) :=
  (node_goal h).2 rd n hr

/-- C17: the composed function is smooth, so that all the coefficients make sense. -/
theorem taylor_recurrence_smooth {F : ℕ → ℝ → ℝ} {t0 : ℝ} {idx : ℕ} {deps : List ℕ} {f : Fn ℝ}
    {as : List (TArg ℝ)} (h : Node F t0 idx deps f as) (n : ℕ) : ContDiffAt ℝ n (F idx) t0 :=
  (node_goal h).1 n

/-- Reads the exact coefficients. -/
noncomputable def exactRd (F : ℕ → ℝ → ℝ) (t0 : ℝ) : ℕ → ℕ → Res (V ℝ) :=
  fun u o => .ok (V.fin (tc (F u) t0 o))

theorem reads_exact (F : ℕ → ℝ → ℝ) (t0 : ℝ) (n idx : ℕ) (deps : List ℕ) (as : List (TArg ℝ)) :
    Reads F t0 (exactRd F t0) n idx deps as := ⟨fun _ _ _ _ => rfl, fun _ _ => rfl⟩

/-- The sine of `u_0 = t²`, with the hidden dependency `u_2 = cos(t²)`. -/
noncomputable def sinF : ℕ → ℝ → ℝ
  | 0 => fun t => t * t
  | 1 => fun t => Real.sin (t * t)
  | _ => fun t => Real.cos (t * t)

theorem sinF_node (t0 : ℝ) : Node sinF t0 1 [2] (.sin false) [.u 0] where
  val := .of_forall fun t => by simp [nodeVal, argAt, allSome, realApp, sinF]
  smooth u hu := by
    have : u = 0 := by simpa using hu
    subst this
    exact smoothAt_id.mul smoothAt_id
  sup := trivial
  deps := ⟨2, rfl, .of_forall fun _ => rfl⟩
  reg := .inr trivial

example (n : ℕ) (t0 : ℝ) : taylorDiff t0 (exactRd sinF t0) n 1 [2] (.sin false) [.u 0]
    = .ok (V.fin (iteratedDeriv n (fun t => Real.sin (t * t)) t0 / n !)) :=
  taylor_recurrence (sinF_node t0) (reads_exact _ _ _ _ _ _)

/-- The square root of `u_0 = 1 + t²`. -/
noncomputable def sqrtF : ℕ → ℝ → ℝ
  | 0 => fun t => 1 + t * t
  | _ => fun t => (1 + t * t) ^ (1 / 2 : ℝ)

theorem sqrtF_node (t0 : ℝ) : Node sqrtF t0 1 [] (.pow .general) [.u 0, .cst true (V.fin (1 / 2))] where
  val := .of_forall fun t => by
    have : PowDom (1 + t * t) 2⁻¹ := .inl (by nlinarith [mul_self_nonneg t])
    simp [nodeVal, argAt, allSome, realApp, sqrtF, this]
  smooth u hu := by
    have : u = 0 := by simpa using hu
    subst this
    exact (smoothAt_const 1).add (smoothAt_id.mul smoothAt_id)
  sup := ⟨_, _, _, rfl⟩
  deps := rfl
  reg := .inr (.inl (by
    have : (0 : ℝ) < 1 + t0 * t0 := by nlinarith [mul_self_nonneg t0]
    exact this.ne'))

example (n : ℕ) (t0 : ℝ) :
    taylorDiff t0 (exactRd sqrtF t0) n 1 [] (.pow .general) [.u 0, .cst true (V.fin (1 / 2))]
    = .ok (V.fin (iteratedDeriv n (fun t => (1 + t * t) ^ (1 / 2 : ℝ)) t0 / n !)) :=
  taylor_recurrence (sqrtF_node t0) (reads_exact _ _ _ _ _ _)

/-- The cube of `u_0 = t`. -/
noncomputable def cubeF : ℕ → ℝ → ℝ
  | 0 => fun t => t
  | _ => fun t => t ^ (3 : ℝ)

/-- The condition on the base of a power is necessary: the recurrence for `x³` at `x = 0` divides zero by zero and gives
a NaN at every order other than 0, while the function is a polynomial. Thus, for instance, the integration of
`x' = x³` from `x = 0` produces NaNs. -/
theorem taylor_pow_at_zero_undefined (n : ℕ) (hn : 0 < n) :
    taylorDiff 0 (exactRd cubeF 0) n 1 [] (.pow .general) [.u 0, .cst true (V.fin 3)] = .ok V.nan
    ∧ ContDiffAt ℝ n (cubeF 1) 0 := by
  refine ⟨?_, ?_⟩
  · have h1 : ¬ (n = 0) := by omega
    have h2 : ((3 : ℝ) = 1 / 2) = False := by norm_num
    have h3 : ((3 : ℝ) = 2) = False := by norm_num
    have h4 : ((3 : ℝ) = 2⁻¹) = False := by norm_num
    have hs : ∃ x, (sumR 0 n fun j => (do
        let x ← exactRd cubeF 0 0 (n - j)
        let y ← exactRd cubeF 0 1 j
        pure ((V.nat n * V.fin 3 - V.nat j * (V.fin 3 + 1)) * (x * y)) : Res (V ℝ))) = .ok (V.fin x) :=
      ⟨_, sumR_ok (G := fun j => ((n : ℝ) * 3 - j * (3 + 1)) * (tc (cubeF 0) 0 (n - j) * tc (cubeF 1) 0 j)) hn
        fun j _ _ => by simp [exactRd, V.nat_def, V.one_def]⟩
    obtain ⟨x, hx⟩ := hs
    have hg : powGenDiff (exactRd cubeF 0) n 1 0 (V.fin 3) = .ok V.nan := by
      rw [powGenDiff, hx]
      simp [exactRd, tc_zero, cubeF, V.nat_def]
    rw [taylorDiff, if_neg (by simp), powDiff, if_neg h1, if_neg (by simp [h2, h4]), if_neg (by simp [h3]), hg]
  · have : cubeF 1 = fun t => t ^ 3 := by
      funext t
      exact Real.rpow_natCast t 3
    rw [this]
    exact contDiffAt_id.pow 3

end Heyoka.Taylor
