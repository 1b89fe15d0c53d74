import Mathlib.Analysis.Calculus.IteratedDeriv.Lemmas
import Mathlib.Analysis.Calculus.ContDiff.Basic
import Mathlib.Analysis.Calculus.ContDiff.Operations
import Mathlib.Analysis.Calculus.Deriv.MeanValue
import Mathlib.Analysis.Calculus.ContDiff.Deriv
import Mathlib.Algebra.BigOperators.Field
import Mathlib.Algebra.BigOperators.Intervals
import Mathlib.Data.Nat.Choose.Cast
import Mathlib.Tactic.FieldSimp
import Mathlib.Tactic.LinearCombination

/-!
# Normalised derivatives

`tc f t0 n` is the normalised derivative of order `n` of `f` at `t0`, that is, the coefficient of
order `n` of its Taylor series. This file only contains mathematics: the algebra of the
coefficients of sums, products, derivatives.
-/

open Filter Topology Finset

namespace Heyoka.Taylor

/-- The normalised derivative of order `n` of `f` at `t0`. -/
noncomputable def tc (f : ℝ → ℝ) (t0 : ℝ) (n : ℕ) : ℝ := iteratedDeriv n f t0 / (n.factorial : ℝ)

/-- Infinitely differentiable at a point. -/
def SmoothAt (f : ℝ → ℝ) (t0 : ℝ) : Prop := ∀ n : ℕ, ContDiffAt ℝ n f t0

variable {f g h : ℝ → ℝ} {t0 : ℝ}

theorem tc_zero (f : ℝ → ℝ) (t0 : ℝ) : tc f t0 0 = f t0 := by simp [tc]

theorem tc_congr (h : f =ᶠ[𝓝 t0] g) (n : ℕ) : tc f t0 n = tc g t0 n := by
  rw [tc, tc, h.iteratedDeriv_eq n]

theorem SmoothAt.congr (hf : SmoothAt f t0) (h : g =ᶠ[𝓝 t0] f) : SmoothAt g t0 :=
  fun n => (hf n).congr_of_eventuallyEq h

theorem smoothAt_const (c : ℝ) : SmoothAt (fun _ => c) t0 := fun _ => contDiffAt_const

theorem smoothAt_id : SmoothAt (fun t => t) t0 := fun _ => contDiffAt_id

theorem SmoothAt.add (hf : SmoothAt f t0) (hg : SmoothAt g t0) : SmoothAt (fun t => f t + g t) t0 :=
  fun n => (hf n).add (hg n)

theorem SmoothAt.sub (hf : SmoothAt f t0) (hg : SmoothAt g t0) : SmoothAt (fun t => f t - g t) t0 :=
  fun n => (hf n).sub (hg n)

theorem SmoothAt.neg (hf : SmoothAt f t0) : SmoothAt (fun t => -f t) t0 :=
  fun n => (hf n).neg

theorem SmoothAt.mul (hf : SmoothAt f t0) (hg : SmoothAt g t0) : SmoothAt (fun t => f t * g t) t0 :=
  fun n => (hf n).mul (hg n)

theorem SmoothAt.pow (hf : SmoothAt f t0) (m : ℕ) : SmoothAt (fun t => f t ^ m) t0 :=
  fun n => (hf n).pow m

theorem SmoothAt.div (hf : SmoothAt f t0) (hg : SmoothAt g t0) (h0 : g t0 ≠ 0) :
    SmoothAt (fun t => f t / g t) t0 :=
  fun n => (hf n).div (hg n) h0

theorem SmoothAt.comp {G : ℝ → ℝ} (hG : SmoothAt G (f t0)) (hf : SmoothAt f t0) :
    SmoothAt (fun t => G (f t)) t0 :=
  fun n => (hG n).comp t0 (hf n)

theorem SmoothAt.continuousAt (hf : SmoothAt f t0) : ContinuousAt f t0 := (hf 0).continuousAt

theorem SmoothAt.differentiableAt (hf : SmoothAt f t0) : DifferentiableAt ℝ f t0 :=
  (hf 1).differentiableAt (by norm_num)

theorem SmoothAt.hasDerivAt (hf : SmoothAt f t0) : HasDerivAt f (deriv f t0) t0 :=
  hf.differentiableAt.hasDerivAt

/-- A smooth function is differentiable in a neighbourhood. -/
theorem SmoothAt.eventually (hf : SmoothAt f t0) : ∀ᶠ t in 𝓝 t0, HasDerivAt f (deriv f t) t := by
  have h1 := (hf 1).eventually (by simp)
  filter_upwards [h1] with t ht
  exact (ht.differentiableAt (by norm_num)).hasDerivAt

theorem SmoothAt.deriv (hf : SmoothAt f t0) : SmoothAt (deriv f) t0 := by
  intro n
  have := (hf (n + 1))
  have h3 : ContDiffAt ℝ ((n : WithTop ℕ∞) + 1) f t0 := by exact_mod_cast this
  exact h3.derivWithin le_rfl

/-- A function with a derivative that is as smooth as the function itself is smooth. -/
theorem smoothAt_of_bootstrap {F : ℝ → ℝ} {Φ : ℝ → ℝ} (h : ∀ᶠ t in 𝓝 t0, HasDerivAt F (Φ t) t)
    (hb : ∀ n : ℕ, ContDiffAt ℝ n F t0 → ContDiffAt ℝ n Φ t0) : SmoothAt F t0 := by
  have key : ∀ n : ℕ, ContDiffAt ℝ n F t0 := by
    intro n
    induction n with
    | zero =>
      have : ∀ᶠ t in 𝓝 t0, ContinuousAt F t := by
        filter_upwards [h] with t ht using ht.continuousAt
      have hc : ContDiffAt ℝ 0 F t0 := by
        rw [contDiffAt_zero]
        exact ⟨_, this, fun t ht => (show ContinuousAt F t from ht).continuousWithinAt⟩
      exact_mod_cast hc
    | succ n ih =>
      have hΦ := hb n ih
      have : ContDiffAt ℝ ((n : ℕ) + 1 : ℕ) F t0 := by
        push_cast
        rw [contDiffAt_succ_iff_hasFDerivAt]
        refine ⟨fun t => ContinuousLinearMap.smulRight (1 : ℝ →L[ℝ] ℝ) (Φ t), ⟨_, h, fun t ht => ?_⟩, ?_⟩
        · exact HasDerivAt.hasFDerivAt ht
        · exact contDiffAt_const.smulRight hΦ
      exact this
  exact key

/-! ### The algebra of normalised derivatives -/

theorem tc_deriv (f : ℝ → ℝ) (t0 : ℝ) (n : ℕ) :
    tc (_root_.deriv f) t0 n = (n + 1) * tc f t0 (n + 1) := by
  rw [tc, tc, ← iteratedDeriv_succ', Nat.factorial_succ]
  have : (n.factorial : ℝ) ≠ 0 := by positivity
  push_cast
  field_simp

theorem tc_add (hf : SmoothAt f t0) (hg : SmoothAt g t0) (n : ℕ) :
    tc (fun t => f t + g t) t0 n = tc f t0 n + tc g t0 n := by
  rw [tc, tc, tc, iteratedDeriv_fun_add (hf n) (hg n), add_div]

theorem tc_neg (f : ℝ → ℝ) (t0 : ℝ) (n : ℕ) : tc (fun t => -f t) t0 n = -tc f t0 n := by
  rw [tc, tc, iteratedDeriv_fun_neg, neg_div]

theorem tc_sub (hf : SmoothAt f t0) (hg : SmoothAt g t0) (n : ℕ) :
    tc (fun t => f t - g t) t0 n = tc f t0 n - tc g t0 n := by
  rw [tc, tc, tc, iteratedDeriv_fun_sub (hf n) (hg n), sub_div]

theorem tc_mul (hf : SmoothAt f t0) (hg : SmoothAt g t0) (n : ℕ) :
    tc (fun t => f t * g t) t0 n = ∑ j ∈ range (n + 1), tc f t0 (n - j) * tc g t0 j := by
  rw [tc, iteratedDeriv_fun_mul (hf n) (hg n), Finset.sum_div]
  rw [← Finset.sum_range_reflect]
  refine Finset.sum_congr rfl fun j hj => ?_
  have hj' : j ≤ n := Nat.lt_succ_iff.mp (Finset.mem_range.mp hj)
  have e1 : n + 1 - 1 - j = n - j := by omega
  have e2 : n - (n - j) = j := by omega
  rw [e1, e2, tc, tc, Nat.choose_symm hj', Nat.cast_choose ℝ hj']
  have h1 : (n.factorial : ℝ) ≠ 0 := by positivity
  have h2 : (j.factorial : ℝ) ≠ 0 := by positivity
  have h3 : ((n - j).factorial : ℝ) ≠ 0 := by positivity
  field_simp

theorem tc_const (c t0 : ℝ) (n : ℕ) : tc (fun _ => c) t0 n = if n = 0 then c else 0 := by
  rw [tc, iteratedDeriv_const]
  split
  · rename_i h; subst h; simp
  · simp

theorem tc_id (t0 : ℝ) (n : ℕ) : tc (fun t => t) t0 n = if n = 0 then t0 else if n = 1 then 1 else 0 := by
  rw [tc, iteratedDeriv_fun_id]
  match n with
  | 0 => simp
  | 1 => simp
  | n + 2 => simp

theorem tc_const_mul (hf : SmoothAt f t0) (c : ℝ) (n : ℕ) :
    tc (fun t => c * f t) t0 n = c * tc f t0 n := by
  rw [tc_mul (smoothAt_const c) hf]
  rw [Finset.sum_eq_single n]
  · simp [tc_zero]
  · intro j hj hne
    have : j < n + 1 := Finset.mem_range.mp hj
    rw [tc_const, if_neg (by omega), zero_mul]
  · intro h; exact absurd (Finset.mem_range.mpr (Nat.lt_succ_self n)) h

theorem tc_mul_const (hf : SmoothAt f t0) (c : ℝ) (n : ℕ) :
    tc (fun t => f t * c) t0 n = tc f t0 n * c := by
  have := tc_const_mul hf c n
  rw [mul_comm, ← this]
  congr 1; funext t; ring

/-- The coefficients of `c · a'`: the form of all the sums of the recurrences. -/
theorem tc_mul_deriv (hf : SmoothAt f t0) (hg : SmoothAt g t0) (n : ℕ) :
    tc (fun t => f t * _root_.deriv g t) t0 n =
      ∑ j ∈ Ico 1 (n + 2), (j : ℝ) * (tc f t0 (n + 1 - j) * tc g t0 j) := by
  rw [tc_mul hf hg.deriv, Finset.sum_Ico_eq_sum_range]
  refine Finset.sum_congr (by congr 1) fun j hj => ?_
  rw [tc_deriv]
  have : n + 1 - (1 + j) = n - j := by omega
  rw [this, add_comm 1 j]
  push_cast
  ring

/-- Split off the last term of a sum of the recurrences. -/
theorem sum_Ico_last (F : ℕ → ℝ) (n : ℕ) :
    ∑ j ∈ Ico 1 (n + 2), F j = (∑ j ∈ Ico 1 (n + 1), F j) + F (n + 1) := by
  rw [Finset.sum_Ico_succ_top (by omega)]

end Heyoka.Taylor
