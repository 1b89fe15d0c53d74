import Mathlib.Analysis.SpecialFunctions.Trigonometric.Deriv
import Mathlib.Analysis.SpecialFunctions.Trigonometric.Bounds
import Mathlib.Analysis.Calculus.Deriv.Inverse
import Mathlib.Analysis.Calculus.Deriv.MeanValue
import Mathlib.Topology.Order.IntermediateValue
import Mathlib.Tactic.LinearCombination

/-!
# The generalised Kepler equation

Mathematical facts about `x + a * cos x + b * sin x = c` with `a ^ 2 + b ^ 2 < 1`. The three
equations solved by heyoka (`src/detail/llvm_helpers_celmec.cpp`) are special cases.
-/

namespace Heyoka.Kepler

open Filter Topology

/-- The left-hand side of the generalised Kepler equation. -/
noncomputable def kepG (a b x : ℝ) : ℝ := x + a * Real.cos x + b * Real.sin x

/-- The real solution of the generalised Kepler equation (meaningful if `a ^ 2 + b ^ 2 < 1`). -/
noncomputable def kepSol (a b c : ℝ) : ℝ := Function.invFun (kepG a b) c

variable {a b c : ℝ}

theorem kepG_deriv (a b x : ℝ) :
    HasDerivAt (kepG a b) (1 - a * Real.sin x + b * Real.cos x) x := by
  have h := ((hasDerivAt_id x).add ((Real.hasDerivAt_cos x).const_mul a)).add
    ((Real.hasDerivAt_sin x).const_mul b)
  refine (h.congr_deriv (by ring)).congr_of_eventuallyEq ?_
  exact Eventually.of_forall fun y => by simp [kepG]

/-- `p cos x + q sin x` lies strictly between -1 and 1 when `p² + q² < 1`. -/
theorem abs_lin_lt_one {p q : ℝ} (h : p ^ 2 + q ^ 2 < 1) (x : ℝ) :
    |p * Real.cos x + q * Real.sin x| < 1 := by
  have h1 := Real.sin_sq_add_cos_sq x
  have h2 : (p * Real.cos x + q * Real.sin x) ^ 2 < 1 := by
    have : (p * Real.cos x + q * Real.sin x) ^ 2 + (p * Real.sin x - q * Real.cos x) ^ 2
        = p ^ 2 + q ^ 2 := by linear_combination (p ^ 2 + q ^ 2) * h1
    nlinarith [sq_nonneg (p * Real.sin x - q * Real.cos x)]
  rw [← abs_one]
  exact sq_lt_sq.mp (by simpa using h2)

theorem kepG_deriv_pos (h : a ^ 2 + b ^ 2 < 1) (x : ℝ) :
    0 < 1 - a * Real.sin x + b * Real.cos x := by
  have := abs_lt.mp (abs_lin_lt_one (p := b) (q := -a) (by linarith [neg_sq a]) x)
  linarith [this.1]

theorem kepG_strictMono (h : a ^ 2 + b ^ 2 < 1) : StrictMono (kepG a b) :=
  strictMono_of_deriv_pos fun x => by
    rw [(kepG_deriv a b x).deriv]; exact kepG_deriv_pos h x

theorem kepG_continuous (a b : ℝ) : Continuous (kepG a b) :=
  continuous_iff_continuousAt.mpr fun x => (kepG_deriv a b x).continuousAt

theorem kepG_near (h : a ^ 2 + b ^ 2 < 1) (x : ℝ) : |kepG a b x - x| < 1 := by
  have := abs_lin_lt_one h x
  unfold kepG
  rwa [show x + a * Real.cos x + b * Real.sin x - x = a * Real.cos x + b * Real.sin x by ring]

theorem kepG_surjective (h : a ^ 2 + b ^ 2 < 1) : Function.Surjective (kepG a b) := by
  intro c
  have h1 := abs_lt.mp (kepG_near h (c - 1))
  have h2 := abs_lt.mp (kepG_near h (c + 1))
  obtain ⟨x, -, hx⟩ := intermediate_value_Icc (show c - 1 ≤ c + 1 by linarith)
    (kepG_continuous a b).continuousOn
    (show c ∈ Set.Icc (kepG a b (c - 1)) (kepG a b (c + 1)) from
      ⟨by linarith [h1.2], by linarith [h2.1]⟩)
  exact ⟨x, hx⟩

theorem kepG_kepSol (h : a ^ 2 + b ^ 2 < 1) (c : ℝ) : kepG a b (kepSol a b c) = c :=
  Function.rightInverse_invFun (kepG_surjective h) c

theorem kepSol_kepG (h : a ^ 2 + b ^ 2 < 1) (x : ℝ) : kepSol a b (kepG a b x) = x :=
  Function.leftInverse_invFun (kepG_strictMono h).injective x

theorem kepSol_eq_iff (h : a ^ 2 + b ^ 2 < 1) {c x : ℝ} : kepSol a b c = x ↔ kepG a b x = c := by
  constructor
  · rintro rfl; exact kepG_kepSol h c
  · rintro rfl; exact kepSol_kepG h x

theorem kepG_period (a b x : ℝ) (k : ℤ) :
    kepG a b (x + k * (2 * Real.pi)) = kepG a b x + k * (2 * Real.pi) := by
  simp only [kepG, Real.cos_add_int_mul_two_pi, Real.sin_add_int_mul_two_pi]
  ring

theorem kepSol_period (h : a ^ 2 + b ^ 2 < 1) (c : ℝ) (k : ℤ) :
    kepSol a b (c + k * (2 * Real.pi)) = kepSol a b c + k * (2 * Real.pi) := by
  rw [kepSol_eq_iff h, kepG_period, kepG_kepSol h]

theorem kepSol_continuous (h : a ^ 2 + b ^ 2 < 1) : Continuous (kepSol a b) := by
  have hm : StrictMono (kepSol a b) := by
    intro x y hxy
    by_contra hc
    have := (kepG_strictMono h).monotone (not_lt.mp hc)
    rw [kepG_kepSol h, kepG_kepSol h] at this
    linarith
  exact hm.monotone.continuous_of_surjective fun x => ⟨_, kepSol_kepG h x⟩

/-- The derivative of the solution along a curve of coefficients. -/
theorem kepSol_hasDerivAt {A B C : ℝ → ℝ} {A' B' C' t : ℝ} (hA : HasDerivAt A A' t)
    (hB : HasDerivAt B B' t) (hC : HasDerivAt C C' t) (h : A t ^ 2 + B t ^ 2 < 1) :
    let x := kepSol (A t) (B t) (C t)
    HasDerivAt (fun s => kepSol (A s) (B s) (C s))
      ((C' - A' * Real.cos x - B' * Real.sin x) / (1 - A t * Real.sin x + B t * Real.cos x)) t := by
  intro x
  have hev : ∀ᶠ s in 𝓝 t, A s ^ 2 + B s ^ 2 < 1 :=
    ((hA.continuousAt.pow 2).add (hB.continuousAt.pow 2)).eventually (gt_mem_nhds h)
  -- The right-hand side for the equation with frozen coefficients.
  let r : ℝ → ℝ := fun s => C s - (A s - A t) * Real.cos (kepSol (A s) (B s) (C s))
    - (B s - B t) * Real.sin (kepSol (A s) (B s) (C s))
  have hF : ∀ᶠ s in 𝓝 t, kepSol (A s) (B s) (C s) = kepSol (A t) (B t) (r s) := by
    filter_upwards [hev] with s hs
    symm
    rw [kepSol_eq_iff h]
    have := kepG_kepSol hs (C s)
    simp only [kepG, r] at this ⊢
    linear_combination this
  have hr0 : r t = C t := by simp [r]
  have hz {D : ℝ → ℝ} {D' : ℝ} (hD : HasDerivAt D D' t) {g : ℝ → ℝ} (hg : ∀ s, |g s| ≤ 1) :
      Tendsto (fun s => (D s - D t) * g s) (𝓝 t) (𝓝 0) := by
    have h1 : Tendsto (fun s => D s - D t) (𝓝 t) (𝓝 0) := by
      simpa using (hD.continuousAt.tendsto.sub_const (D t))
    refine squeeze_zero_norm (fun s => ?_) (by simpa using h1.abs)
    rw [Real.norm_eq_abs, abs_mul]
    exact mul_le_of_le_one_right (abs_nonneg _) (hg s)
  have hrc : Tendsto r (𝓝 t) (𝓝 (C t)) := by
    have := (hC.continuousAt.tendsto.sub
      (hz hA (g := fun s => Real.cos (kepSol (A s) (B s) (C s))) fun s => Real.abs_cos_le_one _)).sub
      (hz hB (g := fun s => Real.sin (kepSol (A s) (B s) (C s))) fun s => Real.abs_sin_le_one _)
    simpa using this
  have hFc : Tendsto (fun s => kepSol (A s) (B s) (C s)) (𝓝 t) (𝓝 x) := by
    have h1 : Tendsto (fun s => kepSol (A t) (B t) (r s)) (𝓝 t) (𝓝 x) :=
      ((kepSol_continuous h).tendsto (C t)).comp hrc
    exact h1.congr' (hF.mono fun s hs => hs.symm)
  -- A product of a differentiable function vanishing at `t` and of a continuous one.
  have hprod {D : ℝ → ℝ} {D' : ℝ} (hD : HasDerivAt D D' t) {g : ℝ → ℝ} {g0 : ℝ}
      (hg : Tendsto g (𝓝 t) (𝓝 g0)) :
      HasDerivAt (fun s => (D s - D t) * g s) (D' * g0) t := by
    rw [hasDerivAt_iff_tendsto_slope] at hD ⊢
    have h1 := hD.mul (hg.mono_left nhdsWithin_le_nhds)
    refine h1.congr' ?_
    filter_upwards [self_mem_nhdsWithin] with s hs
    simp only [slope, vsub_eq_sub, smul_eq_mul, sub_self, zero_mul, sub_zero]
    ring
  have hrd : HasDerivAt r (C' - A' * Real.cos x - B' * Real.sin x) t := by
    have hc := (Real.continuous_cos.tendsto x).comp hFc
    have hs := (Real.continuous_sin.tendsto x).comp hFc
    exact (hC.sub (hprod hA hc)).sub (hprod hB hs)
  have hinv : HasDerivAt (kepSol (A t) (B t))
      (1 - A t * Real.sin x + B t * Real.cos x)⁻¹ (C t) :=
    HasDerivAt.of_local_left_inverse (kepSol_continuous h).continuousAt (kepG_deriv _ _ _)
      (kepG_deriv_pos h _).ne' (Eventually.of_forall fun c => kepG_kepSol h c)
  have hcomp := HasDerivAt.comp t (h₂ := kepSol (A t) (B t)) (h := r) (by rw [hr0]; exact hinv) hrd
  refine (hcomp.congr_of_eventuallyEq (hF.mono fun s hs => hs)).congr_deriv ?_
  rw [div_eq_inv_mul]

/-- Reduction of an angle to `[0, 2π)`. -/
noncomputable def red (x : ℝ) : ℝ := x - 2 * Real.pi * ⌊x / (2 * Real.pi)⌋

theorem red_nonneg (x : ℝ) : 0 ≤ red x := by
  have h := Int.floor_le (x / (2 * Real.pi))
  rw [le_div_iff₀ (by positivity)] at h
  unfold red; linarith

theorem red_lt (x : ℝ) : red x < 2 * Real.pi := by
  have h := Int.lt_floor_add_one (x / (2 * Real.pi))
  rw [div_lt_iff₀ (by positivity)] at h
  unfold red; linarith

theorem red_eq_self {x : ℝ} (h0 : 0 ≤ x) (h1 : x < 2 * Real.pi) : red x = x := by
  have : ⌊x / (2 * Real.pi)⌋ = 0 := by
    rw [Int.floor_eq_zero_iff]
    exact ⟨by positivity, (div_lt_one (by positivity)).mpr h1⟩
  simp [red, this]

theorem red_add_period (x : ℝ) (k : ℤ) : red (x + k * (2 * Real.pi)) = red x := by
  have hp : (2 * Real.pi) ≠ 0 := by positivity
  have : (x + k * (2 * Real.pi)) / (2 * Real.pi) = x / (2 * Real.pi) + k := by field_simp
  simp only [red, this, Int.floor_add_intCast, Int.cast_add]
  ring

theorem red_eq_add (x : ℝ) : ∃ k : ℤ, red x = x + k * (2 * Real.pi) :=
  ⟨-⌊x / (2 * Real.pi)⌋, by unfold red; push_cast; ring⟩

theorem sin_red (x : ℝ) : Real.sin (red x) = Real.sin x := by
  obtain ⟨k, hk⟩ := red_eq_add x
  rw [hk, Real.sin_add_int_mul_two_pi]

theorem cos_red (x : ℝ) : Real.cos (red x) = Real.cos x := by
  obtain ⟨k, hk⟩ := red_eq_add x
  rw [hk, Real.cos_add_int_mul_two_pi]

/-- Away from the multiples of the period the reduction subtracts a locally constant amount. -/
theorem red_eventually {x : ℝ} (h : red x ≠ 0) :
    ∀ᶠ y in 𝓝 x, red y = y - (x - red x) := by
  have h0 : 0 < red x := lt_of_le_of_ne (red_nonneg x) (Ne.symm h)
  have h1 := red_lt x
  obtain ⟨k, hk⟩ := red_eq_add x
  have hc : Tendsto (fun y : ℝ => y - (x - red x)) (𝓝 x) (𝓝 (red x)) := by
    have : Continuous fun y : ℝ => y - (x - red x) := by fun_prop
    simpa using this.tendsto x
  filter_upwards [hc.eventually (lt_mem_nhds h0), hc.eventually (gt_mem_nhds h1)] with y hy0 hy1
  rw [← red_add_period y k]
  rw [show y - (x - red x) = y + k * (2 * Real.pi) by rw [hk]; ring] at hy0 hy1 ⊢
  exact red_eq_self hy0.le hy1

end Heyoka.Kepler
