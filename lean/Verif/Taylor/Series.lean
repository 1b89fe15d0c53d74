import Verif.Taylor.Spec
import Verif.Expr.DiffNode2

/-!
# The recurrences of the elementary functions, as identities between normalised derivatives

Pure mathematics: for every elementary function, the composition with smooth arguments is smooth and
satisfies a differential identity, which gives a relation between the normalised derivatives.
-/

open Filter Topology Finset

namespace Heyoka.Taylor

open Heyoka.Sym

variable {a b c d e f g h k l x y : ℝ → ℝ} {t0 : ℝ}

/-- The sum of the recurrences: `∑ j * (f^[n - j] * g^[j])` for `1 ≤ j < hi`. -/
noncomputable def cv (f g : ℝ → ℝ) (t0 : ℝ) (n hi : ℕ) : ℝ :=
  ∑ j ∈ Ico 1 hi, (j : ℝ) * (tc f t0 (n - j) * tc g t0 j)

theorem cv_last (f g : ℝ → ℝ) (t0 : ℝ) {n : ℕ} (hn : 1 ≤ n) :
    cv f g t0 n (n + 1) = cv f g t0 n n + n * (f t0 * tc g t0 n) := by
  rw [cv, Finset.sum_Ico_succ_top hn, Nat.sub_self, tc_zero]; rfl

/-- The coefficient of order `n - 1` of `f · g'`. -/
theorem tc_cv (hf : SmoothAt f t0) (hg : SmoothAt g t0) {n : ℕ} (hn : 1 ≤ n) :
    tc (fun t => f t * deriv g t) t0 (n - 1) = cv f g t0 n (n + 1) := by
  obtain ⟨m, rfl⟩ : ∃ m, n = m + 1 := ⟨n - 1, by omega⟩
  rw [Nat.add_sub_cancel, tc_mul_deriv hf hg]; rfl

/-- The coefficient of order `n - 1` of `f'`. -/
theorem tc_deriv' (f : ℝ → ℝ) (t0 : ℝ) {n : ℕ} (hn : 1 ≤ n) :
    tc (deriv f) t0 (n - 1) = n * tc f t0 n := by
  obtain ⟨m, rfl⟩ : ∃ m, n = m + 1 := ⟨n - 1, by omega⟩
  rw [Nat.add_sub_cancel, tc_deriv]; push_cast; rfl

/-- The derivative of a composition in a neighbourhood. -/
theorem deriv_comp_ev {G G' : ℝ → ℝ} (hb : SmoothAt b t0) (ha : a =ᶠ[𝓝 t0] fun t => G (b t))
    (hG : ∀ᶠ z in 𝓝 (b t0), HasDerivAt G (G' z) z) :
    deriv a =ᶠ[𝓝 t0] fun t => G' (b t) * deriv b t := by
  filter_upwards [ha.eventually_nhds, hb.continuousAt.eventually hG, hb.eventually] with t h1 h2 h3
  have := (h2.comp t h3).congr_of_eventuallyEq h1
  exact this.deriv

theorem deriv_ev_of {a : ℝ → ℝ} {Φ : ℝ → ℝ} (h : ∀ᶠ t in 𝓝 t0, HasDerivAt a (Φ t) t) :
    deriv a =ᶠ[𝓝 t0] Φ := by
  filter_upwards [h] with t ht using ht.deriv

/-! ### Smoothness of the elementary functions -/

theorem smooth_exp (z : ℝ) : SmoothAt Real.exp z := fun _ => Real.contDiff_exp.contDiffAt
theorem smooth_sin (z : ℝ) : SmoothAt Real.sin z := fun _ => Real.contDiff_sin.contDiffAt
theorem smooth_cos (z : ℝ) : SmoothAt Real.cos z := fun _ => Real.contDiff_cos.contDiffAt
theorem smooth_sinh (z : ℝ) : SmoothAt Real.sinh z := fun _ => Real.contDiff_sinh.contDiffAt
theorem smooth_cosh (z : ℝ) : SmoothAt Real.cosh z := fun _ => Real.contDiff_cosh.contDiffAt
theorem smooth_log {z : ℝ} (h : z ≠ 0) : SmoothAt Real.log z := fun _ => Real.contDiffAt_log.mpr h
theorem smooth_tan {z : ℝ} (h : Real.cos z ≠ 0) : SmoothAt Real.tan z :=
  fun _ => Real.contDiffAt_tan.mpr h
theorem smooth_arctan (z : ℝ) : SmoothAt Real.arctan z := fun _ => Real.contDiff_arctan.contDiffAt
theorem smooth_arsinh (z : ℝ) : SmoothAt Real.arsinh z := fun _ => Real.contDiff_arsinh.contDiffAt
theorem smooth_arcosh {z : ℝ} (h : 1 < z) : SmoothAt Real.arcosh z :=
  fun _ => Real.contDiffAt_arcosh h
theorem smooth_arcsin {z : ℝ} (h1 : -1 < z) (h2 : z < 1) : SmoothAt Real.arcsin z :=
  fun _ => Real.contDiffAt_arcsin h1.ne' h2.ne
theorem smooth_arccos {z : ℝ} (h1 : -1 < z) (h2 : z < 1) : SmoothAt Real.arccos z :=
  fun _ => Real.contDiffAt_arccos h1.ne' h2.ne
theorem smooth_sqrt {z : ℝ} (h : z ≠ 0) : SmoothAt Real.sqrt z := fun _ => Real.contDiffAt_sqrt h
theorem smooth_rpow {z p : ℝ} (h : z ≠ 0) : SmoothAt (fun y : ℝ => y ^ p) z :=
  fun _ => Real.contDiffAt_rpow_const_of_ne h
theorem smooth_sigmoid (z : ℝ) : SmoothAt Real.sigmoid z :=
  fun _ => (_root_.contDiff_sigmoid.of_le le_top).contDiffAt

theorem smooth_tanh (z : ℝ) : SmoothAt Real.tanh z := by
  have h : Real.tanh = fun z => Real.sinh z / Real.cosh z :=
    funext fun z => Real.tanh_eq_sinh_div_cosh z
  rw [h]
  exact (smooth_sinh z).div (smooth_cosh z) (Real.cosh_pos z).ne'

theorem smooth_erf (z : ℝ) : SmoothAt realErf z := by
  refine smoothAt_of_bootstrap (.of_forall hasDerivAt_erf) fun n _ => ?_
  exact ((smoothAt_const _).mul ((smooth_exp _).comp ((smoothAt_id.pow 2).neg))) n

theorem smooth_artanh {z : ℝ} (h1 : -1 < z) (h2 : z < 1) : SmoothAt Real.artanh z := by
  have h : ∀ᶠ y in 𝓝 z, HasDerivAt Real.artanh (1 / (1 - y ^ 2)) y := by
    filter_upwards [Ioo_mem_nhds h1 h2] with y hy
    have := hasDerivAt_artanh hy.1 hy.2
    rwa [inv_eq_one_div] at this
  refine smoothAt_of_bootstrap h fun n _ => ?_
  exact ((smoothAt_const 1).div ((smoothAt_const 1).sub (smoothAt_id.pow 2)) (by
    have : 0 < 1 - z ^ 2 := by nlinarith
    exact this.ne')) n

/-! ### The derivatives -/

theorem ev_exp (z : ℝ) : ∀ᶠ y in 𝓝 z, HasDerivAt Real.exp (Real.exp y) y :=
  .of_forall Real.hasDerivAt_exp

/-! ### The recurrences -/

theorem rec_exp (hb : SmoothAt b t0) (ha : a =ᶠ[𝓝 t0] fun t => Real.exp (b t)) :
    SmoothAt a t0 ∧ ∀ n, 1 ≤ n → n * tc a t0 n = cv a b t0 n (n + 1) := by
  have hs : SmoothAt a t0 := ((smooth_exp _).comp hb).congr ha
  refine ⟨hs, fun n hn => ?_⟩
  rw [← tc_deriv' _ _ hn, ← tc_cv hs hb hn]
  refine tc_congr ?_ _
  filter_upwards [deriv_comp_ev hb ha (ev_exp _), ha] with t h1 h2
  rw [h1, h2]

theorem rec_log (hb : SmoothAt b t0) (h0 : 0 < b t0) (ha : a =ᶠ[𝓝 t0] fun t => Real.log (b t)) :
    SmoothAt a t0 ∧ ∀ n, 1 ≤ n → n * tc b t0 n = cv b a t0 n (n + 1) := by
  have hs : SmoothAt a t0 := ((smooth_log h0.ne').comp hb).congr ha
  refine ⟨hs, fun n hn => ?_⟩
  rw [← tc_deriv' _ _ hn, ← tc_cv hb hs hn]
  refine tc_congr ?_ _
  have hd := deriv_comp_ev (G' := fun z => z⁻¹) hb ha (by
    filter_upwards [Ioi_mem_nhds h0] with z hz
    exact Real.hasDerivAt_log (ne_of_gt hz))
  filter_upwards [hd, hb.continuousAt.eventually (Ioi_mem_nhds h0)] with t h1 h2
  have : b t ≠ 0 := ne_of_gt h2
  rw [h1]; field_simp

/-- The derivative is the product of `c` and the derivative of the argument. -/
theorem rec_mul {G G' : ℝ → ℝ} (hb : SmoothAt b t0) (hG : SmoothAt G (b t0)) (hc : SmoothAt c t0)
    (ha : a =ᶠ[𝓝 t0] fun t => G (b t)) (hd : ∀ᶠ z in 𝓝 (b t0), HasDerivAt G (G' z) z)
    (hcG : c =ᶠ[𝓝 t0] fun t => G' (b t)) :
    SmoothAt a t0 ∧ ∀ n, 1 ≤ n → n * tc a t0 n = cv c b t0 n (n + 1) := by
  have hs : SmoothAt a t0 := (hG.comp hb).congr ha
  refine ⟨hs, fun n hn => ?_⟩
  rw [← tc_deriv' _ _ hn, ← tc_cv hc hb hn]
  refine tc_congr ?_ _
  filter_upwards [deriv_comp_ev hb ha hd, hcG] with t h1 h2
  rw [h1, h2]

/-- The product of `c` and the derivative is the derivative of the argument. -/
theorem rec_inv {G G' : ℝ → ℝ} (hb : SmoothAt b t0) (hG : SmoothAt G (b t0)) (hc : SmoothAt c t0)
    (ha : a =ᶠ[𝓝 t0] fun t => G (b t)) (hd : ∀ᶠ z in 𝓝 (b t0), HasDerivAt G (G' z) z)
    (hcG : ∀ᶠ t in 𝓝 t0, c t * G' (b t) = 1) :
    SmoothAt a t0 ∧ ∀ n, 1 ≤ n → n * tc b t0 n = cv c a t0 n (n + 1) := by
  have hs : SmoothAt a t0 := (hG.comp hb).congr ha
  refine ⟨hs, fun n hn => ?_⟩
  rw [← tc_deriv' _ _ hn, ← tc_cv hc hs hn]
  refine tc_congr ?_ _
  filter_upwards [deriv_comp_ev hb ha hd, hcG] with t h1 h2
  rw [h1, ← mul_assoc, h2, one_mul]

/-! ### Linearity of the sums -/

theorem cv_neg_left (f g : ℝ → ℝ) (t0 : ℝ) (n hi : ℕ) :
    cv (fun t => -f t) g t0 n hi = -cv f g t0 n hi := by
  rw [cv, cv, ← Finset.sum_neg_distrib]
  exact Finset.sum_congr rfl fun j _ => by rw [tc_neg]; ring

theorem cv_add_left (hf : SmoothAt f t0) (hh : SmoothAt h t0) (g : ℝ → ℝ) (n hi : ℕ) :
    cv (fun t => f t + h t) g t0 n hi = cv f g t0 n hi + cv h g t0 n hi := by
  rw [cv, cv, cv, ← Finset.sum_add_distrib]
  exact Finset.sum_congr rfl fun j _ => by rw [tc_add hf hh]; ring

theorem cv_sub_left (hf : SmoothAt f t0) (hh : SmoothAt h t0) (g : ℝ → ℝ) (n hi : ℕ) :
    cv (fun t => f t - h t) g t0 n hi = cv f g t0 n hi - cv h g t0 n hi := by
  rw [cv, cv, cv, ← Finset.sum_sub_distrib]
  exact Finset.sum_congr rfl fun j _ => by rw [tc_sub hf hh]; ring

/-- A constant only contributes to the last term. -/
theorem cv_const_left (q : ℝ) (g : ℝ → ℝ) (t0 : ℝ) {n : ℕ} (hn : 1 ≤ n) :
    cv (fun _ => q) g t0 n (n + 1) = n * (q * tc g t0 n) := by
  rw [cv_last _ _ _ hn]
  have : cv (fun _ => q) g t0 n n = 0 := by
    refine Finset.sum_eq_zero fun j hj => ?_
    have := Finset.mem_Ico.mp hj
    rw [tc_const, if_neg (by omega)]; ring
  rw [this, zero_add]

theorem cv_const_left' (q : ℝ) (g : ℝ → ℝ) (t0 : ℝ) (n : ℕ) :
    cv (fun _ => q) g t0 n n = 0 := by
  refine Finset.sum_eq_zero fun j hj => ?_
  have := Finset.mem_Ico.mp hj
  rw [tc_const, if_neg (by omega)]; ring

theorem cv_congr_left {f' : ℝ → ℝ} (hf : f =ᶠ[𝓝 t0] f') (g : ℝ → ℝ) (n hi : ℕ) :
    cv f g t0 n hi = cv f' g t0 n hi :=
  Finset.sum_congr rfl fun j _ => by rw [tc_congr hf]

/-- A constant has zero coefficients. -/
theorem cv_const_right (q : ℝ) (f : ℝ → ℝ) (t0 : ℝ) (n hi : ℕ) :
    cv f (fun _ => q) t0 n hi = 0 := by
  refine Finset.sum_eq_zero fun j hj => ?_
  have := Finset.mem_Ico.mp hj
  rw [tc_const, if_neg (by omega)]; ring

/-! ### Functions of two or three arguments -/

theorem rec_atan2 (hx : SmoothAt x t0) (hy : SmoothAt y t0) (h0 : 0 < x t0 ∨ y t0 ≠ 0)
    (ha : a =ᶠ[𝓝 t0] fun t => Complex.arg ⟨x t, y t⟩)
    (hd : d =ᶠ[𝓝 t0] fun t => x t ^ 2 + y t ^ 2) :
    SmoothAt a t0 ∧ ∀ n, 1 ≤ n →
      cv d a t0 n (n + 1) = cv x y t0 n (n + 1) - cv y x t0 n (n + 1) := by
  have hev : ∀ᶠ t in 𝓝 t0, 0 < x t ∨ y t ≠ 0 := by
    rcases h0 with h0 | h0
    · filter_upwards [hx.continuousAt.eventually (Ioi_mem_nhds h0)] with t ht using .inl ht
    · filter_upwards [hy.continuousAt.eventually_ne h0] with t ht using .inr ht
  have hpos : ∀ {t : ℝ}, (0 < x t ∨ y t ≠ 0) → x t ^ 2 + y t ^ 2 ≠ 0 := by
    intro t ht
    rcases ht with ht | ht
    · positivity
    · positivity
  have hder : ∀ᶠ t in 𝓝 t0, HasDerivAt a
      ((x t * deriv y t - y t * deriv x t) / (x t ^ 2 + y t ^ 2)) t := by
    filter_upwards [ha.eventually_nhds, hx.eventually, hy.eventually, hev] with t h1 h2 h3 h4
    exact (hasDerivAt_arg h2 h3 h4).congr_of_eventuallyEq h1
  have hds : SmoothAt d t0 := ((hx.pow 2).add (hy.pow 2)).congr hd
  have hs : SmoothAt a t0 := smoothAt_of_bootstrap hder fun n _ =>
    (((hx.mul hy.deriv).sub (hy.mul hx.deriv)).div ((hx.pow 2).add (hy.pow 2)) (hpos h0)) n
  refine ⟨hs, fun n hn => ?_⟩
  rw [← tc_cv hds hs hn, ← tc_cv hx hy hn, ← tc_cv hy hx hn,
    ← tc_sub (hx.mul hy.deriv) (hy.mul hx.deriv)]
  refine tc_congr ?_ _
  filter_upwards [hder, hd, hev] with t h1 h2 h3
  rw [h1.deriv, h2]
  have := hpos h3
  field_simp

/-- The solution of the generalised Kepler equation. -/
theorem rec_kep (hA : SmoothAt h t0) (hB : SmoothAt k t0) (hC : SmoothAt l t0)
    (h1 : h t0 ^ 2 + k t0 ^ 2 < 1) (h0 : a t0 ≠ 0)
    (ha : a =ᶠ[𝓝 t0] fun t => Kepler.red (Kepler.kepSol (h t) (-k t) (l t))) :
    SmoothAt a t0 ∧ ∀ n, 1 ≤ n →
      n * tc a t0 n - cv (fun t => h t * Real.sin (a t)) a t0 n (n + 1)
          - cv (fun t => k t * Real.cos (a t)) a t0 n (n + 1) =
        n * tc l t0 n + cv (fun t => Real.sin (a t)) k t0 n (n + 1)
          - cv (fun t => Real.cos (a t)) h t0 n (n + 1) := by
  have hev : ∀ᶠ t in 𝓝 t0, h t ^ 2 + k t ^ 2 < 1 :=
    (((hA.pow 2).add (hB.pow 2)).continuousAt.eventually (Iio_mem_nhds h1))
  have hev2 : ∀ᶠ t in 𝓝 t0, h t ^ 2 + (-k t) ^ 2 < 1 := by
    filter_upwards [hev] with t ht; rwa [neg_sq]
  -- the unreduced solution
  have hu : ∀ᶠ t in 𝓝 t0, HasDerivAt (fun s => Kepler.kepSol (h s) (-k s) (l s))
      ((deriv l t - deriv h t * Real.cos (Kepler.kepSol (h t) (-k t) (l t))
        - -deriv k t * Real.sin (Kepler.kepSol (h t) (-k t) (l t))) /
        (1 - h t * Real.sin (Kepler.kepSol (h t) (-k t) (l t))
          + -k t * Real.cos (Kepler.kepSol (h t) (-k t) (l t)))) t := by
    filter_upwards [hA.eventually, hB.eventually, hC.eventually, hev2] with t g1 g2 g3 g4
    exact Kepler.kepSol_hasDerivAt g1 g2.neg g3 g4
  have hcont : ContinuousAt (fun s => Kepler.kepSol (h s) (-k s) (l s)) t0 :=
    hu.self_of_nhds.continuousAt
  have hr0 : Kepler.red (Kepler.kepSol (h t0) (-k t0) (l t0)) ≠ 0 := by
    have e : a t0 = Kepler.red (Kepler.kepSol (h t0) (-k t0) (l t0)) := ha.self_of_nhds
    rw [← e]; exact h0
  have hred : a =ᶠ[𝓝 t0] fun t => Kepler.kepSol (h t) (-k t) (l t) -
      (Kepler.kepSol (h t0) (-k t0) (l t0) - Kepler.red (Kepler.kepSol (h t0) (-k t0) (l t0))) := by
    filter_upwards [ha, hcont.eventually (Kepler.red_eventually hr0)] with t g1 g2
    rw [g1, g2]
  have hder : ∀ᶠ t in 𝓝 t0, HasDerivAt a
      ((deriv l t - deriv h t * Real.cos (a t) + deriv k t * Real.sin (a t)) /
        (1 - h t * Real.sin (a t) - k t * Real.cos (a t))) t := by
    filter_upwards [hred.eventually_nhds, ha, hu] with t g1 g2 g3
    refine ((g3.sub_const _).congr_of_eventuallyEq g1).congr_deriv ?_
    rw [g2, Kepler.sin_red, Kepler.cos_red]
    congr 1 <;> ring
  have hden : ∀ᶠ t in 𝓝 t0, 1 - h t * Real.sin (a t) - k t * Real.cos (a t) ≠ 0 := by
    filter_upwards [hev2] with t ht
    have := kep_den_pos ht (a t)
    have e : 1 - h t * Real.sin (a t) - k t * Real.cos (a t) =
      1 - h t * Real.sin (a t) + -k t * Real.cos (a t) := by ring
    rw [e]; exact this.ne'
  have hs : SmoothAt a t0 := smoothAt_of_bootstrap hder fun n hn => by
    have hsin : ContDiffAt ℝ n (fun t => Real.sin (a t)) t0 := hn.sin
    have hcos : ContDiffAt ℝ n (fun t => Real.cos (a t)) t0 := hn.cos
    exact (((hC.deriv n).sub ((hA.deriv n).mul hcos)).add ((hB.deriv n).mul hsin)).div
      ((contDiffAt_const.sub ((hA n).mul hsin)).sub ((hB n).mul hcos)) hden.self_of_nhds
  refine ⟨hs, fun n hn => ?_⟩
  have hsin : SmoothAt (fun t => Real.sin (a t)) t0 := (smooth_sin _).comp hs
  have hcos : SmoothAt (fun t => Real.cos (a t)) t0 := (smooth_cos _).comp hs
  rw [← tc_deriv' a t0 hn, ← tc_deriv' l t0 hn, ← tc_cv (hA.mul hsin) hs hn,
    ← tc_cv (hB.mul hcos) hs hn, ← tc_cv hsin hB hn, ← tc_cv hcos hA hn,
    ← tc_sub hs.deriv ((hA.mul hsin).mul hs.deriv),
    ← tc_sub (hs.deriv.sub ((hA.mul hsin).mul hs.deriv)) ((hB.mul hcos).mul hs.deriv),
    ← tc_add hC.deriv (hsin.mul hB.deriv),
    ← tc_sub (hC.deriv.add (hsin.mul hB.deriv)) (hcos.mul hA.deriv)]
  refine tc_congr ?_ _
  filter_upwards [hder, hden] with t g1 g2
  have h3 : (1 - h t * Real.sin (a t) - k t * Real.cos (a t)) * deriv a t =
      deriv l t - deriv h t * Real.cos (a t) + deriv k t * Real.sin (a t) := by
    rw [g1.deriv, mul_div_cancel₀ _ g2]
  linear_combination h3

/-! ### Powers -/

/-- The recurrence of the general power: `b a' = p a b'`. -/
theorem rec_pow {p : ℝ} (hb : SmoothAt b t0) (h0 : b t0 ≠ 0)
    (ha : a =ᶠ[𝓝 t0] fun t => b t ^ p) (hpos : 0 < b t0 ∨ ∃ m : ℤ, p = m) :
    SmoothAt a t0 ∧ ∀ n, 1 ≤ n → cv b a t0 n (n + 1) = p * cv a b t0 n (n + 1) := by
  have hs : SmoothAt a t0 := ((smooth_rpow h0).comp hb).congr ha
  refine ⟨hs, fun n hn => ?_⟩
  rw [← tc_cv hb hs hn, ← tc_cv hs hb hn, ← tc_const_mul (hs.mul hb.deriv)]
  refine tc_congr ?_ _
  have hne : ∀ᶠ t in 𝓝 t0, b t ≠ 0 := hb.continuousAt.eventually_ne h0
  have hsg : ∀ᶠ t in 𝓝 t0, 0 < b t ∨ ∃ m : ℤ, p = m := by
    rcases hpos with hp | hp
    · filter_upwards [hb.continuousAt.eventually (Ioi_mem_nhds hp)] with t ht using .inl ht
    · exact .of_forall fun _ => .inr hp
  have hd := deriv_comp_ev (G := fun y => y ^ p) (G' := fun z => p * z ^ (p - 1)) hb ha (by
    filter_upwards [isOpen_ne.mem_nhds h0] with z hz
    exact Real.hasDerivAt_rpow_const (.inl hz))
  filter_upwards [hd, ha, hne, hsg] with t g1 g2 g3 g4
  rw [g1, g2]
  have : b t * b t ^ (p - 1) = b t ^ p := by
    rw [Real.rpow_sub_one g3]; field_simp
  calc b t * (p * b t ^ (p - 1) * deriv b t) = p * (b t * b t ^ (p - 1)) * deriv b t := by ring
    _ = _ := by rw [this]; ring

end Heyoka.Taylor
