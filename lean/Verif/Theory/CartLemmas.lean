import Verif.Theory.Cart
import Verif.Theory.Lemmas
import Verif.Props.Frames

/-!
# Values of the conversion from equinoctial elements
-/

set_option linter.unusedSectionVars false

namespace Heyoka.Theory

open Heyoka.Sym Heyoka.Models Matrix

/-- The first axis of the equinoctial frame. -/
noncomputable def axF (q p : ℝ) : Fin 3 → ℝ := ![1 - 2 * p ^ 2, 2 * p * q, -(2 * p * Real.sqrt (1 - (q ^ 2 + p ^ 2)))]

/-- The second axis of the equinoctial frame. -/
noncomputable def axG (q p : ℝ) : Fin 3 → ℝ := ![2 * p * q, 1 - 2 * q ^ 2, 2 * q * Real.sqrt (1 - (q ^ 2 + p ^ 2))]

/-- The factor `1 / (1 + √(1 - e²))`. -/
noncomputable def eqB (h k : ℝ) : ℝ := 1 / (1 + Real.sqrt (1 - (h ^ 2 + k ^ 2)))

/-- The coordinates of the position in the equinoctial frame. -/
noncomputable def eqX (a h k F : ℝ) : ℝ := a * (Real.cos F - k - h * ((h * Real.cos F - k * Real.sin F) * eqB h k))
noncomputable def eqY (a h k F : ℝ) : ℝ := a * (Real.sin F - h + k * ((h * Real.cos F - k * Real.sin F) * eqB h k))

/-- The distance divided by the semi-major axis. -/
noncomputable def eqR (h k F : ℝ) : ℝ := 1 - h * Real.sin F - k * Real.cos F

/-- The coordinates of the velocity in the equinoctial frame. -/
noncomputable def eqVX (a h k n F : ℝ) : ℝ := a * (-Real.sin F * (n / eqR h k F) - h * ((n - n / eqR h k F) * eqB h k))
noncomputable def eqVY (a h k n F : ℝ) : ℝ := a * (Real.cos F * (n / eqR h k F) + k * ((n - n / eqR h k F) * eqB h k))

theorem eqR_pos {h k : ℝ} (hk : h ^ 2 + k ^ 2 < 1) (F : ℝ) : 0 < eqR h k F := by
  have := Kepler.kepG_deriv_pos (a := h) (b := -k) (by nlinarith) F
  rw [eqR]; linarith

theorem eqB_sq {h k : ℝ} (hk : h ^ 2 + k ^ 2 < 1) : eqB h k ^ 2 * (h ^ 2 + k ^ 2) = 2 * eqB h k - 1 := by
  have h1 := Real.sq_sqrt (show 0 ≤ 1 - (h ^ 2 + k ^ 2) by linarith)
  have h2 := Real.sqrt_nonneg (1 - (h ^ 2 + k ^ 2))
  rw [eqB]
  set w := Real.sqrt (1 - (h ^ 2 + k ^ 2))
  have : h ^ 2 + k ^ 2 = 1 - w ^ 2 := by linarith
  rw [this]
  field_simp
  ring

/-- The distance. -/
theorem eq_dist {h k : ℝ} (hk : h ^ 2 + k ^ 2 < 1) (a F : ℝ) : eqX a h k F ^ 2 + eqY a h k F ^ 2 = (a * eqR h k F) ^ 2 := by
  have h1 := eqB_sq hk
  have h2 := Real.sin_sq_add_cos_sq F
  rw [eqX, eqY, eqR]
  set B := eqB h k
  set s := Real.sin F
  set c := Real.cos F
  have hs : s ^ 2 = 1 - c ^ 2 := by linarith
  linear_combination a ^ 2 * (h * c - k * s) ^ 2 * h1 + a ^ 2 * (1 - h ^ 2 - k ^ 2) * h2

section
variable {a h k n : ℝ} {L : ℝ → ℝ} {t : ℝ}

/-- The motion along the orbit. -/
theorem eq_deriv (hk : h ^ 2 + k ^ 2 < 1) (hL : HasDerivAt L n t) :
    HasDerivAt (fun s => eqX a h k (Kepler.kepSol h (-k) (L s))) (eqVX a h k n (Kepler.kepSol h (-k) (L t))) t ∧
    HasDerivAt (fun s => eqY a h k (Kepler.kepSol h (-k) (L s))) (eqVY a h k n (Kepler.kepSol h (-k) (L t))) t ∧
    HasDerivAt (fun s => eqVX a h k n (Kepler.kepSol h (-k) (L s)))
      (-(n ^ 2 / eqR h k (Kepler.kepSol h (-k) (L t)) ^ 3) * eqX a h k (Kepler.kepSol h (-k) (L t))) t ∧
    HasDerivAt (fun s => eqVY a h k n (Kepler.kepSol h (-k) (L s)))
      (-(n ^ 2 / eqR h k (Kepler.kepSol h (-k) (L t)) ^ 3) * eqY a h k (Kepler.kepSol h (-k) (L t))) t := by
  have hF : HasDerivAt (fun s => Kepler.kepSol h (-k) (L s)) (n / eqR h k (Kepler.kepSol h (-k) (L t))) t := by
    have := Kepler.kepSol_hasDerivAt (hasDerivAt_const t h) (hasDerivAt_const t (-k)) hL (by simp; linarith)
    refine this.congr_deriv ?_
    rw [eqR]; congr 1 <;> ring
  have hR0 := eqR_pos hk (Kepler.kepSol h (-k) (L t))
  have hs := hF.sin
  have hc := hF.cos
  have hR : HasDerivAt (fun s => eqR h k (Kepler.kepSol h (-k) (L s))) _ t := ((hs.const_mul h).const_sub 1).sub (hc.const_mul k)
  have hFp := (hasDerivAt_const t n).fun_div hR hR0.ne'
  have hl := (hc.const_mul h).sub (hs.const_mul k)
  have e2 := Real.sin_sq_add_cos_sq (Kepler.kepSol h (-k) (L t))
  have eR : eqR h k (Kepler.kepSol h (-k) (L t)) =
    1 - h * Real.sin (Kepler.kepSol h (-k) (L t)) - k * Real.cos (Kepler.kepSol h (-k) (L t)) := rfl
  refine ⟨(((hc.sub_const k).sub ((hl.mul_const (eqB h k)).const_mul h)).const_mul a).congr_deriv ?_,
    (((hs.sub_const h).add ((hl.mul_const (eqB h k)).const_mul k)).const_mul a).congr_deriv ?_,
    (((hs.neg.mul hFp).sub (((hFp.const_sub n).mul_const (eqB h k)).const_mul h)).const_mul a).congr_deriv ?_,
    (((hc.mul hFp).add (((hFp.const_sub n).mul_const (eqB h k)).const_mul k)).const_mul a).congr_deriv ?_⟩
  · rw [eqVX]
    set R := eqR h k (Kepler.kepSol h (-k) (L t))
    set F := Kepler.kepSol h (-k) (L t)
    have : n - n / R = n / R * (R - 1) := by field_simp
    rw [this, eR]; ring
  · rw [eqVY]
    set R := eqR h k (Kepler.kepSol h (-k) (L t))
    set F := Kepler.kepSol h (-k) (L t)
    have : n - n / R = n / R * (R - 1) := by field_simp
    rw [this, eR]; ring
  · rw [eqX]
    simp only [Pi.neg_apply]
    set R := eqR h k (Kepler.kepSol h (-k) (L t))
    set F := Kepler.kepSol h (-k) (L t)
    field_simp
    linear_combination (-1) * a * n^2 * Real.cos F * eR + a * n^2 * k * e2
  · rw [eqY]
    set R := eqR h k (Kepler.kepSol h (-k) (L t))
    set F := Kepler.kepSol h (-k) (L t)
    field_simp
    linear_combination (-1) * a * n^2 * Real.sin F * eR + a * n^2 * h * e2
end

end Heyoka.Theory
