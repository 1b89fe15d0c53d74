import Verif.Models.Rsw
import Mathlib.Analysis.SpecialFunctions.Trigonometric.ArctanDeriv
import Mathlib.Analysis.SpecialFunctions.Complex.Arg

/-!
# Geodetic and Cartesian coordinates

`src/model/cart2geo.cpp`. The arguments of type `double` are `none` when they are not finite.
-/

set_option linter.unusedSectionVars false

namespace Heyoka.Models

open Heyoka.Sym Matrix

section
variable {K : Type} [Field K] [LinearOrder K] [FloorRing K] [Fold K]

/-- `common_cart2geo_checks()` (`src/model/cart2geo.cpp` 31-43); the values of the arguments are returned. -/
def geoChecks (ecc2 rEq : Option K) (nIters : Nat) : Res (K × K) :=
  match ecc2, rEq with
  | none, _ => .throw
  | some _, none => .throw
  | some e, some R => if e < 0 then .throw else if R ≤ 0 then .throw else if nIters = 0 then .throw else .ok (e, R)

/-- `N` (`src/model/cart2geo.cpp` 60). -/
def geoN (e R : K) (phi : Expr K) : Expr K :=
  mulE (.dbl R) (powE (subE (.dbl 1) (mulE (.dbl e) (sq (unaryE (.sin false) phi)))) (.dbl (-1 / 2)))

/-- `h` (`src/model/cart2geo.cpp` 61). -/
def geoH (e R : K) (p phi : Expr K) : Expr K := subE (divE p (unaryE (.cos false) phi)) (geoN e R phi)

/-- `phi` (`src/model/cart2geo.cpp` 62). -/
def geoPhi (e R : K) (p z phi : Expr K) : Expr K :=
  unaryE .atan (divE z (mulE p (subE (.dbl 1) (divE (mulE (.dbl e) (geoN e R phi)) (addE (geoN e R phi) (geoH e R p phi))))))

/-- The loop (`src/model/cart2geo.cpp` 57-63); the pair contains `h` and `phi`. -/
def geoLoop (e R : K) (p z : Expr K) : Nat → Expr K × Expr K → Expr K × Expr K
  | 0, s => s
  | n + 1, s => geoLoop e R p z n (geoH e R p s.2, geoPhi e R p z s.2)

/-- `p` (`src/model/cart2geo.cpp` 55). -/
def geoP (xyz : Fin 3 → Expr K) : Expr K := sqrtE (addE (sq (xyz 0)) (sq (xyz 1)))

/-- `cart2geo_impl()` (`src/model/cart2geo.cpp` 47-65). -/
def cart2geo (xyz : Fin 3 → Expr K) (ecc2 rEq : Option K) (nIters : Nat) : Res (Fin 3 → Expr K) :=
  (geoChecks ecc2 rEq nIters).bind fun c =>
    let p := geoP xyz
    let s := geoLoop c.1 c.2 p (xyz 2) nIters (.dbl 0, unaryE .atan (divE (xyz 2) (mulE p (.dbl (1 - c.1)))))
    .ok ![s.1, s.2, atan2E (xyz 1) (xyz 0)]

/-- `N` (`src/model/cart2geo.cpp` 79). -/
def geoN2 (e R : K) (phi : Expr K) : Expr K :=
  divE (.dbl R) (sqrtE (subE (.dbl 1) (mulE (.dbl e) (sq (unaryE (.sin false) phi)))))

/-- `geo2cart_impl()` (`src/model/cart2geo.cpp` 67-88). -/
def geo2cart (geo : Fin 3 → Expr K) (ecc2 rEq : Option K) : Res (Fin 3 → Expr K) :=
  (geoChecks ecc2 rEq 1).bind fun c =>
    let N := geoN2 c.1 c.2 (geo 1)
    let q := mulE (addE N (geo 0)) (unaryE (.cos false) (geo 1))
    .ok ![mulE q (unaryE (.cos false) (geo 2)), mulE q (unaryE (.sin false) (geo 2)),
      mulE (addE (mulE (.dbl (1 - c.1)) N) (geo 0)) (unaryE (.sin false) (geo 1))]

end

/-! ### Specification -/

/-- The ellipsoid with equatorial radius `R` and squared eccentricity `e`. -/
def OnEllipsoid (e R : ℝ) (x : Fin 3 → ℝ) : Prop := (x 0 ^ 2 + x 1 ^ 2) / R ^ 2 + x 2 ^ 2 / (R ^ 2 * (1 - e)) = 1

/-- The direction of latitude `φ` and longitude `lam`. -/
noncomputable def geoDir (φ lam : ℝ) : Fin 3 → ℝ := ![Real.cos φ * Real.cos lam, Real.cos φ * Real.sin lam, Real.sin φ]

/-- The point `x` has the geodetic coordinates `h`, `φ`, `lam`: it lies at the height `h` on the normal of a point of the ellipsoid,
and the normal (the direction of the gradient of the equation of the ellipsoid) has the latitude `φ` and the longitude `lam`. -/
def Geodetic (e R h φ lam : ℝ) (x : Fin 3 → ℝ) : Prop :=
  ∃ f : Fin 3 → ℝ, OnEllipsoid e R f ∧ x = f + h • geoDir φ lam ∧
    ∃ c > 0, ![f 0 / R ^ 2, f 1 / R ^ 2, f 2 / (R ^ 2 * (1 - e))] = (c : ℝ) • geoDir φ lam

/-! ### Lemmas -/

section
variable {e R p z t ts φ h : ℝ}

/-- The prime vertical radius of curvature. -/
noncomputable def rN (e R φ : ℝ) : ℝ := R / Real.sqrt (1 - e * Real.sin φ ^ 2)

/-- `1 / √(1 + (1 - e) t²)`. -/
noncomputable def gS (e t : ℝ) : ℝ := 1 / Real.sqrt (1 + (1 - e) * t ^ 2)

/-- The step of the iteration for the tangent of the latitude. -/
noncomputable def gStep (e R p z t : ℝ) : ℝ := z / (p - e * R * gS e t)

theorem sin_den_pos (h0 : 0 ≤ e) (h1 : e < 1) (φ : ℝ) : 0 < 1 - e * Real.sin φ ^ 2 := by
  have := Real.sin_sq_le_one φ
  nlinarith [sq_nonneg (Real.sin φ)]

theorem gS_den_pos (h1 : e < 1) (t : ℝ) : 0 < 1 + (1 - e) * t ^ 2 := by nlinarith [sq_nonneg t]

theorem gS_pos (h1 : e < 1) (t : ℝ) : 0 < gS e t := one_div_pos.2 (Real.sqrt_pos.2 (gS_den_pos h1 t))

/-- `N cos φ` in terms of the tangent. -/
theorem rN_cos (h0 : 0 ≤ e) (h1 : e < 1) (hc : 0 < Real.cos φ) : rN e R φ * Real.cos φ = R * gS e (Real.tan φ) := by
  have e1 : 1 + (1 - e) * Real.tan φ ^ 2 = (1 - e * Real.sin φ ^ 2) / Real.cos φ ^ 2 := by
    rw [Real.tan_eq_sin_div_cos]
    have := Real.sin_sq_add_cos_sq φ
    field_simp
    linear_combination this
  have h2 := sin_den_pos h0 h1 φ
  rw [rN, gS, e1, Real.sqrt_div h2.le, Real.sqrt_sq hc.le]
  have := (Real.sqrt_pos.2 h2).ne'
  field_simp

theorem sqrt_one_add_lip {c : ℝ} (hc : 0 ≤ c) (a b : ℝ) :
    |Real.sqrt (1 + c * a ^ 2) - Real.sqrt (1 + c * b ^ 2)| ≤ Real.sqrt c * |a - b| := by
  have ha := Real.sq_sqrt (show 0 ≤ 1 + c * a ^ 2 by positivity)
  have hb := Real.sq_sqrt (show 0 ≤ 1 + c * b ^ 2 by positivity)
  have ha0 : 0 < Real.sqrt (1 + c * a ^ 2) := Real.sqrt_pos.2 (by positivity)
  have hb0 : 0 < Real.sqrt (1 + c * b ^ 2) := Real.sqrt_pos.2 (by positivity)
  have hs := Real.sq_sqrt hc
  have hs0 := Real.sqrt_nonneg c
  set A := Real.sqrt (1 + c * a ^ 2)
  set B := Real.sqrt (1 + c * b ^ 2)
  set S := Real.sqrt c
  have h1 : S * |a| ≤ A := by
    refine abs_le_of_sq_le_sq' ?_ ha0.le |>.2
    rw [mul_pow, sq_abs, hs, ha]; linarith
  have h2 : S * |b| ≤ B := by
    refine abs_le_of_sq_le_sq' ?_ hb0.le |>.2
    rw [mul_pow, sq_abs, hs, hb]; linarith
  have h3 : (A - B) * (A + B) = S ^ 2 * ((a - b) * (a + b)) := by rw [hs]; linear_combination ha - hb
  have h4 : |A - B| * (A + B) = S ^ 2 * (|a - b| * |a + b|) := by
    rw [← abs_mul, ← abs_of_pos (show 0 < A + B by linarith), ← abs_mul, h3, abs_mul, abs_of_nonneg (sq_nonneg S), abs_mul]
  have h5 : S * |a + b| ≤ A + B := by
    have := abs_add_le a b
    nlinarith
  have h6 : |A - B| * (A + B) ≤ S * |a - b| * (A + B) := by
    rw [h4]
    nlinarith [mul_nonneg hs0 (abs_nonneg (a - b))]
  exact le_of_mul_le_mul_right h6 (by linarith)

/-- The invariant of the iteration keeps the denominators positive. -/
theorem gS_le (h0 : 0 ≤ e) (h1 : e < 1 / 3) (hR : 0 < R) (hp : 0 < p) (hell : (1 - e) * R ^ 2 ≤ (1 - e) * p ^ 2 + z ^ 2)
    (ht : z ^ 2 ≤ p ^ 2 * t ^ 2) : R * gS e t ≤ p / (1 - e) ∧ p * (1 - e / (1 - e)) ≤ p - e * R * gS e t ∧ 0 < p - e * R * gS e t ∧
      p - e * R * gS e t ≤ p := by
  have hc : 0 < 1 - e := by linarith
  have hd := gS_den_pos (show e < 1 by linarith) t
  have hs := Real.sqrt_pos.2 hd
  have k1 : (1 - e) * R ≤ p * Real.sqrt (1 + (1 - e) * t ^ 2) := by
    refine abs_le_of_sq_le_sq' ?_ (by positivity) |>.2
    rw [mul_pow, mul_pow, Real.sq_sqrt hd.le]
    nlinarith [mul_le_mul_of_nonneg_left hell hc.le, mul_le_mul_of_nonneg_left ht hc.le, sq_nonneg p, mul_nonneg h0 (sq_nonneg p)]
  have k2 : R * gS e t ≤ p / (1 - e) := by
    rw [gS, mul_one_div, div_le_div_iff₀ hs hc]
    linarith
  have k3 : p * (1 - e / (1 - e)) ≤ p - e * R * gS e t := by
    have : e * (R * gS e t) ≤ e * (p / (1 - e)) := mul_le_mul_of_nonneg_left k2 h0
    have e2 : p * (1 - e / (1 - e)) = p - e * (p / (1 - e)) := by ring
    rw [e2]; linarith
  have k4 : 0 < 1 - e / (1 - e) := by
    rw [sub_pos, div_lt_one hc]; linarith
  have := gS_pos (show e < 1 by linarith) t
  exact ⟨k2, k3, lt_of_lt_of_le (by positivity) k3, by nlinarith [mul_nonneg h0 (mul_nonneg hR.le this.le)]⟩

/-- The iteration is a contraction towards the exact tangent `ts`. -/
theorem gStep_contract (h0 : 0 ≤ e) (h1 : e < 1 / 3) (hR : 0 < R) (hp : 0 < p) (hell : (1 - e) * R ^ 2 ≤ (1 - e) * p ^ 2 + z ^ 2)
    (ht : z ^ 2 ≤ p ^ 2 * t ^ 2) (hfix : ts * (p - e * R * gS e ts) = z) (hts : 0 < p - e * R * gS e ts) :
    |gStep e R p z t - ts| ≤ e / (1 - 2 * e) * |t - ts| ∧ z ^ 2 ≤ p ^ 2 * gStep e R p z t ^ 2 := by
  obtain ⟨k2, k3, k5, k6⟩ := gS_le h0 h1 hR hp hell ht
  have hc : 0 < 1 - e := by linarith
  have hs := gS_pos (show e < 1 by linarith) t
  have hss := gS_pos (show e < 1 by linarith) ts
  refine ⟨?_, ?_⟩
  · set D := p - e * R * gS e t with hD
    have e1 : gStep e R p z t - ts = ts * (e * R * (gS e t - gS e ts)) / D := by
      rw [gStep, ← hD, div_sub' k5.ne', ← hfix]
      congr 1
      rw [hD]
      ring
    have a0 := Real.sqrt_pos.2 (gS_den_pos (show e < 1 by linarith) t)
    have b0 := Real.sqrt_pos.2 (gS_den_pos (show e < 1 by linarith) ts)
    have e2 : gS e t - gS e ts = (Real.sqrt (1 + (1 - e) * ts ^ 2) - Real.sqrt (1 + (1 - e) * t ^ 2)) * (gS e t * gS e ts) := by
      unfold gS
      field_simp
    have e3 : |gS e t - gS e ts| ≤ Real.sqrt (1 - e) * |t - ts| * (gS e t * gS e ts) := by
      rw [e2, abs_mul, abs_of_pos (mul_pos hs hss), abs_sub_comm t ts]
      exact mul_le_mul_of_nonneg_right (sqrt_one_add_lip hc.le _ _) (mul_pos hs hss).le
    have e4 : Real.sqrt (1 - e) * |ts| * gS e ts ≤ 1 := by
      rw [gS, mul_one_div, div_le_one b0]
      refine abs_le_of_sq_le_sq' ?_ b0.le |>.2
      rw [mul_pow, sq_abs, Real.sq_sqrt hc.le, Real.sq_sqrt (gS_den_pos (by linarith) ts).le]
      linarith
    have e5 : |ts * (e * R * (gS e t - gS e ts))| ≤ e * (R * gS e t) * |t - ts| := by
      rw [abs_mul, abs_mul, abs_of_nonneg (by positivity : 0 ≤ e * R)]
      calc |ts| * (e * R * |gS e t - gS e ts|) ≤ |ts| * (e * R * (Real.sqrt (1 - e) * |t - ts| * (gS e t * gS e ts))) := by gcongr
        _ = e * (R * gS e t) * |t - ts| * (Real.sqrt (1 - e) * |ts| * gS e ts) := by ring
        _ ≤ e * (R * gS e t) * |t - ts| * 1 := by gcongr
        _ = _ := mul_one _
    rw [e1, abs_div, abs_of_pos k5, div_le_iff₀ k5]
    refine e5.trans ?_
    have e6 : e * (R * gS e t) ≤ e / (1 - 2 * e) * D := by
      have q0 : 0 ≤ e / (1 - 2 * e) := div_nonneg h0 (by linarith)
      refine (mul_le_mul_of_nonneg_left k2 h0).trans (le_trans (le_of_eq ?_) (mul_le_mul_of_nonneg_left k3 q0))
      have hn : 1 - 2 * e ≠ 0 := by linarith
      have e7 : 1 - e / (1 - e) = (1 - 2 * e) / (1 - e) := by
        field_simp
        ring
      have hc' := hc.ne'
      rw [e7]
      clear * - hn hc'
      generalize 1 - 2 * e = w at *
      generalize 1 - e = c at *
      field_simp
    nlinarith [mul_le_mul_of_nonneg_right e6 (abs_nonneg (t - ts))]
  · rw [gStep, div_pow, mul_div_assoc', le_div_iff₀ (by positivity)]
    rw [mul_comm]
    exact mul_le_mul_of_nonneg_right (by nlinarith) (sq_nonneg z)

theorem arctan_rel {a b δ : ℝ} (h0 : 0 ≤ δ) (h1 : δ ≤ 1 / 2) (h : |a - b| ≤ δ * |b|) : |Real.arctan a - Real.arctan b| ≤ δ := by
  have main : ∀ {a b : ℝ}, 0 ≤ b → |a - b| ≤ δ * b → |Real.arctan a - Real.arctan b| ≤ δ := by
    intro a b hb h
    have hab := abs_le.1 h
    have ha : a ∈ Set.Ici (b / 2) := by
      show b / 2 ≤ a
      nlinarith
    have hb' : b ∈ Set.Ici (b / 2) := by
      show b / 2 ≤ b
      linarith
    have := (convex_Ici (b / 2)).norm_image_sub_le_of_norm_hasDerivWithin_le (f := Real.arctan) (C := 1 / (1 + b ^ 2 / 4))
      (fun x _ => (Real.hasDerivAt_arctan x).hasDerivWithinAt) (fun x hx => ?_) hb' ha
    · rw [Real.norm_eq_abs, Real.norm_eq_abs] at this
      refine this.trans ?_
      rw [one_div, inv_mul_le_iff₀ (by positivity)]
      nlinarith [sq_nonneg (b / 2 - 1)]
    · have hx' : b / 2 ≤ x := hx
      rw [Real.norm_eq_abs, abs_of_pos (by positivity)]
      refine one_div_le_one_div_of_le (by positivity) ?_
      nlinarith
  rcases le_total 0 b with hb | hb
  · exact main hb (by rwa [abs_of_nonneg hb] at h)
  · have := main (a := -a) (b := -b) (by linarith) (by
      rw [abs_of_nonpos hb] at h
      rwa [show -a - -b = -(a - b) by ring, abs_neg])
    rw [Real.arctan_neg, Real.arctan_neg, show -Real.arctan a - -Real.arctan b = -(Real.arctan a - Real.arctan b) by ring, abs_neg] at this
    exact this

end

end Heyoka.Models
