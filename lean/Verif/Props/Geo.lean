import Verif.Models.Geo
import Mathlib.Analysis.Real.Pi.Bounds

/-!
# Geodetic coordinates (C56)

`model::geo2cart()` gives the point at the given height on the normal of the ellipsoid with the given latitude and longitude;
`model::cart2geo()` gives the longitude of such a point exactly and approximates its latitude and height, with an error which decreases
geometrically with the number of iterations. The specification is `Geodetic` (`Verif/Models/Geo.lean`).
-/

set_option linter.unusedSectionVars false

namespace Heyoka.Models

open Heyoka.Sym Matrix Filter Topology

/-- Both functions reject exactly the eccentricities, radii and numbers of iterations without a meaning. -/
theorem geo_checks {K : Type} [Field K] [LinearOrder K] [FloorRing K] [Fold K] (g : Fin 3 → Expr K) (ecc2 rEq : Option K) (n : Nat) :
    (cart2geo g ecc2 rEq n = .throw ↔ ¬ ((∃ e, ecc2 = some e ∧ 0 ≤ e) ∧ (∃ R, rEq = some R ∧ 0 < R) ∧ 0 < n)) ∧
    (geo2cart g ecc2 rEq = .throw ↔ ¬ ((∃ e, ecc2 = some e ∧ 0 ≤ e) ∧ (∃ R, rEq = some R ∧ 0 < R))) ∧
    (cart2geo g ecc2 rEq n ≠ .ub ∧ geo2cart g ecc2 rEq ≠ .ub) := by
  unfold cart2geo geo2cart
  rcases ecc2 with _ | e
  · simp [geoChecks]
  rcases rEq with _ | R
  · simp [geoChecks]
  by_cases he : e < 0
  · simp [geoChecks, he]
  by_cases hR : R ≤ 0
  · simp [geoChecks, he, hR]
  by_cases hn : n = 0 <;> simp [geoChecks, he, hR, hn, not_lt.1 he, not_le.1 hR, Nat.pos_iff_ne_zero]

section
variable [DFunc] {v : Env ℝ} {e R : ℝ}

theorem ev_geoDen {phi : Expr ℝ} {φ : ℝ} (hφ : phi.eval v = some φ) :
    (subE (.dbl 1) (mulE (.dbl e) (sq (unaryE (.sin false) phi)))).eval v = some (1 - e * Real.sin φ ^ 2) :=
  ev_sub (by simp) (eval_mulE (by simp) (ev_sq (ev_sin hφ)))

theorem ev_geoN (h0 : 0 ≤ e) (h1 : e < 1) {phi : Expr ℝ} {φ : ℝ} (hφ : phi.eval v = some φ) :
    (geoN e R phi).eval v = some (rN e R φ) := by
  have h := eval_mulE (a := .dbl R) (x := R) (by simp) (ev_rpow (-1 / 2) (ev_geoDen (e := e) hφ) (sin_den_pos h0 h1 φ))
  refine h.trans (congrArg some ?_)
  rw [rN, Real.sqrt_eq_rpow, show (-1 / 2 : ℝ) = -(1 / 2) by norm_num, Real.rpow_neg (sin_den_pos h0 h1 φ).le]
  rfl

theorem ev_geoN2 (h0 : 0 ≤ e) (h1 : e < 1) {phi : Expr ℝ} {φ : ℝ} (hφ : phi.eval v = some φ) :
    (geoN2 e R phi).eval v = some (rN e R φ) :=
  eval_divE (by simp) (eval_sqrtE (ev_geoDen hφ) (sin_den_pos h0 h1 φ).le) (Real.sqrt_pos.2 (sin_den_pos h0 h1 φ)).ne'

theorem rN_sq (h0 : 0 ≤ e) (h1 : e < 1) (φ : ℝ) : rN e R φ ^ 2 * (1 - e * Real.sin φ ^ 2) = R ^ 2 := by
  have := sin_den_pos h0 h1 φ
  rw [rN, div_pow, Real.sq_sqrt this.le]
  field_simp

theorem rN_pos (h0 : 0 ≤ e) (h1 : e < 1) (hR : 0 < R) (φ : ℝ) : 0 < rN e R φ :=
  div_pos hR (Real.sqrt_pos.2 (sin_den_pos h0 h1 φ))

/-- The point with given geodetic coordinates. -/
noncomputable def geoPt (e R h φ lam : ℝ) : Fin 3 → ℝ :=
  ![(rN e R φ + h) * Real.cos φ * Real.cos lam, (rN e R φ + h) * Real.cos φ * Real.sin lam, ((1 - e) * rN e R φ + h) * Real.sin φ]

/-- Geodetic coordinates belong to exactly one point. -/
theorem geodetic_iff (h0 : 0 ≤ e) (h1 : e < 1) (hR : 0 < R) {h φ lam : ℝ} {x : Fin 3 → ℝ} :
    Geodetic e R h φ lam x ↔ x = geoPt e R h φ lam := by
  have hN := rN_pos h0 h1 hR φ
  have hN2 := rN_sq (R := R) h0 h1 φ
  have hc : (1 - e) ≠ 0 := by linarith
  have cs := Real.sin_sq_add_cos_sq φ
  have cl := Real.sin_sq_add_cos_sq lam
  constructor
  · rintro ⟨f, hf, rfl, c, hc0, hg⟩
    have g0 := congrFun hg 0
    have g1 := congrFun hg 1
    have g2 := congrFun hg 2
    simp only [geoDir, Pi.smul_apply, smul_eq_mul, cons_val_zero, cons_val_one, cons_val] at g0 g1 g2
    rw [div_eq_iff (by positivity)] at g0 g1
    rw [div_eq_iff (by positivity)] at g2
    have hcN : c * R ^ 2 = rN e R φ := by
      have e1 : (c * R ^ 2) ^ 2 = rN e R φ ^ 2 := by
        rw [OnEllipsoid, g0, g1, g2] at hf
        have e2 : c ^ 2 * R ^ 2 * (1 - e * Real.sin φ ^ 2) = 1 := by
          field_simp at hf
          linear_combination hf + c ^ 2 * R ^ 2 * (Real.cos φ ^ 2 * (-cl) - cs)
        have := sin_den_pos h0 h1 φ
        refine mul_right_cancel₀ this.ne' ?_
        rw [hN2]
        linear_combination R ^ 2 * e2
      nlinarith [mul_pos hc0 (pow_pos hR 2)]
    funext i
    fin_cases i
    · simp [geoPt, geoDir, g0, ← hcN]; ring
    · simp [geoPt, geoDir, g1, ← hcN]; ring
    · simp [geoPt, geoDir, g2, ← hcN]; ring
  · rintro rfl
    refine ⟨geoPt e R 0 φ lam, ?_, ?_, rN e R φ / R ^ 2, by positivity, ?_⟩
    · rw [OnEllipsoid]
      simp only [geoPt, cons_val_zero, cons_val_one, cons_val]
      field_simp
      linear_combination (1 - e) * hN2 + (1 - e) * rN e R φ ^ 2 * (Real.cos φ ^ 2 * cl + cs)
    · funext i
      fin_cases i <;> simp [geoPt, geoDir] <;> ring
    · funext i
      fin_cases i <;> simp [geoPt, geoDir] <;> field_simp

/-- `geo2cart()` gives the point with the given geodetic coordinates. -/
theorem geo2cart_value (h0 : 0 ≤ e) (h1 : e < 1) (hR : 0 < R) {geo : Fin 3 → Expr ℝ} {h φ lam : ℝ} (hg : VVal v geo ![h, φ, lam]) :
    ∃ out x, geo2cart geo (some e) (some R) = .ok out ∧ VVal v out x ∧ Geodetic e R h φ lam x := by
  have hg0 : (geo 0).eval v = some h := hg 0
  have hg1 : (geo 1).eval v = some φ := hg 1
  have hg2 : (geo 2).eval v = some lam := hg 2
  have hN := ev_geoN2 (R := R) h0 h1 hg1
  have hq := eval_mulE (ev_add hN hg0) (ev_cos hg1)
  refine ⟨_, geoPt e R h φ lam, by rw [geo2cart, geoChecks, if_neg (not_lt.2 h0), if_neg (not_le.2 hR), if_neg one_ne_zero]; rfl, ?_,
    (geodetic_iff h0 h1 hR).2 rfl⟩
  intro i
  fin_cases i
  · exact eval_mulE hq (ev_cos hg2)
  · exact eval_mulE hq (ev_sin hg2)
  · exact eval_mulE (ev_add (eval_mulE (by simp) hN) hg0) (ev_sin hg1)

theorem ev_atan2 {a b : Expr ℝ} {y x : ℝ} (ha : a.eval v = some y) (hb : b.eval v = some x) (h : ¬ (x = 0 ∧ y = 0)) :
    (atan2E a b).eval v = some (Complex.arg ⟨x, y⟩) := by
  unfold atan2E
  split
  · rw [Expr.eval_num] at ha hb ⊢
    rw [foldFn_toK? (by simp)]
    simp [ha, hb, app_def, realApp, h]
  · rw [Expr.eval_fn _ _ _ (Or.inl (by simp)), evalL_cons_some ha (evalL_cons_some hb (l := []) (xs := []) (by simp))]
    simp [app_def, realApp, h]

theorem ev_atan {a : Expr ℝ} {x : ℝ} (ha : a.eval v = some x) : (unaryE .atan a).eval v = some (Real.arctan x) :=
  ev_unary (by simp) (by simp) ha (by simp [realApp])

/-- The tangents of the approximations of the latitude. -/
noncomputable def gTan (e R p z : ℝ) : ℕ → ℝ
  | 0 => z / (p * (1 - e))
  | k + 1 => gStep e R p z (gTan e R p z k)

/-- The height computed from an approximation of the latitude. -/
noncomputable def gHt (e R p φ : ℝ) : ℝ := p / Real.cos φ - rN e R φ

theorem ev_geoStep {p z : ℝ} {pE zE phi : Expr ℝ} {t : ℝ} (h0 : 0 ≤ e) (h1 : e < 1) (hp : pE.eval v = some p)
    (hz : zE.eval v = some z) (hφ : phi.eval v = some (Real.arctan t)) (hp0 : 0 < p) (hd : p - e * R * gS e t ≠ 0) :
    (geoH e R pE phi).eval v = some (gHt e R p (Real.arctan t)) ∧
      (geoPhi e R pE zE phi).eval v = some (Real.arctan (gStep e R p z t)) := by
  have hN := ev_geoN (R := R) h0 h1 hφ
  have hc := Real.cos_arctan_pos t
  have hH : (geoH e R pE phi).eval v = some (gHt e R p (Real.arctan t)) := ev_sub (eval_divE hp (ev_cos hφ) hc.ne') hN
  refine ⟨hH, ?_⟩
  have hNc := rN_cos (R := R) h0 h1 hc
  rw [Real.tan_arctan] at hNc
  have e1 : rN e R (Real.arctan t) + gHt e R p (Real.arctan t) = p / Real.cos (Real.arctan t) := by rw [gHt]; ring
  have e2 : p * (1 - e * rN e R (Real.arctan t) / (rN e R (Real.arctan t) + gHt e R p (Real.arctan t))) = p - e * R * gS e t := by
    rw [e1]
    field_simp
    linear_combination -e * hNc
  have hs := ev_add hN hH
  have := ev_atan (eval_divE hz (eval_mulE hp (ev_sub (a := .dbl 1) (x := 1) (by simp)
    (eval_divE (eval_mulE (a := .dbl e) (x := e) (by simp) hN) hs (by rw [e1]; positivity)))) (by rw [e2]; exact hd))
  refine this.trans (congrArg some ?_)
  rw [e2, gStep]

theorem ev_geoLoop {p z : ℝ} {pE zE : Expr ℝ} (h0 : 0 ≤ e) (h1 : e < 1) (hp : pE.eval v = some p)
    (hz : zE.eval v = some z) (hp0 : 0 < p) (hd : ∀ k, p - e * R * gS e (gTan e R p z k) ≠ 0) :
    ∀ (n k : ℕ) (s : Expr ℝ × Expr ℝ), s.2.eval v = some (Real.arctan (gTan e R p z k)) → 0 < n →
      (geoLoop e R pE zE n s).1.eval v = some (gHt e R p (Real.arctan (gTan e R p z (k + n - 1)))) ∧
      (geoLoop e R pE zE n s).2.eval v = some (Real.arctan (gTan e R p z (k + n))) := by
  intro n
  induction n with
  | zero => intro k s _ h; exact absurd h (lt_irrefl _)
  | succ n ih =>
    intro k s hs _
    obtain ⟨hH, hP⟩ := ev_geoStep (R := R) h0 h1 hp hz hs hp0 (hd k)
    rw [geoLoop]
    rcases n.eq_zero_or_pos with rfl | hn
    · exact ⟨hH, hP⟩
    · have := ih (k + 1) (geoH e R pE s.2, geoPhi e R pE zE s.2) hP hn
      rwa [show k + 1 + n - 1 = k + (n + 1) - 1 by omega, show k + 1 + n = k + (n + 1) by omega] at this

end

/-- For a point on or above the ellipsoid with the latitude `φ`, the longitude `lam` and the height `h`, which is not on the polar axis,
`cart2geo()` with `n` iterations gives the longitude exactly, a latitude with an error of at most `(e/(1-2e))ⁿ e/(1-e)`, where `e`
is the squared eccentricity, and the height which belongs to the latitude of the iteration before, which tends to `h`. -/
theorem cart2geo_converges {e R h φ lam : ℝ} (h0 : 0 ≤ e) (h1 : e < 1 / 3) (hR : 0 < R) (hh : 0 ≤ h)
    (hφ : -(Real.pi / 2) < φ ∧ φ < Real.pi / 2) (hl : -Real.pi < lam ∧ lam ≤ Real.pi) {x : Fin 3 → ℝ} (hx : Geodetic e R h φ lam x) :
    ∃ H Φ : ℕ → ℝ, (∀ n, |Φ n - φ| ≤ (e / (1 - 2 * e)) ^ n * (e / (1 - e))) ∧
      (∀ n, H (n + 1) = Real.sqrt (x 0 ^ 2 + x 1 ^ 2) / Real.cos (Φ n) - R / Real.sqrt (1 - e * Real.sin (Φ n) ^ 2)) ∧ Tendsto H atTop (𝓝 h) ∧
      ∀ [DFunc] (v : Env ℝ) (xyz : Fin 3 → Expr ℝ) (n : ℕ), VVal v xyz x → 0 < n →
        ∃ out, cart2geo xyz (some e) (some R) n = .ok out ∧ VVal v out ![H n, Φ n, lam] := by
  have h1' : e < 1 := by linarith
  have hc : 0 < 1 - e := by linarith
  rw [geodetic_iff h0 h1' hR] at hx
  have hN := rN_pos h0 h1' hR φ
  have hN2 := rN_sq (R := R) h0 h1' φ
  have hcos : 0 < Real.cos φ := Real.cos_pos_of_mem_Ioo ⟨hφ.1, hφ.2⟩
  have cs := Real.sin_sq_add_cos_sq φ
  have cl := Real.sin_sq_add_cos_sq lam
  have hNc := rN_cos (R := R) h0 h1' hcos
  obtain ⟨p, hpd⟩ : ∃ p, p = (rN e R φ + h) * Real.cos φ := ⟨_, rfl⟩
  obtain ⟨z, hzd⟩ : ∃ z, z = ((1 - e) * rN e R φ + h) * Real.sin φ := ⟨_, rfl⟩
  have hp : 0 < p := by rw [hpd]; positivity
  have hDs : p - e * R * gS e (Real.tan φ) = ((1 - e) * rN e R φ + h) * Real.cos φ := by
    rw [hpd]; linear_combination e * hNc
  have hts : 0 < p - e * R * gS e (Real.tan φ) := by rw [hDs]; positivity
  have hfix : Real.tan φ * (p - e * R * gS e (Real.tan φ)) = z := by
    rw [hDs, hzd, Real.tan_eq_sin_div_cos]
    field_simp
  have hell : (1 - e) * R ^ 2 ≤ (1 - e) * p ^ 2 + z ^ 2 := by
    have e1 : (1 - e) * p ^ 2 + z ^ 2 = (1 - e) * R ^ 2 + 2 * (h * rN e R φ * (1 - e)) +
        h ^ 2 * ((1 - e) * Real.cos φ ^ 2 + Real.sin φ ^ 2) := by
      rw [hpd, hzd, ← hN2]
      linear_combination ((1 - e) * rN e R φ ^ 2 + 2 * (h * rN e R φ * (1 - e))) * cs
    rw [e1]
    have : 0 ≤ 2 * (h * rN e R φ * (1 - e)) := by positivity
    have : 0 ≤ h ^ 2 * ((1 - e) * Real.cos φ ^ 2 + Real.sin φ ^ 2) := by positivity
    linarith
  have hq0 : 0 ≤ e / (1 - 2 * e) := div_nonneg h0 (by linarith)
  have hq1 : e / (1 - 2 * e) < 1 := by rw [div_lt_one (by linarith)]; linarith
  have hδ0 : 0 ≤ e / (1 - e) := div_nonneg h0 hc.le
  have hδ1 : e / (1 - e) ≤ 1 / 2 := by rw [div_le_iff₀ hc]; linarith
  -- the errors of the tangents
  have key : ∀ k, |gTan e R p z k - Real.tan φ| ≤ (e / (1 - 2 * e)) ^ k * (e / (1 - e)) * |Real.tan φ| ∧
      z ^ 2 ≤ p ^ 2 * gTan e R p z k ^ 2 := by
    intro k
    induction k with
    | zero =>
      refine ⟨?_, ?_⟩
      · have e1 : gTan e R p z 0 - Real.tan φ = e / (1 - e) * (h * Real.cos φ / p) * Real.tan φ := by
          rw [gTan, ← hfix]
          have : p - e * R * gS e (Real.tan φ) = p * (1 - e) + e * (h * Real.cos φ) := by rw [hDs, hpd]; ring
          rw [this]
          field_simp
          ring
        rw [e1, abs_mul, pow_zero, one_mul]
        refine mul_le_mul_of_nonneg_right ?_ (abs_nonneg _)
        rw [abs_of_nonneg (by positivity)]
        refine mul_le_of_le_one_right hδ0 ?_
        rw [div_le_one hp, hpd]
        exact mul_le_mul_of_nonneg_right (by linarith) hcos.le
      · rw [gTan, div_pow, mul_div_assoc', le_div_iff₀ (by positivity), mul_pow]
        have : (1 - e) ^ 2 ≤ 1 := by nlinarith
        nlinarith [mul_nonneg (sq_nonneg z) (sq_nonneg p)]
    | succ k ih =>
      obtain ⟨c1, c2⟩ := gStep_contract h0 h1 hR hp hell ih.2 hfix hts
      refine ⟨c1.trans ((mul_le_mul_of_nonneg_left ih.1 hq0).trans (le_of_eq ?_)), c2⟩
      ring
  have hd : ∀ k, p - e * R * gS e (gTan e R p z k) ≠ 0 := fun k => (gS_le h0 h1 hR hp hell (key k).2).2.2.1.ne'
  have hΦ : ∀ n, |Real.arctan (gTan e R p z n) - φ| ≤ (e / (1 - 2 * e)) ^ n * (e / (1 - e)) := by
    intro n
    have := arctan_rel (by positivity) ((mul_le_of_le_one_left hδ0 (pow_le_one₀ hq0 hq1.le)).trans hδ1) (key n).1
    rwa [Real.arctan_tan hφ.1 hφ.2] at this
  refine ⟨fun n => gHt e R p (Real.arctan (gTan e R p z (n - 1))), fun n => Real.arctan (gTan e R p z n), hΦ, ?_, ?_, ?_⟩
  · intro n
    have x0 : x 0 = p * Real.cos lam := by rw [hpd, hx]; rfl
    have x1 : x 1 = p * Real.sin lam := by rw [hpd, hx]; rfl
    rw [x0, x1, show (p * Real.cos lam) ^ 2 + (p * Real.sin lam) ^ 2 = p ^ 2 by linear_combination p ^ 2 * cl, Real.sqrt_sq hp.le]
    rfl
  · have l1 : Tendsto (fun n => Real.arctan (gTan e R p z n)) atTop (𝓝 φ) := by
      rw [tendsto_iff_norm_sub_tendsto_zero]
      refine squeeze_zero (fun _ => norm_nonneg _) hΦ ?_
      have := (tendsto_pow_atTop_nhds_zero_of_lt_one hq0 hq1).mul_const (e / (1 - e))
      rwa [zero_mul] at this
    have l2 : ContinuousAt (gHt e R p) φ := by
      unfold gHt rN
      refine ((continuousAt_const.div Real.continuous_cos.continuousAt hcos.ne')).sub (continuousAt_const.div ?_ ?_)
      · exact (Real.continuous_sqrt.comp (continuous_const.sub (continuous_const.mul (Real.continuous_sin.pow 2)))).continuousAt
      · exact (Real.sqrt_pos.2 (sin_den_pos h0 h1' φ)).ne'
    have e1 : gHt e R p φ = h := by
      rw [gHt, hpd]
      field_simp
      ring
    have l3 := (l2.tendsto.comp l1).comp (tendsto_sub_atTop_nat 1)
    rw [e1] at l3
    exact l3
  · intro _ v xyz n hxyz hn
    rw [hx] at hxyz
    have x0 : (xyz 0).eval v = some (p * Real.cos lam) := by rw [hpd]; exact hxyz 0
    have x1 : (xyz 1).eval v = some (p * Real.sin lam) := by rw [hpd]; exact hxyz 1
    have x2 : (xyz 2).eval v = some z := by rw [hzd]; exact hxyz 2
    have hP : (geoP xyz).eval v = some p := by
      refine (eval_sqrtE (ev_add (ev_sq x0) (ev_sq x1)) (by positivity)).trans (congrArg some ?_)
      rw [show (p * Real.cos lam) ^ 2 + (p * Real.sin lam) ^ 2 = p ^ 2 by linear_combination p ^ 2 * cl, Real.sqrt_sq hp.le]
    have hi := ev_atan (eval_divE x2 (eval_mulE hP (b := .dbl (1 - e)) (y := 1 - e) (by simp)) (by positivity))
    have hloop := ev_geoLoop (R := R) h0 h1' hP x2 hp hd n 0 (.dbl 0, unaryE .atan (divE (xyz 2) (mulE (geoP xyz) (.dbl (1 - e))))) hi hn
    rw [Nat.zero_add] at hloop
    refine ⟨_, by rw [cart2geo, geoChecks, if_neg (not_lt.2 h0), if_neg (not_le.2 hR), if_neg hn.ne']; rfl, ?_⟩
    intro i
    fin_cases i
    · exact hloop.1
    · exact hloop.2
    · have hne : ¬ (p * Real.cos lam = 0 ∧ p * Real.sin lam = 0) := by
        rintro ⟨a, b⟩
        have : p ^ 2 = 0 := by linear_combination (-p ^ 2) * cl + p * Real.cos lam * a + p * Real.sin lam * b
        exact hp.ne' (by simpa using this)
      refine (ev_atan2 x1 x0 hne).trans (congrArg some ?_)
      have := Complex.arg_mul_cos_add_sin_mul_I hp ⟨hl.1, hl.2⟩
      rw [show (⟨p * Real.cos lam, p * Real.sin lam⟩ : ℂ) = (p : ℂ) * (Complex.cos lam + Complex.sin lam * Complex.I) from ?_, this]
      · rfl
      · apply Complex.ext <;> simp [Complex.cos_ofReal_re, Complex.sin_ofReal_re]

/-- The round trip for the coordinates of points on or above the ellipsoid of the Earth; four iterations give the latitude with
an error of less than 10⁻¹⁰. -/
example : ∃ (e R h φ lam : ℝ) (x : Fin 3 → ℝ), 0 < e ∧ e < 1 / 3 ∧ 0 < R ∧ 0 < h ∧ (-(Real.pi / 2) < φ ∧ φ < Real.pi / 2) ∧ φ ≠ 0 ∧
    (-Real.pi < lam ∧ lam ≤ Real.pi) ∧ Geodetic e R h φ lam x ∧ (e / (1 - 2 * e)) ^ 4 * (e / (1 - e)) < 1 / 10 ^ 10 := by
  refine ⟨67 / 10000, 6378137, 1000, 1, 1, _, by norm_num, by norm_num, by norm_num, by norm_num,
    ⟨by linarith [Real.pi_gt_three], by linarith [Real.pi_gt_three]⟩, one_ne_zero,
    ⟨by linarith [Real.pi_gt_three], by linarith [Real.pi_gt_three]⟩, (geodetic_iff (by norm_num) (by norm_num) (by norm_num)).2 rfl,
    by norm_num⟩

end Heyoka.Models
