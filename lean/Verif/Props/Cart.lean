import Verif.Theory.CartLemmas
import Verif.Props.Theory
import Verif.Props.Kepler
import Mathlib.Analysis.SpecialFunctions.Complex.Arg

/-!
# C63: the Cartesian coordinates of VSOP2013 and ELP2000
-/

set_option linter.unusedSectionVars false

namespace Heyoka.Theory

open Heyoka.Sym Heyoka.Models Matrix

/-! ### Specification -/

/-- The rotation from the plane of an orbit (first axis towards the pericentre) to the reference frame: inclination `i`, longitude of the ascending
node `Ω`, longitude of the pericentre `ϖ`. -/
noncomputable def orbitRot (i Ω ϖ : ℝ) : Matrix (Fin 3) (Fin 3) ℝ := R3 (-Ω) * R1 (-i) * R3 (-(ϖ - Ω))

/-- The position in the plane of the orbit for the eccentric anomaly `E`. -/
noncomputable def orbitPos (a e E : ℝ) : Fin 3 → ℝ := ![a * (Real.cos E - e), a * Real.sqrt (1 - e ^ 2) * Real.sin E, 0]

/-- The velocity in the plane of the orbit. -/
noncomputable def orbitVel (μ a e E : ℝ) : Fin 3 → ℝ :=
  let n := Real.sqrt (μ / a ^ 3)
  ![-(n * a * Real.sin E / (1 - e * Real.cos E)), n * a * Real.sqrt (1 - e ^ 2) * Real.cos E / (1 - e * Real.cos E), 0]

/-! ### Lemmas -/

section
variable [DFunc] {v : Env ℝ}

theorem ev_kepFE {e1 e2 e3 : Expr ℝ} {h k L : ℝ} (h1 : e1.eval v = some h) (h2 : e2.eval v = some k) (h3 : e3.eval v = some L)
    (hk : h ^ 2 + k ^ 2 < 1) : ∃ w, (kepFE e1 e2 e3).eval v = some w ∧ Real.cos w = Real.cos (Kepler.kepSol h (-k) L) ∧
      Real.sin w = Real.sin (Kepler.kepSol h (-k) L) := by
  have hgen : (Expr.fn .kepF [e1, e2, e3]).eval v = some (Kepler.red (Kepler.kepSol h (-k) L)) := by
    rw [Expr.eval_fn _ _ _ (Or.inl (by simp)), evalL_cons_some h1 (evalL_cons_some h2 (evalL_cons_some h3 (l := []) (xs := []) (by simp)))]
    simp [app_def, realApp, hk]
  have hgen' : ∃ w, (Expr.fn .kepF [e1, e2, e3]).eval v = some w ∧ Real.cos w = Real.cos (Kepler.kepSol h (-k) L) ∧
      Real.sin w = Real.sin (Kepler.kepSol h (-k) L) := ⟨_, hgen, Kepler.cos_red _, Kepler.sin_red _⟩
  unfold kepFE
  split
  · rename_i _ a b
    split_ifs with hz
    · rw [Bool.and_eq_true, Num.isZero_iff, Num.isZero_iff] at hz
      have hs : h = 0 := by
        have : a.toK? = some h := h1
        rw [hz.1] at this; exact (Option.some.inj this).symm
      have hc : k = 0 := by
        have : b.toK? = some k := h2
        rw [hz.2] at this; exact (Option.some.inj this).symm
      have : Kepler.kepSol h (-k) L = L := by
        rw [Kepler.kepSol_eq_iff (by nlinarith), hs, hc]; simp [Kepler.kepG]
      exact ⟨L, h3, by rw [this], by rw [this]⟩
    · exact hgen'
  · exact hgen'

theorem VVal_vec3 {a b c : Expr ℝ} {x y z : ℝ} (ha : a.eval v = some x) (hb : b.eval v = some y) (hc : c.eval v = some z) :
    VVal v (vec3 a b c) ![x, y, z] := fun i => by fin_cases i <;> [exact ha; exact hb; exact hc]

/-- The value of the change of frame. -/
theorem ev_eqFrame {p q x y : ℝ} (hq : q ^ 2 + p ^ 2 < 1) {ep eq A B : Expr ℝ} (hpp : ep.eval v = some (p / Real.sqrt (1 - (q ^ 2 + p ^ 2))))
    (hqq : eq.eval v = some (q / Real.sqrt (1 - (q ^ 2 + p ^ 2)))) (hA : A.eval v = some x) (hB : B.eval v = some y) :
    VVal v (eqFrame ep eq A B) (x • axF q p + y • axG q p) := by
  have one : (Expr.dbl 1 : Expr ℝ).eval v = some 1 := Expr.eval_dbl _ _
  have hw0 : 0 < 1 - (q ^ 2 + p ^ 2) := by linarith
  have hw1 := Real.sqrt_pos.2 hw0
  have hw2 := Real.sq_sqrt hw0.le
  have pmq := ev_sub (ev_sq hpp) (ev_sq hqq)
  have twoP := ev_add hpp hpp
  have twoQ := ev_add hqq hqq
  have twoPQ := eval_mulE twoP hqq
  have quot := ev_add one (ev_add (ev_sq hpp) (ev_sq hqq))
  have hq0 : 1 + ((p / Real.sqrt (1 - (q ^ 2 + p ^ 2))) ^ 2 + (q / Real.sqrt (1 - (q ^ 2 + p ^ 2))) ^ 2) ≠ 0 := by positivity
  have r1 := eval_divE (ev_add (eval_mulE (ev_sub one pmq) hA) (eval_mulE twoPQ hB)) quot hq0
  have r2 := eval_divE (ev_add (eval_mulE twoPQ hA) (eval_mulE (ev_add one pmq) hB)) quot hq0
  have r3 := eval_divE (ev_sub (eval_mulE twoQ hB) (eval_mulE twoP hA)) quot hq0
  have hv := VVal_vec3 r1 r2 r3
  refine Eq.subst (motive := fun z => VVal v (eqFrame ep eq A B) z) ?_ hv
  set W := Real.sqrt (1 - (q ^ 2 + p ^ 2)) with hW
  have hWq : 1 + ((p / W) ^ 2 + (q / W) ^ 2) = 1 / W ^ 2 := by
    field_simp; rw [hw2]; ring
  rw [hWq]
  ext i
  fin_cases i <;> simp [axF, axG, ← hW] <;> field_simp
  · rw [hw2]; ring
  · rw [hw2]; ring
  · ring

/-- The value of the conversion. -/
theorem ev_equinoctial {μ a h k L q p : ℝ} (ha : 0 < a) (hμ : 0 < μ) (hk : h ^ 2 + k ^ 2 < 1) (hq : q ^ 2 + p ^ 2 < 1) {ea el ek eh eq ep : Expr ℝ}
    (h1 : ea.eval v = some a) (h2 : el.eval v = some L) (h3 : ek.eval v = some k) (h4 : eh.eval v = some h) (h5 : eq.eval v = some q)
    (h6 : ep.eval v = some p) :
    let F := Kepler.kepSol h (-k) L
    let n := Real.sqrt (μ / a ^ 3)
    VVal v (equinoctial μ ea el ek eh eq ep).1 (eqX a h k F • axF q p + eqY a h k F • axG q p) ∧
    VVal v (equinoctial μ ea el ek eh eq ep).2 (eqVX a h k n F • axF q p + eqVY a h k n F • axG q p) := by
  intro F n
  have one : (Expr.dbl 1 : Expr ℝ).eval v = some 1 := Expr.eval_dbl _ _
  have hw0 : 0 < 1 - (q ^ 2 + p ^ 2) := by linarith
  have hw1 := Real.sqrt_pos.2 hw0
  have ci2 := eval_sqrtE (ev_sub one (ev_add (ev_sq h5) (ev_sq h6))) hw0.le
  have hqq := eval_divE h5 ci2 hw1.ne'
  have hpp := eval_divE h6 ci2 hw1.ne'
  have hu0 : 0 < 1 - (h ^ 2 + k ^ 2) := by linarith
  have hu1 := Real.sqrt_nonneg (1 - (h ^ 2 + k ^ 2))
  have hu2 : 1 + Real.sqrt (1 - (h ^ 2 + k ^ 2)) ≠ 0 := by positivity
  have eQ := ev_add one (eval_sqrtE (ev_sub one (ev_add (ev_sq h4) (ev_sq h3))) hu0.le)
  obtain ⟨w, hw, hcw, hsw⟩ := ev_kepFE h4 h3 h2 hk
  have cF := ev_cos hw
  have sF := ev_sin hw
  rw [hcw] at cF
  rw [hsw] at sF
  have lamFe := eval_divE (ev_sub (eval_mulE h4 cF) (eval_mulE h3 sF)) eQ hu2
  have a3 := ev_rpow 3 h1 ha
  rw [show (a ^ (3 : ℝ)) = a ^ 3 by exact_mod_cast Real.rpow_natCast a 3] at a3
  have en := eval_sqrtE (eval_divE (Expr.eval_dbl v μ) a3 (by positivity)) (by positivity)
  have Fp := eval_divE en (ev_sub (ev_sub one (eval_mulE h4 sF)) (eval_mulE h3 cF)) (eqR_pos hk F).ne'
  have nFpe := eval_divE (ev_sub en Fp) eQ hu2
  have hB : ∀ x, x / (1 + Real.sqrt (1 - (h ^ 2 + k ^ 2))) = x * eqB h k := fun x => by rw [eqB]; ring
  rw [hB] at lamFe nFpe
  have X1 := eval_mulE h1 (ev_sub (ev_sub cF h3) (eval_mulE h4 lamFe))
  have Y1 := eval_mulE h1 (ev_add (ev_sub sF h4) (eval_mulE h3 lamFe))
  have VX1 := eval_mulE h1 (ev_sub (eval_mulE (ev_neg sF) Fp) (eval_mulE h4 nFpe))
  have VY1 := eval_mulE h1 (ev_add (eval_mulE cF Fp) (eval_mulE h3 nFpe))
  exact ⟨ev_eqFrame hq hpp hqq X1 Y1, ev_eqFrame hq hpp hqq VX1 VY1⟩

end

/-- The axes of the orbit in the equinoctial frame. -/
theorem orbitRot_mulVec {i Ω ϖ q p : ℝ} (hi : 0 ≤ Real.cos (i / 2)) (hq : q = Real.sin (i / 2) * Real.cos Ω) (hp : p = Real.sin (i / 2) * Real.sin Ω)
    (x y : ℝ) : orbitRot i Ω ϖ *ᵥ ![x, y, 0] = (x * Real.cos ϖ - y * Real.sin ϖ) • axF q p + (x * Real.sin ϖ + y * Real.cos ϖ) • axG q p := by
  have hS := Real.sin_sq_add_cos_sq (i / 2)
  have hO := Real.sin_sq_add_cos_sq Ω
  have hc : Real.cos i = 1 - 2 * Real.sin (i / 2) ^ 2 := by
    have := Real.cos_two_mul (i / 2)
    rw [mul_div_cancel₀ i (two_ne_zero)] at this
    linarith
  have hs : Real.sin i = 2 * Real.sin (i / 2) * Real.cos (i / 2) := by
    have := Real.sin_two_mul (i / 2)
    rwa [mul_div_cancel₀ i (two_ne_zero)] at this
  have hw : Real.sqrt (1 - (q ^ 2 + p ^ 2)) = Real.cos (i / 2) := by
    rw [← Real.sqrt_sq hi]; congr 1; rw [hq, hp]; linear_combination (-1) * Real.sin (i / 2) ^ 2 * hO - hS
  rw [hq, hp] at hw
  ext j
  rw [orbitRot]
  simp only [R3, R1, axF, axG, Real.cos_neg, Real.sin_neg, Real.sin_sub, Real.cos_sub, hc, hs, hq, hp, hw]
  set S := Real.sin (i / 2)
  set C := Real.cos (i / 2)
  set so := Real.sin Ω
  set co := Real.cos Ω
  set sw := Real.sin ϖ
  set cw := Real.cos ϖ
  have hso : so ^ 2 = 1 - co ^ 2 := by linarith
  fin_cases j <;> simp [Matrix.mul_apply, mulVec, dotProduct, Fin.sum_univ_three]
  · linear_combination (x * cw - y * sw) * hO
  · linear_combination (x * sw + y * cw) * hO
  · ring

theorem eqB_classical {e ϖ : ℝ} (he : e ^ 2 < 1) : e ^ 2 * eqB (e * Real.sin ϖ) (e * Real.cos ϖ) = 1 - Real.sqrt (1 - e ^ 2) := by
  have h1 : (e * Real.sin ϖ) ^ 2 + (e * Real.cos ϖ) ^ 2 = e ^ 2 := by
    linear_combination e ^ 2 * Real.sin_sq_add_cos_sq ϖ
  have h2 := Real.sq_sqrt (show 0 ≤ 1 - e ^ 2 by linarith)
  have h3 := Real.sqrt_nonneg (1 - e ^ 2)
  rw [eqB, h1]
  set w := Real.sqrt (1 - e ^ 2)
  have : e ^ 2 = 1 - w ^ 2 := by linarith
  rw [this]
  field_simp
  ring

theorem eqR_classical (e ϖ E : ℝ) : eqR (e * Real.sin ϖ) (e * Real.cos ϖ) (E + ϖ) = 1 - e * Real.cos E := by
  rw [eqR, Real.sin_add, Real.cos_add]
  linear_combination (-1) * e * Real.cos E * Real.sin_sq_add_cos_sq ϖ

/-- The classical form of the position. -/
theorem eq_classical {a e ϖ E : ℝ} (he : e ^ 2 < 1) :
    eqX a (e * Real.sin ϖ) (e * Real.cos ϖ) (E + ϖ) =
      a * (Real.cos E - e) * Real.cos ϖ - a * Real.sqrt (1 - e ^ 2) * Real.sin E * Real.sin ϖ ∧
    eqY a (e * Real.sin ϖ) (e * Real.cos ϖ) (E + ϖ) =
      a * (Real.cos E - e) * Real.sin ϖ + a * Real.sqrt (1 - e ^ 2) * Real.sin E * Real.cos ϖ := by
  have hB := eqB_classical (ϖ := ϖ) he
  have hl : e * Real.sin ϖ * Real.cos (E + ϖ) - e * Real.cos ϖ * Real.sin (E + ϖ) = -(e * Real.sin E) := by
    rw [Real.sin_add, Real.cos_add]
    linear_combination (-1) * e * Real.sin E * Real.sin_sq_add_cos_sq ϖ
  rw [eqX, eqY, hl, Real.sin_add, Real.cos_add]
  constructor
  · linear_combination a * Real.sin ϖ * Real.sin E * hB
  · linear_combination (-1) * a * Real.cos ϖ * Real.sin E * hB

/-- The classical form of the velocity. -/
theorem eqV_classical {a e ϖ E n : ℝ} (he : e ^ 2 < 1) :
    eqVX a (e * Real.sin ϖ) (e * Real.cos ϖ) n (E + ϖ) =
      -(n * a * Real.sin E / (1 - e * Real.cos E)) * Real.cos ϖ -
        n * a * Real.sqrt (1 - e ^ 2) * Real.cos E / (1 - e * Real.cos E) * Real.sin ϖ ∧
    eqVY a (e * Real.sin ϖ) (e * Real.cos ϖ) n (E + ϖ) =
      -(n * a * Real.sin E / (1 - e * Real.cos E)) * Real.sin ϖ +
        n * a * Real.sqrt (1 - e ^ 2) * Real.cos E / (1 - e * Real.cos E) * Real.cos ϖ := by
  have hB := eqB_classical (ϖ := ϖ) he
  have hR : 0 < 1 - e * Real.cos E := by
    rw [← eqR_classical e ϖ E]
    refine eqR_pos ?_ _
    have : (e * Real.sin ϖ) ^ 2 + (e * Real.cos ϖ) ^ 2 = e ^ 2 := by linear_combination e ^ 2 * Real.sin_sq_add_cos_sq ϖ
    rw [this]; exact he
  rw [eqVX, eqVY, eqR_classical, Real.sin_add, Real.cos_add]
  have hn : n - n / (1 - e * Real.cos E) = -(n * e * Real.cos E / (1 - e * Real.cos E)) := by field_simp; ring
  rw [hn]
  set R := 1 - e * Real.cos E
  constructor
  · linear_combination a * n * Real.cos E / R * Real.sin ϖ * hB
  · linear_combination (-1) * a * n * Real.cos E / R * Real.cos ϖ * hB

/-- The classical elements of an orbit: semi-major axis, eccentricity, inclination, longitudes of node and pericentre, and the corresponding
elements `a`, `k`, `h`, `q`, `p` of VSOP2013. -/
structure Elements (a k h q p : ℝ) (e i Ω ϖ : ℝ) : Prop where
  pos : 0 < a
  ecc : 0 ≤ e ∧ e < 1
  inc : 0 ≤ i ∧ i < Real.pi
  hk : k = e * Real.cos ϖ
  hh : h = e * Real.sin ϖ
  hq : q = Real.sin (i / 2) * Real.cos Ω
  hp : p = Real.sin (i / 2) * Real.sin Ω

theorem Elements.eccs {a k h q p e i Ω ϖ : ℝ} (H : Elements a k h q p e i Ω ϖ) : e ^ 2 < 1 ∧ h ^ 2 + k ^ 2 < 1 := by
  have h1 : e ^ 2 < 1 := by nlinarith [H.ecc.1, H.ecc.2]
  refine ⟨h1, ?_⟩
  rw [H.hk, H.hh]
  have : (e * Real.sin ϖ) ^ 2 + (e * Real.cos ϖ) ^ 2 = e ^ 2 := by linear_combination e ^ 2 * Real.sin_sq_add_cos_sq ϖ
  rw [this]; exact h1

theorem Elements.cosi {a k h q p e i Ω ϖ : ℝ} (H : Elements a k h q p e i Ω ϖ) : 0 < Real.cos (i / 2) ∧ q ^ 2 + p ^ 2 < 1 := by
  have h1 : 0 < Real.cos (i / 2) := Real.cos_pos_of_mem_Ioo ⟨by linarith [H.inc.1, Real.pi_pos], by linarith [H.inc.2]⟩
  refine ⟨h1, ?_⟩
  have : q ^ 2 + p ^ 2 = 1 - Real.cos (i / 2) ^ 2 := by
    rw [H.hq, H.hp]
    linear_combination Real.sin (i / 2) ^ 2 * Real.sin_sq_add_cos_sq Ω + Real.sin_sq_add_cos_sq (i / 2)
  rw [this]
  nlinarith [sq_pos_of_pos h1]

theorem polar (x y : ℝ) : ∃ r θ : ℝ, 0 ≤ r ∧ r ^ 2 = x ^ 2 + y ^ 2 ∧ x = r * Real.cos θ ∧ y = r * Real.sin θ := by
  refine ⟨‖(⟨x, y⟩ : ℂ)‖, Complex.arg ⟨x, y⟩, norm_nonneg _, ?_, (Complex.norm_mul_cos_arg ⟨x, y⟩).symm, (Complex.norm_mul_sin_arg ⟨x, y⟩).symm⟩
  rw [← Complex.normSq_eq_norm_sq, Complex.normSq_mk]; ring

/-- All the elements of ellipses have their classical form. -/
theorem elements_exist {a k h q p : ℝ} (ha : 0 < a) (hk : h ^ 2 + k ^ 2 < 1) (hq : q ^ 2 + p ^ 2 < 1) : ∃ e i Ω ϖ, Elements a k h q p e i Ω ϖ := by
  obtain ⟨e, ϖ, h1, h2, h3, h4⟩ := polar k h
  obtain ⟨S, Ω, g1, g2, g3, g4⟩ := polar q p
  have hS : S < 1 := by nlinarith
  have hs : Real.sin (Real.arcsin S) = S := Real.sin_arcsin (by linarith) hS.le
  have hi : Real.arcsin S < Real.pi / 2 := Real.arcsin_lt_pi_div_two.2 hS
  refine ⟨e, 2 * Real.arcsin S, Ω, ϖ, ha, ⟨h1, by nlinarith⟩, ⟨by have := Real.arcsin_nonneg.2 g1; positivity, by linarith⟩, h3, h4, ?_, ?_⟩
  · rw [mul_div_cancel_left₀ _ two_ne_zero, hs]; exact g3
  · rw [mul_div_cancel_left₀ _ two_ne_zero, hs]; exact g4

/-- The eccentric anomaly of an orbit at a mean anomaly. -/
theorem eccentric_of {e E M ϖ : ℝ} (he : e ^ 2 < 1) (hE : E - e * Real.sin E = M) :
    Kepler.kepSol (e * Real.sin ϖ) (-(e * Real.cos ϖ)) (M + ϖ) = E + ϖ := by
  have h1 : (e * Real.sin ϖ) ^ 2 + (-(e * Real.cos ϖ)) ^ 2 < 1 := by
    have : (e * Real.sin ϖ) ^ 2 + (-(e * Real.cos ϖ)) ^ 2 = e ^ 2 := by linear_combination e ^ 2 * Real.sin_sq_add_cos_sq ϖ
    rw [this]; exact he
  rw [Kepler.kepSol_eq_iff h1, Kepler.kepG, ← hE, Real.sin_add, Real.cos_add]
  linear_combination (-1) * e * Real.sin E * Real.sin_sq_add_cos_sq ϖ

/-- The position and the velocity of the orbit in the equinoctial frame. -/
theorem orbit_classical {μ a lam k h q p e i Ω ϖ E : ℝ} (H : Elements a k h q p e i Ω ϖ) (hE : E - e * Real.sin E = lam - ϖ) :
    let F := Kepler.kepSol h (-k) lam
    orbitRot i Ω ϖ *ᵥ orbitPos a e E = eqX a h k F • axF q p + eqY a h k F • axG q p ∧
    orbitRot i Ω ϖ *ᵥ orbitVel μ a e E = eqVX a h k (Real.sqrt (μ / a ^ 3)) F • axF q p + eqVY a h k (Real.sqrt (μ / a ^ 3)) F • axG q p := by
  intro F
  have hF : F = E + ϖ := by
    have := eccentric_of (ϖ := ϖ) H.eccs.1 hE
    rw [sub_add_cancel] at this
    rw [← this, ← H.hk, ← H.hh]
  rw [hF, H.hk, H.hh, (eq_classical H.eccs.1).1, (eq_classical H.eccs.1).2, (eqV_classical H.eccs.1).1, (eqV_classical H.eccs.1).2, orbitPos, orbitVel,
    orbitRot_mulVec H.cosi.1.le H.hq H.hp, orbitRot_mulVec H.cosi.1.le H.hq H.hp]
  exact ⟨rfl, rfl⟩

/-- The axes of the equinoctial frame are orthogonal unit vectors. -/
theorem ax_len {q p : ℝ} (hq : q ^ 2 + p ^ 2 < 1) (x y : ℝ) : len (x • axF q p + y • axG q p) ^ 2 = x ^ 2 + y ^ 2 := by
  have hw := Real.sq_sqrt (show 0 ≤ 1 - (q ^ 2 + p ^ 2) by linarith)
  rw [len_sq]
  simp only [axF, axG, Pi.add_apply, Pi.smul_apply, smul_eq_mul, cons_val]
  set w := Real.sqrt (1 - (q ^ 2 + p ^ 2))
  linear_combination 4 * (q * y - p * x) ^ 2 * hw

/-- The orbit with the given elements is a motion in the field of the centre. -/
theorem orbit_motion {μ a lam k h q p e i Ω ϖ : ℝ} (hμ : 0 < μ) (H : Elements a k h q p e i Ω ϖ) {E : ℝ → ℝ}
    (hE : ∀ s, E s - e * Real.sin (E s) = lam + Real.sqrt (μ / a ^ 3) * s - ϖ) :
    KeplerMotion μ (fun s => orbitRot i Ω ϖ *ᵥ orbitPos a e (E s)) (fun s => orbitRot i Ω ϖ *ᵥ orbitVel μ a e (E s)) Set.univ := by
  have ha := H.pos
  set n := Real.sqrt (μ / a ^ 3) with hn
  have hn2 : n ^ 2 = μ / a ^ 3 := Real.sq_sqrt (by positivity)
  have hP : (fun s => orbitRot i Ω ϖ *ᵥ orbitPos a e (E s)) = fun s => eqX a h k (Kepler.kepSol h (-k) (lam + n * s)) • axF q p +
      eqY a h k (Kepler.kepSol h (-k) (lam + n * s)) • axG q p := funext fun s => (orbit_classical (μ := μ) H (hE s)).1
  have hV : (fun s => orbitRot i Ω ϖ *ᵥ orbitVel μ a e (E s)) = fun s => eqVX a h k n (Kepler.kepSol h (-k) (lam + n * s)) • axF q p +
      eqVY a h k n (Kepler.kepSol h (-k) (lam + n * s)) • axG q p := funext fun s => (orbit_classical (μ := μ) H (hE s)).2
  rw [hP, hV]
  intro t _
  have hk := H.eccs.2
  have hR := eqR_pos hk (Kepler.kepSol h (-k) (lam + n * t))
  obtain ⟨d1, d2, d3, d4⟩ := eq_deriv (a := a) hk (L := fun s => lam + n * s) (n := n) (t := t)
    ((((hasDerivAt_id t).const_mul n).const_add lam).congr_deriv (by simp))
  have hl : len (eqX a h k (Kepler.kepSol h (-k) (lam + n * t)) • axF q p + eqY a h k (Kepler.kepSol h (-k) (lam + n * t)) • axG q p) =
      a * eqR h k (Kepler.kepSol h (-k) (lam + n * t)) := by
    rw [← Real.sqrt_sq (show 0 ≤ a * eqR h k (Kepler.kepSol h (-k) (lam + n * t)) by positivity), ← eq_dist hk, ← ax_len H.cosi.2,
      Real.sqrt_sq (show 0 ≤ len _ from Real.sqrt_nonneg _)]
  refine ⟨fun h0 => ?_, (d1.smul_const (axF q p)).fun_add (d2.smul_const (axG q p)),
    ((d3.smul_const (axF q p)).fun_add (d4.smul_const (axG q p))).congr_deriv ?_⟩
  · have : len (0 : Fin 3 → ℝ) = 0 := by simp [len]
    simp only [h0, this] at hl
    have : 0 < a * eqR h k (Kepler.kepSol h (-k) (lam + n * t)) := by positivity
    linarith
  · simp only [hl]
    have : μ / (a * eqR h k (Kepler.kepSol h (-k) (lam + n * t))) ^ 3 = n ^ 2 / eqR h k (Kepler.kepSol h (-k) (lam + n * t)) ^ 3 := by
      rw [hn2]; field_simp
    rw [this, smul_add, smul_smul, smul_smul]

/-- A rotation of a motion in the field of the centre is one. -/
theorem rotated_motion {μ : ℝ} {P V : ℝ → Fin 3 → ℝ} {I : Set ℝ} (hm : KeplerMotion μ P V I) {A : Matrix (Fin 3) (Fin 3) ℝ} (hA : Aᵀ * A = 1) :
    KeplerMotion μ (fun s => A *ᵥ P s) (fun s => A *ᵥ V s) I := by
  have hd : ∀ {f : ℝ → Fin 3 → ℝ} {f' : Fin 3 → ℝ} {t : ℝ}, HasDerivAt f f' t → HasDerivAt (fun s => A *ᵥ f s) (A *ᵥ f') t := by
    intro f f' t h
    refine hasDerivAt_pi.2 fun i => ?_
    have h' := hasDerivAt_pi.1 h
    simp only [mulVec, dotProduct, Fin.sum_univ_three]
    exact (((h' 0).const_mul _).fun_add ((h' 1).const_mul _)).fun_add ((h' 2).const_mul _)
  intro t ht
  obtain ⟨h0, h1, h2⟩ := hm t ht
  have hl : len (A *ᵥ P t) = len (P t) := by
    have := len2_orth hA (P t)
    rw [len2_eq, len2_eq] at this
    rw [len, len, this]
  refine ⟨fun h => h0 ?_, hd h1, (hd h2).congr_deriv ?_⟩
  · have := congrArg (fun z => Aᵀ *ᵥ z) h
    simpa [mulVec_mulVec, hA] using this
  · rw [hl, mulVec_smul]

/-! ### VSOP2013 -/

section
variable [DFunc] {v : Env ℝ}

/-- An element of an orbit from the tables of VSOP2013 (`vsop_elliptic_value`). -/
noncomputable def vsopElement (data : Nat → Nat → List (List VsopRow)) (pl : Nat) (th x : ℝ) (j : Nat) : ℝ :=
  poly ((data pl j).map (vsopSeries x th)) x

/-- The gravitational parameter of the Sun and a planet. -/
noncomputable def vsopMu (pl : Nat) : ℝ := gmSun + gmPlanet.getD (pl - 1) 0

theorem vsopMu_pos (pl : Nat) : 0 < vsopMu pl := by
  have : 0 ≤ gmPlanet.getD (pl - 1) 0 := by
    rcases pl - 1 with _ | _ | _ | _ | _ | _ | _ | _ | _ | n <;> norm_num [gmPlanet]
  rw [vsopMu, gmSun]
  positivity

/-- `vsop2013_cartesian()` returns the position and the velocity on the orbit with the elements which `vsop2013_elliptic()` returns: they are the
position and the velocity on an ellipse in the plane of the orbit, and the state at the time zero of a motion in the field of the Sun and the planet
with these elements and a mean longitude which grows uniformly. -/
theorem vsop_cartesian_value (data : Nat → Nat → List (List VsopRow)) {pl : Nat} (hp : 1 ≤ pl ∧ pl ≤ 9) {t : Expr ℝ} {x th : ℝ} (ht : t.eval v = some x)
    (hth : 0 ≤ th) {e i Ω ϖ : ℝ}
    (H : Elements (vsopElement data pl th x 1) (vsopElement data pl th x 3) (vsopElement data pl th x 4) (vsopElement data pl th x 5)
      (vsopElement data pl th x 6) e i Ω ϖ) {E : ℝ → ℝ}
    (hE : ∀ s, E s - e * Real.sin (E s) = vsopElement data pl th x 2 + Real.sqrt (vsopMu pl / vsopElement data pl th x 1 ^ 3) * s - ϖ) :
    ∃ P V, vsopCartesian data pl t (some th) = .ok (P, V) ∧ VVal v P (orbitRot i Ω ϖ *ᵥ orbitPos (vsopElement data pl th x 1) e (E 0)) ∧
      VVal v V (orbitRot i Ω ϖ *ᵥ orbitVel (vsopMu pl) (vsopElement data pl th x 1) e (E 0)) ∧
      KeplerMotion (vsopMu pl) (fun s => orbitRot i Ω ϖ *ᵥ orbitPos (vsopElement data pl th x 1) e (E s))
        (fun s => orbitRot i Ω ϖ *ᵥ orbitVel (vsopMu pl) (vsopElement data pl th x 1) e (E s)) Set.univ := by
  obtain ⟨e1, r1, v1⟩ := vsop_elliptic_value data hp (var := 1) (by simp) ht hth
  obtain ⟨e2, r2, v2⟩ := vsop_elliptic_value data hp (var := 2) (by simp) ht hth
  obtain ⟨e3, r3, v3⟩ := vsop_elliptic_value data hp (var := 3) (by simp) ht hth
  obtain ⟨e4, r4, v4⟩ := vsop_elliptic_value data hp (var := 4) (by simp) ht hth
  obtain ⟨e5, r5, v5⟩ := vsop_elliptic_value data hp (var := 5) (by simp) ht hth
  obtain ⟨e6, r6, v6⟩ := vsop_elliptic_value data hp (var := 6) (by simp) ht hth
  have hlen : pl - 1 < gmPlanet.length := by simp [gmPlanet]; omega
  have hgm : gmPlanet[pl - 1]? = some (gmPlanet.getD (pl - 1) 0) := by
    rw [List.getD_eq_getElem?_getD, List.getElem?_eq_getElem hlen]; rfl
  obtain ⟨hP, hV⟩ := ev_equinoctial H.pos (vsopMu_pos pl) H.eccs.2 H.cosi.2 v1 v2 v3 v4 v5 v6
  have h0 := hE 0
  rw [mul_zero, add_zero] at h0
  obtain ⟨c1, c2⟩ := orbit_classical (μ := vsopMu pl) H h0
  refine ⟨(equinoctial (vsopMu pl) e1 e2 e3 e4 e5 e6).1, (equinoctial (vsopMu pl) e1 e2 e3 e4 e5 e6).2, ?_, ?_, ?_, orbit_motion (vsopMu_pos pl) H hE⟩
  · rw [vsopCartesian, r1, r2, r3, r4, r5, r6]
    simp only [Res.bind_ok]
    rw [hgm]
    rfl
  · rw [c1]; exact hP
  · rw [c2]; exact hV

/-- Invalid arguments are refused. -/
theorem vsop_cartesian_invalid (data : Nat → Nat → List (List VsopRow)) (pl : Nat) (t : Expr ℝ) (th : Option ℝ)
    (h : ¬ (1 ≤ pl ∧ pl ≤ 9 ∧ ∃ x, th = some x ∧ 0 ≤ x)) : vsopCartesian data pl t th = .throw ∧ vsopIcrf data pl t th = .throw := by
  have h1 : vsopElliptic data pl 1 t th = .throw := vsop_elliptic_invalid data pl 1 t th (fun hc => h ⟨hc.1, hc.2.1, hc.2.2.2.2⟩)
  have h2 : vsopCartesian data pl t th = .throw := by rw [vsopCartesian, h1]; rfl
  exact ⟨h2, by rw [vsopIcrf, h2]; rfl⟩

/-- The rotation from the dynamical frame J2000 to the ICRF. -/
theorem ev_icrfRot {e : Fin 3 → Expr ℝ} {p : Fin 3 → ℝ} (he : VVal v e p) : VVal v (icrfRot e) ((R3 (-icrfPhi) * R1 (-icrfEps)) *ᵥ p) := by
  have r1 := ev_add (ev_sub (eval_mulE (Expr.eval_dbl v (Real.cos icrfPhi)) (he 0)) (eval_mulE (Expr.eval_dbl v (Real.sin icrfPhi * Real.cos icrfEps)) (he 1)))
    (eval_mulE (Expr.eval_dbl v (Real.sin icrfPhi * Real.sin icrfEps)) (he 2))
  have r2 := ev_sub (ev_add (eval_mulE (Expr.eval_dbl v (Real.sin icrfPhi)) (he 0)) (eval_mulE (Expr.eval_dbl v (Real.cos icrfPhi * Real.cos icrfEps)) (he 1)))
    (eval_mulE (Expr.eval_dbl v (Real.cos icrfPhi * Real.sin icrfEps)) (he 2))
  have r3 := ev_add (eval_mulE (Expr.eval_dbl v (Real.sin icrfEps)) (he 1)) (eval_mulE (Expr.eval_dbl v (Real.cos icrfEps)) (he 2))
  refine Eq.subst (motive := fun z => VVal v (icrfRot e) z) ?_ (VVal_vec3 r1 r2 r3)
  ext i
  fin_cases i <;> simp [R3, R1, Matrix.mul_apply, mulVec, dotProduct, Fin.sum_univ_three] <;> ring

/-- `vsop2013_cartesian_icrf()` rotates position and velocity of `vsop2013_cartesian()` about the first and then the third axis; lengths and
motions in the field of the Sun and the planet are preserved. -/
theorem vsop_icrf_value (data : Nat → Nat → List (List VsopRow)) {pl : Nat} {t : Expr ℝ} {th : Option ℝ} {P V : Fin 3 → Expr ℝ} {p w : Fin 3 → ℝ}
    (h : vsopCartesian data pl t th = .ok (P, V)) (hP : VVal v P p) (hV : VVal v V w) :
    ∃ P' V', vsopIcrf data pl t th = .ok (P', V') ∧ VVal v P' ((R3 (-icrfPhi) * R1 (-icrfEps)) *ᵥ p) ∧
      VVal v V' ((R3 (-icrfPhi) * R1 (-icrfEps)) *ᵥ w) ∧ len2 ((R3 (-icrfPhi) * R1 (-icrfEps)) *ᵥ p) = len2 p ∧
      len2 ((R3 (-icrfPhi) * R1 (-icrfEps)) *ᵥ w) = len2 w :=
  ⟨_, _, by rw [vsopIcrf, h]; rfl, ev_icrfRot hP, ev_icrfRot hV, len2_orth (orth_mul (R3_orth _) (R1_orth _)) _,
    len2_orth (orth_mul (R3_orth _) (R1_orth _)) _⟩

/-- The motion in the ICRF. -/
theorem vsop_icrf_motion {μ : ℝ} {P V : ℝ → Fin 3 → ℝ} {I : Set ℝ} (hm : KeplerMotion μ P V I) :
    KeplerMotion μ (fun s => (R3 (-icrfPhi) * R1 (-icrfEps)) *ᵥ P s) (fun s => (R3 (-icrfPhi) * R1 (-icrfEps)) *ᵥ V s) I :=
  rotated_motion hm (orth_mul (R3_orth _) (R1_orth _))

/-! ### ELP2000 -/

/-- The rotation from the mean ecliptic of date to the ecliptic of J2000 for `P = sin(π/2) sin Π` and `Q = sin(π/2) cos Π`. -/
noncomputable def laskarRot (P Q : ℝ) : Matrix (Fin 3) (Fin 3) ℝ :=
  let w := Real.sqrt (1 - P ^ 2 - Q ^ 2)
  !![1 - 2 * P ^ 2, 2 * P * Q, 2 * P * w; 2 * P * Q, 1 - 2 * Q ^ 2, -(2 * Q * w); -(2 * P * w), 2 * Q * w, 1 - 2 * P ^ 2 - 2 * Q ^ 2]

/-- It is the rotation by the angle `i` about the node `Ω`. -/
theorem laskarRot_eq {i Ω : ℝ} (hi : 0 ≤ i ∧ i ≤ Real.pi) :
    laskarRot (Real.sin (i / 2) * Real.sin Ω) (Real.sin (i / 2) * Real.cos Ω) = R3 (-Ω) * R1 (-i) * R3 Ω := by
  have hS := Real.sin_sq_add_cos_sq (i / 2)
  have hO := Real.sin_sq_add_cos_sq Ω
  have hc : Real.cos i = 1 - 2 * Real.sin (i / 2) ^ 2 := by
    have := Real.cos_two_mul (i / 2)
    rw [mul_div_cancel₀ i (two_ne_zero)] at this
    linarith
  have hs : Real.sin i = 2 * Real.sin (i / 2) * Real.cos (i / 2) := by
    have := Real.sin_two_mul (i / 2)
    rwa [mul_div_cancel₀ i (two_ne_zero)] at this
  have hw : Real.sqrt (1 - (Real.sin (i / 2) * Real.sin Ω) ^ 2 - (Real.sin (i / 2) * Real.cos Ω) ^ 2) = Real.cos (i / 2) := by
    rw [← Real.sqrt_sq (Real.cos_nonneg_of_mem_Icc ⟨by linarith [Real.pi_pos], by linarith⟩ : 0 ≤ Real.cos (i / 2))]
    congr 1
    linear_combination (-1) * Real.sin (i / 2) ^ 2 * hO - hS
  rw [laskarRot]
  simp only [hw, R3, R1, Real.cos_neg, Real.sin_neg, hc, hs]
  set S := Real.sin (i / 2)
  set C := Real.cos (i / 2)
  set so := Real.sin Ω
  set co := Real.cos Ω
  ext a b
  fin_cases a <;> fin_cases b <;> simp [Matrix.mul_apply, Fin.sum_univ_three] <;> first | ring1 | linear_combination (-1) * hO | linear_combination (-2) * S ^ 2 * hO

/-- It preserves lengths. -/
theorem laskarRot_orth {P Q : ℝ} (h : P ^ 2 + Q ^ 2 ≤ 1) : (laskarRot P Q)ᵀ * laskarRot P Q = 1 := by
  have hw := Real.sq_sqrt (show 0 ≤ 1 - P ^ 2 - Q ^ 2 by linarith)
  ext a b
  rw [laskarRot]
  set w := Real.sqrt (1 - P ^ 2 - Q ^ 2)
  fin_cases a <;> fin_cases b <;> simp [Matrix.mul_apply, Fin.sum_univ_three] <;>
    first | ring1 | linear_combination 4 * P ^ 2 * hw | linear_combination 4 * Q ^ 2 * hw | linear_combination (-4) * P * Q * hw |
      linear_combination (4 * P ^ 2 + 4 * Q ^ 2) * hw

theorem ev_elpE2000Rot {P Q : Expr ℝ} {a b : ℝ} (hP : P.eval v = some a) (hQ : Q.eval v = some b) (h : a ^ 2 + b ^ 2 ≤ 1) {e : Fin 3 → Expr ℝ}
    {p : Fin 3 → ℝ} (he : VVal v e p) : VVal v (elpE2000Rot P Q e) (laskarRot a b *ᵥ p) := by
  have one : (Expr.dbl 1 : Expr ℝ).eval v = some 1 := Expr.eval_dbl _ _
  have two : (Expr.dbl 2 : Expr ℝ).eval v = some 2 := Expr.eval_dbl _ _
  have mtwo : (Expr.dbl (-2) : Expr ℝ).eval v = some (-2) := Expr.eval_dbl _ _
  have hw := eval_sqrtE (ev_sub (ev_sub one (ev_sq hP)) (ev_sq hQ)) (by linarith)
  have hPQ := eval_mulE two (eval_mulE hP hQ)
  have r1 := ev_sum (evalL_cons_some (eval_mulE (ev_sub one (eval_mulE two (ev_sq hP))) (he 0)) (evalL_cons_some (eval_mulE hPQ (he 1))
    (evalL_cons_some (eval_mulE (eval_mulE (eval_mulE two hP) hw) (he 2)) (l := []) (xs := []) (by simp))))
  have r2 := ev_sum (evalL_cons_some (eval_mulE hPQ (he 0)) (evalL_cons_some (eval_mulE (ev_sub one (eval_mulE two (ev_sq hQ))) (he 1))
    (evalL_cons_some (eval_mulE (eval_mulE (eval_mulE mtwo hQ) hw) (he 2)) (l := []) (xs := []) (by simp))))
  have r3 := ev_sum (evalL_cons_some (eval_mulE (eval_mulE (eval_mulE mtwo hP) hw) (he 0)) (evalL_cons_some (eval_mulE (eval_mulE (eval_mulE two hQ) hw) (he 1))
    (evalL_cons_some (eval_mulE (ev_sub (ev_sub one (eval_mulE two (ev_sq hP))) (eval_mulE two (ev_sq hQ))) (he 2)) (l := []) (xs := []) (by simp))))
  refine Eq.subst (motive := fun z => VVal v (elpE2000Rot P Q e) z) ?_ (VVal_vec3 r1 r2 r3)
  ext i
  fin_cases i <;> simp [laskarRot, mulVec, dotProduct, Fin.sum_univ_three] <;> ring

/-- The coordinates of Laskar's series are small for ten thousand years before and after J2000 (the time is in Julian centuries). -/
theorem laskar_small {t : ℝ} (ht : |t| ≤ 100) : poly laskarP t ^ 2 + poly laskarQ t ^ 2 ≤ 1 := by
  obtain ⟨h1, h2⟩ := abs_le.1 ht
  have b : ∀ n, |t ^ n| ≤ 100 ^ n := fun n => by rw [abs_pow]; exact pow_le_pow_left₀ (abs_nonneg _) ht n
  have b2 := abs_le.1 (b 2)
  have b3 := abs_le.1 (b 3)
  have b4 := abs_le.1 (b 4)
  have b5 := abs_le.1 (b 5)
  have hP : poly laskarP t = 0.10180391e-4 * t + 0.47020439e-6 * t ^ 2 + -0.5417367e-9 * t ^ 3 + -0.2507948e-11 * t ^ 4 + 0.463486e-14 * t ^ 5 := by
    simp [poly, laskarP]; ring
  have hQ : poly laskarQ t = -0.113469002e-3 * t + 0.12372674e-6 * t ^ 2 + 0.12654170e-8 * t ^ 3 + -0.1371808e-11 * t ^ 4 + -0.320334e-14 * t ^ 5 := by
    simp [poly, laskarQ]; ring
  have p1 : |poly laskarP t| ≤ 1 / 2 := by
    rw [hP, abs_le]; norm_num at b2 b3 b4 b5 ⊢; constructor <;> linarith
  have q1 : |poly laskarQ t| ≤ 1 / 2 := by
    rw [hQ, abs_le]; norm_num at b2 b3 b4 b5 ⊢; constructor <;> linarith
  have p2 := sq_abs (poly laskarP t)
  have q2 := sq_abs (poly laskarQ t)
  nlinarith [abs_nonneg (poly laskarP t), abs_nonneg (poly laskarQ t)]

/-- The constant matrix of the rotation from the ecliptic to the equator of J2000. -/
noncomputable def elpFk5M : Matrix (Fin 3) (Fin 3) ℝ :=
  !![1, 0.000000437913, -0.000000189859; -0.000000477299, 0.917482137607, -0.397776981701; 0, 0.397776981701, 0.917482137607]

theorem ev_elpFk5Rot {e : Fin 3 → Expr ℝ} {p : Fin 3 → ℝ} (he : VVal v e p) : VVal v (elpFk5Rot e) (elpFk5M *ᵥ p) := by
  have r1 := ev_sum (evalL_cons_some (he 0) (evalL_cons_some (eval_mulE (Expr.eval_dbl v 0.000000437913) (he 1))
    (evalL_cons_some (eval_mulE (Expr.eval_dbl v (-0.000000189859)) (he 2)) (l := []) (xs := []) (by simp))))
  have r2 := ev_sum (evalL_cons_some (eval_mulE (Expr.eval_dbl v (-0.000000477299)) (he 0)) (evalL_cons_some (eval_mulE (Expr.eval_dbl v 0.917482137607) (he 1))
    (evalL_cons_some (eval_mulE (Expr.eval_dbl v (-0.397776981701)) (he 2)) (l := []) (xs := []) (by simp))))
  have r3 := ev_sum (evalL_cons_some (eval_mulE (Expr.eval_dbl v 0.397776981701) (he 1))
    (evalL_cons_some (eval_mulE (Expr.eval_dbl v 0.917482137607) (he 2)) (l := []) (xs := []) (by simp)))
  refine Eq.subst (motive := fun z => VVal v (elpFk5Rot e) z) ?_ (VVal_vec3 r1 r2 r3)
  ext i
  fin_cases i <;> simp [elpFk5M, mulVec, dotProduct, Fin.sum_univ_three] <;> ring

/-- The matrix preserves lengths up to the rounding of its entries. -/
theorem elpFk5M_len (p : Fin 3 → ℝ) : |len2 (elpFk5M *ᵥ p) - len2 p| ≤ 3e-12 * len2 p := by
  have : len2 (elpFk5M *ᵥ p) - len2 p = (elpFk5M *ᵥ p) 0 ^ 2 + (elpFk5M *ᵥ p) 1 ^ 2 + (elpFk5M *ᵥ p) 2 ^ 2 - (p 0 ^ 2 + p 1 ^ 2 + p 2 ^ 2) := rfl
  rw [this, len2]
  simp only [elpFk5M, mulVec, dotProduct, Fin.sum_univ_three]
  simp
  generalize p 0 = x
  generalize p 1 = y
  generalize p 2 = z
  rw [abs_le]
  constructor <;> norm_num <;> nlinarith [sq_nonneg (x - y), sq_nonneg (x + y), sq_nonneg (x - z), sq_nonneg (x + z), sq_nonneg (y - z), sq_nonneg (y + z)]

/-- Distance, latitude and longitude of the Moon as computed from the tables (`elp_spherical_value`). -/
noncomputable def elpDistVal (T : ElpTables) (th t : ℝ) : ℝ :=
  elpMainCos (elpVals .main t) th (T.main 3) + elpPerturb elpA0 (fun n => T.pert (n + 2)) th t
noncomputable def elpLatVal (T : ElpTables) (th t : ℝ) : ℝ :=
  elpMainSin (elpVals .main t) th (T.main 2) + elpPerturb 1 (fun n => T.pert (n + 1)) th t
noncomputable def elpLonVal (T : ElpTables) (th t : ℝ) : ℝ :=
  poly elpW1 t + elpMainSin (elpVals .main t) th (T.main 1) + elpPerturb 1 T.pert th t

/-- The point with the given distance, latitude and longitude. -/
noncomputable def spherical (r U V : ℝ) : Fin 3 → ℝ := ![r * Real.cos U * Real.cos V, r * Real.cos U * Real.sin V, r * Real.sin U]

theorem spherical_len (r U V : ℝ) : len2 (spherical r U V) = r ^ 2 := by
  simp only [len2, spherical, cons_val]
  linear_combination r ^ 2 * Real.cos U ^ 2 * Real.sin_sq_add_cos_sq V + r ^ 2 * Real.sin_sq_add_cos_sq U

/-- `elp2000_cartesian()` returns the point with the spherical coordinates which `elp2000_spherical()` returns; its distance from the origin is the
absolute value of the first. -/
theorem elp_cartesian_value {T : ElpTables} (hT : T.Ok) {tm : Expr ℝ} {t th : ℝ} (ht : tm.eval v = some t) (hth : 0 ≤ th) :
    ∃ p, elpCartesian T tm (some th) = .ok p ∧ VVal v p (spherical (elpDistVal T th t) (elpLatVal T th t) (elpLonVal T th t)) ∧
      len2 (spherical (elpDistVal T th t) (elpLatVal T th t) (elpLonVal T th t)) = elpDistVal T th t ^ 2 := by
  obtain ⟨r, U, V, h, hr, hU, hV⟩ := elp_spherical_value hT ht hth
  refine ⟨_, by rw [elpCartesian, h]; rfl, ?_, spherical_len _ _ _⟩
  have c := eval_mulE hr (ev_cos hU)
  exact VVal_vec3 (eval_mulE c (ev_cos hV)) (eval_mulE c (ev_sin hV)) (eval_mulE hr (ev_sin hU))

/-- `elp2000_cartesian_e2000()` applies to the coordinates of `elp2000_cartesian()` the rotation from the ecliptic of date to the ecliptic of J2000;
lengths are preserved. The time is within ten thousand years of J2000. -/
theorem elp_e2000_value {T : ElpTables} (hT : T.Ok) {tm : Expr ℝ} {t th : ℝ} (ht : tm.eval v = some t) (hth : 0 ≤ th) (h100 : |t| ≤ 100) :
    ∃ p, elpE2000 T tm (some th) = .ok p ∧
      VVal v p (laskarRot (poly laskarP t) (poly laskarQ t) *ᵥ spherical (elpDistVal T th t) (elpLatVal T th t) (elpLonVal T th t)) ∧
      len2 (laskarRot (poly laskarP t) (poly laskarQ t) *ᵥ spherical (elpDistVal T th t) (elpLatVal T th t) (elpLonVal T th t)) =
        elpDistVal T th t ^ 2 := by
  obtain ⟨p, h, hp, hl⟩ := elp_cartesian_value hT ht hth
  exact ⟨_, by rw [elpE2000, h]; rfl, ev_elpE2000Rot (ev_hornerN _ ht) (ev_hornerN _ ht) (laskar_small h100) hp,
    by rw [len2_orth (laskarRot_orth (laskar_small h100)), hl]⟩

/-- `elp2000_cartesian_fk5()` applies a constant matrix to the coordinates of `elp2000_cartesian_e2000()`; the square of the distance changes by a
relative error of at most `3e-12`. -/
theorem elp_fk5_value {T : ElpTables} (hT : T.Ok) {tm : Expr ℝ} {t th : ℝ} (ht : tm.eval v = some t) (hth : 0 ≤ th) (h100 : |t| ≤ 100) :
    ∃ p z, elpFk5 T tm (some th) = .ok p ∧ VVal v p z ∧
      z = elpFk5M *ᵥ (laskarRot (poly laskarP t) (poly laskarQ t) *ᵥ spherical (elpDistVal T th t) (elpLatVal T th t) (elpLonVal T th t)) ∧
      |len2 z - elpDistVal T th t ^ 2| ≤ 3e-12 * elpDistVal T th t ^ 2 := by
  obtain ⟨p, h, hp, hl⟩ := elp_e2000_value hT ht hth h100
  refine ⟨_, _, by rw [elpFk5, h]; rfl, ev_elpFk5Rot hp, rfl, ?_⟩
  rw [← hl]
  exact elpFk5M_len _

/-- The matrix is not exactly a rotation. -/
theorem elpFk5M_not_orth : elpFk5Mᵀ * elpFk5M ≠ 1 := fun h => by
  have := congrFun (congrFun h 0) 0
  simp [elpFk5M, Matrix.mul_apply, Fin.sum_univ_three] at this
  norm_num at this

/-- The matrix is close to the rotation by the obliquity of the ecliptic. -/
theorem elpFk5M_orientation (p : Fin 3 → ℝ) : len2 (elpFk5M *ᵥ p - ((!![1, 0, 0; 0, 0.917482137607, -0.397776981701; 0, 0.397776981701, 0.917482137607] :
    Matrix (Fin 3) (Fin 3) ℝ) *ᵥ p)) ≤ 1e-12 * len2 p := by
  simp only [len2, elpFk5M, mulVec, dotProduct, Fin.sum_univ_three, Pi.sub_apply]
  simp
  generalize p 0 = x
  generalize p 1 = y
  generalize p 2 = z
  norm_num
  nlinarith [sq_nonneg (x - y), sq_nonneg (x + y), sq_nonneg (x - z), sq_nonneg (x + z), sq_nonneg (y - z), sq_nonneg (y + z)]

/-- Invalid thresholds are refused by all three. -/
theorem elp_cartesian_threshold (T : ElpTables) (tm : Expr ℝ) {th : Option ℝ} (h : ¬ ∃ x, th = some x ∧ 0 ≤ x) :
    elpCartesian T tm th = .throw ∧ elpE2000 T tm th = .throw ∧ elpFk5 T tm th = .throw := by
  have h0 : elpSpherical T tm th = .throw := by
    cases th with
    | none => exact (elp_threshold T tm).1
    | some x => exact (elp_threshold T tm).2 x (by by_contra hc; exact h ⟨x, rfl, not_lt.1 hc⟩)
  have h1 : elpCartesian T tm th = .throw := by rw [elpCartesian, h0]; rfl
  have h2 : elpE2000 T tm th = .throw := by rw [elpE2000, h1]; rfl
  exact ⟨h1, h2, by rw [elpFk5, h2]; rfl⟩

end

/-! ### The hypotheses can be met -/

/-- Elements of an inclined orbit. -/
example : Elements 2 (1 / 2 * Real.cos 1) (1 / 2 * Real.sin 1) (Real.sin (1 / 2) * Real.cos 3) (Real.sin (1 / 2) * Real.sin 3) (1 / 2) 1 3 1 :=
  ⟨by norm_num, by norm_num, ⟨by norm_num, by linarith [Real.pi_gt_three]⟩, rfl, rfl, rfl, rfl⟩

/-- There is an eccentric anomaly at all times. -/
example {e : ℝ} (h0 : 0 ≤ e) (h1 : e < 1) (M : ℝ → ℝ) : ∃ E : ℝ → ℝ, ∀ s, E s - e * Real.sin (E s) = M s :=
  ⟨fun s => (Kepler.kepE_exists_unique h0 h1 (M s)).choose, fun s => (Kepler.kepE_exists_unique h0 h1 (M s)).choose_spec.1⟩

/-- A table whose elements are those of a circular orbit in the plane of reference. -/
example (x : ℝ) : Elements (vsopElement (fun _ j => if j = 1 then [[⟨0, 3, []⟩]] else []) 3 0 x 1)
    (vsopElement (fun _ j => if j = 1 then [[⟨0, 3, []⟩]] else []) 3 0 x 3) (vsopElement (fun _ j => if j = 1 then [[⟨0, 3, []⟩]] else []) 3 0 x 4)
    (vsopElement (fun _ j => if j = 1 then [[⟨0, 3, []⟩]] else []) 3 0 x 5) (vsopElement (fun _ j => if j = 1 then [[⟨0, 3, []⟩]] else []) 3 0 x 6)
    0 0 0 0 := by
  have h1 : vsopElement (fun _ j => if j = 1 then [[⟨0, 3, []⟩]] else []) 3 0 x 1 = 3 := by
    simp [vsopElement, poly, vsopSeries, sumOver, trigTerm, comb, amp]
  have h2 : ∀ j, j ≠ 1 → vsopElement (fun _ j => if j = 1 then [[⟨0, 3, []⟩]] else []) 3 0 x j = 0 := fun j hj => by
    simp [vsopElement, poly, hj]
  rw [h1, h2 3 (by norm_num), h2 4 (by norm_num), h2 5 (by norm_num), h2 6 (by norm_num)]
  exact ⟨by norm_num, by norm_num, ⟨le_rfl, Real.pi_pos⟩, by simp, by simp, by simp, by simp⟩

end Heyoka.Theory
