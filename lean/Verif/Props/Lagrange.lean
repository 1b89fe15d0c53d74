import Verif.Models.Lagrange
import Mathlib.Analysis.ODE.ExistUnique

/-!
# The Lagrange propagator (C55)

`model::lagrange_prop()` is the solution of the Kepler problem on bound orbits. The specification is `KeplerMotion`
(`Verif/Models/Lagrange.lean`): the derivative of the position is the velocity, the derivative of the velocity is the gravitational
acceleration of the centre.
-/

set_option linter.unusedSectionVars false

namespace Heyoka.Models

open Heyoka.Sym Matrix Topology

/-- The specific energy. -/
noncomputable def orbitEnergy (μ : ℝ) (p v : Fin 3 → ℝ) : ℝ := len v ^ 2 / 2 - μ / len p

/-- For an initial state of negative energy which is not on a straight line through the centre, the position and the velocity
computed by `model::lagrange_prop()` as functions of the propagation time are the motion, for all the past and future times, in
the field of the centre, which starts from the initial state. -/
theorem lagrange_prop_motion [DFunc] {p0 v0 : Fin 3 → ℝ} {μ : ℝ} (hμ : 0 < μ) (hh : p0 ⨯₃ v0 ≠ 0) (he : orbitEnergy μ p0 v0 < 0) :
    ∃ P V : ℝ → Fin 3 → ℝ, KeplerMotion μ P V Set.univ ∧ P 0 = p0 ∧ V 0 = v0 ∧
      ∀ (v : Env ℝ) (pos0 vel0 : Fin 3 → Expr ℝ) (mu tm : Expr ℝ) (t : ℝ), VVal v pos0 p0 → VVal v vel0 v0 →
        mu.eval v = some μ → tm.eval v = some t →
        VVal v (lagrangeProp pos0 vel0 mu tm).1 (P t) ∧ VVal v (lagrangeProp pos0 vel0 mu tm).2 (V t) := by
  have hp0 := ne_zero_of_cross hh
  have hr0 := len_pos hp0
  set r0 := len p0 with hr0d
  set m := Real.sqrt μ with hmd
  have hm : 0 < m := Real.sqrt_pos.2 hμ
  have hm2 : m ^ 2 = μ := Real.sq_sqrt hμ.le
  set ε := orbitEnergy μ p0 v0 with hε
  set a := -μ / (2 * ε) with had
  have ha : 0 < a := div_pos_of_neg_of_neg (by linarith) (by linarith)
  set α := Real.sqrt a with hαd
  have hα : 0 < α := Real.sqrt_pos.2 ha
  have hα2 : α ^ 2 = a := Real.sq_sqrt ha.le
  set d := p0 ⬝ᵥ v0 with hd
  set σ := d / m with hσ
  have hdσ : d = σ * m := by rw [hσ]; field_simp
  have hv2 : len v0 ^ 2 = m ^ 2 * (2 / r0 - 1 / α ^ 2) := by
    have e1 : len v0 ^ 2 = 2 * (ε + μ / r0) := by rw [hε, orbitEnergy]; ring
    have e2 : ε = -μ / (2 * a) := by
      have : ε ≠ 0 := he.ne
      rw [had]
      field_simp
    rw [e1, e2, hm2, hα2]
    field_simp
    ring
  -- the eccentricity
  have hlag : len (p0 ⨯₃ v0) ^ 2 = r0 ^ 2 * len v0 ^ 2 - d ^ 2 := by
    rw [hr0d, len_sq, len_sq, len_sq, cross0, cross1, cross2, hd]
    simp only [dotProduct, Fin.sum_univ_three]
    ring
  have hecc : (σ / α) ^ 2 + (1 - r0 / α ^ 2) ^ 2 < 1 := by
    have h1 : 1 - ((σ / α) ^ 2 + (1 - r0 / α ^ 2) ^ 2) = len (p0 ⨯₃ v0) ^ 2 / (m ^ 2 * α ^ 2) := by
      rw [hlag, hv2, hdσ]
      field_simp
      ring
    have h2 : 0 < len (p0 ⨯₃ v0) ^ 2 / (m ^ 2 * α ^ 2) := by
      have := len_pos hh
      positivity
    linarith
  refine ⟨fun t a => orbF α r0 (orbU α m r0 σ t) * p0 a + orbG α m r0 σ (orbU α m r0 σ t) * v0 a,
    fun t a => orbFt α m r0 σ (orbU α m r0 σ t) * p0 a + orbGt α r0 σ (orbU α m r0 σ t) * v0 a, ?_, ?_, ?_, ?_⟩
  · intro t _
    have hpos := orbR_pos hα hecc (orbU α m r0 σ t)
    have hlen : len (fun a => orbF α r0 (orbU α m r0 σ t) * p0 a + orbG α m r0 σ (orbU α m r0 σ t) * v0 a) = orbR α r0 σ (orbU α m r0 σ t) := by
      have h1 := orbit_radius (σ := σ) hα hm hr0 (orbU α m r0 σ t)
      rw [← hv2, ← hdσ, len_sq, hd, hr0d, len_sq] at h1
      rw [← Real.sqrt_sq hpos.le, ← h1, ← Real.sqrt_sq (show 0 ≤ len _ from Real.sqrt_nonneg _), len_sq]
      congr 1
      simp only [dotProduct, Fin.sum_univ_three, hr0d]
      ring
    obtain ⟨d1, d2, d3, d4⟩ := orbit_deriv hα hm hr0 hecc t
    refine ⟨fun h0 => ?_, hasDerivAt_pi.2 fun a => (d1.mul_const _).fun_add (d2.mul_const _),
      hasDerivAt_pi.2 fun a => ((d3.mul_const _).fun_add (d4.mul_const _)).congr_deriv ?_⟩
    · have : len (0 : Fin 3 → ℝ) = orbR α r0 σ (orbU α m r0 σ t) := by rw [← hlen]; exact congrArg len h0.symm
      rw [← this] at hpos
      simp [len] at hpos
    · rw [hlen, ← hm2]
      simp only [Pi.smul_apply, smul_eq_mul]
      ring
  · funext a
    simp [orbU_zero hecc, orbF, orbG]
  · funext a
    simp [orbU_zero hecc, orbFt, orbGt]
  · intro v pos0 vel0 mu tm t hp hv hmu htm
    have e_r0 : (lagConst pos0 vel0 mu).r0.eval v = some r0 := ev_normE hp
    have e_eps : (subE (mulE (norm2 vel0) (.dbl (1 / 2))) (divE mu (sqrtE (norm2 pos0)))).eval v = some ε := by
      refine (ev_sub (eval_mulE (ev_norm2_len hv) (y := 1 / 2) (Expr.eval_dbl v _)) (eval_divE hmu e_r0 hr0.ne')).trans (congrArg some ?_)
      rw [hε, orbitEnergy, ← hr0d]
      ring
    have e_a : (lagConst pos0 vel0 mu).a.eval v = some (α ^ 2) := by
      rw [hα2]
      exact eval_divE (ev_neg hmu) (eval_mulE (by simp) e_eps) (by have := he.ne; positivity)
    have e_sqa : (sqrtE (lagConst pos0 vel0 mu).a).eval v = some α := by
      rw [eval_sqrtE e_a (by positivity), Real.sqrt_sq hα.le]
    have e_sqm : (sqrtE mu).eval v = some m := eval_sqrtE hmu hμ.le
    have e_sig : (lagConst pos0 vel0 mu).sigma0.eval v = some σ := by
      have := ev_sum (evalL_cons_some (eval_mulE (hp 0) (hv 0)) (evalL_cons_some (eval_mulE (hp 1) (hv 1))
        (evalL_cons_some (eval_mulE (hp 2) (hv 2)) (l := []) (xs := []) (by simp))))
      refine (eval_divE this e_sqm hm.ne').trans (congrArg some ?_)
      rw [hσ, hd]
      simp [dotProduct, Fin.sum_univ_three, add_assoc]
    have e_s0 : (lagConst pos0 vel0 mu).s0.eval v = some (σ / α) := eval_divE e_sig e_sqa hα.ne'
    have e_c0 : (lagConst pos0 vel0 mu).c0.eval v = some (1 - r0 / α ^ 2) := ev_sub (by simp) (eval_divE e_r0 e_a (by positivity))
    have e_n : (lagConst pos0 vel0 mu).n.eval v = some (m / α ^ 3) := by
      have h1 := ev_rpow 3 e_a (by positivity)
      have h2 : (α ^ 2) ^ (3 : ℝ) = α ^ 6 := by
        rw [show (3 : ℝ) = ((3 : ℕ) : ℝ) by norm_num, Real.rpow_natCast]
        ring
      rw [h2] at h1
      have h3 := eval_sqrtE (eval_divE hmu h1 (by positivity)) (by positivity)
      refine h3.trans (congrArg some ?_)
      rw [← hm2, show m ^ 2 / α ^ 6 = (m / α ^ 3) ^ 2 by rw [div_pow]; ring, Real.sqrt_sq (by positivity)]
    obtain ⟨w, e_w, hcw, hsw⟩ := ev_kepDEE e_s0 e_c0 (eval_mulE e_n htm) hecc
    have e_C : (unaryE (.cos false) (lagDE (lagConst pos0 vel0 mu) tm)).eval v = some (Real.cos (orbU α m r0 σ t)) := by
      exact (ev_cos e_w).trans (congrArg some hcw)
    have e_S : (unaryE (.sin false) (lagDE (lagConst pos0 vel0 mu) tm)).eval v = some (Real.sin (orbU α m r0 σ t)) := by
      exact (ev_sin e_w).trans (congrArg some hsw)
    have hpos := orbR_pos hα hecc (orbU α m r0 σ t)
    have e_R := ev_sum (evalL_cons_some e_a (evalL_cons_some (eval_mulE (ev_sub e_r0 e_a) e_C)
      (evalL_cons_some (eval_mulE (eval_mulE e_sig e_sqa) e_S) (l := []) (xs := []) (by simp))))
    have hsum : [α ^ 2, (r0 - α ^ 2) * Real.cos (orbU α m r0 σ t), σ * α * Real.sin (orbU α m r0 σ t)].sum =
        orbR α r0 σ (orbU α m r0 σ t) := by
      simp [orbR, add_assoc]
    rw [hsum] at e_R
    have e_F : (lagF (lagConst pos0 vel0 mu) _).eval v = some (orbF α r0 (orbU α m r0 σ t)) :=
      ev_sub (by simp) (eval_mulE (eval_divE e_a e_r0 hr0.ne') (ev_sub (by simp) e_C))
    have e_q : (sqrtE (divE (lagConst pos0 vel0 mu).a mu)).eval v = some (α / m) := by
      rw [eval_sqrtE (eval_divE e_a hmu hμ.ne') (by positivity), ← hm2, ← div_pow, Real.sqrt_sq (by positivity)]
    have e_G : (lagG (lagConst pos0 vel0 mu) mu _ _).eval v = some (orbG α m r0 σ (orbU α m r0 σ t)) :=
      ev_add (eval_mulE (eval_divE (eval_mulE e_a e_sig) e_sqm hm.ne') (ev_sub (by simp) e_C)) (eval_mulE (eval_mulE e_r0 e_q) e_S)
    have e_p : (sqrtE (mulE mu (lagConst pos0 vel0 mu).a)).eval v = some (m * α) := by
      rw [eval_sqrtE (eval_mulE hmu e_a) (by positivity), ← hm2, ← mul_pow, Real.sqrt_sq (by positivity)]
    have e_Ft : (lagFt (lagConst pos0 vel0 mu) mu _ _).eval v = some (orbFt α m r0 σ (orbU α m r0 σ t)) :=
      eval_mulE (eval_divE (ev_neg e_p) (eval_mulE e_R e_r0) (by positivity)) e_S
    have e_Gt : (lagGt (lagConst pos0 vel0 mu) _ _).eval v = some (orbGt α r0 σ (orbU α m r0 σ t)) :=
      ev_sub (by simp) (eval_mulE (eval_divE e_a e_R hpos.ne') (ev_sub (by simp) e_C))
    exact ⟨fun i => ev_add (eval_mulE e_F (hp i)) (eval_mulE e_G (hv i)), fun i => ev_add (eval_mulE e_Ft (hp i)) (eval_mulE e_Gt (hv i))⟩

/-- A motion in the field of the centre is determined by its state at one time. -/
theorem kepler_unique {μ : ℝ} {P V P' V' : ℝ → Fin 3 → ℝ} {I : Set ℝ} (ho : IsOpen I) (hc : IsPreconnected I)
    (h : KeplerMotion μ P V I) (h' : KeplerMotion μ P' V' I) {t₀ : ℝ} (ht₀ : t₀ ∈ I) (hP : P t₀ = P' t₀) (hV : V t₀ = V' t₀) :
    ∀ t ∈ I, P t = P' t ∧ V t = V' t := by
  let f : ℝ → (Fin 3 → ℝ) × (Fin 3 → ℝ) := fun t => (P t, V t)
  let g : ℝ → (Fin 3 → ℝ) × (Fin 3 → ℝ) := fun t => (P' t, V' t)
  let X : (Fin 3 → ℝ) × (Fin 3 → ℝ) → (Fin 3 → ℝ) × (Fin 3 → ℝ) := fun w => (w.2, -(μ / len w.1 ^ 3) • w.1)
  have hX (w : (Fin 3 → ℝ) × (Fin 3 → ℝ)) (hw : w.1 ≠ 0) : ContDiffAt ℝ 1 X w := by
    have hl : 0 < len w.1 := len_pos hw
    have h1 : ContDiffAt ℝ 1 (fun w : (Fin 3 → ℝ) × (Fin 3 → ℝ) => len w.1) w := by
      unfold len
      refine ContDiffAt.sqrt ?_ ?_
      · unfold dotProduct
        fun_prop
      · have := len_sq w.1
        have h2 : w.1 ⬝ᵥ w.1 = len w.1 ^ 2 := by rw [len_sq]; simp [dotProduct, Fin.sum_univ_three, pow_two]
        rw [h2]; positivity
    have h2 : ContDiffAt ℝ 1 (fun w : (Fin 3 → ℝ) × (Fin 3 → ℝ) => -(μ / len w.1 ^ 3)) w :=
      (contDiffAt_const.div (h1.pow 3) (by positivity)).neg
    exact contDiffAt_snd.prodMk (h2.smul contDiffAt_fst)
  have hfd : ∀ t ∈ I, HasDerivAt f (X (f t)) t := fun t ht => (h t ht).2.1.prodMk (h t ht).2.2
  have hgd : ∀ t ∈ I, HasDerivAt g (X (g t)) t := fun t ht => (h' t ht).2.1.prodMk (h' t ht).2.2
  have hloc : ∀ t ∈ I, f t = g t → f =ᶠ[𝓝 t] g := by
    intro t ht e
    obtain ⟨K, s, hs, hL⟩ := (hX (f t) (h t ht).1).exists_lipschitzOnWith
    have hI := ho.mem_nhds ht
    refine ODE_solution_unique_of_eventually (v := fun _ => X) (s := fun _ => s) (K := K) (.of_forall fun _ => hL) ?_ ?_ e
    · filter_upwards [hI, (hfd t ht).continuousAt.eventually hs] with τ h1 h2
      exact ⟨hfd τ h1, h2⟩
    · rw [e] at hs
      filter_upwards [hI, (hgd t ht).continuousAt.eventually hs] with τ h1 h2
      exact ⟨hgd τ h1, h2⟩
  have hsub : I ⊆ {t | f t = g t} := by
    have hcf : ContinuousOn f I := fun t ht => (hfd t ht).continuousAt.continuousWithinAt
    have hcg : ContinuousOn g I := fun t ht => (hgd t ht).continuousAt.continuousWithinAt
    let U : Set ℝ := {t | t ∈ I ∧ f t = g t}
    let W : Set ℝ := {t | t ∈ I ∧ f t ≠ g t}
    have hU : IsOpen U := isOpen_iff_mem_nhds.2 fun t ht => by
      filter_upwards [ho.mem_nhds ht.1, hloc t ht.1 ht.2] with τ h1 h2 using ⟨h1, h2⟩
    have hW : IsOpen W := isOpen_iff_mem_nhds.2 fun t ht => by
      have h1 := ((hfd t ht.1).continuousAt.sub (hgd t ht.1).continuousAt).eventually_ne (sub_ne_zero.2 ht.2)
      filter_upwards [ho.mem_nhds ht.1, h1] with τ h2 h3 using ⟨h2, sub_ne_zero.1 h3⟩
    intro t ht
    by_contra hne
    obtain ⟨τ, -, h1, h2⟩ := hc U W hU hW (fun τ hτ => (em (f τ = g τ)).imp (fun e => ⟨hτ, e⟩) fun e => ⟨hτ, e⟩)
      ⟨t₀, ht₀, ht₀, Prod.ext hP hV⟩ ⟨t, ht, ht, hne⟩
    exact h2.2 h1.2
  intro t ht
  have := hsub ht
  exact ⟨congrArg Prod.fst this, congrArg Prod.snd this⟩

/-- Every motion in the field of the centre which starts from the initial state (at the time `0`, on any open interval of times) is
computed by `model::lagrange_prop()`. -/
theorem lagrange_prop_unique [DFunc] {p0 v0 : Fin 3 → ℝ} {μ : ℝ} (hμ : 0 < μ) (hh : p0 ⨯₃ v0 ≠ 0) (he : orbitEnergy μ p0 v0 < 0)
    {P V : ℝ → Fin 3 → ℝ} {I : Set ℝ} (ho : IsOpen I) (hc : IsPreconnected I) (h0 : (0 : ℝ) ∈ I) (h : KeplerMotion μ P V I)
    (hP : P 0 = p0) (hV : V 0 = v0) {v : Env ℝ} {pos0 vel0 : Fin 3 → Expr ℝ} {mu tm : Expr ℝ} {t : ℝ} (ht : t ∈ I)
    (hp : VVal v pos0 p0) (hv : VVal v vel0 v0) (hmu : mu.eval v = some μ) (htm : tm.eval v = some t) :
    VVal v (lagrangeProp pos0 vel0 mu tm).1 (P t) ∧ VVal v (lagrangeProp pos0 vel0 mu tm).2 (V t) := by
  obtain ⟨P', V', hm, hP', hV', hx⟩ := lagrange_prop_motion hμ hh he
  have := kepler_unique ho hc h (fun τ _ => hm τ trivial) h0 (hP.trans hP'.symm) (hV.trans hV'.symm) t ht
  rw [this.1, this.2]
  exact hx v pos0 vel0 mu tm t hp hv hmu htm

section
local instance instDFuncLagrange : DFunc := ⟨none⟩

/-- `lagrange_prop_motion`: the hypotheses are met by an elliptic orbit. -/
example : ![1, 0, 0] ⨯₃ ![0, 1 / 2, 0] ≠ (0 : Fin 3 → ℝ) ∧ orbitEnergy 1 ![1, 0, 0] ![0, 1 / 2, 0] < 0 := by
  refine ⟨fun h => ?_, ?_⟩
  · have := congrFun h 2
    simp [cross_apply] at this
  · have h1 : len ![1, 0, 0] = 1 := by simp [len]
    have h2 := len_sq ![0, 1 / 2, 0]
    rw [orbitEnergy, h1, h2]
    norm_num [show (![0, 1 / 2, 0] : Fin 3 → ℝ) 2 = 0 from rfl]

/-- The position at the time `0` is the initial position. -/
example : VVal ⟨fun _ => 0, fun _ => 0, 0⟩ (lagrangeProp (fun a => .dbl (![1, 0, 0] a)) (fun a => .dbl (![0, 1 / 2, 0] a)) (.dbl 1) (.dbl 0)).1
    ![1, 0, 0] := by
  have h1 : ![1, 0, 0] ⨯₃ ![0, 1 / 2, 0] ≠ (0 : Fin 3 → ℝ) := fun h => by
    have := congrFun h 2
    simp [cross_apply] at this
  have h2 : orbitEnergy 1 ![1, 0, 0] ![0, 1 / 2, 0] < 0 := by
    have h1 : len ![1, 0, 0] = 1 := by simp [len]
    have h2 := len_sq ![0, 1 / 2, 0]
    rw [orbitEnergy, h1, h2]
    norm_num [show (![0, 1 / 2, 0] : Fin 3 → ℝ) 2 = 0 from rfl]
  obtain ⟨P, V, -, hP, -, h⟩ := lagrange_prop_motion one_pos h1 h2
  have := (h ⟨fun _ => 0, fun _ => 0, 0⟩ (fun a => .dbl (![1, 0, 0] a)) (fun a => .dbl (![0, 1 / 2, 0] a)) (.dbl 1) (.dbl 0) 0
    (fun a => by simp) (fun a => by simp) (by simp) (by simp)).1
  rwa [hP] at this

end

end Heyoka.Models
