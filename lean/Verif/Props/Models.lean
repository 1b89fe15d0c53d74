import Verif.Models.Spec

/-!
# The equations of motion of the models, and their first integrals (C51)

The constructors of dynamical systems in `src/model` produce systems whose solutions are exactly the motions which obey the
intended law (Newton's law of gravitation for fixed centres, the inertial forces of a rotating frame of reference, the pendulum),
and the energies and the Jacobi constant are constant along every solution.

The specification is in terms of `gravity`, `inertial` and `Moves` (`Verif/Models/Spec.lean`); `Solves` and `Conserved`
(`Verif/Models/Basic.lean`) are the notions of a solution of a system of equations and of a first integral.
-/

set_option linter.unusedSectionVars false

namespace Heyoka.Models

open Heyoka.Sym Matrix

section
variable [DFunc] {X : ℝ → Env ℝ} {I : Set ℝ} {G : Expr ℝ} {ms ps om : List (Expr ℝ)}

/-! ### Pendulum -/

/-- The solutions of `model::pendulum()` are the motions of a pendulum of length `l` in a field of strength `g`, which can
be functions of the time. -/
theorem pendulum_motion {g l : Expr ℝ} {γ lam : ℝ → ℝ} (hg : ∀ t ∈ I, g.eval (X t) = some (γ t))
    (hl : ∀ t ∈ I, l.eval (X t) = some (lam t)) (h0 : ∀ t ∈ I, lam t ≠ 0) :
    Solves (pendulum g l) X I ↔ ∀ t ∈ I, HasDerivAt (fun τ => (X τ).var "x") ((X t).var "v") t ∧
      HasDerivAt (fun τ => (X τ).var "v") (-(γ t / lam t) * Real.sin ((X t).var "x")) t := by
  have he : ∀ t ∈ I, (mulE (divE (negE g) l) (unaryE (.sin false) (.var "x"))).eval (X t) =
      some (-(γ t / lam t) * Real.sin ((X t).var "x")) := fun t ht => by
    rw [eval_mulE (eval_divE (ev_neg (hg t ht)) (hl t ht) (h0 t ht)) (ev_sin (x := (X t).var "x") (by simp)), neg_div]
  constructor
  · intro h t ht
    obtain ⟨d, hd, hD⟩ := h t ht "x" (.var "v") (by simp [pendulum])
    obtain ⟨e, hE, hE'⟩ := h t ht "v" _ (.tail _ (.head _))
    rw [he t ht] at hE
    cases hE
    simp only [Expr.eval_var, Option.some.injEq] at hd
    exact ⟨hd ▸ hD, hE'⟩
  · intro h t ht s e hm
    simp only [pendulum, List.mem_cons, Prod.mk.injEq, Expr.var.injEq, List.not_mem_nil, or_false] at hm
    rcases hm with ⟨rfl, rfl⟩ | ⟨rfl, rfl⟩
    · exact ⟨_, by simp, (h t ht).1⟩
    · exact ⟨_, he t ht, (h t ht).2⟩

/-- `model::pendulum_energy()` is constant along the solutions of `model::pendulum()`. -/
theorem pendulum_energy {g l : Expr ℝ} {γ lam : ℝ} (ho : IsOpen I) (hc : IsPreconnected I)
    (hg : ∀ t ∈ I, g.eval (X t) = some γ) (hl : ∀ t ∈ I, l.eval (X t) = some lam) (h0 : lam ≠ 0)
    (h : Solves (pendulum g l) X I) : Conserved (pendulumEnergy g l) X I := by
  rw [pendulum_motion hg hl fun _ _ => h0] at h
  have hv (t : ℝ) (s : String) : (Expr.var s : Expr ℝ).eval (X t) = some ((X t).var s) := by simp
  refine conserved_of_deriv ho hc (F := fun t => 1 / 2 * lam ^ 2 * (X t).var "v" ^ 2 + γ * lam * (1 - Real.cos ((X t).var "x"))) ?_ ?_
  · intro t ht
    exact ev_add (eval_mulE (eval_mulE (by simp) (ev_sq (hl t ht))) (ev_sq (hv t _)))
      (eval_mulE (eval_mulE (hg t ht) (hl t ht)) (ev_sub (by simp) (ev_cos (hv t _))))
  · intro t ht
    obtain ⟨h1, h2⟩ := h t ht
    refine (((h2.fun_pow 2).const_mul (1 / 2 * lam ^ 2)).add ((h1.cos.const_sub 1).const_mul (γ * lam))).congr_deriv ?_
    field_simp
    simp

/-! ### Fixed centres -/

theorem fcCheck_ok : fcCheck ms ps = .ok () ↔ ps.length = 3 * ms.length := by
  unfold fcCheck
  split_ifs <;> simp <;> omega

theorem fcCheck_throw (h : ps.length ≠ 3 * ms.length) : fcCheck ms ps = .throw := by
  unfold fcCheck
  split_ifs
  · rfl
  · rfl
  · omega

/-- The functions for fixed centres fail exactly when the number of coordinates is not three times the number of masses. -/
theorem fixed_centres_checks :
    (ps.length = 3 * ms.length → (∃ s, fixedCentres G ms ps = .ok s) ∧ (∃ p, fixedCentresPotential G ms ps = .ok p) ∧
      ∃ e, fixedCentresEnergy G ms ps = .ok e) ∧
    (ps.length ≠ 3 * ms.length → fixedCentres G ms ps = .throw ∧ fixedCentresPotential G ms ps = .throw ∧
      fixedCentresEnergy G ms ps = .throw) := by
  constructor
  · intro h
    simp [fixedCentres, fixedCentresEnergy, fixedCentresPotential, fcCheck_ok.2 h]
  · intro h
    simp [fixedCentres, fixedCentresEnergy, fixedCentresPotential, fcCheck_throw h]

theorem motion6_iff {acc : Fin 3 → Expr ℝ} {α : ℝ → Fin 3 → ℝ}
    (hα : ∀ t ∈ I, ∀ a, (acc a).eval (X t) = some (α t a)) : Solves (motion6 acc) X I ↔ Moves X α I := by
  refine ⟨fun h => h.moves hα, fun h t ht s e hm => ?_⟩
  simp only [motion6, List.mem_cons, Prod.mk.injEq, Expr.var.injEq, List.not_mem_nil, or_false] at hm
  rcases hm with ⟨rfl, rfl⟩ | ⟨rfl, rfl⟩ | ⟨rfl, rfl⟩ | ⟨rfl, rfl⟩ | ⟨rfl, rfl⟩ | ⟨rfl, rfl⟩
  · exact ⟨_, by simp [vlc], (h t ht 0).1⟩
  · exact ⟨_, by simp [vlc], (h t ht 1).1⟩
  · exact ⟨_, by simp [vlc], (h t ht 2).1⟩
  · exact ⟨_, hα t ht 0, (h t ht 0).2⟩
  · exact ⟨_, hα t ht 1, (h t ht 1).2⟩
  · exact ⟨_, hα t ht 2, (h t ht 2).2⟩

theorem fixedCentres_ok {sys : List (Expr ℝ × Expr ℝ)} (h : fixedCentres G ms ps = .ok sys) : sys = motion6 (fcAcc G ms ps) := by
  unfold fixedCentres at h
  cases hc : fcCheck ms ps with
  | ok u => rw [hc, Res.bind_ok] at h; cases h; rfl
  | throw => rw [hc] at h; simp at h
  | ub => rw [hc] at h; simp at h

/-- The solutions of `model::fixed_centres()` which do not meet the centres are the motions under the gravity of the centres; the
masses and the positions can be functions of the time. -/
theorem fixed_centres_motion {sys : List (Expr ℝ × Expr ℝ)} (h : fixedCentres G ms ps = .ok sys)
    {γ : ℝ → ℝ} {μ : ℝ → Nat → ℝ} {π : ℝ → Nat → Fin 3 → ℝ} (hC : ∀ t ∈ I, Centres (X t) G ms ps (γ t) (μ t) (π t))
    (h0 : ∀ t ∈ I, ∀ i < ms.length, π t i ≠ pos (X t)) :
    Solves sys X I ↔ Moves X (fun t => gravity (γ t) ms.length (μ t) (π t) (pos (X t))) I := by
  rw [fixedCentres_ok h]
  exact motion6_iff fun t ht a => fcAcc_eval (hC t ht) (h0 t ht) a

theorem fixedCentresPotential_eval {p : Expr ℝ} (h : fixedCentresPotential G ms ps = .ok p) {v : Env ℝ}
    {γ : ℝ} {μ : Nat → ℝ} {π : Nat → Fin 3 → ℝ} (hC : Centres v G ms ps γ μ π) (h0 : ∀ i < ms.length, π i ≠ pos v) :
    p.eval v = some (-γ * ∑ i ∈ Finset.range ms.length, μ i / dist3 (pos v) (π i)) := by
  unfold fixedCentresPotential at h
  cases hc : fcCheck ms ps with
  | ok u => rw [hc, Res.bind_ok] at h; cases h; exact fcPot_eval hC h0
  | throw => rw [hc] at h; simp at h
  | ub => rw [hc] at h; simp at h

/-- The energy is the sum of the kinetic energy of a unit mass and of `-γ Σ μ / distance`. -/
theorem fixed_centres_energy_value {e : Expr ℝ} (h : fixedCentresEnergy G ms ps = .ok e) {v : Env ℝ}
    {γ : ℝ} {μ : Nat → ℝ} {π : Nat → Fin 3 → ℝ} (hC : Centres v G ms ps γ μ π) (h0 : ∀ i < ms.length, π i ≠ pos v) :
    e.eval v = some (1 / 2 * ∑ a, vlc v a ^ 2 + -γ * ∑ i ∈ Finset.range ms.length, μ i / dist3 (pos v) (π i)) := by
  unfold fixedCentresEnergy at h
  cases hc : fixedCentresPotential G ms ps with
  | ok p => rw [hc, Res.bind_ok] at h; cases h; exact ev_add kinetic_eval (fixedCentresPotential_eval hc hC h0)
  | throw => rw [hc] at h; simp at h
  | ub => rw [hc] at h; simp at h

/-- `model::fixed_centres_energy()` is constant along the solutions of `model::fixed_centres()`. -/
theorem fixed_centres_energy {sys : List (Expr ℝ × Expr ℝ)} {e : Expr ℝ} (h : fixedCentres G ms ps = .ok sys)
    (he : fixedCentresEnergy G ms ps = .ok e) (ho : IsOpen I) (hc : IsPreconnected I)
    {γ : ℝ} {μ : Nat → ℝ} {π : Nat → Fin 3 → ℝ} (hC : ∀ t ∈ I, Centres (X t) G ms ps γ μ π)
    (h0 : ∀ t ∈ I, ∀ i < ms.length, π i ≠ pos (X t)) (hS : Solves sys X I) : Conserved e X I := by
  rw [fixed_centres_motion h hC h0] at hS
  refine conserved_of_deriv ho hc (fun t ht => fixed_centres_energy_value he (hC t ht) (h0 t ht)) fun t ht => ?_
  refine ((kin_deriv (u := fun τ => vlc (X τ)) fun a => (hS t ht a).2).add
    (grav_deriv (r := fun τ => pos (X τ)) (u := fun τ => vlc (X τ)) (fun a => (hS t ht a).1) (h0 t ht))).congr_deriv ?_
  simp

/-! ### Rotating frames -/

/-- The functions for rotating frames fail exactly when the angular velocity is not empty and does not have three components. -/
theorem rotating_checks :
    (om.length = 0 ∨ om.length = 3 → (∃ s, rotating om = .ok s) ∧ (∃ p, rotatingPotential om = .ok p) ∧
      ∃ e, rotatingEnergy om = .ok e) ∧
    (om.length ≠ 0 → om.length ≠ 3 → rotating om = .throw ∧ rotatingPotential om = .throw ∧ rotatingEnergy om = .throw) := by
  match om with
  | [] => simp [rotating, rotAcc, rotatingPotential, rotatingEnergy]
  | [_] => simp [rotating, rotAcc, rotatingPotential, rotatingEnergy]
  | [_, _] => simp [rotating, rotAcc, rotatingPotential, rotatingEnergy]
  | [_, _, _] => simp [rotating, rotAcc, rotatingPotential, rotatingEnergy]
  | _ :: _ :: _ :: _ :: _ => simp [rotating, rotAcc, rotatingPotential, rotatingEnergy]

/-- The solutions of `model::rotating()` are the motions under the centrifugal and Coriolis accelerations. -/
theorem rotating_motion {sys : List (Expr ℝ × Expr ℝ)} (h : rotating om = .ok sys) {ω : ℝ → Fin 3 → ℝ}
    (hO : ∀ t ∈ I, Omega (X t) om (ω t)) :
    Solves sys X I ↔ Moves X (fun t => inertial (ω t) (pos (X t)) (vlc (X t))) I := by
  unfold rotating at h
  cases hc : rotAcc om with
  | ok acc =>
    rw [hc, Res.bind_ok] at h
    cases h
    refine motion6_iff fun t ht a => ?_
    obtain ⟨acc', h1, h2⟩ := (hO t ht).acc
    rw [hc] at h1
    cases h1
    exact h2 a
  | throw => rw [hc] at h; simp at h
  | ub => rw [hc] at h; simp at h

/-- `model::rotating_energy()` is constant along the solutions of `model::rotating()`. -/
theorem rotating_energy {sys : List (Expr ℝ × Expr ℝ)} {e : Expr ℝ} (h : rotating om = .ok sys) (he : rotatingEnergy om = .ok e)
    (ho : IsOpen I) (hc : IsPreconnected I) {ω : Fin 3 → ℝ} (hO : ∀ t ∈ I, Omega (X t) om ω) (hS : Solves sys X I) :
    Conserved e X I := by
  rw [rotating_motion h hO] at hS
  unfold rotatingEnergy at he
  refine conserved_of_deriv ho hc (F := fun t => 1 / 2 * ∑ a, vlc (X t) a ^ 2 +
    1 / 2 * ((∑ a, ω a * pos (X t) a) ^ 2 - (∑ a, ω a ^ 2) * ∑ a, pos (X t) a ^ 2)) (fun t ht => ?_) fun t ht => ?_
  · obtain ⟨p, h1, h2⟩ := (hO t ht).pot
    rw [h1, Res.bind_ok] at he
    cases he
    exact ev_add kinetic_eval h2
  · refine ((kin_deriv (u := fun τ => vlc (X τ)) fun a => (hS t ht a).2).add
      (rot_deriv (r := fun τ => pos (X τ)) (u := fun τ => vlc (X τ)) (fun a => (hS t ht a).1))).congr_deriv ?_
    simp

/-! ### Mascons -/

/-- The functions for mascons fail exactly when the ones for fixed centres or for rotating frames do. -/
theorem mascon_checks :
    (ps.length = 3 * ms.length → om.length = 0 ∨ om.length = 3 →
      (∃ s, mascon G ms ps om = .ok s) ∧ (∃ p, masconPotential G ms ps om = .ok p) ∧ ∃ e, masconEnergy G ms ps om = .ok e) ∧
    ((ps.length ≠ 3 * ms.length ∨ om.length ≠ 0 ∧ om.length ≠ 3) →
      mascon G ms ps om = .throw ∧ masconPotential G ms ps om = .throw ∧ masconEnergy G ms ps om = .throw) := by
  have hr : rotAcc om = .throw ↔ rotating om = .throw := by
    unfold rotating; cases rotAcc om <;> simp
  constructor
  · intro h1 h2
    obtain ⟨⟨s, hs⟩, ⟨p, hp⟩, e, he⟩ := (fixed_centres_checks (G := G)).1 h1
    obtain ⟨⟨s', hs'⟩, ⟨p', hp'⟩, e', he'⟩ := rotating_checks.1 h2
    have : ∃ acc, rotAcc om = .ok acc := by
      unfold rotating at hs'
      cases hc : rotAcc om with
      | ok acc => exact ⟨acc, rfl⟩
      | throw => rw [hc] at hs'; simp at hs'
      | ub => rw [hc] at hs'; simp at hs'
    obtain ⟨acc, ha⟩ := this
    simp [mascon, masconPotential, masconEnergy, hs, hp, he, hp', ha]
  · intro h
    by_cases h1 : ps.length = 3 * ms.length
    · obtain ⟨h2, h3⟩ := h.resolve_left (by simpa using h1)
      obtain ⟨⟨s, hs⟩, ⟨p, hp⟩, e, he⟩ := (fixed_centres_checks (G := G)).1 h1
      obtain ⟨hs', hp', -⟩ := rotating_checks.2 h2 h3
      simp [mascon, masconPotential, masconEnergy, hs, hp, he, hp', hr.2 hs']
    · obtain ⟨hs, hp, he⟩ := (fixed_centres_checks (G := G)).2 h1
      simp [mascon, masconPotential, masconEnergy, hs, hp, he]

/-- The solutions of `model::mascon()` are the motions, in a rotating frame of reference, under the gravity of the mascons. -/
theorem mascon_motion {sys : List (Expr ℝ × Expr ℝ)} (h : mascon G ms ps om = .ok sys)
    {γ : ℝ → ℝ} {μ : ℝ → Nat → ℝ} {π : ℝ → Nat → Fin 3 → ℝ} {ω : ℝ → Fin 3 → ℝ} (hC : ∀ t ∈ I, Centres (X t) G ms ps (γ t) (μ t) (π t))
    (hO : ∀ t ∈ I, Omega (X t) om (ω t)) (h0 : ∀ t ∈ I, ∀ i < ms.length, π t i ≠ pos (X t)) :
    Solves sys X I ↔
      Moves X (fun t => gravity (γ t) ms.length (μ t) (π t) (pos (X t)) + inertial (ω t) (pos (X t)) (vlc (X t))) I := by
  unfold mascon at h
  cases hf : fixedCentres G ms ps with
  | ok s =>
    rw [hf, Res.bind_ok] at h
    cases hc : rotAcc om with
    | ok acc =>
      rw [hc, Res.bind_ok] at h
      cases h
      refine motion6_iff fun t ht a => ?_
      obtain ⟨acc', h1, h2⟩ := (hO t ht).acc
      rw [hc] at h1
      cases h1
      exact ev_add (fcAcc_eval (hC t ht) (h0 t ht) a) (h2 a)
    | throw => rw [hc] at h; simp at h
    | ub => rw [hc] at h; simp at h
  | throw => rw [hf] at h; simp at h
  | ub => rw [hf] at h; simp at h

/-- `model::mascon_energy()` is constant along the solutions of `model::mascon()`. -/
theorem mascon_energy {sys : List (Expr ℝ × Expr ℝ)} {e : Expr ℝ} (h : mascon G ms ps om = .ok sys)
    (he : masconEnergy G ms ps om = .ok e) (ho : IsOpen I) (hc : IsPreconnected I)
    {γ : ℝ} {μ : Nat → ℝ} {π : Nat → Fin 3 → ℝ} {ω : Fin 3 → ℝ} (hC : ∀ t ∈ I, Centres (X t) G ms ps γ μ π)
    (hO : ∀ t ∈ I, Omega (X t) om ω) (h0 : ∀ t ∈ I, ∀ i < ms.length, π i ≠ pos (X t)) (hS : Solves sys X I) :
    Conserved e X I := by
  rw [mascon_motion h hC hO h0] at hS
  unfold masconEnergy at he
  cases hf : fixedCentresEnergy G ms ps with
  | ok e' =>
    rw [hf, Res.bind_ok] at he
    refine conserved_of_deriv ho hc (F := fun t => (1 / 2 * ∑ a, vlc (X t) a ^ 2 + -γ * ∑ i ∈ Finset.range ms.length, μ i / dist3 (pos (X t)) (π i)) +
      1 / 2 * ((∑ a, ω a * pos (X t) a) ^ 2 - (∑ a, ω a ^ 2) * ∑ a, pos (X t) a ^ 2)) (fun t ht => ?_) fun t ht => ?_
    · obtain ⟨p, h1, h2⟩ := (hO t ht).pot
      rw [h1, Res.bind_ok] at he
      cases he
      exact ev_add (fixed_centres_energy_value hf (hC t ht) (h0 t ht)) h2
    · refine (((kin_deriv (u := fun τ => vlc (X τ)) fun a => (hS t ht a).2).add
        (grav_deriv (r := fun τ => pos (X τ)) (u := fun τ => vlc (X τ)) (fun a => (hS t ht a).1) (h0 t ht))).add
        (rot_deriv (r := fun τ => pos (X τ)) (u := fun τ => vlc (X τ)) (fun a => (hS t ht a).1))).congr_deriv ?_
      simp [Fin.sum_univ_three]
      ring
  | throw => rw [hf] at he; simp at he
  | ub => rw [hf] at he; simp at he

/-- `model::mascon_potential()` and `model::mascon_energy()` differ by the kinetic energy. -/
theorem mascon_potential_value {p e : Expr ℝ} (hp : masconPotential G ms ps om = .ok p) (he : masconEnergy G ms ps om = .ok e)
    {v : Env ℝ} {γ : ℝ} {μ : Nat → ℝ} {π : Nat → Fin 3 → ℝ} {ω : Fin 3 → ℝ} (hC : Centres v G ms ps γ μ π) (hO : Omega v om ω)
    (h0 : ∀ i < ms.length, π i ≠ pos v) :
    ∃ x, p.eval v = some x ∧ e.eval v = some (1 / 2 * ∑ a, vlc v a ^ 2 + x) := by
  unfold masconPotential at hp
  unfold masconEnergy fixedCentresEnergy at he
  obtain ⟨q, h1, h2⟩ := hO.pot
  cases hf : fixedCentresPotential G ms ps with
  | ok f =>
    rw [hf, Res.bind_ok] at hp he
    rw [h1, Res.bind_ok] at hp
    rw [Res.bind_ok, h1, Res.bind_ok] at he
    cases hp
    cases he
    have h3 := fixedCentresPotential_eval hf hC h0
    refine ⟨_, ev_add h3 h2, ?_⟩
    rw [ev_add (ev_add kinetic_eval h3) h2, add_assoc]
  | throw => rw [hf] at hp; simp at hp
  | ub => rw [hf] at hp; simp at hp

/-! ### Circular restricted three-body problem -/

/-- The masses of the primaries. -/
def crMass (m : ℝ) (i : Nat) : ℝ := if i = 0 then 1 - m else m
/-- The positions of the primaries, in the barycentric frame of reference which rotates with them. -/
def crPos (m : ℝ) (i : Nat) : Fin 3 → ℝ := if i = 0 then ![m, 0, 0] else ![m - 1, 0, 0]
/-- The velocity, in the rotating frame of reference: `px`, `py`, `pz` are the momenta. -/
def crVel (v : Env ℝ) : Fin 3 → ℝ := ![v.var "px" + v.var "y", v.var "py" - v.var "x", v.var "pz"]

/-- The functions for the restricted problem fail exactly when the mass parameter is a number which is not in `(0, 1/2)`. -/
theorem cr3bp_checks (mu : Expr ℝ) :
    ((∀ n, mu = .num n → ∃ m, n.toK? = some m ∧ 0 < m ∧ m < 1 / 2) → (∃ s, cr3bp mu = .ok s) ∧ ∃ e, cr3bpJacobi mu = .ok e) ∧
    (∀ n, mu = .num n → (∀ m, n.toK? = some m → ¬(0 < m ∧ m < 1 / 2)) → cr3bp mu = .throw ∧ cr3bpJacobi mu = .throw) := by
  constructor
  · intro h
    have hc : cr3bpCheck mu = .ok () := by
      cases mu with
      | num n =>
        obtain ⟨m, h1, h2, h3⟩ := h n rfl
        simp only [cr3bpCheck, h1]
        rw [if_neg (by push Not; exact ⟨h2, h3⟩)]
      | _ => rfl
    simp [cr3bp, cr3bpJacobi, hc]
  · rintro n rfl h
    have hc : cr3bpCheck (.num n : Expr ℝ) = .throw := by
      cases hn : n.toK? with
      | none => simp only [cr3bpCheck, hn]
      | some m =>
        have := h m hn
        simp only [cr3bpCheck, hn]
        rw [if_pos (by by_contra hx; push Not at hx; exact this hx)]
    simp [cr3bp, cr3bpJacobi, hc]

theorem cr3bp_ok {mu : Expr ℝ} {sys : List (Expr ℝ × Expr ℝ)} (h : cr3bp mu = .ok sys) : sys =
    [(.var "x", addE (.var "px") (.var "y")), (.var "y", subE (.var "py") (.var "x")), (.var "z", .var "pz"),
      (.var "px", subE (subE (.var "py") (mulE (crG1 mu) (crX1 mu))) (mulE (crG2 mu) (crX2 mu))),
      (.var "py", subE (negE (.var "px")) (mulE (addE (crG1 mu) (crG2 mu)) (.var "y"))),
      (.var "pz", mulE (negE (addE (crG1 mu) (crG2 mu))) (.var "z"))] := by
  unfold cr3bp at h
  cases hc : cr3bpCheck mu with
  | ok u => rw [hc, Res.bind_ok] at h; cases h; rfl
  | throw => rw [hc] at h; simp at h
  | ub => rw [hc] at h; simp at h

theorem crR_eval {mu : Expr ℝ} {v : Env ℝ} {m : ℝ} (hm : mu.eval v = some m) :
    (crX1 mu).eval v = some (v.var "x" - m) ∧ (crX2 mu).eval v = some (v.var "x" - m + 1) ∧
    (crR1 mu).eval v = some (∑ a, (crPos m 0 a - pos v a) ^ 2) ∧ (crR2 mu).eval v = some (∑ a, (crPos m 1 a - pos v a) ^ 2) := by
  have hv (s : String) : (Expr.var s : Expr ℝ).eval v = some (v.var s) := by simp
  have h1 := ev_sub (hv "x") hm
  have h2 := ev_add h1 (b := .dbl 1) (y := 1) (by simp)
  refine ⟨h1, h2, ?_, ?_⟩
  · rw [crR1, crX1, crYZ, ev_add (ev_sq h1) (ev_add (ev_sq (hv "y")) (ev_sq (hv "z")))]
    refine congrArg some ?_
    simp [Fin.sum_univ_three, crPos, pos, crd]
    ring
  · rw [crR2, crX2, crX1, crYZ, ev_add (ev_sq h2) (ev_add (ev_sq (hv "y")) (ev_sq (hv "z")))]
    refine congrArg some ?_
    simp [Fin.sum_univ_three, crPos, pos, crd]
    ring

theorem crG_eval {mu : Expr ℝ} {v : Env ℝ} {m : ℝ} (hm : mu.eval v = some m) (h0 : ∀ i < 2, crPos m i ≠ pos v) :
    (crG1 mu).eval v = some ((1 - m) / dist3 (pos v) (crPos m 0) ^ 3) ∧ (crG2 mu).eval v = some (m / dist3 (pos v) (crPos m 1) ^ 3) := by
  obtain ⟨-, -, h1, h2⟩ := crR_eval hm
  have p1 := sumsq_pos (h0 0 (by omega))
  have p2 := sumsq_pos (h0 1 (by omega))
  constructor
  · rw [crG1, eval_mulE (ev_sub (x := 1) (by simp) hm) (ev_rpow (-3 / 2) h1 p1), rpow_m32 p1, mul_one_div, dist3]
  · rw [crG2, eval_mulE hm (ev_rpow (-3 / 2) h2 p2), rpow_m32 p2, mul_one_div, dist3]

/-- Hamilton's equations of the restricted problem. -/
theorem cr3bp_hamilton {mu : Expr ℝ} {sys : List (Expr ℝ × Expr ℝ)} (h : cr3bp mu = .ok sys) {m : ℝ → ℝ}
    (hm : ∀ t ∈ I, mu.eval (X t) = some (m t)) (h0 : ∀ t ∈ I, ∀ i < 2, crPos (m t) i ≠ pos (X t)) :
    Solves sys X I ↔ ∀ t ∈ I, (∀ a, HasDerivAt (fun τ => pos (X τ) a) (crVel (X t) a) t) ∧
      HasDerivAt (fun τ => (X τ).var "px") ((X t).var "py" + gravity 1 2 (crMass (m t)) (crPos (m t)) (pos (X t)) 0) t ∧
      HasDerivAt (fun τ => (X τ).var "py") (-(X t).var "px" + gravity 1 2 (crMass (m t)) (crPos (m t)) (pos (X t)) 1) t ∧
      HasDerivAt (fun τ => (X τ).var "pz") (gravity 1 2 (crMass (m t)) (crPos (m t)) (pos (X t)) 2) t := by
  have hv (t : ℝ) (s : String) : (Expr.var s : Expr ℝ).eval (X t) = some ((X t).var s) := by simp
  have e4 : ∀ t ∈ I, (subE (subE (.var "py") (mulE (crG1 mu) (crX1 mu))) (mulE (crG2 mu) (crX2 mu))).eval (X t) =
      some ((X t).var "py" + gravity 1 2 (crMass (m t)) (crPos (m t)) (pos (X t)) 0) := fun t ht => by
    obtain ⟨x1, x2, -, -⟩ := crR_eval (hm t ht)
    obtain ⟨g1, g2⟩ := crG_eval (hm t ht) (h0 t ht)
    rw [ev_sub (ev_sub (hv t "py") (eval_mulE g1 x1)) (eval_mulE g2 x2)]
    refine congrArg some ?_
    simp [gravity, Finset.sum_range_succ, crMass, crPos, pos, crd]
    ring
  have e5 : ∀ t ∈ I, (subE (negE (.var "px")) (mulE (addE (crG1 mu) (crG2 mu)) (.var "y"))).eval (X t) =
      some (-(X t).var "px" + gravity 1 2 (crMass (m t)) (crPos (m t)) (pos (X t)) 1) := fun t ht => by
    obtain ⟨g1, g2⟩ := crG_eval (hm t ht) (h0 t ht)
    rw [ev_sub (ev_neg (hv t "px")) (eval_mulE (ev_add g1 g2) (hv t "y"))]
    refine congrArg some ?_
    simp [gravity, Finset.sum_range_succ, crMass, crPos, pos, crd]
    ring
  have e6 : ∀ t ∈ I, (mulE (negE (addE (crG1 mu) (crG2 mu))) (.var "z")).eval (X t) =
      some (gravity 1 2 (crMass (m t)) (crPos (m t)) (pos (X t)) 2) := fun t ht => by
    obtain ⟨g1, g2⟩ := crG_eval (hm t ht) (h0 t ht)
    rw [eval_mulE (ev_neg (ev_add g1 g2)) (hv t "z")]
    refine congrArg some ?_
    simp [gravity, Finset.sum_range_succ, crMass, crPos, pos, crd]
    ring
  rw [cr3bp_ok h]
  constructor
  · intro hS t ht
    obtain ⟨d1, v1, h1⟩ := hS t ht "x" _ (.head _)
    obtain ⟨d2, v2, h2⟩ := hS t ht "y" _ (.tail _ (.head _))
    obtain ⟨d3, v3, h3⟩ := hS t ht "z" _ (.tail _ (.tail _ (.head _)))
    obtain ⟨d4, v4, h4⟩ := hS t ht "px" _ (.tail _ (.tail _ (.tail _ (.head _))))
    obtain ⟨d5, v5, h5⟩ := hS t ht "py" _ (.tail _ (.tail _ (.tail _ (.tail _ (.head _)))))
    obtain ⟨d6, v6, h6⟩ := hS t ht "pz" _ (.tail _ (.tail _ (.tail _ (.tail _ (.tail _ (.head _))))))
    rw [ev_add (hv t "px") (hv t "y")] at v1
    rw [ev_sub (hv t "py") (hv t "x")] at v2
    rw [hv t] at v3
    rw [e4 t ht] at v4
    rw [e5 t ht] at v5
    rw [e6 t ht] at v6
    cases v1; cases v2; cases v3; cases v4; cases v5; cases v6
    refine ⟨fun a => ?_, h4, h5, h6⟩
    fin_cases a
    · exact h1
    · exact h2
    · exact h3
  · intro hM t ht s e hs
    obtain ⟨h1, h4, h5, h6⟩ := hM t ht
    simp only [List.mem_cons, Prod.mk.injEq, Expr.var.injEq, List.not_mem_nil, or_false] at hs
    rcases hs with ⟨rfl, rfl⟩ | ⟨rfl, rfl⟩ | ⟨rfl, rfl⟩ | ⟨rfl, rfl⟩ | ⟨rfl, rfl⟩ | ⟨rfl, rfl⟩
    · exact ⟨_, ev_add (hv t "px") (hv t "y"), h1 0⟩
    · exact ⟨_, ev_sub (hv t "py") (hv t "x"), h1 1⟩
    · exact ⟨_, hv t "pz", h1 2⟩
    · exact ⟨_, e4 t ht, h4⟩
    · exact ⟨_, e5 t ht, h5⟩
    · exact ⟨_, e6 t ht, h6⟩

/-- The solutions of `model::cr3bp()` are the motions under the gravity of the two primaries, of masses `1 - m` and `m`, in the
frame of reference which rotates with unit angular velocity about the axis `z`. -/
theorem cr3bp_motion {mu : Expr ℝ} {sys : List (Expr ℝ × Expr ℝ)} (h : cr3bp mu = .ok sys) {m : ℝ → ℝ}
    (hm : ∀ t ∈ I, mu.eval (X t) = some (m t)) (h0 : ∀ t ∈ I, ∀ i < 2, crPos (m t) i ≠ pos (X t)) :
    Solves sys X I ↔ ∀ t ∈ I, ∀ a, HasDerivAt (fun τ => pos (X τ) a) (crVel (X t) a) t ∧
      HasDerivAt (fun τ => crVel (X τ) a)
        ((gravity 1 2 (crMass (m t)) (crPos (m t)) (pos (X t)) + inertial ![0, 0, 1] (pos (X t)) (crVel (X t))) a) t := by
  rw [cr3bp_hamilton h hm h0]
  refine forall₂_congr fun t ht => ?_
  constructor
  · rintro ⟨h1, h4, h5, h6⟩ a
    refine ⟨h1 a, ?_⟩
    fin_cases a
    · refine (h4.add (h1 1)).congr_deriv ?_
      simp [inertial, cross_apply, crVel, pos, crd]; ring
    · refine (h5.sub (h1 0)).congr_deriv ?_
      simp [inertial, cross_apply, crVel, pos, crd]; ring
    · refine h6.congr_deriv ?_
      simp [inertial, cross_apply, crVel, pos, crd]
  · intro hM
    refine ⟨fun a => (hM a).1, ?_, ?_, ?_⟩
    · have hx := (hM 0).2.sub (hM 1).1
      have : (fun τ => (X τ).var "px") = (fun τ => crVel (X τ) 0) - fun τ => pos (X τ) 1 := by
        funext τ; simp [crVel, pos, crd]
      rw [this]
      refine hx.congr_deriv ?_
      simp [inertial, cross_apply, crVel, pos, crd]; ring
    · have hx := (hM 1).2.add (hM 0).1
      have : (fun τ => (X τ).var "py") = (fun τ => crVel (X τ) 1) + fun τ => pos (X τ) 0 := by
        funext τ; simp [crVel, pos, crd]
      rw [this]
      refine hx.congr_deriv ?_
      simp [inertial, cross_apply, crVel, pos, crd]; ring
    · have hx := (hM 2).2
      refine HasDerivAt.congr_deriv (f := fun τ => crVel (X τ) 2) hx ?_
      simp [inertial, cross_apply, crVel, pos, crd]

/-- `model::cr3bp_jacobi()` is constant along the solutions of `model::cr3bp()`. -/
theorem cr3bp_jacobi {mu : Expr ℝ} {sys : List (Expr ℝ × Expr ℝ)} {e : Expr ℝ} (h : cr3bp mu = .ok sys) (he : cr3bpJacobi mu = .ok e)
    (ho : IsOpen I) (hc : IsPreconnected I) {m : ℝ}
    (hm : ∀ t ∈ I, mu.eval (X t) = some m) (h0 : ∀ t ∈ I, ∀ i < 2, crPos m i ≠ pos (X t)) (hS : Solves sys X I) :
    Conserved e X I := by
  rw [cr3bp_hamilton h hm h0] at hS
  have hv (t : ℝ) (s : String) : (Expr.var s : Expr ℝ).eval (X t) = some ((X t).var s) := by simp
  refine conserved_of_deriv ho hc (F := fun t => 1 / 2 * ((X t).var "px" ^ 2 + (X t).var "py" ^ 2 + (X t).var "pz" ^ 2) +
    (X t).var "y" * (X t).var "px" - (X t).var "x" * (X t).var "py" +
    -1 * ∑ i ∈ Finset.range 2, crMass m i / dist3 (pos (X t)) (crPos m i)) (fun t ht => ?_) fun t ht => ?_
  · unfold cr3bpJacobi at he
    cases hk : cr3bpCheck mu with
    | ok u =>
      rw [hk, Res.bind_ok] at he
      cases he
      obtain ⟨-, -, r1, r2⟩ := crR_eval (hm t ht)
      have p1 := h0 t ht 0 (by omega)
      have p2 := h0 t ht 1 (by omega)
      rw [ev_sub (ev_sub (ev_sub (ev_add (eval_mulE (x := 1 / 2) (by simp) (ev_add (ev_add (ev_sq (hv t "px")) (ev_sq (hv t "py"))) (ev_sq (hv t "pz"))))
        (eval_mulE (hv t "y") (hv t "px"))) (eval_mulE (hv t "x") (hv t "py")))
        (eval_divE (ev_sub (x := 1) (by simp) (hm t ht)) (eval_sqrtE r1 (sumsq_pos p1).le) (dist3_pos p1).ne'))
        (eval_divE (hm t ht) (eval_sqrtE r2 (sumsq_pos p2).le) (dist3_pos p2).ne')]
      refine congrArg some ?_
      simp only [Finset.sum_range_succ, Finset.sum_range_zero, crMass, dist3]
      simp
      ring
    | throw => rw [hk] at he; simp at he
    | ub => rw [hk] at he; simp at he
  · obtain ⟨h1, h4, h5, h6⟩ := hS t ht
    have hx : HasDerivAt (fun τ => (X τ).var "x") _ t := h1 0
    have hy : HasDerivAt (fun τ => (X τ).var "y") _ t := h1 1
    refine ((((((h4.fun_pow 2).fun_add (h5.fun_pow 2)).fun_add (h6.fun_pow 2)).const_mul (1 / 2)).fun_add (hy.fun_mul h4)).fun_sub
      (hx.fun_mul h5)).fun_add (grav_deriv (γ := 1) (r := fun τ => pos (X τ)) (u := fun τ => crVel (X τ)) h1 (h0 t ht)) |>.congr_deriv ?_
    simp only [Fin.sum_univ_three]
    simp [crVel]
    ring

end

/-! ### Examples -/

section
local instance instDFuncModels : DFunc := ⟨none⟩

/-- A circular orbit about a mass at the origin. -/
noncomputable def exOrbit (t : ℝ) : Env ℝ :=
  ⟨fun s => if s = "x" then Real.cos t else if s = "y" then Real.sin t else if s = "vx" then -Real.sin t
    else if s = "vy" then Real.cos t else 0, fun _ => 0, t⟩

theorem exOrbit_pos (t : ℝ) : pos (exOrbit t) = ![Real.cos t, Real.sin t, 0] := by
  funext a; fin_cases a <;> simp [pos, exOrbit, crd]

theorem exOrbit_vlc (t : ℝ) : vlc (exOrbit t) = ![-Real.sin t, Real.cos t, 0] := by
  funext a; fin_cases a <;> simp [vlc, exOrbit, vel]

theorem exOrbit_dist (t : ℝ) : dist3 (pos (exOrbit t)) 0 = 1 := by
  rw [exOrbit_pos, dist3]; simp [Fin.sum_univ_three]

theorem exOrbit_ne (t : ℝ) : (0 : Fin 3 → ℝ) ≠ pos (exOrbit t) := by
  intro h
  have := exOrbit_dist t
  rw [← h] at this
  simp [dist3] at this

theorem exOrbit_centres (t : ℝ) : Centres (exOrbit t) (.dbl 1) [.dbl 1] [.dbl 0, .dbl 0, .dbl 0] 1 (fun _ => 1) fun _ => 0 := by
  constructor
  · simp
  · intro i hi; obtain rfl : i = 0 := by simpa using hi
    simp
  · intro i hi a; obtain rfl : i = 0 := by simpa using hi
    fin_cases a <;> simp

theorem exOrbit_solves : Solves (motion6 (fcAcc (.dbl 1) [.dbl 1] [.dbl 0, .dbl 0, .dbl 0])) exOrbit Set.univ := by
  refine (fixed_centres_motion (by simp [fixedCentres, fcCheck]) (fun t _ => exOrbit_centres t) fun t _ i _ => exOrbit_ne t).2 ?_
  intro t _ a
  simp only [gravity, exOrbit_dist]
  simp only [exOrbit_pos, exOrbit_vlc]
  fin_cases a
  · simpa using ⟨Real.hasDerivAt_cos t, (Real.hasDerivAt_sin t).neg⟩
  · simpa using ⟨Real.hasDerivAt_sin t, Real.hasDerivAt_cos t⟩
  · simpa using hasDerivAt_const t (0 : ℝ)

/-- `fixed_centres_motion`, `fixed_centres_energy`: the hypotheses are met by the circular orbit. -/
example : ∃ e, fixedCentresEnergy (.dbl 1) [.dbl 1] [.dbl 0, .dbl 0, .dbl 0] = .ok e ∧ Conserved e exOrbit Set.univ := by
  obtain ⟨e, he⟩ := ((fixed_centres_checks (G := (.dbl 1 : Expr ℝ)) (ms := [.dbl 1]) (ps := [.dbl 0, .dbl 0, .dbl 0])).1 rfl).2.2
  exact ⟨e, he, fixed_centres_energy (by simp [fixedCentres, fcCheck]) he isOpen_univ isPreconnected_univ
    (fun t _ => exOrbit_centres t) (fun t _ i _ => exOrbit_ne t) exOrbit_solves⟩

/-- `fixed_centres_checks`: failure. -/
example : fixedCentres (.dbl 1 : Expr ℝ) [.dbl 1, .dbl 1] [.dbl 0, .dbl 0, .dbl 0] = .throw :=
  (fixed_centres_checks.2 (by simp)).1

/-- A point at rest in the inertial frame of reference, seen from the frame which rotates about the axis `z`. -/
noncomputable def exRot (t : ℝ) : Env ℝ :=
  ⟨fun s => if s = "x" then Real.cos t else if s = "y" then -Real.sin t else if s = "vx" then -Real.sin t
    else if s = "vy" then -Real.cos t else 0, fun _ => 0, t⟩

/-- `rotating_motion`, `rotating_energy`: the hypotheses are met by the point at rest. -/
example : ∃ s e, rotating [.dbl 0, .dbl 0, .dbl 1] = .ok s ∧ rotatingEnergy [.dbl 0, .dbl 0, .dbl 1] = .ok e ∧
    Solves s exRot Set.univ ∧ Conserved e exRot Set.univ := by
  obtain ⟨⟨s, hs⟩, -, e, he⟩ := (rotating_checks (om := ([.dbl 0, .dbl 0, .dbl 1] : List (Expr ℝ)))).1 (.inr rfl)
  have hO : ∀ t ∈ Set.univ, Omega (exRot t) [.dbl 0, .dbl 0, .dbl 1] ![0, 0, 1] := fun t _ =>
    .inr ⟨rfl, fun a => by fin_cases a <;> simp⟩
  have hS : Solves s exRot Set.univ := by
    refine (rotating_motion hs hO).2 fun t _ a => ?_
    have hp (t : ℝ) : pos (exRot t) = ![Real.cos t, -Real.sin t, 0] := by funext a; fin_cases a <;> simp [pos, exRot, crd]
    have hv (t : ℝ) : vlc (exRot t) = ![-Real.sin t, -Real.cos t, 0] := by funext a; fin_cases a <;> simp [vlc, exRot, vel]
    simp only [hp, hv]
    fin_cases a
    · refine ⟨by simpa using Real.hasDerivAt_cos t, ((Real.hasDerivAt_sin t).neg).congr_deriv ?_⟩
      simp [inertial, cross_apply]; ring
    · refine ⟨by simpa using (Real.hasDerivAt_sin t).fun_neg, ((Real.hasDerivAt_cos t).neg).congr_deriv ?_⟩
      simp [inertial, cross_apply]; ring
    · refine ⟨by simpa using hasDerivAt_const t (0 : ℝ), (hasDerivAt_const t (0 : ℝ)).congr_deriv ?_⟩
      simp [inertial, cross_apply]
  exact ⟨s, e, hs, he, hS, rotating_energy hs he isOpen_univ isPreconnected_univ hO hS⟩

/-- A point at rest, in the frame which rotates about the axis `z`. -/
noncomputable def exRest (t : ℝ) : Env ℝ := ⟨fun s => if s = "x" then 1 else 0, fun _ => 0, t⟩

/-- `mascon_motion`, `mascon_energy`: the hypotheses are met by a synchronous satellite. -/
example : ∃ s e, mascon (.dbl 1) [.dbl 1] [.dbl 0, .dbl 0, .dbl 0] [.dbl 0, .dbl 0, .dbl 1] = .ok s ∧
    masconEnergy (.dbl 1) [.dbl 1] [.dbl 0, .dbl 0, .dbl 0] [.dbl 0, .dbl 0, .dbl 1] = .ok e ∧
    Solves s exRest Set.univ ∧ Conserved e exRest Set.univ := by
  obtain ⟨⟨s, hs⟩, -, e, he⟩ := (mascon_checks (G := (.dbl 1 : Expr ℝ)) (ms := [.dbl 1]) (ps := [.dbl 0, .dbl 0, .dbl 0])
    (om := [.dbl 0, .dbl 0, .dbl 1])).1 rfl (.inr rfl)
  have hO : ∀ t ∈ Set.univ, Omega (exRest t) [.dbl 0, .dbl 0, .dbl 1] ![0, 0, 1] := fun t _ =>
    .inr ⟨rfl, fun a => by fin_cases a <;> simp⟩
  have hp (t : ℝ) : pos (exRest t) = ![1, 0, 0] := by funext a; fin_cases a <;> simp [pos, exRest, crd]
  have hv (t : ℝ) : vlc (exRest t) = 0 := by funext a; fin_cases a <;> simp [vlc, exRest, vel]
  have hC : ∀ t ∈ Set.univ, Centres (exRest t) (.dbl 1) [.dbl 1] [.dbl 0, .dbl 0, .dbl 0] 1 (fun _ => 1) fun _ => 0 := by
    intro t _
    constructor
    · simp
    · intro i hi; obtain rfl : i = 0 := by simpa using hi
      simp
    · intro i hi a; obtain rfl : i = 0 := by simpa using hi
      fin_cases a <;> simp
  have h0 : ∀ t ∈ Set.univ, ∀ i < 1, (0 : Fin 3 → ℝ) ≠ pos (exRest t) := by
    intro t _ i _ h
    have := congrFun h 0
    simp [hp] at this
  have hS : Solves s exRest Set.univ := by
    refine (mascon_motion hs hC hO h0).2 fun t _ a => ?_
    simp only [hp, hv]
    fin_cases a
    all_goals
      refine ⟨by simpa using hasDerivAt_const t _, (hasDerivAt_const t _).congr_deriv ?_⟩
      simp [inertial, cross_apply, gravity, dist3, Fin.sum_univ_three]
  exact ⟨s, e, hs, he, hS, mascon_energy hs he isOpen_univ isPreconnected_univ hC hO h0 hS⟩

/-- `mascon_checks`: failure. -/
example : mascon (.dbl 1 : Expr ℝ) [.dbl 1] [.dbl 0, .dbl 0, .dbl 0] [.dbl 0] = .throw := (mascon_checks.2 (.inr (by simp))).1

/-- A triangular equilibrium of the restricted problem. -/
noncomputable def exL4 (m : ℝ) (t : ℝ) : Env ℝ :=
  ⟨fun s => if s = "x" then m - 1 / 2 else if s = "y" then Real.sqrt 3 / 2 else if s = "px" then -(Real.sqrt 3 / 2)
    else if s = "py" then m - 1 / 2 else 0, fun _ => 0, t⟩

/-- `cr3bp_checks`, `cr3bp_hamilton`, `cr3bp_motion`, `cr3bp_jacobi`: the hypotheses are met by a triangular equilibrium. -/
example (m : ℝ) (h1 : 0 < m) (h2 : m < 1 / 2) : ∃ s e, cr3bp (.dbl m) = .ok s ∧ cr3bpJacobi (.dbl m) = .ok e ∧
    Solves s (exL4 m) Set.univ ∧ Conserved e (exL4 m) Set.univ := by
  obtain ⟨⟨s, hs⟩, e, he⟩ := (cr3bp_checks (.dbl m : Expr ℝ)).1 fun n hn => by
    cases hn
    exact ⟨m, by simp [Num.dbl, Num.toK?], h1, h2⟩
  have hm : ∀ t ∈ Set.univ, (Expr.dbl m : Expr ℝ).eval (exL4 m t) = some m := by simp
  have hp (t : ℝ) : pos (exL4 m t) = ![m - 1 / 2, Real.sqrt 3 / 2, 0] := by
    funext a; fin_cases a <;> simp [pos, exL4, crd]
  have hv (t : ℝ) : crVel (exL4 m t) = 0 := by
    funext a; fin_cases a <;> simp [crVel, exL4]
  have h3 : Real.sqrt 3 ^ 2 = 3 := Real.sq_sqrt (by norm_num)
  have hd0 : dist3 ![m - 1 / 2, Real.sqrt 3 / 2, 0] (crPos m 0) = 1 := by
    rw [dist3, Real.sqrt_eq_one]
    simp [Fin.sum_univ_three, crPos, div_pow, h3]; norm_num
  have hd1 : dist3 ![m - 1 / 2, Real.sqrt 3 / 2, 0] (crPos m 1) = 1 := by
    rw [dist3, Real.sqrt_eq_one]
    simp [Fin.sum_univ_three, crPos, div_pow, h3]; ring
  have h0 : ∀ t ∈ Set.univ, ∀ i < 2, crPos m i ≠ pos (exL4 m t) := by
    intro t _ i _ h
    have := congrFun h 1
    rw [hp] at this
    unfold crPos at this
    have h4 : Real.sqrt 3 ≠ 0 := by intro h; rw [h] at h3; norm_num at h3
    split at this <;> simp at this <;> exact h4 (by linarith)
  have hS : Solves s (exL4 m) Set.univ := by
    refine (cr3bp_motion hs hm h0).2 fun t _ a => ?_
    simp only [hv, hp, gravity, Finset.sum_range_succ, Finset.sum_range_zero, Pi.add_apply, hd0, hd1]
    fin_cases a
    all_goals
      refine ⟨by simpa using hasDerivAt_const t _, (hasDerivAt_const t _).congr_deriv ?_⟩
      simp [inertial, cross_apply, crMass, crPos]
    all_goals ring
  exact ⟨s, e, hs, he, hS, cr3bp_jacobi hs he isOpen_univ isPreconnected_univ hm h0 hS⟩

/-- `cr3bp_checks`: failure. -/
example : cr3bp (.dbl (1 / 2) : Expr ℝ) = .throw :=
  ((cr3bp_checks _).2 _ rfl fun m hm => by simp [Num.dbl, Num.toK?] at hm; subst hm; norm_num).1

/-- `pendulum_motion`, `pendulum_energy`: the hypotheses are met by a pendulum at rest, upright. -/
example : Conserved (pendulumEnergy (.dbl 9) (.dbl 2)) (fun t => ⟨fun s => if s = "x" then Real.pi else 0, fun _ => 0, t⟩) Set.univ := by
  refine pendulum_energy (γ := 9) (lam := 2) isOpen_univ isPreconnected_univ (by simp) (by simp) (by norm_num) ?_
  rw [pendulum_motion (γ := fun _ => 9) (lam := fun _ => 2) (by simp) (by simp) (by norm_num)]
  intro t _
  exact ⟨by simpa using hasDerivAt_const t _, by simpa using hasDerivAt_const t _⟩

end

end Heyoka.Models
