import Verif.Models.Simple
import Mathlib.LinearAlgebra.CrossProduct

/-!
# Newtonian gravity and inertial forces: specification and lemmas
-/

set_option linter.unusedSectionVars false

namespace Heyoka.Models

open Heyoka.Sym Matrix

/-! ### Specification -/

/-- The distance of two points. -/
noncomputable def dist3 (r s : Fin 3 → ℝ) : ℝ := Real.sqrt (∑ a, (s a - r a) ^ 2)

/-- The gravitational acceleration at `r` due to the masses `μ i` at the points `π i`, `i < n`. -/
noncomputable def gravity (γ : ℝ) (n : Nat) (μ : Nat → ℝ) (π : Nat → Fin 3 → ℝ) (r : Fin 3 → ℝ) : Fin 3 → ℝ := fun a =>
  γ * ∑ i ∈ Finset.range n, μ i * (π i a - r a) / dist3 r (π i) ^ 3

/-- The centrifugal and the Coriolis accelerations, in a frame of reference which rotates with angular velocity `ω`. -/
noncomputable def inertial (ω r u : Fin 3 → ℝ) : Fin 3 → ℝ := -(ω ⨯₃ (ω ⨯₃ r)) - (2 : ℝ) • (ω ⨯₃ u)

/-- The position. -/
def pos (v : Env ℝ) : Fin 3 → ℝ := fun a => v.var (crd a)
/-- The velocity. -/
def vlc (v : Env ℝ) : Fin 3 → ℝ := fun a => v.var (vel a)

/-- The values of the gravitational constant, the masses and the positions of the centres. -/
structure Centres [DFunc] (v : Env ℝ) (G : Expr ℝ) (ms ps : List (Expr ℝ)) (γ : ℝ) (μ : Nat → ℝ) (π : Nat → Fin 3 → ℝ) : Prop where
  hG : G.eval v = some γ
  hm : ∀ i < ms.length, (ms[i]?).bind (Expr.eval v) = some (μ i)
  hp : ∀ i < ms.length, ∀ a : Fin 3, (ps[3 * i + (a : Nat)]?).bind (Expr.eval v) = some (π i a)

/-- The value of the angular velocity, which is zero when it is not given. -/
def Omega [DFunc] (v : Env ℝ) (om : List (Expr ℝ)) (ω : Fin 3 → ℝ) : Prop :=
  om = [] ∧ ω = 0 ∨ om.length = 3 ∧ ∀ a : Fin 3, (om[(a : Nat)]?).bind (Expr.eval v) = some (ω a)

/-- The motion obeys the law `acc` for the acceleration on the set `I` of times. -/
def Moves (X : ℝ → Env ℝ) (acc : ℝ → Fin 3 → ℝ) (I : Set ℝ) : Prop :=
  ∀ t ∈ I, ∀ a, HasDerivAt (fun τ => pos (X τ) a) (vlc (X t) a) t ∧ HasDerivAt (fun τ => vlc (X τ) a) (acc t a) t

/-! ### Lemmas -/

theorem sumsq_pos {r s : Fin 3 → ℝ} (h : s ≠ r) : 0 < ∑ a, (s a - r a) ^ 2 := by
  obtain ⟨a, ha⟩ := Function.ne_iff.1 h
  exact Finset.sum_pos' (fun _ _ => sq_nonneg _) ⟨a, Finset.mem_univ _, by have := sub_ne_zero.2 ha; positivity⟩

theorem dist3_pos {r s : Fin 3 → ℝ} (h : s ≠ r) : 0 < dist3 r s := Real.sqrt_pos.2 (sumsq_pos h)

section
variable [DFunc] {v : Env ℝ} {G : Expr ℝ} {ms ps om : List (Expr ℝ)} {γ : ℝ} {μ : Nat → ℝ} {π : Nat → Fin 3 → ℝ} {ω : Fin 3 → ℝ}

theorem eval_getD {l : List (Expr ℝ)} {i : Nat} {x : ℝ} (h : (l[i]?).bind (Expr.eval v) = some x) :
    (l.getD i (.dbl 0)).eval v = some x := by
  cases hl : l[i]? with
  | none => simp [hl] at h
  | some e =>
    rw [hl] at h
    rw [List.getD_eq_getElem?_getD, hl]
    exact h

theorem Centres.diff (h : Centres v G ms ps γ μ π) {i : Nat} (hi : i < ms.length) (a : Fin 3) :
    (fcDiff ps i a).eval v = some (π i a - pos v a) :=
  ev_sub (eval_getD (h.hp i hi a)) (by simp [pos])

theorem evalL_map_range {f : Nat → Expr ℝ} {g : Nat → ℝ} {n : Nat} (h : ∀ i < n, (f i).eval v = some (g i)) :
    Expr.evalL v ((List.range n).map f) = some ((List.range n).map g) := by
  induction n with
  | zero => simp
  | succ n ih =>
    rw [List.range_succ, List.map_append, List.map_append,
      Expr.evalL_append (ih fun i hi => h i (by omega)) (ys := [g n]) (by simp [h n (by omega)])]
    rfl

theorem ev_sum_range {f : Nat → Expr ℝ} {g : Nat → ℝ} {n : Nat} (h : ∀ i < n, (f i).eval v = some (g i)) :
    (sumE ((List.range n).map f)).eval v = some (∑ i ∈ Finset.range n, g i) := by
  rw [ev_sum (evalL_map_range h)]
  exact congrArg some <| (Finset.sum_range g).trans (by rw [← List.sum_ofFn, List.ofFn_eq_map, ← List.map_coe_finRange_eq_range, List.map_map]; rfl) |>.symm

theorem fcAcc_eval (h : Centres v G ms ps γ μ π) (h0 : ∀ i < ms.length, π i ≠ pos v) (a : Fin 3) :
    (fcAcc G ms ps a).eval v = some (gravity γ ms.length μ π (pos v) a) := by
  refine eval_mulE h.hG (ev_sum_range fun i hi => ?_)
  have h1 := ev_norm2 fun a => h.diff hi a
  have h2 := ev_rpow (-3 / 2) h1 (sumsq_pos (h0 i hi))
  have h3 := eval_mulE (h.diff hi a) (eval_mulE (eval_getD (h.hm i hi)) h2)
  rw [h3, rpow_m32 (sumsq_pos (h0 i hi)), dist3]
  congr 1
  ring

theorem fcPot_eval (h : Centres v G ms ps γ μ π) (h0 : ∀ i < ms.length, π i ≠ pos v) :
    (mulE (negE G) (sumE ((List.range ms.length).map fun i => divE (ms.getD i (.dbl 0)) (sqrtE (norm2 (fcDiff ps i)))))).eval v =
      some (-γ * ∑ i ∈ Finset.range ms.length, μ i / dist3 (pos v) (π i)) := by
  refine eval_mulE (ev_neg h.hG) (ev_sum_range fun i hi => ?_)
  exact eval_divE (eval_getD (h.hm i hi)) (eval_sqrtE (ev_norm2 fun a => h.diff hi a) (sumsq_pos (h0 i hi)).le) (dist3_pos (h0 i hi)).ne'

theorem kinetic_eval : (kinetic : Expr ℝ).eval v = some (1 / 2 * ∑ a, vlc v a ^ 2) :=
  eval_mulE (by simp) (ev_norm2 fun a => by simp [vlc])

theorem Omega.acc (h : Omega v om ω) : ∃ acc, rotAcc om = .ok acc ∧ ∀ a, (acc a).eval v = some (inertial ω (pos v) (vlc v) a) := by
  rcases h with ⟨rfl, rfl⟩ | ⟨hl, h⟩
  · refine ⟨_, rfl, fun a => ?_⟩
    rw [ev_sum (xs := []) (by simp)]
    simp [inertial]
  · obtain ⟨p, q, r, rfl⟩ := List.length_eq_three.1 hl
    have hp : p.eval v = some (ω 0) := h 0
    have hq : q.eval v = some (ω 1) := h 1
    have hr : r.eval v = some (ω 2) := h 2
    refine ⟨_, rfl, fun a => ?_⟩
    have X (s : String) : (Expr.var s : Expr ℝ).eval v = some (v.var s) := by simp
    have m2 : (Expr.dbl (-2) : Expr ℝ).eval v = some (-2) := by simp
    fin_cases a
    · show (sumE (rotTerms p q r 0)).eval v = some (inertial ω (pos v) (vlc v) 0)
      rw [ev_sum (xs := [_, _, _, _, _]) (by
        simp only [rotTerms, Expr.evalL, eval_mulE hq (eval_mulE hq (X "x")), eval_mulE hr (eval_mulE hr (X "x")),
          ev_neg (eval_mulE hp (eval_mulE hq (X "y"))), ev_neg (eval_mulE hp (eval_mulE hr (X "z"))),
          eval_mulE m2 (ev_sub (eval_mulE hq (X "vz")) (eval_mulE hr (X "vy")))]
        rfl)]
      congr 1
      simp [inertial, cross_apply, pos, vlc, crd, vel]
      ring
    · show (sumE (rotTerms p q r 1)).eval v = some (inertial ω (pos v) (vlc v) 1)
      rw [ev_sum (xs := [_, _, _, _, _]) (by
        simp only [rotTerms, Expr.evalL, eval_mulE (ev_sq hp) (X "y"), eval_mulE (ev_sq hr) (X "y"),
          ev_neg (eval_mulE hp (eval_mulE hq (X "x"))), ev_neg (eval_mulE hq (eval_mulE hr (X "z"))),
          eval_mulE m2 (ev_sub (eval_mulE hr (X "vx")) (eval_mulE hp (X "vz")))]
        rfl)]
      congr 1
      simp [inertial, cross_apply, pos, vlc, crd, vel]
      ring
    · show (sumE (rotTerms p q r 2)).eval v = some (inertial ω (pos v) (vlc v) 2)
      rw [ev_sum (xs := [_, _, _, _, _]) (by
        simp only [rotTerms, Expr.evalL, eval_mulE (ev_sq hp) (X "z"), eval_mulE (ev_sq hq) (X "z"),
          ev_neg (eval_mulE hp (eval_mulE hr (X "x"))), ev_neg (eval_mulE hr (eval_mulE hq (X "y"))),
          eval_mulE m2 (ev_sub (eval_mulE hp (X "vy")) (eval_mulE hq (X "vx")))]
        rfl)]
      congr 1
      simp [inertial, cross_apply, pos, vlc, crd, vel]
      ring

theorem Omega.pot (h : Omega v om ω) : ∃ p, rotatingPotential om = .ok p ∧
    p.eval v = some (1 / 2 * ((∑ a, ω a * pos v a) ^ 2 - (∑ a, ω a ^ 2) * ∑ a, pos v a ^ 2)) := by
  rcases h with ⟨rfl, rfl⟩ | ⟨hl, h⟩
  · exact ⟨_, rfl, by simp⟩
  · obtain ⟨p, q, r, rfl⟩ := List.length_eq_three.1 hl
    have hp : p.eval v = some (ω 0) := h 0
    have hq : q.eval v = some (ω 1) := h 1
    have hr : r.eval v = some (ω 2) := h 2
    have X (s : String) : (Expr.var s : Expr ℝ).eval v = some (v.var s) := by simp
    refine ⟨_, rfl, ?_⟩
    have h1 := ev_sum (v := v) (es := [mulE p (.var "x"), mulE q (.var "y"), mulE r (.var "z")]) (xs := [_, _, _]) (by
      simp only [Expr.evalL, eval_mulE hp (X "x"), eval_mulE hq (X "y"), eval_mulE hr (X "z")]; rfl)
    have h2 := ev_sum (v := v) (es := [sq p, sq q, sq r]) (xs := [_, _, _]) (by
      simp only [Expr.evalL, ev_sq hp, ev_sq hq, ev_sq hr]; rfl)
    have h3 : (norm2 fun a => (Expr.var (crd a) : Expr ℝ)).eval v = some (∑ a, pos v a ^ 2) := ev_norm2 fun a => by simp [pos]
    rw [eval_mulE (x := 1 / 2) (by simp) (ev_sub (ev_sq h1) (eval_mulE h2 h3))]
    refine congrArg some ?_
    simp [Fin.sum_univ_three, pos, crd]
    ring

end

/-! ### Derivatives along a motion -/

section
variable {r u : ℝ → Fin 3 → ℝ} {t : ℝ} {acc : Fin 3 → ℝ}

/-- Kinetic energy. -/
theorem kin_deriv (h : ∀ a, HasDerivAt (fun τ => u τ a) (acc a) t) :
    HasDerivAt (fun τ => 1 / 2 * ∑ a, u τ a ^ 2) (∑ a, acc a * u t a) t := by
  have := (HasDerivAt.fun_sum fun a (_ : a ∈ Finset.univ) => (h a).fun_pow 2).const_mul (1 / 2)
  refine this.congr_deriv ?_
  simp [Fin.sum_univ_three]
  ring

/-- Gravitational potential. -/
theorem grav_deriv {γ : ℝ} {n : Nat} {μ : Nat → ℝ} {π : Nat → Fin 3 → ℝ} (h : ∀ a, HasDerivAt (fun τ => r τ a) (u t a) t)
    (h0 : ∀ i < n, π i ≠ r t) :
    HasDerivAt (fun τ => -γ * ∑ i ∈ Finset.range n, μ i / dist3 (r τ) (π i)) (-∑ a, gravity γ n μ π (r t) a * u t a) t := by
  have h1 : ∀ i ∈ Finset.range n, HasDerivAt (fun τ => μ i / dist3 (r τ) (π i))
      (∑ a, μ i * (π i a - r t a) / dist3 (r t) (π i) ^ 3 * u t a) t := by
    intro i hi
    have h2 : HasDerivAt (fun τ => ∑ a, (π i a - r τ a) ^ 2) (∑ a, -2 * (π i a - r t a) * u t a) t := by
      refine HasDerivAt.fun_sum fun a _ => ?_
      have := ((hasDerivAt_const t (π i a)).fun_sub (h a)).fun_pow 2
      exact this.congr_deriv (by simp)
    refine (hasDerivAt_inv_sqrt (c := μ i) h2 (sumsq_pos (h0 i (Finset.mem_range.1 hi)))).congr_deriv ?_
    simp only [Fin.sum_univ_three, dist3]
    ring
  refine ((HasDerivAt.fun_sum h1).const_mul (-γ)).congr_deriv ?_
  simp only [gravity, Fin.sum_univ_three, Finset.sum_add_distrib, mul_assoc, Finset.sum_mul]
  ring

/-- Centrifugal potential. -/
theorem rot_deriv {ω : Fin 3 → ℝ} (h : ∀ a, HasDerivAt (fun τ => r τ a) (u t a) t) :
    HasDerivAt (fun τ => 1 / 2 * ((∑ a, ω a * r τ a) ^ 2 - (∑ a, ω a ^ 2) * ∑ a, r τ a ^ 2))
      (-∑ a, inertial ω (r t) (u t) a * u t a) t := by
  have h1 := HasDerivAt.fun_sum fun a (_ : a ∈ Finset.univ) => (h a).const_mul (ω a)
  have h2 := HasDerivAt.fun_sum fun a (_ : a ∈ Finset.univ) => (h a).fun_pow 2
  refine (((h1.fun_pow 2).fun_sub (h2.const_mul (∑ a, ω a ^ 2))).const_mul (1 / 2)).congr_deriv ?_
  simp [Fin.sum_univ_three, inertial, cross_apply]
  ring

end

theorem Solves.moves [DFunc] {acc : Fin 3 → Expr ℝ} {X : ℝ → Env ℝ} {I : Set ℝ} (h : Solves (motion6 acc) X I) {α : ℝ → Fin 3 → ℝ}
    (hα : ∀ t ∈ I, ∀ a, (acc a).eval (X t) = some (α t a)) : Moves X α I := by
  intro t ht a
  have h1 : (.var (crd a), .var (vel a)) ∈ motion6 acc := by fin_cases a <;> simp [motion6]
  have h2 : (.var (vel a), acc a) ∈ motion6 acc := by fin_cases a <;> simp [motion6]
  obtain ⟨d, hd, hD⟩ := h t ht _ _ h1
  obtain ⟨e, he, hE⟩ := h t ht _ _ h2
  simp only [Expr.eval_var, Option.some.injEq] at hd
  rw [hα t ht a] at he
  cases he
  exact ⟨by rw [vlc, hd]; exact hD, hE⟩

end Heyoka.Models
