import Verif.Events.Ctor
import Mathlib.Tactic.Linarith
import Mathlib.Tactic.FieldSimp
import Mathlib.Tactic.Positivity
import Mathlib.Tactic.NormNum

/-!
# C67: construction of events and automatic cooldown
-/

namespace Heyoka.EvCtor

open Heyoka.Sym

/-- `v` is a floating-point value which represents the number `x`. -/
def IsReal (v : FVal ℝ) (x : ℝ) : Prop := v = .fin x ∨ (v = .nzero ∧ x = 0)

theorem isFinite_iff (v : FVal ℝ) : isFinite v = true ↔ ∃ x, IsReal v x := by
  cases v <;> simp [isFinite, IsReal]

theorem isNegative_iff {v : FVal ℝ} {x : ℝ} (h : IsReal v x) : v.isNegative = true ↔ x < 0 := by
  rcases h with rfl | ⟨rfl, rfl⟩ <;> simp [FVal.isNegative]

/-- **C67.** A terminal event is constructed iff its cooldown is a number (or missing) and its
direction is one of the three directions (or missing); it holds what was passed, with a negative
cooldown and any direction by default. -/
theorem tEvent_spec {C : Type} (cb : Option C) (cd : Option (FVal ℝ)) (d : Option Int) :
    (∀ e, tEvent cb cd d = .ok e ↔
      ((∀ v, cd = some v → ∃ x, IsReal v x) ∧ (∀ k, d = some k → k = -1 ∨ k = 0 ∨ k = 1)) ∧
        e.callback = cb ∧ (∀ v, cd = some v → e.cooldown = v) ∧ (cd = none → e.cooldown = .fin (-1)) ∧
          (∀ k, d = some k → e.dir = k) ∧ (d = none → e.dir = 0)) ∧
      tEvent cb cd d ≠ .ub := by
  have key : ∀ (v : FVal ℝ) (k : Int) (e : TEv C), tFinalise cb v k = .ok e ↔
      (∃ x, IsReal v x) ∧ (k = -1 ∨ k = 0 ∨ k = 1) ∧ e.callback = cb ∧ e.cooldown = v ∧ e.dir = k := by
    intro v k e
    obtain ⟨ecb, ecd, ed⟩ := e
    unfold tFinalise
    rw [← isFinite_iff]
    cases hf : isFinite v with
    | false => simp
    | true =>
      by_cases hk : k < -1 ∨ k > 1
      · have : ¬ (k = -1 ∨ k = 0 ∨ k = 1) := by omega
        simp [hk, this]
      · have : k = -1 ∨ k = 0 ∨ k = 1 := by omega
        simp only [Bool.not_true, Bool.false_eq_true, if_false, hk, this, true_and, Res.ok.injEq,
          TEv.mk.injEq]
        constructor
        · rintro ⟨a, b, c⟩; exact ⟨a.symm, b.symm, c.symm⟩
        · rintro ⟨a, b, c⟩; exact ⟨a.symm, b.symm, c.symm⟩
  constructor
  · intro e
    have hm1 : ∃ x, IsReal (.fin (-1)) x := ⟨-1, Or.inl rfl⟩
    unfold tEvent
    rw [key]
    cases cd <;> cases d <;> simp [hm1] <;> tauto
  · unfold tEvent tFinalise
    split_ifs <;> simp

/-- **C67.** A non-terminal event is constructed iff it has a callback and its direction is one of the
three directions (or missing). -/
theorem ntEvent_spec {C : Type} (cb : Option C) (d : Option Int) :
    (∀ e, ntEvent cb d = .ok e ↔
      (cb = some e.callback ∧ (∀ k, d = some k → k = -1 ∨ k = 0 ∨ k = 1)) ∧
        (∀ k, d = some k → e.dir = k) ∧ (d = none → e.dir = 0)) ∧ ntEvent cb d ≠ .ub := by
  unfold ntEvent ntFinalise
  have hd : ∀ k : Int, (k < -1 ∨ k > 1) ↔ ¬ (k = -1 ∨ k = 0 ∨ k = 1) := fun k => by omega
  simp only [hd]
  constructor
  · intro e
    obtain ⟨ecb, ed⟩ := e
    cases cb with
    | none => simp
    | some c =>
      cases d with
      | none => simp; tauto
      | some k =>
        by_cases hk : k = -1 ∨ k = 0 ∨ k = 1
        · simp only [Option.getD_some, hk, not_true_eq_false, if_false]
          simp [hk]; tauto
        · simp only [Option.getD_some, hk, not_false_eq_true, if_true]
          simp [hk]
  · cases cb with
    | none => simp
    | some c => dsimp only; split_ifs <;> simp

theorem mk_isReal (b : Bool) (x : ℝ) : IsReal (FVal.mk b x) x := by
  unfold FVal.mk IsReal
  by_cases h : x = 0
  · cases b <;> simp [h]
  · simp [h]

theorem inf_notFinite (b : Bool) : isFinite (FVal.inf b) = false := by cases b <;> rfl

theorem mul_notFinite {v : FVal ℝ} (h : isFinite v = false) : isFinite (v.mul (.fin 10)) = false := by
  have hz : FVal.isZero (.fin (10 : ℝ)) = false := by simp [FVal.isZero]
  cases v with
  | nan => rfl
  | pinf =>
    unfold FVal.mul
    simp only [hz, Bool.false_eq_true, if_false]
    exact inf_notFinite _
  | ninf =>
    unfold FVal.mul
    simp only [hz, Bool.false_eq_true, if_false]
    exact inf_notFinite _
  | nzero => simp [isFinite] at h
  | fin x => simp [isFinite] at h

theorem div_fin_notFinite (x : ℝ) {d : FVal ℝ} (h : d = .fin 0 ∨ d = .nzero) :
    isFinite (FVal.div (.fin x) d) = false := by
  rcases h with rfl | rfl
  · unfold FVal.div
    simp only [if_true]
    split_ifs
    · rfl
    · exact inf_notFinite _
  · unfold FVal.div
    simp only
    split_ifs
    · rfl
    · exact inf_notFinite _

/-- **C67.** The automatic cooldown is ten times the error of the event function divided by its
derivative, and zero if the derivative is zero. In particular it is a nonnegative number for all
values. -/
theorem deduce_spec {g d : FVal ℝ} {x y : ℝ} (hg : IsReal g x) (hd : IsReal d y) (hx : 0 ≤ x)
    (hy : 0 ≤ y) :
    ∃ v c, deduceCooldown g d = .ok v ∧ IsReal v c ∧ 0 ≤ c ∧ (0 < y → c = 10 * x / y) ∧
      (y = 0 → c = 0) := by
  have f1 : isFinite g = true := (isFinite_iff g).mpr ⟨x, hg⟩
  have f2 : isFinite d = true := (isFinite_iff d).mpr ⟨y, hd⟩
  have n1 : g.isNegative = false := by
    rw [Bool.eq_false_iff, ne_eq, isNegative_iff hg]; linarith
  have n2 : d.isNegative = false := by
    rw [Bool.eq_false_iff, ne_eq, isNegative_iff hd]; linarith
  unfold deduceCooldown
  rw [if_pos (by simp [f1, f2, n1, n2])]
  dsimp only
  rcases eq_or_lt_of_le hy with h0 | h0
  · -- the derivative is zero: the quotient is not finite
    have : isFinite ((g.div d).mul (.fin 10)) = false := by
      subst h0
      have hz : d = .fin 0 ∨ d = .nzero := by
        rcases hd with rfl | ⟨rfl, _⟩ <;> simp
      rcases hz with rfl | rfl <;> rcases hg with rfl | ⟨rfl, rfl⟩
      · exact mul_notFinite (div_fin_notFinite x (.inl rfl))
      · exact mul_notFinite (by simp [FVal.div, FVal.isZero, isFinite])
      · exact mul_notFinite (div_fin_notFinite x (.inr rfl))
      · exact mul_notFinite (by simp [FVal.div, FVal.isZero, isFinite])
    rw [if_neg (by rw [this]; simp)]
    exact ⟨_, 0, rfl, Or.inl rfl, le_refl _, fun h => absurd h (by rw [← h0]; exact lt_irrefl _),
      fun _ => rfl⟩
  · have hdv : d = .fin y := by
      rcases hd with rfl | ⟨_, rfl⟩
      · rfl
      · exact absurd h0 (lt_irrefl _)
    have hq : IsReal (g.div d) (x / y) := by
      subst hdv
      rcases hg with rfl | ⟨rfl, rfl⟩
      · simp only [FVal.div, h0.ne', if_false]
        exact mk_isReal _ _
      · simp only [FVal.div, FVal.isZero, h0.ne', decide_false, zero_div]
        exact mk_isReal _ _
    have hr : IsReal ((g.div d).mul (.fin 10)) (x / y * 10) := by
      rcases hq with h | ⟨h, h'⟩
      · rw [h]; exact mk_isReal _ _
      · rw [h, h', zero_mul]; exact mk_isReal _ _
    rw [if_pos ((isFinite_iff _).mpr ⟨_, hr⟩)]
    exact ⟨_, _, rfl, hr, by positivity, fun _ => by ring, fun h => absurd h h0.ne'⟩

/-- **C67.** After the automatic cooldown the same zero is not detected again: if the event function
`f` moves away from its zero at `t0` with at least a tenth of the speed that it had there, then a
function `p` (the Taylor polynomial) which is within the error `x` of `f` has no zero further away
from `t0` than the cooldown. -/
theorem cooldown_covers {g d : FVal ℝ} {x y : ℝ} (hg : IsReal g x) (hd : IsReal d y) (hx : 0 ≤ x)
    (hy : 0 < y) (f p : ℝ → ℝ) (t0 : ℝ) (S : Set ℝ)
    (hf : ∀ t ∈ S, y / 10 * |t - t0| ≤ |f t|) (hp : ∀ t ∈ S, |p t - f t| ≤ x) :
    ∃ v c, deduceCooldown g d = .ok v ∧ IsReal v c ∧ ∀ t ∈ S, c < |t - t0| → p t ≠ 0 := by
  obtain ⟨v, c, h1, h2, _, h4, _⟩ := deduce_spec hg hd hx hy.le
  refine ⟨v, c, h1, h2, fun t ht hc h0 => ?_⟩
  have a := hf t ht
  have b := hp t ht
  rw [h0, zero_sub, abs_neg] at b
  rw [h4 hy, div_lt_iff₀ hy] at hc
  nlinarith

/-- **C67.** The cooldown which starts when an event triggers, for every event which can be
constructed: the value passed if it is not negative, otherwise the automatic one. It is always a
nonnegative number. -/
theorem startCooldown_spec {C : Type} {cb : Option C} {cd : Option (FVal ℝ)} {dir : Option Int}
    {e : TEv C} (he : tEvent cb cd dir = .ok e) {g d : FVal ℝ} {x y : ℝ} (hg : IsReal g x)
    (hd : IsReal d y) (hx : 0 ≤ x) (hy : 0 ≤ y) :
    (∃ v c, startCooldown e g d = .ok v ∧ IsReal v c ∧ 0 ≤ c) ∧
      (∀ v c, cd = some v → IsReal v c → 0 ≤ c → startCooldown e g d = .ok v) ∧
      (∀ v c, cd = some v → IsReal v c → c < 0 → startCooldown e g d = deduceCooldown g d) ∧
      (cd = none → startCooldown e g d = deduceCooldown g d) := by
  obtain ⟨⟨hcd, _⟩, _, h1, h2, _⟩ := ((tEvent_spec cb cd dir).1 e).mp he
  have pos : ∀ v c, cd = some v → IsReal v c → 0 ≤ c → startCooldown e g d = .ok v := by
    intro v c hv hr hc
    unfold startCooldown
    rw [h1 v hv, if_neg (by rw [isNegative_iff hr]; linarith)]
  have neg : ∀ v c, cd = some v → IsReal v c → c < 0 → startCooldown e g d = deduceCooldown g d := by
    intro v c hv hr hc
    unfold startCooldown
    rw [h1 v hv, if_pos ((isNegative_iff hr).mpr hc)]
  have non : cd = none → startCooldown e g d = deduceCooldown g d := by
    intro hn
    unfold startCooldown
    rw [h2 hn, if_pos (by simp [FVal.isNegative])]
  refine ⟨?_, pos, neg, non⟩
  obtain ⟨v, c, a1, a2, a3, _⟩ := deduce_spec hg hd hx hy
  cases hc : cd with
  | none => exact ⟨v, c, by rw [non hc]; exact a1, a2, a3⟩
  | some w =>
    obtain ⟨z, hz⟩ := hcd w hc
    rcases lt_or_ge z 0 with h | h
    · exact ⟨v, c, by rw [neg w z hc hz h]; exact a1, a2, a3⟩
    · exact ⟨w, z, pos w z hc hz h, hz, h⟩

/-- An event with a callback and the default arguments is constructed. -/
example : ∃ e, tEvent (some ()) none (some 1) = .ok e ∧ e.cooldown = .fin (-1) ∧ e.dir = 1 := by
  refine ⟨⟨some (), .fin (-1), 1⟩, ?_, rfl, rfl⟩
  exact ((tEvent_spec _ _ _).1 _).mpr (by simp)

/-- An infinite cooldown is refused. -/
example (e : TEv Unit) : tEvent none (some .pinf) none ≠ .ok e := by
  intro h
  obtain ⟨⟨h1, _⟩, _⟩ := ((tEvent_spec _ _ _).1 _).mp h
  obtain ⟨x, hx⟩ := h1 _ rfl
  rcases hx with h | ⟨h, _⟩ <;> simp at h

/-- The hypotheses of `cooldown_covers` for the function `t` with an error of 0.1 in `[-1, 1]`. -/
example : ∃ v c, deduceCooldown (.fin (1 / 10)) (.fin 1) = .ok v ∧ IsReal v c ∧
    ∀ t ∈ Set.Icc (-1 : ℝ) 1, c < |t - 0| → t + 1 / 20 ≠ 0 :=
  cooldown_covers (f := fun t => t) (p := fun t => t + 1 / 20) (t0 := 0) (Or.inl rfl) (Or.inl rfl)
    (by norm_num) (by norm_num) (Set.Icc (-1) 1)
    (fun t _ => by rw [sub_zero]; have := abs_nonneg t; linarith)
    (fun t _ => by rw [add_sub_cancel_left, abs_of_pos] <;> norm_num)

end Heyoka.EvCtor
