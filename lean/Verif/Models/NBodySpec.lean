import Verif.Models.NBody
import Verif.Models.Spec

/-!
# N-body problem: specification and lemmas
-/

set_option linter.unusedSectionVars false

namespace Heyoka.Models

open Heyoka.Sym

/-! ### Specification -/

/-- Newton's law: the acceleration of the body `i`, at `R i`, due to the other bodies among the first `nm`. -/
noncomputable def newton (γ : ℝ) (nm : Nat) (μ : Nat → ℝ) (R : Nat → Fin 3 → ℝ) (i : Nat) : Fin 3 → ℝ := fun a =>
  γ * ∑ j ∈ (Finset.range nm).erase i, μ j * (R j a - R i a) / dist3 (R i) (R j) ^ 3

/-- The gravitational energy of the bodies: the sum over the pairs. -/
noncomputable def gravEnergy (γ : ℝ) (nm : Nat) (μ : Nat → ℝ) (R : Nat → Fin 3 → ℝ) : ℝ :=
  -γ * ∑ i ∈ Finset.range nm, ∑ j ∈ Finset.range nm with i < j, μ i * μ j / dist3 (R i) (R j)

/-- The kinetic energy of the bodies. -/
noncomputable def kinEnergy (nm : Nat) (μ : Nat → ℝ) (V : Nat → Fin 3 → ℝ) : ℝ :=
  ∑ i ∈ Finset.range nm, 1 / 2 * μ i * ∑ a, V i a ^ 2

/-- The positions of the bodies, as values of the variables `x_i`, `y_i`, `z_i`. -/
def nbPos (v : Env ℝ) (i : Nat) : Fin 3 → ℝ := fun a => v.var (crd a ++ "_" ++ toString i)
/-- The velocities of the bodies, as values of the variables `vx_i`, `vy_i`, `vz_i`. -/
def nbVel (v : Env ℝ) (i : Nat) : Fin 3 → ℝ := fun a => v.var (vel a ++ "_" ++ toString i)

/-- The values of the gravitational constant and of the masses. -/
structure Masses [DFunc] (v : Env ℝ) (G : Expr ℝ) (ms : List (Expr ℝ)) (γ : ℝ) (μ : Nat → ℝ) : Prop where
  hG : G.eval v = some γ
  hm : ∀ i < ms.length, (ms[i]?).bind (Expr.eval v) = some (μ i)

/-- No massive body is at the same place as another body. -/
def Apart (nm n : Nat) (R : Nat → Fin 3 → ℝ) : Prop := ∀ i < nm, ∀ j < n, i ≠ j → R i ≠ R j

/-! ### Accelerations -/

/-- A term of Newton's law. -/
noncomputable def nterm (μ : Nat → ℝ) (R : Nat → Fin 3 → ℝ) (i j : Nat) (a : Fin 3) : ℝ :=
  μ j * (R j a - R i a) / dist3 (R i) (R j) ^ 3

theorem dist3_comm (r s : Fin 3 → ℝ) : dist3 r s = dist3 s r := by
  simp only [dist3, Fin.sum_univ_three]
  congr 1
  ring

section
variable [DFunc] {v : Env ℝ} {G : Expr ℝ} {ms : List (Expr ℝ)} {γ : ℝ} {μ : Nat → ℝ} {n : Nat}

theorem xv_eval (i : Nat) (a : Fin 3) : (xv i a : Expr ℝ).eval v = some (nbPos v i a) := by simp [xv, nbPos]
theorem vv_eval (i : Nat) (a : Fin 3) : (vv i a : Expr ℝ).eval v = some (nbVel v i a) := by simp [vv, nbVel]

theorem nbDiff_eval (i j : Nat) (a : Fin 3) : (nbDiff i j a : Expr ℝ).eval v = some (nbPos v j a - nbPos v i a) :=
  ev_sub (xv_eval j a) (xv_eval i a)

theorem nbRm3_eval {i j : Nat} (h : nbPos v i ≠ nbPos v j) :
    (nbRm3 i j : Expr ℝ).eval v = some (1 / dist3 (nbPos v i) (nbPos v j) ^ 3) := by
  have := ev_rpow (-3 / 2) (ev_norm2 fun a => nbDiff_eval (v := v) i j a) (sumsq_pos h.symm)
  rw [nbRm3, this, rpow_m32 (sumsq_pos h.symm), dist3]

/-- The pairs of bodies which have been considered. -/
def Seen (i j k m : Nat) : Prop := m ≠ k ∧ (min k m < i ∨ min k m = i ∧ max k m < j)

instance (i j k m : Nat) : Decidable (Seen i j k m) := inferInstanceAs (Decidable (_ ∧ _))

/-- The accumulators contain the terms for the pairs which have been considered. -/
def AccInv (v : Env ℝ) (γ : ℝ) (μ : Nat → ℝ) (nm n i j : Nat) (acc : Acc ℝ) : Prop :=
  ∀ k < n, ∀ a, ∃ xs, Expr.evalL v (acc k a) = some xs ∧
    xs.sum = γ * ∑ m ∈ Finset.range nm with Seen i j k m, nterm μ (nbPos v) k m a

theorem AccInv.congr {nm i j i' j' : Nat} {acc : Acc ℝ} (h : AccInv v γ μ nm n i j acc)
    (hs : ∀ k < n, ∀ m < nm, Seen i j k m ↔ Seen i' j' k m) : AccInv v γ μ nm n i' j' acc := by
  intro k hk a
  obtain ⟨xs, h1, h2⟩ := h k hk a
  refine ⟨xs, h1, ?_⟩
  rw [h2]
  congr 1
  exact Finset.sum_congr (Finset.filter_congr fun m hm => hs k hk m (Finset.mem_range.1 hm)) fun _ _ => rfl

theorem sum_seen_self {nm i j : Nat} (hij : i < j) (hi : i < nm) (f : Nat → ℝ) :
    ∑ m ∈ Finset.range nm with Seen i (j + 1) j m, f m = (∑ m ∈ Finset.range nm with Seen i j j m, f m) + f i := by
  have : (Finset.range nm).filter (Seen i (j + 1) j) = insert i ((Finset.range nm).filter (Seen i j j)) := by
    ext m
    simp only [Finset.mem_filter, Finset.mem_insert, Finset.mem_range, Seen]
    constructor
    · rintro ⟨h1, h2, h3⟩
      by_cases hm : m = i
      · exact .inl hm
      · exact .inr ⟨h1, h2, by omega⟩
    · rintro (rfl | ⟨h1, h2, h3⟩)
      · exact ⟨hi, by omega, by omega⟩
      · exact ⟨h1, h2, by omega⟩
  rw [this, Finset.sum_insert (by simp only [Finset.mem_filter, Seen]; omega), add_comm]

theorem sum_seen_other {nm i j : Nat} (hij : i < j) (hj : j < nm) (f : Nat → ℝ) :
    ∑ m ∈ Finset.range nm with Seen i (j + 1) i m, f m = (∑ m ∈ Finset.range nm with Seen i j i m, f m) + f j := by
  have : (Finset.range nm).filter (Seen i (j + 1) i) = insert j ((Finset.range nm).filter (Seen i j i)) := by
    ext m
    simp only [Finset.mem_filter, Finset.mem_insert, Finset.mem_range, Seen]
    constructor
    · rintro ⟨h1, h2, h3⟩
      by_cases hm : m = j
      · exact .inl hm
      · exact .inr ⟨h1, h2, by omega⟩
    · rintro (rfl | ⟨h1, h2, h3⟩)
      · exact ⟨hj, by omega, by omega⟩
      · exact ⟨h1, h2, by omega⟩
  rw [this, Finset.sum_insert (by simp only [Finset.mem_filter, Seen]; omega), add_comm]

theorem sum_seen_skip {nm i j k : Nat} (hij : i < j) (hk : k ≠ j) (hk' : k ≠ i ∨ nm ≤ j) (f : Nat → ℝ) :
    ∑ m ∈ Finset.range nm with Seen i (j + 1) k m, f m = ∑ m ∈ Finset.range nm with Seen i j k m, f m := by
  refine Finset.sum_congr (Finset.filter_congr fun m hm => ?_) fun _ _ => rfl
  have := Finset.mem_range.1 hm
  simp only [Seen]
  omega

theorem evalL_snoc {l : List (Expr ℝ)} {e : Expr ℝ} {xs : List ℝ} {x : ℝ} (h1 : Expr.evalL v l = some xs) (h2 : e.eval v = some x) :
    Expr.evalL v (l ++ [e]) = some (xs ++ [x]) :=
  Expr.evalL_append h1 (by simp [h2])

/-- What the body of the inner loop adds. -/
theorem nbPair_spec (hM : Masses v G ms γ μ) {i j : Nat} (hi : i < ms.length) (hij : i < j)
    (h0 : nbPos v i ≠ nbPos v j) (acc : Acc ℝ) :
    ∃ f g : Fin 3 → Expr ℝ, (∀ a, (f a).eval v = some (γ * nterm μ (nbPos v) j i a)) ∧
      (∀ a, j < ms.length → (g a).eval v = some (γ * nterm μ (nbPos v) i j a)) ∧
      ∀ k a, nbPair G ms i j acc k a =
        if k = j then acc k a ++ [f a] else if k = i ∧ j < ms.length then acc k a ++ [g a] else acc k a := by
  have hmi := eval_getD (hM.hm i hi)
  have hr := nbRm3_eval h0
  have hd := nbDiff_eval (v := v) i j
  unfold nbPair
  by_cases ho : optGrouping G ms j
  · simp only [if_pos ho]
    simp only [optGrouping, Bool.and_eq_true, decide_eq_true_eq] at ho
    obtain ⟨⟨hj, hnz⟩, hG⟩ := ho
    have hmj := eval_getD (hM.hm j hj)
    have hμ : μ j ≠ 0 := by
      cases hx : ms.getD j (.dbl 0) with
      | num q =>
        rw [hx] at hnz hmj
        intro h
        rw [Expr.eval_num, h] at hmj
        simp [isNonzeroNumber, Num.isZero_iff.2 hmj] at hnz
      | _ => rw [hx] at hnz; simp [isNonzeroNumber] at hnz
    have hg (a : Fin 3) : (mulE (nbDiff i j a) (mulE (mulE G (ms.getD j (.dbl 0))) (nbRm3 i j))).eval v =
        some (γ * nterm μ (nbPos v) i j a) := by
      rw [eval_mulE (hd a) (eval_mulE (eval_mulE hM.hG hmj) hr), nterm]
      congr 1
      ring
    refine ⟨fun a => mulE (mulE (nbDiff i j a) (mulE (mulE G (ms.getD j (.dbl 0))) (nbRm3 i j))) (divE (negE (ms.getD i (.dbl 0))) (ms.getD j (.dbl 0))),
      fun a => mulE (nbDiff i j a) (mulE (mulE G (ms.getD j (.dbl 0))) (nbRm3 i j)), fun a => ?_, fun a _ => hg a, fun k a => ?_⟩
    · rw [eval_mulE (hg a) (eval_divE (ev_neg hmi) hmj hμ), nterm, nterm, dist3_comm (nbPos v j)]
      refine congrArg some ?_
      field_simp
      ring
    · by_cases hk : k = j
      · subst hk
        simp [Acc.push, hij.ne']
      · by_cases hk' : k = i
        · subst hk'
          simp [Acc.push, hk, hj]
        · simp [Acc.push, hk, hk']
  · simp only [if_neg ho]
    refine ⟨fun a => mulE (nbDiff i j a) (mulE (negE (ms.getD i (.dbl 0))) (mulE G (nbRm3 i j))),
      fun a => mulE (nbDiff i j a) (mulE (ms.getD j (.dbl 0)) (mulE G (nbRm3 i j))), fun a => ?_, fun a hj => ?_, fun k a => ?_⟩
    · rw [eval_mulE (hd a) (eval_mulE (ev_neg hmi) (eval_mulE hM.hG hr)), nterm, dist3_comm (nbPos v j)]
      congr 1
      ring
    · rw [eval_mulE (hd a) (eval_mulE (eval_getD (hM.hm j hj)) (eval_mulE hM.hG hr)), nterm]
      congr 1
      ring
    · by_cases hj : j < ms.length
      · simp only [if_pos hj]
        by_cases hk : k = j
        · subst hk
          simp [Acc.push, hij.ne']
        · by_cases hk' : k = i
          · subst hk'
            simp [Acc.push, hk, hj]
          · simp [Acc.push, hk, hk']
      · simp only [if_neg hj]
        by_cases hk : k = j
        · subst hk
          simp [Acc.push]
        · simp [Acc.push, hk, hj]

theorem AccInv.pair (hM : Masses v G ms γ μ) (h0 : Apart ms.length n (nbPos v)) {i j : Nat} (hi : i < ms.length) (hij : i < j) (hj : j < n)
    {acc : Acc ℝ} (h : AccInv v γ μ ms.length n i j acc) : AccInv v γ μ ms.length n i (j + 1) (nbPair G ms i j acc) := by
  obtain ⟨f, g, hf, hg, hp⟩ := nbPair_spec hM hi hij (h0 i hi j hj (by omega)) acc
  intro k hk a
  obtain ⟨xs, h1, h2⟩ := h k hk a
  rw [hp]
  by_cases hkj : k = j
  · subst hkj
    rw [if_pos rfl, sum_seen_self hij hi]
    exact ⟨_, evalL_snoc h1 (hf a), by rw [List.sum_append, h2]; simp [mul_add]⟩
  · rw [if_neg hkj]
    by_cases hki : k = i ∧ j < ms.length
    · rw [if_pos hki]
      obtain ⟨rfl, hjm⟩ := hki
      rw [sum_seen_other hij hjm]
      exact ⟨_, evalL_snoc h1 (hg a hjm), by rw [List.sum_append, h2]; simp [mul_add]⟩
    · rw [if_neg hki, sum_seen_skip hij hkj (by omega)]
      exact ⟨xs, h1, h2⟩

theorem AccInv.inner (hM : Masses v G ms γ μ) (h0 : Apart ms.length n (nbPos v)) {i : Nat} (hi : i < ms.length) (c : Nat) :
    ∀ (j : Nat), i < j → j + c = n → ∀ acc : Acc ℝ, AccInv v γ μ ms.length n i j acc →
      AccInv v γ μ ms.length n i n ((List.range' j c).foldl (fun acc j => nbPair G ms i j acc) acc) := by
  induction c with
  | zero =>
    intro j hij hj acc h
    obtain rfl : j = n := by omega
    exact h
  | succ c ih =>
    intro j hij hj acc h
    rw [List.range'_succ, List.foldl_cons]
    exact ih (j + 1) (by omega) (by omega) _ (h.pair hM h0 hi hij (by omega))

/-- The accumulators after some iterations of the loop over the massive bodies. -/
noncomputable def accAfter (G : Expr ℝ) (ms : List (Expr ℝ)) (n : Nat) : Nat → Acc ℝ
  | 0 => fun _ _ => []
  | i + 1 => nbInner G ms n i (accAfter G ms n i)

theorem accAfter_inv (hM : Masses v G ms γ μ) (h0 : Apart ms.length n (nbPos v)) (hn : ms.length ≤ n) :
    ∀ i ≤ ms.length, AccInv v γ μ ms.length n i (i + 1) (accAfter G ms n i) := by
  intro i
  induction i with
  | zero =>
    intro _ k _ a
    refine ⟨[], by simp [accAfter], ?_⟩
    rw [Finset.filter_false_of_mem fun m _ => by simp only [Seen]; omega]
    simp
  | succ i ih =>
    intro hi
    have := AccInv.inner hM h0 (i := i) (by omega) (n - (i + 1)) (i + 1) (by omega) (by omega) _ (ih (by omega))
    refine AccInv.congr this fun k hk m hm => ?_
    simp only [Seen]
    omega

/-- The acceleration of a body. -/
noncomputable def bodyAcc (G : Expr ℝ) (ms : List (Expr ℝ)) (n i : Nat) (a : Fin 3) : Expr ℝ :=
  sumE (accAfter G ms n (min (i + 1) ms.length) i a)

theorem bodyAcc_eval (hM : Masses v G ms γ μ) (h0 : Apart ms.length n (nbPos v)) (hn : ms.length ≤ n) {i : Nat} (hi : i < n) (a : Fin 3) :
    (bodyAcc G ms n i a).eval v = some (newton γ ms.length μ (nbPos v) i a) := by
  obtain ⟨xs, h1, h2⟩ := accAfter_inv hM h0 hn _ (min_le_right (i + 1) _) i hi a
  rw [bodyAcc, ev_sum h1, h2, newton]
  refine congrArg some (congrArg (γ * ·) (Finset.sum_congr ?_ fun _ _ => rfl))
  ext m
  rw [Finset.mem_filter, Finset.mem_erase, Finset.mem_range]
  simp only [Seen]
  omega

end

theorem nbMassive_foldl (G : Expr ℝ) (ms : List (Expr ℝ)) (n : Nat) : ∀ k,
    (List.range k).foldl (nbMassive G ms n) ([], fun _ _ => []) =
      ((List.range k).flatMap fun i => nbVelEqs i ++ nbAccEqs i fun a => sumE (accAfter G ms n (i + 1) i a), accAfter G ms n k) := by
  intro k
  induction k with
  | zero => rfl
  | succ k ih =>
    rw [List.range_succ, List.foldl_append, ih, List.flatMap_append]
    simp [nbMassive, accAfter]

theorem foldl_append_flatMap {α β : Type} (f : α → List β) (l : List α) : ∀ r, l.foldl (fun r x => r ++ f x) r = r ++ l.flatMap f := by
  induction l with
  | nil => simp
  | cons x l ih => intro r; rw [List.foldl_cons, ih]; simp

theorem nbChecks_ok {n : Nat} {ms : List (Expr ℝ)} : nbChecks n ms = .ok () ↔ 2 ≤ n ∧ ms.length ≤ n := by
  unfold nbChecks
  split_ifs <;> simp <;> omega

theorem nbChecks_throw {n : Nat} {ms : List (Expr ℝ)} (h : n < 2 ∨ n < ms.length) : nbChecks n ms = .throw := by
  unfold nbChecks
  split_ifs
  · rfl
  · rfl
  · omega

/-- Explicit form of the system. -/
theorem nbody_eq {n : Nat} {G : Expr ℝ} {ms : List (Expr ℝ)} {sys : List (Expr ℝ × Expr ℝ)} (h : nbody n G ms = .ok sys) :
    ms.length ≤ n ∧ sys = (List.range n).flatMap fun i => nbVelEqs i ++ nbAccEqs i (bodyAcc G ms n i) := by
  unfold nbody at h
  by_cases hc : 2 ≤ n ∧ ms.length ≤ n
  · refine ⟨hc.2, ?_⟩
    rw [nbChecks_ok.2 hc, Res.bind_ok] at h
    have h := Res.ok.inj h
    rw [nbMassive_foldl] at h
    simp only [List.append_assoc] at h
    rw [foldl_append_flatMap] at h
    rw [← h]
    obtain ⟨d, rfl⟩ := Nat.exists_eq_add_of_le hc.2
    rw [List.range_eq_range' (n := ms.length + d), ← List.range'_append_1, List.flatMap_append, ← List.range_eq_range', Nat.zero_add,
      Nat.add_sub_cancel_left]
    congr 1
    · rw [List.flatMap_def, List.flatMap_def]
      refine congrArg List.flatten (List.map_congr_left fun i hi => ?_)
      have := List.mem_range.1 hi
      have hm : min (i + 1) ms.length = i + 1 := by omega
      unfold bodyAcc
      rw [hm]
    · rw [List.flatMap_def, List.flatMap_def]
      refine congrArg List.flatten (List.map_congr_left fun i hi => ?_)
      have := (List.mem_range'_1.1 hi).1
      have hm : min (i + 1) ms.length = ms.length := by omega
      unfold bodyAcc
      rw [hm]
  · rw [nbChecks_throw (by omega)] at h
    simp at h

end Heyoka.Models
