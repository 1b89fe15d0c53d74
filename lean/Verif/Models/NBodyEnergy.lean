import Verif.Models.NBodySpec

/-!
# N-body problem: energies, relative coordinates (lemmas)
-/

set_option linter.unusedSectionVars false

namespace Heyoka.Models

open Heyoka.Sym

/-! ### Sums over pairs -/

theorem sum_erase_pairs (g : Nat → Nat → ℝ) (nm : Nat) :
    ∑ i ∈ Finset.range nm, ∑ j ∈ (Finset.range nm).erase i, g i j =
      ∑ i ∈ Finset.range nm, ∑ j ∈ Finset.range nm with i < j, (g i j + g j i) := by
  have h1 : ∀ i ∈ Finset.range nm, ∑ j ∈ (Finset.range nm).erase i, g i j =
      (∑ j ∈ Finset.range nm, if i < j then g i j else 0) + ∑ j ∈ Finset.range nm, if j < i then g i j else 0 := by
    intro i _
    rw [← Finset.sum_add_distrib, ← Finset.filter_ne', Finset.sum_filter]
    refine Finset.sum_congr rfl fun j _ => ?_
    rcases lt_trichotomy i j with h | h | h
    · rw [if_pos (by omega), if_pos h, if_neg (by omega), add_zero]
    · subst h; simp
    · rw [if_pos (by omega), if_neg (by omega), if_pos h, zero_add]
  rw [Finset.sum_congr rfl h1, Finset.sum_add_distrib, Finset.sum_comm (f := fun i j => if j < i then g i j else 0),
    ← Finset.sum_add_distrib]
  refine Finset.sum_congr rfl fun i _ => ?_
  rw [← Finset.sum_add_distrib, Finset.sum_filter]
  refine Finset.sum_congr rfl fun j _ => ?_
  split_ifs <;> simp

/-- Newton's third law. -/
theorem newton_momentum (γ : ℝ) (nm : Nat) (μ : Nat → ℝ) (R : Nat → Fin 3 → ℝ) (a : Fin 3) :
    ∑ i ∈ Finset.range nm, μ i * newton γ nm μ R i a = 0 := by
  have h := sum_erase_pairs (fun i j => μ i * (γ * (μ j * (R j a - R i a) / dist3 (R i) (R j) ^ 3))) nm
  have h2 : ∑ i ∈ Finset.range nm, ∑ j ∈ Finset.range nm with i < j,
      (μ i * (γ * (μ j * (R j a - R i a) / dist3 (R i) (R j) ^ 3)) + μ j * (γ * (μ i * (R i a - R j a) / dist3 (R j) (R i) ^ 3))) = 0 := by
    refine Finset.sum_eq_zero fun i _ => Finset.sum_eq_zero fun j _ => ?_
    rw [dist3_comm (R j)]
    ring
  rw [h2] at h
  rw [← h]
  refine Finset.sum_congr rfl fun i _ => ?_
  rw [newton, Finset.mul_sum, Finset.mul_sum]

/-! ### Derivatives -/

theorem kinEnergy_deriv {nm : Nat} {μ : Nat → ℝ} {V : ℝ → Nat → Fin 3 → ℝ} {A : Nat → Fin 3 → ℝ} {t : ℝ}
    (h : ∀ i < nm, ∀ a, HasDerivAt (fun τ => V τ i a) (A i a) t) :
    HasDerivAt (fun τ => kinEnergy nm μ (V τ)) (∑ i ∈ Finset.range nm, μ i * ∑ a, A i a * V t i a) t := by
  unfold kinEnergy
  refine HasDerivAt.fun_sum fun i hi => ?_
  have := (HasDerivAt.fun_sum fun a (_ : a ∈ Finset.univ) => (h i (Finset.mem_range.1 hi) a).fun_pow 2).const_mul (1 / 2 * μ i)
  refine this.congr_deriv ?_
  simp [Fin.sum_univ_three]
  ring

theorem gravEnergy_deriv {γ : ℝ} {nm : Nat} {μ : Nat → ℝ} {R : ℝ → Nat → Fin 3 → ℝ} {V : Nat → Fin 3 → ℝ} {t : ℝ}
    (h : ∀ i < nm, ∀ a, HasDerivAt (fun τ => R τ i a) (V i a) t) (h0 : Apart nm nm (R t)) :
    HasDerivAt (fun τ => gravEnergy γ nm μ (R τ)) (-∑ i ∈ Finset.range nm, μ i * ∑ a, newton γ nm μ (R t) i a * V i a) t := by
  unfold gravEnergy
  have h1 : ∀ i ∈ Finset.range nm, ∀ j ∈ (Finset.range nm).filter (i < ·), HasDerivAt (fun τ => μ i * μ j / dist3 (R τ i) (R τ j))
      ((∑ a, μ i * (μ j * (R t j a - R t i a) / dist3 (R t i) (R t j) ^ 3) * V i a) +
        ∑ a, μ j * (μ i * (R t i a - R t j a) / dist3 (R t j) (R t i) ^ 3) * V j a) t := by
    intro i hi j hj
    have hi := Finset.mem_range.1 hi
    obtain ⟨hj, hij⟩ := Finset.mem_filter.1 hj
    have hj := Finset.mem_range.1 hj
    have h2 : HasDerivAt (fun τ => ∑ a, (R τ j a - R τ i a) ^ 2) (∑ a, 2 * (R t j a - R t i a) * (V j a - V i a)) t := by
      refine HasDerivAt.fun_sum fun a _ => ?_
      have := ((h j hj a).fun_sub (h i hi a)).fun_pow 2
      exact this.congr_deriv (by simp)
    refine (hasDerivAt_inv_sqrt (c := μ i * μ j) h2 (sumsq_pos (h0 i hi j hj (by omega)).symm)).congr_deriv ?_
    rw [dist3_comm (R t j)]
    simp only [Fin.sum_univ_three, dist3]
    ring
  refine ((HasDerivAt.fun_sum fun i hi => HasDerivAt.fun_sum fun j hj => h1 i hi j hj).const_mul (-γ)).congr_deriv ?_
  rw [← sum_erase_pairs fun i j => ∑ a, μ i * (μ j * (R t j a - R t i a) / dist3 (R t i) (R t j) ^ 3) * V i a, neg_mul, Finset.mul_sum]
  refine congrArg _ (Finset.sum_congr rfl fun i _ => ?_)
  simp only [newton, Fin.sum_univ_three, Finset.sum_add_distrib, mul_add, ← Finset.sum_mul, ← Finset.mul_sum]
  ring

/-! ### Values of lists of expressions -/

section
variable [DFunc] {v : Env ℝ} {G : Expr ℝ} {ms : List (Expr ℝ)} {γ : ℝ} {μ : Nat → ℝ} {n : Nat}

theorem evalL_map {l : List Nat} {f : Nat → Expr ℝ} {g : Nat → ℝ} (h : ∀ i ∈ l, (f i).eval v = some (g i)) :
    Expr.evalL v (l.map f) = some (l.map g) := by
  induction l with
  | nil => simp
  | cons i l ih =>
    have h1 := ih fun j hj => h j (.tail _ hj)
    have h2 := h i (.head _)
    simp [h1, h2]

theorem evalL_flatMap {l : List Nat} {f : Nat → List (Expr ℝ)} {g : Nat → ℝ}
    (h : ∀ i ∈ l, ∃ xs, Expr.evalL v (f i) = some xs ∧ xs.sum = g i) :
    ∃ xs, Expr.evalL v (l.flatMap f) = some xs ∧ xs.sum = (l.map g).sum := by
  induction l with
  | nil => exact ⟨[], by simp, by simp⟩
  | cons i l ih =>
    obtain ⟨xs, h1, h2⟩ := ih fun j hj => h j (.tail _ hj)
    obtain ⟨ys, h3, h4⟩ := h i (.head _)
    exact ⟨ys ++ xs, by rw [List.flatMap_cons]; exact Expr.evalL_append h3 h1, by simp [h2, h4]⟩

theorem sum_range' (g : Nat → ℝ) (a c : Nat) : ((List.range' a c).map g).sum = ∑ j ∈ Finset.Ico a (a + c), g j := by
  rw [← List.sum_toFinset g List.nodup_range']
  refine Finset.sum_congr ?_ fun _ _ => rfl
  ext j
  simp [List.mem_range'_1]

theorem pairTerm_eval (hM : Masses v G ms γ μ) {i j : Nat} (hi : i < ms.length) (hj : j < ms.length) (h0 : nbPos v i ≠ nbPos v j) :
    (divE (mulE (ms.getD i (.dbl 0)) (ms.getD j (.dbl 0))) (sqrtE (norm2 (nbDiff i j)))).eval v =
      some (μ i * μ j / dist3 (nbPos v i) (nbPos v j)) :=
  eval_divE (eval_mulE (eval_getD (hM.hm i hi)) (eval_getD (hM.hm j hj)))
    (eval_sqrtE (ev_norm2 fun a => nbDiff_eval i j a) (sumsq_pos h0.symm).le) (dist3_pos h0.symm).ne'

theorem Ico_filter (i nm : Nat) (h : i < nm) : Finset.Ico (i + 1) (i + 1 + (nm - (i + 1))) = (Finset.range nm).filter (i < ·) := by
  ext j
  simp only [Finset.mem_Ico, Finset.mem_filter, Finset.mem_range]
  omega

theorem pairTerms_eval (hM : Masses v G ms γ μ) (h0 : ∀ i j, i < j → j < ms.length → 0 < i → nbPos v i ≠ nbPos v j) {i : Nat} (hi : i < ms.length)
    (h00 : i = 0 → ∀ j < ms.length, 0 < j → nbPos v 0 ≠ nbPos v j) :
    ∃ xs, Expr.evalL v ((List.range' (i + 1) (ms.length - (i + 1))).map fun j =>
      divE (mulE (ms.getD i (.dbl 0)) (ms.getD j (.dbl 0))) (sqrtE (norm2 (nbDiff i j)))) = some xs ∧
      xs.sum = ∑ j ∈ Finset.range ms.length with i < j, μ i * μ j / dist3 (nbPos v i) (nbPos v j) := by
  refine ⟨_, evalL_map fun j hj => pairTerm_eval hM hi ?_ ?_, ?_⟩
  · have := List.mem_range'_1.1 hj; omega
  · have := List.mem_range'_1.1 hj
    rcases Nat.eq_zero_or_pos i with rfl | hp
    · exact h00 rfl j (by omega) (by omega)
    · exact h0 i j (by omega) (by omega) hp
  · rw [sum_range', Ico_filter i _ hi]

theorem nbPot_eval (hM : Masses v G ms γ μ) (h0 : Apart ms.length ms.length (nbPos v)) :
    (mulE (negE G) (sumE (nbPotTerms ms))).eval v = some (gravEnergy γ ms.length μ (nbPos v)) := by
  obtain ⟨xs, h1, h2⟩ := evalL_flatMap (v := v) (l := List.range ms.length)
    (f := fun i => (List.range' (i + 1) (ms.length - (i + 1))).map fun j =>
      divE (mulE (ms.getD i (.dbl 0)) (ms.getD j (.dbl 0))) (sqrtE (norm2 (nbDiff i j))))
    (g := fun i => ∑ j ∈ Finset.range ms.length with i < j, μ i * μ j / dist3 (nbPos v i) (nbPos v j))
    fun i hi => pairTerms_eval hM (fun i j h1 h2 _ => h0 i (by omega) j h2 (by omega)) (List.mem_range.1 hi)
      fun _ j h1 h2 => h0 0 (by omega) j h1 (by omega)
  rw [nbPotTerms, eval_mulE (ev_neg hM.hG) (ev_sum h1), h2, gravEnergy, List.range_eq_range', sum_range', Finset.range_eq_Ico]
  simp

theorem nbKin_eval (hM : Masses v G ms γ μ) :
    (mulE (.dbl (1 / 2)) (sumE ((List.range ms.length).map fun i => mulE (ms.getD i (.dbl 0)) (norm2 (vv i))))).eval v =
      some (kinEnergy ms.length μ (nbVel v)) := by
  rw [eval_mulE (x := 1 / 2) (by simp) (ev_sum_range fun i hi => eval_mulE (eval_getD (hM.hm i hi)) (ev_norm2 fun a => vv_eval i a)), kinEnergy,
    Finset.mul_sum]
  simp only [mul_assoc]

/-! ### Relative coordinates -/

/-- The positions relative to the body 0. -/
noncomputable def relPos (v : Env ℝ) (i : Nat) : Fin 3 → ℝ := if i = 0 then 0 else nbPos v i

theorem relPos_pos {i : Nat} (h : 0 < i) : relPos v i = nbPos v i := if_neg (by omega)

theorem npR3_eval {i : Nat} (hi : 0 < i) (h : nbPos v i ≠ 0) (a : Fin 3) :
    (npR3 i a : Expr ℝ).eval v = some (nbPos v i a / dist3 0 (nbPos v i) ^ 3) := by
  have hp := sumsq_pos h
  have h1 : ∑ a, (nbPos v i a - (0 : Fin 3 → ℝ) a) ^ 2 = ∑ a, nbPos v i a ^ 2 := by simp
  rw [npR3, eval_mulE (xv_eval i a) (ev_rpow (-3 / 2) (ev_norm2 fun a => xv_eval i a) (h1 ▸ hp)), rpow_m32 (h1 ▸ hp), dist3, h1]
  congr 1
  ring

theorem npTerms_eval (hM : Masses v G ms γ μ) {i j : Nat} (hi : 0 < i) (hj : 0 < j) (hjm : j < ms.length) (h0 : i ≠ j → nbPos v i ≠ nbPos v j)
    (h1 : nbPos v j ≠ 0) (a : Fin 3) : ∃ xs, Expr.evalL v (npTerms G ms i j a) = some xs ∧
      xs.sum = γ * (if j = i then 0 else nterm μ (relPos v) i j a - nterm μ (relPos v) 0 j a) := by
  unfold npTerms
  by_cases hij : j = i
  · rw [if_pos hij, if_pos hij]
    exact ⟨[], by simp, by simp⟩
  · rw [if_neg hij, if_neg hij]
    have hne := h0 (Ne.symm hij)
    have hmj := eval_mulE hM.hG (eval_getD (hM.hm j hjm))
    have hr := npR3_eval hj h1 a
    have hsnd := eval_mulE (ev_neg hmj) hr
    by_cases hlt : i < j
    · simp only [if_pos hlt]
      have hd (b : Fin 3) : (subE (xv j b) (xv i b) : Expr ℝ).eval v = some (nbPos v j b - nbPos v i b) := ev_sub (xv_eval j b) (xv_eval i b)
      have hp := sumsq_pos hne.symm
      have hrm := ev_rpow (-3 / 2) (ev_norm2 hd) hp
      have hfst := eval_mulE hmj (eval_mulE (hd a) hrm)
      refine ⟨[_, _], by simp only [Expr.evalL, hfst, hsnd]; rfl, ?_⟩
      rw [rpow_m32 hp, nterm, nterm, relPos_pos hi, relPos_pos hj, relPos, if_pos rfl, dist3, dist3]
      simp
      ring
    · simp only [if_neg hlt]
      have hd (b : Fin 3) : (subE (xv i b) (xv j b) : Expr ℝ).eval v = some (nbPos v i b - nbPos v j b) := ev_sub (xv_eval i b) (xv_eval j b)
      have hp := sumsq_pos hne
      have hrm := ev_rpow (-3 / 2) (ev_norm2 hd) hp
      have hfst := ev_neg (eval_mulE hmj (eval_mulE (hd a) hrm))
      refine ⟨[_, _], by simp only [Expr.evalL, hfst, hsnd]; rfl, ?_⟩
      rw [rpow_m32 hp, nterm, nterm, relPos_pos hi, relPos_pos hj, relPos, if_pos rfl, dist3_comm (nbPos v i), dist3, dist3]
      simp
      ring

theorem nterm_self (μ : Nat → ℝ) (R : Nat → Fin 3 → ℝ) (i : Nat) (a : Fin 3) : nterm μ R i i a = 0 := by simp [nterm]

theorem newton_eq (γ : ℝ) (nm : Nat) (μ : Nat → ℝ) (R : Nat → Fin 3 → ℝ) (i : Nat) (a : Fin 3) :
    newton γ nm μ R i a = γ * ∑ j ∈ Finset.range nm, nterm μ R i j a := by
  rw [newton]
  congr 1
  by_cases h : i ∈ Finset.range nm
  · rw [← Finset.add_sum_erase _ _ h, nterm_self, zero_add]; rfl
  · rw [Finset.erase_eq_of_notMem h]; rfl

/-- No massive body is at the same place as another body, and no body is at the same place as the body 0. -/
def RelApart (nm n : Nat) (R : Nat → Fin 3 → ℝ) : Prop :=
  (∀ i < nm, ∀ j < n, 0 < i → 0 < j → i ≠ j → R i ≠ R j) ∧ ∀ i < n, 0 < i → R i ≠ 0

theorem npAcc_eval (hM : Masses v G ms γ μ) (h0 : RelApart ms.length n (nbPos v)) (hn : ms.length ≤ n) {i : Nat} (hi : i < n) (hi0 : 0 < i)
    (a : Fin 3) : (sumE (npAcc G ms i a)).eval v =
      some (newton γ ms.length μ (relPos v) i a - newton γ ms.length μ (relPos v) 0 a) := by
  have hr := npR3_eval hi0 (h0.2 i hi hi0) a
  obtain ⟨xs, h1, h2⟩ := evalL_flatMap (v := v) (l := List.range' 1 (ms.length - 1)) (f := fun j => npTerms G ms i j a)
    (g := fun j => γ * (if j = i then 0 else nterm μ (relPos v) i j a - nterm μ (relPos v) 0 j a)) fun j hj => by
      have := List.mem_range'_1.1 hj
      exact npTerms_eval hM hi0 (by omega) (by omega) (fun hne => (h0.1 j (by omega) i hi (by omega) hi0 (Ne.symm hne)).symm) (h0.2 j (by omega) (by omega)) a
  rw [sum_range'] at h2
  have hm0 : (if 0 < ms.length then ms.getD 0 (.dbl 0) else .dbl 0 : Expr ℝ).eval v = some (if 0 < ms.length then μ 0 else 0) := by
    split_ifs with h
    · exact eval_getD (hM.hm 0 h)
    · simp
  have hmi : (if i < ms.length then ms.getD i (.dbl 0) else .dbl 0 : Expr ℝ).eval v = some (if i < ms.length then μ i else 0) := by
    split_ifs with h
    · exact eval_getD (hM.hm i h)
    · simp
  have hfst := eval_mulE (eval_mulE (ev_neg hM.hG) (ev_add hm0 hmi)) hr
  have hl := evalL_cons_some hfst h1
  unfold npAcc
  rw [ev_sum hl, List.sum_cons, h2, newton_eq, newton_eq]
  refine congrArg some ?_
  rcases Nat.eq_zero_or_pos ms.length with hz | hz
  · simp [hz, show ¬ i < 0 by omega]
  · rw [if_pos hz, Finset.range_eq_Ico, Finset.sum_eq_sum_Ico_succ_bot hz, Finset.sum_eq_sum_Ico_succ_bot hz, nterm_self, Nat.zero_add,
      show 1 + (ms.length - 1) = ms.length by omega]
    have hs : ∑ j ∈ Finset.Ico 1 ms.length, (if j = i then 0 else nterm μ (relPos v) i j a - nterm μ (relPos v) 0 j a) =
        (∑ j ∈ Finset.Ico 1 ms.length, nterm μ (relPos v) i j a) - (∑ j ∈ Finset.Ico 1 ms.length, nterm μ (relPos v) 0 j a) +
          if i < ms.length then nterm μ (relPos v) 0 i a else 0 := by
      rw [← Finset.sum_sub_distrib]
      have : ∀ j, (if j = i then 0 else nterm μ (relPos v) i j a - nterm μ (relPos v) 0 j a) =
          (nterm μ (relPos v) i j a - nterm μ (relPos v) 0 j a) + if j = i then nterm μ (relPos v) 0 j a else 0 := by
        intro j
        split_ifs with h
        · subst h; rw [nterm_self]; ring
        · ring
      simp only [this, Finset.sum_add_distrib, Finset.sum_ite_eq']
      congr 1
      refine if_congr ?_ rfl rfl
      simp only [Finset.mem_Ico]
      omega
    rw [← Finset.mul_sum, hs]
    simp only [nterm, relPos_pos hi0]
    rw [relPos, if_pos rfl, dist3_comm (nbPos v i)]
    split_ifs
    · simp; ring
    · simp; ring

theorem np1Pot_eval (hM : Masses v G ms γ μ) (h0 : RelApart ms.length n (nbPos v)) (hn : ms.length ≤ n) (hz : 0 < ms.length) :
    (mulE (negE G) (sumE
      (((List.range' 1 (ms.length - 1)).map fun i => divE (mulE (ms.getD 0 (.dbl 0)) (ms.getD i (.dbl 0))) (sqrtE (norm2 (xv i)))) ++
        (List.range' 1 (ms.length - 1)).flatMap fun i => (List.range' (i + 1) (ms.length - (i + 1))).map fun j =>
          divE (mulE (ms.getD i (.dbl 0)) (ms.getD j (.dbl 0))) (sqrtE (norm2 (nbDiff i j)))))).eval v =
      some (gravEnergy γ ms.length μ (relPos v)) := by
  have h1 := evalL_map (v := v) (l := List.range' 1 (ms.length - 1))
    (f := fun i => divE (mulE (ms.getD 0 (.dbl 0)) (ms.getD i (.dbl 0))) (sqrtE (norm2 (xv i))))
    (g := fun i => μ 0 * μ i / dist3 0 (nbPos v i)) fun i hi => by
      have := List.mem_range'_1.1 hi
      have hne := h0.2 i (by omega) (by omega)
      have hp := sumsq_pos hne
      have hs : ∑ a, (nbPos v i a - (0 : Fin 3 → ℝ) a) ^ 2 = ∑ a, nbPos v i a ^ 2 := by simp
      have hd := dist3_pos hne
      rw [dist3, hs] at hd ⊢
      exact eval_divE (eval_mulE (eval_getD (hM.hm 0 hz)) (eval_getD (hM.hm i (by omega))))
        (eval_sqrtE (ev_norm2 fun a => xv_eval i a) (hs ▸ hp).le) hd.ne'
  obtain ⟨xs, h2, h3⟩ := evalL_flatMap (v := v) (l := List.range' 1 (ms.length - 1))
    (f := fun i => (List.range' (i + 1) (ms.length - (i + 1))).map fun j =>
      divE (mulE (ms.getD i (.dbl 0)) (ms.getD j (.dbl 0))) (sqrtE (norm2 (nbDiff i j))))
    (g := fun i => ∑ j ∈ Finset.range ms.length with i < j, μ i * μ j / dist3 (nbPos v i) (nbPos v j))
    fun i hi => by
      have := List.mem_range'_1.1 hi
      exact pairTerms_eval hM (fun i j h1 h2 h3 => h0.1 i (by omega) j (by omega) h3 (by omega) (by omega)) (by omega) fun h => by omega
  rw [sum_range', show 1 + (ms.length - 1) = ms.length by omega] at h3
  rw [eval_mulE (ev_neg hM.hG) (ev_sum (Expr.evalL_append h1 h2)), List.sum_append, h3, sum_range', gravEnergy,
    show 1 + (ms.length - 1) = ms.length by omega]
  refine congrArg some (congrArg (-γ * ·) ?_)
  rw [Finset.range_eq_Ico, Finset.sum_eq_sum_Ico_succ_bot hz]
  congr 1
  · have hf : (Finset.Ico 0 ms.length).filter (0 < ·) = Finset.Ico 1 ms.length := by
      ext j; simp only [Finset.mem_filter, Finset.mem_Ico]; omega
    rw [hf]
    refine Finset.sum_congr rfl fun j hj => ?_
    rw [relPos_pos (Finset.mem_Ico.1 hj).1, relPos, if_pos rfl]
  · refine Finset.sum_congr rfl fun i hi => Finset.sum_congr rfl fun j hj => ?_
    rw [relPos_pos (Finset.mem_Ico.1 hi).1, relPos_pos (lt_of_lt_of_le (Finset.mem_Ico.1 hi).1 (Finset.mem_filter.1 hj).2.le)]

/-- The velocity of the body 0 in the barycentric frame of reference, from the velocities relative to it. -/
noncomputable def bary0 (nm : Nat) (μ : Nat → ℝ) (V : Nat → Fin 3 → ℝ) : Fin 3 → ℝ := fun a =>
  -(∑ i ∈ Finset.Ico 1 nm, μ i * V i a) / ∑ i ∈ Finset.range nm, μ i

/-- The velocities in the barycentric frame of reference. -/
noncomputable def baryVel (nm : Nat) (μ : Nat → ℝ) (V : Nat → Fin 3 → ℝ) (i : Nat) : Fin 3 → ℝ :=
  if i = 0 then bary0 nm μ V else V i + bary0 nm μ V

theorem npMass_eval (hM : Masses v G ms γ μ) (hz : 0 < ms.length) :
    (npMass ms).eval v = some (∑ i ∈ Finset.range ms.length, μ i) := by
  have h1 := evalL_map (v := v) (l := List.range' 1 (ms.length - 1)) (f := fun i => ms.getD i (.dbl 0)) (g := μ) fun i hi => by
    have := List.mem_range'_1.1 hi
    exact eval_getD (hM.hm i (by omega))
  have hl := evalL_cons_some (eval_getD (hM.hm 0 hz)) h1
  rw [npMass, ev_sum hl, List.sum_cons, sum_range', show 1 + (ms.length - 1) = ms.length by omega, Finset.range_eq_Ico,
    Finset.sum_eq_sum_Ico_succ_bot hz]

theorem npUd0_eval (hM : Masses v G ms γ μ) (hz : 0 < ms.length) (hM0 : ∑ i ∈ Finset.range ms.length, μ i ≠ 0) (a : Fin 3) :
    (npUd0 ms a).eval v = some (bary0 ms.length μ (nbVel v) a) := by
  have h1 := evalL_map (v := v) (l := List.range' 1 (ms.length - 1)) (f := fun i => mulE (ms.getD i (.dbl 0)) (vv i a))
    (g := fun i => μ i * nbVel v i a) fun i hi => by
      have := List.mem_range'_1.1 hi
      exact eval_mulE (eval_getD (hM.hm i (by omega))) (vv_eval i a)
  rw [npUd0, eval_divE (ev_sum h1) (ev_neg (npMass_eval hM hz)) (neg_ne_zero.2 hM0), sum_range', show 1 + (ms.length - 1) = ms.length by omega, bary0,
    div_neg, neg_div]

theorem np1Kin_eval (hM : Masses v G ms γ μ) (hz : 0 < ms.length) (hM0 : ∑ i ∈ Finset.range ms.length, μ i ≠ 0) :
    (mulE (.dbl (1 / 2)) (sumE (mulE (ms.getD 0 (.dbl 0)) (norm2 (npUd0 ms)) ::
        (List.range' 1 (ms.length - 1)).map fun i => mulE (ms.getD i (.dbl 0)) (norm2 fun a => addE (vv i a) (npUd0 ms a))))).eval v =
      some (kinEnergy ms.length μ (baryVel ms.length μ (nbVel v))) := by
  have hu := npUd0_eval (v := v) hM hz hM0
  have h1 := evalL_map (v := v) (l := List.range' 1 (ms.length - 1))
    (f := fun i => mulE (ms.getD i (.dbl 0)) (norm2 fun a => addE (vv i a) (npUd0 ms a)))
    (g := fun i => μ i * ∑ a, (nbVel v i a + bary0 ms.length μ (nbVel v) a) ^ 2) fun i hi => by
      have := List.mem_range'_1.1 hi
      exact eval_mulE (eval_getD (hM.hm i (by omega))) (ev_norm2 fun a => ev_add (vv_eval i a) (hu a))
  have h2 := eval_mulE (eval_getD (hM.hm 0 hz)) (ev_norm2 hu)
  have hl := evalL_cons_some h2 h1
  rw [eval_mulE (x := 1 / 2) (by simp) (ev_sum hl), List.sum_cons, sum_range', show 1 + (ms.length - 1) = ms.length by omega, kinEnergy,
    Finset.range_eq_Ico, Finset.sum_eq_sum_Ico_succ_bot hz, mul_add]
  refine congrArg some ?_
  congr 1
  · simp only [baryVel, if_pos, mul_assoc]
  · rw [Finset.mul_sum]
    refine Finset.sum_congr rfl fun i hi => ?_
    have : i ≠ 0 := by have := (Finset.mem_Ico.1 hi).1; omega
    simp only [baryVel, if_neg this, Pi.add_apply, mul_assoc]

end

end Heyoka.Models
