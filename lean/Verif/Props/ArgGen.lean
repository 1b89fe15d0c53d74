import Verif.CFunc.ArgGen

/-!
# C12: the generators of arguments
-/

namespace Heyoka.Sym

/-- C12: whichever representation is chosen, the generator returns at every call position the element of the
list of indices. The number of calls is a 32-bit integer (`src/expression_cfunc.cpp` 1999-2001). -/
theorem arg_gen_indices (ind : List Nat) (hne : ind ≠ []) (hi : ∀ x ∈ ind, x < 2 ^ 32)
    (hl : ind.length < 2 ^ 32) :
    ∃ g, argGenIdx ind = .ok g ∧ ∀ (i x : Nat), ind[i]? = some x → g.eval i = .ok x := by
  match ind, hne with
  | a :: l, _ =>
    have hn32 : countReps a l + 1 < 2 ^ 32 := by
      have := countReps_le l a
      rw [List.length_cons] at hl
      omega
    simp only [argGenIdx, hn32, if_true]
    split_ifs with h1 h2 h3
    · refine ⟨_, rfl, fun i x hx => ?_⟩
      have : x = a := by
        cases i with
        | zero => exact (Option.some.inj hx).symm
        | succ i => exact beq_iff_eq.1 (List.all_eq_true.1 h1 x (List.mem_of_getElem? hx))
      rw [this, IdxGen.eval]
    · refine ⟨_, rfl, fun i x hx => ?_⟩
      have h3 := isStrided_spec h2 i x hx
      have hlt := hi x (List.mem_of_getElem? hx)
      rw [IdxGen.eval, Nat.add_mod_mod, ← h3, Nat.mod_eq_of_lt hlt]
    · simp only [Bool.and_eq_true, decide_eq_true_eq, beq_iff_eq] at h3
      set n := countReps a l + 1 with hn
      have hdvd : (a :: l).length / n * n = (a :: l).length := by
        have := Nat.div_add_mod (a :: l).length n
        rw [h3.2, Nat.mul_comm] at this
        omega
      have hge : 1 ≤ (a :: l).length / n := by
        rcases Nat.eq_zero_or_pos ((a :: l).length / n) with h | h
        · rw [h] at hdvd
          simp at hdvd
        · exact h
      obtain ⟨p, hp⟩ := blocksFrom_ok (ind := a :: l) (n := n) (by omega) ((a :: l).length / n - 1) 1
        (by rw [show 1 + ((a :: l).length / n - 1) = (a :: l).length / n by omega]; omega)
      rw [hp, Res.bind_ok]
      split_ifs with h4
      · simp only [Bool.and_eq_true, decide_eq_true_eq] at h4
        refine ⟨_, rfl, fun i x hx => ?_⟩
        have hil := (List.getElem?_eq_some_iff.1 hx).1
        have hin : i / n < (a :: l).length / n := by
          rw [Nat.div_lt_iff_lt_mul (by omega), hdvd]
          exact hil
        have hblk : (a :: p.1)[i / n]? = some x := by
          have hdm := Nat.div_add_mod i n
          have hml := Nat.mod_lt i (show n > 0 by omega)
          cases hq : i / n with
          | zero =>
            rw [hq] at hdm
            simp only [List.getElem?_cons_zero, Option.some.injEq]
            cases i with
            | zero => exact Option.some.inj hx
            | succ i =>
              have := countReps_spec l a i (by omega)
              rw [List.getElem?_cons_succ, this] at hx
              exact Option.some.inj hx
          | succ q =>
            obtain ⟨y, hy1, hy2⟩ := blocksFrom_spec _ _ _ hp h4.1 q (by omega)
            rw [List.getElem?_cons_succ, hy1]
            have := hy2 (i % n) hml
            rw [show (1 + q) * n + i % n = i by
              rw [hq] at hdm
              rw [Nat.add_comm 1 q, Nat.mul_comm]
              omega, hx] at this
            exact this.symm
        have h6 := isStrided_spec h4.2 _ _ hblk
        have hlt := hi x (List.mem_of_getElem? hx)
        rw [IdxGen.eval, if_neg (by omega), Nat.add_mod_mod, Nat.mul_comm, ← h6, Nat.mod_eq_of_lt hlt]
      · exact ⟨_, rfl, mkTable_eval hi⟩
    · exact ⟨_, rfl, mkTable_eval hi⟩

variable {K : Type} [Field K] [LinearOrder K]

/-- C12: the generator of constants returns at every call position a number equal to the element of the list
(the two zeros compare equal). -/
theorem arg_gen_numbers (vc : List (Num K)) (hne : vc ≠ []) :
    ∃ g, argGenNum vc = .ok g ∧
      ∀ (i : Nat) (x : Num K), vc[i]? = some x → ∃ y, g.eval i = .ok y ∧ (x = y ∨ x.beq y = true) := by
  match vc, hne with
  | a :: l, _ =>
    simp only [argGenNum]
    split_ifs with h1
    · refine ⟨_, rfl, fun i x hx => ⟨a, rfl, ?_⟩⟩
      cases i with
      | zero => exact .inl (Option.some.inj hx).symm
      | succ i => exact .inr (List.all_eq_true.1 h1 x (List.mem_of_getElem? hx))
    · refine ⟨_, rfl, fun i x hx => ⟨x, ?_, .inl rfl⟩⟩
      simp only [NumGen.eval]
      rw [hx]

/-- Each of the representations is chosen for some lists. -/
example : argGenIdx [7, 7, 7] = .ok (.const 7) ∧ argGenIdx [3, 5, 7] = .ok (.strided 3 2) ∧
    argGenIdx [3, 3, 5, 5, 7, 7] = .ok (.repeated 3 2 2) ∧
    argGenIdx [3, 3, 5, 5, 7, 8] = .ok (.table 8 [3, 3, 5, 5, 7, 8]) ∧
    argGenIdx [9, 5, 70000] = .ok (.table 32 [9, 5, 70000]) ∧
    (IdxGen.repeated 3 2 2).eval 5 = .ok 7 := by
  refine ⟨?_, ?_, ?_, ?_, ?_, ?_⟩ <;> rfl

end Heyoka.Sym
