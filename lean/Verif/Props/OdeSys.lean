import Verif.OdeSys.Model
import Mathlib.Data.Rat.Defs

/-!
# C42: validation of systems of differential equations
-/

namespace Heyoka.Sym

variable {K : Type}

/-- Specification: the well-formed systems. -/
structure OdeSysOk (sys : List (Expr K × Expr K)) (funcs : List (Expr K)) (names : List String) : Prop where
  nonempty : sys ≠ []
  lhs : sys.map Prod.fst = names.map .var
  distinct : names.Nodup
  notReserved : ∀ s ∈ names, ∀ r : List Char, s.toList ≠ '_' :: '_' :: r
  rhs : ∀ p ∈ sys, ∀ s, .var s ∈ p.2.leaves → s ∈ names
  events : ∀ e ∈ funcs, ∀ s, .var s ∈ e.leaves → s ∈ names

theorem lhsLoop_ok (es : List (Expr K)) : ∀ seen seen' : List String, lhsLoop seen es = .ok seen' ↔
    ∃ names : List String, es = names.map .var ∧ names.Nodup ∧ (∀ s ∈ names, s ∉ seen) ∧
      (∀ s ∈ names, reserved s = false) ∧ seen' = names.reverse ++ seen := by
  induction es with
  | nil =>
    intro seen seen'
    constructor
    · intro h
      cases h
      exact ⟨[], rfl, .nil, by simp, by simp, rfl⟩
    · rintro ⟨names, h, -, -, -, rfl⟩
      cases names with
      | nil => rfl
      | cons a l => simp at h
  | cons e es ih =>
    intro seen seen'
    cases e with
    | var s =>
      rw [lhsLoop]
      split_ifs with h1 h2
      · constructor
        · intro h; cases h
        · rintro ⟨names, h3, -, -, h4, -⟩
          cases names with
          | nil => simp at h3
          | cons a l =>
            simp only [List.map_cons, List.cons.injEq, Expr.var.injEq] at h3
            obtain ⟨rfl, -⟩ := h3
            rw [h4 s List.mem_cons_self] at h1
            cases h1
      · constructor
        · intro h; cases h
        · rintro ⟨names, h3, -, h4, -, -⟩
          cases names with
          | nil => simp at h3
          | cons a l =>
            simp only [List.map_cons, List.cons.injEq, Expr.var.injEq] at h3
            obtain ⟨rfl, -⟩ := h3
            exact absurd (by simpa using h2) (h4 s List.mem_cons_self)
      · rw [ih]
        have h2' : s ∉ seen := by simpa using h2
        have h1' : reserved s = false := by simpa using h1
        constructor
        · rintro ⟨names, rfl, h3, h4, h5, rfl⟩
          refine ⟨s :: names, rfl, List.nodup_cons.2 ⟨fun hc => h4 s hc List.mem_cons_self, h3⟩, ?_, ?_, by simp⟩
          · intro t ht
            rcases List.mem_cons.1 ht with rfl | ht
            · exact h2'
            · exact fun hc => h4 t ht (List.mem_cons_of_mem _ hc)
          · intro t ht
            rcases List.mem_cons.1 ht with rfl | ht
            · exact h1'
            · exact h5 t ht
        · rintro ⟨names, h3, h4, h5, h6, rfl⟩
          cases names with
          | nil => simp at h3
          | cons a l =>
            simp only [List.map_cons, List.cons.injEq, Expr.var.injEq] at h3
            obtain ⟨rfl, rfl⟩ := h3
            rw [List.nodup_cons] at h4
            refine ⟨l, rfl, h4.2, fun t ht => ?_, fun t ht => h6 t (List.mem_cons_of_mem _ ht), by simp⟩
            rw [List.mem_cons, not_or]
            exact ⟨fun h => h4.1 (h ▸ ht), h5 t (List.mem_cons_of_mem _ ht)⟩
    | num n =>
      constructor
      · intro h; cases h
      · rintro ⟨names, h, -⟩; cases names <;> simp at h
    | par i =>
      constructor
      · intro h; cases h
      · rintro ⟨names, h, -⟩; cases names <;> simp at h
    | fn f as =>
      constructor
      · intro h; cases h
      · rintro ⟨names, h, -⟩; cases names <;> simp at h

theorem mem_leafVars (e : Expr K) (s : String) : s ∈ e.variables ↔ .var s ∈ e.leaves := by
  rw [Expr.variables, mem_sortedSet, List.mem_filterMap]
  constructor
  · rintro ⟨l, h1, h2⟩
    cases l with
    | var t =>
      simp only [leafVar, Option.some.injEq] at h2
      rwa [h2] at h1
    | _ => simp [leafVar] at h2
  · exact fun h => ⟨_, h, rfl⟩

theorem checkVars_ok (seen : List String) (es : List (Expr K)) :
    checkVars seen es = .ok () ↔ ∀ e ∈ es, ∀ s, .var s ∈ e.leaves → s ∈ seen := by
  unfold checkVars
  split_ifs with h
  · refine ⟨fun _ e he s hs => ?_, fun _ => rfl⟩
    have := List.all_eq_true.1 h s (List.mem_flatMap.2 ⟨e, he, (mem_leafVars e s).2 hs⟩)
    simpa using this
  · refine ⟨fun hc => (by cases hc), fun hc => absurd ?_ h⟩
    rw [List.all_eq_true]
    intro s hs
    obtain ⟨e, he, hs⟩ := List.mem_flatMap.1 hs
    simpa using hc e he s ((mem_leafVars e s).1 hs)

theorem reserved_iff (s : String) : reserved s = false ↔ ∀ r : List Char, s.toList ≠ '_' :: '_' :: r := by
  constructor
  · intro h r hr
    rw [reserved, hr] at h
    cases h
  · intro h
    unfold reserved
    split
    · rename_i r hr
      exact absurd hr (h _)
    · rfl

/-- C42: a system with event functions is accepted iff it is well-formed. -/
theorem validate_ode_sys_iff (sys : List (Expr K × Expr K)) (tFuncs ntFuncs : List (Expr K)) :
    validateOdeSys sys tFuncs ntFuncs = .ok () ↔ ∃ names, OdeSysOk sys (tFuncs ++ ntFuncs) names := by
  unfold validateOdeSys
  constructor
  · intro h
    split_ifs at h with h1
    cases hl : lhsLoop [] (sys.map Prod.fst) with
    | ok seen =>
      rw [hl, Res.bind_ok] at h
      obtain ⟨names, h2, h3, -, h4, rfl⟩ := (lhsLoop_ok _ _ _).1 hl
      cases hc : checkVars (names.reverse ++ []) (sys.map Prod.snd) with
      | ok u =>
        rw [hc, Res.bind_ok] at h
        refine ⟨names, by simpa using h1, h2, h3, fun s hs => (reserved_iff s).1 (h4 s hs), ?_, ?_⟩
        · intro p hp s hs
          have := (checkVars_ok _ _).1 hc p.2 (List.mem_map_of_mem hp) s hs
          simpa using this
        · intro e he s hs
          have := (checkVars_ok _ _).1 h e he s hs
          simpa using this
      | throw => rw [hc] at h; cases h
      | ub => rw [hc] at h; cases h
    | throw => rw [hl] at h; cases h
    | ub => rw [hl] at h; cases h
  · rintro ⟨names, h⟩
    rw [if_neg (by simpa using h.nonempty), (lhsLoop_ok _ _ _).2 ⟨names, h.lhs, h.distinct, by simp,
      fun s hs => (reserved_iff s).2 (h.notReserved s hs), rfl⟩, Res.bind_ok, (checkVars_ok _ _).2, Res.bind_ok]
    · rw [checkVars_ok]
      intro e he s hs
      simpa using h.events e he s hs
    · intro e he s hs
      obtain ⟨p, hp, rfl⟩ := List.mem_map.1 he
      simpa using h.rhs p hp s hs

/-- C42: the other systems are rejected with an exception. -/
theorem validate_ode_sys_throws (sys : List (Expr K × Expr K)) (tFuncs ntFuncs : List (Expr K))
    (h : ¬ ∃ names, OdeSysOk sys (tFuncs ++ ntFuncs) names) :
    validateOdeSys sys tFuncs ntFuncs = .throw := by
  rw [← validate_ode_sys_iff] at h
  have hl : ∀ (es : List (Expr K)) (seen : List String), lhsLoop seen es ≠ .ub := by
    intro es
    induction es with
    | nil => intro seen; simp [lhsLoop]
    | cons e es ih =>
      intro seen
      cases e with
      | var s =>
        rw [lhsLoop]
        split_ifs
        · simp
        · simp
        · exact ih _
      | _ => simp [lhsLoop]
  have hc : ∀ (es : List (Expr K)) (seen : List String), checkVars seen es ≠ .ub := by
    intro es seen
    unfold checkVars
    split_ifs <;> simp
  unfold validateOdeSys at h ⊢
  split_ifs at h ⊢ with h1
  · rfl
  · cases h2 : lhsLoop [] (sys.map Prod.fst) with
    | ok seen =>
      rw [h2, Res.bind_ok] at h
      rw [Res.bind_ok]
      cases h3 : checkVars seen (sys.map Prod.snd) with
      | ok u =>
        rw [h3, Res.bind_ok] at h
        rw [Res.bind_ok]
        cases h4 : checkVars seen (tFuncs ++ ntFuncs) with
        | ok u => exact absurd h4 h
        | throw => rfl
        | ub => exact absurd h4 (hc _ _)
      | throw => rfl
      | ub => exact absurd h3 (hc _ _)
    | throw => rfl
    | ub => exact absurd h2 (hl _ _)

/-- A pendulum with an event is accepted; without the second equation it is not. -/
example : validateOdeSys ([(.var "x", .var "v"), (.var "v", .fn (.sin false) [.var "x"])] : List (Expr ℚ × Expr ℚ))
      [.var "v"] [] = .ok () ∧
    validateOdeSys ([(.var "x", .var "v")] : List (Expr ℚ × Expr ℚ)) [] [] = .throw ∧
    validateOdeSys ([(.var "__x", .par 0)] : List (Expr ℚ × Expr ℚ)) [] [] = .throw := by
  refine ⟨?_, ?_, ?_⟩ <;> with_unfolding_all rfl

end Heyoka.Sym
