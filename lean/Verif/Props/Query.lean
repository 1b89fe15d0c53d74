import Verif.Expr.Query
import Verif.Props.Traverse

/-!
# C05: the queries are exact

`Expr.Sub a e` is "`a` is a subexpression of `e`". The expressions are given by references into a
heap (arbitrary sharing), as in C04.
-/

set_option linter.unusedSectionVars false

namespace Heyoka.Sym

variable {K : Type}

/-- C05: `get_variables()` returns, in strictly increasing order, the names of the variables occurring
in the expressions. -/
theorem get_variables_exact (h : Heap K) (hv : h.Valid) (roots : List (Ref K))
    (hr : ∀ r ∈ roots, r.Below h.length) :
    ∃ N names, (∀ fuel, N ≤ fuel → getVariables fuel (roots.map h.unfold) = some (.ok names)) ∧
      names.Pairwise (· < ·) ∧
      ∀ s, s ∈ names ↔ ∃ r ∈ roots, Expr.Sub (.var s) (h.unfold r).toExpr := by
  obtain ⟨N, acc, hN, hx⟩ := visit_leaves_exact h hv roots hr
  refine ⟨N, sortedSet (acc.filterMap leafVar), fun fuel hf => ?_, sortedSet_pairwise _, ?_⟩
  · simp [getVariables, hN fuel hf]
  · intro s
    rw [mem_sortedSet, List.mem_filterMap]
    constructor
    · rintro ⟨a, ha, hs⟩
      cases a with
      | var t =>
        simp only [leafVar, Option.some.injEq] at hs
        subst hs
        obtain ⟨r, hr', h'⟩ := (hx _).1 ha
        exact ⟨r, hr', ((mem_leaves _).1 h').1⟩
      | _ => simp [leafVar] at hs
    · rintro ⟨r, hr', h'⟩
      exact ⟨.var s, (hx _).2 ⟨r, hr', (mem_leaves _).2 ⟨h', rfl⟩⟩, rfl⟩

/-- C05: `get_params()` returns, in strictly increasing order of the indices, the parameters occurring
in the expressions. -/
theorem get_params_exact (h : Heap K) (hv : h.Valid) (roots : List (Ref K))
    (hr : ∀ r ∈ roots, r.Below h.length) :
    ∃ N idx, (∀ fuel, N ≤ fuel → getParams fuel (roots.map h.unfold) = some (.ok idx)) ∧
      idx.Pairwise (· < ·) ∧
      ∀ i, i ∈ idx ↔ ∃ r ∈ roots, Expr.Sub (.par i) (h.unfold r).toExpr := by
  obtain ⟨N, acc, hN, hx⟩ := visit_leaves_exact h hv roots hr
  refine ⟨N, sortedSet (acc.filterMap leafPar), fun fuel hf => ?_, sortedSet_pairwise _, ?_⟩
  · simp [getParams, hN fuel hf]
  · intro s
    rw [mem_sortedSet, List.mem_filterMap]
    constructor
    · rintro ⟨a, ha, hs⟩
      cases a with
      | par t =>
        simp only [leafPar, Option.some.injEq] at hs
        subst hs
        obtain ⟨r, hr', h'⟩ := (hx _).1 ha
        exact ⟨r, hr', ((mem_leaves _).1 h').1⟩
      | _ => simp [leafPar] at hs
    · rintro ⟨r, hr', h'⟩
      exact ⟨.par s, (hx _).2 ⟨r, hr', (mem_leaves _).2 ⟨h', rfl⟩⟩, rfl⟩

/-- C05: `get_param_size()` is the smallest size covering the index of every parameter occurring in
the expressions; it throws exactly if the largest index is the largest integer. -/
theorem get_param_size_exact (M : Nat) (h : Heap K) (hv : h.Valid) (roots : List (Ref K))
    (hr : ∀ r ∈ roots, r.Below h.length) :
    ∃ N, ((∃ i, M < i + 1 ∧ ∃ r ∈ roots, Expr.Sub (.par i) (h.unfold r).toExpr) ∧
        ∀ fuel, N ≤ fuel → getParamSize M fuel (roots.map h.unfold) = some .throw) ∨
      ((¬ ∃ i, M < i + 1 ∧ ∃ r ∈ roots, Expr.Sub (.par i) (h.unfold r).toExpr) ∧
        ∃ n, (∀ fuel, N ≤ fuel → getParamSize M fuel (roots.map h.unfold) = some (.ok n)) ∧
          IsLeast {n | ∀ i, (∃ r ∈ roots, Expr.Sub (.par i) (h.unfold r).toExpr) → i < n} n) := by
  obtain ⟨N, acc, hN, hx⟩ := visit_leaves_exact h hv roots hr
  have hmem : ∀ i, Expr.par i ∈ acc.reverse ↔
      ∃ r ∈ roots, Expr.Sub (.par i) (h.unfold r).toExpr := by
    intro i
    rw [List.mem_reverse, hx]
    exact exists_congr fun r => and_congr_right fun _ =>
      (mem_leaves _).trans ⟨fun h => h.1, fun h => ⟨h, rfl⟩⟩
  refine ⟨N, ?_⟩
  rcases paramSizeFold_eq M acc.reverse 0 with ⟨i, hi, hM, ht⟩ | ⟨hall, n, hn, -, hlt, heq⟩
  · exact .inl ⟨⟨i, hM, (hmem i).1 hi⟩, fun fuel hf => by simp [getParamSize, hN fuel hf, ht]⟩
  · refine .inr ⟨?_, n, fun fuel hf => by simp [getParamSize, hN fuel hf, hn], ?_, ?_⟩
    · rintro ⟨i, hM, hi⟩
      have := hall i ((hmem i).2 hi)
      omega
    · exact fun i hi => hlt i ((hmem i).2 hi)
    · intro m hm
      rcases heq with rfl | ⟨i, hi, rfl⟩
      · exact Nat.zero_le _
      · exact hm i ((hmem i).1 hi)

/-- C05: `is_time_dependent()` tells if the time occurs in the expressions. -/
theorem is_time_dependent_exact (h : Heap K) (hv : h.Valid) (roots : List (Ref K))
    (hr : ∀ r ∈ roots, r.Below h.length) :
    ∃ N b, (∀ fuel, N ≤ fuel → isTimeDependent fuel (roots.map h.unfold) = some (.ok b)) ∧
      (b = true ↔ ∃ r ∈ roots, ∃ as, Expr.Sub (.fn .time as) (h.unfold r).toExpr) := by
  obtain ⟨N, hN⟩ := test_any_exact isTimeFn h hv roots hr
  refine ⟨N, _, hN, ?_⟩
  rw [List.any_eq_true]
  refine exists_congr fun r => and_congr_right fun _ => (anyNode_iff _).trans ⟨?_, ?_⟩
  · rintro ⟨a, ha, hp⟩
    cases a with
    | fn f as =>
      cases f with
      | time => exact ⟨as, ha⟩
      | _ => simp [isTimeFn] at hp
    | _ => simp [isTimeFn] at hp
  · rintro ⟨as, ha⟩
    exact ⟨_, ha, rfl⟩

/-- C05, the frame property: changing variables that are not reported by `get_variables()`,
parameters beyond `get_param_size()` or not reported by `get_params()`, and the time if
`is_time_dependent()` is false does not change the values of the expressions. -/
theorem queries_frame [Field K] [LinearOrder K] [Interp K] (M : Nat) (h : Heap K) (hv : h.Valid)
    (roots : List (Ref K)) (hr : ∀ r ∈ roots, r.Below h.length)
    (fuel : Nat) (names : List String) (idx : List Nat) (n : Nat) (b : Bool)
    (hfuel : ∀ f, fuel ≤ f → getVariables f (roots.map h.unfold) = some (.ok names) ∧
      getParams f (roots.map h.unfold) = some (.ok idx) ∧
      getParamSize M f (roots.map h.unfold) = some (.ok n) ∧
      isTimeDependent f (roots.map h.unfold) = some (.ok b))
    (v w : Env K) (hvar : ∀ s ∈ names, v.var s = w.var s)
    (hpar : ∀ i ∈ idx, i < n → v.par i = w.par i) (htime : b = true → v.time = w.time) :
    ∀ r ∈ roots, (h.unfold r).toExpr.eval v = (h.unfold r).toExpr.eval w := by
  obtain ⟨N1, names', h1, -, hn⟩ := get_variables_exact h hv roots hr
  obtain ⟨N2, idx', h2, -, hi⟩ := get_params_exact h hv roots hr
  obtain ⟨N3, h3⟩ := get_param_size_exact M h hv roots hr
  obtain ⟨N4, b', h4, hb⟩ := is_time_dependent_exact h hv roots hr
  have hm := hfuel (max fuel (max (max N1 N2) (max N3 N4))) (le_max_left _ _)
  rw [h1 _ (by omega), h2 _ (by omega), h4 _ (by omega)] at hm
  obtain ⟨e1, e2, e3, e4⟩ := hm
  obtain rfl : names' = names := by simpa using e1
  obtain rfl : idx' = idx := by simpa using e2
  obtain rfl : b' = b := by simpa using e4
  have hlt : ∀ i ∈ idx', i < n := by
    rcases h3 with ⟨-, h3⟩ | ⟨-, m, h3, hleast⟩
    · rw [h3 _ (by omega)] at e3; simp at e3
    · rw [h3 _ (by omega)] at e3
      obtain rfl : m = n := by simpa using e3
      exact fun i him => hleast.1 i ((hi i).1 him)
  intro r hrr
  refine eval_congr _ v w ?_ ?_ ?_
  · exact fun s hs => hvar s ((hn s).2 ⟨r, hrr, hs⟩)
  · intro i hs
    have him := (hi i).2 ⟨r, hrr, hs⟩
    exact hpar i him (hlt i him)
  · rintro ⟨as, hs⟩
    exact htime (hb.2 ⟨r, hrr, as, hs⟩)

/-! ### A concrete case -/

example : getVariables 20 [exampleHeap.unfold (.obj 3), exampleHeap.unfold (.var "a")] =
    some (.ok ["a", "x"]) := by decide +kernel

example : getParamSize 4294967295 20 [exampleHeap.unfold (.obj 3)] = some (.ok 1) := by
  decide +kernel

example : getParamSize 4294967295 20 [exampleHeap.unfold (.par 4294967295)] = some .throw := by
  decide +kernel

example : isTimeDependent 20 [exampleHeap.unfold (.obj 3)] = some (.ok false) := by decide +kernel

end Heyoka.Sym
