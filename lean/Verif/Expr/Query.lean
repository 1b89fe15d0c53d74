import Verif.Expr.Heap
import Mathlib.Data.List.Dedup
import Mathlib.Data.List.Sort
import Mathlib.Data.String.Basic

/-!
# Queries: variables, parameters, time dependence
-/

set_option linter.unusedSectionVars false

namespace Heyoka.Sym

variable {K : Type}

/-- `a` is a subexpression of the expression (specification). -/
inductive Expr.Sub (a : Expr K) : Expr K → Prop
  | refl : Expr.Sub a a
  | arg {f : Fn K} {args : List (Expr K)} {b : Expr K} (hb : b ∈ args) (h : Expr.Sub a b) :
      Expr.Sub a (.fn f args)

/-- The visitor of `get_variables()` (`src/expression_basic.cpp` 288-292): the name, for a variable. -/
def leafVar : Expr K → Option String
  | .var s => some s
  | _ => none

/-- The visitor of `get_params()` (`src/expression_basic.cpp` 1064-1068): the index, for a parameter. -/
def leafPar : Expr K → Option Nat
  | .par i => some i
  | _ => none

/-- The elements of an unordered set as a sorted vector (`std::ranges::sort`). -/
def sortedSet {α : Type} [LinearOrder α] (l : List α) : List α :=
  l.dedup.insertionSort (· ≤ ·)

/-- `get_variables()` (`src/expression_basic.cpp` 286-331). -/
def getVariables (fuel : Nat) (ns : List (Node K)) : Option (Res (List String)) :=
  (visitAll fuel [] [] [] ns).map fun r => r.bind fun acc =>
    .ok (sortedSet (acc.filterMap leafVar))

/-- `get_params()` (`src/expression_basic.cpp` 1062-1123): the indices of the returned parameters. -/
def getParams (fuel : Nat) (ns : List (Node K)) : Option (Res (List Nat)) :=
  (visitAll fuel [] [] [] ns).map fun r => r.bind fun acc =>
    .ok (sortedSet (acc.filterMap leafPar))

/-- The visitor of `get_param_size()` (`src/expression_basic.cpp` 1013-1018), with indices up to `M`:
the addition of one is checked. -/
def paramSizeStep (M ret : Nat) : Expr K → Res Nat
  | .par i => (safeAdd M i 1).bind fun t => .ok (max ret t)
  | _ => .ok ret

/-- The successive calls to the visitor of `get_param_size()`. -/
def paramSizeFold (M : Nat) : Nat → List (Expr K) → Res Nat
  | ret, [] => .ok ret
  | ret, e :: es => (paramSizeStep M ret e).bind fun ret => paramSizeFold M ret es

/-- `get_param_size()` (`src/expression_basic.cpp` 1011-1054); `M` is the largest 32-bit integer. The
leaves are visited in the order in which the traversal finds them. -/
def getParamSize (M fuel : Nat) (ns : List (Node K)) : Option (Res Nat) :=
  (visitAll fuel [] [] [] ns).map fun r => r.bind fun acc => paramSizeFold M 0 acc.reverse

/-- The predicate of `is_time_dependent()` (`src/expression_basic.cpp` 1133-1140): `time` is the only
function which says so (`src/math/time.cpp` 204; the default is false, `include/heyoka/func.hpp`
177-185). -/
def isTimeFn : Expr K → Bool
  | .fn .time _ => true
  | _ => false

/-- `is_time_dependent()` (`src/expression_basic.cpp` 1131-1172). -/
def isTimeDependent (fuel : Nat) (ns : List (Node K)) : Option (Res Bool) :=
  anyAll isTimeFn fuel [] [] ns

/-! ### Lemmas -/

theorem mem_sortedSet {α : Type} [LinearOrder α] {l : List α} {a : α} :
    a ∈ sortedSet l ↔ a ∈ l := by
  rw [sortedSet, List.mem_insertionSort, List.mem_dedup]

theorem sortedSet_pairwise {α : Type} [LinearOrder α] (l : List α) :
    (sortedSet l).Pairwise (· < ·) := by
  have h1 : (sortedSet l).Pairwise (· ≤ ·) := List.pairwise_insertionSort _ _
  have h2 : (sortedSet l).Nodup := (List.perm_insertionSort _ _).nodup_iff.2 (List.nodup_dedup l)
  exact (h1.and h2).imp fun h => lt_of_le_of_ne h.1 h.2

theorem mem_leavesL {x : Expr K} {es : List (Expr K)} :
    x ∈ Expr.leavesL es ↔ ∃ e ∈ es, x ∈ Expr.leaves e := by
  induction es with
  | nil => simp [Expr.leavesL]
  | cons e es ih => simp [Expr.leavesL, ih]

/-- The leaves are the subexpressions which are not functions. -/
theorem mem_leaves {x : Expr K} (e : Expr K) :
    x ∈ Expr.leaves e ↔ Expr.Sub x e ∧ x.isFn = false := by
  induction e using Expr.ind with
  | num n =>
    simp only [Expr.leaves, List.mem_singleton]
    exact ⟨by rintro rfl; exact ⟨.refl, rfl⟩, by rintro ⟨h, -⟩; cases h; rfl⟩
  | var n =>
    simp only [Expr.leaves, List.mem_singleton]
    exact ⟨by rintro rfl; exact ⟨.refl, rfl⟩, by rintro ⟨h, -⟩; cases h; rfl⟩
  | par n =>
    simp only [Expr.leaves, List.mem_singleton]
    exact ⟨by rintro rfl; exact ⟨.refl, rfl⟩, by rintro ⟨h, -⟩; cases h; rfl⟩
  | fn f args ih =>
    rw [Expr.leaves, mem_leavesL]
    constructor
    · rintro ⟨e, he, hx⟩
      obtain ⟨h1, h2⟩ := (ih e he).1 hx
      exact ⟨.arg he h1, h2⟩
    · rintro ⟨h, h2⟩
      cases h with
      | refl => simp [Expr.isFn] at h2
      | arg hb h => exact ⟨_, hb, (ih _ hb).2 ⟨h, h2⟩⟩

theorem anyNodeL_iff {p : Expr K → Bool} {es : List (Expr K)} :
    Expr.anyNodeL p es = true ↔ ∃ e ∈ es, Expr.anyNode p e = true := by
  induction es with
  | nil => simp [Expr.anyNodeL]
  | cons e es ih => simp [Expr.anyNodeL, ih]

/-- `anyNode` tells if some subexpression satisfies the predicate. -/
theorem anyNode_iff {p : Expr K → Bool} (e : Expr K) :
    Expr.anyNode p e = true ↔ ∃ a, Expr.Sub a e ∧ p a = true := by
  induction e using Expr.ind with
  | num n =>
    rw [Expr.anyNode]
    exact ⟨fun h => ⟨_, .refl, h⟩, by rintro ⟨a, h, hp⟩; cases h; exact hp⟩
  | var n =>
    rw [Expr.anyNode]
    exact ⟨fun h => ⟨_, .refl, h⟩, by rintro ⟨a, h, hp⟩; cases h; exact hp⟩
  | par n =>
    rw [Expr.anyNode]
    exact ⟨fun h => ⟨_, .refl, h⟩, by rintro ⟨a, h, hp⟩; cases h; exact hp⟩
  | fn f args ih =>
    rw [Expr.anyNode, Bool.or_eq_true, anyNodeL_iff]
    constructor
    · rintro (h | ⟨e, he, h⟩)
      · exact ⟨_, .refl, h⟩
      · obtain ⟨a, ha, hp⟩ := (ih e he).1 h
        exact ⟨a, .arg he ha, hp⟩
    · rintro ⟨a, h, hp⟩
      cases h with
      | refl => exact .inl hp
      | arg hb h => exact .inr ⟨_, hb, (ih _ hb).2 ⟨a, h, hp⟩⟩

theorem paramSizeFold_eq (M : Nat) (es : List (Expr K)) (ret : Nat) :
    (∃ i, Expr.par i ∈ es ∧ M < i + 1 ∧ paramSizeFold M ret es = .throw) ∨
    ((∀ i, Expr.par i ∈ es → i + 1 ≤ M) ∧ ∃ n, paramSizeFold M ret es = .ok n ∧ ret ≤ n ∧
      (∀ i, Expr.par i ∈ es → i < n) ∧ (n = ret ∨ ∃ i, Expr.par i ∈ es ∧ n = i + 1)) := by
  induction es generalizing ret with
  | nil => exact .inr ⟨by simp, ret, by simp [paramSizeFold]⟩
  | cons e es ih =>
    have skip : (∀ i, e ≠ .par i) → paramSizeFold M ret (e :: es) = paramSizeFold M ret es := by
      intro h
      cases e with
      | par i => exact absurd rfl (h i)
      | _ => simp [paramSizeFold, paramSizeStep]
    by_cases hp : ∃ i, e = .par i
    · obtain ⟨i, rfl⟩ := hp
      by_cases hi : i + 1 ≤ M
      · have hstep : paramSizeFold M ret (.par i :: es) = paramSizeFold M (max ret (i + 1)) es := by
          simp [paramSizeFold, paramSizeStep, safeAdd, hi]
        rw [hstep]
        rcases ih (max ret (i + 1)) with ⟨j, hj, hM, h⟩ | ⟨hall, n, hn, hle, hlt, heq⟩
        · exact .inl ⟨j, List.mem_cons_of_mem _ hj, hM, h⟩
        · refine .inr ⟨?_, n, hn, by omega, ?_, ?_⟩
          · intro j hj
            rcases List.mem_cons.1 hj with h | h
            · cases h; exact hi
            · exact hall j h
          · intro j hj
            rcases List.mem_cons.1 hj with h | h
            · cases h; omega
            · exact hlt j h
          · rcases heq with h | ⟨j, hj, h⟩
            · rcases max_cases ret (i + 1) with ⟨h', -⟩ | ⟨h', -⟩
              · exact .inl (by omega)
              · exact .inr ⟨i, List.mem_cons_self, by omega⟩
            · exact .inr ⟨j, List.mem_cons_of_mem _ hj, h⟩
      · exact .inl ⟨i, List.mem_cons_self, by omega,
          by simp [paramSizeFold, paramSizeStep, safeAdd, hi]⟩
    · have hne : ∀ i, e ≠ .par i := fun i h => hp ⟨i, h⟩
      rw [skip hne]
      have hm : ∀ i, Expr.par i ∈ e :: es ↔ Expr.par i ∈ es := by
        intro i
        simp only [List.mem_cons, or_iff_right_iff_imp]
        exact fun h => absurd h.symm (hne i)
      simp only [hm]
      exact ih ret

section
variable [Field K] [LinearOrder K] [Interp K]

/-- The value of an expression only depends on the variables, the parameters and the time occurring
in it. -/
theorem eval_congr (e : Expr K) (v w : Env K)
    (hvar : ∀ s, Expr.Sub (.var s) e → v.var s = w.var s)
    (hpar : ∀ i, Expr.Sub (.par i) e → v.par i = w.par i)
    (htime : (∃ as, Expr.Sub (.fn .time as) e) → v.time = w.time) : e.eval v = e.eval w := by
  induction e using Expr.ind with
  | num n => simp
  | var s => simp [hvar s .refl]
  | par i => simp [hpar i .refl]
  | fn f args ih =>
    by_cases ht : f ≠ .time ∨ args ≠ []
    · rw [Expr.eval_fn _ _ _ ht, Expr.eval_fn _ _ _ ht]
      congr 1
      have h : ∀ a ∈ args, a.eval v = a.eval w := fun a ha => ih a ha
        (fun s h => hvar s (.arg ha h)) (fun i h => hpar i (.arg ha h))
        (fun ⟨as, h⟩ => htime ⟨as, .arg ha h⟩)
      clear hvar hpar htime ih ht
      induction args with
      | nil => simp
      | cons a as iha =>
        rw [Expr.evalL_cons, Expr.evalL_cons, h a List.mem_cons_self,
          iha fun b hb => h b (List.mem_cons_of_mem _ hb)]
    · push Not at ht
      obtain ⟨rfl, rfl⟩ := ht
      simp [htime ⟨[], .refl⟩]

end

end Heyoka.Sym
