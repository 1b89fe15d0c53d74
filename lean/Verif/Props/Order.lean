import Verif.Expr.OrderNode
import Verif.Expr.Real
import Verif.Props.Traverse

/-!
# C07: equality, ordering and hashing of numbers and expressions are coherent

`Num.beq`, `Num.blt`, `Num.hash` are `operator==`, `operator<` and `hash()` on numbers; `Node.beq`,
`Node.blt` are `operator==` and `std::less` on expressions, with the shortcuts for identical objects
and shared argument lists; `Hashers.trav` is the traversal computing the hash of an expression.
-/

set_option linter.unusedSectionVars false

namespace Heyoka.Sym

variable {K : Type} [Field K] [LinearOrder K] [FmtName K]

/-! ### Numbers -/

/-- `==` on numbers is an equivalence relation, also on NaNs. -/
theorem number_eq_equivalence :
    (∀ a : Num K, a.beq a = true) ∧
    (∀ a b : Num K, a.beq b = true → b.beq a = true) ∧
    (∀ a b c : Num K, a.beq b = true → b.beq c = true → a.beq c = true) := by
  simp only [Num.beq_iff]
  exact ⟨fun _ => trivial, fun _ _ h => h.symm, fun _ _ _ h h' => h.trans h'⟩

/-- `<` on numbers is a strict total order for `==`: exactly one of `a < b`, `a == b`, `b < a` holds,
and `<` is transitive. -/
theorem number_lt_strict_total :
    (∀ a b : Num K,
      (a.blt b = true ∧ a.beq b = false ∧ b.blt a = false) ∨
      (a.blt b = false ∧ a.beq b = true ∧ b.blt a = false) ∨
      (a.blt b = false ∧ a.beq b = false ∧ b.blt a = true)) ∧
    (∀ a b c : Num K, a.blt b = true → b.blt c = true → a.blt c = true) := by
  constructor
  · intro a b
    simp only [← Bool.not_eq_true, Num.beq_iff, Num.blt_iff]
    rcases lt_trichotomy a.key b.key with h | h | h
    · exact .inl ⟨h, h.ne, h.not_gt⟩
    · exact .inr (.inl ⟨h.not_lt, h, h.not_gt⟩)
    · exact .inr (.inr ⟨h.not_gt, h.ne', h⟩)
  · simp only [Num.blt_iff]
    exact fun _ _ _ h h' => h.trans h'

/-- Equal numbers have equal hashes, NaNs and signed zeros included. -/
theorem number_hash_of_eq (H : Hashers K) (hH : H.Ok) (a b : Num K) (h : a.beq b = true) :
    a.hash H.fp H.nat = b.hash H.fp H.nat := Hashers.num_of_beq hH h

/-- A number equals itself up to its type: NaN equals NaN of the same type only, the two zeros are
equal, and a `float` never equals a `double`. -/
theorem number_eq_cases (s t : NumTy) (x y : FVal K) :
    (⟨s, x⟩ : Num K).beq ⟨t, y⟩ = true ↔
      s = t ∧ (x = y ∨ (x = .nzero ∧ y = .fin 0) ∨ (x = .fin 0 ∧ y = .nzero)) := by
  by_cases hst : s = t
  · subst hst
    cases x <;> cases y <;> simp [Num.beq, FVal.isNan, FVal.feq, FVal.isZero]
  · simp [Num.beq, hst]

example : (⟨.dbl, .nan⟩ : Num ℚ).beq ⟨.dbl, .nan⟩ = true := by decide +kernel
example : (⟨.dbl, .nzero⟩ : Num ℚ).beq ⟨.dbl, .fin 0⟩ = true := by decide +kernel
example : (⟨.dbl, .nan⟩ : Num ℚ).blt ⟨.dbl, .fin 0⟩ = false ∧
    (⟨.dbl, .fin 0⟩ : Num ℚ).blt ⟨.dbl, .nan⟩ = true := by decide +kernel

/-! ### Expressions -/

/-- The shortcuts do not change the result of the comparison: on every heap, comparing two
expressions amounts to comparing the trees they stand for. -/
theorem comparison_eq_recursion (h : Heap K) (hv : h.Valid) (r s : Ref K) (hr : r.Below h.length)
    (hs : s.Below h.length) :
    (h.unfold r).beq (h.unfold s) = (h.unfold r).toExpr.beq (h.unfold s).toExpr ∧
    (h.unfold r).blt (h.unfold s) = (h.unfold r).toExpr.blt (h.unfold s).toExpr :=
  ⟨Node.beq_eq (Heap.consistent hv) ⟨r, hr, rfl⟩ ⟨s, hs, rfl⟩,
   Node.blt_eq (Heap.consistent hv) ⟨r, hr, rfl⟩ ⟨s, hs, rfl⟩⟩

/-- `==` on expressions is an equivalence relation. -/
theorem expression_eq_equivalence (h : Heap K) (hv : h.Valid) (r s t : Ref K)
    (hr : r.Below h.length) (hs : s.Below h.length) (ht : t.Below h.length) :
    (h.unfold r).beq (h.unfold r) = true ∧
    ((h.unfold r).beq (h.unfold s) = true → (h.unfold s).beq (h.unfold r) = true) ∧
    ((h.unfold r).beq (h.unfold s) = true → (h.unfold s).beq (h.unfold t) = true →
      (h.unfold r).beq (h.unfold t) = true) := by
  have e := fun {a b : Ref K} (ha hb) => (comparison_eq_recursion h hv a b ha hb).1
  rw [e hr hr, e hr hs, e hs hr, e hs ht, e hr ht]
  simp only [Expr.beq_iff]
  refine ⟨Expr.cmp_self_eq _, fun h => by rw [Expr.cmp_swap, h]; rfl, fun h1 h2 => ?_⟩
  have := Expr.cmp_tc (h.unfold r).toExpr (h.unfold s).toExpr (h.unfold t).toExpr
  rw [h1, h2] at this
  simpa [TC] using this

/-- `<` on expressions is a strict order that is total up to `==`: exactly one of `a < b`, `a == b`,
`b < a` holds, and `<` is transitive. In particular it is a strict weak order whose equivalence is
`==`. -/
theorem expression_lt_strict_weak (h : Heap K) (hv : h.Valid) (r s t : Ref K)
    (hr : r.Below h.length) (hs : s.Below h.length) (ht : t.Below h.length) :
    (((h.unfold r).blt (h.unfold s) = true ∧ (h.unfold r).beq (h.unfold s) = false ∧
        (h.unfold s).blt (h.unfold r) = false) ∨
      ((h.unfold r).blt (h.unfold s) = false ∧ (h.unfold r).beq (h.unfold s) = true ∧
        (h.unfold s).blt (h.unfold r) = false) ∨
      ((h.unfold r).blt (h.unfold s) = false ∧ (h.unfold r).beq (h.unfold s) = false ∧
        (h.unfold s).blt (h.unfold r) = true)) ∧
    ((h.unfold r).blt (h.unfold s) = true → (h.unfold s).blt (h.unfold t) = true →
      (h.unfold r).blt (h.unfold t) = true) := by
  have e := fun {a b : Ref K} (ha hb) => (comparison_eq_recursion h hv a b ha hb).1
  have l := fun {a b : Ref K} (ha hb) => (comparison_eq_recursion h hv a b ha hb).2
  rw [e hr hs, l hr hs, l hs hr, l hs ht, l hr ht]
  constructor
  · simp only [← Bool.not_eq_true, Expr.beq_iff, Expr.blt_iff]
    rw [Expr.cmp_swap (h.unfold r).toExpr (h.unfold s).toExpr]
    cases (h.unfold r).toExpr.cmp (h.unfold s).toExpr <;> simp
  · simp only [Expr.blt_iff]
    intro h1 h2
    have := Expr.cmp_tc (h.unfold r).toExpr (h.unfold s).toExpr (h.unfold t).toExpr
    rw [h1, h2] at this
    simpa [TC] using this

/-- Replacing one side of `<` by an equal expression does not change the result. -/
theorem expression_lt_congr (h : Heap K) (hv : h.Valid) (r r' s : Ref K)
    (hr : r.Below h.length) (hr' : r'.Below h.length) (hs : s.Below h.length)
    (he : (h.unfold r).beq (h.unfold r') = true) :
    (h.unfold r).blt (h.unfold s) = (h.unfold r').blt (h.unfold s) ∧
    (h.unfold s).blt (h.unfold r) = (h.unfold s).blt (h.unfold r') := by
  have l := fun {a b : Ref K} (ha hb) => (comparison_eq_recursion h hv a b ha hb).2
  rw [(comparison_eq_recursion h hv r r' hr hr').1, Expr.beq_iff] at he
  rw [l hr hs, l hr' hs, l hs hr, l hs hr']
  have h1 := Expr.cmp_tc (h.unfold r).toExpr (h.unfold r').toExpr (h.unfold s).toExpr
  have h2 := Expr.cmp_tc (h.unfold r').toExpr (h.unfold r).toExpr (h.unfold s).toExpr
  have he' : (h.unfold r').toExpr.cmp (h.unfold r).toExpr = .eq := by
    rw [Expr.cmp_swap, he]; rfl
  have key : (h.unfold r).toExpr.cmp (h.unfold s).toExpr =
      (h.unfold r').toExpr.cmp (h.unfold s).toExpr := by
    rw [he] at h1
    revert h1
    cases (h.unfold r).toExpr.cmp (h.unfold s).toExpr <;>
      cases (h.unfold r').toExpr.cmp (h.unfold s).toExpr <;> simp [TC]
  constructor
  · rw [Bool.eq_iff_iff, Expr.blt_iff, Expr.blt_iff, key]
  · rw [Bool.eq_iff_iff, Expr.blt_iff, Expr.blt_iff, Expr.cmp_swap (h.unfold r).toExpr, key,
      Expr.cmp_swap (h.unfold r').toExpr]

/-- Equal expressions have equal hashes: the traversals computing the hashes of two equal expressions
end with the same value, whatever the sharing in the two graphs. -/
theorem expression_hash_of_eq (H : Hashers K) (hH : H.Ok) (h h' : Heap K) (hv : h.Valid)
    (hv' : h'.Valid) (r s : Ref K) (hr : r.Below h.length) (hs : s.Below h'.length)
    (he : (h.unfold r).toExpr.beq (h'.unfold s).toExpr = true) :
    ∃ N x, ∀ fuel, N ≤ fuel →
      H.trav.runAll fuel [] [] [h.unfold r] = some (.ok [x]) ∧
      H.trav.runAll fuel [] [] [h'.unfold s] = some (.ok [x]) := by
  obtain ⟨N, hN⟩ := traversal_eq_recursion H.trav h hv [r] (by simpa using hr)
  obtain ⟨M, hM⟩ := traversal_eq_recursion H.trav h' hv' [s] (by simpa using hs)
  refine ⟨max N M, H.expr (h.unfold r).toExpr, fun fuel hf => ⟨?_, ?_⟩⟩
  · rw [show [h.unfold r] = [r].map h.unfold from rfl, hN fuel (le_trans (le_max_left _ _) hf)]
    simp [Res.all, Hashers.naive_eq]
  · rw [show [h'.unfold s] = [s].map h'.unfold from rfl, hM fuel (le_trans (le_max_right _ _) hf)]
    simp [Res.all, Hashers.naive_eq, Hashers.expr_of_beq_aux hH _ _ _ (le_refl _) he]

/-- Equal expressions have equal values at every point, provided that functions of equal names have
the same meaning. -/
theorem expression_value_of_eq [Interp K] {P : Fn K → Prop} (hP : NameSound P) (v : Env K)
    (a b : Expr K) (ha : a.FnAll P) (hb : b.FnAll P) (h : a.beq b = true) : a.eval v = b.eval v :=
  Expr.eval_of_beq_aux hP v _ a b (le_refl _) ha hb h

/-- The functions of the library whose names contain no user-supplied part. -/
def Fn.builtin : Fn K → Prop
  | .relu _ => False | .relup _ => False | .const _ => False | .dfun _ _ => False
  | .other _ => False
  | _ => True

/-- A function symbol up to the parts not entering its name. -/
def Fn.norm : Fn K → Fn K
  | .prod _ => .prod false
  | .pow _ => .pow .general
  | f => f

/-- The function symbols by name. -/
def builtinTable : List (String × Fn K) :=
  [("sum", .sum),
   ("prod", (.prod false)),
   ("pow", .pow .general),
   ("sub", .sub),
   ("div", .div),
   ("sum_sq", .sumSq),
   ("sin", .sin false),
   ("combined_sin", .sin true),
   ("cos", .cos false),
   ("combined_cos", .cos true),
   ("tan", .tan),
   ("asin", .asin),
   ("acos", .acos),
   ("atan", .atan),
   ("atan2", .atan2),
   ("sinh", .sinh),
   ("cosh", .cosh),
   ("tanh", .tanh),
   ("asinh", .asinh),
   ("acosh", .acosh),
   ("atanh", .atanh),
   ("erf", .erf),
   ("exp", .exp),
   ("log", .log),
   ("sigmoid", .sigmoid),
   ("select", .select),
   ("rel_eq", (.rel .eq)),
   ("rel_neq", (.rel .neq)),
   ("rel_lt", (.rel .lt)),
   ("rel_gt", (.rel .gt)),
   ("rel_lte", (.rel .lte)),
   ("rel_gte", (.rel .gte)),
   ("logical_and", .land),
   ("logical_or", .lor),
   ("time", .time),
   ("kepE", .kepE),
   ("kepF", .kepF),
   ("kepDE", .kepDE),
   ("num_identity", .numId)]

theorem builtin_table (f : Fn K) (hf : f.builtin) :
    (builtinTable (K := K)).lookup f.name = some f.norm := by
  cases f <;> simp only [Fn.builtin] at hf
  case sin c => cases c <;> simp [builtinTable, Fn.name, Fn.norm, List.lookup]
  case cos c => cases c <;> simp [builtinTable, Fn.name, Fn.norm, List.lookup]
  case rel op => cases op <;> simp [builtinTable, Fn.name, Fn.norm, List.lookup, RelOp.name]
  all_goals simp [builtinTable, Fn.name, Fn.norm, List.lookup]

/-- The names of the functions of the library determine their meaning over the reals. -/
theorem builtin_name_sound [DFunc] [FmtName ℝ] : NameSound (Fn.builtin (K := ℝ)) := by
  intro f g hf hg h
  have hn : f.norm = g.norm := by
    have h1 := builtin_table f hf
    rw [h, builtin_table g hg] at h1
    exact (Option.some.inj h1).symm
  have happ : ∀ f : Fn ℝ, Interp.app f = Interp.app f.norm := by
    intro f
    funext xs
    rw [app_def, app_def]
    cases f <;> first | rfl | (unfold Fn.norm realApp; split <;> simp_all)
  have htime : ∀ f : Fn ℝ, f = .time ↔ f.norm = .time := by
    intro f
    cases f <;> simp [Fn.norm]
  exact ⟨by rw [happ f, happ g, hn], by rw [htime f, htime g, hn]⟩

/-- A printing of the slopes, for the examples. -/
instance exampleFmt : FmtName ℚ := ⟨fun q => toString q⟩

/-- The two functions of the example heap sharing their arguments differ, and `prod < sum` by name. -/
example : (exampleHeap.unfold (.obj 1)).beq (exampleHeap.unfold (.obj 2)) = false ∧
    (exampleHeap.unfold (.obj 1)).blt (exampleHeap.unfold (.obj 2)) = true ∧
    (exampleHeap.unfold (.obj 2)).blt (exampleHeap.unfold (.obj 1)) = false := by decide +kernel

/-- User-defined constants (and functions) are compared by name only: objects of different kinds with
the same name are equal although their meaning differs. The hypothesis on the names in
`expression_value_of_eq` is needed. -/
example : (Expr.fn (.const "pi") [] : Expr ℚ).beq (.fn (.other "pi") []) = true := by decide +kernel

end Heyoka.Sym
