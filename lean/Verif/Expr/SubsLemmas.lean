import Verif.Expr.Query
import Verif.Expr.OrderNode

/-! # Substitution: the map from expressions, lemmas -/

set_option linter.unusedSectionVars false

namespace Heyoka.Sym

variable {K : Type} [Field K] [LinearOrder K]

theorem Expr.evalL_congr_map [Interp K] {v w : Env K} {g : Expr K → Expr K} {es : List (Expr K)}
    (h : ∀ e ∈ es, (g e).eval v = e.eval w) : Expr.evalL v (es.map g) = Expr.evalL w es := by
  induction es with
  | nil => simp
  | cons e es ih =>
    rw [List.map_cons, Expr.evalL_cons, Expr.evalL_cons, h e List.mem_cons_self,
      ih fun a ha => h a (List.mem_cons_of_mem _ ha)]

theorem Expr.evalL_none [Interp K] {v : Env K} {es : List (Expr K)} {e : Expr K} (he : e ∈ es)
    (h : e.eval v = none) : Expr.evalL v es = none := by
  induction es with
  | nil => simp at he
  | cons a es ih =>
    rw [Expr.evalL_cons]
    rcases List.mem_cons.1 he with rfl | he
    · rw [h]; rfl
    · rw [ih he]; cases a.eval v <;> rfl

/-- Mapping the arguments of a function without changing their values. -/
theorem Expr.eval_fn_congr [Interp K] {v w : Env K} (ht : v.time = w.time) (f : Fn K)
    {g : Expr K → Expr K} {args : List (Expr K)} (h : ∀ e ∈ args, (g e).eval v = e.eval w) :
    (Expr.fn f (args.map g)).eval v = (Expr.fn f args).eval w := by
  by_cases hf : f ≠ .time ∨ args ≠ []
  · rw [Expr.eval_fn _ _ _ hf, Expr.eval_fn, Expr.evalL_congr_map h]
    rcases hf with hf | hf
    · exact .inl hf
    · exact .inr (by simpa using hf)
  · push Not at hf
    obtain ⟨rfl, rfl⟩ := hf
    simp [ht]

variable [FmtName K]

/-- `std::map::find()` in the substitution map (`src/expression_basic.cpp` 814): the entry whose key
is equivalent to the expression, that is, neither smaller nor larger. The map is given by its
entries. -/
def mapFind (m : List (Expr K × Expr K)) (e : Expr K) : Option (Expr K) :=
  (m.find? fun p => !p.1.blt e && !e.blt p.1).map (·.2)

theorem mapFind_some {m : List (Expr K × Expr K)} {e r : Expr K} (h : mapFind m e = some r) :
    ∃ k, (k, r) ∈ m ∧ k.beq e = true := by
  simp only [mapFind, Option.map_eq_some_iff] at h
  obtain ⟨⟨k, r'⟩, h, rfl⟩ := h
  refine ⟨k, List.mem_of_find?_eq_some h, ?_⟩
  have := List.find?_some h
  simp only [Bool.and_eq_true, Bool.not_eq_true', Bool.eq_false_iff, ne_eq, Expr.blt_iff] at this
  rw [Expr.beq_iff]
  have h2 := this.2
  rw [Expr.cmp_swap k e] at h2
  have h1 := this.1
  cases hc : k.cmp e <;> simp [hc] at h1 h2 ⊢

theorem mapFind_none {m : List (Expr K × Expr K)} {e : Expr K} (h : mapFind m e = none) :
    ∀ p ∈ m, p.1.beq e = false := by
  simp only [mapFind, Option.map_eq_none_iff, List.find?_eq_none] at h
  intro p hp
  rw [Bool.eq_false_iff]
  intro hb
  rw [Expr.beq_iff] at hb
  apply h p hp
  simp only [Bool.and_eq_true, Bool.not_eq_true', Bool.eq_false_iff, ne_eq, Expr.blt_iff]
  rw [Expr.cmp_swap p.1 e, hb]
  simp

mutual
/-- Substitution with a map from expressions, by plain recursion from the top: an expression that is
in the map is replaced (and not visited further), otherwise its arguments are treated. -/
def Expr.replace (find : Expr K → Option (Expr K)) : Expr K → Expr K
  | .fn f args => (find (.fn f args)).getD (.fn f (Expr.replaceL find args))
  | .num n => (find (.num n)).getD (.num n)
  | .var s => (find (.var s)).getD (.var s)
  | .par i => (find (.par i)).getD (.par i)
/-- Substitution in a list of expressions. -/
def Expr.replaceL (find : Expr K → Option (Expr K)) : List (Expr K) → List (Expr K)
  | [] => []
  | e :: es => Expr.replace find e :: Expr.replaceL find es
end

theorem Expr.replaceL_eq_map (find : Expr K → Option (Expr K)) (es : List (Expr K)) :
    Expr.replaceL find es = es.map (Expr.replace find) := by
  induction es with
  | nil => simp [Expr.replaceL]
  | cons e es ih => simp [Expr.replaceL, ih]

theorem subsMapTrav_naive (find : Expr K → Option (Expr K)) (e : Expr K) :
    (subsMapTrav find).naive e = .ok (e.replace find) := by
  induction e using Expr.ind with
  | num n => simp [Trav.naive, subsMapTrav, Expr.replace]
  | var n => simp [Trav.naive, subsMapTrav, Expr.replace]
  | par n => simp [Trav.naive, subsMapTrav, Expr.replace]
  | fn f args ih =>
    have := Trav.naiveL_congr ih
    rw [Trav.naive, this, Expr.replace, Expr.replaceL_eq_map]
    cases h : find (.fn f args) <;> simp [subsMapTrav, h]

end Heyoka.Sym
