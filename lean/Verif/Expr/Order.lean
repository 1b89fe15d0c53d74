import Verif.Expr.Basic
import Verif.Expr.Heap
import Verif.Expr.DFunName
import Mathlib.Data.Prod.Lex
import Mathlib.Data.String.Basic

/-!
# Names, equality, ordering of expressions
-/

set_option linter.unusedSectionVars false

namespace Heyoka.Sym

variable {K : Type}

/-- The names of the relational operators (`src/math/relational.cpp` 62-85). -/
def RelOp.name : RelOp → String
  | .eq => "rel_eq" | .neq => "rel_neq" | .lt => "rel_lt" | .gt => "rel_gt"
  | .lte => "rel_lte" | .gte => "rel_gte"

/-- How the slope of a `relu()` is printed: `fmt::format("{:a}")` with the decimal point replaced by
an underscore (`src/math/relu.cpp` 70-71). -/
class FmtName (K : Type) where
  hex : K → String

variable [Field K] [LinearOrder K] [FmtName K]

/-- `relu_name()` (`src/math/relu.cpp` 62-75): the slope is part of the name, unless it is zero. -/
def reluName (base : String) (slope : K) : String :=
  if slope = 0 then base else base ++ "_" ++ FmtName.hex slope

/-- `get_name()`: the names passed to the constructor of `func_base` (`src/math/*.cpp`,
`src/detail/{div,sub,sum_sq,num_identity}.cpp`). The part of the LLVM name of `pow` and `prod`
computed at construction is not part of the name. -/
def Fn.name : Fn K → String
  | .sum => "sum" | .prod _ => "prod" | .pow _ => "pow" | .sub => "sub" | .div => "div"
  | .sumSq => "sum_sq"
  | .sin c => if c then "combined_sin" else "sin"
  | .cos c => if c then "combined_cos" else "cos"
  | .tan => "tan" | .asin => "asin" | .acos => "acos" | .atan => "atan" | .atan2 => "atan2"
  | .sinh => "sinh" | .cosh => "cosh" | .tanh => "tanh"
  | .asinh => "asinh" | .acosh => "acosh" | .atanh => "atanh"
  | .erf => "erf" | .exp => "exp" | .log => "log" | .sigmoid => "sigmoid"
  | .relu s => reluName "relu" s
  | .relup s => reluName "relup" s
  | .select => "select"
  | .rel op => op.name
  | .land => "logical_and" | .lor => "logical_or"
  | .time => "time"
  | .const n => n
  | .kepE => "kepE" | .kepF => "kepF" | .kepDE => "kepDE"
  | .numId => "num_identity"
  | .dfun id didx => dfunName id didx
  | .other n => n

mutual
/-- `operator==` on expressions (`src/expression_ops.cpp` 246-260): same kind and equal values;
numbers: `src/number.cpp` 386-403; variables: the names (`src/variable.cpp` 81); parameters: the
indices (`src/param.cpp` 65); functions: the names and the arguments (`src/func.cpp` 499-519). This
is the comparison without the shortcuts for identical objects, see `Node.beq`. -/
def Expr.beq : Expr K → Expr K → Bool
  | .num n, .num m => n.beq m
  | .var s, .var t => s == t
  | .par i, .par j => i == j
  | .fn f as, .fn g bs => f.name == g.name && Expr.beqL as bs
  | _, _ => false
/-- `operator==` on vectors of expressions. -/
def Expr.beqL : List (Expr K) → List (Expr K) → Bool
  | [], [] => true
  | a :: as, b :: bs => Expr.beq a b && Expr.beqL as bs
  | _, _ => false
end

mutual
/-- `ex_less_than()` (`src/expression_basic.cpp` 1236-1281) and `operator<` on functions
(`src/func.cpp` 532-575) without the shortcuts for identical objects, see `Node.blt`. -/
def Expr.blt : Expr K → Expr K → Bool
  | .var s, .var t => decide (s < t)
  | .par i, .par j => decide (i < j)
  | .num n, .num m => n.blt m
  | .fn f as, .fn g bs =>
    if f.name < g.name then true
    else if g.name < f.name then false
    else Expr.bltL as bs
  | .num _, _ => true
  | .fn _ _, _ => false
  | .var _, .fn _ _ => true
  | .var _, _ => false
  | .par _, .num _ => false
  | .par _, _ => true
termination_by a b => sizeOf a + sizeOf b
/-- `std::lexicographical_compare` with `std::less<expression>`. -/
def Expr.bltL : List (Expr K) → List (Expr K) → Bool
  | [], [] => false
  | [], _ :: _ => true
  | _ :: _, [] => false
  | a :: as, b :: bs =>
    if Expr.blt a b then true
    else if Expr.blt b a then false
    else Expr.bltL as bs
termination_by as bs => sizeOf as + sizeOf bs
end

/-- Are the argument vectors the same object? (`&a.args() == &b.args()`, for different functions) -/
def sameArgs : Option Nat → Option Nat → Bool
  | some k, some l => k == l
  | _, _ => false

mutual
/-- `operator==` on the functions of a graph, with the shortcuts (`src/func.cpp` 499-519). -/
def Node.beq : Node K → Node K → Bool
  | .num n, .num m => n.beq m
  | .var s, .var t => s == t
  | .par i, .par j => i == j
  | .fn id sid f as, .fn id' sid' g bs =>
    if id = id' then true
    else if f.name ≠ g.name then false
    else if sameArgs sid sid' then true
    else Node.beqL as bs
  | _, _ => false
/-- `operator==` on the arguments. -/
def Node.beqL : List (Node K) → List (Node K) → Bool
  | [], [] => true
  | a :: as, b :: bs => Node.beq a b && Node.beqL as bs
  | _, _ => false
end

mutual
/-- `operator<` on the functions of a graph, with the shortcuts (`src/func.cpp` 532-575). -/
def Node.blt : Node K → Node K → Bool
  | .var s, .var t => decide (s < t)
  | .par i, .par j => decide (i < j)
  | .num n, .num m => n.blt m
  | .fn id sid f as, .fn id' sid' g bs =>
    if id = id' then false
    else if f.name < g.name then true
    else if g.name < f.name then false
    else if sameArgs sid sid' then false
    else Node.bltL as bs
  | .num _, _ => true
  | .fn _ _ _ _, _ => false
  | .var _, .fn _ _ _ _ => true
  | .var _, _ => false
  | .par _, .num _ => false
  | .par _, _ => true
termination_by a b => sizeOf a + sizeOf b
/-- `std::lexicographical_compare` on the arguments. -/
def Node.bltL : List (Node K) → List (Node K) → Bool
  | [], [] => false
  | [], _ :: _ => true
  | _ :: _, [] => false
  | a :: as, b :: bs =>
    if Node.blt a b then true
    else if Node.blt b a then false
    else Node.bltL as bs
termination_by as bs => sizeOf as + sizeOf bs
end

/-! ### Three-way comparison -/

/-- The position of a value among the values of its type: the infinities and NaN at the ends. -/
def FVal.key : FVal K → ℤ ×ₗ K
  | .nan => toLex (2, 0)
  | .pinf => toLex (1, 0)
  | .ninf => toLex (-1, 0)
  | .nzero => toLex (0, 0)
  | .fin x => toLex (0, x)

/-- The position of a number among all the numbers. -/
def Num.key (n : Num K) : ℕ ×ₗ (ℤ ×ₗ K) := toLex (n.ty.idx, n.val.key)

theorem Num.beq_iff (a b : Num K) : a.beq b = true ↔ a.key = b.key := by
  obtain ⟨s, x⟩ := a
  obtain ⟨t, y⟩ := b
  simp only [Num.beq, Num.key, EmbeddingLike.apply_eq_iff_eq, Prod.mk.injEq]
  by_cases h : s = t
  · subst h
    cases x <;> cases y <;> simp [FVal.isNan, FVal.feq, FVal.key, FVal.isZero, eq_comm]
  · have : s.idx ≠ t.idx := fun h' => h (NumTy.idx_inj h')
    simp [h, this]

theorem Num.blt_iff (a b : Num K) : a.blt b = true ↔ a.key < b.key := by
  obtain ⟨s, x⟩ := a
  obtain ⟨t, y⟩ := b
  simp only [Num.blt, Num.key, Prod.Lex.toLex_lt_toLex]
  by_cases h : s = t
  · subst h
    cases x <;> cases y <;> simp [FVal.isNan, FVal.flt, FVal.key, Prod.Lex.toLex_lt_toLex]
  · have : s.idx ≠ t.idx := fun h' => h (NumTy.idx_inj h')
    simp [h, this]

/-- The three comparisons of three objects are those of a linear preorder. -/
def TC (ab bc ac : Ordering) : Prop :=
  (ab = .lt → bc = .lt → ac = .lt) ∧ (ab = .gt → bc = .gt → ac = .gt) ∧
  (ab = .eq → ac = bc) ∧ (bc = .eq → ac = ab)

theorem TC.then {x y z x' y' z' : Ordering} (h : TC x y z)
    (h' : x = .eq → y = .eq → z = .eq → TC x' y' z') :
    TC (x.then x') (y.then y') (z.then z') := by
  obtain ⟨h1, h2, h3, h4⟩ := h
  cases x <;> cases y <;> simp_all [TC, Ordering.then]

theorem TC.compare {α : Type} [LinearOrder α] (a b c : α) :
    TC (compare a b) (compare b c) (compare a c) := by
  refine ⟨?_, ?_, ?_, ?_⟩
  · simp only [compare_lt_iff_lt]; exact lt_trans
  · simp only [compare_gt_iff_gt]; exact fun h h' => lt_trans h' h
  · simp only [compare_eq_iff_eq]; rintro rfl; rfl
  · simp only [compare_eq_iff_eq]; rintro rfl; rfl

/-- The kinds of expressions, in order. -/
def Expr.rank : Expr K → Nat
  | .num _ => 0
  | .par _ => 1
  | .var _ => 2
  | .fn _ _ => 3

mutual
/-- Three-way comparison: kinds first, then values; functions: names first, then arguments in
lexicographic order. -/
def Expr.cmp : Expr K → Expr K → Ordering
  | .num n, b => match b with
    | .num m => compare n.key m.key
    | b => compare 0 b.rank
  | .par i, b => match b with
    | .par j => compare i j
    | b => compare 1 b.rank
  | .var s, b => match b with
    | .var t => compare s t
    | b => compare 2 b.rank
  | .fn f as, b => match b with
    | .fn g bs => (compare f.name g.name).then (Expr.cmpL as bs)
    | b => compare 3 b.rank
/-- Three-way lexicographic comparison. -/
def Expr.cmpL : List (Expr K) → List (Expr K) → Ordering
  | [], bs => match bs with
    | [] => .eq
    | _ :: _ => .lt
  | a :: as, bs => match bs with
    | [] => .gt
    | b :: bs => (Expr.cmp a b).then (Expr.cmpL as bs)
end

theorem Expr.cmp_fn (f g : Fn K) (as bs : List (Expr K)) :
    (Expr.fn f as).cmp (.fn g bs) = (compare f.name g.name).then (Expr.cmpL as bs) := by
  simp [Expr.cmp]

theorem Expr.cmp_rank (a b : Expr K) (h : a.rank ≠ b.rank) : a.cmp b = compare a.rank b.rank := by
  cases a <;> cases b <;> simp [Expr.rank] at h <;> simp [Expr.cmp, Expr.rank]

theorem Expr.cmp_swap_aux (n : Nat) : ∀ a b : Expr K, sizeOf a ≤ n → b.cmp a = (a.cmp b).swap := by
  have swp : ∀ {α : Type} [LinearOrder α] (x y : α), compare x y = (compare y x).swap := by
    intro α _ x y
    rcases lt_trichotomy x y with h | h | h
    · rw [compare_lt_iff_lt.2 h, compare_gt_iff_gt.2 h]; rfl
    · rw [compare_eq_iff_eq.2 h, compare_eq_iff_eq.2 h.symm]; rfl
    · rw [compare_gt_iff_gt.2 h, compare_lt_iff_lt.2 h]; rfl
  induction n with
  | zero => intro a b h; cases a <;> simp at h
  | succ n ih =>
    intro a b hsz
    by_cases hr : a.rank = b.rank
    · cases a <;> cases b <;> simp [Expr.rank] at hr
      · simp only [Expr.cmp]; exact swp _ _
      · simp only [Expr.cmp]; exact swp _ _
      · simp only [Expr.cmp]; exact swp _ _
      · rename_i f as g bs
        rw [Expr.cmp_fn, Expr.cmp_fn]
        have hL : ∀ as bs : List (Expr K), (∀ a ∈ as, sizeOf a ≤ n) →
            Expr.cmpL bs as = (Expr.cmpL as bs).swap := by
          intro as
          induction as with
          | nil => intro bs _; cases bs <;> simp [Expr.cmpL]
          | cons a as iha =>
            intro bs h
            cases bs with
            | nil => simp [Expr.cmpL]
            | cons b bs =>
              simp only [Expr.cmpL]
              rw [ih a b (h a List.mem_cons_self), iha bs fun x hx => h x (List.mem_cons_of_mem _ hx)]
              cases a.cmp b <;> rfl
        rw [swp g.name f.name, hL as bs fun a ha => by
          have := List.sizeOf_lt_of_mem ha
          simp at hsz; omega]
        cases compare f.name g.name <;> rfl
    · rw [Expr.cmp_rank _ _ hr, Expr.cmp_rank _ _ (Ne.symm hr)]
      exact swp _ _

theorem Expr.cmp_swap (a b : Expr K) : b.cmp a = (a.cmp b).swap := Expr.cmp_swap_aux _ a b (le_refl _)

theorem Expr.cmp_tc_aux (n : Nat) : ∀ a b c : Expr K, sizeOf a ≤ n →
    TC (a.cmp b) (b.cmp c) (a.cmp c) := by
  induction n with
  | zero => intro a b c h; cases a <;> simp at h
  | succ n ih =>
    intro a b c hsz
    have hL : ∀ as bs cs : List (Expr K), (∀ a ∈ as, sizeOf a ≤ n) →
        TC (Expr.cmpL as bs) (Expr.cmpL bs cs) (Expr.cmpL as cs) := by
      intro as
      induction as with
      | nil => intro bs cs _; cases bs <;> cases cs <;> simp [Expr.cmpL, TC]
      | cons a as iha =>
        intro bs cs h
        cases bs with
        | nil => cases cs <;> simp [Expr.cmpL, TC]
        | cons b bs =>
          cases cs with
          | nil => simp [Expr.cmpL, TC]
          | cons c cs =>
            simp only [Expr.cmpL]
            exact (ih a b c (h a List.mem_cons_self)).then fun _ _ _ =>
              iha bs cs fun x hx => h x (List.mem_cons_of_mem _ hx)
    -- all the comparisons are by rank first
    have key : ∀ a b : Expr K, a.cmp b = (compare a.rank b.rank).then (a.cmp b) := by
      intro a b
      by_cases hr : a.rank = b.rank
      · rw [compare_eq_iff_eq.2 hr]; rfl
      · rw [Expr.cmp_rank a b hr]
        cases compare a.rank b.rank <;> rfl
    rw [key a b, key b c, key a c]
    refine (TC.compare a.rank b.rank c.rank).then fun h1 h2 _ => ?_
    rw [compare_eq_iff_eq] at h1 h2
    cases a <;> cases b <;> simp [Expr.rank] at h1 <;> cases c <;> simp [Expr.rank] at h2
    · simp only [Expr.cmp]; exact TC.compare _ _ _
    · simp only [Expr.cmp]; exact TC.compare _ _ _
    · simp only [Expr.cmp]; exact TC.compare _ _ _
    · rename_i f as g bs h cs _
      simp only [Expr.cmp_fn]
      refine (TC.compare f.name g.name h.name).then fun _ _ _ => hL as bs cs fun a ha => ?_
      have := List.sizeOf_lt_of_mem ha
      simp at hsz; omega

theorem Expr.cmp_tc (a b c : Expr K) : TC (a.cmp b) (b.cmp c) (a.cmp c) :=
  Expr.cmp_tc_aux _ a b c (le_refl _)

theorem Expr.cmp_self_eq (a : Expr K) : a.cmp a = .eq := by
  have := Expr.cmp_swap a a
  cases h : a.cmp a <;> rw [h] at this <;> simp [Ordering.swap] at this

/-! ### The C++ comparisons in terms of the three-way comparison -/

theorem Expr.beq_iff_aux (n : Nat) : ∀ a b : Expr K, sizeOf a ≤ n →
    (a.beq b = true ↔ a.cmp b = .eq) := by
  induction n with
  | zero => intro a b h; cases a <;> simp at h
  | succ n ih =>
    intro a b hsz
    by_cases hr : a.rank = b.rank
    · cases a <;> cases b <;> simp [Expr.rank] at hr
      · simp only [Expr.beq, Expr.cmp, compare_eq_iff_eq]; exact Num.beq_iff _ _
      · simp only [Expr.beq, Expr.cmp, compare_eq_iff_eq]; simp
      · simp only [Expr.beq, Expr.cmp, compare_eq_iff_eq]; simp
      · rename_i f as g bs
        have hL : ∀ as bs : List (Expr K), (∀ a ∈ as, sizeOf a ≤ n) →
            (Expr.beqL as bs = true ↔ Expr.cmpL as bs = .eq) := by
          intro as
          induction as with
          | nil => intro bs _; cases bs <;> simp [Expr.cmpL, Expr.beqL]
          | cons a as iha =>
            intro bs h
            cases bs with
            | nil => simp [Expr.cmpL, Expr.beqL]
            | cons b bs =>
              simp only [Expr.cmpL, Expr.beqL, Bool.and_eq_true]
              rw [ih a b (h a List.mem_cons_self), iha bs fun x hx => h x (List.mem_cons_of_mem _ hx)]
              cases a.cmp b <;> simp [Ordering.then]
        rw [Expr.beq, Expr.cmp_fn, Bool.and_eq_true, hL as bs fun a ha => by
          have := List.sizeOf_lt_of_mem ha
          simp at hsz; omega]
        rw [beq_iff_eq, ← compare_eq_iff_eq]
        cases compare f.name g.name <;> simp [Ordering.then]
    · have h1 : a.cmp b ≠ .eq := by
        rw [Expr.cmp_rank _ _ hr]; exact fun h => hr (compare_eq_iff_eq.1 h)
      cases a <;> cases b <;> simp [Expr.rank] at hr <;> simp [Expr.beq, h1]

theorem Expr.beq_iff (a b : Expr K) : a.beq b = true ↔ a.cmp b = .eq :=
  Expr.beq_iff_aux _ a b (le_refl _)

theorem Expr.blt_iff_aux (n : Nat) : ∀ a b : Expr K, sizeOf a + sizeOf b ≤ n →
    (a.blt b = true ↔ a.cmp b = .lt) := by
  induction n with
  | zero => intro a b h; cases a <;> simp at h
  | succ n ih =>
    intro a b hsz
    by_cases hr : a.rank = b.rank
    · cases a <;> cases b <;> simp [Expr.rank] at hr
      · simp only [Expr.blt, Expr.cmp, compare_lt_iff_lt]; exact Num.blt_iff _ _
      · simp only [Expr.blt, Expr.cmp, compare_lt_iff_lt]; simp
      · simp only [Expr.blt, Expr.cmp, compare_lt_iff_lt]; simp
      · rename_i f as g bs
        have hL : ∀ as bs : List (Expr K), (∀ a ∈ as, ∀ b ∈ bs, sizeOf a + sizeOf b ≤ n) →
            (Expr.bltL as bs = true ↔ Expr.cmpL as bs = .lt) := by
          intro as
          induction as with
          | nil => intro bs _; cases bs <;> simp [Expr.cmpL, Expr.bltL]
          | cons a as iha =>
            intro bs h
            cases bs with
            | nil => simp [Expr.cmpL, Expr.bltL]
            | cons b bs =>
              have hab := h a List.mem_cons_self b List.mem_cons_self
              have h1 := ih a b hab
              have h2 := ih b a (by omega)
              have h3 := iha bs fun x hx y hy =>
                h x (List.mem_cons_of_mem _ hx) y (List.mem_cons_of_mem _ hy)
              rw [Expr.cmp_swap a b] at h2
              simp only [Expr.cmpL, Expr.bltL]
              cases hc : a.cmp b <;> simp [hc, Ordering.swap, Ordering.then] at h1 h2 ⊢ <;>
                simp [h1, h2, h3]
        have h3 := hL as bs fun a ha b hb => by
          have h1 := List.sizeOf_lt_of_mem ha
          have h2 := List.sizeOf_lt_of_mem hb
          simp at hsz; omega
        rw [Expr.blt, Expr.cmp_fn]
        rcases lt_trichotomy f.name g.name with h | h | h
        · rw [compare_lt_iff_lt.2 h]; simp [h, Ordering.then]
        · rw [compare_eq_iff_eq.2 h]; simp [h, Ordering.then, h3]
        · rw [compare_gt_iff_gt.2 h]; simp [h, not_lt_of_gt h, Ordering.then]
    · rw [Expr.cmp_rank _ _ hr, compare_lt_iff_lt]
      cases a <;> cases b <;> simp [Expr.rank] at hr <;> simp [Expr.blt, Expr.rank]

theorem Expr.blt_iff (a b : Expr K) : a.blt b = true ↔ a.cmp b = .lt :=
  Expr.blt_iff_aux _ a b (le_refl _)

end Heyoka.Sym
