import Verif.Expr.Num
import Verif.Util.Res
import Mathlib.Data.List.Basic
import Mathlib.Tactic.Ring

/-!
# The generators of arguments in compact mode

`src/detail/cm_utils.cpp` 123-349. Indices are 32-bit unsigned integers.
-/

set_option linter.unusedSectionVars false

namespace Heyoka.Sym

/-- The loop in `is_consecutive_strided()` (`src/detail/cm_utils.cpp` 144-152): `c` is the candidate stride,
`prev` the previous element. -/
def stridedFrom (c : Nat) : Nat → List Nat → Bool
  | _, [] => true
  | prev, x :: l => if x ≤ prev || x - prev != c then false else stridedFrom c x l

/-- `is_consecutive_strided()` (`src/detail/cm_utils.cpp` 136-155). The vector is not empty (assertion
at 138). -/
def isStrided : List Nat → Nat
  | a :: b :: l => if b ≤ a then 0 else if stridedFrom (b - a) b l then b - a else 0
  | _ => 0

/-- The number of repetitions of the first element, minus one (`src/detail/cm_utils.cpp` 190-198). -/
def countReps : Nat → List Nat → Nat
  | _, [] => 0
  | prev, x :: l => if x = prev then countReps x l + 1 else 0

/-- The check of one block of repetitions (`src/detail/cm_utils.cpp` 212-219). The accesses are in bounds
because `n` divides the size. -/
def blockConst (ind : List Nat) (n r : Nat) : Bool :=
  (List.range (n - 1)).all fun i => ind[r * n + (i + 1)]? == ind[r * n + i]?

/-- The loop over the blocks of repetitions (`src/detail/cm_utils.cpp` 211-226), from the block `r` on, with `k`
blocks left: the repeated indices, the flag. -/
def blocksFrom (ind : List Nat) (n : Nat) : Nat → Nat → Res (List Nat × Bool)
  | _, 0 => .ok ([], true)
  | r, k + 1 =>
    if blockConst ind n r then
      match ind[r * n]? with
      | some x => (blocksFrom ind n (r + 1) k).bind fun p => .ok (x :: p.1, p.2)
      | none => .ub
    else .ok ([], false)

/-- The generators of indices: a constant, a strided sequence, a strided sequence with repetitions, a table of
integers of the given width. -/
inductive IdxGen where
  | const (n : Nat)
  | strided (start stride : Nat)
  | repeated (start reps stride : Nat)
  | table (width : Nat) (vals : List Nat)
  deriving DecidableEq

/-- The code generated for a call position (`src/detail/cm_utils.cpp` 175, 181-184, 245-251, 288-303):
arithmetic modulo `2 ^ 32`; an access to the table out of its bounds is undefined. -/
def IdxGen.eval : IdxGen → Nat → Res Nat
  | .const n, _ => .ok n
  | .strided start stride, i => .ok ((start + stride * i % 2 ^ 32) % 2 ^ 32)
  | .repeated start reps stride, i =>
    if reps = 0 then .ub else .ok ((start + i / reps * stride % 2 ^ 32) % 2 ^ 32)
  | .table width vals, i =>
    match vals[i]? with
    | some x => .ok (x % 2 ^ width)
    | none => .ub

/-- The width of the integers in the table (`src/detail/cm_utils.cpp` 264-274). -/
def tableWidth (ind : List Nat) : Nat :=
  if ind.all (· ≤ 255) then 8 else if ind.all (· ≤ 65535) then 16 else 32

/-- The general case (`src/detail/cm_utils.cpp` 258-303). -/
def mkTable (ind : List Nat) : IdxGen := .table (tableWidth ind) ind

/-- `cm_make_arg_gen_vidx()` (`src/detail/cm_utils.cpp` 164-304). -/
def argGenIdx : List Nat → Res IdxGen
  | [] => .ub
  | a :: l =>
    let ind := a :: l
    if l.all (· == a) then .ok (.const a)
    else if isStrided ind ≠ 0 then .ok (.strided a (isStrided ind))
    else
      let n := countReps a l + 1
      if n > 1 && ind.length % n == 0 then
        (blocksFrom ind n 1 (ind.length / n - 1)).bind fun p =>
          let s := isStrided (a :: p.1)
          if p.2 && s ≠ 0 then
            if n < 2 ^ 32 then .ok (.repeated a n s) else .throw
          else .ok (mkTable ind)
      else .ok (mkTable ind)

/-- The generators of constants. -/
inductive NumGen (K : Type) where
  | const (n : Num K)
  | table (vals : List (Num K))

variable {K : Type}

/-- The code generated for a call position (`src/detail/cm_utils.cpp` 320, 343-348). -/
def NumGen.eval : NumGen K → Nat → Res (Num K)
  | .const n, _ => .ok n
  | .table vals, i =>
    match vals[i]? with
    | some x => .ok x
    | none => .ub

/-- `cm_make_arg_gen_vc()` (`src/detail/cm_utils.cpp` 311-349). -/
def argGenNum [Field K] [LinearOrder K] : List (Num K) → Res (NumGen K)
  | [] => .ub
  | a :: l => if l.all (·.beq a) then .ok (.const a) else .ok (.table (a :: l))

/-! ### Lemmas -/

theorem stridedFrom_spec {c : Nat} : ∀ {l : List Nat} {prev : Nat}, stridedFrom c prev l = true →
    ∀ (i x : Nat), l[i]? = some x → x = prev + c * (i + 1)
  | [], _, _, i, x, hx => by simp at hx
  | y :: l, prev, h, i, x, hx => by
    rw [stridedFrom] at h
    split_ifs at h with h1
    simp only [Bool.or_eq_true, decide_eq_true_eq, bne_iff_ne, ne_eq, not_or, not_not, not_le] at h1
    cases i with
    | zero =>
      simp only [List.getElem?_cons_zero, Option.some.injEq] at hx
      omega
    | succ i =>
      rw [List.getElem?_cons_succ] at hx
      have := stridedFrom_spec h i x hx
      rw [Nat.mul_add] at this ⊢
      rw [Nat.mul_add]
      omega

theorem isStrided_spec {v : List Nat} {a : Nat} (h : isStrided (a :: v) ≠ 0) (i x : Nat)
    (hx : (a :: v)[i]? = some x) : x = a + isStrided (a :: v) * i := by
  cases v with
  | nil => simp [isStrided] at h
  | cons b l =>
    have hs : isStrided (a :: b :: l) = b - a ∧ a < b ∧ stridedFrom (b - a) b l = true := by
      simp only [isStrided] at h ⊢
      split_ifs at h ⊢ with h1 h2
      · exact absurd rfl h
      · exact ⟨rfl, by omega, h2⟩
      · exact absurd rfl h
    rw [hs.1]
    match i, hx with
    | 0, hx =>
      simp only [List.getElem?_cons_zero, Option.some.injEq] at hx
      omega
    | 1, hx =>
      simp only [List.getElem?_cons_succ, List.getElem?_cons_zero, Option.some.injEq] at hx
      omega
    | i + 2, hx =>
      simp only [List.getElem?_cons_succ] at hx
      have := stridedFrom_spec hs.2.2 i x hx
      rw [show (b - a) * (i + 2) = (b - a) + (b - a) * (i + 1) by ring]
      omega

theorem countReps_le : ∀ (l : List Nat) (prev : Nat), countReps prev l ≤ l.length
  | [], _ => by simp [countReps]
  | x :: l, prev => by
    rw [countReps]
    have := countReps_le l x
    split_ifs <;> simp only [List.length_cons] <;> omega

theorem countReps_spec : ∀ (l : List Nat) (prev i : Nat), i < countReps prev l → l[i]? = some prev
  | [], _, _, h => by simp [countReps] at h
  | x :: l, prev, i, h => by
    rw [countReps] at h
    split_ifs at h with hx
    · subst hx
      cases i with
      | zero => rfl
      | succ i =>
        rw [List.getElem?_cons_succ]
        exact countReps_spec l x i (by omega)
    · omega

theorem blockConst_spec {ind : List Nat} {n r : Nat} (h : blockConst ind n r = true) :
    ∀ i, i < n → ind[r * n + i]? = ind[r * n]?
  | 0, _ => rfl
  | i + 1, hi => by
    have h1 := List.all_eq_true.1 h i (List.mem_range.2 (by omega))
    rw [beq_iff_eq] at h1
    rw [h1]
    exact blockConst_spec h i (by omega)

theorem blocksFrom_spec {ind : List Nat} {n : Nat} : ∀ (k r : Nat) (p : List Nat × Bool),
    blocksFrom ind n r k = .ok p → p.2 = true →
    ∀ j, j < k → ∃ x, p.1[j]? = some x ∧ ∀ i, i < n → ind[(r + j) * n + i]? = some x
  | 0, _, _, _, _, j, hj => by omega
  | k + 1, r, p, h, hp, j, hj => by
    rw [blocksFrom] at h
    split_ifs at h with hb
    · cases hx : ind[r * n]? with
      | none => rw [hx] at h; cases h
      | some x =>
        rw [hx] at h
        simp only at h
        cases hq : blocksFrom ind n (r + 1) k with
        | ok q =>
          rw [hq, Res.bind_ok] at h
          injection h with h
          subst h
          cases j with
          | zero =>
            refine ⟨x, rfl, fun i hi => ?_⟩
            rw [Nat.add_zero, blockConst_spec hb i hi, hx]
          | succ j =>
            obtain ⟨y, hy1, hy2⟩ := blocksFrom_spec k (r + 1) q hq hp j (by omega)
            refine ⟨y, by rw [List.getElem?_cons_succ]; exact hy1, fun i hi => ?_⟩
            rw [show r + (j + 1) = r + 1 + j by omega]
            exact hy2 i hi
        | throw => rw [hq] at h; cases h
        | ub => rw [hq] at h; cases h
    · injection h with h
      subst h
      cases hp

theorem blocksFrom_ok {ind : List Nat} {n : Nat} (hn : 0 < n) : ∀ (k r : Nat), (r + k) * n ≤ ind.length →
    ∃ p, blocksFrom ind n r k = .ok p
  | 0, _, _ => ⟨_, rfl⟩
  | k + 1, r, h => by
    rw [blocksFrom]
    split_ifs with hb
    · have hr : r * n < ind.length := by
        have : (r + 1) * n ≤ (r + (k + 1)) * n := Nat.mul_le_mul_right _ (by omega)
        rw [Nat.succ_mul] at this
        omega
      obtain ⟨p, hp⟩ := blocksFrom_ok hn k (r + 1) (by rw [show r + 1 + k = r + (k + 1) by omega]; exact h)
      rw [List.getElem?_eq_getElem hr, hp]
      exact ⟨_, rfl⟩
    · exact ⟨_, rfl⟩

theorem mkTable_eval {ind : List Nat} (hi : ∀ x ∈ ind, x < 2 ^ 32) (i x : Nat) (hx : ind[i]? = some x) :
    (mkTable ind).eval i = .ok x := by
  have hm := List.mem_of_getElem? hx
  simp only [mkTable, IdxGen.eval]
  rw [hx]
  simp only [Res.ok.injEq]
  refine Nat.mod_eq_of_lt ?_
  unfold tableWidth
  split_ifs with h1 h2
  · have := List.all_eq_true.1 h1 x hm
    simp only [decide_eq_true_eq] at this
    omega
  · have := List.all_eq_true.1 h2 x hm
    simp only [decide_eq_true_eq] at this
    omega
  · exact hi x hm

end Heyoka.Sym
