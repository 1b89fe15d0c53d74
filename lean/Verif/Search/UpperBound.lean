import Verif.Util.Res
import Mathlib.Data.List.Basic
import Mathlib.Tactic.Linarith

/-!
# Binary search in generated code

Model of the `std::upper_bound()` loops emitted by heyoka: the scalar loop, and the vector loop in
which all the SIMD lanes iterate until every lane has finished. `p x` stands for the comparison
`!(v < x)` of the searched value with an array element.

Simplification: 32-bit unsigned indices are natural numbers. This is exact because every index
computed is at most the array size, which the code checks to fit in 32 bits; the only subtraction
which could wrap around (`count - (step + 1)`) is an explicit `ub` outcome of the model.
-/

namespace Heyoka.Search

variable {α : Type*}

/-- Scalar loop of `llvm_upper_bound()`: src/detail/llvm_helpers_algo.cpp 83-268 (branch
`batch_size == 1`); also the scalar loop of `continuous_output::add_c_out_function()`:
src/continuous_output.cpp 198-245. State: `first`, `count`; `it = first + count / 2`. -/
def ubLoop (xs : List α) (p : α → Bool) (first count : Nat) : Res Nat :=
  if count = 0 then .ok first
  else
    let step := count / 2
    match xs[first + step]? with
    | none => .ub
    | some x =>
      if p x then ubLoop xs p (first + step + 1) (count - (step + 1))
      else ubLoop xs p first step
termination_by count
decreasing_by all_goals omega

/-- `llvm_upper_bound()` with a scalar argument: src/detail/llvm_helpers_algo.cpp 83-268;
`first = 0` and `count = arr_size`. -/
def upperBound (xs : List α) (p : α → Bool) : Res Nat := ubLoop xs p 0 xs.length

/-- State of a SIMD lane of the vector loop: the array it searches, its comparison and the
`first`/`count` variables. -/
structure Lane (α : Type*) where
  /-- the searched array -/
  xs : List α
  /-- comparison with the searched value -/
  p : α → Bool
  /-- variable `first` -/
  first : Nat
  /-- variable `count` -/
  count : Nat

/-- One iteration of the vector loop in a lane: src/detail/llvm_helpers_algo.cpp 83-268 (vector
branch, `masked = true`: lanes with `it == arr_size` do not load and use `false` as result of
the comparison) and src/continuous_output.cpp 730-791 (`masked = false`: no mask, every lane
loads). Lanes with `count = 0` execute the iteration as well. -/
def laneStep (masked : Bool) (l : Lane α) : Res (Lane α) :=
  let step := l.count / 2
  let it := l.first + step
  if masked && it == l.xs.length then .ok { l with count := step }
  else
    match l.xs[it]? with
    | none => .ub
    | some x =>
      if l.p x then
        if l.count < step + 1 then .ub
        else .ok { l with first := it + 1, count := l.count - (step + 1) }
      else .ok { l with count := step }

/-- One iteration of the vector loop in all the lanes. -/
def stepAll (masked : Bool) : List (Lane α) → Res (List (Lane α))
  | [] => .ok []
  | l :: ls => (laneStep masked l).bind fun l' => (stepAll masked ls).bind fun ls' => .ok (l' :: ls')

/-- Sum of the `count` variables (termination measure). -/
def counts (ls : List (Lane α)) : Nat := (ls.map Lane.count).sum

theorem laneStep_count {masked : Bool} {l l' : Lane α} (h : laneStep masked l = .ok l') :
    l'.count ≤ l.count ∧ (l.count ≠ 0 → l'.count < l.count) := by
  unfold laneStep at h
  simp only at h
  split at h
  · cases h; exact ⟨Nat.div_le_self _ _, fun h => Nat.div_lt_self (by omega) (by omega)⟩
  · split at h
    · cases h
    · split at h
      · split at h
        · cases h
        · cases h; dsimp only; omega
      · cases h; dsimp only; omega

theorem stepAll_counts {masked : Bool} : ∀ {ls ls' : List (Lane α)},
    stepAll masked ls = .ok ls' →
      counts ls' ≤ counts ls ∧ ((∃ l ∈ ls, l.count ≠ 0) → counts ls' < counts ls) := by
  intro ls
  induction ls with
  | nil => intro ls' h; cases h; simp
  | cons l ls ih =>
    intro ls' h
    unfold stepAll at h
    cases h1 : laneStep masked l with
    | throw => simp [h1] at h
    | ub => simp [h1] at h
    | ok l1 =>
      cases h2 : stepAll masked ls with
      | throw => simp [h1, h2] at h
      | ub => simp [h1, h2] at h
      | ok ls1 =>
        simp only [h1, h2, Res.bind_ok, Res.ok.injEq] at h
        subst h
        obtain ⟨a, b⟩ := laneStep_count h1
        obtain ⟨c, d⟩ := ih h2
        simp only [counts, List.map_cons, List.sum_cons] at *
        refine ⟨by omega, ?_⟩
        rintro ⟨m, hm, hm0⟩
        rcases List.mem_cons.1 hm with rfl | hm
        · have := b hm0; omega
        · have := d ⟨m, hm, hm0⟩; omega

/-- The vector loop: iterate while the `count` of any lane is not zero.
src/detail/llvm_helpers_algo.cpp 83-268 (vector branch), src/continuous_output.cpp 730-791. -/
def vecLoop (masked : Bool) (ls : List (Lane α)) : Res (List Nat) :=
  if h : ∃ l ∈ ls, l.count ≠ 0 then
    match hs : stepAll masked ls with
    | .ok ls' => vecLoop masked ls'
    | .throw => .throw
    | .ub => .ub
  else .ok (ls.map Lane.first)
termination_by counts ls
decreasing_by exact (stepAll_counts hs).2 h

/-- `llvm_upper_bound()` with a vector argument: all the lanes search the same array, `ps` are the
comparisons of the lanes. src/detail/llvm_helpers_algo.cpp 83-268. -/
def vecUpperBound (xs : List α) (ps : List (α → Bool)) : Res (List Nat) :=
  vecLoop true (ps.map fun p => ⟨xs, p, 0, xs.length⟩)

end Heyoka.Search
