/-!
# Model of `pairwise_reduce`

`src/detail/llvm_helpers_algo.cpp`, lines 270-314. The C++ function builds an expression tree of
calls to `f`; the model computes the value of that tree.
-/

namespace Heyoka.Util

/-- One pass of the `while` loop: `llvm_helpers_algo.cpp`, lines 284-297. Consecutive pairs are
combined with `f`; a trailing unpaired value is copied. -/
def pairPass {α : Type _} (f : α → α → α) : List α → List α
  | a :: b :: t => f a b :: pairPass f t
  | [a] => [a]
  | [] => []

theorem pairPass_length_le {α : Type _} (f : α → α → α) :
    ∀ l : List α, (pairPass f l).length ≤ l.length
  | [] => by simp [pairPass]
  | [a] => by simp [pairPass]
  | a :: b :: t => by
    have := pairPass_length_le f t
    simp only [pairPass, List.length_cons]; omega

/-- `pairwise_reduce`: `llvm_helpers_algo.cpp`, lines 271-301. The empty vector is a violation of
the precondition asserted at line 274 and yields `none`. The overflow check at line 278 is not
modelled (lists are shorter than `size_t`'s maximum). -/
def pairwiseReduce {α : Type _} (f : α → α → α) : List α → Option α
  | [] => none
  | [a] => some a
  | a :: b :: t => pairwiseReduce f (pairPass f (a :: b :: t))
termination_by l => l.length
decreasing_by
  have := pairPass_length_le f t
  simp only [pairPass, List.length_cons]; omega

/-- `pairwise_sum`: `llvm_helpers_algo.cpp`, lines 305-308. -/
def pairwiseSum {α : Type _} [Add α] (l : List α) : Option α := pairwiseReduce (· + ·) l

/-- `pairwise_prod`: `llvm_helpers_algo.cpp`, lines 311-314. -/
def pairwiseProd {α : Type _} [Mul α] (l : List α) : Option α := pairwiseReduce (· * ·) l

end Heyoka.Util
