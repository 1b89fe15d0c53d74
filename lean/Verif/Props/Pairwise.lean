import Verif.Util.Pairwise
import Mathlib.Algebra.BigOperators.Group.List.Basic

/-!
# C38: pairwise reductions equal sequential ones
-/

namespace Heyoka.Util

private theorem foldl_assoc {α : Type _} (f : α → α → α) (hf : ∀ x y z, f (f x y) z = f x (f y z)) :
    ∀ (l : List α) (a b : α), l.foldl f (f a b) = f a (l.foldl f b)
  | [], _, _ => rfl
  | c :: l, a, b => by simp only [List.foldl_cons]; rw [hf, foldl_assoc f hf l]

private theorem foldl_pairPass {α : Type _} (f : α → α → α)
    (hf : ∀ x y z, f (f x y) z = f x (f y z)) :
    ∀ (l : List α) (a : α), (pairPass f l).foldl f a = l.foldl f a
  | [], _ => rfl
  | [b], _ => rfl
  | b :: c :: t, a => by
    simp only [pairPass, List.foldl_cons]
    rw [foldl_pairPass f hf t, hf]

/-- C38. For every associative operation and every non-empty list, the pairwise reduction is the
left-to-right reduction. -/
theorem pairwiseReduce_eq_foldl {α : Type _} (f : α → α → α)
    (hf : ∀ x y z, f (f x y) z = f x (f y z)) (a : α) (l : List α) :
    pairwiseReduce f (a :: l) = some (l.foldl f a) := by
  match l with
  | [] => simp [pairwiseReduce]
  | b :: t =>
    rw [pairwiseReduce, pairPass, pairwiseReduce_eq_foldl f hf]
    rw [foldl_pairPass f hf]; rfl
termination_by l.length
decreasing_by
  have := pairPass_length_le f t
  simp only [List.length_cons]; omega

/-- C38 for sums: the generated pairwise summation computes the sum of the list. -/
theorem pairwiseSum_eq_sum {M : Type _} [AddMonoid M] (a : M) (l : List M) :
    pairwiseSum (a :: l) = some (a :: l).sum := by
  rw [pairwiseSum, pairwiseReduce_eq_foldl _ add_assoc, List.sum_eq_foldl]; simp

/-- C38 for products. -/
theorem pairwiseProd_eq_prod {M : Type _} [Monoid M] (a : M) (l : List M) :
    pairwiseProd (a :: l) = some (a :: l).prod := by
  rw [pairwiseProd, pairwiseReduce_eq_foldl _ mul_assoc, List.prod_eq_foldl]; simp

/-- Non-vacuity: string concatenation is associative but not commutative; five terms. -/
example : pairwiseReduce (fun x y : List Nat => x ++ y) [[1], [2], [3], [4], [5]]
    = some [1, 2, 3, 4, 5] := by
  rw [pairwiseReduce_eq_foldl _ (by simp)]; rfl

/-- The reduction is not the sequential one for a non-associative operation, i.e. the hypothesis of
`pairwiseReduce_eq_foldl` is needed. -/
example : pairwiseReduce (fun x y : Int => x - y) [1, 2, 3, 4] = some 0 ∧
    [2, 3, 4].foldl (fun x y : Int => x - y) 1 = -8 := by
  constructor
  · simp [pairwiseReduce, pairPass]
  · decide

end Heyoka.Util
