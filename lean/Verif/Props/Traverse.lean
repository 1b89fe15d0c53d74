import Verif.Expr.Heap
import Verif.Expr.TravInst

/-!
# C04: the traversal with caches is equivalent to plain recursion

The graphs are given by a heap (`Heap.Valid`: functions are created after their arguments, what is
stored at an address is unique); `h.unfold r` is the graph seen from a reference with the identities
of the nodes, `(h.unfold r).toExpr` the expression tree it stands for.
-/

set_option linter.unusedSectionVars false

namespace Heyoka.Sym

variable {K R S : Type}

/-- The outcome of a sequence of computations: the first failure, or all the results. -/
def Res.all : List (Res R) → Res (List R)
  | [] => .ok []
  | r :: rs => r.bind fun x => (Res.all rs).bind fun xs => .ok (x :: xs)

theorem Trav.runAll_eq (T : Trav K R S) {U : Node K → Prop} (hU : Consistent U)
    (ns : List (Node K)) (hns : ∀ n ∈ ns, U n) (fmap : List (Nat × R)) (smap : List (Nat × S))
    (hf : T.FOk U fmap) (hs : T.SOk U smap) :
    ∃ N, ∀ fuel, N ≤ fuel →
      T.runAll fuel fmap smap ns = some (Res.all (ns.map fun n => T.naive n.toExpr)) := by
  induction ns generalizing fmap smap with
  | nil => exact ⟨0, fun _ _ => rfl⟩
  | cons n ns ih =>
    have h := T.proc hU n.size n (le_refl _) (hns n List.mem_cons_self) [] [] fmap smap hf hs
    simp only [List.map_cons, Res.all]
    cases hn : T.naive n.toExpr with
    | throw =>
      simp only [hn] at h
      obtain ⟨k, hk⟩ := h
      refine ⟨k, fun fuel hfuel => ?_⟩
      obtain ⟨m, rfl⟩ := Nat.exists_eq_add_of_le hfuel
      simp [Trav.runAll, Trav.run, Trav.loop, hk m]
    | ub =>
      simp only [hn] at h
      obtain ⟨k, hk⟩ := h
      refine ⟨k, fun fuel hfuel => ?_⟩
      obtain ⟨m, rfl⟩ := Nat.exists_eq_add_of_le hfuel
      simp [Trav.runAll, Trav.run, Trav.loop, hk m]
    | ok r =>
      simp only [hn] at h
      obtain ⟨fmap', smap', ⟨k, hk⟩, hf', hs', -, -⟩ := h
      obtain ⟨N, hN⟩ := ih (fun m hm => hns m (List.mem_cons_of_mem _ hm)) fmap' smap' hf' hs'
      refine ⟨max k N, fun fuel hfuel => ?_⟩
      obtain ⟨m, rfl⟩ := Nat.exists_eq_add_of_le (le_trans (le_max_left _ _) hfuel)
      have h1 := (hk m).trans (loopUntil_done (by simp) m)
      simp [Trav.runAll, Trav.run, Trav.loop, h1, hN _ (le_trans (le_max_right _ _) hfuel)]

/-- C04: on every heap and for every sequence of expressions, the machine with the stack and the
caches ends, does not fail any assertion of its own, and returns what plain recursion returns
(including the exceptions). -/
theorem traversal_eq_recursion (T : Trav K R S) (h : Heap K) (hv : h.Valid) (roots : List (Ref K))
    (hr : ∀ r ∈ roots, r.Below h.length) :
    ∃ N, ∀ fuel, N ≤ fuel →
      T.runAll fuel [] [] (roots.map h.unfold) =
        some (Res.all (roots.map fun r => T.naive (h.unfold r).toExpr)) := by
  obtain ⟨N, hN⟩ := T.runAll_eq (Heap.consistent hv) (roots.map h.unfold)
    (by
      intro n hn
      obtain ⟨r, hr', rfl⟩ := List.mem_map.1 hn
      exact ⟨r, hr r hr', rfl⟩) [] []
    (by intro id r h; simp at h) (by intro k s h; simp at h)
  refine ⟨N, fun fuel hf => ?_⟩
  rw [hN fuel hf, List.map_map]
  rfl

/-- C04 for `ex_traverse_transform_nodes()`: every leaf is replaced by its transform, and every
function by the transform of the function applied to the transformed arguments. -/
theorem transform_nodes_eq_recursion (leaf branch : Expr K → Expr K) (h : Heap K) (hv : h.Valid)
    (roots : List (Ref K)) (hr : ∀ r ∈ roots, r.Below h.length) :
    ∃ N, ∀ fuel, N ≤ fuel →
      (transformNodes leaf branch).runAll fuel [] [] (roots.map h.unfold) =
        some (.ok (roots.map fun r => (h.unfold r).toExpr.mapNodes leaf branch)) := by
  obtain ⟨N, hN⟩ := traversal_eq_recursion (transformNodes leaf branch) h hv roots hr
  refine ⟨N, fun fuel hf => (hN fuel hf).trans ?_⟩
  congr 1
  clear hN hr
  induction roots with
  | nil => rfl
  | cons r rs ih =>
    rw [List.map_cons, Res.all, transformNodes_naive, ih]
    rfl

/-- C04 for `diff()`: the derivatives of a list of expressions computed with the caches are those of
the recursive definition. -/
theorem diff_eq_recursion [Field K] [LinearOrder K] [FloorRing K] [Interp K] (x : DVar)
    (h : Heap K) (hv : h.Valid) (roots : List (Ref K)) (hr : ∀ r ∈ roots, r.Below h.length) :
    ∃ N, ∀ fuel, N ≤ fuel →
      (diffTrav x).runAll fuel [] [] (roots.map h.unfold) =
        some (Res.all (roots.map fun r => (h.unfold r).toExpr.diff x)) := by
  obtain ⟨N, hN⟩ := traversal_eq_recursion (diffTrav x) h hv roots hr
  refine ⟨N, fun fuel hf => (hN fuel hf).trans ?_⟩
  simp only [diffTrav_naive]

theorem visitAll_eq {U : Node K → Prop} (hU : Consistent U) (ns : List (Node K))
    (hns : ∀ n ∈ ns, U n) (fset sset : List Nat) (acc : List (Expr K)) (hf : VF U fset acc)
    (hs : VS U sset acc) :
    ∃ N acc', (∀ fuel, N ≤ fuel → visitAll fuel fset sset acc ns = some (.ok acc')) ∧
      ∀ x, x ∈ acc' ↔ x ∈ acc ∨ ∃ n ∈ ns, x ∈ Expr.leaves n.toExpr := by
  induction ns generalizing fset sset acc with
  | nil => exact ⟨0, acc, fun _ _ => rfl, by simp⟩
  | cons n ns ih =>
    obtain ⟨fs, ss, ac, ⟨k, hk⟩, hf1, hs1, -, -, hx⟩ := vproc hU n.size n (le_refl _)
      (hns n List.mem_cons_self) [] fset sset acc hf hs
    obtain ⟨N, ac', hN, hx'⟩ := ih (fun m hm => hns m (List.mem_cons_of_mem _ hm)) fs ss ac hf1 hs1
    refine ⟨max k N, ac', fun fuel hfuel => ?_, ?_⟩
    · obtain ⟨m, rfl⟩ := Nat.exists_eq_add_of_le (le_trans (le_max_left _ _) hfuel)
      have h1 := (hk m).trans (loopUntil_done (by simp) m)
      simp [visitAll, visitLoop, h1, hN _ (le_trans (le_max_right _ _) hfuel)]
    · intro x
      rw [hx', hx]
      simp [or_assoc]

/-- C04 for `ex_traverse_visit_leaves()`: the visit ends without failing an assertion, and what is
passed to the visitor are exactly the leaves of the expressions. -/
theorem visit_leaves_exact (h : Heap K) (hv : h.Valid) (roots : List (Ref K))
    (hr : ∀ r ∈ roots, r.Below h.length) :
    ∃ N visited, (∀ fuel, N ≤ fuel →
        visitAll fuel [] [] [] (roots.map h.unfold) = some (.ok visited)) ∧
      ∀ x, x ∈ visited ↔ ∃ r ∈ roots, x ∈ Expr.leaves (h.unfold r).toExpr := by
  obtain ⟨N, acc, hN, hx⟩ := visitAll_eq (Heap.consistent hv) (roots.map h.unfold)
    (by
      intro n hn
      obtain ⟨r, hr', rfl⟩ := List.mem_map.1 hn
      exact ⟨r, hr r hr', rfl⟩) [] [] []
    (by intro id h; simp at h) (by intro k h; simp at h)
  refine ⟨N, acc, hN, fun x => ?_⟩
  rw [hx]
  simp

theorem anyAll_eq {U : Node K → Prop} (p : Expr K → Bool) (hU : Consistent U) (ns : List (Node K))
    (hns : ∀ n ∈ ns, U n) (fset sset : List Nat) (hf : AF U p fset) (hs : AS U p sset) :
    ∃ N, ∀ fuel, N ≤ fuel →
      anyAll p fuel fset sset ns = some (.ok (ns.any fun n => Expr.anyNode p n.toExpr)) := by
  induction ns generalizing fset sset with
  | nil => exact ⟨0, fun _ _ => rfl⟩
  | cons n ns ih =>
    rcases aproc p hU n.size n (le_refl _) (hns n List.mem_cons_self) [] fset sset hf hs with
      ⟨ht, fs, ss, ⟨k, hk⟩⟩ | ⟨ht, fs, ss, ⟨k, hk⟩, hf1, hs1, -, -⟩
    · refine ⟨k, fun fuel hfuel => ?_⟩
      obtain ⟨m, rfl⟩ := Nat.exists_eq_add_of_le hfuel
      have h1 := (hk m).trans (loopUntil_done (by simp) m)
      simp [anyAll, anyLoop, h1, ht]
    · obtain ⟨N, hN⟩ := ih (fun m hm => hns m (List.mem_cons_of_mem _ hm)) fs ss hf1 hs1
      refine ⟨max k N, fun fuel hfuel => ?_⟩
      obtain ⟨m, rfl⟩ := Nat.exists_eq_add_of_le (le_trans (le_max_left _ _) hfuel)
      have h1 := (hk m).trans (loopUntil_done (by simp) m)
      simp [anyAll, anyLoop, h1, ht, hN _ (le_trans (le_max_right _ _) hfuel)]

/-- C04 for `ex_traverse_test_any()`: the test ends without failing an assertion and tells if some
node of some expression satisfies the predicate. -/
theorem test_any_exact (p : Expr K → Bool) (h : Heap K) (hv : h.Valid) (roots : List (Ref K))
    (hr : ∀ r ∈ roots, r.Below h.length) :
    ∃ N, ∀ fuel, N ≤ fuel →
      anyAll p fuel [] [] (roots.map h.unfold) =
        some (.ok (roots.any fun r => Expr.anyNode p (h.unfold r).toExpr)) := by
  obtain ⟨N, hN⟩ := anyAll_eq p (Heap.consistent hv) (roots.map h.unfold)
    (by
      intro n hn
      obtain ⟨r, hr', rfl⟩ := List.mem_map.1 hn
      exact ⟨r, hr r hr', rfl⟩) [] [] (by intro id h; simp at h) (by intro k h; simp at h)
  refine ⟨N, fun fuel hf => ?_⟩
  rw [hN fuel hf, List.any_map]
  rfl

mutual
/-- The number of nodes of an expression tree (specification). -/
def Expr.countNodes : Expr K → Nat
  | .fn _ args => 1 + Expr.countNodesL args
  | _ => 1
/-- The number of nodes of a list of expression trees. -/
def Expr.countNodesL : List (Expr K) → Nat
  | [] => 0
  | e :: es => Expr.countNodes e + Expr.countNodesL es
end

mutual
theorem Node.size_eq_countNodes : ∀ n : Node K, n.size = n.toExpr.countNodes
  | .num _ => rfl
  | .var _ => rfl
  | .par _ => rfl
  | .fn _ _ _ args => by
    rw [Node.size, Node.toExpr, Expr.countNodes, Node.sizeL_eq_countNodesL args, Nat.add_comm]
theorem Node.sizeL_eq_countNodesL :
    ∀ ns : List (Node K), Node.sizeL ns = Expr.countNodesL (Node.toExprL ns)
  | [] => rfl
  | n :: ns => by
    rw [Node.sizeL, Node.toExprL, Expr.countNodesL, Node.size_eq_countNodes n,
      Node.sizeL_eq_countNodesL ns]
end

/-- C04 for `get_n_nodes()`: the number of nodes of the unfolded tree, or zero if it does not fit
into the counter. -/
theorem get_n_nodes_exact (M : Nat) (h : Heap K) (hv : h.Valid) (r : Ref K)
    (hr : r.Below h.length) :
    ∃ N, ∀ fuel, N ≤ fuel →
      getNNodes M fuel (h.unfold r) =
        some (.ok (if (h.unfold r).toExpr.countNodes ≤ M then (h.unfold r).toExpr.countNodes
          else 0)) := by
  rw [← Node.size_eq_countNodes]
  rcases cproc M (Heap.consistent hv) _ (h.unfold r) (le_refl _) ⟨r, hr, rfl⟩ [] [] [] 0
    (by intro id c h; simp at h) (by intro id c h; simp at h) (Nat.zero_le _) with
    ⟨hle, fm, sm, ⟨k, hk⟩, -⟩ | ⟨hlt, ⟨k, hk⟩⟩
  · refine ⟨k, fun fuel hfuel => ?_⟩
    obtain ⟨m, rfl⟩ := Nat.exists_eq_add_of_le hfuel
    have h1 := (hk m).trans (loopUntil_done (by simp) m)
    rw [getNNodes, h1, if_pos (by omega)]
    simp
  · refine ⟨k, fun fuel hfuel => ?_⟩
    obtain ⟨m, rfl⟩ := Nat.exists_eq_add_of_le hfuel
    rw [getNNodes, hk m, if_neg (by omega)]
    rfl

/-! ### A concrete case -/

/-- A heap with sharing: `#0 = sin(x)`, `#1 = #0 * #0` with a shared argument list, `#2 = #0 + #0`
with the same argument list, `#3 = #1 + #2 + p0`. -/
def exampleHeap : Heap ℚ :=
  [⟨none, .sin false, [.var "x"]⟩, ⟨some 7, .prod false, [.obj 0, .obj 0]⟩,
   ⟨some 7, .sum, [.obj 0, .obj 0]⟩, ⟨none, .sum, [.obj 1, .obj 2, .par 0]⟩]

theorem exampleHeap_valid : exampleHeap.Valid := by
  constructor
  · intro i o ho r hr
    match i, ho with
    | 0, ho => cases ho; simp_all [Ref.Below]
    | 1, ho => cases ho; simp_all [Ref.Below]
    | 2, ho => cases ho; simp_all [Ref.Below]
    | 3, ho =>
      cases ho
      simp only [List.mem_cons, List.not_mem_nil, or_false] at hr
      rcases hr with rfl | rfl | rfl <;> simp [Ref.Below]
    | n + 4, ho => simp [exampleHeap] at ho
  · intro i j o o' k ho ho' hs hs'
    match i, ho, j, ho' with
    | 0, ho, _, _ => cases ho; simp at hs
    | 3, ho, _, _ => cases ho; simp at hs
    | _, _, 0, ho' => cases ho'; simp at hs'
    | _, _, 3, ho' => cases ho'; simp at hs'
    | 1, ho, 1, ho' => cases ho; cases ho'; rfl
    | 1, ho, 2, ho' => cases ho; cases ho'; rfl
    | 2, ho, 1, ho' => cases ho; cases ho'; rfl
    | 2, ho, 2, ho' => cases ho; cases ho'; rfl
    | n + 4, ho, _, _ => simp [exampleHeap] at ho
    | _, _, n + 4, ho' => simp [exampleHeap] at ho'

/-- The unfolded tree has 12 nodes. Seven of them are functions, so that 19 iterations would be needed
without the caches; with them 10 are enough. -/
example : getNNodes 1000 10 (exampleHeap.unfold (.obj 3)) = some (.ok 12) := by decide +kernel

example : (subsTrav fun s => if s = "x" then some (.par 3) else none).runAll 10 [] []
    [exampleHeap.unfold (.obj 3), exampleHeap.unfold (.obj 2)] = some (.ok
      [.fn .sum [.fn (.prod false) [.fn (.sin false) [.par 3], .fn (.sin false) [.par 3]],
        .fn .sum [.fn (.sin false) [.par 3], .fn (.sin false) [.par 3]], .par 0],
       .fn .sum [.fn (.sin false) [.par 3], .fn (.sin false) [.par 3]]]) := by
  with_unfolding_all rfl

end Heyoka.Sym
