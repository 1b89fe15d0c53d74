import Verif.Expr.Basic
import Verif.Util.Res

/-!
# The iterative traversal of expressions with caches

In heyoka an expression is a directed acyclic graph: the function objects are reference-counted
(`func`, identified by `get_ptr()`), and the argument lists of several functions can be the same
object (`func_args` with shared ownership, identified by the address returned by `shared_args()`).
All the algorithms walking over an expression use an explicit stack, a cache keyed by the identity
of the functions and a cache keyed by the identity of the shared argument lists:

- `ex_traverse_transform_nodes()` (`src/detail/ex_traversal.cpp` 35-180), used by `subs()`,
  `rename_variables()`, `copy()` and the rewrites of sums and products;
- `subs()` with a map of expressions (`src/expression_basic.cpp` 779-967);
- `diff_impl()` (`src/expression_diff.cpp` 68-256);
- `hash()` (`src/expression_basic.cpp` 391-536);
- `ex_traverse_visit_leaves()` (`src/detail/ex_traversal.cpp` 185-264), used by `get_variables()`,
  `get_params()`, `get_param_size()`;
- `ex_traverse_test_any()` (`src/detail/ex_traversal.cpp` 270-366), used by `is_time_dependent()`.

The first four are instances of one machine (`Trav`), with different results for the nodes and for
the argument lists.

A graph is modelled by its unfolding into a tree whose function nodes carry the identity of the
function object and, optionally, the identity of the argument list. That nodes with the same
identity are the same node is a hypothesis of the theorems (`Consistent`): the objects are immutable
and stay alive during the traversal.
-/

set_option linter.unusedSectionVars false

namespace Heyoka.Sym

variable {K : Type}

/-- An expression with the identities of its function objects and shared argument lists. -/
inductive Node (K : Type) where
  | num (n : Num K)
  | var (name : String)
  | par (idx : Nat)
  | fn (id : Nat) (sid : Option Nat) (f : Fn K) (args : List (Node K))

mutual
/-- The expression represented by a graph (forgetting the identities). -/
def Node.toExpr : Node K → Expr K
  | .num n => .num n
  | .var s => .var s
  | .par i => .par i
  | .fn _ _ f args => .fn f (Node.toExprL args)
/-- The expressions represented by a list of graphs. -/
def Node.toExprL : List (Node K) → List (Expr K)
  | [] => []
  | n :: ns => Node.toExpr n :: Node.toExprL ns
end

theorem Node.toExprL_eq_map (ns : List (Node K)) : Node.toExprL ns = ns.map Node.toExpr := by
  induction ns with
  | nil => simp [Node.toExprL]
  | cons n ns ih => simp [Node.toExprL, ih]

mutual
/-- The number of nodes of the unfolded tree. -/
def Node.size : Node K → Nat
  | .fn _ _ _ args => Node.sizeL args + 1
  | _ => 1
/-- The number of nodes of the unfolded trees. -/
def Node.sizeL : List (Node K) → Nat
  | [] => 0
  | n :: ns => Node.size n + Node.sizeL ns
end

/-- A loop `while (!done)`: `none` if it has not ended after `fuel` iterations; it stops if an
iteration throws or fails an assertion. -/
def loopUntil {σ : Type} (done : σ → Bool) (step : σ → Res σ) : Nat → σ → Option (Res σ)
  | 0, st => if done st then some (.ok st) else none
  | fuel + 1, st =>
    if done st then some (.ok st)
    else match step st with
      | .ok st' => loopUntil done step fuel st'
      | .throw => some .throw
      | .ub => some .ub

/-- The parameters of a traversal: `R` is the type of the result for a node, `S` the type of the
result for an argument list. -/
structure Trav (K R S : Type) where
  /-- results known in advance: the substitution map (`expression_basic.cpp` 815-829) -/
  pre : Expr K → Option R
  /-- the result for a leaf -/
  leaf : Expr K → R
  /-- the result for an argument list -/
  comb : List R → S
  /-- the result for a function, given its original arguments and the result for the argument list -/
  fin : Fn K → List (Expr K) → S → Res R
  /-- are the caches updated also if the traversal is about to end? (`expression_basic.cpp` 446-457) -/
  cacheLast : Bool

/-- The state of the machine: the traversal stack and the stack of the results (top first; `none` is
the empty placeholder), the cache of the functions and the cache of the argument lists. -/
structure TState (K R S : Type) where
  stack : List (Node K × Bool)
  out : List (Option R)
  fmap : List (Nat × R)
  smap : List (Nat × S)

variable {R S : Type}

/-- The loop collecting the results for the arguments (`ex_traversal.cpp` 80-92). An empty stack or
an empty placeholder is excluded by assertions. -/
def popArgs : Nat → List (Option R) → Res (List R × List (Option R))
  | 0, out => .ok ([], out)
  | _ + 1, [] => .ub
  | _ + 1, none :: _ => .ub
  | n + 1, some r :: out => (popArgs n out).bind fun (rs, out') => .ok (r :: rs, out')

/-- Recording the result for an argument list, if it is shared (`ex_traversal.cpp` 96-104). -/
def addShared {α : Type} (sid : Option Nat) (s : α) (smap : List (Nat × α)) : List (Nat × α) :=
  match sid with
  | some k => (k, s) :: smap
  | none => smap

/-- One iteration of the loop (`ex_traversal.cpp` 49-172, `expression_basic.cpp` 788-934,
`expression_diff.cpp` 117-244, `expression_basic.cpp` 401-521). Failed assertions are `ub`. -/
def Trav.step (T : Trav K R S) (st : TState K R S) : Res (TState K R S) :=
  match st.stack with
  | [] => .ok st
  | (.fn id sid f args, true) :: rest =>
    -- assert(!func_map.contains(f_id))
    if (st.fmap.lookup id).isSome then .ub else
    (popArgs args.length st.out).bind fun (rs, out) =>
      let s := T.comb rs
      (T.fin f (Node.toExprL args) s).bind fun r =>
        -- assert(!sargs_map.contains(&*shared_args))
        if (sid.bind (st.smap.lookup ·)).isSome then .ub else
        match out with
        | none :: out =>
          if T.cacheLast || !rest.isEmpty then
            .ok { stack := rest, out := some r :: out, fmap := (id, r) :: st.fmap,
                  smap := addShared sid s st.smap }
          else .ok { st with stack := rest, out := some r :: out }
        -- assert(!out_stack.empty()), assert(!out_stack.back())
        | _ => .ub
  | (.fn id sid f args, false) :: rest =>
    match st.fmap.lookup id with
    | some r => .ok { st with stack := rest, out := some r :: st.out }
    | none =>
      match T.pre (.fn f (Node.toExprL args)) with
      | some r => .ok { st with stack := rest, out := some r :: st.out, fmap := (id, r) :: st.fmap }
      | none =>
        match sid.bind (st.smap.lookup ·) with
        | some s =>
          (T.fin f (Node.toExprL args) s).bind fun r =>
            .ok { st with stack := rest, out := some r :: st.out, fmap := (id, r) :: st.fmap }
        | none =>
          .ok { st with
            stack := args.reverse.map (·, false) ++ (.fn id sid f args, true) :: rest
            out := none :: st.out }
  -- assert(!visited)
  | (_, true) :: _ => .ub
  | (n, false) :: rest =>
    .ok { st with stack := rest, out := some ((T.pre n.toExpr).getD (T.leaf n.toExpr)) :: st.out }

/-- The loop `while (!stack.empty())`. -/
def Trav.loop (T : Trav K R S) : Nat → TState K R S → Option (Res (TState K R S)) :=
  loopUntil (fun st => st.stack.isEmpty) T.step

/-- The traversal of a single expression, starting with the given caches: the result and the updated
caches. At the end there must be exactly one result (assertions at `ex_traversal.cpp` 174-175). -/
def Trav.run (T : Trav K R S) (fuel : Nat) (fmap : List (Nat × R)) (smap : List (Nat × S))
    (n : Node K) : Option (Res (R × List (Nat × R) × List (Nat × S))) :=
  (T.loop fuel ⟨[(n, false)], [], fmap, smap⟩).map fun r => r.bind fun st =>
    match st.out with
    | [some r] => .ok (r, st.fmap, st.smap)
    | _ => .ub

/-- The traversal of several expressions, sharing the caches (e.g. `expression_basic.cpp` 367-383,
760-774). -/
def Trav.runAll (T : Trav K R S) (fuel : Nat) :
    List (Nat × R) → List (Nat × S) → List (Node K) → Option (Res (List R))
  | _, _, [] => some (.ok [])
  | fmap, smap, n :: ns =>
    match T.run fuel fmap smap n with
    | none => none
    | some .throw => some .throw
    | some .ub => some .ub
    | some (.ok (r, fmap', smap')) =>
      match T.runAll fuel fmap' smap' ns with
      | none => none
      | some rs => some (rs.bind fun rs => .ok (r :: rs))

/-! ### Specification: plain recursion -/

mutual
/-- The result for an expression by plain recursion, without caches. -/
def Trav.naive (T : Trav K R S) : Expr K → Res R
  | .fn f args =>
    match T.pre (.fn f args) with
    | some r => .ok r
    | none => (Trav.naiveL T args).bind fun rs => T.fin f args (T.comb rs)
  | .num n => .ok ((T.pre (.num n)).getD (T.leaf (.num n)))
  | .var s => .ok ((T.pre (.var s)).getD (T.leaf (.var s)))
  | .par i => .ok ((T.pre (.par i)).getD (T.leaf (.par i)))
/-- The results for a list of expressions, the last one first (this only matters for which error is
reported if there are several). -/
def Trav.naiveL (T : Trav K R S) : List (Expr K) → Res (List R)
  | [] => .ok []
  | e :: es => (Trav.naiveL T es).bind fun rs => (Trav.naive T e).bind fun r => .ok (r :: rs)
end

/-- A set of nodes closed under arguments in which the identities are identities. -/
structure Consistent (U : Node K → Prop) : Prop where
  closed : ∀ {id sid f args}, U (.fn id sid f args) → ∀ a ∈ args, U a
  id_inj : ∀ {id sid f args sid' f' args'}, U (.fn id sid f args) → U (.fn id sid' f' args') →
    Node.fn id sid f args = Node.fn id sid' f' args'
  sid_inj : ∀ {k id f args id' f' args'}, U (.fn id (some k) f args) →
    U (.fn id' (some k) f' args') → args = args'

/-! ### `ex_traverse_visit_leaves()` -/

/-- State of `ex_traverse_visit_leaves()`: the stack, the visited functions, the visited argument
lists, the leaves passed to the visitor so far (latest first). -/
structure VState (K : Type) where
  stack : List (Node K × Bool)
  fset : List Nat
  sset : List Nat
  acc : List (Expr K)

/-- One iteration (`ex_traversal.cpp` 196-263). -/
def visitStep (st : VState K) : Res (VState K) :=
  match st.stack with
  | [] => .ok st
  | (.fn id sid _ _, true) :: rest =>
    if st.fset.contains id then .ub
    else match sid with
      | some k =>
        if st.sset.contains k then .ub
        else .ok { st with stack := rest, fset := id :: st.fset, sset := k :: st.sset }
      | none => .ok { st with stack := rest, fset := id :: st.fset }
  | (.fn id sid f args, false) :: rest =>
    if st.fset.contains id then .ok { st with stack := rest }
    else if sid.any st.sset.contains then .ok { st with stack := rest, fset := id :: st.fset }
    else .ok { st with stack := args.reverse.map (·, false) ++ (.fn id sid f args, true) :: rest }
  | (_, true) :: _ => .ub
  | (n, false) :: rest => .ok { st with stack := rest, acc := n.toExpr :: st.acc }

/-- The loop of `ex_traverse_visit_leaves()`. -/
def visitLoop : Nat → VState K → Option (Res (VState K)) :=
  loopUntil (fun st => st.stack.isEmpty) visitStep

/-- The visits of several expressions, sharing the sets: all the leaves visited. -/
def visitAll (fuel : Nat) : List Nat → List Nat → List (Expr K) → List (Node K) →
    Option (Res (List (Expr K)))
  | _, _, acc, [] => some (.ok acc)
  | fset, sset, acc, n :: ns =>
    match visitLoop fuel ⟨[(n, false)], fset, sset, acc⟩ with
    | none => none
    | some .throw => some .throw
    | some .ub => some .ub
    | some (.ok st) => visitAll fuel st.fset st.sset st.acc ns

/-! ### `ex_traverse_test_any()` -/

/-- State of `ex_traverse_test_any()`; `found` is the return value. -/
structure AState (K : Type) where
  stack : List (Node K × Bool)
  fset : List Nat
  sset : List Nat
  found : Bool

/-- One iteration (`ex_traversal.cpp` 286-363); `break` empties the stack. -/
def anyStep (pred : Expr K → Bool) (st : AState K) : Res (AState K) :=
  match st.stack with
  | [] => .ok st
  | (.fn id sid _ _, true) :: rest =>
    if st.fset.contains id then .ub
    else match sid with
      | some k =>
        if st.sset.contains k then .ub
        else .ok { st with stack := rest, fset := id :: st.fset, sset := k :: st.sset }
      | none => .ok { st with stack := rest, fset := id :: st.fset }
  | (.fn id sid f args, false) :: rest =>
    if st.fset.contains id then .ok { st with stack := rest }
    else if pred (.fn f (Node.toExprL args)) then .ok { st with stack := [], found := true }
    else if sid.any st.sset.contains then .ok { st with stack := rest, fset := id :: st.fset }
    else .ok { st with stack := args.reverse.map (·, false) ++ (.fn id sid f args, true) :: rest }
  | (_, true) :: _ => .ub
  | (n, false) :: rest =>
    if pred n.toExpr then .ok { st with stack := [], found := true }
    else .ok { st with stack := rest }

/-- The loop of `ex_traverse_test_any()`. -/
def anyLoop (pred : Expr K → Bool) : Nat → AState K → Option (Res (AState K)) :=
  loopUntil (fun st => st.stack.isEmpty) (anyStep pred)

/-- The tests of several expressions, sharing the sets and stopping at the first success
(`expression_basic.cpp` 1158-1172). -/
def anyAll (pred : Expr K → Bool) (fuel : Nat) : List Nat → List Nat → List (Node K) →
    Option (Res Bool)
  | _, _, [] => some (.ok false)
  | fset, sset, n :: ns =>
    match anyLoop pred fuel ⟨[(n, false)], fset, sset, false⟩ with
    | none => none
    | some .throw => some .throw
    | some .ub => some .ub
    | some (.ok st) => if st.found then some (.ok true) else anyAll pred fuel st.fset st.sset ns

/-! ### `get_n_nodes()` -/

/-- State of `get_n_nodes()`: `ret` is the counter. -/
structure CState (K : Type) where
  stack : List (Node K × Bool)
  fmap : List (Nat × Nat)
  smap : List (Nat × Nat)
  ret : Nat

/-- Addition of checked integers (`boost::safe_numerics::safe`) with maximum `M`. -/
def safeAdd (M a b : Nat) : Res Nat := if a + b ≤ M then .ok (a + b) else .throw

/-- The loop summing the number of nodes of the arguments (`expression_basic.cpp` 630-642). -/
def countArgs (M : Nat) (fmap : List (Nat × Nat)) : Nat → List (Node K) → Res Nat
  | n, [] => .ok n
  | n, .fn id _ _ _ :: as =>
    match fmap.lookup id with
    | none => .ub
    | some c => (safeAdd M n c).bind fun n => countArgs M fmap n as
  | n, _ :: as => (safeAdd M n 1).bind fun n => countArgs M fmap n as

/-- One iteration of `get_n_nodes()` (`expression_basic.cpp` 599-705). -/
def countStep (M : Nat) (st : CState K) : Res (CState K) :=
  match st.stack with
  | [] => .ok st
  | (.fn id sid _ args, true) :: rest =>
    if (st.fmap.lookup id).isSome then .ub else
    (countArgs M st.fmap 1 args).bind fun n =>
      if (sid.bind (st.smap.lookup ·)).isSome then .ub else
      (safeAdd M st.ret 1).bind fun ret =>
        .ok { stack := rest, fmap := (id, n) :: st.fmap, ret := ret
              smap := addShared sid (n - 1) st.smap }
  | (.fn id sid f args, false) :: rest =>
    match st.fmap.lookup id with
    | some n => (safeAdd M st.ret n).bind fun ret => .ok { st with stack := rest, ret := ret }
    | none =>
      match sid.bind (st.smap.lookup ·) with
      | some c =>
        (safeAdd M 1 c).bind fun n => (safeAdd M st.ret n).bind fun ret =>
          .ok { st with stack := rest, fmap := (id, n) :: st.fmap, ret := ret }
      | none =>
        .ok { st with stack := args.reverse.map (·, false) ++ (.fn id sid f args, true) :: rest }
  | (_, true) :: _ => .ub
  | (_, false) :: rest => (safeAdd M st.ret 1).bind fun ret => .ok { st with stack := rest, ret := ret }

/-- `get_n_nodes()` (`expression_basic.cpp` 587-725) with counters up to `M`: overflow yields 0. -/
def getNNodes (M fuel : Nat) (n : Node K) : Option (Res Nat) :=
  (loopUntil (fun st => st.stack.isEmpty) (countStep M) fuel ⟨[(n, false)], [], [], 0⟩).map fun r =>
    match r with
    | .ok st => .ok st.ret
    | .throw => .ok 0
    | .ub => .ub

mutual
/-- The leaves of an expression (specification). -/
def Expr.leaves : Expr K → List (Expr K)
  | .fn _ args => Expr.leavesL args
  | .num n => [.num n]
  | .var s => [.var s]
  | .par i => [.par i]
/-- The leaves of a list of expressions. -/
def Expr.leavesL : List (Expr K) → List (Expr K)
  | [] => []
  | e :: es => Expr.leaves e ++ Expr.leavesL es
end

mutual
/-- Does some node of the expression satisfy the predicate? (specification) -/
def Expr.anyNode (p : Expr K → Bool) : Expr K → Bool
  | .fn f args => p (.fn f args) || Expr.anyNodeL p args
  | .num n => p (.num n)
  | .var s => p (.var s)
  | .par i => p (.par i)
/-- Does some node of some expression satisfy the predicate? -/
def Expr.anyNodeL (p : Expr K → Bool) : List (Expr K) → Bool
  | [] => false
  | e :: es => Expr.anyNode p e || Expr.anyNodeL p es
end

end Heyoka.Sym
