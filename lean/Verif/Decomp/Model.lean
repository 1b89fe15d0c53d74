import Verif.Decomp.Uname
import Verif.Expr.Order
import Verif.Expr.Rewrite
import Verif.Expr.Query

/-!
# Decompositions

A decomposition is a list of elementary expressions: the original variables, then function
applications whose arguments are numbers, parameters or `u` variables (`u_i` stands for the value of
the `i`-th element), then the outputs.
-/

set_option linter.unusedSectionVars false

namespace Heyoka.Sym

variable {K : Type}

/-! ### The construction of the decomposition -/

/-- State of `expression_decompose_impl()` (`src/expression_decompose.cpp` 43-210): the traversal stack,
the stack of the results (top first; `none` is the empty placeholder, `some none` the result for a
leaf, `some (some i)` the index of a decomposed function), the caches of the functions and of the
argument lists, the decomposition. `E` is the type of its elements. -/
structure DState (K E : Type) where
  stack : List (Node K × Bool)
  out : List (Option (Option Nat))
  fmap : List (Nat × Nat)
  smap : List (Nat × List (Expr K))
  dc : List E

variable {E : Type}

/-- Is the node a function? -/
def Node.isFn : Node K → Bool
  | .fn _ _ _ _ => true
  | _ => false

/-- The arguments of the decomposed function (`expression_decompose.cpp` 88-114): `u` variables for the
arguments that are functions, the original arguments otherwise. Failed assertions are `ub`. -/
def newArgs : List (Node K) → List (Option Nat) → Res (List (Expr K))
  | [], [] => .ok []
  | a :: as, some i :: is =>
    if a.isFn then (newArgs as is).bind fun l => .ok (.var (uname i) :: l) else .ub
  | a :: as, none :: is =>
    if a.isFn then .ub else (newArgs as is).bind fun l => .ok (a.toExpr :: l)
  | _, _ => .ub

/-- One iteration (`expression_decompose.cpp` 55-188); `fdc` appends the function with the new arguments
to the decomposition and returns its index. -/
def decStep (fdc : Expr K → List E → Res (Nat × List E)) (st : DState K E) : Res (DState K E) :=
  match st.stack with
  | [] => .ok st
  | (.fn id sid f args, true) :: rest =>
    if (st.fmap.lookup id).isSome then .ub else
    (popArgs args.length st.out).bind fun (is, out) =>
      (newArgs args is).bind fun as =>
        if (sid.bind (st.smap.lookup ·)).isSome then .ub else
        (fdc (.fn f as) st.dc).bind fun (r, dc) =>
          match out with
          | none :: out =>
            .ok { stack := rest, out := some (some r) :: out, fmap := (id, r) :: st.fmap,
                  smap := addShared sid as st.smap, dc := dc }
          | _ => .ub
  | (.fn id sid f args, false) :: rest =>
    match st.fmap.lookup id with
    | some r => .ok { st with stack := rest, out := some (some r) :: st.out }
    | none =>
      match sid.bind (st.smap.lookup ·) with
      | some as =>
        (fdc (.fn f as) st.dc).bind fun (r, dc) =>
          .ok { st with stack := rest, out := some (some r) :: st.out, fmap := (id, r) :: st.fmap,
                        dc := dc }
      | none =>
        .ok { st with
          stack := args.reverse.map (·, false) ++ (.fn id sid f args, true) :: rest
          out := none :: st.out }
  | (_, true) :: _ => .ub
  | (_, false) :: rest => .ok { st with stack := rest, out := some none :: st.out }

/-- The loop `while (!stack.empty())`. -/
def decLoop (fdc : Expr K → List E → Res (Nat × List E)) :
    Nat → DState K E → Option (Res (DState K E)) :=
  loopUntil (fun st => st.stack.isEmpty) (decStep fdc)

/-- The output for a component: a `u` variable, or the component itself if it is not a function
(`src/expression_cfunc.cpp` 836-855). -/
def decOut (e : Expr K) : Option Nat → Expr K
  | some i => .var (uname i)
  | none => e

/-- The decomposition of a list of expressions with shared caches, and the outputs: a `u` variable or the
expression itself (`src/expression_cfunc.cpp` 833-859). -/
def decAll (fdc : Expr K → List E → Res (Nat × List E)) (fuel : Nat) :
    List (Nat × Nat) → List (Nat × List (Expr K)) → List E → List (Node K) →
      Option (Res (List E × List (Expr K)))
  | _, _, dc, [] => some (.ok (dc, []))
  | fmap, smap, dc, n :: ns =>
    match decLoop fdc fuel ⟨[(n, false)], [], fmap, smap, dc⟩ with
    | none => none
    | some .throw => some .throw
    | some .ub => some .ub
    | some (.ok st) =>
      match st.out with
      | [some r] =>
        match decAll fdc fuel st.fmap st.smap st.dc ns with
        | none => none
        | some rs => some (rs.bind fun (dc', outs) =>
            .ok (dc', decOut n.toExpr r :: outs))
      | _ => some .ub

/-- The function object used by `decompose()` (`expression_decompose.cpp` 218-228). -/
def fdcAppend (e : Expr K) (dc : List (Expr K)) : Res (Nat × List (Expr K)) :=
  .ok (dc.length, dc ++ [e])

/-! ### The evaluation of a decomposition -/

section
variable [Field K] [LinearOrder K] [Interp K]

/-- The code generated for an argument (`src/expression_cfunc.cpp` 932-953): `vector::at()` throws for an
invalid index. -/
def argEval (v : Env K) (arr : List (Option K)) : Expr K → Res (Option K)
  | .var s => (unameToIndex s).bind fun i =>
    match arr[i]? with
    | some x => .ok x
    | none => .throw
  | .num n => .ok n.toK?
  | .par i => .ok (some (v.par i))
  | .fn _ _ => .throw

/-- The code generated for a list of arguments. -/
def argsEval (v : Env K) (arr : List (Option K)) : List (Expr K) → Res (List (Option K))
  | [] => .ok []
  | a :: as => (argEval v arr a).bind fun x => (argsEval v arr as).bind fun xs => .ok (x :: xs)

/-- The values of a list, if all of them are defined. -/
def allSome {α : Type} : List (Option α) → Option (List α)
  | [] => some []
  | x :: xs => x.bind fun y => (allSome xs).map (y :: ·)

/-- The value of a function at possibly undefined arguments: undefined (NaN) if one of them is. -/
def appO (v : Env K) : Fn K → List (Option K) → Option K
  | .time, [] => some v.time
  | f, xs => (allSome xs).bind (Interp.app f)

/-- `llvm_eval()` (`src/expression_cfunc.cpp` 913-958): the value of an element of the decomposition, given
the values of the previous ones. Elements in the middle part are functions (assertion at 985). -/
def elemEval (v : Env K) (arr : List (Option K)) : Expr K → Res (Option K)
  | .fn f args => (argsEval v arr args).bind fun xs => .ok (appO v f xs)
  | _ => .ub

/-- The loop over the middle part (`src/expression_cfunc.cpp` 984-989). -/
def runElems (v : Env K) : List (Option K) → List (Expr K) → Res (List (Option K))
  | arr, [] => .ok arr
  | arr, e :: es => (elemEval v arr e).bind fun x => runElems v (arr ++ [x]) es

/-- The loop writing the outputs (`src/expression_cfunc.cpp` 992-1020). -/
def runOuts (v : Env K) (arr : List (Option K)) : List (Expr K) → Res (List (Option K))
  | [] => .ok []
  | .var s :: es => (unameToIndex s).bind fun i =>
    match arr[i]? with
    | some x => (runOuts v arr es).bind fun xs => .ok (x :: xs)
    | none => .ub
  | .num n :: es => (runOuts v arr es).bind fun xs => .ok (n.toK? :: xs)
  | .par i :: es => (runOuts v arr es).bind fun xs => .ok (some (v.par i) :: xs)
  | .fn _ _ :: _ => .ub

/-- The middle part of a decomposition. -/
def dcMid (nvars nouts : Nat) (dc : List (Expr K)) : List (Expr K) :=
  (dc.drop nvars).take (dc.length - nouts - nvars)

/-- The outputs of a decomposition. -/
def dcOuts (nouts : Nat) (dc : List (Expr K)) : List (Expr K) := dc.drop (dc.length - nouts)

/-- `add_cfunc_nc_mode()` (`src/expression_cfunc.cpp` 961-1021): the evaluation of the whole decomposition
for the inputs `ins`; `none` among the results is a NaN or an infinity. -/
def evalDc (v : Env K) (nvars nouts : Nat) (ins : List K) (dc : List (Expr K)) :
    Res (List (Option K)) :=
  if ins.length ≠ nvars ∨ dc.length < nvars + nouts then .ub else
  (runElems v (ins.map some) (dcMid nvars nouts dc)).bind fun arr =>
    runOuts v arr (dcOuts nouts dc)

end

/-! ### Common subexpression elimination -/

/-- A renaming by a map of names given by its entries. -/
def renameIn (m : List (String × String)) : Expr K → Expr K :=
  Expr.mapNodes (renameLeaf fun s => m.lookup s) id

section
variable [Field K] [LinearOrder K] [FmtName K]

/-- The loop over the middle part of `function_decompose_cse()` (`src/expression_cfunc.cpp` 239-281): `i` is
the index of the next element, `ret` the new decomposition, `exMap` maps the expressions found so
far to their indices, `ren` renames the `u` variables. The caches of `rename_variables_impl()` are
kept during the loop although the map grows; see `rename_growing_maps`. -/
def cseLoop : Nat → List (Expr K) → List (Expr K × Nat) → List (String × String) →
    List (Expr K) → List (Expr K) × List (String × String)
  | _, ret, _, ren, [] => (ret, ren)
  | i, ret, exMap, ren, e :: es =>
    let e' := renameIn ren e
    match exMap.find? fun p => !p.1.blt e' && !e'.blt p.1 with
    | some p => cseLoop (i + 1) ret exMap ((uname i, uname p.2) :: ren) es
    | none =>
      cseLoop (i + 1) (ret ++ [e']) ((e', ret.length) :: exMap) ((uname i, uname ret.length) :: ren) es

/-- `function_decompose_cse()` (`src/expression_cfunc.cpp` 198-305). -/
def cse (nvars nouts : Nat) (dc : List (Expr K)) : List (Expr K) :=
  let r := cseLoop nvars (dc.take nvars) [] [] (dcMid nvars nouts dc)
  r.1 ++ (dcOuts nouts dc).map (renameIn r.2)

end

/-! ### Topological sort -/

/-- `get_variables()` of a single expression, by plain recursion (the traversal with caches gives the
same set, see C05). -/
def Expr.variables (e : Expr K) : List String := sortedSet (e.leaves.filterMap leafVar)

/-- The edges of the dependency graph, as (source, target) (`src/expression_cfunc.cpp` 340-383): the vertex
0 is the root, the vertex `i + 1` is the element `i`. The variables depend on the root, the other
elements on the variables they contain, or on the root if they contain none. -/
def elemEdges (nvars i : Nat) (e : Expr K) : Res (List (Nat × Nat)) :=
  if i < nvars then .ok [(0, i + 1)]
  else
    let vars := e.variables
    if vars.isEmpty then .ok [(0, i + 1)]
    else vars.foldr (fun s acc => (unameToIndex s).bind fun j => acc.bind fun l => .ok ((j + 1, i + 1) :: l))
      (.ok [])

/-- The edges of the graph of a decomposition without its outputs, starting with the element `i`. -/
def graphEdges (nvars : Nat) : Nat → List (Expr K) → Res (List (Nat × Nat))
  | _, [] => .ok []
  | i, e :: es => (elemEdges nvars i e).bind fun l => (graphEdges nvars (i + 1) es).bind fun ls =>
    .ok (l ++ ls)

/-- The loop over the sorted targets `ts` of the out edges of `v` (`src/expression_cfunc.cpp` 424-438):
remove the edge, and append the target to the queue if no edge to it is left. -/
def kahnTargets (v : Nat) : List Nat → List (Nat × Nat) → List Nat → List (Nat × Nat) × List Nat
  | [], es, q => (es, q)
  | t :: ts, es, q =>
    let es := es.erase (v, t)
    if es.any (fun p => p.2 == t) then kahnTargets v ts es q else kahnTargets v ts es (q ++ [t])

/-- The loop `while (!tmp.empty())` (`src/expression_cfunc.cpp` 404-439): `q` is the queue, `res` the result.
`none` if it has not ended after `fuel` iterations. -/
def kahnLoop : Nat → List (Nat × Nat) → List Nat → List Nat → Option (List Nat × List (Nat × Nat))
  | _, es, [], res => some (res, es)
  | 0, _, _ :: _, _ => none
  | fuel + 1, es, v :: q, res =>
    let ts := ((es.filter fun p => p.1 == v).map (·.2)).insertionSort (· ≤ ·)
    let r := kahnTargets v ts es q
    kahnLoop fuel r.1 r.2 (res ++ [v])

/-- `function_sort_dc()` (`src/expression_cfunc.cpp` 316-489). `none` if the loop has not ended after `fuel`
iterations. The assertions on the result of the loop are `ub`. -/
def sortDc (fuel nvars nouts : Nat) (dc : List (Expr K)) : Option (Res (List (Expr K))) :=
  let n := dc.length - nouts
  match graphEdges nvars 0 (dc.take n) with
  | .throw => some .throw
  | .ub => some .ub
  | .ok es =>
    match kahnLoop fuel es [0] [] with
    | none => none
    | some (res, es') =>
      if res.length ≠ n + 1 ∨ es' ≠ [] then some .ub
      else
        let idx := res.tail.map (· - 1)
        if idx.take nvars ≠ List.range nvars then some .ub
        else
          let remap := ((idx.zipIdx).drop nvars).map fun p => (uname p.1, uname p.2)
          let elems := idx.filterMap fun i => dc[i]?
          if elems.length ≠ n then some .ub
          else some (.ok ((elems ++ dcOuts nouts dc).map (renameIn remap)))

/-! ### Combined sine and cosine -/

section
variable [Field K] [LinearOrder K] [FmtName K]

/-- The arguments of the sines and of the cosines (`src/detail/sincos_combine.cpp` 39-60). -/
def sinArgs : List (Expr K) → List (Expr K)
  | [] => []
  | .fn (.sin _) [a] :: es => a :: sinArgs es
  | _ :: es => sinArgs es

/-- The arguments of the cosines. -/
def cosArgs : List (Expr K) → List (Expr K)
  | [] => []
  | .fn (.cos _) [a] :: es => a :: cosArgs es
  | _ :: es => cosArgs es

/-- The second pass of `sincos_combine_impl()` (`src/detail/sincos_combine.cpp` 62-84) on one element. -/
def sincosElem (sa ca : List (Expr K)) : Expr K → Expr K
  | .fn (.sin b) [a] => if ca.any a.beq then .fn (.sin true) [a] else .fn (.sin b) [a]
  | .fn (.cos b) [a] => if sa.any a.beq then .fn (.cos true) [a] else .fn (.cos b) [a]
  | e => e

/-- `sincos_combine_cfunc()` (`src/detail/sincos_combine.cpp` 36-98). The sets of arguments are modelled as
lists with `operator==`. -/
def sincosCombine (dc : List (Expr K)) : List (Expr K) := dc.map (sincosElem (sinArgs dc) (cosArgs dc))

end

end Heyoka.Sym
