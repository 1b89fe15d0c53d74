import Verif.Decomp.FunDec
import Verif.Expr.SubsLemmas
import Verif.Dtens.Model

/-!
# Tensors of derivatives by automatic differentiation

Model of `diff_tensors()` (`src/expression_diff.cpp` 343-1520): the decomposition of the function, the
adjoints and the dependencies of its elements, the forward and the reverse mode, the loop over the
orders.

Conventions: a failed assertion and a read past the end of a vector are `ub`; a rejected call and a
failed numeric cast are `throw`. Hash maps are lists of entries: the order of iteration is never
observable, since the results are sorted afterwards.
-/

set_option linter.unusedSectionVars false

namespace Heyoka.AD

open Heyoka.Sym Heyoka.Dtens

variable {K : Type}

/-! ### The decomposition -/

/-- The expression for a variable or parameter. -/
def ofDVar : DVar → Expr K
  | .var s => .var s
  | .par i => .par i

/-- The variable or parameter an expression consists of. -/
def toDVar : Expr K → Option DVar
  | .var s => some (.var s)
  | .par i => some (.par i)
  | _ => none

/-- `get_variables()` on a list of expressions (`src/expression_diff.cpp` 348): alphabetical order. -/
def inVars (es : List (Expr K)) : List String :=
  sortedSet ((es.flatMap Expr.leaves).filterMap leafVar)

/-- `get_params()` on a list of expressions (`src/expression_diff.cpp` 351): in the order of the indices. -/
def inPars (es : List (Expr K)) : List Nat :=
  sortedSet ((es.flatMap Expr.leaves).filterMap leafPar)

/-- The inputs of the function: the variables, followed by the parameters. -/
def inputs (es : List (Expr K)) : List DVar :=
  (inVars es).map .var ++ (inPars es).map .par

section
variable [Field K] [LinearOrder K] [FloorRing K] [Fold K] [FmtName K]

/-- The map renaming the inputs to `u` variables (`src/expression_diff.cpp` 358-378). -/
def replMap (ins : List DVar) : List (Expr K × Expr K) :=
  ins.zipIdx.map fun p => (ofDVar p.1, .var (uname p.2))

/-- A component before the decomposition: the products are split into binary ones and the inputs are
renamed (`src/expression_diff.cpp` 380-398). -/
def prep (ins : List DVar) (e : Expr K) : Expr K :=
  (e.mapNodes id (prodSplit 2 (by decide))).replace (mapFind (replMap ins))

/-- The decomposition before the elimination of common subexpressions (`src/expression_diff.cpp` 400-447).
`share` gives the graph of function objects of the prepared components. -/
def rawDc (fuel : Nat) (share : List (Expr K) → List (Node K)) (es : List (Expr K)) :
    Option (Res (List (Expr K))) :=
  (decAll fdcAppend fuel [] [] ((inputs es).map ofDVar)
    (share (es.map (prep (inputs es))))).map fun r => r.bind fun p => .ok (p.1 ++ p.2)

/-- `diff_decompose()` (`src/expression_diff.cpp` 343-475). -/
def diffDecompose (fuel : Nat) (share : List (Expr K) → List (Node K)) (es : List (Expr K)) :
    Option (Res (List (Expr K))) :=
  (rawDc fuel share es).map fun r => r.bind fun dc => .ok (cse (inputs es).length es.length dc)

/-! ### The adjoints and the dependencies -/

/-- The adjoints of an element: the indices of the elements it depends on, with the partial
derivatives. -/
abbrev Row (K : Type) := List (Nat × Expr K)

/-- The partial derivatives with respect to the arguments that are the variable `s`
(`grad_map`, `src/expression_diff.cpp` 568-597). -/
def collect (s : String) : List (Expr K) → List (Expr K) → List (Expr K)
  | .var t :: as, g :: gs => if t = s then g :: collect s as gs else collect s as gs
  | _ :: as, _ :: gs => collect s as gs
  | _, _ => []

/-- Variables and numbers are the only possible arguments (assertion, `src/expression_diff.cpp` 585-592). -/
def isVarNum : Expr K → Bool
  | .var _ => true
  | .num _ => true
  | _ => false

/-- The loop over the variables occurring as arguments (`src/expression_diff.cpp` 599-621) for the element `i`
of a decomposition with `n` elements. An index outside of the decomposition violates an assertion,
the conversion of `i` to 32 bits may fail. -/
def entries (n i : Nat) (args gs : List (Expr K)) : List String → Res (Row K)
  | [] => .ok []
  | s :: ss => (unameToIndex s).bind fun j =>
    if n ≤ j then .ub
    else if 2 ^ 32 ≤ i then .throw
    else (entries n i args gs ss).bind fun r => .ok ((j, sumE (collect s args gs)) :: r)

/-- The adjoints of an element of the middle part (`src/expression_diff.cpp` 556-626). The number of partial
derivatives is checked in `src/func.cpp` 336-342. -/
def midRow (n i : Nat) : Expr K → Res (Row K)
  | .fn f args => (gradient f args).bind fun gs =>
    if gs.length ≠ args.length then .throw
    else if args.all isVarNum then entries n i args gs (sortedSet (args.filterMap leafVar))
    else .ub
  | _ => .throw

/-- The adjoints of an output (`src/expression_diff.cpp` 629-655). -/
def outRow (n i : Nat) : Expr K → Res (Row K)
  | .var s => (unameToIndex s).bind fun j =>
    if n ≤ j then .ub else if 2 ^ 32 ≤ i then .throw else .ok [(j, .dbl 1)]
  | .num _ => .ok []
  | _ => .ub

/-- A loop over consecutive elements. -/
def rowsFrom (row : Nat → Expr K → Res (Row K)) : Nat → List (Expr K) → Res (List (Row K))
  | _, [] => .ok []
  | i, e :: es => (row i e).bind fun r => (rowsFrom row (i + 1) es).bind fun rs => .ok (r :: rs)

/-- The container `adj` of `diff_make_adj_dep()` (`src/expression_diff.cpp` 481-699). The containers `dep` and
`revdep` are functions of it. -/
def adjRows (nvars nouts : Nat) (dc : List (Expr K)) : Res (List (Row K)) :=
  (rowsFrom (midRow dc.length) nvars (dcMid nvars nouts dc)).bind fun m =>
    (rowsFrom (outRow dc.length) (dc.length - nouts) (dcOuts nouts dc)).bind fun o =>
      .ok (List.replicate nvars [] ++ m ++ o)

/-- `dep[i]` (`src/expression_diff.cpp` 616, 647). Indices stored in `adj` are within range, see `entries`. -/
def dep (rows : List (Row K)) (i : Nat) : List Nat := (rows[i]?.getD []).map (·.1)

/-- `revdep[j]` (`src/expression_diff.cpp` 613, 644): the elements depending on `j`, in increasing order (they are
appended in this order; the sorting at 657-664 has no effect). -/
def revdep (rows : List (Row K)) (j : Nat) : List Nat :=
  (rows.zipIdx.filter fun p => p.1.any (·.1 == j)).map (·.2)

/-- `adj[k].find(l)`. -/
def adjFind (rows : List (Row K)) (k l : Nat) : Option (Expr K) := (rows[k]?.getD []).lookup l

/-- A lookup in `subs_map`, which maps `u_i` to the `i`-th entry of the list. -/
def subsLook (acc : List (Expr K)) (s : String) : Option (Expr K) :=
  (acc.zipIdx.map fun p => (uname p.2, p.1)).lookup s

/-- `subs()` with `subs_map`. -/
def subsAll (acc : List (Expr K)) : Expr K → Expr K := Expr.mapNodes (subsLeaf (subsLook acc)) id

/-- The construction of `subs_map` for the middle part (`src/expression_diff.cpp` 622-625): every element is
expressed in terms of the original inputs. -/
def expandMid : List (Expr K) → List (Expr K) → List (Expr K)
  | acc, [] => acc
  | acc, e :: es => expandMid (acc ++ [subsAll acc e]) es

/-- The construction of `subs_map` for the outputs (`src/expression_diff.cpp` 649-654). -/
def expandOuts : List (Expr K) → List (Expr K) → Res (List (Expr K))
  | acc, [] => .ok acc
  | acc, .var s :: es =>
    match subsLook acc s with
    | some x => expandOuts (acc ++ [x]) es
    | none => .ub
  | acc, e :: es => expandOuts (acc ++ [e]) es

/-- The container `subs_map` of `diff_make_adj_dep()`. -/
def subsMap (nvars nouts : Nat) (dc : List (Expr K)) : Res (List (Expr K)) :=
  expandOuts (expandMid (dc.take nvars) (dcMid nvars nouts dc)) (dcOuts nouts dc)

/-! ### The search for the dependent elements -/

/-- The inner loop of the search (`src/expression_diff.cpp` 870-879, 1085-1094): queue and indices found so
far. -/
def bfsPush : List Nat → List Nat × List Nat → List Nat × List Nat
  | [], s => s
  | n :: ns, (q, seen) =>
    if seen.contains n then bfsPush ns (q, seen) else bfsPush ns (q ++ [n], seen ++ [n])

/-- The search (`src/expression_diff.cpp` 864-880, 1080-1095). -/
def bfs (next : Nat → List Nat) : Nat → List Nat → List Nat → Option (List Nat)
  | _, [], seen => some seen
  | 0, _ :: _, _ => none
  | fuel + 1, c :: q, seen =>
    bfs next fuel (bfsPush (next c) (q, seen)).1 (bfsPush (next c) (q, seen)).2

/-! ### Forward mode -/

/-- The loop over the dependencies of an element (`src/expression_diff.cpp` 913-930). -/
def fwdTerms (rows : List (Row K)) (seen : List Nat) (input cur : Nat) (diffs : List (Expr K)) :
    List Nat → Res (List (Expr K))
  | [] => .ok []
  | d :: ds =>
    if d ≠ input ∧ seen.contains d = false then
      (fwdTerms rows seen input cur diffs ds).bind fun ts => .ok (.dbl 0 :: ts)
    else
      match diffs[d]?, adjFind rows cur d with
      | some x, some a =>
        (fwdTerms rows seen input cur diffs ds).bind fun ts => .ok (mulE x a :: ts)
      | _, _ => .ub

/-- The forward pass (`src/expression_diff.cpp` 906-936) over the given elements. -/
def fwdPass (rows : List (Row K)) (seen : List Nat) (input : Nat) :
    List Nat → List (Expr K) → Res (List (Expr K))
  | [], diffs => .ok diffs
  | c :: cs, diffs => (fwdTerms rows seen input c diffs (dep rows c)).bind fun ts =>
    fwdPass rows seen input cs (diffs.set c (sumE ts))

/-- The derivatives with respect to one input (`src/expression_diff.cpp` 853-936). -/
def fwdArg (fuel : Nat) (rows : List (Row K)) (nouts input : Nat) (diffs : List (Expr K)) :
    Option (Res (List (Expr K))) :=
  (bfs (revdep rows) fuel (revdep rows input) (revdep rows input)).map fun seen =>
    fwdPass rows seen input (seen.insertionSort (· ≤ ·))
      ((diffs.set input (.dbl 1)).take (diffs.length - nouts) ++ List.replicate nouts (.dbl 0))

/-- A further derivative with respect to the argument `j` in a multi-index (`vidx_v2s()`, increment,
`vidx_s2v()`, `src/expression_diff.cpp` 701-733, 945-946). -/
def addIdx (j : Nat) : List (Nat × Nat) → List (Nat × Nat)
  | [] => [(j, 1)]
  | (k, o) :: r =>
    if k < j then (k, o) :: addIdx j r
    else if k = j then (k, o + 1) :: r
    else (j, 1) :: (k, o) :: r

/-- New derivatives are appended to `local_diff`: to a vector for the first order, to a map, which keeps
the first entry for a key, for higher orders (`src/expression_diff.cpp` 806-813, 948-962). -/
def addDiffs (first : Bool) (acc news : List (SIdx × Expr K)) : List (SIdx × Expr K) :=
  if first then acc ++ news
  else news.foldl (fun acc p => if acc.any (·.1 == p.1) then acc else acc ++ [p]) acc

/-- Is the expression the given variable or parameter? -/
def isDVar (x : DVar) (e : Expr K) : Bool := toDVar e == some x

/-- The lookup in `input_idx_map` (`src/expression_diff.cpp` 785-801, 840). -/
def findInput (nvars : Nat) (dc : List (Expr K)) (x : DVar) : Option Nat :=
  (dc.take nvars).findIdx? (isDVar x)

/-- The keys of the derivatives of the elements with the given keys with respect to the argument `j`. -/
def nextKeys (j : Nat) (keys : List SIdx) : List SIdx := keys.map fun k => (k.1, addIdx j k.2)

/-- `diff_tensors_forward_impl()` (`src/expression_diff.cpp` 770-998), the loop over the differentiation
arguments from the one with the index `j` on; `keys` are the multi-indices of the outputs. -/
def fwdLoop (fuel : Nat) (dc : List (Expr K)) (rows : List (Row K)) (nvars : Nat) (keys : List SIdx)
    (first : Bool) : Nat → List DVar → List (Expr K) → List (SIdx × Expr K) →
      Option (Res (List (SIdx × Expr K)))
  | _, [], _, acc => some (.ok acc)
  | j, x :: xs, diffs, acc =>
    match findInput nvars dc x with
    | none =>
      fwdLoop fuel dc rows nvars keys first (j + 1) xs diffs
        (addDiffs first acc ((nextKeys j keys).map fun k => (k, .dbl 0)))
    | some input =>
      match fwdArg fuel rows keys.length input diffs with
      | none => none
      | some .throw => some .throw
      | some .ub => some .ub
      | some (.ok diffs') =>
        fwdLoop fuel dc rows nvars keys first (j + 1) xs diffs'
          (addDiffs first acc
            ((nextKeys j keys).zip (diffs'.drop (diffs'.length - keys.length))))

/-! ### Reverse mode -/

/-- The loop over the reverse dependencies of an element (`src/expression_diff.cpp` 1122-1139). -/
def revTerms (rows : List (Row K)) (seen : List Nat) (out cur : Nat) (diffs : List (Expr K)) :
    List Nat → Res (List (Expr K))
  | [] => .ok []
  | d :: ds =>
    if d ≠ out ∧ seen.contains d = false then
      (revTerms rows seen out cur diffs ds).bind fun ts => .ok (.dbl 0 :: ts)
    else
      match diffs[d]?, adjFind rows d cur with
      | some x, some a =>
        (revTerms rows seen out cur diffs ds).bind fun ts => .ok (mulE x a :: ts)
      | _, _ => .ub

/-- The reverse pass (`src/expression_diff.cpp` 1116-1146) over the given elements. -/
def revPass (rows : List (Row K)) (seen : List Nat) (out : Nat) :
    List Nat → List (Expr K) → Res (List (Expr K))
  | [], diffs => .ok diffs
  | c :: cs, diffs => (revTerms rows seen out c diffs (revdep rows c)).bind fun ts =>
    revPass rows seen out cs (diffs.set c (sumE ts))

/-- The derivatives of one output (`src/expression_diff.cpp` 1053-1146). -/
def revOut (fuel : Nat) (rows : List (Row K)) (nvars out : Nat) (diffs : List (Expr K)) :
    Option (Res (List (Expr K))) :=
  if 2 ^ 32 ≤ out then some .throw else
  (bfs (dep rows) fuel (dep rows out) (dep rows out)).map fun seen =>
    revPass rows seen out (seen.insertionSort (· ≥ ·))
      (List.replicate nvars (.dbl 0) ++ (diffs.set out (.dbl 1)).drop nvars)

/-- The derivative with respect to an argument, zero if the argument is not an input
(`src/expression_diff.cpp` 1148-1188). -/
def revGet (nvars : Nat) (dc diffs : List (Expr K)) (x : DVar) : Expr K :=
  match findInput nvars dc x with
  | some i => diffs[i]?.getD (.dbl 0)
  | none => .dbl 0

/-- `diff_tensors_reverse_impl()` (`src/expression_diff.cpp` 1002-1238), the loop over the outputs from the one
with the index `i` on. -/
def revLoop (fuel : Nat) (dc : List (Expr K)) (rows : List (Row K)) (nvars nouts : Nat) (args : List DVar)
    (first : Bool) : Nat → List SIdx → List (Expr K) → List (SIdx × Expr K) →
      Option (Res (List (SIdx × Expr K)))
  | _, [], _, acc => some (.ok acc)
  | i, k :: ks, diffs, acc =>
    match revOut fuel rows nvars (dc.length - nouts + i) diffs with
    | none => none
    | some .throw => some .throw
    | some .ub => some .ub
    | some (.ok diffs') =>
      revLoop fuel dc rows nvars nouts args first (i + 1) ks diffs'
        (addDiffs first acc
          (args.zipIdx.map fun p => ((k.1, addIdx p.2 k.2), revGet nvars dc diffs' p.1)))

/-! ### The loop over the orders -/

/-- Insertion of a derivative at its place. The comparison may throw. -/
def insertKey (p : SIdx × Expr K) : List (SIdx × Expr K) → Res (List (SIdx × Expr K))
  | [] => .ok [p]
  | q :: l => (cmp p.1 q.1).bind fun c =>
    if c then .ok (p :: q :: l) else (insertKey p l).bind fun l => .ok (q :: l)

/-- The sorting of the new derivatives (`src/expression_diff.cpp` 1384-1388). Simplification: insertion sort;
the keys are distinct, so that every sorting algorithm gives the same result. -/
def sortKeys : List (SIdx × Expr K) → Res (List (SIdx × Expr K))
  | [] => .ok []
  | p :: l => (sortKeys l).bind fun l => insertKey p l

/-- `search_diff_map` (`src/expression_diff.cpp` 1300-1312). -/
def searchMap (m : List (SIdx × Expr K)) (v : SIdx) : Res Nat :=
  (lbLoop m v 0 m.length).bind fun i =>
    match m[i]? with
    | none => .ok m.length
    | some p => if p.1 = v then .ok i else .ok m.length

/-- The derivatives of one order from those of the previous one (`prev`), by the decomposition `dc`
(`src/expression_diff.cpp` 1352-1410). -/
def derivs (fuel : Nat) (args : List DVar) (first : Bool) (nvars : Nat) (prev : List (SIdx × Expr K))
    (dc : List (Expr K)) : Option (Res (List (SIdx × Expr K))) :=
  match adjRows nvars prev.length dc, subsMap nvars prev.length dc with
  | .ok rows, .ok sm =>
    (if args.length ≤ prev.length then
      fwdLoop fuel dc rows nvars (prev.map (·.1)) first 0 args (List.replicate dc.length (.dbl 0)) []
    else
      revLoop fuel dc rows nvars prev.length args first 0 (prev.map (·.1))
        (List.replicate dc.length (.dbl 0)) []).map fun r =>
      r.bind fun news => (sortKeys news).bind fun l => .ok (l.map fun p => (p.1, subsAll sm p.2))
  | .throw, _ => some .throw
  | .ub, _ => some .ub
  | .ok _, .throw => some .throw
  | .ok _, .ub => some .ub

/-- One iteration of the loop over the orders (`src/expression_diff.cpp` 1329-1417). -/
def orderStep (fuel : Nat) (share : List (Expr K) → List (Node K)) (args : List DVar) (cur : Nat)
    (m : List (SIdx × Expr K)) : Option (Res (List (SIdx × Expr K))) :=
  match searchMap m (0, if cur = 0 then [] else [(0, cur)]) with
  | .throw => some .throw
  | .ub => some .ub
  | .ok b =>
    if b = m.length then some .ub else
    match diffDecompose fuel share ((m.drop b).map (·.2)) with
    | none => none
    | some .throw => some .throw
    | some .ub => some .ub
    | some (.ok dc) =>
      (derivs fuel args (cur == 0) (inputs ((m.drop b).map (·.2))).length (m.drop b) dc).map fun r =>
        r.bind fun news => .ok (m ++ news)

/-- The loop over the orders (`src/expression_diff.cpp` 1329-1417): `n` orders from the order `cur` on. -/
def orderLoop (fuel : Nat) (share : List (Expr K) → List (Node K)) (args : List DVar) :
    Nat → Nat → List (SIdx × Expr K) → Option (Res (List (SIdx × Expr K)))
  | 0, _, m => some (.ok m)
  | n + 1, cur, m =>
    match orderStep fuel share args cur m with
    | none => none
    | some .throw => some .throw
    | some .ub => some .ub
    | some (.ok m') => orderLoop fuel share args n (cur + 1) m'

/-- `diff_tensors_impl()` (`src/expression_diff.cpp` 1276-1452). The conversions of the number of arguments
and of the indices of the components to 32 bits may fail. -/
def tensorsImpl (fuel : Nat) (share : List (Expr K) → List (Node K)) (es : List (Expr K))
    (args : List DVar) (order : Nat) : Option (Res (List (SIdx × Expr K))) :=
  if 2 ^ 32 ≤ args.length then some .throw
  else if 2 ^ 32 < es.length then some .throw
  else orderLoop fuel share args order 0 (es.zipIdx.map fun p => ((p.2, []), p.1))

/-- The specification of the differentiation arguments: the enumerator `diff_args`, possibly with an
invalid value, or a list of expressions. -/
inductive DArgs (K : Type)
  | all
  | vars
  | params
  | invalid
  | list (args : List (Expr K))

/-- The differentiation arguments (`src/expression_diff.cpp` 1464-1497). -/
def DArgs.exprs (es : List (Expr K)) : DArgs K → Res (List (Expr K))
  | .all => .ok ((inputs es).map ofDVar)
  | .vars => .ok ((inVars es).map .var)
  | .params => .ok ((inPars es).map .par)
  | .invalid => .throw
  | .list args => .ok args

/-- The list of the variables and parameters, if all the expressions are of this kind. -/
def toDVars : List (Expr K) → Option (List DVar)
  | [] => some []
  | e :: es => (toDVar e).bind fun x => (toDVars es).map (x :: ·)

/-- `diff_tensors()` (`src/expression_diff.cpp` 1456-1520). -/
def diffTensors (fuel : Nat) (share : List (Expr K) → List (Node K)) (es : List (Expr K))
    (dargs : DArgs K) (order : Nat) : Option (Res (Dt (Expr K) × List DVar)) :=
  if es.isEmpty then some .throw else
  match dargs.exprs es with
  | .throw => some .throw
  | .ub => some .ub
  | .ok as =>
    if as.isEmpty then some .throw else
    match toDVars as with
    | none => some .throw
    | some args =>
      if ¬ args.Nodup then some .throw else
      (tensorsImpl fuel share es args order).map fun r =>
        r.bind fun m => .ok (⟨m, args.length⟩, args)

end

end Heyoka.AD
