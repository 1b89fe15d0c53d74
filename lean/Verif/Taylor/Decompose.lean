import Verif.Taylor.Jet
import Verif.Decomp.FunDec

/-!
# The Taylor decomposition of a system of equations

`taylor_decompose_sys()` (`src/taylor_01.cpp` 848-1008) with the decompositions of the single functions, the
elimination of common subexpressions, the topological sort and the final passes. The conversions of the indices to
32-bit integers (`boost::numeric_cast`) cannot fail here, except in `uname_to_index()`.
-/

set_option linter.unusedSectionVars false

namespace Heyoka.Taylor

open Heyoka.Sym

variable {K : Type} [Field K] [LinearOrder K] [FloorRing K] [Interp K] [FmtName K]

/-! ### The decompositions of the functions -/

/-- The `u` variable of index `i`. -/
def uvar (i : Nat) : Expr K := .var (uname i)

/-- The elements appended by the decomposition of the function `f` with arguments `as`, which are not
functions, and the position among them of `f` itself; `n` is the size of the decomposition. The custom
`taylor_decompose()` are those of `src/math/` `sin.cpp` 115-133, `cos.cpp` 113-131, `tan.cpp` 82-98,
`sinh.cpp` 81-99, `cosh.cpp` 81-99, `tanh.cpp` 81-97, `sigmoid.cpp` 95-111, `asin.cpp` 78-108, `acos.cpp` 78-108,
`asinh.cpp` 77-100, `acosh.cpp` 78-101, `atan.cpp` 77-93, `atanh.cpp` 79-95, `erf.cpp` 81-105, `atan2.cpp` 83-99,
`kepE.cpp` 100-138, `kepF.cpp` 110-157; the others append the function (`src/func.cpp` 402-407). The assertions on the
number of arguments are `ub`. -/
def customDec (n : Nat) : Fn K → List (Expr K) → Res (Nat × TDc K)
  | .sin c, [a] => .ok (1, [(unaryE (.cos c) a, [n + 1]), (.fn (.sin c) [a], [n])])
  | .cos c, [a] => .ok (1, [(unaryE (.sin c) a, [n + 1]), (.fn (.cos c) [a], [n])])
  | .sinh, [a] => .ok (1, [(unaryE .cosh a, [n + 1]), (.fn .sinh [a], [n])])
  | .cosh, [a] => .ok (1, [(unaryE .sinh a, [n + 1]), (.fn .cosh [a], [n])])
  | .tan, [a] => .ok (0, [(.fn .tan [a], [n + 1]), (powE (uvar n) (.dbl 2), [])])
  | .tanh, [a] => .ok (0, [(.fn .tanh [a], [n + 1]), (powE (uvar n) (.dbl 2), [])])
  | .sigmoid, [a] => .ok (0, [(.fn .sigmoid [a], [n + 1]), (powE (uvar n) (.dbl 2), [])])
  | .asin, [a] => .ok (3, [(powE a (.dbl 2), []), (.fn .sub [.dbl 1, uvar n], []),
      (sqrtE (uvar (n + 1)), []), (.fn .asin [a], [n + 2])])
  | .acos, [a] => .ok (3, [(powE a (.dbl 2), []), (.fn .sub [.dbl 1, uvar n], []),
      (sqrtE (uvar (n + 1)), []), (.fn .acos [a], [n + 2])])
  | .asinh, [a] => .ok (3, [(powE a (.dbl 2), []), (addE (.dbl 1) (uvar n), []),
      (sqrtE (uvar (n + 1)), []), (.fn .asinh [a], [n + 2])])
  | .acosh, [a] => .ok (3, [(powE a (.dbl 2), []), (subE (uvar n) (.dbl 1), []),
      (sqrtE (uvar (n + 1)), []), (.fn .acosh [a], [n + 2])])
  | .atan, [a] => .ok (1, [(powE a (.dbl 2), []), (.fn .atan [a], [n])])
  | .atanh, [a] => .ok (1, [(powE a (.dbl 2), []), (.fn .atanh [a], [n])])
  | .erf, [a] => .ok (3, [(powE a (.dbl 2), []), (negE (uvar n), []),
      (unaryE .exp (uvar (n + 1)), []), (.fn .erf [a], [n + 2])])
  | .atan2, [y, x] => .ok (1, [(.fn .sumSq [y, x], []), (.fn .atan2 [y, x], [n])])
  | .kepE, [e, m] => .ok (0, [(.fn .kepE [e, m], [n + 3, n + 1]), (unaryE (.sin false) (uvar n), [n + 2]),
      (unaryE (.cos false) (uvar n), [n + 1]), (mulE e (uvar (n + 2)), [])])
  | .kepF, [h, k, l] => .ok (0, [(.fn .kepF [h, k, l], [n + 3, n + 4, n + 1, n + 2]),
      (unaryE (.sin false) (uvar n), [n + 2]), (unaryE (.cos false) (uvar n), [n + 1]),
      (mulE h (uvar (n + 1)), []), (mulE k (uvar (n + 2)), [])])
  | .sin _, _ | .cos _, _ | .sinh, _ | .cosh, _ | .tan, _ | .tanh, _ | .sigmoid, _ | .asin, _ | .acos, _
  | .asinh, _ | .acosh, _ | .atan, _ | .atanh, _ | .erf, _ | .atan2, _ | .kepE, _ | .kepF, _ => .ub
  | f, as => .ok (0, [(.fn f as, [])])

/-- `func_taylor_decompose_impl()` (`src/func.cpp` 385-421): append the decomposition of a function and return its
index, which must not be zero. -/
def taylorFdc : Expr K → TDc K → Res (Nat × TDc K)
  | .fn f as, dc => (customDec dc.length f as).bind fun (k, d) =>
    if dc.length + k = 0 ∨ (dc ++ d).length ≤ dc.length + k then .throw else .ok (dc.length + k, dc ++ d)
  | _, _ => .ub

/-! ### Elimination of common subexpressions -/

/-- The remapping of a list of indices by a map of names (`src/taylor_01.cpp` 413-431, 615-634): a missing entry is a
failed assertion. -/
def remapIdx (ren : List (String × String)) : List Nat → Res (List Nat)
  | [] => .ok []
  | i :: is =>
    match ren.lookup (uname i) with
    | none => .ub
    | some s => (unameToIndex s).bind fun j => (remapIdx ren is).bind fun js => .ok (j :: js)

/-- The remapping of the hidden dependencies of a decomposition. -/
def remapDeps (ren : List (String × String)) : TDc K → Res (TDc K)
  | [] => .ok []
  | e :: es => (remapIdx ren e.2).bind fun ds => (remapDeps ren es).bind fun es' => .ok ((e.1, ds) :: es')

/-- The loop over the middle part of `taylor_decompose_cse()` (`src/taylor_01.cpp` 354-393); as `cseLoop`, with the
hidden dependencies carried along. -/
def tcseLoop : Nat → TDc K → List (Expr K × Nat) → List (String × String) →
    TDc K → TDc K × List (String × String)
  | _, ret, _, ren, [] => (ret, ren)
  | i, ret, exMap, ren, e :: es =>
    let e' := renameIn ren e.1
    match exMap.find? fun p => !p.1.blt e' && !e'.blt p.1 with
    | some p => tcseLoop (i + 1) ret exMap ((uname i, uname p.2) :: ren) es
    | none =>
      tcseLoop (i + 1) (ret ++ [(e', e.2)]) ((e', ret.length) :: exMap)
        ((uname i, uname ret.length) :: ren) es

/-- `taylor_decompose_cse()` (`src/taylor_01.cpp` 315-443); the map of names contains the identity for the state
variables. -/
def tcse (neq : Nat) (dc : TDc K) (svf : List Nat) : Res (TDc K × List Nat) :=
  let r := tcseLoop neq (dc.take neq) [] ((List.range neq).map fun i => (uname i, uname i)) (tMid neq dc)
  let dc' := r.1 ++ (tOuts neq dc).map fun e => (renameIn r.2 e.1, e.2)
  (remapDeps r.2 dc').bind fun dc'' => (remapIdx r.2 svf).bind fun svf' => .ok (dc'', svf')

/-! ### Topological sort -/

/-- `taylor_sort_dc()` (`src/taylor_01.cpp` 454-645): the graph (which does not contain the hidden dependencies) and
the loop are those of `function_sort_dc()`. -/
def tsort (fuel neq : Nat) (dc : TDc K) (svf : List Nat) : Option (Res (TDc K × List Nat)) :=
  let n := dc.length - neq
  match graphEdges neq 0 ((dc.take n).map Prod.fst) with
  | .throw => some .throw
  | .ub => some .ub
  | .ok es =>
    match kahnLoop fuel es [0] [] with
    | none => none
    | some (res, es') =>
      if res.length ≠ n + 1 ∨ es' ≠ [] then some .ub
      else
        let idx := res.tail.map (· - 1)
        if idx.take neq ≠ List.range neq then some .ub
        else
          let remap := idx.zipIdx.map fun p => (uname p.1, uname p.2)
          let elems := idx.filterMap fun i => dc[i]?
          if elems.length ≠ n then some .ub
          else some ((remapDeps remap ((elems ++ tOuts neq dc).map fun e => (renameIn remap e.1, e.2))).bind
            fun dc' => (remapIdx remap svf).bind fun svf' => .ok (dc', svf'))

/-! ### Final passes -/

/-- `sincos_combine_taylor()` (`src/detail/sincos_combine.cpp` 36-105). -/
def tsincos (dc : TDc K) : TDc K :=
  dc.map fun e => (sincosElem (sinArgs (dc.map Prod.fst)) (cosArgs (dc.map Prod.fst)) e.1, e.2)

/-- The replacement of a number by the identity function of the number. -/
def replaceNumber : TElem K → TElem K
  | (.num n, _) => (.fn .numId [.num n], [])
  | e => e

/-- `taylor_decompose_replace_numbers()` (`src/taylor_01.cpp` 784-803). -/
def replaceNumbers (neq : Nat) (dc : TDc K) : TDc K :=
  dc.take neq ++ (tMid neq dc).map replaceNumber ++ tOuts neq dc

/-! ### The decomposition of a system -/

/-- The indices of the extra functions (`src/taylor_01.cpp` 935-960). The result of the decomposition of a function is a
`u` variable, a function cannot occur. -/
def svfIndices : List (Expr K) → Res (List Nat)
  | [] => .ok []
  | .var s :: es => (unameToIndex s).bind fun i => (svfIndices es).bind fun is => .ok (i :: is)
  | .fn _ _ :: _ => .ub
  | _ :: _ => .throw

/-- The passes after the construction of the decomposition `dc` (`src/taylor_01.cpp` 979-1007). -/
def simplifySys (fuel neq : Nat) (dc : TDc K) (svf : List Nat) : Option (Res (TDc K × List Nat)) :=
  match tcse neq dc svf with
  | .throw => some .throw
  | .ub => some .ub
  | .ok (dc, svf) =>
    (tsort fuel neq dc svf).map fun r => r.bind fun (dc, svf) =>
      .ok (replaceNumbers neq (tsincos dc), svf)

/-- The expressions decomposed by `taylor_decompose_sys()` (`src/taylor_01.cpp` 864-903): rewritten, then renamed. -/
def sysExprs (names : List String) (es : List (Expr K)) : List (Expr K) :=
  es.map fun e => renameIn (renMap names) (rewritesTaylor e)

/-- The loop over the equations and the extra functions (`src/taylor_01.cpp` 905-965): the elements (the state
variables come first) and what each expression has become, a `u` variable, a number or a parameter. -/
def decSys (fuel : Nat) (share : List (Expr K) → List (Node K)) (names : List String) (es : List (Expr K)) :
    Option (Res (TDc K × List (Expr K))) :=
  decAll taylorFdc fuel [] [] (names.map fun s => (.var s, [])) (share (sysExprs names es))

/-- The construction of the decomposition (`src/taylor_01.cpp` 905-965): the outputs are appended to it. -/
def rawSys (fuel : Nat) (share : List (Expr K) → List (Node K)) (names : List String)
    (rhs svf : List (Expr K)) : Option (Res (TDc K × List Nat)) :=
  (decSys fuel share names (rhs ++ svf)).map
    fun r => r.bind fun (dc, outs) => (svfIndices (outs.drop rhs.length)).bind fun is =>
      .ok (dc ++ (outs.take rhs.length).map (·, []), is)

/-- `taylor_decompose_sys()` (`src/taylor_01.cpp` 848-1008) for the equations `names[i]' = rhs[i]` and the extra
functions `svf`: the decomposition and the indices of the extra functions in it. `share` gives the graph of
function objects of the rewritten expressions. -/
def decomposeSys (fuel : Nat) (share : List (Expr K) → List (Node K)) (names : List String)
    (rhs svf : List (Expr K)) : Option (Res (TDc K × List Nat)) :=
  match rawSys fuel share names rhs svf with
  | none => none
  | some .throw => some .throw
  | some .ub => some .ub
  | some (.ok (dc, is)) => simplifySys fuel names.length dc is

end Heyoka.Taylor
