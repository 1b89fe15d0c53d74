import Verif.CFunc.Model
import Verif.CFunc.ArgGen

/-!
# Compiled functions in compact mode

An element of the decomposition after the inlining is a tree of functions. A nested one corresponds to a
composite function (`src/detail/composite_function.cpp`): its arguments are the leaves of the tree in
depth-first order, the tree itself is its member `m_ex`. The names are lists of characters.
-/

set_option linter.unusedSectionVars false

namespace Heyoka.Sym

open EopSw (decimal)

variable {K : Type}

/-! ### Names -/

/-- The suffix in the LLVM name of a power (`src/math/pow.cpp` 292-355). -/
def PowAlgo.suffix : PowAlgo → List Char
  | .general => []
  | .posInt n => ['_', 'p', 'o', 's', '_', 's', 'm', 'a', 'l', 'l', '_', 'i', 'n', 't', '_'] ++ decimal n
  | .negInt n => ['_', 'n', 'e', 'g', '_', 's', 'm', 'a', 'l', 'l', '_', 'i', 'n', 't', '_'] ++ decimal n
  | .posHalf n => ['_', 'p', 'o', 's', '_', 's', 'm', 'a', 'l', 'l', '_', 'h', 'a', 'l', 'f', '_'] ++ decimal n
  | .negHalf n => ['_', 'n', 'e', 'g', '_', 's', 'm', 'a', 'l', 'l', '_', 'h', 'a', 'l', 'f', '_'] ++ decimal n

/-- `func::get_llvm_name()`: for powers and products it depends on the arguments with which the function
object was constructed (`src/math/pow.cpp` 83-86, `src/math/prod.cpp` 124-128), otherwise it is the
name (`src/func.cpp`, `func_base`). -/
def Fn.llvmName [Field K] [LinearOrder K] [FmtName K] : Fn K → List Char
  | .prod neg => if neg then ['p', 'r', 'o', 'd', '_', 'n', 'e', 'g'] else ['p', 'r', 'o', 'd']
  | .pow a => ['p', 'o', 'w'] ++ a.suffix
  | f => f.name.toList

mutual
/-- `construct_composite_function_impl()` (`src/detail/composite_function.cpp` 59-118): the LLVM name of a composite
function; `k` is the index of the next argument. -/
def encTree [Field K] [LinearOrder K] [FmtName K] : Expr K → Nat → List Char × Nat
  | .fn f args, k => (f.llvmName ++ '(' :: ((encArgs args k).1 ++ [')']), (encArgs args k).2)
  | .num _, k => ('#' :: decimal k, k + 1)
  | .var _, k => ('#' :: decimal k, k + 1)
  | .par _, k => ('#' :: decimal k, k + 1)
/-- The loop over the arguments (`src/detail/composite_function.cpp` 89-98). -/
def encArgs [Field K] [LinearOrder K] [FmtName K] : List (Expr K) → Nat → List Char × Nat
  | [], k => ([], k)
  | a :: as, k => ((encTree a k).1 ++ (encRest as (encTree a k).2).1, (encRest as (encTree a k).2).2)
/-- The arguments after the first one, preceded by commas. -/
def encRest [Field K] [LinearOrder K] [FmtName K] : List (Expr K) → Nat → List Char × Nat
  | [], k => ([], k)
  | a :: as, k => (',' :: ((encTree a k).1 ++ (encRest as (encTree a k).2).1), (encRest as (encTree a k).2).2)
end

/-- `forbidden_composite_function_chars` (`src/detail/composite_function.cpp` 54). -/
def forbiddenChar (c : Char) : Bool := c = '(' || c = ')' || c = '#'

mutual
/-- The checks of the names (`src/detail/composite_function.cpp` 68-80). -/
def compositeOk [Field K] [LinearOrder K] [FmtName K] : Expr K → Bool
  | .fn f args => !f.name.toList.any forbiddenChar && !f.llvmName.any forbiddenChar && compositeOkL args
  | _ => true
/-- The checks of the names of the arguments. -/
def compositeOkL [Field K] [LinearOrder K] [FmtName K] : List (Expr K) → Bool
  | [] => true
  | e :: es => compositeOk e && compositeOkL es
end

/-- `is_nested_func()` (`src/expression_cfunc.cpp` 496-504). -/
def isNested : Expr K → Bool
  | .fn _ args => args.any Expr.isFn
  | _ => false

/-- The LLVM name of an element (`src/detail/composite_function.cpp` 128-150). -/
def elemName [Field K] [LinearOrder K] [FmtName K] (e : Expr K) : Res (List Char) :=
  match e with
  | .fn f args =>
    if args.any Expr.isFn then .ok (['c', 'o', 'm', 'p', 'o', 's', 'i', 't', 'e', '|'] ++ (encTree e 0).1)
    else .ok f.llvmName
  | _ => .throw

/-- The kinds of arguments. -/
inductive Kind where
  | var | num | par
  deriving DecidableEq

/-- The kind of a leaf. -/
def kindOf : Expr K → Res Kind
  | .var _ => .ok .var
  | .num _ => .ok .num
  | .par _ => .ok .par
  | .fn _ _ => .throw

/-- `cm_mangle()` (`src/detail/cm_utils.cpp` 351-371). -/
def Kind.chars : Kind → List Char
  | .var => ['v', 'a', 'r']
  | .num => ['n', 'u', 'm']
  | .par => ['p', 'a', 'r']

/-- The mangling of the arguments (`src/expression_cfunc.cpp` 1577-1586). -/
def kindsChars : List Kind → List Char
  | [] => []
  | k :: ks => k.chars ++ ks.flatMap fun k => '_' :: k.chars

/-- The kinds of the arguments of a function. -/
def kindsOf : List (Expr K) → Res (List Kind)
  | [] => .ok []
  | e :: es => (kindOf e).bind fun k => (kindsOf es).bind fun ks => .ok (k :: ks)

/-- `llvm_c_eval_func_name_args()` (`src/expression_cfunc.cpp` 1541-1614): the mangled name of the function. The
constant first field and the field for the floating-point type, the same for all the functions, are
omitted. -/
def mangled [Field K] [LinearOrder K] [FmtName K] (e : Expr K) : Res (List Char) :=
  (elemName e).bind fun nm =>
    if nm.any (· = '.') then .throw else
    (kindsOf e.leaves).bind fun ks => .ok (nm ++ '.' :: (kindsChars ks ++ ['.']))

/-! ### Inlining -/

section
variable [Field K] [LinearOrder K] [FmtName K]

mutual
/-- `get_n_nodes()` (`src/expression_basic.cpp` 587-725) by plain recursion, see C04. The overflow is not
modelled. -/
def nNodes : Expr K → Nat
  | .fn _ args => 1 + nNodesL args
  | _ => 1
/-- The same for lists. -/
def nNodesL : List (Expr K) → Nat
  | [] => 0
  | e :: es => nNodes e + nNodesL es
end

/-- The indices of the variables in an element (`src/expression_cfunc.cpp` 543-551). -/
def varIdxs : List String → Res (List Nat)
  | [] => .ok []
  | s :: ss => (unameToIndex s).bind fun i => (varIdxs ss).bind fun is => .ok (i :: is)

/-- The dependencies of all the elements (`src/expression_cfunc.cpp` 530-552), none for the inputs. -/
def depLists (nvars : Nat) : Nat → List (Expr K) → Res (List (List Nat))
  | _, [] => .ok []
  | i, e :: es => (if i < nvars then .ok [] else varIdxs e.variables).bind fun l =>
    (depLists nvars (i + 1) es).bind fun ls => .ok (l :: ls)

/-- The dependees of the element `j`, from the index `i` on (`src/expression_cfunc.cpp` 547-551). -/
def dependees (j : Nat) : Nat → List (List Nat) → List Nat
  | _, [] => []
  | i, l :: ls => if j ∈ l then i :: dependees j (i + 1) ls else dependees j (i + 1) ls

/-- The substitution of the variable `u_i` (`src/expression_cfunc.cpp` 610-611). -/
def subsU (i : Nat) (d : Expr K) : Expr K → Expr K :=
  Expr.mapNodes (subsLeaf fun s => if s = uname i then some d else none) id

/-- `u_remap()` on a leaf (`src/expression_cfunc.cpp` 565-589). An invalid name of a variable, which would throw, is kept. -/
def remapLeaf (inl : List Nat) : Expr K → Expr K
  | .var s =>
    match unameToIndex s with
    | .ok idx => .var (uname (idx - (inl.takeWhile (· < idx)).length))
    | _ => .var s
  | e => e

/-- The renumbering of the variables in an element (`src/expression_cfunc.cpp` 648-651). For composite functions, the
renumbering affects only the arguments, not the names of the variables in `m_ex`, which play no
role. -/
def remap (inl : List Nat) : Expr K → Expr K := Expr.mapNodes (remapLeaf inl) id

/-- Is the element to be inlined, and into which one (`src/expression_cfunc.cpp` 591-608)? -/
def inlineInto (deps : List (List Nat)) (nuvars : Nat) (dc : List (Expr K)) (i : Nat) : Option (Nat × Expr K × Expr K) :=
  match dependees i 0 deps with
  | [d] =>
    match dc[d]?, dc[i]? with
    | some ed, some ei =>
      if d < nuvars && nNodes ed + nNodes ei < 200 then some (d, ed, ei) else none
    | _, _ => none
  | _ => none

/-- The loop over the middle part (`src/expression_cfunc.cpp` 590-652): `k` elements are left, the next one is `i`; `inl`
are the indices of the inlined elements, the result are the new middle part and the indices of the
inlined elements. -/
def inlineLoop (deps : List (List Nat)) (nuvars : Nat) :
    Nat → Nat → List (Expr K) → List Nat → Res (List (Expr K) × List Nat)
  | 0, _, _, inl => .ok ([], inl)
  | k + 1, i, dc, inl =>
    match inlineInto deps nuvars dc i with
    | some (d, ed, ei) => inlineLoop deps nuvars k (i + 1) (dc.set d (subsU i ei ed)) (inl ++ [i])
    | none =>
      match dc[i]? with
      | none => .ub
      | some ei =>
        if isNested ei && !compositeOk ei then .throw else
        (inlineLoop deps nuvars k (i + 1) dc inl).bind fun r => .ok (remap inl ei :: r.1, r.2)

/-- `function_dc_inline()` (`src/expression_cfunc.cpp` 516-714). -/
def inlineDc (nvars nouts : Nat) (dc : List (Expr K)) : Res (List (Expr K)) :=
  if dc.length < nvars + nouts then .ub else
  (depLists nvars 0 dc).bind fun deps =>
    (inlineLoop deps (dc.length - nouts) (dc.length - nouts - nvars) nvars dc []).bind fun r =>
      .ok (dc.take nvars ++ (r.1 ++ (dcOuts nouts dc).map (remap r.2)))

end

/-! ### Segmentation -/

/-- `udef_args_indices()` (`src/expression_cfunc.cpp` 1035-1066). -/
def argIdxs : List (Expr K) → Res (List Nat)
  | [] => .ok []
  | .var s :: es => (unameToIndex s).bind fun i => (argIdxs es).bind fun is => .ok (i :: is)
  | .num _ :: es => argIdxs es
  | .par _ :: es => argIdxs es
  | .fn _ _ :: _ => .throw

/-- The indices of the variables on which an element depends: the arguments of a composite function are the
leaves of the tree. -/
def udefIdxs : Expr K → Res (List Nat)
  | .fn f args => argIdxs (Expr.fn f args).leaves
  | _ => .throw

/-- The loop of `function_segment_dc()` (`src/expression_cfunc.cpp` 1074-1101): `limit` is the index at which the current
segment starts, `i` the index of the next element, `cur` the current segment, `idxs` gives the indices on which an
element depends. The loop of `taylor_segment_dc()` (`src/taylor_02.cpp` 146-173) is the same. -/
def segmentLoop {α : Type} (idxs : α → Res (List Nat)) : Nat → Nat → List α → List α → Res (List (List α))
  | _, _, cur, [] => .ok [cur]
  | limit, i, cur, e :: es => (idxs e).bind fun is =>
    if is.any (limit ≤ ·) then
      (segmentLoop idxs i (i + 1) [e] es).bind fun l => .ok (cur :: l)
    else segmentLoop idxs limit (i + 1) (cur ++ [e]) es

/-- `function_segment_dc()` (`src/expression_cfunc.cpp` 1026-1129) on the middle part of the decomposition. -/
def segmentDc (nvars : Nat) (mid : List (Expr K)) : Res (List (List (Expr K))) :=
  match mid with
  | [] => .ok []
  | _ => segmentLoop udefIdxs nvars nvars [] mid

/-- `udef_args_indices()` in `taylor_segment_dc()` (`src/taylor_02.cpp` 111-143). -/
def flatIdxs : Expr K → Res (List Nat)
  | .fn _ args => argIdxs args
  | _ => .throw

/-- `taylor_segment_dc()` (`src/taylor_02.cpp` 105-207) on the middle part of a Taylor decomposition: definitions with their
hidden dependencies. -/
def taylorSegmentDc (nEq : Nat) (mid : List (Expr K × List Nat)) : Res (List (List (Expr K × List Nat))) :=
  match mid with
  | [] => .ok []
  | _ => segmentLoop (fun p => flatIdxs p.1) nEq nEq [] mid

/-! ### The bodies of the functions -/

/-- The code generated by `llvm_evaluate()` for a function: the value at given arguments. -/
class CodeInterp (K : Type) where
  code : Fn K → List K → Option K

section
variable [Field K] [LinearOrder K] [FloorRing K] [CodeInterp K] [FmtName K]

/-- The variant of the code selected by `llvm_evaluate()`: it depends on the actual arguments of powers
(`src/math/pow.cpp` 357-365) and products (`src/math/prod.cpp` 284-309). -/
def codeOf : Fn K → List (Expr K) → Fn K
  | .pow a, args =>
    match args with
    | [_, e] => .pow (powAlgo e)
    | _ => .pow a
  | .prod _, args => .prod (prodIsNegation args)
  | f, _ => f

/-- The evaluation of a function on vectors. -/
def fnCode (b : Nat) (timep : Ptr K) (f : Fn K) (xs : List (List (Option K))) : Res (List (Option K)) :=
  match f, xs with
  | .time, [] => loadVec timep 0 b
  | f, xs => .ok ((List.range b).map fun l => (allSome (laneOf l xs)).bind (CodeInterp.code f))

/-- The next argument (`args.at(arg_idx++)`). -/
def popVec {α : Type} : List α → Res (α × List α)
  | [] => .throw
  | x :: xs => .ok (x, xs)

mutual
/-- `composite_function_llvm_evaluate_impl()` (`src/detail/composite_function.cpp` 165-196), and
`llvm_evaluate()` of a function which is not nested: the result, the arguments not yet used. -/
def treeCode (b : Nat) (timep : Ptr K) : Expr K → List (List (Option K)) →
    Res (List (Option K) × List (List (Option K)))
  | .fn f args, xs => (treeCodeL b timep args xs).bind fun r =>
    (fnCode b timep (codeOf f args) r.1).bind fun y => .ok (y, r.2)
  | .num _, xs => popVec xs
  | .var _, xs => popVec xs
  | .par _, xs => popVec xs
/-- The loop over the arguments. -/
def treeCodeL (b : Nat) (timep : Ptr K) : List (Expr K) → List (List (Option K)) →
    Res (List (List (Option K)) × List (List (Option K)))
  | [], xs => .ok ([], xs)
  | a :: as, xs => (treeCode b timep a xs).bind fun r =>
    (treeCodeL b timep as r.2).bind fun s => .ok (r.1 :: s.1, s.2)
end

/-! ### The generated code -/

/-- An argument of a call (`std::variant<std::uint32_t, number>`). -/
inductive CArg (K : Type) where
  | idx (i : Nat)
  | num (n : Num K)

/-- `udef_to_variants()` for one argument (`src/detail/cm_utils.cpp` 79-121). -/
def argOf : Expr K → Res (CArg K)
  | .var s => (unameToIndex s).bind fun i => .ok (.idx i)
  | .num n => .ok (.num n)
  | .par i => .ok (.idx i)
  | .fn _ _ => .throw

/-- `udef_to_variants()` (`src/detail/cm_utils.cpp` 79-121). -/
def argsOf : List (Expr K) → Res (List (CArg K))
  | [] => .ok []
  | e :: es => (argOf e).bind fun a => (argsOf es).bind fun as => .ok (a :: as)

/-- An entry of `tmp_map` (`src/expression_cfunc.cpp` 1898-1900): the mangled name, the body of the function with that name,
the arguments of the calls. -/
structure Group (K : Type) where
  name : List Char
  body : Expr K
  rows : List (List (CArg K))

/-- The insertion of a call into `tmp_map` (`src/expression_cfunc.cpp` 1907-1932), which is ordered by the names. -/
def insertRow (name : List Char) (body : Expr K) (row : List (CArg K)) :
    List (Group K) → Res (List (Group K))
  | [] => .ok [⟨name, body, [row]⟩]
  | g :: gs =>
    if name = g.name then
      match g.rows.getLast? with
      | none => .ub
      | some r => if r.length ≠ row.length then .throw else .ok (⟨g.name, g.body, g.rows ++ [row]⟩ :: gs)
    else if name < g.name then .ok (⟨name, body, [row]⟩ :: g :: gs)
    else (insertRow name body row gs).bind fun gs' => .ok (g :: gs')

/-- `llvm_c_eval_func()` (`src/expression_cfunc.cpp` 1617-1720): the body of the function with a given name, created from the
element unless it exists in the module. -/
def getBody (tbl : List (List Char × Expr K)) (name : List Char) (e : Expr K) :
    Expr K × List (List Char × Expr K) :=
  match tbl.lookup name with
  | some body => (body, tbl)
  | none => (e, (name, e) :: tbl)

/-- The loop over the elements of a segment (`src/expression_cfunc.cpp` 1902-1935); `u` is `cur_u_idx`. -/
def segGroups : List (List Char × Expr K) → Nat → List (Group K) → List (Expr K) →
    Res (List (List Char × Expr K) × List (Group K))
  | tbl, _, gs, [] => .ok (tbl, gs)
  | tbl, u, gs, e :: es => (mangled e).bind fun nm => (argsOf e.leaves).bind fun as =>
    (insertRow nm (getBody tbl nm e).1 (.idx u :: as) gs).bind fun gs' =>
      segGroups (getBody tbl nm e).2 (u + 1) gs' es

/-- The generators of arguments. -/
inductive CGen (K : Type) where
  | idx (g : IdxGen)
  | num (g : NumGen K)

/-- All the entries, if they are indices. -/
def allIdx : List (CArg K) → Option (List Nat)
  | [] => some []
  | .idx i :: l => (allIdx l).map (i :: ·)
  | .num _ :: _ => none

/-- All the entries, if they are numbers. -/
def allNum : List (CArg K) → Option (List (Num K))
  | [] => some []
  | .num n :: l => (allNum l).map (n :: ·)
  | .idx _ :: _ => none

/-- `vv_transpose()` (`include/heyoka/detail/cm_utils.hpp` 44-87) and the creation of the generator
(`src/expression_cfunc.cpp` 2004-2018). -/
def mkGen (col : List (CArg K)) : Res (CGen K) :=
  match col with
  | [] => .ub
  | .idx _ :: _ =>
    match allIdx col with
    | some l => (argGenIdx l).bind fun g => .ok (.idx g)
    | none => .throw
  | .num _ :: _ =>
    match allNum col with
    | some l => (argGenNum l).bind fun g => .ok (.num g)
    | none => .throw

/-- The `i`-th arguments of all the calls (`src/expression_cfunc.cpp` 1958-1964). -/
def column (i : Nat) : List (List (CArg K)) → Res (List (CArg K))
  | [] => .ok []
  | r :: rs =>
    match r[i]? with
    | none => .ub
    | some a => (column i rs).bind fun l => .ok (a :: l)

/-- The generators for the arguments `i`, `i + 1`, ... (`n` of them). -/
def mkGens (rows : List (List (CArg K))) : Nat → Nat → Res (List (CGen K))
  | _, 0 => .ok []
  | i, n + 1 => (column i rows).bind fun c => (mkGen c).bind fun g =>
    (mkGens rows (i + 1) n).bind fun gs => .ok (g :: gs)

/-- An entry of `seg_map` (`src/expression_cfunc.cpp` 1980-2020). -/
structure Block (K : Type) where
  body : Expr K
  gens : List (CGen K)
  ncalls : Nat

/-- The creation of an entry of `seg_map` (`src/expression_cfunc.cpp` 1937-2020). -/
def mkBlock (g : Group K) : Res (Block K) :=
  match g.rows with
  | [] => .ub
  | r :: _ =>
    if 2 ^ 32 ≤ g.rows.length then .throw else
    (mkGens g.rows 0 r.length).bind fun gens => .ok ⟨g.body, gens, g.rows.length⟩

/-- The entries of `seg_map`. -/
def mkBlocks : List (Group K) → Res (List (Block K))
  | [] => .ok []
  | g :: gs => (mkBlock g).bind fun b => (mkBlocks gs).bind fun bs => .ok (b :: bs)

/-- The loop over the segments (`src/expression_cfunc.cpp` 1863-2113); `n` is `n_evalf`. If it is too large, a new module is
started. -/
def compileSegs : List (List Char × Expr K) → Nat → Nat → List (List (Expr K)) →
    Res (List (List (Block K)))
  | _, _, _, [] => .ok []
  | tbl, n, u, seg :: segs =>
    (segGroups (if n > 100 then [] else tbl) u [] seg).bind fun r =>
      (mkBlocks r.2).bind fun bs =>
        (compileSegs r.1 ((if n > 100 then 0 else n) + (bs.map Block.ncalls).sum) (u + seg.length) segs).bind
          fun l => .ok (bs :: l)

/-- The tables of outputs: (index of the output, value), for variables, numbers, parameters. -/
structure OutTables (K : Type) where
  vars : List (Nat × Nat)
  nums : List (Nat × Num K)
  pars : List (Nat × Nat)

/-- `cfunc_c_make_output_globals()` (`src/expression_cfunc.cpp` 1166-1246), from the output `i` on. -/
def outTables : Nat → List (Expr K) → Res (OutTables K)
  | _, [] => .ok ⟨[], [], []⟩
  | i, .var s :: es => (unameToIndex s).bind fun u => (outTables (i + 1) es).bind fun t =>
    .ok ⟨(i, u) :: t.vars, t.nums, t.pars⟩
  | i, .num n :: es => (outTables (i + 1) es).bind fun t => .ok ⟨t.vars, (i, n) :: t.nums, t.pars⟩
  | i, .par k :: es => (outTables (i + 1) es).bind fun t => .ok ⟨t.vars, t.nums, (i, k) :: t.pars⟩
  | _, .fn _ _ :: _ => .ub

/-- The generated program. -/
structure Program (K : Type) where
  nvars : Nat
  nuvars : Nat
  segs : List (List (Block K))
  outs : OutTables K
  allVars : Bool

/-- `add_multi_cfunc_impl()` (`src/expression_cfunc.cpp` 2125-2180): the generation of the code. -/
def compile (nvars nouts : Nat) (dc : List (Expr K)) : Res (Program K) :=
  if dc.length < nvars + nouts then .ub else
  (segmentDc nvars (dcMid nvars nouts dc)).bind fun segs =>
    (outTables 0 (dcOuts nouts dc)).bind fun t =>
      (compileSegs [] 0 nvars segs).bind fun bs =>
        .ok ⟨nvars, dc.length - nouts, bs, t, decide (t.vars.length = nouts)⟩

/-! ### The execution of the generated code -/

/-- The tape: `none` is an entry not yet written. -/
abbrev Tape (K : Type) := List (Option (List (Option K)))

/-- A load from the tape (`src/expression_cfunc.cpp` 1142-1151). -/
def tapeGet (tape : Tape K) (i : Nat) : Res (List (Option K)) :=
  match tape[i]? with
  | some (some x) => .ok x
  | _ => .ub

/-- A store into the tape (`src/expression_cfunc.cpp` 1131-1140). -/
def tapeSet (tape : Tape K) (i : Nat) (x : List (Option K)) : Res (Tape K) :=
  if i < tape.length then .ok (tape.set i (some x)) else .ub

/-- The load of an argument (`src/expression_cfunc.cpp` 1667-1706). The type of the argument is given by the leaf of the body. -/
def loadLeaf (b stride : Nat) (parp : Ptr K) (tape : Tape K) : Expr K → CArg K → Res (List (Option K))
  | .num _, .num n => .ok (List.replicate b n.toK?)
  | .var _, .idx i => tapeGet tape i
  | .par _, .idx i => loadVec parp (stride * i) b
  | _, _ => .ub

/-- The loads of the arguments. -/
def loadLeaves (b stride : Nat) (parp : Ptr K) (tape : Tape K) :
    List (Expr K) → List (CArg K) → Res (List (List (Option K)))
  | [], [] => .ok []
  | e :: es, a :: as => (loadLeaf b stride parp tape e a).bind fun x =>
    (loadLeaves b stride parp tape es as).bind fun xs => .ok (x :: xs)
  | _, _ => .ub

/-- The call of an evaluation function and the store of its result (`src/expression_cfunc.cpp` 2061-2083). -/
def runCall (b stride : Nat) (parp timep : Ptr K) (body : Expr K) (tape : Tape K) : List (CArg K) → Res (Tape K)
  | .idx u :: as => (loadLeaves b stride parp tape body.leaves as).bind fun xs =>
    (treeCode b timep body xs).bind fun y => tapeSet tape u y.1
  | _ => .ub

/-- An argument of the `j`-th call. -/
def CGen.eval (j : Nat) : CGen K → Res (CArg K)
  | .idx g => (g.eval j).bind fun i => .ok (.idx i)
  | .num g => (g.eval j).bind fun n => .ok (.num n)

/-- The arguments of the `j`-th call. -/
def evalGens (j : Nat) : List (CGen K) → Res (List (CArg K))
  | [] => .ok []
  | g :: gs => (g.eval j).bind fun a => (evalGens j gs).bind fun as => .ok (a :: as)

/-- The calls `j`, `j + 1`, ... (`k` of them) of an evaluation function (`src/expression_cfunc.cpp` 2056-2099; the
unrolled loop does the same). -/
def runBlock (b stride : Nat) (parp timep : Ptr K) (bl : Block K) : Nat → Nat → Tape K → Res (Tape K)
  | _, 0, tape => .ok tape
  | j, k + 1, tape => (evalGens j bl.gens).bind fun row =>
    (runCall b stride parp timep bl.body tape row).bind fun tape' => runBlock b stride parp timep bl (j + 1) k tape'

/-- The blocks of a segment. -/
def runBlocks (b stride : Nat) (parp timep : Ptr K) : List (Block K) → Tape K → Res (Tape K)
  | [], tape => .ok tape
  | bl :: bls, tape => (runBlock b stride parp timep bl 0 bl.ncalls tape).bind fun tape' =>
    runBlocks b stride parp timep bls tape'

/-- The segments. -/
def runSegs (b stride : Nat) (parp timep : Ptr K) : List (List (Block K)) → Tape K → Res (Tape K)
  | [], tape => .ok tape
  | s :: ss, tape => (runBlocks b stride parp timep s tape).bind fun tape' => runSegs b stride parp timep ss tape'

/-- The loop copying the inputs to the tape (`src/expression_cfunc.cpp` 2156-2167), from the input `i` on. -/
def copyIns (b stride : Nat) (inp : Ptr K) : Nat → Nat → Tape K → Res (Tape K)
  | _, 0, tape => .ok tape
  | i, n + 1, tape => (loadVec inp (stride * i) b).bind fun x => (tapeSet tape i x).bind fun tape' =>
    copyIns b stride inp (i + 1) n tape'

/-- The stores of the outputs which are variables (`src/expression_cfunc.cpp` 1274-1304); `k` is the position in the table. -/
def writeVars (stride o : Nat) (allVars : Bool) (tape : Tape K) : Nat → List (Nat × Nat) → Res (List (Write K))
  | _, [] => .ok []
  | k, (i, u) :: l => (tapeGet tape u).bind fun x => (writeVars stride o allVars tape (k + 1) l).bind fun ws =>
    .ok (storeVec (o + stride * (if allVars then k else i)) x ++ ws)

/-- The stores of the outputs which are numbers (`src/expression_cfunc.cpp` 1307-1327). -/
def writeNums (b stride o : Nat) : List (Nat × Num K) → List (Write K)
  | [] => []
  | (i, n) :: l => storeVec (o + stride * i) (List.replicate b n.toK?) ++ writeNums b stride o l

/-- The stores of the outputs which are parameters (`src/expression_cfunc.cpp` 1330-1352). -/
def writePars (b stride o : Nat) (parp : Ptr K) : List (Nat × Nat) → Res (List (Write K))
  | [] => .ok []
  | (i, p) :: l => (loadVec parp (stride * p) b).bind fun x => (writePars b stride o parp l).bind fun ws =>
    .ok (storeVec (o + stride * i) x ++ ws)

/-- The generated function (`src/expression_cfunc.cpp` 2125-2180): the sequence of its stores into the output array. -/
def ckernel (b stride : Nat) (pr : Program K) (o : Nat) (inp parp timep : Ptr K) : Res (List (Write K)) :=
  (copyIns b stride inp 0 pr.nvars (List.replicate pr.nuvars none)).bind fun tape =>
    (runSegs b stride parp timep pr.segs tape).bind fun tape' =>
      (writeVars stride o pr.allVars tape' 0 pr.outs.vars).bind fun w1 =>
        (writePars b stride o parp pr.outs.pars).bind fun w3 =>
          .ok (w1 ++ (writeNums b stride o pr.outs.nums ++ w3))

end

end Heyoka.Sym
