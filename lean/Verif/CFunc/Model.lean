import Verif.Decomp.FunDec
import Verif.Util.Tasks

/-!
# Compiled functions

The code generated in default mode (`add_cfunc_nc_mode()`) at the level of memory accesses, and the
class `cfunc` (`src/cfunc_class.cpp`). A SIMD vector is the list of its lanes; every generated function acts
on each lane. As required by the attributes of the generated function
(`src/expression_cfunc.cpp` 1446-1471), the output array does not overlap with the others.
-/

set_option linter.unusedSectionVars false

namespace Heyoka.Sym

variable {K : Type}

/-! ### Memory -/

/-- A pointer to read-only data: null, or an offset into an array. -/
abbrev Ptr (K : Type) := Option (List K × Nat)

/-- Pointer arithmetic: it must stay within the array (or at its end). -/
def Ptr.adv : Ptr K → Nat → Res (Ptr K)
  | none, k => if k = 0 then .ok none else .ub
  | some (a, o), k => if o + k ≤ a.length then .ok (some (a, o + k)) else .ub

/-- A load through a pointer. -/
def Ptr.load : Ptr K → Nat → Res K
  | none, _ => .ub
  | some (a, o), k =>
    match a[o + k]? with
    | some x => .ok x
    | none => .ub

/-- `ext_load_vector_from_memory()`: a vector of `n` consecutive elements. -/
def loadVec (p : Ptr K) : Nat → Nat → Res (List (Option K))
  | _, 0 => .ok []
  | off, n + 1 => (p.load off).bind fun x => (loadVec p (off + 1) n).bind fun xs => .ok (some x :: xs)

/-- A store: the address (an index into the output array) and the value. -/
abbrev Write (K : Type) := Nat × Option K

/-- Stores into the output array, in the given order. -/
def applyW : List (Option K) → List (Write K) → Res (List (Option K))
  | out, [] => .ok out
  | out, w :: ws => if w.1 < out.length then applyW (out.set w.1 w.2) ws else .ub

/-! ### The generated code -/

section
variable [Field K] [LinearOrder K] [Interp K]

/-- The code generated for an argument (`src/expression_cfunc.cpp` 932-953, `src/func.cpp` 582-602): `b` is
the batch size. -/
def vargEval (b stride : Nat) (parp : Ptr K) (arr : List (List (Option K))) :
    Expr K → Res (List (Option K))
  | .var s => (unameToIndex s).bind fun i =>
    match arr[i]? with
    | some x => .ok x
    | none => .throw
  | .num n => .ok (List.replicate b n.toK?)
  | .par i => loadVec parp (stride * i) b
  | .fn _ _ => .throw

/-- The code generated for a list of arguments. -/
def vargsEval (b stride : Nat) (parp : Ptr K) (arr : List (List (Option K))) :
    List (Expr K) → Res (List (List (Option K)))
  | [] => .ok []
  | a :: as => (vargEval b stride parp arr a).bind fun x =>
    (vargsEval b stride parp arr as).bind fun xs => .ok (x :: xs)

/-- The `l`-th lanes of some vectors. -/
def laneOf (l : Nat) (xs : List (List (Option K))) : List (Option K) := xs.map fun x => (x[l]?).join

/-- The application of a function to vectors, lane by lane. -/
def vecApp (b : Nat) (f : Fn K) (xs : List (List (Option K))) : List (Option K) :=
  (List.range b).map fun l => (allSome (laneOf l xs)).bind (Interp.app f)

/-- `llvm_eval()` (`src/expression_cfunc.cpp` 913-958); `time` loads from the pointer to the time
(`src/math/time.cpp` 66-77). -/
def velemEval (b stride : Nat) (parp timep : Ptr K) (arr : List (List (Option K))) :
    Expr K → Res (List (Option K))
  | .fn .time [] => loadVec timep 0 b
  | .fn f args => (vargsEval b stride parp arr args).bind fun xs => .ok (vecApp b f xs)
  | _ => .ub

/-- The loop over the middle part (`src/expression_cfunc.cpp` 984-989). -/
def vrunElems (b stride : Nat) (parp timep : Ptr K) :
    List (List (Option K)) → List (Expr K) → Res (List (List (Option K)))
  | arr, [] => .ok arr
  | arr, e :: es => (velemEval b stride parp timep arr e).bind fun x =>
    vrunElems b stride parp timep (arr ++ [x]) es

/-- The stores of a vector to consecutive addresses (`ext_store_vector_to_memory()`). -/
def storeVec : Nat → List (Option K) → List (Write K)
  | _, [] => []
  | a, x :: xs => (a, x) :: storeVec (a + 1) xs

/-- The loop writing the outputs (`src/expression_cfunc.cpp` 992-1020): `i` is the index of the output,
`o` the offset of the pointer to the outputs. -/
def vrunOuts (b stride o : Nat) (parp : Ptr K) (arr : List (List (Option K))) :
    Nat → List (Expr K) → Res (List (Write K))
  | _, [] => .ok []
  | i, .var s :: es => (unameToIndex s).bind fun j =>
    match arr[j]? with
    | some x => (vrunOuts b stride o parp arr (i + 1) es).bind fun ws =>
      .ok (storeVec (o + stride * i) x ++ ws)
    | none => .ub
  | i, .num n :: es => (vrunOuts b stride o parp arr (i + 1) es).bind fun ws =>
    .ok (storeVec (o + stride * i) (List.replicate b n.toK?) ++ ws)
  | i, .par k :: es => (loadVec parp (stride * k) b).bind fun x =>
    (vrunOuts b stride o parp arr (i + 1) es).bind fun ws =>
      .ok (storeVec (o + stride * i) x ++ ws)
  | _, .fn _ _ :: _ => .ub

/-- The loads of the inputs (`src/expression_cfunc.cpp` 976-981), from the index `i`. -/
def loadIns (b stride : Nat) (inp : Ptr K) : Nat → Nat → Res (List (List (Option K)))
  | _, 0 => .ok []
  | i, n + 1 => (loadVec inp (stride * i) b).bind fun x =>
    (loadIns b stride inp (i + 1) n).bind fun xs => .ok (x :: xs)

/-- The generated function (`add_cfunc_nc_mode()`, `src/expression_cfunc.cpp` 961-1021): the sequence of its
stores. -/
def kernel (b stride nvars nouts : Nat) (dc : List (Expr K)) (o : Nat) (inp parp timep : Ptr K) :
    Res (List (Write K)) :=
  if dc.length < nvars + nouts then .ub else
  (loadIns b stride inp 0 nvars).bind fun arr =>
    (vrunElems b stride parp timep arr (dcMid nvars nouts dc)).bind fun arr =>
      vrunOuts b stride o parp arr 0 (dcOuts nouts dc)

/-! ### The class -/

/-- A two-dimensional array passed by the user: extents, data. The data pointer of an empty array may be
null. -/
structure Arr2 (K : Type) where
  rows : Nat
  cols : Nat
  data : Option (List K)

/-- The data has the size given by the extents. -/
def Arr2.Valid (a : Arr2 K) : Prop :=
  match a.data with
  | none => a.rows * a.cols = 0
  | some l => l.length = a.rows * a.cols

/-- The data pointer. -/
def Arr2.handle (a : Arr2 K) : Ptr K := a.data.map fun l => (l, 0)

/-- A pointer which is null unless it is needed (`src/cfunc_class.cpp` 684-687, 699-702). -/
def ptrIf (read : Bool) (p : Ptr K) (k : Nat) : Res (Ptr K) := if read then p.adv k else .ok none

/-- All the outcomes, if every one is normal. -/
def resAll {α : Type} : List (Res α) → Res (List α)
  | [] => .ok []
  | r :: rs => r.bind fun x => (resAll rs).bind fun xs => .ok (x :: xs)

/-- The offsets of the scalar evaluations after the SIMD blocks (`src/cfunc_class.cpp` 706, 779). -/
def remOffsets (nevals b : Nat) : List Nat :=
  (List.range (nevals - nevals / b * b)).map (nevals / b * b + ·)

end

section
variable [Field K] [LinearOrder K] [FloorRing K] [Interp K] [FmtName K]

/-- The choice of the batch size (`src/cfunc_class.cpp` 250-257). -/
def batchOf (simd : Nat) : Option Nat → Nat
  | some b => if b ≠ 0 then b else simd
  | none => simd

end

end Heyoka.Sym
