import Verif.Compact.Model

/-!
# The class of compiled functions
-/

set_option linter.unusedSectionVars false

namespace Heyoka.Sym

variable {K : Type}

section
variable [Field K] [LinearOrder K] [FloorRing K] [Interp K] [CodeInterp K] [FmtName K]

/-- The data members of a `cfunc` which are relevant for the evaluation
(`src/cfunc_class.cpp` 154-172). `prog` is the generated code in compact mode; in default mode it is given by
the decomposition. -/
structure CFunc (K : Type) where
  nvars : Nat
  nouts : Nat
  nparams : Nat
  timeDep : Bool
  batch : Nat
  dc : List (Expr K)
  prog : Option (Program K)

/-- The function pointed to by `m_fptr_scal` and so on: batch size `b`, in default or in compact mode
(`src/cfunc_class.cpp` 596-625, 684-721; the tapes used in compact mode are private to the call, see the
description of the execution in `Verif.Compact.Model`). -/
def CFunc.call (cf : CFunc K) (b stride o : Nat) (inp parp timep : Ptr K) : Res (List (Write K)) :=
  match cf.prog with
  | none => kernel b stride cf.nvars cf.nouts cf.dc o inp parp timep
  | some pr => ckernel b stride pr o inp parp timep

/-- A call of a strided function with all the pointers advanced by `k` (`src/cfunc_class.cpp` 696-702,
718-721). -/
def callAt (cf : CFunc K) (b nevals : Nat) (inp parp timep : Ptr K) (k : Nat) : Res (List (Write K)) :=
  (ptrIf (decide (0 < cf.nvars)) inp k).bind fun ip =>
    (ptrIf (decide (0 < cf.nparams)) parp k).bind fun pp =>
      (ptrIf cf.timeDep timep k).bind fun tp =>
        cf.call b nevals k ip pp tp

/-- The calls made by `multi_eval_st()` and by `multi_eval_mt()` (`src/cfunc_class.cpp` 629-872): one list of
stores for each SIMD block and for each of the remaining columns. -/
def multiTasks (cf : CFunc K) (nevals : Nat) (inp parp timep : Ptr K) : Res (List (List (Write K))) :=
  if cf.batch = 0 then .ub else
  resAll ((List.range (nevals / cf.batch)).map (fun k => callAt cf cf.batch nevals inp parp timep (k * cf.batch)) ++
    (remOffsets nevals cf.batch).map fun k => callAt cf 1 nevals inp parp timep k)

/-- The checks of `multi_eval()` (`src/cfunc_class.cpp` 875-936; the precision checks for `mppp::real` are
not modelled). `outRows` and `outCols` are the extents of the output array. -/
def multiCheck (cf : CFunc K) (outRows outCols : Nat) (ins : Arr2 K) (pars : Option (Arr2 K))
    (times : Option (List K)) : Bool :=
  !(outRows != cf.nouts) && !(ins.rows != cf.nvars) && !(ins.cols != outCols) &&
  !(cf.nparams != 0 && pars.isNone) &&
  (match pars with
    | some p => !(p.rows != cf.nparams) && !(p.cols != outCols)
    | none => true) &&
  !(cf.timeDep && times.isNone) &&
  (match times with
    | some t => !(t.length != outCols)
    | none => true)

/-- `multi_eval()` up to the order of the stores (`src/cfunc_class.cpp` 875-1044): the lists of stores of the
calls. In the sequential version they are performed one after the other, in the parallel version in any
interleaving (see `Interleave`). -/
def multiEval (cf : CFunc K) (outRows outCols : Nat) (ins : Arr2 K) (pars : Option (Arr2 K))
    (times : Option (List K)) : Res (List (List (Write K))) :=
  if multiCheck cf outRows outCols ins pars times then
    multiTasks cf outCols ins.handle (pars.bind Arr2.handle) (times.map fun t => (t, 0))
  else .throw

/-- The check of the number of parameters in `single_eval()` (`src/cfunc_class.cpp` 545-626). -/
def parsLenBad (cf : CFunc K) : Option (List K) → Bool
  | some p => p.length != cf.nparams
  | none => false

/-- `single_eval()` (`src/cfunc_class.cpp` 545-626): checks, then the scalar unstrided function. The pointers
are passed as they are. -/
def singleEval (cf : CFunc K) (out : List (Option K)) (ins : List K) (pars : Option (List K))
    (time : Option K) : Res (List (Option K)) :=
  if out.length != cf.nouts then .throw
  else if ins.length != cf.nvars then .throw
  else if cf.nparams != 0 && pars.isNone then .throw
  else if parsLenBad cf pars then .throw
  else if cf.timeDep && time.isNone then .throw
  else
    (cf.call 1 1 0 (some (ins, 0)) (pars.map fun p => (p, 0))
      (time.map fun t => ([t], 0))).bind fun ws => applyW out ws

/-- The constructor (`src/cfunc_class.cpp` 242-322) in default mode or in compact
mode: `nodes` are the function objects of
the function, `M` the largest 32-bit integer, `simd` the recommended SIMD size. -/
def mkCFunc (fuel M simd : Nat) (share : List (Expr K) → List (Node K)) (nodes : List (Node K))
    (vars : List (Expr K)) (batch : Option Nat) (compact : Bool) : Option (Res (CFunc K)) :=
  let es := nodes.map Node.toExpr
  match functionDecompose fuel share es vars, getParamSize M fuel nodes, isTimeDependent fuel nodes with
  | some r, some n, some t => some (r.bind fun dc => n.bind fun n => t.bind fun t =>
      if compact then (inlineDc vars.length es.length dc).bind fun dc' => (compile vars.length es.length dc').bind fun pr =>
        .ok ⟨vars.length, es.length, n, t, batchOf simd batch, dc', some pr⟩
      else .ok ⟨vars.length, es.length, n, t, batchOf simd batch, dc, none⟩)
  | _, _, _ => none

end

end Heyoka.Sym
