import Verif.CFunc.Model
import Verif.Decomp.FunDec
import Verif.Dtens.Model

/-!
# Variational systems: the automatic setup of the initial conditions

`src/detail/setup_variational_ics.cpp`, and the part of the constructors of the adaptive integrators which calls it.
Simplification: the sizes do not overflow (`safe_numerics` throws otherwise).
-/

set_option linter.unusedSectionVars false

namespace Heyoka.Sym

open Heyoka.Dtens

variable {K : Type}

/-- `var_ode_sys::impl` (`src/var_ode_sys.cpp` 72-84): equations, tensor of derivatives, arguments. -/
structure VSys (K : Type) where
  sys : List (Expr K × Expr K)
  dt : Dt (Expr K)
  vargs : List (Expr K)

/-- `std::vector::resize()` with a value. -/
def resize {α : Type} (l : List α) (n : Nat) (x : α) : List α := l.take n ++ List.replicate (n - l.length) x

/-- Writing `b` consecutive elements (the loops in `src/detail/setup_variational_ics.cpp` 105-117, 223-225). Writing
out of bounds is undefined behaviour. -/
def writeAt {α : Type} : List α → Nat → List α → Res (List α)
  | l, _, [] => .ok l
  | l, k, x :: xs => if k < l.length then writeAt (l.set k x) (k + 1) xs else .ub

section
variable [Field K] [LinearOrder K] [FloorRing K] [Interp K] [FmtName K]

/-- One iteration of the loop in `setup_variational_ics_varpar()` (`src/detail/setup_variational_ics.cpp` 82-118). -/
def icsStep (vs : VSys K) (b : Nat) (state : List K) (i : Nat) : Res (List K) :=
  match vs.dt.map[i]? with
  | none => .ub
  | some p =>
    match p.1.2 with
    | [(didx, order)] =>
      match vs.sys[p.1.1]?, vs.vargs[didx]? with
      | some q, some a =>
        if order > 1 || !q.1.beq a then .ok state
        else writeAt state (i * b) (List.replicate b 1)
      | _, _ => .ub
    | _ => .ok state

/-- The loop over the indices `i`, `i + 1`, ... -/
def icsLoop (vs : VSys K) (b : Nat) : Nat → Nat → List K → Res (List K)
  | _, 0, state => .ok state
  | i, n + 1, state => (icsStep vs b state i).bind fun st => icsLoop vs b (i + 1) n st

/-- `setup_variational_ics_varpar()` (`src/detail/setup_variational_ics.cpp` 48-122). -/
def icsVarpar (vs : VSys K) (b : Nat) (state : List K) : Res (List K) :=
  vs.dt.getNouts.bind fun n =>
    icsLoop vs b n (vs.sys.length - n) (resize state (b * vs.sys.length) 0)

/-- The evaluation of the negated right-hand sides (`src/detail/setup_variational_ics.cpp` 163-208): a function is
compiled in default mode, and called with the state, the parameters and the time. -/
def evalNegRhs (fuel : Nat) (share : List (Expr K) → List (Node K)) (vs : VSys K) (b n : Nat)
    (state pars time : List K) : Option (Res (List (Option K))) :=
  (functionDecompose fuel share ((vs.sys.take n).map fun p : Expr K × Expr K => negE p.2) ((vs.sys.take n).map Prod.fst)).map fun r =>
    r.bind fun dc =>
      (kernel b b n n dc 0 (some (state, 0)) (some (pars, 0)) (some (time, 0))).bind fun ws =>
        applyW ((state.take (b * n)).map some) ws

/-- The loop writing the derivatives with respect to the initial time
(`src/detail/setup_variational_ics.cpp` 210-227). -/
def icsT0Loop (b n nargs ta : Nat) (out : List (Option K)) : Nat → Nat → List (Option K) → Res (List (Option K))
  | _, 0, state => .ok state
  | i, k + 1, state =>
    (writeAt state (b * n + b * i * nargs + b * ta) ((out.drop (b * i)).take b)).bind fun st =>
      icsT0Loop b n nargs ta out (i + 1) k st

/-- `setup_variational_ics_t0()` (`src/detail/setup_variational_ics.cpp` 124-228). -/
def icsT0 (fuel : Nat) (share : List (Expr K) → List (Node K)) (vs : VSys K) (b : Nat) (state pars time : List K) :
    Option (Res (List (Option K))) :=
  match vs.vargs.findIdx? (fun a => a.beq (.fn .time [])) with
  | none => some (.ok (state.map some))
  | some ta =>
    if vs.dt.getOrder > 1 then some .throw
    else
      match vs.dt.getNouts with
      | .ok n =>
        (evalNegRhs fuel share vs b n state pars time).map fun r =>
          r.bind fun out => icsT0Loop b n vs.vargs.length ta out 0 n (state.map some)
      | .throw => some .throw
      | .ub => some .ub

/-- The state of a variational integrator after the construction (`src/taylor_adaptive_batch.cpp` 159-170, 176-219,
414-418; `src/taylor_adaptive.cpp` 253-343, 564-568 is the case `b = 1`). -/
def initState (fuel : Nat) (share : List (Expr K) → List (Node K)) (vs : VSys K) (b : Nat) (state pars time : List K) :
    Option (Res (List (Option K))) :=
  if b = 0 then some .throw
  else if state.length % b ≠ 0 then some .throw
  else
    match vs.dt.getNouts with
    | .ok n =>
      let state := if state.isEmpty then List.replicate (n * b) 0 else state
      if state.length / b ≠ vs.sys.length then
        if state.length / b = n then
          if time.length ≠ b then some .throw
          else
            match icsVarpar vs b state with
            | .ok st => icsT0 fuel share vs b st pars time
            | .throw => some .throw
            | .ub => some .ub
        else some .throw
      else if time.length ≠ b then some .throw else some (.ok (state.map some))
    | .throw => some .throw
    | .ub => some .ub

end

end Heyoka.Sym
