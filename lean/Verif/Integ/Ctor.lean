import Verif.OdeSys.Model
import Verif.VarSys.Model
import Verif.Expr.Query
import Mathlib.Analysis.SpecialFunctions.Log.Basic
import Mathlib.Algebra.Order.Round

/-!
# The constructors of the adaptive integrators

`src/taylor_adaptive.cpp` 174-600, `src/taylor_adaptive_batch.cpp` 77-428, with the parsing of the keyword arguments in
`include/heyoka/taylor.hpp` 184-231, 402-453, 826-874.

Simplifications: the values are real numbers (the tolerance can also be one of the special values), the logarithm is
exact. The generation and the compilation of the code of the stepper, and the creation of the event detection data
and of the variational data, are summarised by a parameter `comp` which depends on the order and tells if they
succeed. The precision checks for `mppp::real` are not modelled. `M` is the largest 32-bit integer, `M64` is the
largest size.
-/

set_option linter.unusedSectionVars false

namespace Heyoka.Sym

open Heyoka.Dtens

variable [FmtName ℝ]

/-- The first argument of the constructors (`include/heyoka/taylor.hpp` 399): a system of equations or a variational
system. -/
inductive SysArg where
  | plain (sys : List (Expr ℝ × Expr ℝ))
  | vari (vs : VSys ℝ)

/-- The equations (`src/taylor_adaptive.cpp` 226-227). -/
def SysArg.eqs : SysArg → List (Expr ℝ × Expr ℝ)
  | .plain sys => sys
  | .vari vs => vs.sys

/-- The number of original equations (`src/taylor_adaptive.cpp` 255-257). -/
def SysArg.nOrig : SysArg → Res Nat
  | .plain sys => .ok sys.length
  | .vari vs => vs.dt.getNouts

/-- The keyword argument `time` in batch mode (`include/heyoka/taylor.hpp` 836-853). -/
inductive TimeArg where
  | none
  | scalar (t : ℝ)
  | range (ts : List ℝ)

/-- The vector of initial times in batch mode (`include/heyoka/taylor.hpp` 836-853). -/
def TimeArg.values (b : Nat) : TimeArg → List ℝ
  | .none => List.replicate b 0
  | .scalar t => List.replicate b t
  | .range ts => ts

/-- The other arguments. The events are represented by their functions. -/
structure CtorArgs where
  sys : SysArg
  state : List ℝ
  tol : Option (FVal ℝ)
  pars : List ℝ
  tFuncs : List (Expr ℝ)
  ntFuncs : List (Expr ℝ)
  highAcc : Bool
  compact : Bool
  parallel : Bool

/-- An integrator after the construction. The components of the state are `none` if they are uninitialised. -/
structure Ta where
  state : List (Option ℝ)
  pars : List ℝ
  timeHi : List ℝ
  timeLo : List ℝ
  tol : ℝ
  order : Nat
  dim : Nat
  highAcc : Bool
  compact : Bool
  lastH : List ℝ
  tcSize : Nat
  dOutSize : Nat

/-- The keyword argument `tol` (`include/heyoka/taylor.hpp` 193-204): zero is the same as missing. -/
noncomputable def tolArg : Option (FVal ℝ) → Option (FVal ℝ)
  | some (.fin x) => if x = 0 then none else some (.fin x)
  | some .nzero => none
  | t => t

/-- The check of the tolerance and its default (`src/taylor_adaptive.cpp` 202, 417-438,
`src/taylor_adaptive_batch.cpp` 86, 226-241). Zero violates an assertion. -/
noncomputable def checkTol (eps : ℝ) : Option (FVal ℝ) → Res ℝ
  | none => .ok eps
  | some (.fin x) => if x = 0 then .ub else if x < 0 then .throw else .ok x
  | some .nzero => .ub
  | some _ => .throw

/-- `taylor_order_from_tol()` (`include/heyoka/detail/taylor_common.hpp` 164-191). The logarithm of a tolerance which
is not positive is not finite. -/
noncomputable def orderFromTol (M : Nat) (tol : ℝ) : Res Nat :=
  if tol ≤ 0 then .throw
  else
    let o := max 2 ⌈-Real.log tol / 2 + 1⌉
    if (M : ℤ) < o then .throw else .ok o.toNat

/-- The expressions whose parameters are counted by `tot_n_pars_in_ode_sys()`
(`include/heyoka/detail/taylor_common.hpp` 253-269). -/
def totFunc (a : CtorArgs) : List (Expr ℝ) := a.sys.eqs.map Prod.snd ++ a.tFuncs ++ a.ntFuncs

/-- The case of a state whose size is not the number of equations (`src/taylor_adaptive.cpp` 319-342,
`src/taylor_adaptive_batch.cpp` 193-216). -/
noncomputable def growState (b n : Nat) (st : List ℝ) : SysArg → Res (List ℝ × Bool)
  | .vari vs => if st.length / b = n then (icsVarpar vs b st).bind fun st' => .ok (st', true) else .throw
  | .plain _ => .throw

/-- The setup of the state: zeros for an empty state, automatic setup of the derivatives with respect to variables and
parameters, check of the size (`src/taylor_adaptive_batch.cpp` 171-217; `src/taylor_adaptive.cpp` 254-343 is the case
`b = 1`). The flag tells if the derivatives with respect to the time must be set up. -/
noncomputable def mkState (M b : Nat) (sys : SysArg) (state : List ℝ) : Res (List ℝ × Bool) :=
  sys.nOrig.bind fun n =>
    if M < n then .throw
    else
      let st := if state.isEmpty then List.replicate (n * b) 0 else state
      if st.length / b ≠ sys.eqs.length then growState b n st sys else .ok (st, false)

/-- Sequencing of computations with fuel. -/
def fbind {α β : Type} (x : Option (Res α)) (f : α → Option (Res β)) : Option (Res β) :=
  match x with
  | none => none
  | some (.ok a) => f a
  | some .throw => some .throw
  | some .ub => some .ub

/-- The end of the setup of the state (`src/taylor_adaptive.cpp` 563-568, `src/taylor_adaptive_batch.cpp` 413-418). -/
noncomputable def finishState (fuel : Nat) (share : List (Expr ℝ) → List (Node ℝ)) (b : Nat) (sys : SysArg) (auto : Bool)
    (st pars time : List ℝ) : Option (Res (List (Option ℝ))) :=
  match sys with
  | .vari vs => if auto then icsT0 fuel share vs b st pars time else some (.ok (st.map some))
  | .plain _ => some (.ok (st.map some))

/-- The check of the parameters and their default (`src/taylor_adaptive.cpp` 373-395,
`src/taylor_adaptive_batch.cpp` 265-277). -/
def checkPars (req : Nat) (pars : List ℝ) : Res (List ℝ) :=
  if pars.isEmpty then .ok (List.replicate req 0)
  else if pars.length ≠ req then .throw else .ok pars

/-- The sizes of the arrays for the Taylor coefficients (`src/taylor_adaptive.cpp` 528-541,
`src/taylor_adaptive_batch.cpp` 361): `safe_numerics` throws on overflow. -/
def tcSize (M M64 n order : Nat) : Res Nat :=
  (safeAdd M order 1).bind fun o => if n * o ≤ M64 then .ok (n * o) else .throw

/-- `taylor_adaptive_batch::finalise_ctor()` (`src/taylor_adaptive_batch.cpp` 77-428). -/
noncomputable def ctorBatch (M M64 fuel : Nat) (share : List (Expr ℝ) → List (Node ℝ)) (comp : Nat → Res Unit)
    (eps : ℝ) (b : Nat) (time : TimeArg) (a : CtorArgs) : Option (Res Ta) :=
  fbind (some (validateOdeSys a.sys.eqs a.tFuncs a.ntFuncs)) fun _ =>
    if b = 0 then some .throw
    else if a.state.length % b ≠ 0 then some .throw
    else
      fbind (some (mkState M b a.sys a.state)) fun st =>
        if (time.values b).length ≠ b then some .throw
        else
          fbind (some (checkTol eps (tolArg a.tol))) fun tol =>
            if a.parallel && !a.compact then some .throw
            else if M < a.sys.eqs.length then some .throw
            else
              fbind (getParamSize M fuel (share (totFunc a))) fun np =>
                if a.compact && decide (M / b < np) then some .throw
                else if M < np * b then some .throw
                else
                  fbind (some (checkPars (np * b) a.pars)) fun pars =>
                    fbind (some (orderFromTol M tol)) fun order =>
                      fbind (some (comp order)) fun _ =>
                        fbind (some (tcSize M M64 st.1.length order)) fun tcs =>
                          if M / 2 < b then some .throw
                          else
                            fbind (finishState fuel share b a.sys st.2 st.1 pars (time.values b)) fun s =>
                              some (.ok ⟨s, pars, time.values b, List.replicate b 0, tol, order, a.sys.eqs.length,
                                a.highAcc, a.compact, List.replicate b 0, tcs, st.1.length⟩)

/-- `taylor_adaptive::finalise_ctor()` (`src/taylor_adaptive.cpp` 174-600). -/
noncomputable def ctorScalar (M M64 fuel : Nat) (share : List (Expr ℝ) → List (Node ℝ)) (comp : Nat → Res Unit)
    (eps : ℝ) (time : Option ℝ) (a : CtorArgs) : Option (Res Ta) :=
  fbind (some (validateOdeSys a.sys.eqs a.tFuncs a.ntFuncs)) fun _ =>
    fbind (some (mkState M 1 a.sys a.state)) fun st =>
      fbind (getParamSize M fuel (share (totFunc a))) fun np =>
        fbind (some (checkPars np a.pars)) fun pars =>
          fbind (some (checkTol eps (tolArg a.tol))) fun tol =>
            if a.parallel && !a.compact then some .throw
            else if M < a.sys.eqs.length then some .throw
            else
              fbind (some (orderFromTol M tol)) fun order =>
                fbind (some (comp order)) fun _ =>
                  fbind (some (tcSize M M64 st.1.length order)) fun tcs =>
                    fbind (finishState fuel share 1 a.sys st.2 st.1 pars [time.getD 0]) fun s =>
                      some (.ok ⟨s, pars, [time.getD 0], [0], tol, order, a.sys.eqs.length, a.highAcc, a.compact, [0],
                        tcs, st.1.length⟩)

end Heyoka.Sym
