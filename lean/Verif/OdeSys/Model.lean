import Verif.Decomp.Model

/-!
# Validation of systems of differential equations

`src/detail/validate_ode_sys.cpp`.
-/

namespace Heyoka.Sym

variable {K : Type}

/-- Does the name begin with two underscores? -/
def reserved (s : String) : Bool :=
  match s.toList with
  | '_' :: '_' :: _ => true
  | _ => false

/-- The loop over the left-hand sides (`src/detail/validate_ode_sys.cpp` 75-114); `seen` are the variables
found so far. -/
def lhsLoop : List String → List (Expr K) → Res (List String)
  | seen, [] => .ok seen
  | seen, .var s :: es =>
    if reserved s then .throw
    else if seen.contains s then .throw
    else lhsLoop (s :: seen) es
  | _, _ :: _ => .throw

/-- The checks that the variables of a list of expressions are in a set
(`src/detail/validate_ode_sys.cpp` 116-128, 134-145). -/
def checkVars (seen : List String) (es : List (Expr K)) : Res Unit :=
  if (es.flatMap Expr.variables).all (seen.contains ·) then .ok () else .throw

/-- `validate_ode_sys_impl()` (`src/detail/validate_ode_sys.cpp` 47-146): the system, the functions of the
terminal and of the non-terminal events. -/
def validateOdeSys (sys : List (Expr K × Expr K)) (tFuncs ntFuncs : List (Expr K)) : Res Unit :=
  if sys.isEmpty then .throw else
  (lhsLoop [] (sys.map Prod.fst)).bind fun seen =>
    (checkVars seen (sys.map Prod.snd)).bind fun _ => checkVars seen (tFuncs ++ ntFuncs)

end Heyoka.Sym
