import Verif.AD.Model
import Verif.OdeSys.Model
import Verif.VarSys.Model

/-!
# The formulation of the variational equations

The constructor of `var_ode_sys` (`src/var_ode_sys.cpp` 176-400). `fuel` and `share` are those of
`diff_tensors()` (`AD/Model.lean`): a bound on the number of iterations, the graph of function objects of the expressions
which are decomposed.
-/

set_option linter.unusedSectionVars false

namespace Heyoka.Sym

open Heyoka.Dtens Heyoka.AD
open Heyoka.EopSw (decimal)

variable {K : Type}

/-- The variational arguments: an enumerator, given by its value, or an explicit list. -/
inductive VArgs (K : Type)
  | enum (n : Nat)
  | list (l : List (Expr K))

/-- `fmt::format("__{}_0", name)` (`src/var_ode_sys.cpp` 217, 267). -/
def icName (s : String) : String := String.ofList ('_' :: '_' :: (s.toList ++ ['_', '0']))

/-- The name standing for the initial time (`src/var_ode_sys.cpp` 238, 280). -/
def itName : String := String.ofList ['_', '_', '_', '_', 't', '_', '0']

/-- Does the name begin with `∂`? (`src/var_ode_sys.cpp` 191) -/
def startsPartial (s : String) : Bool :=
  match s.toList with
  | '∂' :: _ => true
  | _ => false

/-- `fmt` on a pair. -/
def fmtPair (p : Nat × Nat) : List Char := '(' :: (decimal p.1 ++ ',' :: ' ' :: (decimal p.2 ++ [')']))

/-- `fmt` on the elements of a vector of pairs after the first one. -/
def fmtRest : List (Nat × Nat) → List Char
  | [] => []
  | p :: l => ',' :: ' ' :: (fmtPair p ++ fmtRest l)

/-- `fmt` on a vector of pairs. -/
def fmtIdx : List (Nat × Nat) → List Char
  | [] => ['[', ']']
  | p :: l => '[' :: (fmtPair p ++ (fmtRest l ++ [']']))

/-- `fmt::format("∂{}{}", diff_idx, sv_name)` (`src/var_ode_sys.cpp` 352). -/
def varName (s : String) (didx : List (Nat × Nat)) : String := String.ofList ('∂' :: (fmtIdx didx ++ s.toList))

/-- The names of the state variables: `std::get<variable>()` throws if a left-hand side is not a variable
(`src/var_ode_sys.cpp` 191). -/
def sysNames : List (Expr K × Expr K) → Res (List String)
  | [] => .ok []
  | (.var s, _) :: l => (sysNames l).bind fun r => .ok (s :: r)
  | _ :: _ => .throw

section
variable [Field K] [LinearOrder K] [FmtName K]

/-- The arguments for an enumerator (`src/var_ode_sys.cpp` 207-240): those used for the differentiation and the
original ones. -/
def enumArgs (names : List String) (rhs : List (Expr K)) (n : Nat) : List (DVar × Expr K) :=
  (if n &&& 1 ≠ 0 then names.map fun s => (.var (icName s), .var s) else []) ++
  (if n &&& 2 ≠ 0 then (inPars rhs).map fun i => (.par i, .par i) else []) ++
  (if n &&& 4 ≠ 0 then [(.var itName, .fn .time [])] else [])

/-- The treatment of an element of an explicit list (`src/var_ode_sys.cpp` 256-290). -/
def listArg (names : List String) : Expr K → Res DVar
  | .var s => if names.contains s then .ok (.var (icName s)) else .throw
  | .par i => .ok (.par i)
  | e => if e.beq (.fn .time []) then .ok (.var itName) else .throw

/-- The loop over an explicit list (`src/var_ode_sys.cpp` 255-294). -/
def listArgs (names : List String) : List (Expr K) → Res (List (DVar × Expr K))
  | [] => .ok []
  | e :: es => (listArg names e).bind fun a => (listArgs names es).bind fun r => .ok ((a, e) :: r)

/-- The variational arguments (`src/var_ode_sys.cpp` 202-305). The comparison of the expressions in the set is the one of
variables and parameters. -/
def vargsOf (names : List String) (rhs : List (Expr K)) : VArgs K → Res (List (DVar × Expr K))
  | .enum n => if n = 0 ∨ 7 < n then .throw else .ok (enumArgs names rhs n)
  | .list [] => .throw
  | .list (e :: es) => (listArgs names (e :: es)).bind fun l => if (l.map Prod.fst).Nodup then .ok l else .throw

/-- The constructor of `dfun` (`make_dfun_name()`, `src/math/dfun.cpp` 102-133): the indices are less than the number of
arguments and strictly increasing, the orders are positive. -/
def dfunMake (id : String) (args : List (Expr K)) (didx : List (Nat × Nat)) : Res (Expr K) :=
  if (∀ p ∈ didx, p.1 < args.length ∧ p.2 ≠ 0) ∧ (didx.map (·.1)).Pairwise (· < ·) then .ok (.fn (.dfun id didx) args)
  else .throw

/-- The substitution of the state variables (`src/var_ode_sys.cpp` 312-318). -/
def svSubs (names : List String) (args : List (Expr K)) (s : String) : Option (Expr K) :=
  if names.contains s then some (.fn (.dfun s []) args) else none

/-- The loop over the derivatives (`src/var_ode_sys.cpp` 332-362): the entries of the map `dfun_subs_map`, the second
components being the left-hand sides of the equations. -/
def lhsMap (names : List String) (args : List (Expr K)) : List (SIdx × Expr K) → Res (List (Expr K × Expr K))
  | [] => .ok []
  | p :: l =>
    match names[p.1.1]? with
    | none => .ub
    | some s => (dfunMake s args p.1.2).bind fun d => (lhsMap names args l).bind fun r =>
      .ok ((d, if p.1.2.isEmpty then .var s else .var (varName s p.1.2)) :: r)

/-- The transformation of a function in `transform_dfun_sargs()` (`src/var_ode_sys.cpp` 131-160). -/
def sargsFn (args : List (Expr K)) : Expr K → Expr K
  | .fn (.dfun id didx) as => if Expr.beqL as args then .fn (.dfun id didx) args else .fn (.dfun id didx) as
  | e => e

/-- `transform_dfun_sargs()` (`src/var_ode_sys.cpp` 118-168). -/
def transformSargs (args : List (Expr K)) : Expr K → Expr K := Expr.mapNodes id (sargsFn args)

variable [FloorRing K] [Fold K]

/-- The constructor of `var_ode_sys` after the validation of the system (`src/var_ode_sys.cpp` 182-400): the names of the state
variables, the right-hand sides. -/
def varOdeSysImpl (fuel : Nat) (share : List (Expr K) → List (Node K)) (names : List String) (rhs : List (Expr K))
    (va : VArgs K) (order : Nat) : Option (Res (VSys K)) :=
  if order = 0 then some .throw
  else if names.any startsPartial then some .throw
  else
    match vargsOf names rhs va with
    | .throw => some .throw
    | .ub => some .ub
    | .ok l =>
      let args := l.map fun p : DVar × Expr K => (ofDVar p.1 : Expr K)
      (diffTensors fuel share (rhs.map (Expr.mapNodes (subsLeaf (svSubs names args)) id)) (.list args) order).map fun r =>
        r.bind fun d => (lhsMap names args d.1.map).bind fun m =>
          .ok ⟨(m.map Prod.snd).zip ((d.1.map.map Prod.snd).map fun e => (transformSargs args e).replace (Sym.mapFind m)),
            d.1, l.map Prod.snd⟩

/-- The constructor of `var_ode_sys` (`src/var_ode_sys.cpp` 176-400). -/
def varOdeSys (fuel : Nat) (share : List (Expr K) → List (Node K)) (sys : List (Expr K × Expr K))
    (va : VArgs K) (order : Nat) : Option (Res (VSys K)) :=
  match (validateOdeSys sys [] []).bind fun _ => sysNames sys with
  | .throw => some .throw
  | .ub => some .ub
  | .ok names => varOdeSysImpl fuel share names (sys.map Prod.snd) va order

end

end Heyoka.Sym
