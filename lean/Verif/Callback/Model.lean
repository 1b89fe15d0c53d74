import Verif.Util.Res
import Mathlib.Algebra.Order.Floor.Ring
import Mathlib.Algebra.Order.Field.Basic

/-!
# Step callbacks

`src/step_callback.cpp` (sets of callbacks) and `src/callback/angle_reducer.cpp`.
-/

namespace Heyoka.Callback

/-! ### Sets of callbacks -/

/-- A non-empty step callback. `W` is everything a callback can read or change: the integrator and the
state of all the callbacks (`include/heyoka/step_callback.hpp` 38-115). -/
structure Cb (W : Type) where
  call : W → Res (Bool × W)
  preHook : W → Res W

variable {W : Type}

/-- The constructor of a set (`src/step_callback.cpp` 42-50): `none` is an empty callback. -/
def mkSet : List (Option (Cb W)) → Res (List (Cb W))
  | [] => .ok []
  | none :: _ => .throw
  | some c :: l => (mkSet l).bind fun cs => .ok (c :: cs)

/-- `operator[]` (`src/step_callback.cpp` 86-107). -/
def setAt (cs : List (Cb W)) (i : Nat) : Res (Cb W) :=
  if i ≥ cs.length then .throw else
  match cs[i]? with
  | some c => .ok c
  | none => .ub

/-- The loop of `operator()` (`src/step_callback.cpp` 110-122) with the current value of `retval`. -/
def callLoop : Bool → List (Cb W) → W → Res (Bool × W)
  | b, [], w => .ok (b, w)
  | b, c :: cs, w => (c.call w).bind fun (r, w') => callLoop (r && b) cs w'

/-- `operator()` (`src/step_callback.cpp` 110-122). -/
def callSet (cs : List (Cb W)) (w : W) : Res (Bool × W) := callLoop true cs w

/-- `pre_hook()` (`src/step_callback.cpp` 124-130). -/
def preHookSet : List (Cb W) → W → Res W
  | [], w => .ok w
  | c :: cs, w => (c.preHook w).bind (preHookSet cs)

/-! ### The angle reducer -/

/-- An expression passed to the constructor: the name of a variable, or something else. -/
abbrev VarArg := Option String

/-- The implementation object: the set of variables, the indices of the state variables to be reduced
(`src/callback/angle_reducer.cpp` 63-86). -/
structure Reducer where
  vars : List String
  ind : List Nat

/-- The names, if all the arguments are variables. -/
def argNames : List VarArg → Option (List String)
  | [] => some []
  | some s :: l => (argNames l).map (s :: ·)
  | none :: _ => none

/-- `validate_and_construct()` (`src/callback/angle_reducer.cpp` 126-139). -/
def mkReducer (args : List VarArg) : Res Reducer :=
  if args.isEmpty then .throw else
  match argNames args with
  | none => .throw
  | some names => .ok ⟨names, []⟩

/-- The indices of the selected variables, starting with the index `i`. -/
def selectFrom (vars : List String) : Nat → List String → List Nat
  | _, [] => []
  | i, s :: l => if vars.contains s then i :: selectFrom vars (i + 1) l else selectFrom vars (i + 1) l

/-- `pre_hook_impl()` (`src/callback/angle_reducer.cpp` 154-174): `none` is a default-constructed object,
`lhs` the state variables of the integrator. -/
def preHook : Option Reducer → List String → Res Reducer
  | none, _ => .throw
  | some r, lhs => .ok { r with ind := selectFrom r.vars 0 lhs }

section
variable {K : Type} [Field K] [LinearOrder K] [FloorRing K]

/-- The reduced angle; `tp` is the constant `2 pi` (`src/callback/angle_reducer.cpp` 264, 300). -/
def reduce (tp x : K) : K := x - tp * (⌊x / tp⌋ : K)

/-- The reduction of one element of the state. -/
def reduceAt (tp : K) (s : List K) (k : Nat) : Res (List K) :=
  match s[k]? with
  | some x => .ok (s.set k (reduce tp x))
  | none => .ub

/-- The loop over the elements. -/
def reduceLoop (tp : K) : List Nat → List K → Res (List K)
  | [], s => .ok s
  | k :: ks, s => (reduceAt tp s k).bind (reduceLoop tp ks)

/-- The check of the indices (`src/callback/angle_reducer.cpp` 247-257, 278-288): `n` is the number of
state variables. -/
def checkInd (ind : List Nat) (n : Nat) : Res Unit :=
  match ind.getLast? with
  | some k => if k ≥ n then .throw else .ok ()
  | none => .ok ()

/-- `operator()` in scalar mode (`src/callback/angle_reducer.cpp` 241-268). -/
def callScalar (tp : K) (n : Nat) : Option Reducer → List K → Res (Bool × List K)
  | none, _ => .throw
  | some r, s => (checkInd r.ind n).bind fun _ =>
    (reduceLoop tp r.ind s).bind fun s' => .ok (true, s')

/-- `operator()` in batch mode (`src/callback/angle_reducer.cpp` 271-305): the two loops visit the lanes
of the variables one after the other. -/
def callBatch (tp : K) (n batch : Nat) : Option Reducer → List K → Res (Bool × List K)
  | none, _ => .throw
  | some r, s => (checkInd r.ind n).bind fun _ =>
    (reduceLoop tp (r.ind.flatMap fun ind => (List.range batch).map (ind * batch + ·)) s).bind
      fun s' => .ok (true, s')

end

end Heyoka.Callback
