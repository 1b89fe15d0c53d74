import Verif.Taylor.Model

/-!
# The jet of normalised derivatives, default mode

`taylor_compute_jet()` (`src/taylor_02.cpp` 1290-1419) in the default mode. The batch size is one: the
elements of a batch are computed independently of each other.
-/

set_option linter.unusedSectionVars false

namespace Heyoka.Taylor

open Heyoka.Sym

variable {K : Type}

/-- An element of a Taylor decomposition `taylor_dc_t`: an expression and its hidden dependencies
(`include/heyoka/detail/fwd_decl.hpp`). -/
abbrev TElem (K : Type) := Expr K × List Nat

/-- A Taylor decomposition: the state variables, the definitions of the other `u` variables, and the
right-hand sides of the equations (numbers, parameters or `u` variables). -/
abbrev TDc (K : Type) := List (TElem K)

/-- The definitions of the `u` variables which are not state variables. -/
def tMid (neq : Nat) (dc : TDc K) : TDc K := (dc.drop neq).take (dc.length - neq - neq)

/-- The right-hand sides. -/
def tOuts (neq : Nat) (dc : TDc K) : TDc K := dc.drop (dc.length - neq)

section
variable [Field K] [LinearOrder K] [Interp K] [TConst K]

/-- `taylor_diff()` (`src/expression_basic.cpp` 969-981), only for functions. -/
def elemDiff (par : Nat → K) (time : K) (rd : Nat → Nat → Res (V K)) (order i : Nat) (e : TElem K) :
    Res (V K) :=
  match e.1 with
  | .fn f es => do
    let as ← targs par es
    taylorDiff time rd order i e.2 f as
  | _ => .throw

/-- `taylor_compute_sv_diff()` (`src/taylor_02.cpp` 245-287): the derivative of order `order` of a state
variable whose first-order derivative is the number, parameter or `u` variable `e`. -/
def svDiff (par : Nat → K) (rd : Nat → Nat → Res (V K)) (order : Nat) : Expr K → Res (V K)
  | .var s => do
    let i ← unameToIndex s
    let x ← rd i (order - 1)
    pure (x / V.nat order)
  | .num x => .ok (if order = 1 then V.ofOption x.toK? else 0)
  | .par i => .ok (if order = 1 then V.fin (par i) else 0)
  | .fn _ _ => .ub

/-- The loops over the `u` variables which are not state variables (`src/taylor_02.cpp` 1347-1350, 1365-1368,
1386-1389): append to the array the derivatives of order `order` of the elements `es`, starting with the element
of index `i`. -/
def elemsDiff (par : Nat → K) (time : K) (nu order : Nat) : Nat → TDc K → List (V K) → Res (List (V K))
  | _, [], arr => .ok arr
  | i, e :: es, arr => do
    let x ← elemDiff par time (fetch arr nu) order i e
    elemsDiff par time nu order (i + 1) es (arr ++ [x])

/-- The loops over the right-hand sides (`src/taylor_02.cpp` 1359-1362, 1372-1375). -/
def svsDiff (par : Nat → K) (nu order : Nat) : TDc K → List (V K) → Res (List (V K))
  | [], arr => .ok arr
  | e :: es, arr => do
    let x ← svDiff par (fetch arr nu) order e.1
    svsDiff par nu order es (arr ++ [x])

/-- The loop over the orders (`src/taylor_02.cpp` 1355-1369): `cnt` iterations from the order `o` on. -/
def ordersDiff (par : Nat → K) (time : K) (neq nu : Nat) (dc : TDc K) :
    Nat → Nat → List (V K) → Res (List (V K))
  | 0, _, arr => .ok arr
  | cnt + 1, o, arr => do
    let arr ← svsDiff par nu o (tOuts neq dc) arr
    let arr ← elemsDiff par time nu o neq (tMid neq dc) arr
    ordersDiff par time neq nu dc cnt (o + 1) arr

/-- The last order of the functions of the state variables (`src/taylor_02.cpp` 1377-1389): the `u` variables up
to the maximum index `m` in `svf`, nothing if `svf` is empty. -/
def lastElems (neq : Nat) (dc : TDc K) (svf : List Nat) : TDc K :=
  (tMid neq dc).take (svf.foldr max 0 + 1 - neq)

/-- The array `diff_arr` (`src/taylor_02.cpp` 1343-1389) for the values `state` of the state variables. -/
def jetArr (par : Nat → K) (time : K) (neq : Nat) (dc : TDc K) (svf : List Nat) (order : Nat)
    (state : List K) : Res (List (V K)) := do
  let nu := dc.length - neq
  let arr ← elemsDiff par time nu 0 neq (tMid neq dc) (state.map V.fin)
  let arr ← ordersDiff par time neq nu dc (order - 1) 1 arr
  let arr ← svsDiff par nu order (tOuts neq dc) arr
  elemsDiff par time nu order neq (lastElems neq dc svf) arr

/-- The values of order `o` of the `u` variables `us`. -/
def fetchAll (rd : Nat → Nat → Res (V K)) (o : Nat) : List Nat → Res (List (V K))
  | [] => .ok []
  | u :: us => do
    let x ← rd u o
    let xs ← fetchAll rd o us
    pure (x :: xs)

/-- The extraction of the results (`src/taylor_02.cpp` 1405-1413), order by order: the state variables, then the
functions of the state variables. -/
def extract (rd : Nat → Nat → Res (V K)) (us : List Nat) : List Nat → Res (List (List (V K)))
  | [] => .ok []
  | o :: os => do
    let x ← fetchAll rd o us
    let xs ← extract rd us os
    pure (x :: xs)

/-- `taylor_compute_jet()` in default mode (`src/taylor_02.cpp` 1290-1419): the jet of the state variables and of the
functions of the state variables `svf`, one list for each order from 0 to `order`. The overflow checks
(1319-1335) are not modelled, and the positivity of `n_eq` and of the order are assertions (1312-1317). -/
def jet (par : Nat → K) (time : K) (neq : Nat) (dc : TDc K) (svf : List Nat) (order : Nat)
    (state : List K) : Res (List (List (V K))) :=
  if neq = 0 ∨ order = 0 ∨ state.length ≠ neq ∨ dc.length < neq + neq then .ub else do
  let arr ← jetArr par time neq dc svf order state
  extract (fetch arr (dc.length - neq)) (List.range neq ++ svf) (List.range (order + 1))

end

end Heyoka.Taylor
