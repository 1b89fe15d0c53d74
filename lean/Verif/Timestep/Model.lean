import Verif.Util.XF
import Verif.Util.Res
import Verif.Util.Pairwise
import Mathlib.Analysis.SpecialFunctions.Pow.Real

/-!
# Selection of the timestep

Model of `taylor_determine_h()` (src/taylor_00.cpp 84-273), for one lane of the batch. Finite values are
real numbers (no rounding, overflow or underflow); infinities and NaN propagate as in IEEE 754. Out-of-range
accesses to the derivatives are `ub`.
-/

namespace Heyoka.Timestep

noncomputable section

/-- Division. The sign of zero is not represented: the divisor is always an absolute value here, hence a zero
divisor is positive. -/
def xdiv : XF ℝ → XF ℝ → XF ℝ
  | .nan, _ => .nan
  | _, .nan => .nan
  | .fin x, .fin y => if y = 0 then (if x = 0 then .nan else if 0 < x then .pinf else .ninf) else .fin (x / y)
  | .fin _, _ => .fin 0
  | .pinf, .fin y => if y < 0 then .ninf else .pinf
  | .ninf, .fin y => if y < 0 then .pinf else .ninf
  | _, _ => .nan

/-- `pow()` with a finite positive exponent. -/
def xpow : XF ℝ → ℝ → XF ℝ
  | .fin x, p => if x < 0 then .nan else .fin (x ^ p)
  | .pinf, _ => .pinf
  | .ninf, _ => .nan
  | .nan, _ => .nan

/-- Multiplication by a finite positive constant. -/
def xscale : XF ℝ → ℝ → XF ℝ
  | .fin x, c => .fin (x * c)
  | a, _ => a

/-- `taylor_determine_h_rhofac()`: src/taylor_00.cpp 84-94. -/
def rhofac (order : Nat) : ℝ :=
  Real.exp ((-7 / 10) / ((order - 1 : Nat) : ℝ)) / (Real.exp 1 * Real.exp 1)

/-- Access to an array. -/
def ld (l : List (XF ℝ)) (i : Nat) : Res (XF ℝ) :=
  match l[i]? with
  | some x => .ok x
  | none => .ub

/-- `taylor_step_maxabs()`: src/taylor_00.cpp 71-74. -/
def maxAbs (x y : XF ℝ) : XF ℝ := x.max y.abs

/-- `taylor_step_minabs()`: src/taylor_00.cpp 77-80. -/
def minAbs (x y : XF ℝ) : XF ℝ := x.min y.abs

/-- The loops computing a norm in compact mode: src/taylor_00.cpp 155-200. `tape` is the tape of derivatives,
`k` the order. -/
def normLoop (tape : List (XF ℝ)) (nUvars k : Nat) : List Nat → XF ℝ → Res (XF ℝ)
  | [], acc => .ok acc
  | i :: is, acc => (ld tape (k * nUvars + i)).bind fun y => normLoop tape nUvars k is (maxAbs acc y)

/-- A norm in compact mode: src/taylor_00.cpp 143-205. -/
def normCompact (tape : List (XF ℝ)) (nUvars nEq k : Nat) (svf : List Nat) : Res (XF ℝ) :=
  (ld tape (k * nUvars)).bind fun y0 =>
  (normLoop tape nUvars k ((List.range nEq).drop 1) y0.abs).bind fun acc =>
  normLoop tape nUvars k svf acc

/-- The absolute values of the derivatives of order `k`, in default mode: src/taylor_00.cpp 221-228.
`diffs` contains the derivatives of the state variables and of the `nSvf` functions only. -/
def absDiffs (diffs : List (XF ℝ)) (nEq nSvf k : Nat) : List Nat → Res (List (XF ℝ))
  | [] => .ok []
  | i :: is => (ld diffs (k * (nEq + nSvf) + i)).bind fun y =>
      (absDiffs diffs nEq nSvf k is).bind fun ys => .ok (y.abs :: ys)

/-- A norm in default mode: src/taylor_00.cpp 207-235. -/
def normDefault (diffs : List (XF ℝ)) (nEq nSvf k : Nat) : Res (XF ℝ) :=
  (absDiffs diffs nEq nSvf k (List.range (nEq + nSvf))).bind fun v =>
  match Util.pairwiseReduce XF.max v with
  | some x => .ok x
  | none => .ub

/-- The timestep from the norms of the state and of the derivatives of order `order` and `order - 1`:
src/taylor_00.cpp 243-272. -/
def hFromNorms (order : Nat) (nState nO nOm1 maxH : XF ℝ) : XF ℝ :=
  let numRho := if nState.le (.fin 1) then .fin 1 else nState
  let rhoO := xpow (xdiv numRho nO) (1 / (order : ℝ))
  let rhoOm1 := xpow (xdiv numRho nOm1) (1 / ((order - 1 : Nat) : ℝ))
  let rhoM := rhoO.min rhoOm1
  let h := xscale rhoM (rhofac order)
  let h := minAbs h maxH
  if maxH.lt (.fin 0) then h.neg else h

/-- `taylor_determine_h()` in compact mode; returns the timestep and the norm of the state. -/
def determineHCompact (tape : List (XF ℝ)) (nUvars nEq order : Nat) (svf : List Nat) (maxH : XF ℝ) :
    Res (XF ℝ × XF ℝ) :=
  (normCompact tape nUvars nEq 0 svf).bind fun a =>
  (normCompact tape nUvars nEq order svf).bind fun b =>
  (normCompact tape nUvars nEq (order - 1) svf).bind fun c =>
  .ok (hFromNorms order a b c maxH, a)

/-- `taylor_determine_h()` in default mode; returns the timestep and the norm of the state. -/
def determineHDefault (diffs : List (XF ℝ)) (nEq nSvf order : Nat) (maxH : XF ℝ) : Res (XF ℝ × XF ℝ) :=
  (normDefault diffs nEq nSvf 0).bind fun a =>
  (normDefault diffs nEq nSvf order).bind fun b =>
  (normDefault diffs nEq nSvf (order - 1)).bind fun c =>
  .ok (hFromNorms order a b c maxH, a)

end

end Heyoka.Timestep
