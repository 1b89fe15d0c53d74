import Verif.Util.Res
import Verif.Expr.Num
import Mathlib.Data.Real.Basic

/-!
# Model of the constructors of the events and of the automatic cooldown

Models src/t_event.cpp 64-81, src/nt_event.cpp 100-112, the constructors in include/heyoka/events.hpp
78-101 and 167-180, and `taylor_deduce_cooldown()` in src/detail/event_detection.cpp 519-550.

Simplifications: a floating-point value is a real number or one of the special values, the arithmetic
is exact; the value of the direction is an integer (an enumeration with an `int` below, in which other
values than the three enumerators can be stored); a callback is any type `C` with an empty value.
-/

namespace Heyoka.EvCtor

open Heyoka.Sym

/-- `isfinite()`. -/
def isFinite : FVal ℝ → Bool
  | .nzero => true
  | .fin _ => true
  | _ => false

/-- `t_event_impl` (include/heyoka/events.hpp 60-64), the expression apart. -/
structure TEv (C : Type) where
  callback : Option C
  cooldown : FVal ℝ
  dir : Int

/-- `nt_event_impl` (include/heyoka/events.hpp 150-153), the expression apart. -/
structure NtEv (C : Type) where
  callback : C
  dir : Int

/-- src/t_event.cpp 64-81, `t_event_impl::finalise_ctor()`. -/
noncomputable def tFinalise {C : Type} (cb : Option C) (cd : FVal ℝ) (d : Int) : Res (TEv C) :=
  if !isFinite cd then .throw
  else if d < -1 ∨ d > 1 then .throw
  else .ok ⟨cb, cd, d⟩

/-- include/heyoka/events.hpp 83-101: the constructor of a terminal event; missing keyword arguments
are `none`. -/
noncomputable def tEvent {C : Type} (cb : Option C) (cd : Option (FVal ℝ)) (d : Option Int) :
    Res (TEv C) :=
  tFinalise cb (cd.getD (.fin (-1))) (d.getD 0)

/-- src/nt_event.cpp 100-112, `nt_event_impl::finalise_ctor()`. -/
def ntFinalise {C : Type} (cb : Option C) (d : Int) : Res (NtEv C) :=
  match cb with
  | none => .throw
  | some c => if d < -1 ∨ d > 1 then .throw else .ok ⟨c, d⟩

/-- include/heyoka/events.hpp 169-180: the constructor of a non-terminal event. -/
def ntEvent {C : Type} (cb : Option C) (d : Option Int) : Res (NtEv C) := ntFinalise cb (d.getD 0)

/-- src/detail/event_detection.cpp 519-550, `taylor_deduce_cooldown_impl()`. The assertions are
preconditions. -/
noncomputable def deduceCooldown (gEps absDer : FVal ℝ) : Res (FVal ℝ) :=
  if isFinite gEps ∧ isFinite absDer ∧ !gEps.isNegative ∧ !absDer.isNegative then
    let ret := (gEps.div absDer).mul (.fin 10)
    if isFinite ret then .ok ret else .ok (.fin 0)
  else .ub

/-- src/taylor_adaptive.cpp 979-990: the cooldown which starts when the event triggers. -/
noncomputable def startCooldown {C : Type} (te : TEv C) (gEps absDer : FVal ℝ) : Res (FVal ℝ) :=
  if te.cooldown.isNegative then deduceCooldown gEps absDer else .ok te.cooldown

end Heyoka.EvCtor
