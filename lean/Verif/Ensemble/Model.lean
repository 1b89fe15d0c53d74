import Verif.Util.Res
import Mathlib.Data.List.Basic

/-!
# Ensemble propagation

`src/ensemble_propagate.cpp`. The bodies of the six functions only differ in the propagation function
which is called, here a parameter. The iterations are run by `tbb_isolated_parallel_for()`: the model
allows for every interleaving of their steps.
-/

namespace Heyoka.Ensemble

variable {TA CB R : Type}

/-- The local variables of an iteration (`src/ensemble_propagate.cpp` 66-83). -/
inductive Iter (TA CB R : Type) where
  | idle
  | generated (ta : TA)
  | ready (ta : TA) (cb : CB)
  | propagated (ta : TA) (r : R)
  | done
  | failed

/-- The state: the iterations and the vector of the results. -/
structure State (TA CB R : Type) where
  iters : List (Iter TA CB R)
  ret : List (Option (TA × R))

/-- The state before the parallel loop (`src/ensemble_propagate.cpp` 61-64). -/
def initS (n : Nat) : State TA CB R := ⟨List.replicate n .idle, List.replicate n none⟩

section
variable (gen : TA → Nat → Res TA) (prop : TA → CB → Res (TA × R)) (ta : TA) (cb : CB)

/-- One step of the iteration `i`: the generation of the integrator, the copy of the callback, the
propagation, the assignment of the result (`src/ensemble_propagate.cpp` 67-81). -/
def step (st : State TA CB R) (i : Nat) : State TA CB R :=
  match st.iters[i]? with
  | none => st
  | some .idle =>
    match gen ta i with
    | .ok t => { st with iters := st.iters.set i (.generated t) }
    | _ => { st with iters := st.iters.set i .failed }
  | some (.generated t) => { st with iters := st.iters.set i (.ready t cb) }
  | some (.ready t c) =>
    match prop t c with
    | .ok (t', r) => { st with iters := st.iters.set i (.propagated t' r) }
    | _ => { st with iters := st.iters.set i .failed }
  | some (.propagated t r) => ⟨st.iters.set i .done, st.ret.set i (some (t, r))⟩
  | some .done => st
  | some .failed => st

/-- A schedule: which iteration makes the next step. -/
def run (n : Nat) (sched : List Nat) : State TA CB R := sched.foldl (step gen prop ta cb) (initS n)

/-- Has the iteration failed? -/
def Iter.isFailed : Iter TA CB R → Bool
  | .failed => true
  | _ => false

/-- Has the iteration ended normally? -/
def Iter.isDone : Iter TA CB R → Bool
  | .done => true
  | _ => false

/-- The outcome of the parallel loop: an exception if an iteration has thrown (the others are then
cancelled at any point), the results if all the iterations are over, `none` if it is not finished. -/
def outcome (st : State TA CB R) : Option (Res (List (Option (TA × R)))) :=
  if st.iters.any Iter.isFailed then some .throw
  else if st.iters.all Iter.isDone then some (.ok st.ret)
  else none

end

/-- The grid of the batch version: every grid point is repeated for all the lanes
(`src/ensemble_propagate.cpp` 249-257). -/
def splat {K : Type} (batch : Nat) (grid : List K) : List K := grid.flatMap fun g => List.replicate batch g

end Heyoka.Ensemble
