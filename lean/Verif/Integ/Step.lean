import Verif.Util.XF
import Verif.Util.Res
import Verif.Util.Loop
import Verif.Search.UpperBound

/-!
# A single integration step

Model of `taylor_adaptive<T>::step_impl()` (src/taylor_adaptive.cpp 725-1026) and of the functions
around it. The compiled functions (steppers, dense output) and the event detection are parameters of
the model; the event detection is modelled in `Verif.Events`.

Simplifications:
* the double-length time `m_time` is a single (extended) number, sums are exact;
* everything which is not the time, the last timestep or the cooldowns (state vector, parameters,
  Taylor coefficients, and whatever user callbacks read or write) is an opaque `world : W`;
* `std::sort()` is an arbitrary function returning a sorted permutation;
* when a callback throws the integrator object left behind is not described.
-/

namespace Heyoka.Integ

variable {K W J : Type*}

/-- `taylor_outcome`: include/heyoka/taylor.hpp 142-155 (an enum over `std::int64_t`). -/
abbrev Outcome := Int

namespace Outcome
/-- include/heyoka/taylor.hpp 150 -/
def success : Outcome := -4294967296 - 1
/-- include/heyoka/taylor.hpp 151 -/
def stepLimit : Outcome := -4294967296 - 2
/-- include/heyoka/taylor.hpp 152 -/
def timeLimit : Outcome := -4294967296 - 3
/-- include/heyoka/taylor.hpp 153 -/
def errNfState : Outcome := -4294967296 - 4
/-- include/heyoka/taylor.hpp 154 -/
def cbStop : Outcome := -4294967296 - 5
end Outcome

/-- The integrator object: src/taylor_adaptive.cpp, `i_data` (members `m_time`, `m_last_h`, the
terminal event cooldowns `m_ed_data->m_te_cooldowns`, everything else in `world`). -/
structure Integ (K W : Type*) where
  /-- `m_time` -/
  time : XF K
  /-- `m_last_h` -/
  lastH : XF K
  /-- `m_te_cooldowns`: time already spent in cooldown, and length of the cooldown -/
  cds : List (Option (K × K))
  /-- everything else, including the environment of the callbacks -/
  world : W
deriving DecidableEq

/-- Detected terminal event: index, time from the beginning of the step, sign of the derivative and
absolute value of the derivative (include/heyoka/detail/event_detection.hpp, `m_d_tes`). -/
structure DTe (K : Type*) where
  /-- event index -/
  idx : Nat
  /-- time, relative to the beginning of the step -/
  t : K
  /-- sign of the derivative of the event function -/
  sgn : Int
  /-- absolute value of the derivative -/
  absDer : K
deriving DecidableEq

/-- Detected non-terminal event (include/heyoka/detail/event_detection.hpp, `m_d_ntes`). -/
structure DNte (K : Type*) where
  /-- event index -/
  idx : Nat
  /-- time, relative to the beginning of the step -/
  t : K
  /-- sign of the derivative of the event function -/
  sgn : Int
deriving DecidableEq

/-- Terminal event: src/t_event.cpp (cooldown, optional callback; a negative cooldown means automatic
deduction). -/
structure TEvent (K W : Type*) where
  /-- `get_cooldown()` -/
  cooldown : K
  /-- `get_callback()` -/
  cb : Option (Integ K W → Int → Res (Bool × Integ K W))

/-- Non-terminal event: src/nt_event.cpp (only the callback is used in a step). -/
structure NTEvent (K W : Type*) where
  /-- `get_callback()` -/
  cb : Integ K W → XF K → Int → Res (Integ K W)

/-- The external functions used by a step. `stepper` is `std::get<0>/<2>(m_step_f)`, returning the new
timestep and the new state; `evStepper` is `std::get<1>/<3>(m_step_f)`, returning the jet, the timestep
and the norm of the state; `dOut` is `m_d_out_f`; `finite` is the finiteness check on the state vector;
`detect` is `ed_data::detect_events()`; `deduceCd` is `taylor_deduce_cooldown()`; `copyTc` is the copy of
the Taylor coefficients of the state variables into `m_tc` (src/taylor_adaptive.cpp 848-849). -/
structure Env (K W J : Type*) where
  /-- stepper without events -/
  stepper : W → XF K → XF K → Bool → XF K × W
  /-- stepper with events -/
  evStepper : W → XF K → XF K → J × XF K × XF K
  /-- dense output of the jet at `h`, written to the state -/
  dOut : W → J → XF K → W
  /-- copy of the coefficients -/
  copyTc : W → J → W
  /-- finiteness of the state vector -/
  finite : W → Bool
  /-- event detection for a finite nonzero timestep and finite `g_eps` -/
  detect : J → K → K → List (Option (K × K)) → List (DTe K) × List (DNte K)
  /-- automatic cooldown -/
  deduceCd : K → K → K
  /-- the sort algorithm for terminal events -/
  sortT : List (DTe K) → List (DTe K)
  /-- the sort algorithm for non-terminal events -/
  sortN : List (DNte K) → List (DNte K)
  /-- `m_tol` -/
  tol : K
  /-- `num_eps_like()` -/
  eps : K

section
variable [Field K] [LinearOrder K] [IsStrictOrderedRing K]

/-- `step_impl()` for an integrator without events: src/taylor_adaptive.cpp 763-790. -/
def stepNoEv (env : Env K W J) (ta : Integ K W) (maxDt : XF K) (wtc : Bool) :
    Res (Outcome × XF K × Integ K W) :=
  let r := env.stepper ta.world ta.time maxDt wtc
  let h := r.1
  let ta' : Integ K W := ⟨ta.time.add h, h, ta.cds, r.2⟩
  if !ta'.time.isFin || !env.finite ta'.world then .ok (Outcome.errNfState, h, ta')
  else .ok (if h.feq maxDt then Outcome.timeLimit else Outcome.success, h, ta')

/-- `g_eps`: src/taylor_adaptive.cpp 811-838; `none` stands for infinity. -/
def gEps (env : Env K W J) : XF K → Option K
  | .fin m =>
    let r := if m < 1 then env.tol else env.tol * m
    let tmp := env.eps * m
    some (if r < tmp then tmp else r)
  | _ => none

/-- `detect_events()`, the initial checks: src/detail/event_detection.cpp 1082-1107. The lists of detected
events are cleared, and detection is skipped for a non-finite `h` or `g_eps` or a zero `h`. -/
def detectEvents (env : Env K W J) (jet : J) (h : XF K) (ge : Option K) (cds : List (Option (K × K))) :
    List (DTe K) × List (DNte K) :=
  match h, ge with
  | .fin h, some g => if h = 0 then ([], []) else env.detect jet h g cds
  | _, _ => ([], [])

/-- Update of one cooldown after a step: src/taylor_adaptive.cpp 910-925. -/
def updateCd (h : K) : Option (K × K) → Option (K × K)
  | none => none
  | some (first, second) =>
    let tmp := first + h
    if second ≤ |tmp| then none else some (tmp, second)

/-- Invocation of the callbacks of the non-terminal events in a list, in order: src/taylor_adaptive.cpp
942-971. -/
def runNtes (ntes : List (NTEvent K W)) (newTime : XF K) (lastH : Integ K W → XF K) :
    List (DNte K) → Integ K W → Res (Integ K W)
  | [], ta => .ok ta
  | e :: es, ta =>
    match ntes[e.idx]? with
    | none => .ub
    | some ev =>
      (ev.cb ta ((newTime.sub (lastH ta)).add (.fin e.t)) e.sgn).bind fun ta' =>
        runNtes ntes newTime lastH es ta'

/-- The cooldown set when a terminal event triggers: src/taylor_adaptive.cpp 979-990. -/
def newCd (env : Env K W J) (ge : Option K) (te : TEvent K W) (d : DTe K) : Res (K × K) :=
  if 0 ≤ te.cooldown then .ok (0, te.cooldown)
  else match ge with
    | some g => .ok (0, env.deduceCd g d.absDer)
    | none => .ub

/-- Handling of the first terminal event: set the cooldown, run the callback:
src/taylor_adaptive.cpp 974-996. -/
def runTe (env : Env K W J) (tes : List (TEvent K W)) (ge : Option K) (d : DTe K) (ta : Integ K W) :
    Res (Bool × Integ K W) :=
  match tes[d.idx]? with
  | none => .ub
  | some te =>
    if d.idx < ta.cds.length then
      (newCd env ge te d).bind fun cd =>
        let ta' : Integ K W := ⟨ta.time, ta.lastH, ta.cds.set d.idx (some cd), ta.world⟩
        match te.cb with
        | some cb => cb ta' d.sgn
        | none => .ok (false, ta')
    else .ub

/-- `cmp_nan_eq()`: include/heyoka/detail/taylor_common.hpp 213-230. -/
def cmpNanEq (a b : XF K) : Bool :=
  if !a.isNan && !b.isNan then a.feq b else a.isNan && b.isNan

/-- The events whose callbacks are invoked: src/taylor_adaptive.cpp 930-937 (`std::lower_bound()` on the
sorted list when there are terminal events, the whole list otherwise). -/
def ntesToRun (hfin : K) (tes : List (DTe K)) (ntes : List (DNte K)) : Res (List (DNte K)) :=
  match tes with
  | [] => .ok ntes
  | _ :: _ =>
    (Search.upperBound ntes fun e => decide (|e.t| < |hfin|)).bind fun n => .ok (ntes.take n)

/-- The part of `step_impl()` after the state update, for a finite state: src/taylor_adaptive.cpp
907-1025. -/
def stepEvTail (env : Env K W J) (tes : List (TEvent K W)) (ntes : List (NTEvent K W)) (maxDt : XF K)
    (ge : Option K) (dtes : List (DTe K)) (dntes : List (DNte K)) (h : XF K) (hfin : K)
    (ta1 : Integ K W) : Res (Outcome × XF K × Integ K W) :=
  let ta2 : Integ K W := ⟨ta1.time, ta1.lastH, ta1.cds.map (updateCd hfin), ta1.world⟩
  (ntesToRun hfin dtes dntes).bind fun toRun =>
  let newTime := ta2.time
  (runNtes ntes newTime (fun t => t.lastH) toRun ta2).bind fun ta3 =>
  match dtes with
  | [] =>
    if !cmpNanEq ta3.time newTime then .throw
    else .ok (if h.feq maxDt then Outcome.timeLimit else Outcome.success, h, ta3)
  | d :: _ =>
    (runTe env tes ge d ta3).bind fun r =>
      if !cmpNanEq r.2.time newTime then .throw
      else .ok (if r.1 then (d.idx : Int) else -(d.idx : Int) - 1, h, r.2)

/-- The timestep after event detection: src/taylor_adaptive.cpp 873-888. -/
def clampH (h : XF K) : List (DTe K) → XF K
  | [] => h
  | d :: _ => .fin d.t

/-- `step_impl()` for an integrator with events: src/taylor_adaptive.cpp 791-1025. -/
def stepEv (env : Env K W J) (tes : List (TEvent K W)) (ntes : List (NTEvent K W)) (ta : Integ K W)
    (maxDt : XF K) : Res (Outcome × XF K × Integ K W) :=
  let r := env.evStepper ta.world ta.time maxDt
  let jet := r.1
  let h0 := r.2.1
  let ge := gEps env r.2.2
  let d := detectEvents env jet h0 ge ta.cds
  let dtes := env.sortT d.1
  let dntes := env.sortN d.2
  let h := clampH h0 dtes
  let ta1 : Integ K W := ⟨ta.time.add h, h, ta.cds, env.dOut (env.copyTc ta.world jet) jet h⟩
  if !ta1.time.isFin || !env.finite ta1.world then .ok (Outcome.errNfState, h, ta1)
  else match h with
    | .fin hfin => stepEvTail env tes ntes maxDt ge dtes dntes h hfin ta1
    -- Not reachable: a finite final time requires a finite timestep.
    | _ => .ub

/-- `step_impl()`: src/taylor_adaptive.cpp 725-1026; `evs = none` is an integrator without events. The
assertion at line 735 is the only precondition on `max_delta_t`. -/
def stepImpl (env : Env K W J) (evs : Option (List (TEvent K W) × List (NTEvent K W))) (ta : Integ K W)
    (maxDt : XF K) (wtc : Bool) : Res (Outcome × XF K × Integ K W) :=
  if maxDt.isNan then .ub
  else match evs with
    | none => stepNoEv env ta maxDt wtc
    | some e => stepEv env e.1 e.2 ta maxDt

/-- `step(max_delta_t, wtc)`: src/taylor_adaptive.cpp 1059-1077. -/
def step (env : Env K W J) (evs : Option (List (TEvent K W) × List (NTEvent K W))) (ta : Integ K W)
    (maxDt : XF K) (wtc : Bool) : Res (Outcome × XF K × Integ K W) :=
  if maxDt.isNan then .throw else stepImpl env evs ta maxDt wtc

/-- `step(wtc)`: src/taylor_adaptive.cpp 1028-1042. -/
def stepFwd (env : Env K W J) (evs : Option (List (TEvent K W) × List (NTEvent K W))) (ta : Integ K W)
    (wtc : Bool) : Res (Outcome × XF K × Integ K W) := stepImpl env evs ta .pinf wtc

/-- `step_backward(wtc)`: src/taylor_adaptive.cpp 1044-1056. -/
def stepBwd (env : Env K W J) (evs : Option (List (TEvent K W) × List (NTEvent K W))) (ta : Integ K W)
    (wtc : Bool) : Res (Outcome × XF K × Integ K W) := stepImpl env evs ta .ninf wtc

/-- `reset_cooldowns()`: src/taylor_adaptive.cpp 1080-1090. -/
def resetCooldowns (hasEvents : Bool) (ta : Integ K W) : Res (Integ K W) :=
  if hasEvents then .ok ⟨ta.time, ta.lastH, ta.cds.map fun _ => none, ta.world⟩ else .throw

end

end Heyoka.Integ
