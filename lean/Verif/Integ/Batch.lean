import Verif.Integ.Propagate
import Mathlib.Data.List.FinRange
import Mathlib.Logic.Function.Basic

/-!
# Batch mode

Model of `taylor_adaptive_batch<T>::step_impl()`, `propagate_until_impl()` and `propagate_for_impl()`
(src/taylor_adaptive_batch.cpp 632-1530). A batch integrator consists of `n` lanes, each of which has its time, last
timestep, cooldowns and state (the world `W` of the scalar model), and of an arbitrary environment `G` shared by
the callbacks.

Simplifications: those of `Verif.Integ.Step` and `Verif.Integ.Propagate`; the compiled steppers and the event
detection (src/detail/event_detection.cpp 1733-2170, a loop over the lanes around the code of the scalar version) work on each
lane as in the scalar case; a callback which throws makes the step throw at once (in the code the other lanes are
processed before).
-/

namespace Heyoka.Integ

variable {K W G J C : Type*} {n : Nat}

/-- The batch integrator: src/taylor_adaptive_batch.cpp, `i_data`. -/
structure BInteg (n : Nat) (K W G : Type*) where
  /-- times, last timesteps, cooldowns and states -/
  lanes : Fin n → Integ K W
  /-- environment of the callbacks -/
  glob : G

/-- Assignment of one lane. -/
def BInteg.setLane (B : BInteg n K W G) (i : Fin n) (L : Integ K W) : BInteg n K W G :=
  ⟨Function.update B.lanes i L, B.glob⟩

/-- Terminal event of a batch integrator: src/t_event.cpp. The callback receives the index of the lane. -/
structure BTEvent (n : Nat) (K W G : Type*) where
  /-- `get_cooldown()` -/
  cooldown : K
  /-- `get_callback()` -/
  cb : Option (BInteg n K W G → Int → Fin n → Res (Bool × BInteg n K W G))

/-- Non-terminal event of a batch integrator: src/nt_event.cpp. -/
structure BNTEvent (n : Nat) (K W G : Type*) where
  /-- `get_callback()` -/
  cb : BInteg n K W G → XF K → Int → Fin n → Res (BInteg n K W G)

/-- The contents of `m_step_res`: outcome and timestep of each lane. -/
abbrev StepRes (n : Nat) (K : Type*) := Fin n → Outcome × XF K

section
variable [Field K] [LinearOrder K] [IsStrictOrderedRing K]

/-- `step_impl()` without events: src/taylor_adaptive_batch.cpp 692-734. -/
def bStepNoEv (env : Env K W J) (B : BInteg n K W G) (maxDts : Fin n → XF K) (wtc : Bool) :
    Res (StepRes n K × BInteg n K W G) :=
  let r := fun i => env.stepper (B.lanes i).world (B.lanes i).time (maxDts i) wtc
  let lanes : Fin n → Integ K W := fun i => ⟨(B.lanes i).time.add (r i).1, (r i).1, (B.lanes i).cds, (r i).2⟩
  .ok (fun i => if !(lanes i).time.isFin || !env.finite (lanes i).world then (Outcome.errNfState, (r i).1)
      else (if (r i).1.feq (maxDts i) then Outcome.timeLimit else Outcome.success, (r i).1),
    ⟨lanes, B.glob⟩)

/-- Callbacks of the non-terminal events of a lane: src/taylor_adaptive_batch.cpp 906-921. -/
def bRunNtes (ntes : List (BNTEvent n K W G)) (i : Fin n) (newTime : XF K) :
    List (DNte K) → BInteg n K W G → Res (BInteg n K W G)
  | [], B => .ok B
  | e :: es, B =>
    match ntes[e.idx]? with
    | none => .ub
    | some ev =>
      (ev.cb B ((newTime.sub (B.lanes i).lastH).add (.fin e.t)) e.sgn i).bind fun B' => bRunNtes ntes i newTime es B'

/-- The first terminal event of a lane: src/taylor_adaptive_batch.cpp 936-971. -/
def bRunTe (env : Env K W J) (tes : List (BTEvent n K W G)) (ge : Option K) (i : Fin n) (d : DTe K)
    (B : BInteg n K W G) : Res (Bool × BInteg n K W G) :=
  match tes[d.idx]? with
  | none => .ub
  | some te =>
    let L := B.lanes i
    if d.idx < L.cds.length then
      (if 0 ≤ te.cooldown then Res.ok (0, te.cooldown)
        else match ge with
          | some g => Res.ok ((0 : K), env.deduceCd g d.absDer)
          | none => .ub).bind fun cd =>
        let B' := B.setLane i ⟨L.time, L.lastH, L.cds.set d.idx (some cd), L.world⟩
        match te.cb with
        | some cb => cb B' d.sgn i
        | none => .ok (false, B')
    else .ub

/-- The body of the loop over the lanes after the state update: src/taylor_adaptive_batch.cpp 839-988. -/
def bEvLane (env : Env K W J) (tes : List (BTEvent n K W G)) (ntes : List (BNTEvent n K W G)) (i : Fin n)
    (maxDt : XF K) (ge : Option K) (dtes : List (DTe K)) (dntes : List (DNte K)) (h newTime : XF K) (nf : Bool)
    (B : BInteg n K W G) : Res ((Outcome × XF K) × BInteg n K W G) :=
  let L := B.lanes i
  if !newTime.isFin || nf then .ok ((Outcome.errNfState, h), B.setLane i ⟨newTime, h, L.cds, L.world⟩)
  else match h with
    | .fin hf =>
      let B2 := B.setLane i ⟨newTime, h, L.cds.map (updateCd hf), L.world⟩
      (ntesToRun hf dtes dntes).bind fun toRun =>
      (bRunNtes ntes i newTime toRun B2).bind fun B3 =>
      match dtes with
      | [] => .ok ((if h.feq maxDt then Outcome.timeLimit else Outcome.success, h), B3)
      | d :: _ =>
        (bRunTe env tes ge i d B3).bind fun r =>
          .ok ((if r.1 then (d.idx : Int) else -(d.idx : Int) - 1, h), r.2)
    -- Not reachable: a finite final time requires a finite timestep.
    | _ => .ub

/-- A loop over lanes which fills `m_step_res`. -/
def bEvLoop (f : Fin n → BInteg n K W G → Res ((Outcome × XF K) × BInteg n K W G)) :
    List (Fin n) → StepRes n K → BInteg n K W G → Res (StepRes n K × BInteg n K W G)
  | [], res, B => .ok (res, B)
  | i :: is, res, B => (f i B).bind fun r => bEvLoop f is (Function.update res i r.1) r.2

/-- `step_impl()` with events: src/taylor_adaptive_batch.cpp 735-1036. `res0` is the previous content of `m_step_res`. -/
def bStepEv (env : Env K W J) (tes : List (BTEvent n K W G)) (ntes : List (BNTEvent n K W G)) (res0 : StepRes n K)
    (B : BInteg n K W G) (maxDts : Fin n → XF K) : Res (StepRes n K × BInteg n K W G) :=
  let r := fun i => env.evStepper (B.lanes i).world (B.lanes i).time (maxDts i)
  let ge := fun i => gEps env (r i).2.2
  let d := fun i => detectEvents env (r i).1 (r i).2.1 (ge i) (B.lanes i).cds
  let dtes := fun i => env.sortT (d i).1
  let dntes := fun i => env.sortN (d i).2
  let h := fun i => clampH (r i).2.1 (dtes i)
  let B1 : BInteg n K W G := ⟨fun i => ⟨(B.lanes i).time, (B.lanes i).lastH, (B.lanes i).cds,
    env.dOut (env.copyTc (B.lanes i).world (r i).1) (r i).1 (h i)⟩, B.glob⟩
  let nf := fun i => !env.finite (B1.lanes i).world
  let newTime := fun i => (B.lanes i).time.add (h i)
  (bEvLoop (fun i => bEvLane env tes ntes i (maxDts i) (ge i) (dtes i) (dntes i) (h i) (newTime i) (nf i))
    (List.finRange n) res0 B1).bind fun q =>
    if (List.finRange n).all fun i => cmpNanEq (q.2.lanes i).time (newTime i) then .ok q else .throw

/-- `step_impl()`: src/taylor_adaptive_batch.cpp 632-1037. -/
def bStepImpl (env : Env K W J) (evs : Option (List (BTEvent n K W G) × List (BNTEvent n K W G))) (res0 : StepRes n K)
    (B : BInteg n K W G) (maxDts : Fin n → XF K) (wtc : Bool) : Res (StepRes n K × BInteg n K W G) :=
  if (List.finRange n).any fun i => (maxDts i).isNan then .ub
  else match evs with
    | none => bStepNoEv env B maxDts wtc
    | some e => bStepEv env e.1 e.2 res0 B maxDts

/-- `step(max_delta_ts, wtc)`: src/taylor_adaptive_batch.cpp 1055-1079. -/
def bStep (env : Env K W J) (evs : Option (List (BTEvent n K W G) × List (BNTEvent n K W G))) (res0 : StepRes n K)
    (B : BInteg n K W G) (maxDts : List (XF K)) (wtc : Bool) : Res (StepRes n K × BInteg n K W G) :=
  if maxDts.length ≠ n then .throw
  else if maxDts.any XF.isNan then .throw
  else bStepImpl env evs res0 B (fun i => maxDts.getD i .nan) wtc

/-! ### Propagation -/

/-- The step function used by the loops. -/
abbrev BStepF (n : Nat) (K W G : Type*) :=
  BInteg n K W G → (Fin n → XF K) → Bool → Res (StepRes n K × BInteg n K W G)

/-- A step callback of a batch integrator. -/
structure BCb (n : Nat) (K W G : Type*) where
  /-- call operator -/
  call : BInteg n K W G → Res (Bool × BInteg n K W G)
  /-- `pre_hook()` -/
  preHook : BInteg n K W G → Res (BInteg n K W G)

/-- The contents of `m_prop_res` for one lane. -/
structure LaneRes (K : Type*) where
  /-- outcome -/
  oc : Outcome
  /-- `m_min_abs_h` -/
  minH : XF K
  /-- `m_max_abs_h` -/
  maxH : XF K
  /-- `m_ts_count` -/
  steps : Nat

/-- The counters of one lane: src/taylor_adaptive_batch.cpp 1239-1243. -/
structure LaneStats (K : Type*) where
  /-- `m_ts_count` -/
  steps : Nat
  /-- `m_min_abs_h` -/
  minH : XF K
  /-- `m_max_abs_h` -/
  maxH : XF K

/-- Return values of `propagate_until_impl()`, `m_prop_res`, and the integrator left behind. -/
structure BUntilRes (n : Nat) (K W G C : Type*) where
  /-- `m_prop_res` -/
  res : Fin n → LaneRes K
  /-- the continuous output: times and coefficients of all the lanes after each step -/
  cOut : Option (List (Fin n → XF K) × List (Fin n → C))
  /-- the integrator -/
  B : BInteg n K W G

/-- Do two integrators have the same times (`m_time_hi != m_time_copy_hi || …`)? -/
def sameTimes (B B' : BInteg n K W G) : Bool := (List.finRange n).all fun i => (B'.lanes i).time.feq (B.lanes i).time

/-- The callback and the check of the times: src/taylor_adaptive_batch.cpp 1467-1484. -/
def bRunCb (cb : Option (BCb n K W G)) (B : BInteg n K W G) : Res (Bool × BInteg n K W G) :=
  match cb with
  | none => .ok (true, B)
  | some cb => (cb.call B).bind fun r => if !sameTimes B r.2 then .throw else .ok r

/-- `pre_hook()` and the check of the times: src/taylor_adaptive_batch.cpp 1347-1361. -/
def bRunPreHook (cb : Option (BCb n K W G)) (B : BInteg n K W G) : Res (BInteg n K W G) :=
  match cb with
  | none => .ok B
  | some cb => (cb.preHook B).bind fun B' => if !sameTimes B B' then .throw else .ok B'

/-- What happens to a lane after a step: src/taylor_adaptive_batch.cpp 1395-1450. `t` is the final time, `time` the time after
the step. The results are the new remaining time and counters, and whether the lane is done. The assertions are `ub`. -/
def laneUpdate (t time rem : XF K) (st : LaneStats K) (oc : Outcome) (h : XF K) : Res (XF K × LaneStats K × Bool) :=
  if oc = Outcome.errNfState then .ok (rem, st, false)
  else
    let st1 : LaneStats K := ⟨st.steps + (if h.feq (.fin 0) then 0 else 1),
      if oc = Outcome.success then st.minH.min h.abs else st.minH,
      if oc = Outcome.success then st.maxH.max h.abs else st.maxH⟩
    if h.feq rem then
      if oc != Outcome.timeLimit then .ub else .ok (.fin 0, st1, true)
    else if !(h.abs.lt rem.abs) then .ub
    else .ok (t.sub time, st1, false)

/-- A loop over lanes for `laneUpdate`. -/
def laneUpdates (f : Fin n → Res (XF K × LaneStats K × Bool)) :
    List (Fin n) → (Fin n → XF K × LaneStats K × Bool) → Res (Fin n → XF K × LaneStats K × Bool)
  | [], acc => .ok acc
  | i :: is, acc => (f i).bind fun r => laneUpdates f is (Function.update acc i r)

/-- `update_c_out()`: src/taylor_adaptive_batch.cpp 1302-1334. -/
def bUpdateCOut (tcOf : W → C) (withC : Bool) (tDir : Fin n → Bool) (B : BInteg n K W G)
    (c : List (Fin n → XF K) × List (Fin n → C)) : Res (List (Fin n → XF K) × List (Fin n → C)) :=
  if withC then
    match c.1.getLast? with
    | none => .ub
    | some prev =>
      if (List.finRange n).any fun i => !(B.lanes i).time.isFin ||
          (if tDir i then (B.lanes i).time.lt (prev i) else (prev i).lt (B.lanes i).time) then .ub
      else .ok (c.1 ++ [fun i => (B.lanes i).time], c.2 ++ [fun i => tcOf (B.lanes i).world])
  else .ok c

/-- `make_c_out()`: src/taylor_adaptive_batch.cpp 1261-1299. The padding of the times is not modelled here (see `Verif.Dense`). -/
def bMakeCOut (withC : Bool) (c : List (Fin n → XF K) × List (Fin n → C)) :
    Option (List (Fin n → XF K) × List (Fin n → C)) :=
  if withC then if c.1.length < 2 then none else some c else none

/-- The loop of `propagate_until_impl()`: src/taylor_adaptive_batch.cpp 1363-1526. -/
def bUntilLoop (stepF : BStepF n K W G) (tcOf : W → C) (cb : Option (BCb n K W G)) (ts : Fin n → XF K) (maxSteps : Nat)
    (maxDts : Fin n → XF K) (wtc withC : Bool) (tDir : Fin n → Bool) :
    Nat → Nat → (Fin n → XF K) → (Fin n → LaneStats K) → List (Fin n → XF K) × List (Fin n → C) → BInteg n K W G →
      Res (Option (BUntilRes n K W G C))
  | 0, _, _, _, _, _ => .ok none
  | fuel + 1, iters, rem, st, c, B =>
    if (List.finRange n).any fun i => XF.le (.fin 0) (rem i) != tDir i && !(rem i).feq (.fin 0) then .ub
    else
      (stepF B (fun i => dtLimit (tDir i) (maxDts i) (rem i)) wtc).bind fun r =>
      let res := r.1
      let B1 := r.2
      (laneUpdates (fun i => laneUpdate (ts i) (B1.lanes i).time (rem i) (st i) (res i).1 (res i).2) (List.finRange n)
        (fun i => (rem i, st i, false))).bind fun u =>
      let st1 := fun i => (u i).2.1
      let out (oc : Fin n → Outcome) : Fin n → LaneRes K := fun i => ⟨oc i, (st1 i).minH, (st1 i).maxH, (st1 i).steps⟩
      if (List.finRange n).any fun i => decide ((res i).1 = Outcome.errNfState) then
        .ok (some ⟨out fun i => (res i).1, bMakeCOut withC c, B1⟩)
      else
        (bUpdateCOut tcOf withC tDir B1 c).bind fun c1 =>
        (bRunCb cb B1).bind fun rc =>
        let B2 := rc.2
        if !rc.1 then .ok (some ⟨out fun _ => Outcome.cbStop, bMakeCOut withC c1, B2⟩)
        else if ((List.finRange n).all fun i => (u i).2.2) || ((List.finRange n).any fun i => isStopping (res i).1) then
          .ok (some ⟨out fun i => (res i).1, bMakeCOut withC c1, B2⟩)
        else if iters + 1 = maxSteps then
          .ok (some ⟨out fun _ => Outcome.stepLimit, bMakeCOut withC c1, B2⟩)
        else bUntilLoop stepF tcOf cb ts maxSteps maxDts wtc withC tDir fuel (iters + 1) (fun i => (u i).1) st1 c1 B2

/-- The final times passed to `propagate_until_impl()`: src/taylor_adaptive_batch.cpp 1173-1211; `prepared` are the times
written by `propagate_for_impl()`. -/
inductive UntilArg (n : Nat) (K : Type*) where
  /-- the same time for all the lanes -/
  | scalar (t : XF K)
  /-- a vector of times -/
  | vec (ts : List (XF K))
  /-- times prepared by `propagate_for_impl()` -/
  | prepared (ts : Fin n → XF K)

/-- The final times of the lanes: src/taylor_adaptive_batch.cpp 1173-1211. -/
def UntilArg.times : UntilArg n K → Res (Fin n → XF K)
  | .scalar t => .ok fun _ => t
  | .vec ts => if ts.length ≠ n then .throw else .ok fun i => ts.getD i .nan
  | .prepared ts => .ok ts

/-- `propagate_until_impl()`: src/taylor_adaptive_batch.cpp 1137-1530. -/
def bPropagateUntil (stepF : BStepF n K W G) (tcOf : W → C) (fuel : Nat) (B : BInteg n K W G) (ts_ : UntilArg n K)
    (maxSteps : Nat) (maxDts_ : List (XF K)) (cb : Option (BCb n K W G)) (wtc withC : Bool) :
    Res (Option (BUntilRes n K W G C)) :=
  ts_.times.bind fun ts =>
  let maxDts := if maxDts_.isEmpty then List.replicate n XF.pinf else maxDts_
  if (List.finRange n).any fun i => !(B.lanes i).time.isFin then .throw
  else if (List.finRange n).any fun i => !(ts i).isFin then .throw
  else if maxDts.length ≠ n then .throw
  else if maxDts.any fun dt => dt.isNan || dt.le (.fin 0) then .throw
  else
    let wtc := wtc || withC
    let c : List (Fin n → XF K) × List (Fin n → C) := (if withC then [fun i => (B.lanes i).time] else [], [])
    let rem := fun i => (ts i).sub (B.lanes i).time
    if (List.finRange n).any fun i => !(rem i).isFin then .throw
    else
      let tDir := fun i => XF.le (.fin 0) (rem i)
      (bRunPreHook cb B).bind fun B0 =>
        bUntilLoop stepF tcOf cb ts maxSteps (fun i => maxDts.getD i .nan) wtc withC tDir fuel 0 rem
          (fun _ => ⟨0, .pinf, .fin 0⟩) c B0

/-- `propagate_for_impl()`: src/taylor_adaptive_batch.cpp 1082-1119. -/
def bPropagateFor (stepF : BStepF n K W G) (tcOf : W → C) (fuel : Nat) (B : BInteg n K W G) (dts : XF K ⊕ List (XF K))
    (maxSteps : Nat) (maxDts : List (XF K)) (cb : Option (BCb n K W G)) (wtc withC : Bool) :
    Res (Option (BUntilRes n K W G C)) :=
  match dts with
  | .inl dt => bPropagateUntil stepF tcOf fuel B (.prepared fun i => (B.lanes i).time.add dt) maxSteps maxDts cb wtc withC
  | .inr l =>
    if l.length ≠ n then .throw
    else bPropagateUntil stepF tcOf fuel B (.prepared fun i => (B.lanes i).time.add (l.getD i .nan)) maxSteps maxDts cb wtc withC

end

end Heyoka.Integ
