import Verif.Integ.Step

/-!
# propagate_until(), propagate_for(), propagate_grid()

Model of `propagate_until_impl()`, `propagate_for_impl()` and `propagate_grid_impl()`
(src/taylor_adaptive.cpp 1103-1731), for an arbitrary step function. The C++ loops are `while (true)`:
the model runs them with a bound `fuel` on the number of iterations and returns `none` when the bound
is exceeded (the loop is still running); all theorems hold for every `fuel`.

Simplifications: those of `Verif.Integ.Step`; counters are natural numbers (no wraparound at 2^64); the
precision checks for `mppp::real` are not modelled.
-/

namespace Heyoka.Integ

variable {K W C S : Type*}

/-- The step function used by the loops (`step_impl()`). -/
abbrev StepF (K W : Type*) := Integ K W → XF K → Bool → Res (Outcome × XF K × Integ K W)

/-- A step callback: src/step_callback.cpp (call operator and `pre_hook()`). The environment of the
callback lives in the `world` component of the integrator. -/
structure Cb (K W : Type*) where
  /-- call operator -/
  call : Integ K W → Res (Bool × Integ K W)
  /-- `pre_hook()` -/
  preHook : Integ K W → Res (Integ K W)

/-- Counters and extrema of the loops: src/taylor_adaptive.cpp 1164-1177. -/
structure Stats (K : Type*) where
  /-- `iter_counter` -/
  iters : Nat
  /-- `step_counter` -/
  steps : Nat
  /-- `min_h` -/
  minH : XF K
  /-- `max_h` -/
  maxH : XF K

/-- Data of the continuous output: src/taylor_adaptive.cpp 1156-1162, times and the blocks of Taylor
coefficients. -/
structure COutData (K C : Type*) where
  /-- `c_out_times_hi`, `c_out_times_lo` -/
  times : List (XF K)
  /-- `c_out_tcs` -/
  tcs : List C

/-- Return value of `propagate_until_impl()`, together with the integrator left behind. -/
structure UntilRes (K W C : Type*) where
  /-- outcome -/
  oc : Outcome
  /-- `min_h` -/
  minH : XF K
  /-- `max_h` -/
  maxH : XF K
  /-- `step_counter` -/
  steps : Nat
  /-- continuous output -/
  cOut : Option (COutData K C)
  /-- the integrator -/
  ta : Integ K W

section
variable [Field K] [LinearOrder K] [IsStrictOrderedRing K]

/-- Initial values of the counters: src/taylor_adaptive.cpp 1172-1175. -/
def Stats.init : Stats K := ⟨0, 0, .pinf, .fin 0⟩

/-- Update of the counters after a step: src/taylor_adaptive.cpp 1291-1306 (and 1649-1663 in
`propagate_grid_impl()`). -/
def Stats.update (s : Stats K) (oc : Outcome) (h : XF K) : Stats K :=
  ⟨s.iters + 1,
   s.steps + (if h.feq (.fin 0) then 0 else 1),
   if oc = Outcome.success then s.minH.min h.abs else s.minH,
   if oc = Outcome.success then s.maxH.max h.abs else s.maxH⟩

/-- Execution of the callback with the check on the time coordinate: src/taylor_adaptive.cpp 1313-1338
(and `wrap_cb_call` at 1668-1690). Without a callback the result is `true`. -/
def runCb (cb : Option (Cb K W)) (ta : Integ K W) : Res (Bool × Integ K W) :=
  match cb with
  | none => .ok (true, ta)
  | some cb => (cb.call ta).bind fun r =>
      if !r.2.time.feq ta.time then .throw else .ok r

/-- Execution of `pre_hook()` with the check on the time coordinate: src/taylor_adaptive.cpp 1257-1270
(and 1571-1584). -/
def runPreHook (cb : Option (Cb K W)) (ta : Integ K W) : Res (Integ K W) :=
  match cb with
  | none => .ok ta
  | some cb => (cb.preHook ta).bind fun ta' =>
      if !ta'.time.feq ta.time then .throw else .ok ta'

/-- `make_c_out()`: src/taylor_adaptive.cpp 1193-1220. -/
def makeCOut (withC : Bool) (c : COutData K C) : Option (COutData K C) :=
  if withC then if c.times.length < 2 then none else some c else none

/-- `update_c_out()`: src/taylor_adaptive.cpp 1223-1247; the debug-mode assertions are `ub`. `tcOf`
reads `m_tc`. -/
def updateCOut (tcOf : W → C) (withC tDir : Bool) (ta : Integ K W) (c : COutData K C) :
    Res (COutData K C) :=
  if withC then
    match c.times.getLast? with
    | none => .ub
    | some prev =>
      if !ta.time.isFin then .ub
      else if (if tDir then ta.time.lt prev else prev.lt ta.time) then .ub
      else .ok ⟨c.times ++ [ta.time], c.tcs ++ [tcOf ta.world]⟩
  else .ok c

/-- `dt_limit`: src/taylor_adaptive.cpp 1281-1282 (and 1640-1641). -/
def dtLimit (tDir : Bool) (maxDt rem : XF K) : XF K :=
  if tDir then maxDt.min rem else (maxDt.neg).max rem

/-- `ste_detected`: src/taylor_adaptive.cpp 1346. -/
def isStopping (oc : Outcome) : Bool := decide (Outcome.success < oc) && decide (oc < 0)

/-- The loop of `propagate_until_impl()`: src/taylor_adaptive.cpp 1272-1372. -/
def untilLoop (stepF : StepF K W) (tcOf : W → C) (cb : Option (Cb K W)) (t : XF K) (maxSteps : Nat)
    (maxDt : XF K) (wtc withC tDir : Bool) :
    Nat → XF K → Stats K → COutData K C → Integ K W → Res (Option (UntilRes K W C))
  | 0, _, _, _, _ => .ok none
  | fuel + 1, rem, st, c, ta =>
    if XF.le (.fin 0) rem != tDir then .ub
    else
      (stepF ta (dtLimit tDir maxDt rem) wtc).bind fun r =>
      let oc := r.1
      let h := r.2.1
      let ta1 := r.2.2
      if oc = Outcome.errNfState then
        .ok (some ⟨oc, st.minH, st.maxH, st.steps, makeCOut withC c, ta1⟩)
      else
        let st1 := st.update oc h
        (updateCOut tcOf withC tDir ta1 c).bind fun c1 =>
        (runCb cb ta1).bind fun rc =>
        let ta2 := rc.2
        if !rc.1 then
          .ok (some ⟨Outcome.cbStop, st1.minH, st1.maxH, st1.steps, makeCOut withC c1, ta2⟩)
        else if h.feq rem || isStopping oc then
          if h.feq rem && oc != Outcome.timeLimit then .ub
          else .ok (some ⟨oc, st1.minH, st1.maxH, st1.steps, makeCOut withC c1, ta2⟩)
        else if st1.iters = maxSteps then
          .ok (some ⟨Outcome.stepLimit, st1.minH, st1.maxH, st1.steps, makeCOut withC c1, ta2⟩)
        else if !(h.abs.lt rem.abs) then .ub
        else untilLoop stepF tcOf cb t maxSteps maxDt wtc withC tDir fuel (t.sub ta2.time) st1 c1 ta2

/-- `propagate_until_impl()`: src/taylor_adaptive.cpp 1103-1373. -/
def propagateUntil (stepF : StepF K W) (tcOf : W → C) (fuel : Nat) (ta : Integ K W) (t : XF K)
    (maxSteps : Nat) (maxDt : XF K) (cb : Option (Cb K W)) (wtc withC : Bool) :
    Res (Option (UntilRes K W C)) :=
  if !ta.time.isFin then .throw
  else if !t.isFin then .throw
  else if maxDt.isNan then .throw
  else if maxDt.le (.fin 0) then .throw
  else
    let wtc := wtc || withC
    let c : COutData K C := ⟨if withC then [ta.time] else [], []⟩
    let rem := t.sub ta.time
    if !rem.isFin then .throw
    else
      let tDir := XF.le (.fin 0) rem
      (runPreHook cb ta).bind fun ta0 =>
        untilLoop stepF tcOf cb t maxSteps maxDt wtc withC tDir fuel rem Stats.init c ta0

/-- `propagate_for_impl()`: src/taylor_adaptive.cpp 1375-1382. -/
def propagateFor (stepF : StepF K W) (tcOf : W → C) (fuel : Nat) (ta : Integ K W) (dt : XF K)
    (maxSteps : Nat) (maxDt : XF K) (cb : Option (Cb K W)) (wtc withC : Bool) :
    Res (Option (UntilRes K W C)) :=
  propagateUntil stepF tcOf fuel ta (ta.time.add dt) maxSteps maxDt cb wtc withC

/-- The checks on the grid points from the third on: src/taylor_adaptive.cpp 1466-1474. -/
def gridRest (dir : Bool) : XF K → List (XF K) → Bool
  | _, [] => true
  | prev, g :: gs => g.isFin && (prev.lt g == dir) && gridRest dir g gs

/-- The checks on the grid: src/taylor_adaptive.cpp 1424-1476. -/
def gridOk : List (XF K) → Bool
  | [] => false
  | [g] => g.isFin
  | g0 :: g1 :: gs => g0.isFin && g1.isFin && !(g1.feq g0) && gridRest (g0.lt g1) g1 gs

/-- The inner loop of `propagate_grid_impl()`: dense output for as many grid points as possible:
src/taylor_adaptive.cpp 1599-1626. Returns the new samples and the remaining grid points. `dense ta x`
is the output of `update_d_output(x)`. -/
def gridInner (dense : Integ K W → XF K → S) (ta : Integ K W) (t0 t1 rem : XF K) :
    List (XF K) → List S × List (XF K)
  | [] => ([], [])
  | g :: gs =>
    if (t0.le g && g.le t1) || rem.feq (.fin 0) then
      let r := gridInner dense ta t0 t1 rem gs
      (dense ta g :: r.1, r.2)
    else ([], g :: gs)

/-- Return value of `propagate_grid_impl()`, together with the integrator left behind. -/
structure GridRes (K W S : Type*) where
  /-- outcome -/
  oc : Outcome
  /-- `min_h` -/
  minH : XF K
  /-- `max_h` -/
  maxH : XF K
  /-- `step_counter` -/
  steps : Nat
  /-- `retval` -/
  out : List S
  /-- the integrator -/
  ta : Integ K W

/-- The loop of `propagate_grid_impl()`: src/taylor_adaptive.cpp 1587-1722. `gs` are the grid points not
yet processed, `last` is `grid.back()`. -/
def gridLoop (stepF : StepF K W) (dense : Integ K W → XF K → S) (cb : Option (Cb K W)) (last : XF K)
    (maxSteps : Nat) (maxDt : XF K) (tDir : Bool) :
    Nat → XF K → Stats K → Outcome → List S → List (XF K) → Integ K W → Res (Option (GridRes K W S))
  | 0, _, _, _, _, _, _ => .ok none
  | fuel + 1, rem, st, interrupt, out, gs, ta =>
    let fin (o : List S) (st : Stats K) (ta : Integ K W) : GridRes K W S :=
      ⟨if interrupt = Outcome.success then Outcome.timeLimit else interrupt, st.minH, st.maxH, st.steps, o,
        ta⟩
    if gs.isEmpty then .ok (some (fin out st ta))
    else
      let t0 := ta.time.min (ta.time.sub ta.lastH)
      let t1 := ta.time.max (ta.time.sub ta.lastH)
      let r := gridInner dense ta t0 t1 rem gs
      let out := out ++ r.1
      let gs := r.2
      if gs.isEmpty || interrupt != Outcome.success then .ok (some (fin out st ta))
      else if XF.le (.fin 0) rem != tDir then .ub
      else
        (stepF ta (dtLimit tDir maxDt rem) true).bind fun r =>
        let oc := r.1
        let h := r.2.1
        let ta1 := r.2.2
        if oc = Outcome.errNfState then .ok (some ⟨oc, st.minH, st.maxH, st.steps, out, ta1⟩)
        else
          let st1 := st.update oc h
          (runCb cb ta1).bind fun rc =>
          let ta2 := rc.2
          let interrupt := if !rc.1 then Outcome.cbStop
            else if isStopping oc then oc
            else if st1.iters = maxSteps then Outcome.stepLimit
            else interrupt
          if h.feq rem then
            if oc != Outcome.timeLimit then .ub
            else gridLoop stepF dense cb last maxSteps maxDt tDir fuel (.fin 0) st1 interrupt out gs ta2
          else if !(h.abs.lt rem.abs) then .ub
          else gridLoop stepF dense cb last maxSteps maxDt tDir fuel (last.sub ta2.time) st1 interrupt out gs
            ta2

/-- `propagate_grid_impl()`: src/taylor_adaptive.cpp 1392-1731. `hi` extracts the high part of the
double-length time (used only in the comparison with the first grid point), `state ta` is the state vector,
`dense ta x` the output of `update_d_output(x)`. -/
def propagateGrid (stepF : StepF K W) (dense : Integ K W → XF K → S) (state : Integ K W → S)
    (hi : XF K → XF K) (fuel : Nat) (ta : Integ K W) (grid : List (XF K)) (maxSteps : Nat) (maxDt : XF K)
    (cb : Option (Cb K W)) : Res (Option (GridRes K W S)) :=
  if !ta.time.isFin then .throw
  else if maxDt.isNan then .throw
  else if maxDt.le (.fin 0) then .throw
  else if !gridOk grid then .throw
  else match grid with
    | [] => .throw
    | g0 :: gs =>
      if !(hi ta.time).feq g0 then .throw
      else
        (propagateUntil stepF (fun _ => ()) fuel ta g0 maxSteps maxDt none true false).bind fun ru =>
        match ru with
        | none => .ok none
        | some ru =>
          if ru.oc ≠ Outcome.timeLimit then
            .ok (some ⟨ru.oc, .pinf, .fin 0, 0, [], ru.ta⟩)
          else
            let last := (g0 :: gs).getLast (List.cons_ne_nil _ _)
            let rem := last.sub ru.ta.time
            if !rem.isFin then .throw
            else
              let tDir := XF.le (.fin 0) rem
              (runPreHook cb ru.ta).bind fun ta1 =>
                gridLoop stepF dense cb last maxSteps maxDt tDir fuel rem Stats.init Outcome.success
                  [state ru.ta] gs ta1

end

end Heyoka.Integ
