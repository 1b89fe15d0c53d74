import Verif.Integ.Batch

/-!
# `propagate_grid()` in batch mode

Model of `taylor_adaptive_batch<T>::propagate_grid_impl()` (src/taylor_adaptive_batch.cpp 1546-2052). Simplifications: those of
`Verif.Integ.Batch`; `retval` is represented by the samples of each lane which have been written (the other ones are NaN), so
that `cur_grid_idx` is the number of samples; `update_d_output()` acts on each lane as in the scalar case.
-/

namespace Heyoka.Integ

variable {K W G C S : Type*} {n : Nat} [Field K] [LinearOrder K] [IsStrictOrderedRing K]

/-- The grid point `k` of the lane `i`: `grid_ptr[k * m_batch_size + i]`. -/
def gridPt (grid : List (XF K)) (k : Nat) (i : Fin n) : XF K := grid.getD (k * n + i) .nan

/-- The grid points of the lane `i`. -/
def gridCol (grid : List (XF K)) (i : Fin n) : List (XF K) := (List.range (grid.length / n)).map fun k => gridPt grid k i

/-- The checks on the grid points: src/taylor_adaptive_batch.cpp 1620-1660. -/
def bGridOk (n : Nat) (grid : List (XF K)) : Bool :=
  let np := grid.length / n
  let fin (k : Nat) : Bool := (List.finRange n).all fun i => (gridPt grid k i).isFin
  fin 0 && (decide (np ≤ 1) || (fin 1 && match List.finRange n with
    | [] => true
    | i0 :: is =>
      let dir := (gridPt grid 0 i0).lt (gridPt grid 1 i0)
      !(gridPt grid 1 i0).feq (gridPt grid 0 i0) && (is.all fun i => (gridPt grid 0 i).lt (gridPt grid 1 i) == dir) &&
      (List.range (np - 2)).all fun k => fin (k + 2) &&
        (List.finRange n).all fun i => (gridPt grid (k + 1) i).lt (gridPt grid (k + 2) i) == dir))

/-- The flags of the lanes for which dense output can be computed: src/taylor_adaptive_batch.cpp 1822-1850. -/
def gridFlag (t0 t1 rem : Fin n → XF K) (flags : Fin n → Bool) (gs : Fin n → List (XF K)) (i : Fin n) : Bool :=
  flags i && match gs i with
    | [] => false
    | g :: _ => ((t0 i).le g && g.le (t1 i)) || (rem i).feq (.fin 0)

/-- A new sample. -/
def pushSample (dense : Integ K W → XF K → S) (L : Integ K W) (o : List S) : List (XF K) → List S
  | [] => o
  | g :: _ => o ++ [dense L g]

/-- The inner loop: src/taylor_adaptive_batch.cpp 1817-1884. -/
def bGridInner (dense : Integ K W → XF K → S) (B : BInteg n K W G) (t0 t1 rem : Fin n → XF K) :
    Nat → (Fin n → Bool) → (Fin n → List S) → (Fin n → List (XF K)) → Option ((Fin n → List S) × (Fin n → List (XF K)))
  | 0, _, _, _ => none
  | fuel + 1, flags, out, gs =>
    let fl := gridFlag t0 t1 rem flags gs
    if (List.finRange n).all fun i => !fl i then some (out, gs)
    else
      let out1 := fun i => if fl i then pushSample dense (B.lanes i) (out i) (gs i) else out i
      let gs1 := fun i => if fl i then (gs i).tail else gs i
      if (List.finRange n).all fun i => (gs1 i).isEmpty then some (out1, gs1)
      else bGridInner dense B t0 t1 rem fuel fl out1 gs1

/-- Return value of `propagate_grid_impl()`, `m_prop_res` and the integrator left behind. -/
structure BGridRes (n : Nat) (K W G S : Type*) where
  /-- `m_prop_res` -/
  res : Fin n → LaneRes K
  /-- the samples written into `retval` -/
  out : Fin n → List S
  /-- the integrator -/
  B : BInteg n K W G

/-- Interruption: src/taylor_adaptive_batch.cpp 1907-1914. -/
def interrupted (oc : Outcome) : Bool := decide (oc = Outcome.cbStop) || isStopping oc || decide (oc = Outcome.stepLimit)

/-- The loop of `propagate_grid_impl()`: src/taylor_adaptive_batch.cpp 1798-2043. The assertions are `ub`, the one at lines 1888-1889
only if `nd` (`NDEBUG`) is not set. `np` is the number of grid points. -/
def bGridLoop (nd : Bool) (stepF : BStepF n K W G) (dense : Integ K W → XF K → S) (cb : Option (BCb n K W G)) (last : Fin n → XF K)
    (maxSteps : Nat) (maxDts : Fin n → XF K) (tDir : Fin n → Bool) (np : Nat) :
    Nat → Nat → (Fin n → XF K) → (Fin n → LaneStats K) → (Fin n → LaneRes K) → (Fin n → List S) → (Fin n → List (XF K)) →
      BInteg n K W G → Res (Option (BGridRes n K W G S))
  | 0, _, _, _, _, _, _, _ => .ok none
  | fuel + 1, iters, rem, st, res, out, gs, B =>
    if (List.finRange n).all fun i => (gs i).isEmpty then .ok (some ⟨res, out, B⟩)
    else
      match bGridInner dense B (fun i => (B.lanes i).time.min ((B.lanes i).time.sub (B.lanes i).lastH))
          (fun i => (B.lanes i).time.max ((B.lanes i).time.sub (B.lanes i).lastH)) rem (np + 1) (fun _ => true) out gs with
      | none => .ok none
      | some q =>
        let out := q.1
        let gs := q.2
        if (List.finRange n).all fun i => (gs i).isEmpty then
          if !nd && !((List.finRange n).all fun i => decide ((res i).oc = Outcome.timeLimit)) then .ub
          else .ok (some ⟨res, out, B⟩)
        else if (List.finRange n).any fun i => interrupted (res i).oc then .ok (some ⟨res, out, B⟩)
        else if (List.finRange n).any fun i => XF.le (.fin 0) (rem i) != tDir i && !(rem i).feq (.fin 0) then .ub
        else
          (stepF B (fun i => dtLimit (tDir i) (maxDts i) (rem i)) true).bind fun r =>
          (laneUpdates (fun i => laneUpdate (last i) (r.2.lanes i).time (rem i) (st i) (r.1 i).1 (r.1 i).2) (List.finRange n)
            (fun i => (rem i, st i, false))).bind fun u =>
          let res1 (oc : Fin n → Outcome) : Fin n → LaneRes K :=
            fun i => ⟨oc i, (u i).2.1.minH, (u i).2.1.maxH, (u i).2.1.steps⟩
          if (List.finRange n).any fun i => decide ((r.1 i).1 = Outcome.errNfState) then
            .ok (some ⟨res1 fun i => (r.1 i).1, out, r.2⟩)
          else
            (bRunCb cb r.2).bind fun rc =>
            bGridLoop nd stepF dense cb last maxSteps maxDts tDir np fuel (iters + 1) (fun i => (u i).1) (fun i => (u i).2.1)
              (res1 fun i => if !rc.1 then Outcome.cbStop else if iters + 1 = maxSteps then Outcome.stepLimit else (r.1 i).1)
              out gs rc.2

/-- `propagate_grid_impl()`: src/taylor_adaptive_batch.cpp 1546-2052. `hi` extracts the high part of the
double-length time, `state` is the state vector of a lane. (The batch size is never zero.) -/
def bPropagateGrid (nd : Bool) (stepF : BStepF n K W G) (dense : Integ K W → XF K → S) (state : Integ K W → S)
    (hi : XF K → XF K) (fuel : Nat) (B : BInteg n K W G) (grid : List (XF K)) (maxSteps : Nat) (maxDts_ : List (XF K))
    (cb : Option (BCb n K W G)) : Res (Option (BGridRes n K W G S)) :=
  if grid.isEmpty then .throw
  else if grid.length % n ≠ 0 then .throw
  else if (List.finRange n).any fun i => !(B.lanes i).time.isFin then .throw
  else
    let maxDts := if maxDts_.isEmpty then List.replicate n XF.pinf else maxDts_
    if maxDts.length ≠ n then .throw
    else if maxDts.any fun dt => dt.isNan || dt.le (.fin 0) then .throw
    else if !bGridOk n grid then .throw
    else if (List.finRange n).any fun i => !(hi (B.lanes i).time).feq (gridPt grid 0 i) then .throw
    else
      (bPropagateUntil stepF (fun _ => ()) fuel B (.vec ((List.finRange n).map fun i => gridPt grid 0 i)) maxSteps maxDts none true
        false).bind fun ru =>
      match ru with
      | none => .ok none
      | some ru =>
        if (List.finRange n).any fun i => decide ((ru.res i).oc ≠ Outcome.timeLimit) then
          .ok (some ⟨fun i => ⟨(ru.res i).oc, .pinf, .fin 0, 0⟩, fun _ => [], ru.B⟩)
        else
          let last := fun i => gridPt grid (grid.length / n - 1) i
          let rem := fun i => (last i).sub (ru.B.lanes i).time
          if (List.finRange n).any fun i => !(rem i).isFin then .throw
          else
            (bRunPreHook cb ru.B).bind fun B0 =>
              bGridLoop nd stepF dense cb last maxSteps (fun i => maxDts.getD i .nan) (fun i => XF.le (.fin 0) (rem i)) (grid.length / n)
                fuel 0 rem (fun _ => ⟨0, .pinf, .fin 0⟩) ru.res (fun i => [state (ru.B.lanes i)]) (fun i => (gridCol grid i).tail) B0

end Heyoka.Integ
