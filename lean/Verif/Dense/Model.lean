import Verif.Search.UpperBound
import Verif.Util.Loop
import Mathlib.Algebra.Ring.Pi
import Mathlib.Algebra.Order.WithTop.Untop0

/-!
# Evaluation of Taylor polynomials, dense and continuous output

Arithmetic is exact. A SIMD vector of `b` lanes is a function `Fin b → K`; the evaluation loops
are written over any ring `V` (`V = K` or `V = Fin b → K`).
-/

namespace Heyoka.Dense

section Eval
variable {V : Type*} [CommRing V]

/-- First loop of the Horner scheme: write the coefficients of the highest degree.
src/taylor_01.cpp 1135-1149, src/taylor_00.cpp 302-309 and 336-340, src/continuous_output.cpp
937-951. `cf o v` loads the coefficient of order `o` of the variable `v`. -/
def hornerInit (cf : Nat → Nat → Res V) (n order : Nat) : Res (List V) :=
  mapLanes (fun v => cf order v) (List.range n)

/-- Inner loop of the Horner scheme over the variables, for the order `o`:
`out[v] = cf(o, v) + out[v] * h`. src/taylor_01.cpp 1154-1175, src/taylor_00.cpp 314-327 and
344-346, src/continuous_output.cpp 958-978. -/
def hornerRow (cf : Nat → Nat → Res V) (h : V) (o : Nat) (out : List V) : Res (List V) :=
  mapLanes (fun p => (cf o p.2).bind fun c => .ok (c + p.1 * h)) out.zipIdx

/-- Horner scheme for `n` polynomials at once; the loop variable runs over `1 .. order` and the
order loaded is `order - cur_order`. src/taylor_01.cpp 1133-1177 (dense output),
src/taylor_00.cpp 279-351 (`taylor_run_multihorner()`, compact and non-compact),
src/continuous_output.cpp 933-979 (batch continuous output). -/
def horner (cf : Nat → Nat → Res V) (n order : Nat) (h : V) : Res (List V) :=
  (hornerInit cf n order).bind fun out =>
    forRes (List.range' 1 order) (fun cur out => hornerRow cf h (order - cur) out) out

/-- Inner loop of the compensated summation over the variables: state is (result, compensation).
src/taylor_01.cpp 1106-1127, src/taylor_00.cpp 398-416 and 437-450, src/continuous_output.cpp
905-927. -/
def cevalRow (cf : Nat → Nat → Res V) (curH : V) (o : Nat) (out : List (V × V)) :
    Res (List (V × V)) :=
  mapLanes (fun p => (cf o p.2).bind fun c =>
    let tmp := c * curH
    let y := tmp - p.1.2
    let t := p.1.1 + y
    .ok (t, (t - p.1.1) - y)) out.zipIdx

/-- Compensated summation of the monomials of `n` polynomials; `cur_h` is the running power of `h`.
src/taylor_01.cpp 1073-1132, src/taylor_00.cpp 355-460 (`taylor_run_ceval()`),
src/continuous_output.cpp 871-932. -/
def ceval (cf : Nat → Nat → Res V) (n order : Nat) (h : V) : Res (List V) :=
  (mapLanes (fun v => (cf 0 v).bind fun c => .ok (c, (0 : V))) (List.range n)).bind fun out =>
    (forRes (List.range' 1 order) (fun cur (s : V × List (V × V)) =>
      (cevalRow cf s.1 cur s.2).bind fun out' => .ok (s.1 * h, out')) (h, out)).bind fun s =>
        .ok (s.2.map Prod.fst)

/-- The evaluation chosen by the `high_accuracy` flag. src/taylor_00.cpp 810-813,
src/taylor_01.cpp 1072. -/
def evalPolys (highAccuracy : Bool) (cf : Nat → Nat → Res V) (n order : Nat) (h : V) :
    Res (List V) :=
  if highAccuracy then ceval cf n order h else horner cf n order h

end Eval

section Layout
variable {K : Type*}

/-- Load of a vector of `b` lanes from consecutive addresses. -/
def loadVec (b : Nat) (mem : List K) (off : Nat) : Res (Fin b → K) :=
  if h : off + b ≤ mem.length then .ok fun l => mem[off + l.val] else .ub

/-- Coefficient load of the dense output function `d_out_f`: index
`batch_size * (order + 1) * var + batch_size * cur_order` from `tc_ptr` (at offset `base`).
src/taylor_01.cpp 1085-1087, 1105-1109, 1138-1141, 1161-1166. -/
def dOutCf (b order : Nat) (tcs : List K) (base : Nat) (o v : Nat) : Res (Fin b → K) :=
  loadVec b tcs (base + (b * (order + 1) * v + b * o))

/-- Coefficient load from the non-compact mode jet, `diff_arr[order * n_eq + var]` (the elements
are vectors). src/taylor_00.cpp 338, 345, 427, 438. -/
def jetCf {V : Type*} (nEq : Nat) (jet : List V) (o v : Nat) : Res V :=
  match jet[nEq * o + v]? with
  | some x => .ok x
  | none => .ub

/-- Coefficient load from the tape in compact mode, `taylor_c_load_diff()`: index
`order * n_uvars + u_idx`. src/taylor_01.cpp 280-291. -/
def tapeCf {V : Type*} (nUvars : Nat) (tape : List V) (o v : Nat) : Res V :=
  match tape[nUvars * o + v]? with
  | some x => .ok x
  | none => .ub

/-- Memory with uninitialised cells. -/
abbrev Mem (K : Type*) := Nat → Option K

/-- Store of a vector of `b` lanes at consecutive addresses. -/
def storeVec {b : Nat} (m : Mem K) (off : Nat) (x : Fin b → K) : Mem K := fun a =>
  if h : off ≤ a ∧ a < off + b then some (x ⟨a - off, by omega⟩) else m a

/-- Inner loop of `taylor_write_tc()`: the orders `0 .. order` of the row `j` of the output, read
with `cf`. src/taylor_00.cpp 521-534, 545-556, 568-581. -/
def writeTcRow {b : Nat} (order : Nat) (cf : Nat → Res (Fin b → K)) (j : Nat) (m : Mem K) :
    Res (Mem K) :=
  forRes (List.range (order + 1)) (fun o m =>
    (cf o).bind fun x => .ok (storeVec m ((order + 1) * b * j + o * b) x)) m

/-- Loop body of `taylor_write_tc()` in compact mode for the function of the state variables of
index `a`: its index in the tape is loaded from `svf_ptr`. src/taylor_00.cpp 539-557. -/
def writeTcSv {b : Nat} (nEq nUvars order : Nat) (svf : List Nat) (tape : List (Fin b → K))
    (a : Nat) (m : Mem K) : Res (Mem K) :=
  match svf[a]? with
  | none => .ub
  | some u => writeTcRow order (fun o => tapeCf nUvars tape o u) (nEq + a) m

/-- `taylor_write_tc()` in compact mode: first the state variables, then the functions of the
state variables, whose indices in the tape are in `svf`. src/taylor_00.cpp 512-558. -/
def writeTcCompact {b : Nat} (nEq nUvars order : Nat) (svf : List Nat) (tape : List (Fin b → K))
    (m : Mem K) : Res (Mem K) :=
  (forRes (List.range nEq) (fun v m =>
    writeTcRow order (fun o => tapeCf nUvars tape o v) v m) m).bind fun m =>
      forRes (List.range svf.length) (writeTcSv nEq nUvars order svf tape) m

/-- `taylor_write_tc()` in non-compact mode: the jet contains the state variables and the sv
functions only. src/taylor_00.cpp 559-583. -/
def writeTc {b : Nat} (nEq nSv order : Nat) (jet : List (Fin b → K)) (m : Mem K) : Res (Mem K) :=
  forRes (List.range (nEq + nSv)) (fun j m =>
    writeTcRow order (fun o => jetCf (nEq + nSv) jet o j) j m) m

variable [CommRing K]

/-- The dense output function `d_out_f` on an array of Taylor coefficients.
src/taylor_01.cpp 1015-1185. -/
def dOut (b : Nat) (highAccuracy : Bool) (nEq order : Nat) (tcs : List K) (base : Nat)
    (h : Fin b → K) : Res (List (Fin b → K)) :=
  evalPolys highAccuracy (dOutCf b order tcs base) nEq order h

/-- `update_d_output()`: the time is translated to be relative to the beginning of the last step.
src/taylor_adaptive.cpp 1925-1957. -/
def updateDOutput (highAccuracy : Bool) (nEq order : Nat) (tc : List K) (time lastH : K) (t : K)
    (relTime : Bool) : Res (List (Fin 1 → K)) :=
  let h := if relTime then lastH + t else t - (time - lastH)
  dOut 1 highAccuracy nEq order tc 0 (fun _ => h)

end Layout

section COut
variable {K : Type*} [CommRing K] [LinearOrder K]

/-- Data of a continuous output object: times of the beginning of the first step and of the end
of each step, Taylor coefficients. include/heyoka/continuous_output.hpp. Simplification: the
hi/lo pairs of the double-length times are exact numbers. -/
structure COut (K : Type*) where
  /-- `m_tcs` -/
  tcs : List K
  /-- `m_times_hi`, `m_times_lo` -/
  times : List K

/-- Comparison of the search: `!(tm < times[idx])` forward, `!(tm > times[idx])` backward.
src/continuous_output.cpp 214-221. -/
def cOutCond (dir : Bool) (tm x : K) : Bool := if dir then !decide (tm < x) else !decide (tm > x)

/-- Index selection after the search. src/continuous_output.cpp 247-277. -/
def cOutIdx (size first : Nat) : Nat :=
  if first = 0 then 0 else if first = size then first - 2 else first - 1

/-- Recording of a step: src/taylor_adaptive.cpp 1225-1247 (`update_c_out()`). -/
def cOutPush (c : COut K) (time : K) (tc : List K) : COut K := ⟨c.tcs ++ tc, c.times ++ [time]⟩

/-- The generated function `c_out`: src/continuous_output.cpp 72-304. -/
def cOutEval (highAccuracy : Bool) (dim order : Nat) (c : COut K) (tm : K) :
    Res (List (Fin 1 → K)) :=
  match c.times.head?, c.times.getLast? with
  | some tStart, some tEnd =>
    let dir := decide (tStart < tEnd)
    (Search.upperBound c.times (cOutCond dir tm)).bind fun first =>
      let idx := cOutIdx c.times.length first
      match c.times[idx]? with
      | none => .ub
      | some t0 => dOut 1 highAccuracy dim order c.tcs (idx * (dim * (order + 1))) fun _ => tm - t0
  | _, _ => .ub

/-- `continuous_output::call_impl()`: src/continuous_output.cpp 348-403. `none` as object:
default-constructed; `none` as time: non-finite. -/
def cOutCall (highAccuracy : Bool) (dim order : Nat) (c : Option (COut K)) (t : Option K) :
    Res (List (Fin 1 → K)) :=
  match c with
  | none => .throw
  | some c =>
    if c.times.length < 2 then .ub
    else
      match t with
      | none => .throw
      | some t => cOutEval highAccuracy dim order c t

/-! ### Batch version -/

/-- Times of the batch version: finite values and infinities (padding). -/
abbrev Ext (K : Type*) := WithBot (WithTop K)

/-- A finite time. -/
def Ext.fin (x : K) : Ext K := ((x : WithTop K) : WithBot (WithTop K))

/-- Data of a batch continuous output object; row `i` of `times` contains the times of all the
lanes after `i` steps (the flat array of the code is the concatenation of the rows); the last row
is the padding. `tcs` is the flat array of coefficients. include/heyoka/continuous_output.hpp. -/
structure COutB (b : Nat) (K : Type*) where
  /-- `m_tcs` -/
  tcs : List K
  /-- rows of `m_times_hi`, `m_times_lo` -/
  times : List (Fin b → Ext K)

/-- Creation of the object: padding with infinities according to the direction of each lane.
src/taylor_adaptive_batch.cpp 1276-1300. -/
def mkCOutB {b : Nat} (tcs : List K) (times : List (Fin b → K)) (tDir : Fin b → Bool) : COutB b K :=
  ⟨tcs, times.map (fun r l => Ext.fin (r l)) ++ [fun l => if tDir l then ⊤ else ⊥]⟩

/-- Comparison of the search in a lane. src/continuous_output.cpp 760-768. -/
def cOutCondB (dir : Bool) (tm : K) (x : Ext K) : Bool :=
  if dir then !decide (Ext.fin tm < x) else !decide (Ext.fin tm > x)

/-- Index selection, `first - (first != 0) - (first == range_size - 1)`.
src/continuous_output.cpp 807-824. -/
def cOutIdxB (rangeSize first : Nat) : Nat :=
  first - (if first ≠ 0 then 1 else 0) - (if first = rangeSize - 1 then 1 else 0)

/-- Gather of a coefficient: lane `l` reads at its own base pointer
`tc_idx[l] * (dim * (order + 1) * batch_size) + l`, plus
`batch_size * (order + 1) * var + batch_size * o`. src/continuous_output.cpp 856-868, 884-886,
908-913, 940-945, 961-968. -/
def cOutBCf (b dim order : Nat) (tcs : List K) (idxs : Fin b → Nat) (o v : Nat) :
    Res (Fin b → K) :=
  if h : ∀ l : Fin b,
      (idxs l * (dim * (order + 1) * b) + l.val) + (b * (order + 1) * v + b * o) < tcs.length then
    .ok fun l => tcs[(idxs l * (dim * (order + 1) * b) + l.val) + (b * (order + 1) * v + b * o)]'(h l)
  else .ub

/-- Load of the start times of the selected steps, all of which must exist and be finite. -/
def cOutBStart {b : Nat} (times : List (Fin b → Ext K)) (idxs : Fin b → Nat) : Fin b → Option K :=
  fun l => (times[idxs l]?).bind fun r =>
    match r l with
    | some (some x) => some x
    | _ => none

/-- The generated function `c_out` of the batch version: src/continuous_output.cpp 600-981. The
search loop has no mask (the padding makes it unnecessary). -/
def cOutEvalB {b : Nat} (highAccuracy : Bool) (dim order : Nat) (c : COutB b K) (tm : Fin b → K) :
    Res (List (Fin b → K)) :=
  match c.times.head?, c.times.getLast? with
  | some tStart, some tEnd =>
    let lanes := (List.finRange b).map fun l =>
      (⟨c.times.map (· l), cOutCondB (decide (tStart l < tEnd l)) (tm l), 0, c.times.length⟩ :
        Search.Lane (Ext K))
    (Search.vecLoop false lanes).bind fun firsts =>
      if hl : firsts.length = b then
        let idxs : Fin b → Nat := fun l => cOutIdxB c.times.length (firsts[l.val])
        let start := cOutBStart c.times idxs
        if hs : ∀ l, (start l).isSome then
          evalPolys highAccuracy (cOutBCf b dim order c.tcs idxs) dim order
            (fun l => tm l - (start l).get (hs l))
        else .ub
      else .ub
  | _, _ => .ub

end COut

end Heyoka.Dense
