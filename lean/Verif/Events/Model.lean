import Verif.Util.Res
import Verif.Util.Pairwise
import Verif.Integ.Step
import Mathlib.Data.Nat.Choose.Basic

/-!
# Event detection

Model of `ed_data<T>::detect_events()` (src/detail/event_detection.cpp 1065-1516) and of the functions it
uses, in scalar mode.

Simplifications:
* exact arithmetic on finite values: the finiteness checks on roots, derivatives and coefficients
  (1164-1173, 1206-1214, 1313-1315) always succeed and are omitted;
* `bracketed_root_find()` (307-394) is a parameter `rf`: `some r` is a root with a zero flag, `none` any
  nonzero flag; what is assumed about it is stated in the theorems;
* the cache of polynomials (`taylor_pwrap`) is not represented, temporaries are values;
* the do/while loop runs with a bound `fuel` on the number of iterations; `none` means that the loop is still
  running.
-/

namespace Heyoka.Events

open Heyoka.Integ (DTe DNte)

variable {K : Type*}

section
variable [Field K] [LinearOrder K]

/-- Array access. -/
def rd {α : Type*} (l : List α) (i : Nat) : Res α :=
  match l[i]? with
  | some x => .ok x
  | none => .ub

/-- `sgn()`: src/detail/event_detection.cpp 224-228; also `llvm_sgn()`. -/
def sgn (x : K) : Int := (if 0 < x then 1 else 0) - (if x < 0 then 1 else 0)

/-- The loop of `poly_rescale()`: src/detail/event_detection.cpp 182-191. `f` is `cur_f`. -/
def rescaleGo (scal : K) : K → List K → List K
  | _, [] => []
  | f, a :: as => a * f :: rescaleGo scal (f * scal) as

/-- `poly_rescale()`: src/detail/event_detection.cpp 171-192. -/
def polyRescale (scal : K) (a : List K) : List K := rescaleGo scal 1 a

/-- `poly_rescale_p2()`: src/detail/event_detection.cpp 197-221; the loop proceeds from the coefficient of
highest order. -/
def polyRescaleP2 (a : List K) : List K := (rescaleGo 2 1 a.reverse).reverse

/-- The loop of `poly_eval_1()`: src/detail/event_detection.cpp 257-261, on the coefficients `n - 1, ..., 1`. -/
def evalOneGo (x : K) : List K → Nat → K → K
  | [], _, r => r
  | c :: cs, i, r => evalOneGo x cs (i - 1) (c * (i : K) + r * x)

/-- `poly_eval_1()`, the derivative of a polynomial: src/detail/event_detection.cpp 249-264. The assertion on
the degree is `ub` when violated. -/
def polyEval1 (a : List K) (x : K) : Res K :=
  match a.reverse with
  | [] => .ub
  | cn :: cs =>
    if cs.length < 2 then .ub
    else .ok (evalOneGo x cs.dropLast (cs.length - 1) (cn * (cs.length : K)))

/-- `poly_eval()`: src/detail/event_detection.cpp 268-280. -/
def polyEval (a : List K) (x : K) : Res K :=
  match a.reverse with
  | [] => .ub
  | cn :: cs => .ok (cs.foldl (fun r c => c + r * x) cn)

/-- `llvm_add_bc_array()`: src/detail/llvm_helpers_ed.cpp 421-458 (exact binomial coefficients). -/
def bcArray (n : Nat) : List K :=
  (List.range (n + 1)).flatMap fun i =>
    (List.range (n + 1)).map fun j => if j ≤ i then (Nat.choose i j : K) else 0

/-- The inner loop of the translation: src/detail/event_detection.cpp 482-491 (`get_bc` at 435-442). -/
def translateInner (n : Nat) (ai : K) (i : Nat) : List Nat → List K → Res (List K)
  | [], out => .ok out
  | k :: ks, out =>
    (rd (bcArray n) (i * (n + 1) + k)).bind fun bc =>
    (rd out k).bind fun o => translateInner n ai i ks (out.set k (o + ai * bc))

/-- The outer loop of the translation: src/detail/event_detection.cpp 477-492. -/
def translateOuter (n : Nat) (cf : List K) : List Nat → List K → Res (List K)
  | [], out => .ok out
  | i :: is, out =>
    (rd cf i).bind fun ai =>
    (translateInner n ai i (List.range (i + 1)) out).bind fun out' => translateOuter n cf is out'

/-- `poly_translate_1`, translation of a polynomial of degree `n` by 1: src/detail/event_detection.cpp
413-507. -/
def polyTranslate1 (n : Nat) (cf : List K) : Res (List K) :=
  translateOuter n cf (List.range (n + 1)) (List.replicate (n + 1) 0)

/-- The loop counting the sign changes: src/detail/llvm_helpers_ed.cpp 152-193. `lastNz` is `last_nz_idx`,
`ret` is `retval`. -/
def cscLoop (cf : List K) : List Nat → Nat → Nat → Res Nat
  | [], _, ret => .ok ret
  | c :: cs, lastNz, ret =>
    (rd cf c).bind fun cur =>
    (rd cf lastNz).bind fun last =>
    let curSgn := sgn cur
    let lastSgn := sgn last
    let cmp := if lastSgn = 0 then false else decide (curSgn + lastSgn = 0)
    cscLoop cf cs (if curSgn = 0 then lastNz else c) (ret + if cmp then 1 else 0)

/-- The number of sign changes in the coefficients of a polynomial of degree `n`:
src/detail/llvm_helpers_ed.cpp 59-208. -/
def csc (n : Nat) (cf : List K) : Res Nat := cscLoop cf ((List.range (n + 1)).drop 1) 0 0

/-- `poly_rtscc`: reverse, translate by 1, count the sign changes: src/detail/event_detection.cpp 598-697. -/
def rtscc (n : Nat) (cf : List K) : Res Nat := (polyTranslate1 n cf.reverse).bind fun t => csc n t

/-- `event_direction`: include/heyoka/events.hpp. -/
inductive Dir
  | any
  | pos
  | neg
deriving DecidableEq

/-- Does the sign of the derivative match the direction: src/detail/event_detection.cpp 1216-1232. -/
def Dir.accepts : Dir → Int → Bool
  | .any, _ => true
  | .pos, s => s == 1
  | .neg, s => s == -1

/-- The fixed data of the detection of one event. -/
structure Ctx (K : Type*) where
  /-- the timestep -/
  h : K
  /-- the order -/
  order : Nat
  /-- coefficients of the Taylor polynomial of the event function -/
  poly : List K
  /-- terminal event? -/
  terminal : Bool
  /-- `get_direction()` -/
  dir : Dir
  /-- `lb_offset` -/
  off : K
  /-- `bracketed_root_find()` -/
  rf : List K → K → K → Option K
  /-- `nextafter(h, 0)` -/
  na : K

/-- A detected event: time, sign and absolute value of the derivative. -/
structure Det (K : Type*) where
  /-- time from the beginning of the step -/
  t : K
  /-- sign of the derivative -/
  sgn : Int
  /-- absolute value of the derivative -/
  absDer : K
deriving DecidableEq

/-- `add_d_event()`: src/detail/event_detection.cpp 1159-1233. -/
def addEvent (c : Ctx K) (root : K) (out : List (Det K)) : Res (List (Det K)) :=
  let root := if |c.h| ≤ |root| then c.na else root
  (polyEval1 c.poly root).bind fun der =>
  let s := sgn der
  if c.dir.accepts s then .ok (out ++ [⟨root, s, |der|⟩]) else .ok out

/-- Element of the working list. -/
structure WItem (K : Type*) where
  /-- lower bound -/
  lb : K
  /-- upper bound -/
  ub : K
  /-- polynomial -/
  q : List K

/-- State of the root isolation. -/
structure IsolRes (K : Type*) where
  /-- `m_isol` -/
  isol : List (K × K)
  /-- detected events -/
  out : List (Det K)
  /-- `loop_failed` -/
  failed : Bool
deriving DecidableEq

/-- Event at the lower bound: src/detail/event_detection.cpp 1313-1344. -/
def lbEvent (c : Ctx K) (w : WItem K) (out : List (Det K)) : Res (List (Det K)) :=
  (rd w.q 0).bind fun q0 =>
  if q0 = 0 then
    if c.terminal && decide (w.lb < c.off) then .ok out else addEvent c (w.lb * c.h) out
  else .ok out

/-- Bisection of an interval: src/detail/event_detection.cpp 1357-1388. Returns the new working list. The
head of the model's list is the back of the vector. -/
def bisect (c : Ctx K) (w : WItem K) (wl : List (WItem K)) : Res (List (WItem K)) :=
  let tmp1 := polyRescaleP2 w.q
  (polyTranslate1 c.order tmp1).bind fun tmp2 =>
  let mid := w.lb / 2 + w.ub / 2
  let wl := if c.off < mid then ⟨w.lb, mid, tmp1⟩ :: wl else wl
  .ok (⟨mid, w.ub, tmp2⟩ :: wl)

/-- The do/while loop: src/detail/event_detection.cpp 1286-1411. -/
def isolLoop (c : Ctx K) : Nat → List (WItem K) → List (K × K) → List (Det K) → Res (Option (IsolRes K))
  | 0, _, _, _ => .ok none
  | fuel + 1, wl, isol, out =>
    match wl with
    | [] => .ub
    | w :: wl =>
      (lbEvent c w out).bind fun out =>
      (rtscc c.order w.q).bind fun nsc =>
      (if 1 < nsc then bisect c w wl else .ok wl).bind fun wl =>
      let isol := if nsc = 1 then isol ++ [(w.lb, w.ub)] else isol
      if 250 < wl.length || c.order < isol.length then .ok (some ⟨isol, out, true⟩)
      else if wl.isEmpty then .ok (some ⟨isol, out, false⟩)
      else isolLoop c fuel wl isol out

/-- Root finding in the isolating intervals: src/detail/event_detection.cpp 1434-1510. `p` is the rescaled
polynomial. The assertion `lb < ub` is `ub` when violated. -/
def rootLoop (c : Ctx K) (p : List K) : List (K × K) → List (Det K) → Res (List (Det K))
  | [], out => .ok out
  | (lb, ub) :: is, out =>
    let find (lb : K) : Res (List (Det K)) :=
      match c.rf p lb ub with
      | some root => (addEvent c (root * c.h) out).bind fun out => rootLoop c p is out
      | none => rootLoop c p is out
    if c.terminal && decide (lb < c.off) then
      if !decide (c.off < ub) then .ub
      else
        (polyEval p c.off).bind fun flb =>
        (polyEval p ub).bind fun fub =>
        if !decide (flb * fub < 0) then rootLoop c p is out else find c.off
    else find lb

/-- Detection for one event after the exclusion checks: src/detail/event_detection.cpp 1268-1510. The flag
tells if the isolation failed. -/
def detectRoots (c : Ctx K) (fuel : Nat) : Res (Option (List (Det K) × Bool)) :=
  let p := polyRescale c.h c.poly
  (isolLoop c fuel [⟨0, 1, p⟩] [] []).bind fun r =>
  match r with
  | none => .ok none
  | some r =>
    if r.isol.isEmpty || r.failed then .ok (some (r.out, r.failed))
    else (rootLoop c p r.isol r.out).bind fun out => .ok (some (out, false))

/-- `lb_offset`: src/detail/event_detection.cpp 1239-1259. -/
def lbOffset (h : K) : Option (K × K) → K
  | none => 0
  | some (first, second) => if 0 ≤ h then (second - first) / |h| else (second + first) / |h|

/-- Sum of intervals: src/detail/llvm_helpers_ed.cpp 252-254. -/
def ivalSum (a b : K × K) : K × K := (a.1 + b.1, a.2 + b.2)

/-- Product of intervals: src/detail/llvm_helpers_ed.cpp 257-279. -/
def ivalProd (a b : K × K) : K × K :=
  let t1 := a.1 * b.1
  let t2 := a.1 * b.2
  let t3 := a.2 * b.1
  let t4 := a.2 * b.2
  (min (min t1 t2) (min t3 t4), max (max t1 t2) (max t3 t4))

/-- `llvm_penc_interval()`: src/detail/llvm_helpers_ed.cpp 227-323. -/
def pencInterval (poly : List K) (h : K × K) : Res (K × K) :=
  match poly.reverse with
  | [] => .ub
  | cn :: cs => .ok (cs.foldl (fun acc c => ivalSum (c, c) (ivalProd acc h)) (cn, cn))

/-- Update of the elements of `bj_series` except for the last one: src/detail/llvm_helpers_ed.cpp 389-397. -/
def csUpdate (j : Nat) : Nat → List K → List K
  | _, [] => []
  | i, b :: bs => (if i < j then b * ((j : K) / ((j - i : Nat) : K)) else b) :: csUpdate j (i + 1) bs

/-- The main iteration of the Cargo-Shisha algorithm: src/detail/llvm_helpers_ed.cpp 371-411. `n` is the
degree, `j` the index of the current coefficient, `hp` is `cur_h_pow`. -/
def csLoop (n : Nat) (h : K) : Nat → List K → K → List K → K × K → Res (K × K)
  | _, [], _, _, mm => .ok mm
  | j, cf :: cfs, hp, series, mm =>
    let series := csUpdate j 0 (series ++ [cf * hp / (Nat.choose n j : K)])
    match Util.pairwiseReduce (· + ·) series with
    | none => .ub
    | some bj => csLoop n h (j + 1) cfs (if j ≠ n then hp * h else hp) series (min mm.1 bj, max mm.2 bj)

/-- `llvm_penc_cargo_shisha()`: src/detail/llvm_helpers_ed.cpp 332-415. -/
def pencCargoShisha (n : Nat) (poly : List K) (h : K) : Res (K × K) :=
  match poly with
  | [] => .ub
  | b0 :: cfs => csLoop n h 1 cfs h [b0] (b0, b0)

/-- The fast exclusion check: src/detail/event_detection.cpp 704-816. -/
def fexCheck (useCs : Bool) (n : Nat) (poly : List K) (h : K) (back : Bool) : Res Bool :=
  (if useCs then pencCargoShisha n poly h
   else pencInterval poly (if back then h else 0, if back then 0 else h)).bind fun enc =>
  let sLo := sgn enc.1
  let sHi := sgn enc.2
  .ok (decide (sLo = sHi) && decide (sLo ≠ 0))

/-- Detection for one event: the body of the loop of `run_detection()`, src/detail/event_detection.cpp
1130-1511. -/
def detectOne (c : Ctx K) (useCs : Bool) (fuel : Nat) : Res (Option (List (Det K) × Bool)) :=
  (fexCheck useCs c.order c.poly c.h (decide (c.h < 0))).bind fun ex =>
  if ex then .ok (some ([], false))
  else if 1 ≤ c.off then .ok (some ([], false))
  else detectRoots c fuel

/-- The parameters of `detect_events()`. -/
structure Params (K : Type*) where
  /-- the order -/
  order : Nat
  /-- number of state variables -/
  dim : Nat
  /-- directions of the terminal events -/
  tes : List Dir
  /-- directions of the non-terminal events -/
  ntes : List Dir
  /-- `bracketed_root_find()` -/
  rf : List K → K → K → Option K
  /-- `nextafter(h, 0)` -/
  na : K → K
  /-- use the Cargo-Shisha enclosure in the exclusion check -/
  useCs : Bool

/-- The Taylor polynomial of an event: src/detail/event_detection.cpp 1133-1134. -/
def evPoly (p : Params K) (jet : List K) (i : Nat) (terminal : Bool) : Res (List K) :=
  let off := (i + p.dim + (if terminal then 0 else p.tes.length)) * (p.order + 1)
  if jet.length < off + (p.order + 1) then .ub else .ok ((jet.drop off).take (p.order + 1))

/-- The loop of `run_detection()` over the terminal events from index `i`:
src/detail/event_detection.cpp 1122-1512. -/
def runT (p : Params K) (fuel : Nat) (jet : List K) (h : K) (cds : List (Option (K × K))) :
    List Dir → Nat → List (DTe K) → Res (Option (List (DTe K)))
  | [], _, out => .ok (some out)
  | d :: ds, i, out =>
    (evPoly p jet i true).bind fun poly =>
    (rd cds i).bind fun cd =>
    (detectOne ⟨h, p.order, poly, true, d, lbOffset h cd, p.rf, p.na h⟩ p.useCs fuel).bind fun r =>
    match r with
    | none => .ok none
    | some r => runT p fuel jet h cds ds (i + 1) (out ++ r.1.map fun e => ⟨i, e.t, e.sgn, e.absDer⟩)

/-- The loop of `run_detection()` over the non-terminal events from index `i`:
src/detail/event_detection.cpp 1122-1512. -/
def runN (p : Params K) (fuel : Nat) (jet : List K) (h : K) :
    List Dir → Nat → List (DNte K) → Res (Option (List (DNte K)))
  | [], _, out => .ok (some out)
  | d :: ds, i, out =>
    (evPoly p jet i false).bind fun poly =>
    (detectOne ⟨h, p.order, poly, false, d, 0, p.rf, p.na h⟩ p.useCs fuel).bind fun r =>
    match r with
    | none => .ok none
    | some r => runN p fuel jet h ds (i + 1) (out ++ r.1.map fun e => ⟨i, e.t, e.sgn⟩)

/-- `detect_events()` for finite nonzero `h` (the other cases are in `Integ.detectEvents`):
src/detail/event_detection.cpp 1065-1516. -/
def detect (p : Params K) (fuel : Nat) (jet : List K) (h : K) (cds : List (Option (K × K))) :
    Res (Option (List (DTe K) × List (DNte K))) :=
  (runT p fuel jet h cds p.tes 0 []).bind fun rt =>
  match rt with
  | none => .ok none
  | some ts =>
    (runN p fuel jet h p.ntes 0 []).bind fun rn =>
    match rn with
    | none => .ok none
    | some ns => .ok (some (ts, ns))

end

end Heyoka.Events
