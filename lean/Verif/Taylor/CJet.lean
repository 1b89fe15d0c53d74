import Verif.Taylor.CModel
import Verif.Taylor.Jet

/-!
# The jet of normalised derivatives, compact mode

`taylor_compute_jet()` (`src/taylor_02.cpp`) in compact mode: the segmentation of the decomposition, the code generated
for each segment, the drivers, and the execution of the generated code on a tape of derivatives. The batch size is one.
-/

set_option linter.unusedSectionVars false

namespace Heyoka.Taylor

open Heyoka.Sym

variable {K : Type}

/-! ### The tape -/

/-- The tape of derivatives: `none` is an entry not yet written. -/
abbrev TTape (K : Type) := List (Option (V K))

/-- The position of a derivative in the tape: the arithmetic is that of unsigned 32-bit integers (`src/taylor_01.cpp` 287-288,
303-304). -/
def cell (nu u o : Nat) : Nat := (o * nu + u) % 2 ^ 32

/-- `taylor_c_load_diff()` (`src/taylor_01.cpp` 280-291). The index of `getelementptr` is a signed 32-bit integer: an
index from `2^31` on is negative. -/
def tget (tape : TTape K) (nu u o : Nat) : Res (V K) :=
  if cell nu u o < 2 ^ 31 then
    match tape[cell nu u o]? with
    | some (some x) => .ok x
    | _ => .ub
  else .ub

/-- `taylor_c_store_diff()` (`src/taylor_01.cpp` 295-307). -/
def tset (tape : TTape K) (nu u o : Nat) (x : V K) : Res (TTape K) :=
  if cell nu u o < 2 ^ 31 ∧ cell nu u o < tape.length then .ok (tape.set (cell nu u o) (some x)) else .ub

/-! ### The generation of the code -/

section
variable [Field K] [LinearOrder K] [FloorRing K] [FmtName K]

/-- The name of the recurrence of an element of the decomposition, given by `taylor_c_diff_func()`
(`src/expression_basic.cpp` 983-993) only for functions. -/
def tname (nu : Nat) : Expr K → Res (List Char)
  | .fn f args => tmangled nu (cfun f args) args
  | _ => .throw

/-- `udef_to_variants()` (`src/detail/cm_utils.cpp` 79-121): the arguments followed by the hidden dependencies. -/
def callArgs : TElem K → Res (List (CArg K))
  | (.fn _ args, deps) => (argsOf args).bind fun as => .ok (as ++ deps.map .idx)
  | _ => .throw

/-- The loop over the elements of a segment (`src/taylor_02.cpp` 853-886); `tbl` are the functions in the current module and
`u` is `start_u_idx`. -/
def tsegGroups (nu : Nat) : List (List Char × Expr K) → Nat → List (Sym.Group K) → List (TElem K) →
    Res (List (List Char × Expr K) × List (Sym.Group K))
  | tbl, _, gs, [] => .ok (tbl, gs)
  | tbl, u, gs, e :: es => (tname nu e.1).bind fun nm => (callArgs e).bind fun as =>
    (insertRow nm (getBody tbl nm e.1).1 (.idx u :: as) gs).bind fun gs' =>
      tsegGroups nu (getBody tbl nm e.1).2 (u + 1) gs' es

/-- The drivers: the finished ones, the current one with the functions of its module and the number of calls in it, and
the index of the driver of the segment with the last function of the state variables. A driver is a list of
segments, a segment a list of blocks of calls. -/
structure DState (K : Type) where
  done : List (List (List (Block K)))
  cur : List (List (Block K))
  tbl : List (List Char × Expr K)
  nEvalf : Nat
  svf : Option Nat

/-- `start_new_driver()` (`src/taylor_02.cpp` 1057-1077). -/
def DState.next (st : DState K) : DState K := ⟨st.done ++ [st.cur], [], [], 0, st.svf⟩

/-- Is the segment of `len` elements from `start` on that of the last function of the state variables
(`src/taylor_02.cpp` 1090)? -/
def isSvfSeg (neq maxSvf start len : Nat) : Bool := neq ≤ maxSvf && start ≤ maxSvf && maxSvf < start + len

/-- The choice of the driver of a segment (`src/taylor_02.cpp` 1092-1102). The driver of the last function of the state
variables is set at most once (assertion 1099). -/
def DState.enter (st : DState K) (isSvf : Bool) : Res (DState K) :=
  if isSvf then
    if st.svf.isSome then .ub else .ok { st.next with svf := some (st.done.length + 1) }
  else .ok (if st.nEvalf > 20 then st.next else st)

/-- The loop over the segments (`src/taylor_02.cpp` 1079-1134); `taylor_cm_codegen_segment_diff()` (830-972) creates the
blocks of a segment. -/
def tcompile (nu neq maxSvf : Nat) : DState K → Nat → List (List (TElem K)) → Res (DState K)
  | st, _, [] => .ok st
  | st, s, seg :: segs => do
    let st ← st.enter (isSvfSeg neq maxSvf s seg.length)
    let r ← tsegGroups nu st.tbl s [] seg
    let bs ← mkBlocks r.2
    let st : DState K :=
      { st with tbl := r.1, cur := st.cur ++ [bs], nEvalf := st.nEvalf + (bs.map Block.ncalls).sum }
    tcompile nu neq maxSvf (if isSvfSeg neq maxSvf s seg.length then st.next else st) (s + seg.length) segs

/-- The drivers (`main_driver_decls`, `src/taylor_02.cpp` 1026-1029, 1070). -/
def DState.drivers (st : DState K) : List (List (List (Block K))) := st.done ++ [st.cur]

end

/-! ### The execution of the generated code -/

/-- A call: a block and the index of the call. -/
abbrev Call (K : Type) := Block K × Nat

/-- The calls of a segment in the order of the sequential mode (`taylor_cm_codegen_segment_diff_sequential()`,
`src/taylor_02.cpp` 639-661, and `taylor_cm_codegen_block_diff()`, 560-614; the unrolled loop does the same). -/
def segCalls (bs : List (Block K)) : List (Call K) := bs.flatMap fun b => (List.range b.ncalls).map fun j => (b, j)

section
variable [Field K] [LinearOrder K] [FloorRing K] [Interp K] [CodeInterp K] [TConst K]

/-- The arguments of a call as seen by the function: the type of each one is that in the body (`src/taylor_01.cpp`
93-199), the rest are hidden dependencies. -/
def tArgsOf (par : Nat → K) : List (Expr K) → List (CArg K) → Res (List (TArg K) × List (CArg K))
  | [], rest => .ok ([], rest)
  | .var _ :: es, .idx i :: as => (tArgsOf par es as).bind fun r => .ok (.u i :: r.1, r.2)
  | .num _ :: es, .num n :: as => (tArgsOf par es as).bind fun r => .ok (.cst true (V.ofOption n.toK?) :: r.1, r.2)
  | .par _ :: es, .idx i :: as => (tArgsOf par es as).bind fun r => .ok (.cst false (V.fin (par i)) :: r.1, r.2)
  | _, _ => .ub

/-- The hidden dependencies. -/
def idxsOf : List (CArg K) → Res (List Nat)
  | [] => .ok []
  | .idx i :: as => (idxsOf as).bind fun is => .ok (i :: is)
  | .num _ :: _ => .ub

/-- A call of the function with the body `body` with the arguments `row` (`src/taylor_02.cpp` 585-601): the derivative of
order `n`. -/
def tcall (par : Nat → K) (time : K) (rd : Nat → Nat → Res (V K)) (n : Nat) (body : Expr K) :
    List (CArg K) → Res (V K)
  | .idx u :: as =>
    match body with
    | .fn f es => (tArgsOf par es as).bind fun r => (idxsOf r.2).bind fun deps =>
      taylorDiffC time rd n u deps (cfun f es) r.1
    | _ => .ub
  | _ => .ub

/-- The `u` variable computed by a call, from the first generator (`src/taylor_02.cpp` 583, 769). -/
def callTarget (c : Call K) : Res Nat :=
  (evalGens c.2 c.1.gens).bind fun row =>
    match row with
    | .idx u :: _ => .ok u
    | _ => .ub

/-- A call and the store of its result; `rd` are the loads from the tape. -/
def runTCall (par : Nat → K) (time : K) (nu n : Nat) (rd : Nat → Nat → Res (V K)) (tape : TTape K) (c : Call K) :
    Res (TTape K) :=
  (evalGens c.2 c.1.gens).bind fun row => (tcall par time rd n c.1.body row).bind fun x =>
    (callTarget c).bind fun u => tset tape nu u n x

/-- The sequential execution of calls. -/
def runSeq (par : Nat → K) (time : K) (nu n : Nat) : List (Call K) → TTape K → Res (TTape K)
  | [], tape => .ok tape
  | c :: cs, tape => (runTCall par time nu n (tget tape nu) tape c).bind fun tape' => runSeq par time nu n cs tape'

/-- The `u` variables computed by calls. -/
def targets : List (Call K) → Res (List Nat)
  | [] => .ok []
  | c :: cs => (callTarget c).bind fun u => (targets cs).bind fun us => .ok (u :: us)

/-- A load in parallel mode: a load from an entry `ws` of the tape which is written by the calls running in parallel would be
a data race. -/
def tgetPar (ws : List Nat) (tape : TTape K) (nu u o : Nat) : Res (V K) :=
  if cell nu u o ∈ ws then .ub else tget tape nu u o

/-- The execution of calls in the order in which they are given, when they run in parallel and write to `ws`. -/
def runParCalls (par : Nat → K) (time : K) (nu n : Nat) (ws : List Nat) : List (Call K) → TTape K → Res (TTape K)
  | [], tape => .ok tape
  | c :: cs, tape => (runTCall par time nu n (tgetPar ws tape nu) tape c).bind fun tape' =>
    runParCalls par time nu n ws cs tape'

/-- The execution of the calls of a segment in parallel mode (`heyoka_taylor_cm_par_segment()`, `src/taylor_01.cpp` 1220-1247,
and the workers, `src/taylor_02.cpp` 693-786). Two stores to the same entry, or a store and a load, would be a data
race, undefined behaviour. If there are none, the result of any interleaving of the calls is that of
the calls one after another in some order: `calls` are the calls of the segment in that order. -/
def runPar (par : Nat → K) (time : K) (nu n : Nat) (calls : List (Call K)) (tape : TTape K) : Res (TTape K) :=
  (targets calls).bind fun us =>
    if (us.map fun u => cell nu u n).Nodup then
      runParCalls par time nu n (us.map fun u => cell nu u n) calls tape
    else .ub

/-- The modes of execution: sequential or parallel, where at each order the calls of each segment are executed in an order
chosen by the scheduler. -/
inductive Mode (K : Type) where
  | sequential
  | parallel (sched : Nat → List (Call K) → List (Call K))

/-- The scheduler executes all the calls, once. -/
def Mode.Fair : Mode K → Prop
  | .sequential => True
  | .parallel sched => ∀ n l, (sched n l).Perm l

/-- The execution of a segment at order `n`. -/
def runTSeg (mode : Mode K) (par : Nat → K) (time : K) (nu n : Nat) (bs : List (Block K)) (tape : TTape K) :
    Res (TTape K) :=
  match mode with
  | .sequential => runSeq par time nu n (segCalls bs) tape
  | .parallel sched => runPar par time nu n (sched n (segCalls bs)) tape

/-- The segments of a driver. -/
def runTSegs (mode : Mode K) (par : Nat → K) (time : K) (nu n : Nat) : List (List (Block K)) → TTape K → Res (TTape K)
  | [], tape => .ok tape
  | s :: ss, tape => (runTSeg mode par time nu n s tape).bind fun tape' => runTSegs mode par time nu n ss tape'

/-- The calls of drivers at order `n` (`src/taylor_02.cpp` 1148-1152, 1160-1163, 1176-1184). -/
def runDrivers (mode : Mode K) (par : Nat → K) (time : K) (nu n : Nat) :
    List (List (List (Block K))) → TTape K → Res (TTape K)
  | [], tape => .ok tape
  | d :: ds, tape => (runTSegs mode par time nu n d tape).bind fun tape' => runDrivers mode par time nu n ds tape'

/-- `taylor_c_compute_sv_diffs()`, the derivatives which are `u` variables (`src/taylor_02.cpp` 416-446); `k` is the position in
the table. -/
def svVars (nu n : Nat) (allVars : Bool) : Nat → List (Nat × Nat) → TTape K → Res (TTape K)
  | _, [], tape => .ok tape
  | k, (i, u) :: l, tape => (tget tape nu u (n - 1)).bind fun x =>
    (tset tape nu (if allVars then k else i) n (x / V.nat n)).bind fun tape' => svVars nu n allVars (k + 1) l tape'

/-- The derivatives which are numbers (`src/taylor_02.cpp` 449-473) or parameters (475-499), with their values. -/
def svCsts (nu n : Nat) : List (Nat × V K) → TTape K → Res (TTape K)
  | [], tape => .ok tape
  | (i, x) :: l, tape => (tset tape nu i n (if n = 1 then x else 0)).bind fun tape' => svCsts nu n l tape'

/-- `taylor_c_compute_sv_diffs()` (`src/taylor_02.cpp` 392-499); `taylor_c_make_sv_diff_globals()` (300-386) makes the same
tables as `cfunc_c_make_output_globals()`. -/
def svDiffsC (par : Nat → K) (nu neq n : Nat) (t : OutTables K) (tape : TTape K) : Res (TTape K) :=
  (svVars nu n (decide (t.vars.length = neq)) 0 t.vars tape).bind fun tape1 =>
    (svCsts nu n (t.nums.map fun p => (p.1, V.ofOption p.2.toK?)) tape1).bind fun tape2 =>
      svCsts nu n (t.pars.map fun p => (p.1, V.fin (par p.2))) tape2

/-- The loop copying the state to the tape (`src/taylor_02.cpp` 1238-1251), from the variable `i` on. -/
def copyState (nu : Nat) : Nat → List K → TTape K → Res (TTape K)
  | _, [], tape => .ok tape
  | i, x :: xs, tape => (tset tape nu i 0 (V.fin x)).bind fun tape' => copyState nu (i + 1) xs tape'

/-- The loop over the orders (`src/taylor_02.cpp` 1155-1164): `cnt` iterations from the order `n` on. -/
def cOrders (mode : Mode K) (par : Nat → K) (time : K) (nu neq : Nat) (t : OutTables K)
    (ds : List (List (List (Block K)))) : Nat → Nat → TTape K → Res (TTape K)
  | 0, _, tape => .ok tape
  | cnt + 1, n, tape => (svDiffsC par nu neq n t tape).bind fun tape1 =>
    (runDrivers mode par time nu n ds tape1).bind fun tape2 => cOrders mode par time nu neq t ds cnt (n + 1) tape2

/-- The size of the tape (`src/taylor_02.cpp` 1227). -/
def tapeSize (neq nu order maxSvf : Nat) : Nat := if maxSvf < neq then nu * order + neq else nu * (order + 1)

/-- The last order of the functions of the state variables (`src/taylor_02.cpp` 1170-1186): the drivers up to that of
the last function; its absence would violate an assertion (1174). -/
def lastDrivers (mode : Mode K) (par : Nat → K) (time : K) (neq nu order maxSvf : Nat) (st : DState K)
    (tape : TTape K) : Res (TTape K) :=
  if neq ≤ maxSvf then
    match st.svf with
    | some i => runDrivers mode par time nu order (st.drivers.take (i + 1)) tape
    | none => .ub
  else .ok tape

/-- The execution of the generated code on a new tape (`src/taylor_02.cpp` 1238-1251, 1146-1186). -/
def crun (mode : Mode K) (par : Nat → K) (time : K) (neq nu order maxSvf : Nat) (t : OutTables K) (st : DState K)
    (state : List K) : Res (TTape K) :=
  (copyState nu 0 state (List.replicate (tapeSize neq nu order maxSvf) none)).bind fun tape =>
    (runDrivers mode par time nu 0 st.drivers tape).bind fun tape =>
      (cOrders mode par time nu neq t st.drivers (order - 1) 1 tape).bind fun tape =>
        (svDiffsC par nu neq order t tape).bind fun tape =>
          lastDrivers mode par time neq nu order maxSvf st tape

variable [FmtName K]

/-- The tape after `taylor_compute_jet()` in compact mode (`src/taylor_02.cpp` 1196-1262, 983-1190, 1319-1335): the overflow
check, the generation of the code and its execution. -/
def cjetTape (mode : Mode K) (par : Nat → K) (time : K) (neq : Nat) (dc : TDc K) (svf : List Nat) (order : Nat)
    (state : List K) : Res (TTape K) :=
  if 2 ^ 32 ≤ (dc.length - neq) * (order + 1) then .throw else
  (taylorSegmentDc neq (tMid neq dc)).bind fun segs =>
    (outTables 0 ((tOuts neq dc).map Prod.fst)).bind fun t =>
      (tcompile (dc.length - neq) neq (svf.foldr max 0) ⟨[], [], [], 0, none⟩ neq segs).bind fun st =>
        crun mode par time neq (dc.length - neq) order (svf.foldr max 0) t st state

/-- The jet in compact mode: the derivatives of the state variables and of the functions `svf` of the state variables are
loaded from the tape with `taylor_c_load_diff()`. As for `jet`, the positivity of `n_eq` and of the order are assertions
(`src/taylor_02.cpp` 1312-1317). -/
def cjet (mode : Mode K) (par : Nat → K) (time : K) (neq : Nat) (dc : TDc K) (svf : List Nat) (order : Nat)
    (state : List K) : Res (List (List (V K))) :=
  if neq = 0 ∨ order = 0 ∨ state.length ≠ neq ∨ dc.length < neq + neq then .ub else
  (cjetTape mode par time neq dc svf order state).bind fun tape =>
    extract (tget tape (dc.length - neq)) (List.range neq ++ svf) (List.range (order + 1))

end

end Heyoka.Taylor
