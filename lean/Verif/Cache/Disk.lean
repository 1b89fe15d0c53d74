import Verif.Cache.Serial

/-!
# Model of the on-disk compilation cache and of the two-tier cache

`src/llvm_state_cache.cpp`, lines 455-1047 (disk cache) and 1219-1337 (two-tier operations).

What is assumed of SQLite: every statement executed outside of an explicit transaction, and every
`BEGIN IMMEDIATE ... COMMIT` block, is atomic and isolated; an error inside a block rolls it back;
after a power loss the database is in one of the states it had after some earlier commit
(`PRAGMA synchronous = NORMAL` in WAL mode). The 64-bit overflow of `last_access` is not modelled.
-/

namespace Heyoka.Cache

/-- A row of the table `cache`, lines 474-499. `hash` is the primary key. -/
structure Row where
  hash : UInt64
  bitcode : Bytes
  flag : UInt32
  fp : Bytes
  optBc : Bytes
  optIr : Bytes
  obj : Bytes
  size : Int
  lastAccess : Nat
deriving DecidableEq

/-- Committed contents of the database: the rows and the `total_size` and `size_limit` entries of the
`config` table, lines 503-515. -/
structure Db where
  rows : List Row
  total : Int
  limit : Int

/-- A freshly created database (lines 505-515), with the default limit (line 86). -/
def Db.fresh : Db := ⟨[], 0, 21474836480⟩

/-- The hash of a key in an environment: `compute_hash`, lines 1073-1088. The theorems hold for every
such function, in particular in the presence of collisions. -/
abbrev HashFn := Key → Bytes → UInt64

/-- `COALESCE(MAX(last_access), 0)`, lines 529 and 539. -/
def maxAccess (rows : List Row) : Nat := rows.foldr (fun r m => max r.lastAccess m) 0

/-- A blob column read from the database: SQLite returns a null pointer for an empty blob, which
violates the assertions at lines 1123 and 1174. -/
def readBlob (b : Bytes) : Res (List Bytes) := if b.isEmpty then .ub else deserialize b

/-- The effect of the lookup statement on the rows (lines 529-531): `last_access` is bumped for the
row with the given hash. -/
def bumpRows (rows : List Row) (h : UInt64) : List Row :=
  rows.map fun r => if r.hash = h then { r with lastAccess := maxAccess rows + 1 } else r

/-- `diskcache_state::lookup`, lines 704-800, when no exception occurs. -/
def dbLookup (H : HashFn) (fp : Bytes) (k : Key) (db : Db) : Res (Db × Option Val) :=
  match db.rows.find? (fun r => r.hash = H k fp) with
  | none => .ok (db, none)
  | some r =>
    let db' := { db with rows := bumpRows db.rows (H k fp) }
    if r.bitcode.isEmpty then .ub
    else if r.flag ≠ k.flag ∨ r.fp ≠ fp then .ok (db', none)
    else
      (matchesBlob r.bitcode k.bc).bind fun same =>
        if same then
          (readBlob r.optBc).bind fun a =>
            (readBlob r.optIr).bind fun b =>
              (readBlob r.obj).bind fun c => .ok (db', some ⟨a, b, c⟩)
        else .ok (db', none)

/-- Where (if anywhere) an error (busy timeout, I/O error, ...) occurs in a database operation: before
or after the statement has been committed. -/
inductive Fault where
  | no | before | after
deriving DecidableEq

/-- `diskcache_state::lookup`, lines 704-821: every exception is turned into a miss. -/
def diskLookup (H : HashFn) (fp : Bytes) (k : Key) (f : Fault) (db : Db) : Res (Db × Option Val) :=
  match f with
  | .no => dbLookup H fp k db
  | .before => .ok (db, none)
  | .after => (dbLookup H fp k db).bind fun (db', _) => .ok (db', none)

/-- The row selected by `ORDER BY last_access ASC LIMIT 1`, lines 542-543. -/
def lru : List Row → Option Row
  | [] => none
  | r :: rs =>
    match lru rs with
    | none => some r
    | some r' => if r'.lastAccess < r.lastAccess then some r' else some r

theorem lru_mem {rows : List Row} {r : Row} (h : lru rows = some r) : r ∈ rows := by
  induction rows generalizing r with
  | nil => simp [lru] at h
  | cons a rs ih =>
    simp only [lru] at h
    split at h
    · cases h; simp
    · rename_i r' hr'
      split at h <;> cases h
      · exact List.mem_cons_of_mem _ (ih hr')
      · simp

/-- `DELETE FROM cache WHERE rowid = ...`, line 542 (the row id is the primary key). -/
def removeHash (rows : List Row) (h : UInt64) : List Row := rows.filter fun r => r.hash ≠ h

/-- The eviction loop, lines 886-917. A negative total size violates the assertion at line 904. -/
def dbEvict (rows : List Row) (total entry limit : Int) : Res (List Row × Int) :=
  if limit < total + entry then
    match _h : lru rows with
    | none => .ok (rows, total)
    | some r =>
      if total - r.size < 0 then .ub
      else dbEvict (removeHash rows r.hash) (total - r.size) entry limit
  else .ok (rows, total)
termination_by rows.length
decreasing_by
  exact (List.length_filter_lt_length_iff_exists (p := fun r' => decide (r'.hash ≠ r.hash))).mpr
    ⟨r, lru_mem _h, by simp⟩

/-- The largest `std::int64_t`. -/
def int64Max : Int := 2 ^ 63 - 1

/-- `diskcache_state::insert`, lines 824-977, when no database error occurs. An exception in the
serialisation (line 851-854) or an overflow in the sizes leads to a rollback: the database is
unchanged. -/
def dbInsert (H : HashFn) (fp : Bytes) (k : Key) (v : Val) (db : Db) : Res Db :=
  match serialize k.bc, serialize v.optBc, serialize v.optIr, serialize v.obj with
  | .ok a, .ok b, .ok c, .ok d =>
    let entry : Int := a.length + b.length + c.length + d.length
    if int64Max < db.total + entry then .ok db
    else
      (dbEvict db.rows db.total entry db.limit).bind fun (rows, total) =>
        if total + entry ≤ db.limit then
          if rows.any (fun r => r.hash = H k fp) then .ok { db with rows := rows, total := total }
          else
            .ok { db with
                  rows := rows ++ [⟨H k fp, a, k.flag, fp, b, c, d, entry, maxAccess rows + 1⟩]
                  total := total + entry }
        else .ok { db with rows := rows, total := total }
  | _, _, _, _ => .ok db

/-- `diskcache_state::insert`, lines 824-977: a database error leads to a rollback. -/
def diskInsert (H : HashFn) (fp : Bytes) (k : Key) (v : Val) (f : Fault) (db : Db) : Res Db :=
  match f with
  | .no => dbInsert H fp k v db
  | _ => .ok db

/-- A process: its in-memory cache, its environment fingerprint (lines 283-306; it differs between
versions of heyoka and LLVM), and the `enabled` and `dir` settings (lines 685-686). -/
structure Proc where
  mem : Mem
  fp : Bytes
  enabled : Bool
  dir : Nat

/-- A machine: the processes, and for each directory the committed states of the database in it, most
recent first (empty: not created yet). -/
structure Sys where
  procs : Nat → Proc
  dbs : Nat → List Db

/-- The current state of the database in a directory. It is created on first use. -/
def Sys.db (s : Sys) (d : Nat) : Db := ((s.dbs d).head?).getD Db.fresh

/-- Commit of a new state of a database. -/
def Sys.commit (s : Sys) (d : Nat) (db : Db) : Sys :=
  { s with dbs := fun d' => if d' = d then db :: s.dbs d else s.dbs d' }

/-- Update of one process. -/
def Sys.setProc (s : Sys) (p : Nat) (x : Proc) : Sys :=
  { s with procs := fun p' => if p' = p then x else s.procs p' }

/-- Operations of the processes, and events outside of their control. Each operation takes the global
lock of its process, and performs at most one database transaction, hence an execution of any number
of threads in any number of processes is equivalent to a sequence of whole operations. -/
inductive SysOp where
  | lookup (p : Nat) (k : Key) (f : Fault) (oom : Oom)
  | tryInsert (p : Nat) (k : Key) (v : Val) (f : Fault) (oom : Oom)
  | setMemLimit (p : Nat) (l : Nat)
  | clearMem (p : Nat)
  | setDiskLimit (p : Nat) (l : Int)
  | clearDisk (p : Nat)
  | setPath (p : Nat) (d : Nat)
  | setEnabled (p : Nat) (b : Bool)
  /-- the process ends or crashes at any point, and another one is started in its place -/
  | restart (p : Nat) (fp : Bytes) (enabled : Bool) (d : Nat) (l : Nat)
  /-- power loss: the last `n` commits to a database are lost -/
  | powerLoss (d : Nat) (n : Nat)

/-- What the caller of an operation observes: a value or nothing, or an exception. -/
inductive Reply where
  | none
  | value (v : Val)
  | threw
deriving DecidableEq

/-- `llvm_state_memcache_lookup`, lines 1219-1248. If the insertion of a disk hit in the in-memory
cache throws, the exception is propagated. -/
def sysLookup (H : HashFn) (s : Sys) (p : Nat) (k : Key) (f : Fault) (oom : Oom) :
    Res (Sys × Reply) :=
  let x := s.procs p
  match x.mem.map k with
  | some v => .ok (s.setProc p { x with mem := (memLookup x.mem k).1 }, .value v)
  | none =>
    if x.enabled then
      (diskLookup H x.fp k f (s.db x.dir)).bind fun (db', o) =>
        match o with
        | none => .ok (s.commit x.dir db', .none)
        | some v =>
          (insertImpl x.mem k v oom).bind fun r =>
            .ok ((s.commit x.dir db').setProc p { x with mem := r.mem },
                 if r.threw then .threw else .value v)
    else .ok (s, .none)

/-- `llvm_state_memcache_try_insert`, lines 1250-1274. The vectors are not empty (asserted at line
62; an empty vector could not be stored in the database either). -/
def sysTryInsert (H : HashFn) (s : Sys) (p : Nat) (k : Key) (v : Val) (f : Fault) (oom : Oom) :
    Res (Sys × Reply) :=
  let x := s.procs p
  if k.bc = [] ∨ v.optBc = [] ∨ v.optIr = [] ∨ v.obj = [] then .ub
  else
    (if x.enabled then
        (diskInsert H x.fp k v f (s.db x.dir)).bind fun db' => .ok (s.commit x.dir db')
      else .ok s).bind fun s' =>
      (memTryInsert x.mem k v oom).bind fun r =>
        .ok (s'.setProc p { x with mem := r.mem }, if r.threw then .threw else .none)

/-- One operation or event. -/
def sysStep (H : HashFn) (s : Sys) : SysOp → Res (Sys × Reply)
  | .lookup p k f oom => sysLookup H s p k f oom
  | .tryInsert p k v f oom => sysTryInsert H s p k v f oom
  -- Lines 1294-1300.
  | .setMemLimit p l => .ok (s.setProc p { s.procs p with mem := memSetLimit (s.procs p).mem l }, .none)
  -- Lines 1302-1313.
  | .clearMem p => .ok (s.setProc p { s.procs p with mem := memClear (s.procs p).mem }, .none)
  -- Lines 996-1009.
  | .setDiskLimit p l =>
    if l < 0 then .ok (s, .threw)
    else .ok (s.commit (s.procs p).dir { s.db (s.procs p).dir with limit := l }, .none)
  -- Lines 1028-1047.
  | .clearDisk p =>
    .ok (s.commit (s.procs p).dir { s.db (s.procs p).dir with rows := [], total := 0 }, .none)
  -- Lines 1323-1337.
  | .setPath p d => .ok (s.setProc p { s.procs p with dir := d }, .none)
  -- Lines 1347-1353.
  | .setEnabled p b => .ok (s.setProc p { s.procs p with enabled := b }, .none)
  | .restart p fp en d l => .ok (s.setProc p ⟨Mem.init l, fp, en, d⟩, .none)
  | .powerLoss d n =>
    .ok ({ s with dbs := fun d' => if d' = d then (s.dbs d).drop n else s.dbs d' }, .none)

/-- Execution of a list of operations. -/
def sysRun (H : HashFn) (s : Sys) : List SysOp → Res Sys
  | [] => .ok s
  | op :: ops => (sysStep H s op).bind fun (s', _) => sysRun H s' ops

/-- The initial state: no database, no process has used its cache. -/
def Sys.init (procs : Nat → Proc) : Sys :=
  ⟨fun p => { procs p with mem := Mem.init (procs p).mem.limit }, fun _ => []⟩

end Heyoka.Cache
