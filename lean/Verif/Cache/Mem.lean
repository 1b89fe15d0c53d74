import Verif.Util.Res

/-!
# Model of the in-memory compilation cache

`src/llvm_state_cache.cpp`, lines 45-281 and 1219-1313. All public operations take the global
lock for their whole duration (lines 1223, 1253, 1281, 1289, 1297, 1305), hence the execution of
any number of threads is a sequence of whole operations, which is what the model is made of.
-/

namespace Heyoka.Cache

/-- A C++ `std::string` used as a byte buffer. -/
abbrev Bytes := List UInt8

/-- Cache key: the bitcodes of the modules and the compilation flag
(`llvm_state_cache.cpp`, the element type of `lru_queue`). -/
structure Key where
  bc : List Bytes
  flag : UInt32
deriving DecidableEq

/-- Cached value (`llvm_mc_value`: `opt_bc`, `opt_ir`, `obj`). -/
structure Val where
  optBc : List Bytes
  optIr : List Bytes
  obj : List Bytes
deriving DecidableEq

/-- Total number of bytes in a vector of strings (`llvm_state_memcache_bc_size`, and the summands
of `total_size`). -/
def bytesSum (l : List Bytes) : Nat := (l.map List.length).sum

/-- `llvm_mc_value::total_size`, lines 60-75. Simplification: the C++ loop adds the three sizes
index by index, under the (asserted) precondition that the three vectors have the same length. -/
def Val.totalSize (v : Val) : Nat := bytesSum v.optBc + bytesSum v.optIr + bytesSum v.obj

/-- The amount charged to the cache for an item, lines 225 and 239. -/
def cost (k : Key) (v : Val) : Nat := v.totalSize + bytesSum k.bc

/-- State of the in-memory cache: the LRU queue (front = most recently used), the hash map from
queue items to values, `memcache_size` and `memcache_limit`. -/
structure Mem where
  queue : List Key
  map : Key → Option Val
  size : Nat
  limit : Nat

/-- The largest `std::size_t`. -/
def sizeMax : Nat := 2 ^ 64 - 1

/-- The initial, empty cache with a given limit. -/
def Mem.init (limit : Nat) : Mem := ⟨[], fun _ => none, 0, limit⟩

/-- Removal of one key from the map. -/
def eraseKey (m : Key → Option Val) (k : Key) : Key → Option Val :=
  fun k' => if k' = k then none else m k'

/-- Addition of one key to the map. -/
def setKey (m : Key → Option Val) (k : Key) (v : Val) : Key → Option Val :=
  fun k' => if k' = k then some v else m k'

/-- The eviction loop, lines 228-250. `ns` is `new_cache_size`. A key in the queue which is not in
the map violates the assertion at line 234; an underflow in the updates at lines 248-249 would
corrupt the bookkeeping: both are reported as `ub`. -/
def evictLoop (m : Mem) (ns : Nat) : Res (Mem × Nat) :=
  if m.limit < ns then
    match _h : m.queue.getLast? with
    | none => .ok (m, ns)
    | some k =>
      match m.map k with
      | none => .ub
      | some v =>
        if ns < cost k v ∨ m.size < cost k v then .ub
        else
          evictLoop { m with queue := m.queue.dropLast, map := eraseKey m.map k,
                             size := m.size - cost k v } (ns - cost k v)
  else .ok (m, ns)
termination_by m.queue.length
decreasing_by
  have : m.queue ≠ [] := by intro h0; simp [h0] at _h
  have := List.length_pos_iff.mpr this
  simp only [List.length_dropLast]; omega

/-- Where (if anywhere) memory allocation fails during an insertion (lines 263 and 267). -/
inductive Oom where
  | no | queue | map
deriving DecidableEq

/-- Result of an insertion: the new state, and whether an exception was thrown. An exception does
not mean that the state is unchanged. -/
structure InsRes where
  mem : Mem
  threw : Bool

/-- `llvm_state_memcache_insert_impl`, lines 221-281. The safe-numerics sum at lines 224-225 throws
before any modification if the new size is not representable. If an allocation fails (`oom`), the
items evicted so far are gone and the queue is restored (line 276). -/
def insertImpl (m : Mem) (k : Key) (v : Val) (oom : Oom) : Res InsRes :=
  if sizeMax < m.size + cost k v then .ok ⟨m, true⟩
  else
    (evictLoop m (m.size + cost k v)).bind fun (m', ns) =>
      if m'.limit < ns then .ok ⟨m', false⟩
      else
        match oom with
        | .no => .ok ⟨{ m' with queue := k :: m'.queue, map := setKey m'.map k v, size := ns }, false⟩
        | _ => .ok ⟨m', true⟩

/-- Move a key to the front of the queue, lines 1241-1244. -/
def moveFront (q : List Key) (k : Key) : List Key := k :: q.erase k

/-- The in-memory part of `llvm_state_memcache_lookup`, lines 1228-1247 (hit path). -/
def memLookup (m : Mem) (k : Key) : Mem × Option Val :=
  match m.map k with
  | none => (m, none)
  | some v => ({ m with queue := moveFront m.queue k }, some v)

/-- The in-memory part of `llvm_state_memcache_try_insert`, lines 1262-1273. -/
def memTryInsert (m : Mem) (k : Key) (v : Val) (oom : Oom) : Res InsRes :=
  match m.map k with
  | some _ => .ok ⟨m, false⟩
  | none => insertImpl m k v oom

/-- `set_memcache_limit`, lines 1294-1300: no eviction takes place. -/
def memSetLimit (m : Mem) (l : Nat) : Mem := { m with limit := l }

/-- `clear_memcache`, lines 1302-1313. -/
def memClear (m : Mem) : Mem := { m with queue := [], map := fun _ => none, size := 0 }

/-- Operations on the in-memory cache alone (disk cache disabled, the default). -/
inductive MemOp where
  | lookup (k : Key)
  | insert (k : Key) (v : Val) (oom : Oom)
  | setLimit (l : Nat)
  | clear

/-- One operation: new state and (for lookups) the reply. -/
def memStep (m : Mem) : MemOp → Res (Mem × Option Val)
  | .lookup k => .ok (memLookup m k)
  | .insert k v oom => (memTryInsert m k v oom).bind fun r => .ok (r.mem, none)
  | .setLimit l => .ok (memSetLimit m l, none)
  | .clear => .ok (memClear m, none)

/-- Execution of a list of operations, discarding the replies. -/
def memRun (m : Mem) : List MemOp → Res Mem
  | [] => .ok m
  | op :: ops => (memStep m op).bind fun (m', _) => memRun m' ops

end Heyoka.Cache
