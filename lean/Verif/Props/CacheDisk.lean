import Verif.Cache.DiskLemmas
import Verif.Cache.Compile

/-!
# C32 and C34: the on-disk cache, and transparency of the caches

The histories range over operations of any number of processes, with possibly different
environments, sharing any number of cache directories, over database errors, allocation failures,
process crashes and power losses at any point (see `SysOp`). `H` is an arbitrary hash function.
-/

namespace Heyoka.Cache

/-! ## Specification -/

/-- The insertions in a history: environment of the inserting process, key, value. -/
def insertLog (H : HashFn) (s : Sys) : List SysOp → List (Bytes × Key × Val)
  | [] => []
  | op :: ops =>
    (op.inserts s).toList ++
      match sysStep H s op with
      | .ok (s', _) => insertLog H s' ops
      | _ => []

theorem sysRun_inv_log {H : HashFn} (P : Bytes → Key → Val → Prop) (ops : List SysOp) (s : Sys)
    (hi : s.Inv H P) (hwf : ∀ op ∈ ops, op.WF)
    (hlog : ∀ fp k v, (fp, k, v) ∈ insertLog H s ops → P fp k v) :
    ∃ s', sysRun H s ops = .ok s' ∧ s'.Inv H P := by
  induction ops generalizing s with
  | nil => exact ⟨s, rfl, hi⟩
  | cons op ops ih =>
    obtain ⟨s1, r, h1, hi1, _⟩ := sysStep_inv hi op (hwf op List.mem_cons_self) (by
      intro fp k v h; apply hlog; simp [insertLog, h])
    obtain ⟨s2, h2, hi2⟩ := ih s1 hi1 (fun o ho => hwf o (List.mem_cons_of_mem _ ho)) (by
      intro fp k v h; apply hlog; simp [insertLog, h1, h])
    exact ⟨s2, by simp [sysRun, h1, h2], hi2⟩

/-! ## C32 -/

/-- In every reachable state, for every directory: the recorded total size is the number of bytes of
the stored blobs, keys are unique, and no precondition is violated on the way. -/
theorem disk_cache_consistent (H : HashFn) (procs : Nat → Proc) (ops : List SysOp)
    (hwf : ∀ op ∈ ops, op.WF) :
    ∃ s, sysRun H (Sys.init procs) ops = .ok s ∧ ∀ d,
      (s.db d).total = ((s.db d).rows.map fun r =>
        (r.bitcode.length + r.optBc.length + r.optIr.length + r.obj.length : Int)).sum ∧
      ((s.db d).rows.map (·.hash)).Nodup ∧ 0 ≤ (s.db d).limit := by
  obtain ⟨s, h, hi⟩ := sysRun_inv_log (H := H) (fun _ _ _ => True) ops _ (inv_sysInit procs) hwf
    (by simp)
  refine ⟨s, h, fun d => ?_⟩
  have := hi.db d
  refine ⟨?_, this.hash_nodup, this.limit_nonneg⟩
  rw [this.total_eq, rowsSize]
  congr 1
  apply List.map_congr_left
  intro r hr
  obtain ⟨k, v, _, _, _, _, _, _, _, _, _, _, h, _⟩ := this.good r hr
  exact h

/-- The effect of an insertion without database errors on the database of the process: either the
sizes are not representable and nothing happens, or afterwards the total size is within the limit. In
the latter case the least recently used entries are evicted, and only as many as needed: an entry is
evicted only if, together with all the more recently used ones, it leaves no room for the new one. -/
theorem disk_insert_within_limit (H : HashFn) (procs : Nat → Proc) (ops : List SysOp)
    (hwf : ∀ op ∈ ops, op.WF) (s : Sys) (hrun : sysRun H (Sys.init procs) ops = .ok s)
    (p : Nat) (k : Key) (v : Val) (oom : Oom) (hen : (s.procs p).enabled = true)
    (hop : (SysOp.tryInsert p k v .no oom).WF) :
    ∃ s' r, sysStep H s (.tryInsert p k v .no oom) = .ok (s', r) ∧
      let db := s.db (s.procs p).dir
      let db' := s'.db (s.procs p).dir
      db'.limit = db.limit ∧
      ((¬ Representable db k v ∧ db' = db) ∨ (Representable db k v ∧ db'.total ≤ db'.limit)) ∧
      (∀ e ∈ db.rows, e ∉ db'.rows → ∀ r ∈ db.rows, r ∈ db'.rows →
        r.hash ≠ H k (s.procs p).fp → e.lastAccess < r.lastAccess) ∧
      (∀ e ∈ db.rows, e ∉ db'.rows →
        db.limit < ((db.rows.filter fun r => e.lastAccess ≤ r.lastAccess).map (·.size)).sum
          + entrySize k v) := by
  obtain ⟨s0, h0, hi⟩ := sysRun_inv_log (H := H) (fun _ _ _ => True) ops _ (inv_sysInit procs) hwf
    (by simp)
  rw [hrun] at h0; cases h0
  obtain ⟨s', r, h1, _, _⟩ := sysStep_inv hi (.tryInsert p k v .no oom) hop (by simp)
  obtain ⟨db', h2, h3, h4, h5⟩ := dbInsert_spec (hi.db (s.procs p).dir) (s.procs p).fp k v trivial hop
  have hs' : s'.db (s.procs p).dir = db' := by
    simp only [sysStep, sysTryInsert, hen, if_true, diskInsert, h2, Res.bind_ok] at h1
    split at h1
    · cases h1
    · cases hm : memTryInsert (s.procs p).mem k v oom with
      | ok x => rw [hm] at h1; simp only [Res.bind_ok, Res.ok.injEq, Prod.mk.injEq] at h1
                obtain ⟨rfl, -⟩ := h1
                simp [Sys.setProc, Sys.commit, Sys.db]
      | throw => rw [hm] at h1; cases h1
      | ub => rw [hm] at h1; cases h1
  refine ⟨s', r, h1, ?_⟩
  simp only [hs']
  refine ⟨h4, ?_, ?_, dbInsert_evicted (hi.db _) _ k v h2⟩
  · rcases h5 with h | ⟨h, h', _⟩
    · exact Or.inl h
    · exact Or.inr ⟨h, by rw [h4]; exact h'⟩
  · rcases h5 with ⟨_, h⟩ | ⟨_, _, kept, ev, hp, hlt, hrows⟩
    · rw [h]; intro e he hne; exact absurd he hne
    · have hmem : ∀ x ∈ db'.rows, x.hash ≠ H k (s.procs p).fp → x ∈ kept := by
        intro x hx hx0
        rcases hrows with hr | ⟨r', hr, hh, hgt⟩
        · rw [hr] at hx; exact hx
        · rw [hr] at hx
          rcases List.mem_append.mp hx with hx | hx
          · exact hx
          · simp only [List.mem_singleton] at hx
            rw [hx] at hx0; exact absurd hh hx0
      intro e he hne x hx hx' hxh
      have he' : e ∈ ev := by
        rcases List.mem_append.mp (hp.mem_iff.mp he) with h | h
        · exact h
        · exfalso; apply hne
          rcases hrows with hr | ⟨r', hr, _⟩ <;> simp [hr, h]
      exact hlt e he' x (hmem x hx' hxh)

/-- An inserted entry which fits in the limit and does not collide with a stored one is found by a
later lookup of any process with the same environment, unless there is a database error. -/
theorem disk_insert_then_lookup (H : HashFn) (procs : Nat → Proc) (ops : List SysOp)
    (hwf : ∀ op ∈ ops, op.WF) (s : Sys) (hrun : sysRun H (Sys.init procs) ops = .ok s)
    (p q : Nat) (k : Key) (v : Val) (hen : (s.procs p).enabled = true)
    (henq : (s.procs q).enabled = true) (hpq : q ≠ p) (hdir : (s.procs q).dir = (s.procs p).dir)
    (hfp : (s.procs q).fp = (s.procs p).fp) (hq : (s.procs q).mem.map k = none)
    (hop : (SysOp.tryInsert p k v .no .no).WF)
    (hrep : Representable (s.db (s.procs p).dir) k v)
    (hfit : entrySize k v ≤ (s.db (s.procs p).dir).limit)
    (hmem : (s.procs q).mem.size + cost k v ≤ sizeMax)
    (hnew : ∀ r ∈ (s.db (s.procs p).dir).rows, r.hash ≠ H k (s.procs p).fp) :
    ∃ s' r s'', sysStep H s (.tryInsert p k v .no .no) = .ok (s', r) ∧
      sysStep H s' (.lookup q k .no .no) = .ok (s'', .value v) := by
  obtain ⟨s0, h0, hi⟩ := sysRun_inv_log (H := H) (fun _ _ _ => True) ops _ (inv_sysInit procs) hwf
    (by simp)
  rw [hrun] at h0; cases h0
  obtain ⟨db', db'', h1, h2⟩ := dbInsert_lookup (hi.db (s.procs p).dir) (s.procs p).fp k v hop hrep hfit hnew
  obtain ⟨s', r, h3, _, _⟩ := sysStep_inv hi (.tryInsert p k v .no .no) hop (by simp)
  have hs' : s'.db (s.procs p).dir = db' ∧ s'.procs q = s.procs q := by
    simp only [sysStep, sysTryInsert, hen, if_true, diskInsert, h1, Res.bind_ok] at h3
    split at h3
    · cases h3
    · cases hm : memTryInsert (s.procs p).mem k v .no with
      | ok x => rw [hm] at h3; simp only [Res.bind_ok, Res.ok.injEq, Prod.mk.injEq] at h3
                obtain ⟨rfl, -⟩ := h3
                simp [Sys.setProc, Sys.commit, Sys.db, hpq]
      | throw => rw [hm] at h3; cases h3
      | ub => rw [hm] at h3; cases h3
  obtain ⟨hs1, hs2⟩ := hs'
  have hins : ∃ m, insertImpl (s.procs q).mem k v .no = .ok ⟨m, false⟩ := by
    rcases insertImpl_spec _ k v .no (hi.mem q) hq with ⟨hb, _⟩ | ⟨_, _, _, m', t, _, h, _, _, _, _, h7⟩
    · omega
    · rcases h7 with ⟨_, _, rfl, _⟩ | ⟨_, hc, _⟩ | ⟨_, rfl, _⟩
      · exact ⟨m', h⟩
      · exact absurd rfl hc
      · exact ⟨m', h⟩
  obtain ⟨m, hm⟩ := hins
  refine ⟨s', r, (s'.commit (s.procs q).dir db'').setProc q { s.procs q with mem := m }, h3, ?_⟩
  · simp only [sysStep, sysLookup, hs2, hq, henq, if_true, hdir, hs1, diskLookup, hfp, h2, Res.bind_ok, hm]
    rfl

/-- A lookup, by any process at any time, returns only a value that was inserted before, for exactly
the same key, by a process with the same environment. -/
theorem cache_lookup_sound (H : HashFn) (procs : Nat → Proc) (ops : List SysOp)
    (hwf : ∀ op ∈ ops, op.WF) (s : Sys) (hrun : sysRun H (Sys.init procs) ops = .ok s)
    (p : Nat) (k : Key) (f : Fault) (oom : Oom) (s' : Sys) (v : Val)
    (hl : sysStep H s (.lookup p k f oom) = .ok (s', .value v)) :
    ((s.procs p).fp, k, v) ∈ insertLog H (Sys.init procs) ops := by
  obtain ⟨s0, h0, hi⟩ := sysRun_inv_log (H := H)
    (fun fp k v => (fp, k, v) ∈ insertLog H (Sys.init procs) ops) ops _ (inv_sysInit procs) hwf
    (fun _ _ _ h => h)
  rw [hrun] at h0; cases h0
  obtain ⟨s1, r, h1, _, h2⟩ := sysStep_inv hi (.lookup p k f oom) trivial (by simp [SysOp.inserts])
  rw [hl] at h1; cases h1
  exact h2 p k f oom v rfl rfl

/-! ## C34 -/

/-- Different compilation settings have different flags. -/
theorem compFlag_injective (a b : Settings) (h : compFlag a = compFlag b) : a = b := by
  obtain ⟨oa, aa, sa, ca⟩ := a
  obtain ⟨ob, ab, sb, cb⟩ := b
  simp only [compFlag, Nat.shiftLeft_eq] at h
  have h' := congrArg UInt32.toNat h
  simp only [UInt32.toNat_ofNat'] at h'
  have := oa.isLt; have := ob.isLt; have := ca.isLt; have := cb.isLt
  cases aa <;> cases sa <;> cases ab <;> cases sb <;>
    simp only [Bool.toNat_false, Bool.toNat_true] at h' <;>
    first
    | (exfalso; omega)
    | (simp only [Settings.mk.injEq, Fin.ext_iff, true_and]; constructor <;> omega)

theorem bytesLe_trans (a b c : Bytes) : bytesLe a b → bytesLe b c → bytesLe a c := by
  simp only [bytesLe, decide_eq_true_eq]; exact le_trans

theorem bytesLe_total (a b : Bytes) : (bytesLe a b || bytesLe b a) = true := by
  simp only [bytesLe, Bool.or_eq_true, decide_eq_true_eq]; exact le_total _ _

theorem bytesLe_antisymm (a b : Bytes) (h1 : bytesLe a b) (h2 : bytesLe b a) : a = b := by
  simp only [bytesLe, decide_eq_true_eq] at h1 h2
  exact List.map_injective_iff.mpr (fun _ _ h => UInt8.toNat_inj.mp h) (le_antisymm h1 h2)

theorem sort_perm {a b : List Bytes} (h : a.Perm b) : a.mergeSort bytesLe = b.mergeSort bytesLe := by
  have hp : (a.mergeSort bytesLe).Perm (b.mergeSort bytesLe) :=
    (List.mergeSort_perm a _).trans (h.trans (List.mergeSort_perm b _).symm)
  refine List.Perm.eq_of_pairwise ?_ (List.pairwise_mergeSort bytesLe_trans bytesLe_total a)
    (List.pairwise_mergeSort bytesLe_trans bytesLe_total b) hp
  intro x y _ _ h1 h2; exact bytesLe_antisymm x y h1 h2

/-- The result of a compilation does not depend on the order in which the threads complete. -/
theorem arrival_schedule_independent (out : Bytes → ModOut) (mods o1 o2 o3 : List Bytes)
    (h1 : o1.Perm mods) (h2 : o2.Perm mods) (h3 : o3.Perm mods) :
    arrival out o1 o2 o3 = arrival out mods mods mods := by
  simp only [arrival, Val.mk.injEq]
  exact ⟨sort_perm (h1.map _), sort_perm (h2.map _), sort_perm (h3.map _)⟩

/-- An insertion made by `compile`: `out fp st` is the optimisation and compilation of a module in
environment `fp` with settings `st`. -/
def Compiled (out : Bytes → Settings → Bytes → ModOut) (fp : Bytes) (k : Key) (v : Val) : Prop :=
  ∃ mods st o1 o2 o3, k = compileKey mods st ∧ o1.Perm mods ∧ o2.Perm mods ∧ o3.Perm mods ∧
    v = arrival (out fp st) o1 o2 o3

/-- Transparency: in any history in which the caches are filled by compilations, whatever the reply of
the caches to the lookup made by a compilation, and whatever the schedule of its threads, the
compilation either propagates an exception or ends up with the result of compiling the modules from
scratch in the environment of the process. -/
theorem cache_transparent (H : HashFn) (out : Bytes → Settings → Bytes → ModOut)
    (procs : Nat → Proc) (ops : List SysOp) (hwf : ∀ op ∈ ops, op.WF) (s : Sys)
    (hrun : sysRun H (Sys.init procs) ops = .ok s)
    (hfill : ∀ fp k v, (fp, k, v) ∈ insertLog H (Sys.init procs) ops → Compiled out fp k v)
    (p : Nat) (mods : List Bytes) (st : Settings) (f : Fault) (oom : Oom)
    (o1 o2 o3 : List Bytes) (h1 : o1.Perm mods) (h2 : o2.Perm mods) (h3 : o3.Perm mods) :
    ∃ s' reply, sysStep H s (.lookup p (compileKey mods st) f oom) = .ok (s', reply) ∧
      (compileOutcome (out (s.procs p).fp st) reply o1 o2 o3 = .throw ∨
       compileOutcome (out (s.procs p).fp st) reply o1 o2 o3
        = .ok (arrival (out (s.procs p).fp st) mods mods mods)) := by
  obtain ⟨s0, h0, hi⟩ := sysRun_inv_log (H := H) (Compiled out) ops _ (inv_sysInit procs) hwf hfill
  rw [hrun] at h0; cases h0
  obtain ⟨s1, r, hs, _, hr⟩ := sysStep_inv hi (.lookup p (compileKey mods st) f oom) trivial
    (by simp [SysOp.inserts])
  refine ⟨s1, r, hs, ?_⟩
  cases r with
  | none => right; simp only [compileOutcome, arrival_schedule_independent _ mods o1 o2 o3 h1 h2 h3]
  | threw => left; rfl
  | value v =>
    right
    obtain ⟨mods', st', q1, q2, q3, hk, hq1, hq2, hq3, rfl⟩ := hr p _ f oom v rfl rfl
    simp only [compileKey, Key.mk.injEq] at hk
    obtain ⟨rfl, hst⟩ := hk
    have := compFlag_injective _ _ hst
    subst this
    simp only [compileOutcome, arrival_schedule_independent _ _ q1 q2 q3 hq1 hq2 hq3]

/-! ## Non-vacuity -/

/-- Two processes with the same environment and one with another environment. -/
def exProcs (p : Nat) : Proc := ⟨Mem.init 1000, if p < 2 then [1] else [2], true, 0⟩

/-- Process 0 inserts; process 1 finds the entry in the database; process 2, which has another
environment, does not, even though all the hashes collide. -/
example : ∃ s1 s2 s3 r, sysStep (fun _ _ => 0) (Sys.init exProcs)
      (.tryInsert 0 ⟨[[1]], 0⟩ ⟨[[2]], [[3]], [[4]]⟩ .no .no) = .ok (s1, r) ∧
    sysStep (fun _ _ => 0) s1 (.lookup 1 ⟨[[1]], 0⟩ .no .no)
      = .ok (s2, .value ⟨[[2]], [[3]], [[4]]⟩) ∧
    sysStep (fun _ _ => 0) s2 (.lookup 2 ⟨[[1]], 0⟩ .no .no) = .ok (s3, .none) := by
  refine ⟨_, _, _, _, by with_unfolding_all rfl, by with_unfolding_all rfl, by with_unfolding_all rfl⟩

end Heyoka.Cache
