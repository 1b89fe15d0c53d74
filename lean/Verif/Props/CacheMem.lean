import Verif.Cache.MemLemmas

/-!
# C31: the in-memory compilation cache

`memRun (Mem.init limit) ops = .ok m` says that the sequence of operations `ops`, performed from
the empty cache, ends in state `m` without any violated precondition.
-/

namespace Heyoka.Cache

/-! ## Specification -/

/-- Bytes of all the items which a lookup would find among the keys of a list. -/
def storedBytes (m : Mem) (keys : List Key) : Nat :=
  (keys.map fun k => match (memLookup m k).2 with
    | some v => v.totalSize + bytesSum k.bc
    | none => 0).sum

/-- The keys used by one operation: a lookup that hits, or an insertion that makes an absent key
present. -/
def used (m : Mem) (op : MemOp) (m' : Mem) : List Key :=
  match op with
  | .lookup k => if (memLookup m k).2.isSome then [k] else []
  | .insert k _ _ => if (memLookup m k).2 = none ∧ (memLookup m' k).2.isSome then [k] else []
  | _ => []

/-- The uses in a history, most recent first, on top of earlier uses `us`. -/
def usesFrom (m : Mem) (us : List Key) : List MemOp → List Key
  | [] => us
  | op :: ops =>
    match memStep m op with
    | .ok (m', _) => usesFrom m' (used m op m' ++ us) ops
    | _ => us

/-! ## Theorems -/

theorem memLookup_snd (m : Mem) (k : Key) : (memLookup m k).2 = m.map k := by
  unfold memLookup; split <;> simp_all

theorem storedBytes_eq (m : Mem) (q : List Key) : storedBytes m q = bytesOf m.map q := by
  simp only [storedBytes, bytesOf, memLookup_snd]
  congr 1

/-- No sequence of operations violates an internal assertion or throws out of a lookup, a change of
limit or a clear; and the cache is always exactly accounted: there is a duplicate-free list of the
keys which a lookup finds, and the reported size is the number of bytes stored for them. -/
theorem mem_cache_consistent (limit : Nat) (ops : List MemOp) :
    ∃ m, memRun (Mem.init limit) ops = .ok m ∧ m.queue.Nodup ∧
      (∀ k, (memLookup m k).2.isSome ↔ k ∈ m.queue) ∧ m.size = storedBytes m m.queue := by
  obtain ⟨m, h, hi⟩ := memRun_inv _ ops (inv_init limit)
  refine ⟨m, h, hi.nodup, ?_, ?_⟩
  · intro k; rw [memLookup_snd]; exact hi.dom k
  · rw [storedBytes_eq]; exact hi.size_eq

/-- Inserting an absent item: unless the size of the cache would not be representable (an exception,
and no change), the reported size is within the limit afterwards, whether or not memory allocation
fails. -/
theorem mem_insert_within_limit (limit : Nat) (ops : List MemOp) (m : Mem) (k : Key) (v : Val)
    (oom : Oom) (hrun : memRun (Mem.init limit) ops = .ok m) (habs : (memLookup m k).2 = none) :
    ∃ r, memTryInsert m k v oom = .ok r ∧
      ((m.size + cost k v ≤ sizeMax ∧ r.mem.size ≤ m.limit) ∨
       (sizeMax < m.size + cost k v ∧ r = ⟨m, true⟩)) := by
  obtain ⟨m0, h0, hi⟩ := memRun_inv _ ops (inv_init limit)
  rw [hrun] at h0; cases h0
  rw [memLookup_snd] at habs
  simp only [memTryInsert, habs]
  rcases insertImpl_spec m k v oom hi habs with ⟨hb, h⟩ | ⟨hb, pre, suf, m', t, _, h, _, _, _, _, h7⟩
  · exact ⟨_, h, Or.inr ⟨hb, rfl⟩⟩
  · refine ⟨_, h, Or.inl ⟨hb, ?_⟩⟩
    rcases h7 with ⟨_, _, _, _, _, h⟩ | ⟨_, _, _, _, h⟩ | ⟨_, _, _, _, h⟩ <;> simp only <;> omega

/-- If the limit is never changed, the reported size is within it at all times. -/
theorem mem_size_le_limit (limit : Nat) (ops : List MemOp) (m : Mem)
    (hlim : ∀ l, MemOp.setLimit l ∉ ops) (hrun : memRun (Mem.init limit) ops = .ok m) :
    m.limit = limit ∧ m.size ≤ limit := by
  suffices H : ∀ (ops : List MemOp) (m0 m : Mem), m0.Inv → m0.limit = limit → m0.size ≤ limit →
      (∀ l, MemOp.setLimit l ∉ ops) → memRun m0 ops = .ok m → m.limit = limit ∧ m.size ≤ limit from
    H ops _ m (inv_init limit) rfl (Nat.zero_le _) hlim hrun
  clear hlim hrun m ops
  intro ops
  induction ops with
  | nil => intro m0 m _ h1 h2 _ h; cases h; exact ⟨h1, h2⟩
  | cons op ops ih =>
    intro m0 m hi h1 h2 hl h
    obtain ⟨m1, r, hs, hi1⟩ := memStep_inv m0 op hi
    simp only [memRun, hs, Res.bind_ok] at h
    refine ih m1 m hi1 ?_ ?_ (fun l hm => hl l (List.mem_cons_of_mem _ hm)) h
    all_goals
      cases op with
      | lookup k =>
        simp only [memStep, memLookup, Res.ok.injEq] at hs
        split at hs <;> (simp only [Prod.mk.injEq] at hs; obtain ⟨rfl, -⟩ := hs; simpa)
      | setLimit l => exact absurd (List.mem_cons_self) (hl l)
      | clear =>
        simp only [memStep, memClear, Res.ok.injEq, Prod.mk.injEq] at hs
        obtain ⟨rfl, -⟩ := hs; simp [h1]
      | insert k v oom =>
        simp only [memStep, memTryInsert] at hs
        cases hk : m0.map k with
        | some v' =>
          rw [hk] at hs; simp only [Res.bind_ok, Res.ok.injEq, Prod.mk.injEq] at hs
          obtain ⟨rfl, -⟩ := hs; assumption
        | none =>
          rw [hk] at hs
          rcases insertImpl_spec m0 k v oom hi hk with
            ⟨_, h'⟩ | ⟨_, pre, suf, m', t, _, h', _, h5, _, _, h7⟩
          · simp only [h', Res.bind_ok, Res.ok.injEq, Prod.mk.injEq] at hs
            obtain ⟨rfl, -⟩ := hs; assumption
          · simp only [h', Res.bind_ok, Res.ok.injEq, Prod.mk.injEq] at hs
            obtain ⟨rfl, -⟩ := hs
            first
            | (rw [h5]; assumption)
            | (rcases h7 with ⟨_, _, _, _, _, h⟩ | ⟨_, _, _, _, h⟩ | ⟨_, _, _, _, h⟩ <;> omega)

/-- A lookup returns a value that was inserted for exactly that key, with no clear in between. -/
theorem mem_lookup_sound (limit : Nat) (ops : List MemOp) (m : Mem) (k : Key) (v : Val)
    (hrun : memRun (Mem.init limit) ops = .ok m) (hit : (memLookup m k).2 = some v) :
    ∃ before oom after, ops = before ++ MemOp.insert k v oom :: after ∧ MemOp.clear ∉ after := by
  rw [memLookup_snd] at hit
  induction ops using List.reverseRecOn generalizing m with
  | nil => cases hrun; simp [Mem.init] at hit
  | append_singleton ops op ih =>
    obtain ⟨m0, h0, hi⟩ := memRun_inv _ ops (inv_init limit)
    rw [memRun_append, h0] at hrun
    simp only [Res.bind_ok, memRun] at hrun
    obtain ⟨m1, r, hs, _⟩ := memStep_inv m0 op hi
    rw [hs] at hrun; simp only [Res.bind_ok, Res.ok.injEq] at hrun
    subst hrun
    rcases memStep_map hi hs k v hit with ⟨h, hc⟩ | ⟨oom, rfl⟩
    · obtain ⟨b, oom, a, rfl, ha⟩ := ih m0 h0 h
      refine ⟨b, oom, a ++ [op], by simp, ?_⟩
      simp only [List.mem_append, List.mem_singleton, not_or]
      exact ⟨ha, fun h => hc h.symm⟩
    · exact ⟨ops, oom, [], by simp, by simp⟩

/-- The order in which items are kept is the order of their last use, most recent first. -/
theorem mem_queue_recency (limit : Nat) (ops : List MemOp) (m : Mem)
    (hrun : memRun (Mem.init limit) ops = .ok m) :
    (∀ k ∈ m.queue, k ∈ usesFrom (Mem.init limit) [] ops) ∧
      m.queue.Pairwise fun a b => (usesFrom (Mem.init limit) [] ops).idxOf a
        < (usesFrom (Mem.init limit) [] ops).idxOf b := by
  have step : ∀ (q q' us : List Key) (k : Key), q'.Sublist (k :: q.erase k) → q.Nodup →
      (∀ k ∈ q, k ∈ us) → (q.Pairwise fun a b => us.idxOf a < us.idxOf b) →
      (∀ k' ∈ q', k' ∈ k :: us) ∧
        q'.Pairwise fun a b => (k :: us).idxOf a < (k :: us).idxOf b := by
    intro q q' us k hsub hnd hin hp
    refine ⟨?_, ?_⟩
    · intro k' hk'
      rcases List.mem_cons.mp (hsub.subset hk') with rfl | h
      · simp
      · exact List.mem_cons_of_mem _ (hin _ (List.mem_of_mem_erase h))
    · refine List.Pairwise.sublist hsub ?_
      refine List.pairwise_cons.mpr ⟨?_, ?_⟩
      · intro b hb
        have hbk : b ≠ k := by rintro rfl; exact (hnd.not_mem_erase) hb
        rw [List.idxOf_cons_self, List.idxOf_cons_ne _ (Ne.symm hbk)]; omega
      · have hp' : (q.erase k).Pairwise fun a b => us.idxOf a < us.idxOf b :=
          hp.sublist List.erase_sublist
        refine hp'.imp_of_mem ?_
        intro a b ha hb hab
        have hak : a ≠ k := by rintro rfl; exact (hnd.not_mem_erase) ha
        have hbk : b ≠ k := by rintro rfl; exact (hnd.not_mem_erase) hb
        rw [List.idxOf_cons_ne _ (Ne.symm hak), List.idxOf_cons_ne _ (Ne.symm hbk)]; omega
  suffices H : ∀ (ops : List MemOp) (m0 m : Mem) (us : List Key), m0.Inv →
      (∀ k ∈ m0.queue, k ∈ us) → (m0.queue.Pairwise fun a b => us.idxOf a < us.idxOf b) →
      memRun m0 ops = .ok m →
      (∀ k ∈ m.queue, k ∈ usesFrom m0 us ops) ∧
      m.queue.Pairwise fun a b => (usesFrom m0 us ops).idxOf a < (usesFrom m0 us ops).idxOf b from
    H ops _ m [] (inv_init limit) (by simp [Mem.init]) (by simp [Mem.init]) hrun
  clear hrun m ops
  intro ops
  induction ops with
  | nil => intro m0 m us _ h1 h2 h; cases h; exact ⟨h1, h2⟩
  | cons op ops ih =>
    intro m0 m us hi h1 h2 h
    obtain ⟨m1, r, hs, hi1⟩ := memStep_inv m0 op hi
    simp only [memRun, hs, Res.bind_ok] at h
    simp only [usesFrom, hs]
    suffices hgoal : (∀ k ∈ m1.queue, k ∈ used m0 op m1 ++ us) ∧
        m1.queue.Pairwise fun a b => (used m0 op m1 ++ us).idxOf a < (used m0 op m1 ++ us).idxOf b from
      ih m1 m _ hi1 hgoal.1 hgoal.2 h
    have hsame : m1.queue.Sublist m0.queue → used m0 op m1 = [] →
        (∀ k ∈ m1.queue, k ∈ used m0 op m1 ++ us) ∧
        m1.queue.Pairwise fun a b => (used m0 op m1 ++ us).idxOf a < (used m0 op m1 ++ us).idxOf b := by
      intro hq hu
      rw [hu]; exact ⟨fun k hk => h1 k (hq.subset hk), h2.sublist hq⟩
    cases op with
    | lookup k =>
      simp only [memStep, memLookup, Res.ok.injEq] at hs
      cases hk : m0.map k with
      | none =>
        rw [hk] at hs; simp only [Prod.mk.injEq] at hs; obtain ⟨rfl, -⟩ := hs
        exact hsame (List.Sublist.refl _) (by simp [used, memLookup_snd, hk])
      | some v =>
        rw [hk] at hs; simp only [Prod.mk.injEq] at hs; obtain ⟨rfl, -⟩ := hs
        have : used m0 (.lookup k) { m0 with queue := moveFront m0.queue k } = [k] := by
          simp [used, memLookup_snd, hk]
        rw [this]
        exact step m0.queue _ us k (List.Sublist.refl _) hi.nodup h1 h2
    | setLimit l =>
      simp only [memStep, memSetLimit, Res.ok.injEq, Prod.mk.injEq] at hs; obtain ⟨rfl, -⟩ := hs
      exact hsame (List.Sublist.refl _) rfl
    | clear =>
      simp only [memStep, memClear, Res.ok.injEq, Prod.mk.injEq] at hs; obtain ⟨rfl, -⟩ := hs
      exact hsame (List.nil_sublist _) rfl
    | insert k v oom =>
      simp only [memStep, memTryInsert] at hs
      cases hk : m0.map k with
      | some v' =>
        rw [hk] at hs; simp only [Res.bind_ok, Res.ok.injEq, Prod.mk.injEq] at hs
        obtain ⟨rfl, -⟩ := hs
        exact hsame (List.Sublist.refl _) (by simp [used, memLookup_snd, hk])
      | none =>
        rw [hk] at hs
        have hkq : k ∉ m0.queue := by
          intro hm; have := (hi.dom k).mpr hm; simp [hk] at this
        rcases insertImpl_spec m0 k v oom hi hk with
          ⟨_, h'⟩ | ⟨_, pre, suf, m', t, hq, h', _, _, _, _, h7⟩
        · simp only [h', Res.bind_ok, Res.ok.injEq, Prod.mk.injEq] at hs
          obtain ⟨rfl, -⟩ := hs
          exact hsame (List.Sublist.refl _) (by simp [used, memLookup_snd, hk])
        · simp only [h', Res.bind_ok, Res.ok.injEq, Prod.mk.injEq] at hs
          obtain ⟨rfl, -⟩ := hs
          have hpre : pre.Sublist m0.queue := by rw [hq]; exact List.sublist_append_left _ _
          have habs : ∀ q, m'.queue = q → k ∉ q → used m0 (.insert k v oom) m' = [] := by
            intro q hqq hkq
            have : ¬ (m'.map k).isSome := by rw [hi1.dom, hqq]; exact hkq
            simp only [used, memLookup_snd, hk]; simp [this]
          rcases h7 with ⟨_, _, _, h7, h8, _⟩ | ⟨_, _, _, h7, _⟩ | ⟨_, _, h7, _, _⟩
          · have : used m0 (.insert k v oom) m' = [k] := by simp [used, memLookup_snd, hk, h8]
            rw [this]
            refine step m0.queue _ us k ?_ hi.nodup h1 h2
            rw [h7, List.erase_of_not_mem hkq]
            exact hpre.cons_cons k
          · exact hsame (h7 ▸ hpre) (habs pre h7 (fun hm => hkq (hpre.subset hm)))
          · exact hsame (h7 ▸ List.nil_sublist _) (habs [] h7 (by simp))

/-- What an insertion of an absent item keeps: if the item fits in the limit on its own, it becomes
the most recent one and exactly the longest run of most recently used items that fits next to it is
kept, unchanged. If it does not fit on its own the cache is emptied. -/
theorem mem_insert_evicts_least_recent (limit : Nat) (ops : List MemOp) (m : Mem) (k : Key) (v : Val)
    (hrun : memRun (Mem.init limit) ops = .ok m) (habs : (memLookup m k).2 = none)
    (hrep : m.size + cost k v ≤ sizeMax) :
    ∃ m', memTryInsert m k v .no = .ok ⟨m', false⟩ ∧ m'.limit = m.limit ∧
      (m.limit < cost k v → m'.queue = []) ∧
      (cost k v ≤ m.limit → ∃ kept evicted, m.queue = kept ++ evicted ∧ m'.queue = k :: kept ∧
        (memLookup m' k).2 = some v ∧
        (∀ k' ∈ kept, (memLookup m' k').2 = (memLookup m k').2) ∧
        (∀ k' ∈ evicted, (memLookup m' k').2 = none) ∧
        storedBytes m kept + cost k v ≤ m.limit ∧
        ∀ kept', kept' <+: m.queue → storedBytes m kept' + cost k v ≤ m.limit →
          kept'.length ≤ kept.length) := by
  obtain ⟨m0, h0, hi⟩ := memRun_inv _ ops (inv_init limit)
  rw [hrun] at h0; cases h0
  rw [memLookup_snd] at habs
  simp only [memTryInsert, habs, memLookup_snd, storedBytes_eq]
  rcases insertImpl_spec m k v .no hi habs with ⟨hb, _⟩ | ⟨_, pre, suf, m', t, hq, h', hi', h5, hmax, h6, h7⟩
  · omega
  rcases h7 with ⟨hc, _, rfl, h7, h8, h9⟩ | ⟨_, h7, _⟩ | ⟨hc, rfl, h7, hpre, _⟩
  · refine ⟨m', h', h5, fun h => by omega, fun _ => ⟨pre, suf, hq, h7, h8, h6, ?_, ?_, ?_⟩⟩
    · intro k' hk'
      have : ¬ (m'.map k').isSome := by
        rw [hi'.dom, h7]
        have hnd := hi.nodup
        rw [hq] at hnd
        have hnd := List.nodup_append.mp hnd
        intro hm
        rcases List.mem_cons.mp hm with rfl | hm
        · have := (hi.dom k').mpr (by rw [hq]; simp [hk'])
          simp [habs] at this
        · exact hnd.2.2 k' hm k' hk' rfl
      simpa using this
    · have hk' : k ∉ pre := by
        have := hi'.nodup; rw [h7] at this; exact (List.nodup_cons.mp this).1
      have hs := hi'.size_eq
      rw [h7, bytesOf_cons] at hs
      have hb : bytesOf m'.map pre = bytesOf m.map pre := bytesOf_congr h6
      have hck : costOf m'.map k = cost k v := by simp [costOf, h8]
      omega
    · intro kept' hk1 hk2
      by_contra hlt
      have := hmax kept' hk1 (by omega)
      omega
  · exact absurd rfl h7
  · exact ⟨m', h', h5, fun _ => h7, fun h => by omega⟩

/-! ## Non-vacuity -/

/-- An item of ten bytes: a key of one byte and a value of nine bytes. -/
def exKey (n : UInt8) : Key := ⟨[[n]], 0⟩
/-- See `exKey`. -/
def exVal (n : UInt8) : Val := ⟨[[n, 1, 2]], [[n, 3, 4]], [[n, 5, 6]]⟩

/-- Three inserts with room for two items, with a lookup in between, evict the least recently used
item. -/
example : ∃ m, memRun (Mem.init 25) [.insert (exKey 1) (exVal 1) .no, .insert (exKey 2) (exVal 2) .no,
      .lookup (exKey 1), .insert (exKey 3) (exVal 3) .no] = .ok m ∧
    m.queue = [exKey 3, exKey 1] ∧ m.size = 20 ∧ (memLookup m (exKey 1)).2 = some (exVal 1) ∧
    (memLookup m (exKey 2)).2 = none := by
  refine ⟨_, by with_unfolding_all rfl, ?_⟩
  decide

end Heyoka.Cache
