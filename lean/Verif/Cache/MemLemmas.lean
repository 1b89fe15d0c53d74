import Verif.Cache.Mem
import Mathlib.Data.List.Basic
import Mathlib.Data.List.Dedup
import Mathlib.Data.List.Infix
import Mathlib.Algebra.BigOperators.Group.List.Basic
import Mathlib.Tactic.Ring

/-! # Helper lemmas for the in-memory cache -/

namespace Heyoka.Cache

/-- Bytes charged to a live key. -/
def costOf (map : Key → Option Val) (k : Key) : Nat :=
  match map k with
  | some v => cost k v
  | none => 0

/-- Total number of bytes held for the keys of a list. -/
def bytesOf (map : Key → Option Val) (q : List Key) : Nat := (q.map (costOf map)).sum

/-- Consistency of the data structures. -/
structure Mem.Inv (m : Mem) : Prop where
  nodup : m.queue.Nodup
  dom : ∀ k, (m.map k).isSome ↔ k ∈ m.queue
  size_eq : m.size = bytesOf m.map m.queue

theorem bytesOf_nil (map) : bytesOf map [] = 0 := rfl

theorem bytesOf_cons (map k q) : bytesOf map (k :: q) = costOf map k + bytesOf map q := by
  simp [bytesOf]

theorem bytesOf_append (map p q) : bytesOf map (p ++ q) = bytesOf map p + bytesOf map q := by
  simp [bytesOf]

theorem bytesOf_congr {map map' : Key → Option Val} {q : List Key}
    (h : ∀ k ∈ q, map k = map' k) : bytesOf map q = bytesOf map' q := by
  unfold bytesOf
  congr 1
  apply List.map_congr_left
  intro k hk
  simp [costOf, h k hk]

theorem bytesOf_perm {map : Key → Option Val} {q q' : List Key} (h : q.Perm q') :
    bytesOf map q = bytesOf map q' := (h.map _).sum_eq

theorem inv_init (l : Nat) : (Mem.init l).Inv :=
  ⟨List.nodup_nil, by simp [Mem.init], rfl⟩

/-- What the eviction loop does on a consistent state. -/
theorem evictLoop_spec (m : Mem) (ns : Nat) (hi : m.Inv) (extra : Nat)
    (hns : ns = m.size + extra) :
    ∃ (pre suf : List Key) (m' : Mem), m.queue = pre ++ suf ∧
      evictLoop m ns = .ok (m', m'.size + extra) ∧ m'.Inv ∧ m'.queue = pre ∧ m'.limit = m.limit ∧
      (∀ k ∈ pre, m'.map k = m.map k) ∧
      (m'.size + extra ≤ m.limit ∨ pre = []) ∧
      (∀ pre', pre' <+: m.queue → pre.length < pre'.length →
        m.limit < bytesOf m.map pre' + extra) := by
  induction hn : m.queue.length generalizing m ns with
  | zero =>
    have hq : m.queue = [] := List.length_eq_zero_iff.mp hn
    refine ⟨[], [], m, by simp [hq], ?_, hi, hq, rfl, by simp, Or.inr rfl, ?_⟩
    · rw [evictLoop]; split
      · split
        · rw [hns]
        · rename_i k hk; simp [hq] at hk
      · rw [hns]
    · intro p hp hl
      rw [hq] at hp
      simp [List.prefix_nil.mp hp] at hl
  | succ n ih =>
    by_cases hlim : m.limit < ns
    · have hne : m.queue ≠ [] := by intro h; simp [h] at hn
      obtain ⟨q, k, hqk⟩ : ∃ q k, m.queue = q ++ [k] :=
        ⟨m.queue.dropLast, m.queue.getLast hne, (List.dropLast_append_getLast hne).symm⟩
      have hkmem : k ∈ m.queue := by simp [hqk]
      obtain ⟨v, hv⟩ := Option.isSome_iff_exists.mp ((hi.dom k).mpr hkmem)
      have hsz : m.size = bytesOf m.map q + cost k v := by
        rw [hi.size_eq, hqk, bytesOf_append, bytesOf_cons, bytesOf_nil]; simp [costOf, hv]
      have hkq : k ∉ q := by
        have := hi.nodup; rw [hqk] at this
        have h2 := List.nodup_append.mp this
        intro hk; exact h2.2.2 k hk k (by simp) rfl
      have hcong : bytesOf (eraseKey m.map k) q = bytesOf m.map q := by
        apply bytesOf_congr; intro k' hk'
        simp only [eraseKey]; rw [if_neg]; rintro rfl; exact hkq hk'
      set m1 : Mem := { m with queue := m.queue.dropLast, map := eraseKey m.map k,
                               size := m.size - cost k v } with hm1
      have hq1 : m1.queue = q := by simp [hm1, hqk]
      have hi1 : m1.Inv := by
        refine ⟨?_, ?_, ?_⟩
        · rw [hq1]; have := hi.nodup; rw [hqk] at this; exact (List.nodup_append.mp this).1
        · intro k'; rw [hq1]; simp only [hm1, eraseKey]
          by_cases hkk : k' = k
          · subst hkk; simp [hkq]
          · rw [if_neg hkk, hi.dom, hqk]; simp [hkk]
        · rw [hq1]; show m.size - cost k v = bytesOf (eraseKey m.map k) q
          rw [hcong]; omega
      have hlen : m1.queue.length = n := by rw [hq1]; rw [hqk] at hn; simpa using hn
      obtain ⟨pre, suf, m', h1, h2, h3, h4, h5, h6, h7, h8⟩ :=
        ih m1 (ns - cost k v) hi1 (by show _ = m.size - cost k v + extra; omega) hlen
      refine ⟨pre, suf ++ [k], m', ?_, ?_, h3, h4, h5, ?_, h7, ?_⟩
      · rw [hqk, ← hq1, h1, List.append_assoc]
      · rw [evictLoop, if_pos hlim]
        split
        · rename_i h0; simp [hqk] at h0
        · rename_i k' hk'
          have : k' = k := by simpa [hqk] using hk'.symm
          subst this
          rw [hv]; simp only
          rw [if_neg (by omega)]
          exact h2
      · intro k' hk'
        rw [h6 k' hk']
        show eraseKey m.map k k' = _
        simp only [eraseKey]; rw [if_neg]; rintro rfl
        apply hkq; rw [← hq1, h1]; simp [hk']
      · intro p hp hl
        have hp' : p <+: q ++ [k] := hqk ▸ hp
        rcases List.prefix_concat_iff.mp (by simpa using hp') with h | h
        · rw [h]
          have : m.queue = q ++ [k] := hqk
          have : bytesOf m.map (q ++ [k]) + extra = ns := by
            rw [← hqk, ← hi.size_eq]; omega
          omega
        · have := h8 p (hq1 ▸ h) hl
          have hc : bytesOf m1.map p = bytesOf m.map p := by
            apply bytesOf_congr; intro k' hk'
            show eraseKey m.map k k' = _
            simp only [eraseKey]; rw [if_neg]; rintro rfl
            exact hkq (h.subset hk')
          rw [hc] at this; exact this
    · refine ⟨m.queue, [], m, by simp, ?_, hi, rfl, rfl, by simp, Or.inl (by omega), ?_⟩
      · rw [evictLoop, if_neg hlim, hns]
      · intro p hp hl
        have := hp.length_le
        omega

/-- The result of inserting an absent key in a consistent cache. -/
theorem insertImpl_spec (m : Mem) (k : Key) (v : Val) (oom : Oom) (hi : m.Inv)
    (hk : m.map k = none) :
    (sizeMax < m.size + cost k v ∧ insertImpl m k v oom = .ok ⟨m, true⟩) ∨
    (m.size + cost k v ≤ sizeMax ∧ ∃ (pre suf : List Key) (m' : Mem) (threw : Bool),
      m.queue = pre ++ suf ∧ insertImpl m k v oom = .ok ⟨m', threw⟩ ∧ m'.Inv ∧
      m'.limit = m.limit ∧
      (∀ pre', pre' <+: m.queue → pre.length < pre'.length →
        m.limit < bytesOf m.map pre' + cost k v) ∧
      (∀ k' ∈ pre, m'.map k' = m.map k') ∧
      ((cost k v ≤ m.limit ∧ oom = .no ∧ threw = false ∧ m'.queue = k :: pre ∧
          m'.map k = some v ∧ m'.size ≤ m.limit) ∨
       (cost k v ≤ m.limit ∧ oom ≠ .no ∧ threw = true ∧ m'.queue = pre ∧ m'.size ≤ m.limit) ∨
       (m.limit < cost k v ∧ threw = false ∧ m'.queue = [] ∧ pre = [] ∧ m'.size = 0))) := by
  by_cases hmax : sizeMax < m.size + cost k v
  · left; exact ⟨hmax, by simp [insertImpl, hmax]⟩
  right
  refine ⟨by omega, ?_⟩
  obtain ⟨pre, suf, m', h1, h2, h3, h4, h5, h6, h7, h8⟩ :=
    evictLoop_spec m (m.size + cost k v) hi (cost k v) rfl
  have hkpre : k ∉ pre := by
    intro h
    have : k ∈ m.queue := by rw [h1]; simp [h]
    have := (hi.dom k).mpr this
    simp [hk] at this
  by_cases hfit : m.limit < cost k v
  · have hpre : pre = [] := by
      rcases h7 with h | h
      · omega
      · exact h
    have hs0 : m'.size = 0 := by rw [h3.size_eq, h4, hpre]; rfl
    refine ⟨pre, suf, m', false, h1, ?_, h3, h5, h8, h6, Or.inr (Or.inr ⟨hfit, rfl, by rw [h4, hpre],
      hpre, hs0⟩)⟩
    simp only [insertImpl, if_neg hmax, h2, Res.bind_ok]
    rw [if_pos (by omega)]
  · have hle : m'.size + cost k v ≤ m.limit := by
      rcases h7 with h | h
      · exact h
      · have hs0 : m'.size = 0 := by rw [h3.size_eq, h4, h]; rfl
        omega
    by_cases ho : oom = .no
    · subst ho
      refine ⟨pre, suf, ⟨k :: m'.queue, setKey m'.map k v, m'.size + cost k v, m'.limit⟩, false, h1, ?_, ?_, h5, h8, ?_,
          Or.inl ⟨by omega, rfl, rfl, by simp [h4], by simp [setKey], hle⟩⟩
      · simp only [insertImpl, if_neg hmax, h2, Res.bind_ok]
        rw [if_neg (by omega)]
      · refine ⟨?_, ?_, ?_⟩
        · simp only [List.nodup_cons]; exact ⟨by rw [h4]; exact hkpre, h3.nodup⟩
        · intro k'; simp only [setKey]
          by_cases hkk : k' = k
          · simp [hkk]
          · rw [if_neg hkk, h3.dom]; simp [hkk]
        · show m'.size + cost k v = bytesOf (setKey m'.map k v) (k :: m'.queue)
          rw [bytesOf_cons, h3.size_eq]
          have : bytesOf (setKey m'.map k v) m'.queue = bytesOf m'.map m'.queue := by
            apply bytesOf_congr; intro k' hk'
            simp only [setKey]; rw [if_neg]; rintro rfl
            rw [h4] at hk'; exact hkpre hk'
          rw [this]; simp [costOf, setKey, Nat.add_comm]
      · intro k' hk'
        simp only [setKey]; rw [if_neg]; exact h6 k' hk'
        rintro rfl; exact hkpre hk'
    · refine ⟨pre, suf, m', true, h1, ?_, h3, h5, h8, h6,
        Or.inr (Or.inl ⟨by omega, ho, rfl, h4, by omega⟩)⟩
      simp only [insertImpl, if_neg hmax, h2, Res.bind_ok]
      rw [if_neg (by omega)]

theorem inv_lookup (m : Mem) (k : Key) (hi : m.Inv) : (memLookup m k).1.Inv := by
  unfold memLookup
  split
  · exact hi
  · rename_i v hv
    have hk : k ∈ m.queue := (hi.dom k).mp (by simp [hv])
    have hp : (moveFront m.queue k).Perm m.queue := (List.perm_cons_erase hk).symm
    refine ⟨hp.nodup_iff.mpr hi.nodup, ?_, ?_⟩
    · intro k'; rw [hi.dom]; exact hp.mem_iff.symm
    · show m.size = _; rw [hi.size_eq]; exact (bytesOf_perm hp).symm

theorem memStep_inv (m : Mem) (op : MemOp) (hi : m.Inv) :
    ∃ m' r, memStep m op = .ok (m', r) ∧ m'.Inv := by
  cases op with
  | lookup k => exact ⟨_, _, rfl, inv_lookup m k hi⟩
  | insert k v oom =>
    simp only [memStep, memTryInsert]
    cases hk : m.map k with
    | some v' => exact ⟨_, _, rfl, hi⟩
    | none =>
      rcases insertImpl_spec m k v oom hi hk with ⟨_, h⟩ | ⟨_, pre, suf, m', t, _, h, h3, _⟩
      · exact ⟨m, none, by simp [h], hi⟩
      · exact ⟨m', none, by simp [h], h3⟩
  | setLimit l => exact ⟨_, _, rfl, ⟨hi.nodup, hi.dom, hi.size_eq⟩⟩
  | clear => exact ⟨_, _, rfl, ⟨List.nodup_nil, by simp [memClear], rfl⟩⟩

theorem memRun_append (m : Mem) (a b : List MemOp) :
    memRun m (a ++ b) = (memRun m a).bind fun m' => memRun m' b := by
  induction a generalizing m with
  | nil => rfl
  | cons op a ih =>
    simp only [List.cons_append, memRun]
    cases memStep m op with
    | ok p => simp [ih]
    | throw => rfl
    | ub => rfl

theorem memRun_inv (m : Mem) (ops : List MemOp) (hi : m.Inv) :
    ∃ m', memRun m ops = .ok m' ∧ m'.Inv := by
  induction ops generalizing m with
  | nil => exact ⟨m, rfl, hi⟩
  | cons op ops ih =>
    obtain ⟨m1, r, h1, hi1⟩ := memStep_inv m op hi
    obtain ⟨m2, h2, hi2⟩ := ih m1 hi1
    exact ⟨m2, by simp [memRun, h1, h2], hi2⟩

/-- The value of a key after one operation. -/
theorem memStep_map {m : Mem} {op : MemOp} {m' : Mem} {r : Option Val} (hi : m.Inv)
    (h : memStep m op = .ok (m', r)) (k : Key) (v : Val) (hv : m'.map k = some v) :
    (m.map k = some v ∧ op ≠ .clear) ∨ (∃ oom, op = .insert k v oom) := by
  cases op with
  | lookup k0 =>
    left
    simp only [memStep, memLookup] at h
    refine ⟨?_, by simp⟩
    split at h <;> (simp only [Res.ok.injEq, Prod.mk.injEq] at h; obtain ⟨rfl, -⟩ := h; exact hv)
  | setLimit l =>
    left
    simp only [memStep, memSetLimit, Res.ok.injEq, Prod.mk.injEq] at h
    obtain ⟨rfl, -⟩ := h; exact ⟨hv, by simp⟩
  | clear =>
    simp only [memStep, memClear, Res.ok.injEq, Prod.mk.injEq] at h
    obtain ⟨rfl, -⟩ := h; simp at hv
  | insert k0 v0 oom =>
    simp only [memStep, memTryInsert] at h
    cases hk : m.map k0 with
    | some v' =>
      rw [hk] at h
      simp only [Res.bind_ok, Res.ok.injEq, Prod.mk.injEq] at h
      obtain ⟨rfl, -⟩ := h; exact Or.inl ⟨hv, by simp⟩
    | none =>
      rw [hk] at h
      rcases insertImpl_spec m k0 v0 oom hi hk with ⟨_, h'⟩ | ⟨_, pre, suf, m1, t, hq, h', h3, _, _, h6, h7⟩
      · simp only [h', Res.bind_ok, Res.ok.injEq, Prod.mk.injEq] at h
        obtain ⟨rfl, -⟩ := h; exact Or.inl ⟨hv, by simp⟩
      · simp only [h', Res.bind_ok, Res.ok.injEq, Prod.mk.injEq] at h
        obtain ⟨rfl, -⟩ := h
        have hmem : k ∈ m1.queue := (h3.dom k).mp (by simp [hv])
        rcases h7 with ⟨_, ho, _, hq', hm, _⟩ | ⟨_, _, _, hq', _⟩ | ⟨_, _, hq', _⟩
        · rw [hq'] at hmem
          rcases List.mem_cons.mp hmem with rfl | hmem
          · right; rw [hm] at hv; cases hv; exact ⟨oom, rfl⟩
          · left; rw [← h6 k hmem]; exact ⟨hv, by simp⟩
        · rw [hq'] at hmem; left; rw [← h6 k hmem]; exact ⟨hv, by simp⟩
        · simp [hq'] at hmem

end Heyoka.Cache
