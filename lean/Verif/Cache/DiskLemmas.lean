import Verif.Cache.Disk
import Verif.Cache.MemLemmas
import Verif.Props.CacheSerial
import Mathlib.Data.List.Perm.Basic
import Mathlib.Data.List.Nodup
import Mathlib.Tactic.Linarith

/-! # Helper lemmas for the on-disk cache -/

namespace Heyoka.Cache

/-- Sum of the sizes of a list of rows. -/
def rowsSize (rows : List Row) : Int := (rows.map (·.size)).sum

/-- A row stores an entry which satisfies `P`. -/
def Row.Good (H : HashFn) (P : Bytes → Key → Val → Prop) (r : Row) : Prop :=
  ∃ k v, r.hash = H k r.fp ∧ r.flag = k.flag ∧ serialize k.bc = .ok r.bitcode ∧
    serialize v.optBc = .ok r.optBc ∧ serialize v.optIr = .ok r.optIr ∧ serialize v.obj = .ok r.obj ∧
    r.bitcode ≠ [] ∧ r.optBc ≠ [] ∧ r.optIr ≠ [] ∧ r.obj ≠ [] ∧
    r.size = r.bitcode.length + r.optBc.length + r.optIr.length + r.obj.length ∧ P r.fp k v

/-- Consistency of a database. -/
structure Db.Inv (H : HashFn) (P : Bytes → Key → Val → Prop) (db : Db) : Prop where
  hash_nodup : (db.rows.map (·.hash)).Nodup
  access_nodup : (db.rows.map (·.lastAccess)).Nodup
  total_eq : db.total = rowsSize db.rows
  good : ∀ r ∈ db.rows, r.Good H P
  limit_nonneg : 0 ≤ db.limit

variable {H : HashFn} {P : Bytes → Key → Val → Prop}

theorem Row.Good.size_nonneg {r : Row} (h : r.Good H P) : 0 ≤ r.size := by
  obtain ⟨k, v, _, _, _, _, _, _, _, _, _, _, h, _⟩ := h
  omega

theorem rowsSize_nonneg {rows : List Row} (h : ∀ r ∈ rows, 0 ≤ r.size) : 0 ≤ rowsSize rows := by
  induction rows with
  | nil => simp [rowsSize]
  | cons r rs ih =>
    simp only [rowsSize, List.map_cons, List.sum_cons] at *
    have := h r List.mem_cons_self
    have := ih (fun r' hr' => h r' (List.mem_cons_of_mem _ hr'))
    omega

theorem rowsSize_perm {a b : List Row} (h : a.Perm b) : rowsSize a = rowsSize b :=
  (h.map _).sum_eq

theorem rowsSize_append (a b : List Row) : rowsSize (a ++ b) = rowsSize a + rowsSize b := by
  simp [rowsSize]

theorem rowsSize_cons (a : Row) (b : List Row) : rowsSize (a :: b) = a.size + rowsSize b := by
  simp [rowsSize]

theorem inv_fresh : Db.fresh.Inv H P :=
  ⟨by simp [Db.fresh], by simp [Db.fresh], by simp [Db.fresh, rowsSize], by simp [Db.fresh],
   by simp [Db.fresh]⟩

theorem lru_none {rows : List Row} (h : lru rows = none) : rows = [] := by
  cases rows with
  | nil => rfl
  | cons r rs => simp only [lru] at h; split at h <;> (try split at h) <;> cases h

theorem lru_le {rows : List Row} {r : Row} (h : lru rows = some r) :
    ∀ r' ∈ rows, r.lastAccess ≤ r'.lastAccess := by
  induction rows generalizing r with
  | nil => simp
  | cons a rs ih =>
    simp only [lru] at h
    split at h
    · rename_i hn
      have := lru_none hn; subst this
      cases h; simp
    · rename_i b hb
      have ihb := ih hb
      split at h <;> cases h
      · intro r' hr'
        rcases List.mem_cons.mp hr' with rfl | hr'
        · omega
        · exact ihb r' hr'
      · intro r' hr'
        rcases List.mem_cons.mp hr' with rfl | hr'
        · omega
        · have := ihb r' hr'; omega

/-- Rows of a duplicate-free table are determined by their hash. -/
theorem eq_of_hash {rows : List Row} (hnd : (rows.map (·.hash)).Nodup) {a b : Row}
    (ha : a ∈ rows) (hb : b ∈ rows) (h : a.hash = b.hash) : a = b :=
  List.inj_on_of_nodup_map hnd ha hb h

theorem eq_of_access {rows : List Row} (hnd : (rows.map (·.lastAccess)).Nodup) {a b : Row}
    (ha : a ∈ rows) (hb : b ∈ rows) (h : a.lastAccess = b.lastAccess) : a = b :=
  List.inj_on_of_nodup_map hnd ha hb h

theorem filter_hash_perm {rows : List Row} (hnd : (rows.map (·.hash)).Nodup) {r : Row}
    (hr : r ∈ rows) : rows.Perm (r :: removeHash rows r.hash) := by
  unfold removeHash
  have h1 : rows.filter (fun r' => decide (r'.hash ≠ r.hash)) = rows.erase r := by
    have hnd' : rows.Nodup := List.Nodup.of_map _ hnd
    rw [hnd'.erase_eq_filter]
    apply List.filter_congr
    intro x hx
    rw [Bool.eq_iff_iff]
    simp only [decide_eq_true_eq, bne_iff_ne]
    exact ⟨fun h he => h (by rw [he]), fun h he => h (eq_of_hash hnd hx hr he)⟩
  rw [h1]
  exact List.perm_cons_erase hr

theorem dbEvict_spec (rows : List Row) (total entry limit : Int)
    (hnd : (rows.map (·.hash)).Nodup) (hacc : (rows.map (·.lastAccess)).Nodup)
    (htot : total = rowsSize rows) (hpos : ∀ r ∈ rows, 0 ≤ r.size) :
    ∃ kept evicted, dbEvict rows total entry limit = .ok (kept, rowsSize kept) ∧
      kept.Sublist rows ∧ rows.Perm (evicted ++ kept) ∧
      (∀ e ∈ evicted, ∀ r ∈ kept, e.lastAccess < r.lastAccess) ∧
      (rowsSize kept + entry ≤ limit ∨ kept = []) ∧
      (∀ e ∈ evicted, limit < rowsSize (rows.filter fun r => e.lastAccess ≤ r.lastAccess) + entry) := by
  induction hn : rows.length using Nat.strong_induction_on generalizing rows total with
  | _ n ih =>
    rw [dbEvict]
    by_cases hl : limit < total + entry
    · rw [if_pos hl]
      split
      · rename_i h0
        have := lru_none h0; subst this
        exact ⟨[], [], by rw [htot], List.Sublist.refl _, by simp, by simp, Or.inr rfl, by simp⟩
      · rename_i r hr
        have hmem := lru_mem hr
        have hp := filter_hash_perm hnd hmem
        set rows1 := removeHash rows r.hash with hrows1
        simp only [removeHash] at hrows1
        have hsub : rows1.Sublist rows := List.filter_sublist
        have hs : rowsSize rows = r.size + rowsSize rows1 := by
          rw [rowsSize_perm hp, rowsSize_cons]
        have hpos1 : ∀ r ∈ rows1, 0 ≤ r.size := fun x hx => hpos x (hsub.subset hx)
        have hnn := rowsSize_nonneg hpos1
        rw [if_neg (by omega)]
        obtain ⟨kept, ev, h1, h2, h3, h4, h5, h6⟩ := ih rows1.length
          (by have := hp.length_eq; simp only [List.length_cons] at this; omega) rows1
          (total - r.size) (hnd.sublist (hsub.map _)) (hacc.sublist (hsub.map _)) (by omega) hpos1 rfl
        refine ⟨kept, r :: ev, h1, h2.trans hsub, ?_, ?_, h5, ?_⟩
        · exact hp.trans (h3.cons r)
        · intro e he x hx
          rcases List.mem_cons.mp he with rfl | he
          · have hx1 : x ∈ rows1 := h2.subset hx
            have hx0 : x ∈ rows := hsub.subset hx1
            have hle := lru_le hr x hx0
            rcases Nat.lt_or_eq_of_le hle with h | h
            · exact h
            · have := eq_of_access hacc hmem hx0 h
              subst this
              simp [hrows1] at hx1
          · exact h4 e he x hx
        · intro e he
          rcases List.mem_cons.mp he with rfl | he
          · have : (rows.filter fun x => decide (e.lastAccess ≤ x.lastAccess)) = rows := by
              rw [List.filter_eq_self]; intro x hx; simpa using lru_le hr x hx
            rw [this]; omega
          · have he1 : e ∈ rows1 := h3.mem_iff.mpr (by simp [he])
            have he0 : e ∈ rows := hsub.subset he1
            have hlt : r.lastAccess < e.lastAccess := by
              rcases Nat.lt_or_eq_of_le (lru_le hr e he0) with h | h
              · exact h
              · have := eq_of_access hacc hmem he0 h
                subst this; simp [hrows1] at he1
            have : (rows.filter fun x => decide (e.lastAccess ≤ x.lastAccess))
                = rows1.filter fun x => decide (e.lastAccess ≤ x.lastAccess) := by
              rw [hrows1, List.filter_filter]
              apply List.filter_congr
              intro x hx
              rw [Bool.eq_iff_iff]
              simp only [Bool.and_eq_true, decide_eq_true_eq]
              refine ⟨fun h => ⟨h, fun hh => ?_⟩, fun h => h.1⟩
              have := eq_of_hash hnd hx hmem hh
              subst this; omega
            rw [this]; exact h6 e he
    · rw [if_neg hl]
      refine ⟨rows, [], by rw [htot], List.Sublist.refl _, by simp, by simp, Or.inl (by omega), by simp⟩

theorem maxAccess_ge (rows : List Row) : ∀ r ∈ rows, r.lastAccess ≤ maxAccess rows := by
  induction rows with
  | nil => simp
  | cons a rs ih =>
    intro r hr
    simp only [maxAccess, List.foldr_cons]
    rcases List.mem_cons.mp hr with rfl | hr
    · omega
    · have := ih r hr; simp only [maxAccess] at this; omega

theorem bumpRows_hash (rows : List Row) (h : UInt64) :
    (bumpRows rows h).map (·.hash) = rows.map (·.hash) := by
  simp only [bumpRows, List.map_map]
  apply List.map_congr_left
  intro r _; simp only [Function.comp]; split <;> rfl

theorem bumpRows_size (rows : List Row) (h : UInt64) : rowsSize (bumpRows rows h) = rowsSize rows := by
  simp only [rowsSize, bumpRows, List.map_map]
  congr 1
  apply List.map_congr_left
  intro r _; simp only [Function.comp]; split <;> rfl

theorem bumpRows_access (rows : List Row) (h : UInt64) (hh : (rows.map (·.hash)).Nodup)
    (ha : (rows.map (·.lastAccess)).Nodup) : ((bumpRows rows h).map (·.lastAccess)).Nodup := by
  simp only [bumpRows, List.map_map]
  rw [List.nodup_map_iff_inj_on (List.Nodup.of_map _ hh)]
  intro x hx y hy hxy
  simp only [Function.comp] at hxy
  have hx1 := maxAccess_ge rows x hx
  have hy1 := maxAccess_ge rows y hy
  split at hxy <;> split at hxy
  · rename_i h1 h2; exact eq_of_hash hh hx hy (h1.trans h2.symm)
  · simp only at hxy; omega
  · simp only at hxy; omega
  · exact eq_of_access ha hx hy hxy

theorem bumpRows_good (rows : List Row) (h : UInt64) (hg : ∀ r ∈ rows, r.Good H P) :
    ∀ r ∈ bumpRows rows h, r.Good H P := by
  intro r hr
  simp only [bumpRows, List.mem_map] at hr
  obtain ⟨r0, hr0, rfl⟩ := hr
  have := hg r0 hr0
  split
  · exact this
  · exact this

theorem inv_bump {db : Db} (hi : db.Inv H P) (h : UInt64) :
    Db.Inv H P { db with rows := bumpRows db.rows h } :=
  ⟨by rw [bumpRows_hash]; exact hi.hash_nodup, bumpRows_access _ _ hi.hash_nodup hi.access_nodup,
   by rw [bumpRows_size]; exact hi.total_eq, bumpRows_good _ _ hi.good, hi.limit_nonneg⟩

theorem readBlob_ok {vs : List Bytes} {b : Bytes} (h : serialize vs = .ok b) (hb : b ≠ []) :
    readBlob b = .ok vs := by
  unfold readBlob
  rw [if_neg (by simpa using hb)]
  exact deserialize_serialize vs b h

/-- Lookups in a consistent database. -/
theorem dbLookup_spec {db : Db} (hi : db.Inv H P) (fp : Bytes) (k : Key) :
    ∃ db' o, dbLookup H fp k db = .ok (db', o) ∧ db'.Inv H P ∧ db'.total = db.total ∧
      db'.limit = db.limit ∧ (∀ v, o = some v → P fp k v) := by
  unfold dbLookup
  cases hf : db.rows.find? (fun r => r.hash = H k fp) with
  | none => exact ⟨db, none, rfl, hi, rfl, rfl, by simp⟩
  | some r =>
    have hr := List.mem_of_find?_eq_some hf
    obtain ⟨k0, v0, h1, h2, h3, h4, h5, h6, n1, n2, n3, n4, _, hP⟩ := hi.good r hr
    simp only
    rw [if_neg (by simpa using n1)]
    by_cases hc : r.flag ≠ k.flag ∨ r.fp ≠ fp
    · rw [if_pos hc]
      exact ⟨_, none, rfl, inv_bump hi _, rfl, rfl, by simp⟩
    · rw [if_neg hc]
      push Not at hc
      rw [matchesBlob_serialize k0.bc k.bc _ h3]
      simp only [Res.bind_ok]
      by_cases hbc : k.bc = k0.bc
      · have hk : k = k0 := by
          cases k; cases k0; simp only [Key.mk.injEq] at *
          exact ⟨hbc, by rw [← hc.1, h2]⟩
        simp only [hbc, decide_true, if_true, readBlob_ok h4 n2, readBlob_ok h5 n3,
          readBlob_ok h6 n4, Res.bind_ok]
        refine ⟨_, _, rfl, inv_bump hi _, rfl, rfl, ?_⟩
        intro v hv; cases hv
        rw [hk, ← hc.2]
        exact hP
      · simp only [hbc, decide_false]
        exact ⟨_, none, rfl, inv_bump hi _, rfl, rfl, by simp⟩

theorem diskLookup_spec {db : Db} (hi : db.Inv H P) (fp : Bytes) (k : Key) (f : Fault) :
    ∃ db' o, diskLookup H fp k f db = .ok (db', o) ∧ db'.Inv H P ∧
      (∀ v, o = some v → P fp k v) := by
  obtain ⟨db', o, h, h1, _, _, h4⟩ := dbLookup_spec hi fp k
  cases f with
  | no => exact ⟨db', o, h, h1, h4⟩
  | before => exact ⟨db, none, rfl, hi, by simp⟩
  | after => exact ⟨db', none, by simp [diskLookup, h], h1, by simp⟩

theorem serialize_ne_nil {vs : List Bytes} {b : Bytes} (h : serialize vs = .ok b) (hv : vs ≠ []) :
    b ≠ [] := by
  unfold serialize at h
  split at h
  · cases h
  cases h
  cases vs with
  | nil => exact absurd rfl hv
  | cons s ss =>
    rw [serializeBuf_cons]; intro h0
    have := congrArg List.length h0
    simp [encodeLen_length] at this

/-- The size of an entry and of the database after its insertion are representable. -/
def Representable (db : Db) (k : Key) (v : Val) : Prop :=
  ∃ a b c d, serialize k.bc = .ok a ∧ serialize v.optBc = .ok b ∧ serialize v.optIr = .ok c ∧
    serialize v.obj = .ok d ∧ db.total + (a.length + b.length + c.length + d.length : Int) ≤ int64Max

/-- Insertions in a consistent database. -/
theorem dbInsert_spec {db : Db} (hi : db.Inv H P) (fp : Bytes) (k : Key) (v : Val)
    (hP : P fp k v) (hne : k.bc ≠ [] ∧ v.optBc ≠ [] ∧ v.optIr ≠ [] ∧ v.obj ≠ []) :
    ∃ db', dbInsert H fp k v db = .ok db' ∧ db'.Inv H P ∧ db'.limit = db.limit ∧
      ((¬ Representable db k v ∧ db' = db) ∨
       (Representable db k v ∧ db'.total ≤ db.limit ∧ ∃ kept evicted, db.rows.Perm (evicted ++ kept) ∧
        (∀ e ∈ evicted, ∀ r ∈ kept, e.lastAccess < r.lastAccess) ∧
        (db'.rows = kept ∨ ∃ r, db'.rows = kept ++ [r] ∧ r.hash = H k fp ∧
          (∀ x ∈ kept, x.lastAccess < r.lastAccess)))) := by
  unfold dbInsert
  split
  · rename_i a b c d ha hb hc hd
    have na := serialize_ne_nil ha hne.1
    have nb := serialize_ne_nil hb hne.2.1
    have nc := serialize_ne_nil hc hne.2.2.1
    have nd := serialize_ne_nil hd hne.2.2.2
    simp only
    split
    · rename_i hov
      refine ⟨db, rfl, hi, rfl, Or.inl ⟨?_, rfl⟩⟩
      rintro ⟨a', b', c', d', ha', hb', hc', hd', hle⟩
      rw [ha] at ha'; rw [hb] at hb'; rw [hc] at hc'; rw [hd] at hd'
      cases ha'; cases hb'; cases hc'; cases hd'
      omega
    rename_i hov
    have hrep : Representable db k v := ⟨a, b, c, d, ha, hb, hc, hd, by omega⟩
    obtain ⟨kept, ev, h1, h2, h3, h4, h5, h6⟩ := dbEvict_spec db.rows db.total
      (a.length + b.length + c.length + d.length) db.limit hi.hash_nodup hi.access_nodup hi.total_eq
      (fun r hr => (hi.good r hr).size_nonneg)
    rw [h1]
    simp only [Res.bind_ok]
    have hk_hash : (kept.map (·.hash)).Nodup := hi.hash_nodup.sublist (h2.map _)
    have hk_acc : (kept.map (·.lastAccess)).Nodup := hi.access_nodup.sublist (h2.map _)
    have hk_good : ∀ r ∈ kept, r.Good H P := fun r hr => hi.good r (h2.subset hr)
    have hk_inv : Db.Inv H P { db with rows := kept, total := rowsSize kept } :=
      ⟨hk_hash, hk_acc, rfl, hk_good, hi.limit_nonneg⟩
    split
    · rename_i hfit
      split
      · rename_i hex
        refine ⟨_, rfl, hk_inv, rfl, Or.inr ⟨hrep, ?_, kept, ev, h3, h4, Or.inl rfl⟩⟩
        simp only; omega
      · rename_i hex
        have hnew : ∀ x ∈ kept, x.lastAccess < maxAccess kept + 1 := fun x hx => by
          have := maxAccess_ge kept x hx; omega
        refine ⟨_, rfl, ?_, rfl, Or.inr ⟨hrep, hfit, kept, ev, h3, h4, Or.inr ⟨_, rfl, rfl, hnew⟩⟩⟩
        refine ⟨?_, ?_, ?_, ?_, hi.limit_nonneg⟩
        · simp only [List.map_append, List.map_cons, List.map_nil]
          rw [List.nodup_append]
          refine ⟨hk_hash, by simp, ?_⟩
          intro x hx y hy
          simp only [List.mem_singleton] at hy; subst hy
          obtain ⟨r, hr, rfl⟩ := List.mem_map.mp hx
          intro he
          apply hex
          simp only [List.any_eq_true, decide_eq_true_eq]
          exact ⟨r, hr, he⟩
        · simp only [List.map_append, List.map_cons, List.map_nil]
          rw [List.nodup_append]
          refine ⟨hk_acc, by simp, ?_⟩
          intro x hx y hy
          simp only [List.mem_singleton] at hy; subst hy
          obtain ⟨r, hr, rfl⟩ := List.mem_map.mp hx
          have := hnew r hr; omega
        · simp only [rowsSize_append, rowsSize_cons]
          simp [rowsSize]
        · intro r hr
          rcases List.mem_append.mp hr with hr | hr
          · exact hk_good r hr
          · simp only [List.mem_singleton] at hr; subst hr
            exact ⟨k, v, rfl, rfl, ha, hb, hc, hd, na, nb, nc, nd, rfl, hP⟩
    · rename_i hfit
      refine ⟨_, rfl, hk_inv, rfl, Or.inr ⟨hrep, ?_, kept, ev, h3, h4, Or.inl rfl⟩⟩
      have hk0 : kept = [] := by
        rcases h5 with h | h
        · omega
        · exact h
      subst hk0
      simpa [rowsSize] using hi.limit_nonneg
  · rename_i hno
    refine ⟨db, rfl, hi, rfl, Or.inl ⟨?_, rfl⟩⟩
    rintro ⟨a', b', c', d', ha', hb', hc', hd', _⟩
    exact hno a' b' c' d' ha' hb' hc' hd'

/-- Bytes stored for an entry. -/
def entrySize (k : Key) (v : Val) : Int :=
  (serializeBuf k.bc).length + (serializeBuf v.optBc).length + (serializeBuf v.optIr).length
    + (serializeBuf v.obj).length

theorem serialize_ok {vs : List Bytes} {b : Bytes} (h : serialize vs = .ok b) : b = serializeBuf vs := by
  unfold serialize at h
  split at h
  · cases h
  · cases h; rfl

/-- Which entries an insertion removes: only those that, together with all the more recently used
ones, do not leave room for the new entry. -/
theorem dbInsert_evicted {db db' : Db} (hi : db.Inv H P) (fp : Bytes) (k : Key) (v : Val)
    (h : dbInsert H fp k v db = .ok db') :
    ∀ e ∈ db.rows, e ∉ db'.rows →
      db.limit < rowsSize (db.rows.filter fun r => e.lastAccess ≤ r.lastAccess) + entrySize k v := by
  unfold dbInsert at h
  split at h
  · rename_i a b c d ha hb hc hd
    have hent : (a.length + b.length + c.length + d.length : Int) = entrySize k v := by
      simp only [entrySize, ← serialize_ok ha, ← serialize_ok hb, ← serialize_ok hc, ← serialize_ok hd]
    simp only [hent] at h
    split at h
    · cases h; intro e h1 h2; exact absurd h1 h2
    obtain ⟨kept, ev, h1, h2, h3, h4, h5, h6⟩ := dbEvict_spec db.rows db.total
      (entrySize k v) db.limit hi.hash_nodup hi.access_nodup hi.total_eq
      (fun r hr => (hi.good r hr).size_nonneg)
    rw [h1] at h
    simp only [Res.bind_ok] at h
    intro e he he'
    apply h6
    have := (h3.mem_iff.mp he)
    rcases List.mem_append.mp this with h | hk
    · exact h
    · exfalso; apply he'
      split at h
      · split at h
        · cases h; exact hk
        · cases h; simp [hk]
      · cases h; exact hk
  · cases h; intro e h1 h2; exact absurd h1 h2

/-- An entry that was stored is found. -/
theorem dbInsert_lookup {db : Db} (hi : db.Inv H P) (fp : Bytes) (k : Key) (v : Val)
    (hne : k.bc ≠ [] ∧ v.optBc ≠ [] ∧ v.optIr ≠ [] ∧ v.obj ≠ [])
    (hrep : Representable db k v) (hfit : entrySize k v ≤ db.limit)
    (hnew : ∀ r ∈ db.rows, r.hash ≠ H k fp) :
    ∃ db' db'', dbInsert H fp k v db = .ok db' ∧ dbLookup H fp k db' = .ok (db'', some v) := by
  obtain ⟨a, b, c, d, ha, hb, hc, hd, hle⟩ := hrep
  have na := serialize_ne_nil ha hne.1
  have nb := serialize_ne_nil hb hne.2.1
  have nc := serialize_ne_nil hc hne.2.2.1
  have nd := serialize_ne_nil hd hne.2.2.2
  have hent : (a.length + b.length + c.length + d.length : Int) = entrySize k v := by
    simp only [entrySize, ← serialize_ok ha, ← serialize_ok hb, ← serialize_ok hc, ← serialize_ok hd]
  obtain ⟨kept, ev, h1, h2, h3, h4, h5, h6⟩ := dbEvict_spec db.rows db.total
    (entrySize k v) db.limit hi.hash_nodup hi.access_nodup hi.total_eq
    (fun r hr => (hi.good r hr).size_nonneg)
  have hfit' : rowsSize kept + entrySize k v ≤ db.limit := by
    rcases h5 with h | h
    · exact h
    · subst h; simpa [rowsSize] using hfit
  have hnone : ∀ r ∈ kept, r.hash ≠ H k fp := fun r hr => hnew r (h2.subset hr)
  have hany : kept.any (fun r => decide (r.hash = H k fp)) = false := by
    simpa [List.any_eq_false] using hnone
  let r0 : Row := ⟨H k fp, a, k.flag, fp, b, c, d, entrySize k v, maxAccess kept + 1⟩
  refine ⟨⟨kept ++ [r0], rowsSize kept + entrySize k v, db.limit⟩,
    ⟨bumpRows (kept ++ [r0]) (H k fp), rowsSize kept + entrySize k v, db.limit⟩, ?_, ?_⟩
  · simp only [dbInsert, ha, hb, hc, hd]
    rw [hent] at hle
    simp only [hent]
    rw [if_neg (by omega), h1]
    simp only [Res.bind_ok, if_pos hfit', hany]
    rfl
  · simp only [dbLookup]
    have hfind : (kept ++ [r0]).find? (fun r => decide (r.hash = H k fp)) = some r0 := by
      rw [List.find?_append]
      have : kept.find? (fun r => decide (r.hash = H k fp)) = none := by
        rw [List.find?_eq_none]; simpa using hnone
      rw [this]; simp [r0]
    rw [hfind]
    simp only [r0]
    rw [if_neg (by simpa using na), if_neg (by simp), matchesBlob_serialize _ _ _ ha]
    simp [readBlob_ok hb nb, readBlob_ok hc nc, readBlob_ok hd nd]

theorem diskInsert_spec {db : Db} (hi : db.Inv H P) (fp : Bytes) (k : Key) (v : Val) (f : Fault)
    (hP : P fp k v) (hne : k.bc ≠ [] ∧ v.optBc ≠ [] ∧ v.optIr ≠ [] ∧ v.obj ≠ []) :
    ∃ db', diskInsert H fp k v f db = .ok db' ∧ db'.Inv H P := by
  obtain ⟨db', h, h1, _⟩ := dbInsert_spec hi fp k v hP hne
  cases f with
  | no => exact ⟨db', h, h1⟩
  | before => exact ⟨db, rfl, hi⟩
  | after => exact ⟨db, rfl, hi⟩

/-- Consistency of the whole machine. -/
structure Sys.Inv (H : HashFn) (P : Bytes → Key → Val → Prop) (s : Sys) : Prop where
  dbs : ∀ d, ∀ db ∈ s.dbs d, db.Inv H P
  mem : ∀ p, (s.procs p).mem.Inv
  vals : ∀ p k v, (s.procs p).mem.map k = some v → P (s.procs p).fp k v

theorem Sys.Inv.db {s : Sys} (hi : s.Inv H P) (d : Nat) : (s.db d).Inv H P := by
  unfold Sys.db
  cases h : (s.dbs d).head? with
  | none => exact inv_fresh
  | some db => exact hi.dbs d db (List.mem_of_head? h)

theorem inv_commit {s : Sys} (hi : s.Inv H P) (d : Nat) (db : Db) (hdb : db.Inv H P) :
    (s.commit d db).Inv H P := by
  refine ⟨?_, hi.mem, hi.vals⟩
  intro d' db' h
  simp only [Sys.commit] at h
  split at h
  · rcases List.mem_cons.mp h with rfl | h
    · exact hdb
    · exact hi.dbs _ _ h
  · exact hi.dbs _ _ h

theorem inv_setProc {s : Sys} (hi : s.Inv H P) (p : Nat) (x : Proc) (hx : x.mem.Inv)
    (hv : ∀ k v, x.mem.map k = some v → P x.fp k v) : (s.setProc p x).Inv H P := by
  refine ⟨hi.dbs, ?_, ?_⟩
  · intro p'; simp only [Sys.setProc]; split
    · exact hx
    · exact hi.mem p'
  · intro p' k v; simp only [Sys.setProc]; split
    · exact hv k v
    · exact hi.vals p' k v

theorem insertImpl_P {m : Mem} (hi : m.Inv) {k : Key} {v : Val} (oom : Oom) (hk : m.map k = none)
    {Q : Key → Val → Prop} (hq : ∀ k v, m.map k = some v → Q k v) (hv : Q k v) :
    ∃ r, insertImpl m k v oom = .ok r ∧ r.mem.Inv ∧
      (∀ k v, r.mem.map k = some v → Q k v) := by
  have hstep : ∀ r, insertImpl m k v oom = .ok r →
      memStep m (.insert k v oom) = .ok (r.mem, none) := by
    intro r hr; simp [memStep, memTryInsert, hk, hr]
  rcases insertImpl_spec m k v oom hi hk with ⟨_, h⟩ | ⟨_, pre, suf, m', t, _, h, h3, _⟩
  · exact ⟨_, h, hi, hq⟩
  · refine ⟨_, h, h3, ?_⟩
    intro k1 v1 h1
    rcases memStep_map hi (hstep _ h) k1 v1 h1 with ⟨h2, _⟩ | ⟨o, h2⟩
    · exact hq _ _ h2
    · cases h2; exact hv

/-- The triple that an operation may add to the caches. -/
def SysOp.inserts (s : Sys) : SysOp → Option (Bytes × Key × Val)
  | .tryInsert p k v _ _ => some ((s.procs p).fp, k, v)
  | _ => none

/-- The vectors passed to an insertion are not empty. -/
def SysOp.WF : SysOp → Prop
  | .tryInsert _ k v _ _ => k.bc ≠ [] ∧ v.optBc ≠ [] ∧ v.optIr ≠ [] ∧ v.obj ≠ []
  | _ => True

theorem sysStep_inv {s : Sys} (hi : s.Inv H P) (op : SysOp) (hwf : op.WF)
    (hins : ∀ fp k v, op.inserts s = some (fp, k, v) → P fp k v) :
    ∃ s' r, sysStep H s op = .ok (s', r) ∧ s'.Inv H P ∧
      (∀ p k f oom v, op = .lookup p k f oom → r = .value v → P (s.procs p).fp k v) := by
  cases op with
  | lookup p k f oom =>
    simp only [sysStep, sysLookup]
    cases hm : (s.procs p).mem.map k with
    | some v =>
      refine ⟨_, _, rfl, inv_setProc hi p _ (inv_lookup _ k (hi.mem p)) ?_, ?_⟩
      · intro k' v' h'
        simp only [memLookup, hm] at h'
        exact hi.vals p k' v' h'
      · intro p' k' f' oom' v' he hr
        cases he; cases hr; exact hi.vals p k v hm
    | none =>
      simp only
      split
      · obtain ⟨db', o, h1, h2, h3⟩ := diskLookup_spec (hi.db (s.procs p).dir) (s.procs p).fp k f
        rw [h1]; simp only [Res.bind_ok]
        cases o with
        | none =>
          refine ⟨_, _, rfl, inv_commit hi _ _ h2, ?_⟩
          intro p' k' f' oom' v' he hr; cases hr
        | some v =>
          have hPv := h3 v rfl
          obtain ⟨r, hr1, hr2, hr3⟩ := insertImpl_P (hi.mem p) oom hm (hi.vals p) hPv
          simp only [hr1, Res.bind_ok]
          refine ⟨_, _, rfl, inv_setProc (inv_commit hi _ _ h2) p _ hr2 hr3, ?_⟩
          intro p' k' f' oom' v' he hr
          cases he
          split at hr
          · cases hr
          · cases hr; exact hPv
      · exact ⟨_, _, rfl, hi, by intro p' k' f' oom' v' he hr; cases hr⟩
  | tryInsert p k v f oom =>
    have hPv : P (s.procs p).fp k v := hins _ _ _ rfl
    simp only [SysOp.WF] at hwf
    simp only [sysStep, sysTryInsert]
    rw [if_neg (by tauto)]
    have hmemins : ∃ r, memTryInsert (s.procs p).mem k v oom = .ok r ∧ r.mem.Inv ∧
        (∀ k v, r.mem.map k = some v → P (s.procs p).fp k v) := by
      simp only [memTryInsert]
      cases hm : (s.procs p).mem.map k with
      | some v' => exact ⟨_, rfl, hi.mem p, hi.vals p⟩
      | none => exact insertImpl_P (hi.mem p) oom hm (hi.vals p) hPv
    obtain ⟨r, hr1, hr2, hr3⟩ := hmemins
    simp only [hr1, Res.bind_ok]
    split
    · obtain ⟨db', h1, h2⟩ := diskInsert_spec (hi.db (s.procs p).dir) (s.procs p).fp k v f hPv hwf
      simp only [h1, Res.bind_ok]
      exact ⟨_, _, rfl, inv_setProc (inv_commit hi _ _ h2) p _ hr2 hr3, by
        intro p' k' f' oom' v' he; cases he⟩
    · simp only [Res.bind_ok]
      exact ⟨_, _, rfl, inv_setProc hi p _ hr2 hr3, by intro p' k' f' oom' v' he; cases he⟩
  | setMemLimit p l =>
    refine ⟨_, _, rfl, inv_setProc hi p _ ?_ (hi.vals p), by intro p' k' f' oom' v' he; cases he⟩
    have := hi.mem p
    exact ⟨this.nodup, this.dom, this.size_eq⟩
  | clearMem p =>
    refine ⟨_, _, rfl, inv_setProc hi p _ ?_ ?_, by intro p' k' f' oom' v' he; cases he⟩
    · exact ⟨List.nodup_nil, by simp [memClear], rfl⟩
    · intro k v h; simp [memClear] at h
  | setDiskLimit p l =>
    simp only [sysStep]
    split
    · exact ⟨_, _, rfl, hi, by intro p' k' f' oom' v' he; cases he⟩
    · refine ⟨_, _, rfl, inv_commit hi _ _ ?_, by intro p' k' f' oom' v' he; cases he⟩
      have := hi.db (s.procs p).dir
      exact ⟨this.hash_nodup, this.access_nodup, this.total_eq, this.good, by simp only; omega⟩
  | clearDisk p =>
    refine ⟨_, _, rfl, inv_commit hi _ _ ?_, by intro p' k' f' oom' v' he; cases he⟩
    exact ⟨by simp, by simp, by simp [rowsSize], by simp, (hi.db (s.procs p).dir).limit_nonneg⟩
  | setPath p d =>
    exact ⟨_, _, rfl, inv_setProc hi p _ (hi.mem p) (hi.vals p), by intro p' k' f' oom' v' he; cases he⟩
  | setEnabled p b =>
    exact ⟨_, _, rfl, inv_setProc hi p _ (hi.mem p) (hi.vals p), by intro p' k' f' oom' v' he; cases he⟩
  | restart p fp en d l =>
    refine ⟨_, _, rfl, inv_setProc hi p _ (inv_init l) ?_, by intro p' k' f' oom' v' he; cases he⟩
    intro k v h; simp [Mem.init] at h
  | powerLoss d n =>
    refine ⟨_, _, rfl, ⟨?_, hi.mem, hi.vals⟩, by intro p' k' f' oom' v' he; cases he⟩
    intro d' db' h
    simp only at h
    split at h
    · exact hi.dbs _ _ (List.mem_of_mem_drop h)
    · exact hi.dbs _ _ h

theorem Sys.Inv.mono {s : Sys} {Q : Bytes → Key → Val → Prop} (hi : s.Inv H P)
    (h : ∀ fp k v, P fp k v → Q fp k v) : s.Inv H Q := by
  refine ⟨?_, hi.mem, fun p k v hv => h _ _ _ (hi.vals p k v hv)⟩
  intro d db hdb
  have := hi.dbs d db hdb
  refine ⟨this.hash_nodup, this.access_nodup, this.total_eq, ?_, this.limit_nonneg⟩
  intro r hr
  obtain ⟨k, v, h1, h2, h3, h4, h5, h6, h7, h8, h9, h10, h11, h12⟩ := this.good r hr
  exact ⟨k, v, h1, h2, h3, h4, h5, h6, h7, h8, h9, h10, h11, h _ _ _ h12⟩

theorem inv_sysInit (procs : Nat → Proc) : (Sys.init procs).Inv H P :=
  ⟨by simp [Sys.init], fun p => inv_init _, by intro p k v h; simp [Sys.init, Mem.init] at h⟩

end Heyoka.Cache
