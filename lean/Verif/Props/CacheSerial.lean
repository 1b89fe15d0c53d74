import Verif.Cache.Serial
import Mathlib.Tactic.Ring
import Mathlib.Tactic.NormNum
import Mathlib.Data.List.Basic

/-!
# C33: serialisation of the cache entries
-/

namespace Heyoka.Cache

theorem encodeBytes_length (k n : Nat) : (encodeBytes k n).length = k := by
  induction k generalizing n with
  | zero => rfl
  | succ k ih => simp [encodeBytes, ih]

theorem encodeLen_length (n : Nat) : (encodeLen n).length = 8 := encodeBytes_length 8 n

theorem decode_encodeBytes (k n : Nat) (h : n < 256 ^ k) : decodeLen (encodeBytes k n) = n := by
  induction k generalizing n with
  | zero => simp at h; simp [encodeBytes, decodeLen, h]
  | succ k ih =>
    rw [pow_succ] at h
    simp only [encodeBytes, decodeLen, UInt8.toNat_ofNat']
    rw [ih _ (by omega)]
    omega

theorem decode_encode (n : Nat) (h : n < 2 ^ 64) : decodeLen (encodeLen n) = n :=
  decode_encodeBytes 8 n (by norm_num at h ⊢; exact h)

theorem encode_decodeBytes (b : Bytes) :
    encodeBytes b.length (decodeLen b) = b ∧ decodeLen b < 256 ^ b.length := by
  induction b with
  | nil => simp [encodeBytes, decodeLen]
  | cons a b ih =>
    have h0 := a.toNat_lt
    obtain ⟨ih1, ih2⟩ := ih
    refine ⟨?_, ?_⟩
    · simp only [List.length_cons, encodeBytes, decodeLen, List.cons.injEq]
      refine ⟨?_, ?_⟩
      · apply UInt8.toNat_inj.mp
        rw [UInt8.toNat_ofNat']
        omega
      · rw [show (a.toNat + 256 * decodeLen b) / 256 = decodeLen b by omega]
        exact ih1
    · simp only [List.length_cons, decodeLen, pow_succ]
      omega

theorem encode_decode (b : Bytes) (h : b.length = 8) :
    encodeLen (decodeLen b) = b ∧ decodeLen b < 2 ^ 64 := by
  have := encode_decodeBytes b
  rw [h] at this
  exact ⟨this.1, by have := this.2; norm_num at this ⊢; exact this⟩

theorem serializeBuf_cons (s : Bytes) (ss : List Bytes) :
    serializeBuf (s :: ss) = encodeLen s.length ++ (s ++ serializeBuf ss) := by
  simp [serializeBuf]

/-- Sizes fit in a `std::uint64_t`. -/
def SizesOk (vs : List Bytes) : Prop := ∀ s ∈ vs, s.length < 2 ^ 64

/-- Decoding accepts exactly the encodings, and inverts the encoding: for every byte buffer `b`,
`deserialize b` returns `vs` iff `b` is the serialised form of `vs`. -/
theorem deserialize_iff (b : Bytes) (vs : List Bytes) :
    deserialize b = .ok vs ↔ SizesOk vs ∧ serializeBuf vs = b := by
  constructor
  · intro h
    induction hn : b.length using Nat.strong_induction_on generalizing b vs with
    | _ n ih =>
      rw [deserialize] at h
      split at h
      · rename_i he; cases h
        refine ⟨by simp [SizesOk], ?_⟩
        rw [List.isEmpty_iff.mp he]; rfl
      split at h
      · cases h
      rename_i h8
      split at h
      · cases h
      rename_i hlen
      set k := decodeLen (b.take 8) with hk
      cases hd : deserialize ((b.drop 8).drop k) with
      | throw => rw [hd] at h; cases h
      | ub => rw [hd] at h; cases h
      | ok ss =>
        rw [hd] at h
        simp only [Res.bind_ok, Res.ok.injEq] at h
        subst h
        have hb8 : (b.take 8).length = 8 := by simp; omega
        obtain ⟨he, hlt⟩ := encode_decode (b.take 8) hb8
        obtain ⟨ih1, ih2⟩ := ih ((b.drop 8).drop k).length (by simp; omega) _ ss hd rfl
        have hsl : ((b.drop 8).take k).length = k := by
          rw [List.length_take]; omega
        refine ⟨?_, ?_⟩
        · intro s hs
          rcases List.mem_cons.mp hs with rfl | hs
          · rw [hsl]; exact hlt
          · exact ih1 s hs
        · rw [serializeBuf_cons, hsl, ih2, List.take_append_drop, hk, he, List.take_append_drop]
  · rintro ⟨hok, rfl⟩
    induction vs with
    | nil => rw [deserialize]; simp [serializeBuf]
    | cons s ss ih =>
      have hss : SizesOk ss := fun t ht => hok t (List.mem_cons_of_mem _ ht)
      have hl := hok s (List.mem_cons_self)
      rw [serializeBuf_cons, deserialize]
      have e8 := encodeLen_length s.length
      have htake : (encodeLen s.length ++ (s ++ serializeBuf ss)).take 8 = encodeLen s.length := by
        rw [← e8]; exact List.take_left
      have hdrop : (encodeLen s.length ++ (s ++ serializeBuf ss)).drop 8 = s ++ serializeBuf ss := by
        rw [← e8]; exact List.drop_left
      rw [htake, hdrop, decode_encode _ hl, List.drop_left, List.take_left, ih hss]
      rw [dif_neg, dif_neg, if_neg]
      · rfl
      · simp
      · simp [e8]
      · simp only [List.isEmpty_iff]; intro h
        have := congrArg List.length h
        simp [e8] at this

/-- Round trip: what is written by a successful serialisation is read back unchanged. -/
theorem deserialize_serialize (vs : List Bytes) (b : Bytes) (h : serialize vs = .ok b) :
    deserialize b = .ok vs := by
  unfold serialize at h
  split at h
  · cases h
  rename_i hlen
  cases h
  refine (deserialize_iff _ _).mpr ⟨?_, rfl⟩
  intro s hs
  have : s.length ≤ (serializeBuf vs).length := by
    obtain ⟨p, q, rfl⟩ := List.append_of_mem hs
    simp only [serializeBuf, List.flatMap_append, List.flatMap_cons, List.length_append]
    omega
  simp only [intMax] at hlen
  omega

/-- Serialisation is injective: different lists of strings have different serialised forms. -/
theorem serialize_injective (vs ws : List Bytes) (b : Bytes) (hv : serialize vs = .ok b)
    (hw : serialize ws = .ok b) : vs = ws := by
  have := deserialize_serialize vs b hv
  rw [deserialize_serialize ws b hw] at this
  cases this; rfl

/-- The in-place comparison of a stored blob with a list of strings never reads outside of the blob
and accepts iff the blob was written for exactly that list. -/
theorem matchesBlob_serialize (ws vs : List Bytes) (b : Bytes) (hw : serialize ws = .ok b) :
    matchesBlob b vs = .ok (decide (vs = ws)) := by
  have hd := (deserialize_iff b ws).mp (deserialize_serialize ws b hw)
  obtain ⟨hok, rfl⟩ := hd
  clear hw
  induction vs generalizing ws with
  | nil =>
    cases ws with
    | nil => rfl
    | cons w ws =>
      simp only [matchesBlob, serializeBuf_cons]
      have : (encodeLen w.length ++ (w ++ serializeBuf ws)).isEmpty = false := by
        rw [List.isEmpty_eq_false_iff]; intro h
        have := congrArg List.length h; simp [encodeLen_length] at this
      rw [this]; simp
  | cons v vs ih =>
    cases ws with
    | nil => simp [matchesBlob, serializeBuf]
    | cons w ws =>
      have hss : SizesOk ws := fun t ht => hok t (List.mem_cons_of_mem _ ht)
      have hl := hok w (List.mem_cons_self)
      have e8 := encodeLen_length w.length
      rw [serializeBuf_cons, matchesBlob]
      have htake : (encodeLen w.length ++ (w ++ serializeBuf ws)).take 8 = encodeLen w.length := by
        rw [← e8]; exact List.take_left
      have hdrop : (encodeLen w.length ++ (w ++ serializeBuf ws)).drop 8 = w ++ serializeBuf ws := by
        rw [← e8]; exact List.drop_left
      have hne : (encodeLen w.length ++ (w ++ serializeBuf ws)).isEmpty = false := by
        rw [List.isEmpty_eq_false_iff]; intro h
        have := congrArg List.length h; simp [e8] at this
      rw [hne]
      simp only [htake, hdrop, decode_encode _ hl, List.drop_left, List.take_left]
      rw [if_neg (by simp), if_neg (by simp [e8]), if_neg (by simp), ih ws hss]
      by_cases hvw : v = w
      · simp [hvw]
      · simp [hvw]

/-- A concrete list with an empty string and repeated contents round-trips. -/
example : deserialize (serializeBuf [[1, 2, 3], [], [1, 2, 3]]) = .ok [[1, 2, 3], [], [1, 2, 3]] := by
  with_unfolding_all rfl

/-- The hypothesis of `deserialize_serialize` holds for a concrete list. -/
example : ∃ b, serialize [[1, 2, 3], [], [1, 2, 3]] = .ok b ∧ b.length = 30 := ⟨_, rfl, rfl⟩

end Heyoka.Cache
