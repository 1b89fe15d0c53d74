import Verif.Cache.Mem

/-!
# Model of the serialisation of vectors of strings

`src/llvm_state_cache.cpp`, lines 1090-1207.
-/

namespace Heyoka.Cache

/-- The `k` low bytes of a number, least significant byte first. -/
def encodeBytes : Nat → Nat → Bytes
  | 0, _ => []
  | k + 1, n => UInt8.ofNat (n % 256) :: encodeBytes k (n / 256)

/-- The in-memory representation of a `std::uint64_t`, least significant byte first (lines
1107-1109). Simplification: the byte order is fixed to little endian; the code only requires that
it is the same in the two directions. -/
def encodeLen (n : Nat) : Bytes := encodeBytes 8 n

/-- Reading a `std::uint64_t` from its bytes (lines 1141-1142, 1188-1189). -/
def decodeLen : Bytes → Nat
  | [] => 0
  | b :: bs => b.toNat + 256 * decodeLen bs

/-- The buffer filled by `serialize_vec_str`, lines 1101-1112. -/
def serializeBuf (vs : List Bytes) : Bytes := vs.flatMap fun s => encodeLen s.length ++ s

/-- The largest `int`. -/
def intMax : Nat := 2 ^ 31 - 1

/-- `serialize_vec_str`, lines 1101-1114: the conversion of the size to `int` throws on overflow. -/
def serialize (vs : List Bytes) : Res Bytes :=
  if intMax < (serializeBuf vs).length then .throw else .ok (serializeBuf vs)

/-- `vec_str_matches_blob`, lines 1120-1169. A violated assertion is `ub`. -/
def matchesBlob (blob : Bytes) : List Bytes → Res Bool
  | [] => .ok blob.isEmpty
  | s :: ss =>
    if blob.isEmpty then .ok false
    else if blob.length < 8 then .ub
    else
      let n := decodeLen (blob.take 8)
      let rest := blob.drop 8
      if rest.length < n then .ub
      else if s = rest.take n then matchesBlob (rest.drop n) ss
      else .ok false

/-- `deserialize_vec_str`, lines 1172-1207. A violated assertion is `ub`. -/
def deserialize (blob : Bytes) : Res (List Bytes) :=
  if _h : blob.isEmpty then .ok []
  else if _h8 : blob.length < 8 then .ub
  else
    if (blob.drop 8).length < decodeLen (blob.take 8) then .ub
    else
      (deserialize ((blob.drop 8).drop (decodeLen (blob.take 8)))).bind fun ss =>
        .ok ((blob.drop 8).take (decodeLen (blob.take 8)) :: ss)
termination_by blob.length
decreasing_by
  simp only [List.length_drop]; omega

end Heyoka.Cache
