import Verif.Cache.Disk
import Mathlib.Data.List.Sort
import Mathlib.Order.Lex
import Mathlib.Data.List.Lex

/-!
# Model of compilation through the cache

`src/llvm_state.cpp`: `assemble_comp_flag` (lines 1483-1501), `llvm_state::compile` (lines
1507-1593), `llvm_multi_state::compile` (lines 2430-2537).
-/

namespace Heyoka.Cache

/-- The compilation settings which are part of the cache key, with the ranges asserted at lines
1493-1494. -/
structure Settings where
  optLevel : Fin 4
  avx512 : Bool
  slp : Bool
  codeModel : Fin 8
deriving DecidableEq

/-- `assemble_comp_flag`, lines 1490-1501. -/
def compFlag (st : Settings) : UInt32 :=
  UInt32.ofNat (st.optLevel.val + (st.avx512.toNat <<< 2) + (st.slp.toNat <<< 3)
    + (st.codeModel.val <<< 4))

/-- The key under which the compilation of a list of modules is cached, lines 1537-1544 (a single
module) and 2456-2468. -/
def compileKey (mods : List Bytes) (st : Settings) : Key := ⟨mods, compFlag st⟩

/-- The optimised bitcode, IR and object code of one module. -/
structure ModOut where
  bc : Bytes
  ir : Bytes
  obj : Bytes

/-- Lexicographic comparison of strings (`std::string::operator<` compares bytes as unsigned). -/
def bytesLe (a b : Bytes) : Bool := decide (a.map UInt8.toNat ≤ b.map UInt8.toNat)

/-- What is stored by `llvm_multi_state::compile` after a cache miss, lines 2506-2526: the modules are
optimised and compiled by several threads, and the results are appended to three vectors in orders
`o1`, `o2`, `o3` that depend on the schedule; then each vector is sorted. For a single module
(`llvm_state::compile`, lines 1581-1584) there is nothing to sort. `out` is the deterministic
optimisation and compilation of one module. -/
def arrival (out : Bytes → ModOut) (o1 o2 o3 : List Bytes) : Val :=
  ⟨(o1.map fun m => (out m).bc).mergeSort bytesLe, (o2.map fun m => (out m).ir).mergeSort bytesLe,
   (o3.map fun m => (out m).obj).mergeSort bytesLe⟩

/-- What `compile` ends up with, given the reply to the cache lookup and the order of arrival of the
results in case of a miss; an exception during the lookup is propagated. -/
def compileOutcome (out : Bytes → ModOut) (reply : Reply) (o1 o2 o3 : List Bytes) : Res Val :=
  match reply with
  | .value v => .ok v
  | .none => .ok (arrival out o1 o2 o3)
  | .threw => .throw

end Heyoka.Cache
