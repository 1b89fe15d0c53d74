import Verif.Search.UpperBound
import Verif.Util.Loop
import Mathlib.Algebra.Order.Field.Basic
import Mathlib.Algebra.Order.Floor.Ring

/-!
# EOP/SW tables: date lookup, interpolation, names of the generated globals

Model of src/detail/eop_sw_helpers.cpp and of src/model/eop.cpp. Floating-point values are
`Option K` with `K` an ordered field: `none` is NaN (arithmetic is exact otherwise).
-/

namespace Heyoka.EopSw

open Search

section Lookup

variable {K : Type*} [LinearOrder K]

/-- Comparison used by the search, `arr[it] ULE date_value` (true if `date_value` is NaN).
src/detail/llvm_helpers_algo.cpp 83-268. -/
def ule (date : Option K) (x : K) : Bool :=
  match date with
  | none => true
  | some v => decide (x ≤ v)

/-- Index adjustment after the search: `ret = (idx == 0) ? arr_size : idx`, then
`ret = (ret == arr_size) ? ret : ret - 1`. src/detail/eop_sw_helpers.cpp 303-310. -/
def adjust (arrSize idx : Nat) : Nat :=
  let ret := if idx = 0 then arrSize else idx
  if ret = arrSize then ret else ret - 1

/-- `llvm_eop_sw_data_locate_date()` for a scalar date: src/detail/eop_sw_helpers.cpp 234-337. -/
def locateDate (dates : List K) (date : Option K) : Res Nat :=
  (upperBound dates (ule date)).bind fun idx => .ok (adjust dates.length idx)

/-- `llvm_eop_sw_data_locate_date()` for a vector of dates: src/detail/eop_sw_helpers.cpp 234-337. -/
def locateDateVec (dates : List K) (qs : List (Option K)) : Res (List Nat) :=
  (vecUpperBound dates (qs.map ule)).bind fun idxs => .ok (idxs.map (adjust dates.length))

end Lookup

section Interp

variable {K : Type*} [Field K] [LinearOrder K]

/-- Array load; reading past the end is undefined behaviour. -/
def load {α : Type*} (xs : List α) (i : Nat) : Res α :=
  match xs[i]? with
  | some x => .ok x
  | none => .ub

/-- Floating-point division: a division by zero does not produce a finite value (`none`). -/
def fdiv (a b : K) : Option K := if b = 0 then none else some (a / b)

/-- The values fetched around a date: `t0`, `t1`, `eop_sw0`, `eop_sw1`; `none` stands for four
NaNs. src/detail/eop_sw_helpers.cpp 449-520: scalar branch (452-487, no load when
`idx == arr_size`), each lane of the vector branch (488-520, masked gathers). -/
def fetch (dates vals : List K) (idx : Nat) : Res (Option (K × K × K × K)) :=
  if idx = dates.length then .ok none
  else
    (load dates idx).bind fun t0 => (load dates (idx + 1)).bind fun t1 =>
      (load vals idx).bind fun e0 => (load vals (idx + 1)).bind fun e1 =>
        .ok (some (t0, t1, e0, e1))

/-- Linear interpolation: value and derivative. src/detail/eop_sw_helpers.cpp 524-541. -/
def lerp (date : Option K) (d : Option (K × K × K × K)) : Option K × Option K :=
  match d with
  | none => (none, none)
  | some (t0, t1, e0, e1) =>
    (match date with
      | none => none
      | some t => fdiv (e0 * (t1 - t) + e1 * (t - t0)) (t1 - t0),
     fdiv (e1 - e0) (t1 - t0))

/-- The function generated by `llvm_get_eop_sw_func()` for scalar arguments:
src/detail/eop_sw_helpers.cpp 386-553. Returns the pair (quantity, derivative). -/
def evalEopSw (dates vals : List K) (date : Option K) : Res (Option K × Option K) :=
  (locateDate dates date).bind fun idx => (fetch dates vals idx).bind fun d => .ok (lerp date d)

/-- The function generated by `llvm_get_eop_sw_func()` for vector arguments:
src/detail/eop_sw_helpers.cpp 386-553. -/
def evalEopSwVec (dates vals : List K) (qs : List (Option K)) : Res (List (Option K × Option K)) :=
  (locateDateVec dates qs).bind fun idxs =>
    mapLanes (fun (qi : Option K × Nat) =>
      (fetch dates vals qi.2).bind fun d => .ok (lerp qi.1 d)) (qs.zip idxs)

/-- Floored modulus `x - y * floor(x / y)`: `llvm_dl_modulus()`, src/detail/llvm_helpers_dl.cpp 258-285
(double-length arithmetic idealised as exact). -/
def modulus [FloorRing K] (x y : K) : K := x - y * ((⌊x / y⌋ : Int) : K)

/-- The function generated by `llvm_get_eop_angle_func_dl()` (era, gmst82): src/model/eop.cpp
57-297. Same lookup and interpolation (in double-length arithmetic, here exact), and the angle is
reduced modulo `twopi`. -/
def evalEopAngle [FloorRing K] (twopi : K) (dates vals : List K) (date : Option K) :
    Res (Option K × Option K) :=
  (evalEopSw dates vals date).bind fun r => .ok (r.1.map fun x => modulus x twopi, r.2)

end Interp

section Validate

/-- A row of a table: the date and the other values; `none` is a non-finite value.
include/heyoka/eop_data.hpp (eop_data_row), include/heyoka/sw_data.hpp (sw_data_row). -/
structure Row (K : Type*) where
  /-- date -/
  mjd : Option K
  /-- the other quantities -/
  vals : List (Option K)

variable {K : Type*} [LinearOrder K]

/-- Comparison of a date with the next one: `!(cur_mjd >= next_mjd)`, true if one of the two is
NaN or there is no next row. src/eop_data.cpp 103, src/sw_data.cpp 101. -/
def nextOk (a b : Option K) : Bool :=
  match a, b with
  | some x, some y => !decide (x ≥ y)
  | _, _ => true

/-- Row checks in order: the first failing check throws. `validate_eop_data_table()`,
src/eop_data.cpp 93-139; `validate_sw_data_table()`, src/sw_data.cpp 90-135, where in addition the
quantities must be non-negative (`nonneg`). -/
def checkRows (nonneg : K → Bool) : List (Row K) → Bool
  | [] => true
  | r :: rs =>
    r.mjd.isSome
      && nextOk r.mjd (rs.head?.bind Row.mjd)
      && r.vals.all (fun v => match v with
                              | some x => nonneg x
                              | none => false)
      && checkRows nonneg rs

/-- Validation of a table: `true` if the constructor does not throw. src/eop_data.cpp 75-140,
src/sw_data.cpp 72-135. -/
def validateTable (nonneg : K → Bool) (rs : List (Row K)) : Bool :=
  !decide (rs.length < 2) && checkRows nonneg rs

end Validate

section Names

/-- Decimal representation of an unsigned integer, as printed by `fmt`'s `{}`. -/
def decimal (n : Nat) : List Char :=
  if n < 10 then [Nat.digitChar n] else decimal (n / 10) ++ [Nat.digitChar (n % 10)]
termination_by n

/-- Metadata of a dataset which enters the generated names. -/
structure Meta where
  /-- number of rows -/
  rows : Nat
  /-- timestamp -/
  ts : List Char
  /-- identifier -/
  ident : List Char
deriving DecidableEq

/-- `eop_sw_check_ts_id()`: `true` if no exception is thrown. src/detail/eop_sw_helpers.cpp
340-377; `reserved` is the list of the reserved prefixes checked. -/
def checkTsId (m : Meta) (allowReserved : Bool) (reserved : List (List Char)) : Bool :=
  !m.ts.isEmpty && !m.ident.isEmpty
    && !(m.ts.contains '.' || m.ts.contains '-')
    && !(m.ident.contains '.' || m.ident.contains '-')
    && (allowReserved || reserved.all fun r => !r.isPrefixOf m.ident)

/-- Tail of the generated names: ".{rows}.{timestamp}-{identifier}.{type}". -/
def nameTail (m : Meta) (ty : List Char) : List Char :=
  '.' :: decimal m.rows ++ '.' :: m.ts ++ '-' :: m.ident ++ '.' :: ty

/-- Name of a global array: `llvm_get_eop_sw_data()`, src/detail/eop_sw_helpers.cpp 107-108. -/
def dataName (dataId arrName : List Char) (m : Meta) (ty : List Char) : List Char :=
  ['h', 'e', 'y', 'o', 'k', 'a', '.'] ++ dataId ++ ['_', 'd', 'a', 't', 'a', '_'] ++ arrName ++ nameTail m ty

/-- Name of an interpolation function: `llvm_get_eop_sw_func()`, src/detail/eop_sw_helpers.cpp
410-411, and `llvm_get_eop_angle_func_dl()`, src/model/eop.cpp 95-96. -/
def funcName (descr name : List Char) (m : Meta) (ty : List Char) : List Char :=
  ['h', 'e', 'y', 'o', 'k', 'a', '.'] ++ descr ++ ['_', 'g', 'e', 't', '_'] ++ name ++ '_' :: name ++ 'p' :: nameTail m ty

/-- Globals of a module: name and contents. -/
abbrev Globals (V : Type*) := List (List Char × V)

/-- Get-or-create of a global by name: `llvm_get_eop_sw_data()`, src/detail/eop_sw_helpers.cpp
115-148. The contents are those found under the name, or the newly created ones. -/
def getOrCreate {V : Type*} (g : Globals V) (name : List Char) (v : V) : Globals V × V :=
  match g.lookup name with
  | some w => (g, w)
  | none => ((name, v) :: g, v)

end Names

end Heyoka.EopSw
