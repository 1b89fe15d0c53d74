import Verif.Util.Res
import Verif.Util.XF
import Mathlib.Algebra.Order.Floor.Defs

/-!
# Parsing of the EOP and space weather files

Model of `parse_eop_data_iers_rapid()` (src/eop_data_iers_rapid.cpp), `parse_eop_data_iers_long_term()`
(src/eop_data_iers_long_term.cpp), `parse_eop_data_celestrak()` (src/eop_data_celestrak.cpp), `parse_sw_data_celestrak()` and
`reanchor_sw_data_celestrak()` (src/sw_data_celestrak.cpp). Texts are lists of characters. Parameters: `num` is
`boost::charconv::from_chars()` for `double` when the whole range is consumed (`none` stands for an error or characters left over),
`cal2jd` is `eraCal2jd()` (`none` for a nonzero return value). Arithmetic is exact.
-/

namespace Heyoka.EopSw

variable {K : Type*}

/-! ### Texts -/

/-- The pieces of a text between the separators. -/
def pieces (c : Char) : List Char → List (List Char)
  | [] => [[]]
  | x :: xs => if x = c then [] :: pieces c xs
    else match pieces c xs with
      | [] => [[x]]
      | l :: ls => (x :: l) :: ls

/-- `std::views::split(c)`: an empty range has no pieces. -/
def viewSplit (c : Char) (s : List Char) : List (List Char) := if s.isEmpty then [] else pieces c s

/-- A row of an EOP table: include/heyoka/eop_data.hpp 35-46. -/
structure EopRow (K : Type*) where
  /-- `mjd` -/
  mjd : XF K
  /-- `delta_ut1_utc` -/
  dut1 : XF K
  /-- `pm_x` -/
  pmx : XF K
  /-- `pm_y` -/
  pmy : XF K
  /-- `dX` -/
  dX : XF K
  /-- `dY` -/
  dY : XF K
deriving DecidableEq

/-- `parse_eop_data_celestrak_double()` (src/eop_data_celestrak.cpp 34-50), `parse_eop_data_iers_long_term_double()`
(src/eop_data_iers_long_term.cpp 35-51). -/
def parseDouble (num : List Char → Option (XF K)) (s : List Char) : Res (XF K) :=
  match num s with
  | some x => .ok x
  | none => .throw

/-! ### CSV files -/

/-- A loop over the lines of a file which appends the rows: `break` is `none`. Used by all the parsers. -/
def parseLines {R : Type*} (row : List Char → Res (Option R)) : List (List Char) → List R → Res (List R)
  | [], acc => .ok acc
  | l :: ls, acc =>
    if l.isEmpty then .ok acc
    else (row l).bind fun r =>
      match r with
      | none => .ok acc
      | some r => parseLines row ls (acc ++ [r])

/-- A loop over the fields of a line: `last` is the index of the last field, `upd` is the switch. The results are the values and the
number of fields read. -/
def fieldLoop {S : Type*} (last : Nat) (upd : Nat → List Char → S → Res S) : List (List Char) → Nat → S → Res (S × Nat)
  | [], i, s => .ok (s, i)
  | f :: fs, i, s => if i ≤ last then (upd i f s).bind fun s => fieldLoop last upd fs (i + 1) s else .ok (s, i)

/-- Multiplication by a positive number. -/
def scalePos [Mul K] (k : K) : XF K → XF K
  | .fin x => .fin (k * x)
  | x => x

/-- The initial values of the fields. -/
def EopRow.zero [Zero K] : EopRow K := ⟨.fin 0, .fin 0, .fin 0, .fin 0, .fin 0, .fin 0⟩

/-- The switch for CelesTrak's files: src/eop_data_celestrak.cpp 82-110. -/
def celestrakUpd [Field K] (num : List Char → Option (XF K)) (i : Nat) (f : List Char) (r : EopRow K) : Res (EopRow K) :=
  match i with
  | 1 => (parseDouble num f).bind fun x => .ok { r with mjd := x }
  | 2 => (parseDouble num f).bind fun x => .ok { r with pmx := x }
  | 3 => (parseDouble num f).bind fun x => .ok { r with pmy := x }
  | 4 => (parseDouble num f).bind fun x => .ok { r with dut1 := x }
  | 8 => (parseDouble num f).bind fun x => .ok { r with dX := scalePos 1000 x }
  | 9 => (parseDouble num f).bind fun x => .ok { r with dY := scalePos 1000 x }
  | _ => .ok r

/-- The switch for the long term files: src/eop_data_iers_long_term.cpp 83-109. -/
def longTermUpd (num : List Char → Option (XF K)) (i : Nat) (f : List Char) (r : EopRow K) : Res (EopRow K) :=
  match i with
  | 0 => (parseDouble num f).bind fun x => .ok { r with mjd := x }
  | 5 => (parseDouble num f).bind fun x => .ok { r with pmx := x }
  | 7 => (parseDouble num f).bind fun x => .ok { r with pmy := x }
  | 14 => (parseDouble num f).bind fun x => .ok { r with dut1 := x }
  | 23 => (parseDouble num f).bind fun x => .ok { r with dX := x }
  | 25 => (parseDouble num f).bind fun x => .ok { r with dY := x }
  | _ => .ok r

/-- The body of the loop over the lines: src/eop_data_celestrak.cpp 62-124, src/eop_data_iers_long_term.cpp 63-123. -/
def eopRow [Zero K] (sep : Char) (last : Nat) (upd : Nat → List Char → EopRow K → Res (EopRow K)) (line : List Char) : Res (Option (EopRow K)) :=
  (fieldLoop last upd (viewSplit sep line) 0 EopRow.zero).bind fun r => if r.2 ≠ last + 1 then .throw else .ok (some r.1)

/-- `parse_eop_data_celestrak()`: src/eop_data_celestrak.cpp 57-127. -/
def parseCelestrak [Field K] (num : List Char → Option (XF K)) (text : List Char) : Res (List (EopRow K)) :=
  parseLines (eopRow ',' 9 (celestrakUpd num)) ((viewSplit '\n' text).drop 1) []

/-- `parse_eop_data_iers_long_term()`: src/eop_data_iers_long_term.cpp 58-126. -/
def parseLongTerm [Zero K] (num : List Char → Option (XF K)) (text : List Char) : Res (List (EopRow K)) :=
  parseLines (eopRow ';' 25 (longTermUpd num)) ((viewSplit '\n' text).drop 1) []

/-! ### IERS rapid files -/

/-- The characters of the line in the columns `[b, b + n)` (pointers `begin`, `end`): reading beyond the end of the line is undefined behaviour. -/
def columns (line : List Char) (b n : Nat) : Res (List Char) := if b + n ≤ line.length then .ok ((line.drop b).take n) else .ub

/-- The loop which skips the leading blanks: src/eop_data_iers_rapid.cpp 51-52, 85-86, 109-110. -/
def skipBlanks : List Char → List Char
  | [] => []
  | x :: xs => if x = ' ' then skipBlanks xs else x :: xs

/-- `parse_eop_data_iers_rapid_mjd()`: src/eop_data_iers_rapid.cpp 42-64. -/
def rapidMjd (num : List Char → Option (XF K)) (line : List Char) : Res (XF K) :=
  (columns line 7 8).bind fun s => parseDouble num (skipBlanks s)

/-- `parse_eop_data_iers_rapid_field()`: src/eop_data_iers_rapid.cpp 73-127. -/
def rapidField (num : List Char → Option (XF K)) (line : List Char) (bB nB bA nA : Nat) : Res (Option (XF K)) :=
  (columns line bB nB).bind fun s =>
    if !(skipBlanks s).isEmpty then (parseDouble num (skipBlanks s)).bind fun x => .ok (some x)
    else (columns line bA nA).bind fun s =>
      if (skipBlanks s).isEmpty then .ok none else (parseDouble num (skipBlanks s)).bind fun x => .ok (some x)

/-- Continue if the value is present, else break. -/
def orBreak {α R : Type*} (x : Res (Option α)) (f : α → Res (Option R)) : Res (Option R) :=
  x.bind fun
    | none => .ok none
    | some a => f a

/-- The body of the loop over the lines: src/eop_data_iers_rapid.cpp 139-188. -/
def rapidRow (num : List Char → Option (XF K)) (line : List Char) : Res (Option (EopRow K)) :=
  if line.length < 185 then .throw
  else (rapidMjd num line).bind fun mjd =>
    orBreak (rapidField num line 154 11 58 10) fun dut1 =>
    orBreak (rapidField num line 134 10 18 9) fun pmx =>
    orBreak (rapidField num line 144 10 37 9) fun pmy =>
    orBreak (rapidField num line 165 10 97 9) fun dX =>
    orBreak (rapidField num line 175 10 116 9) fun dY =>
    .ok (some ⟨mjd, dut1, pmx, pmy, dX, dY⟩)

/-- `parse_eop_data_iers_rapid()`: src/eop_data_iers_rapid.cpp 134-192. -/
def parseRapid (num : List Char → Option (XF K)) (text : List Char) : Res (List (EopRow K)) :=
  parseLines (rapidRow num) (viewSplit '\n' text) []

/-! ### Space weather files -/

/-- A row of a space weather table: include/heyoka/sw_data.hpp 35-45. -/
structure SwRow (K : Type*) where
  /-- `mjd` -/
  mjd : XF K
  /-- `Ap_avg` -/
  ap : XF K
  /-- `f107` -/
  f107 : XF K
  /-- `f107a_center81` -/
  f107a : XF K
deriving DecidableEq

/-- `parse_sw_data_celestrak_value()`: src/sw_data_celestrak.cpp 40-62. -/
def swValue (num : List Char → Option (XF K)) (s : List Char) : Res (Option (XF K)) :=
  if s.isEmpty then .ok none else (parseDouble num s).bind fun x => .ok (some x)

/-- The value of a sequence of decimal digits, if it is one. -/
def digitsVal : List Char → Nat → Option Nat
  | [], acc => some acc
  | c :: cs, acc => if '0'.toNat ≤ c.toNat ∧ c.toNat ≤ '9'.toNat then digitsVal cs (10 * acc + (c.toNat - '0'.toNat)) else none

/-- `from_chars()` for `int` when the whole range is consumed; the ranges used here are too short for an overflow. -/
def intVal : List Char → Option Int
  | [] => none
  | '-' :: cs => if cs.isEmpty then none else (digitsVal cs 0).map fun n => -(n : Int)
  | cs => (digitsVal cs 0).map fun n => (n : Int)

/-- Remove leading zeroes. -/
def skipZeros : List Char → List Char
  | [] => []
  | x :: xs => if x = '0' then skipZeros xs else x :: xs

/-- `parse_ymd`: src/sw_data_celestrak.cpp 82-100. -/
def parseYmd (s : List Char) : Res Int :=
  match intVal (if 1 < s.length then skipZeros s else s) with
  | some n => .ok n
  | none => .throw

/-- `parse_sw_data_celestrak_mjd()`: src/sw_data_celestrak.cpp 67-120. -/
def swMjd (cal2jd : Int → Int → Int → Option K) (s : List Char) : Res (XF K) :=
  if s.length ≠ 10 ∨ (viewSplit '-' s).length ≠ 3 then .throw
  else
    (columns s 0 4).bind fun y => (parseYmd y).bind fun year =>
    (columns s 5 2).bind fun m => (parseYmd m).bind fun month =>
    (columns s 8 2).bind fun d => (parseYmd d).bind fun day =>
      match cal2jd year month day with
      | none => .throw
      | some x => .ok (.fin x)

/-- The switch: src/sw_data_celestrak.cpp 160-193. The flag is `missing_data`. -/
def swUpd (num : List Char → Option (XF K)) (cal2jd : Int → Int → Int → Option K) (i : Nat) (f : List Char) (r : SwRow K × Bool) :
    Res (SwRow K × Bool) :=
  match i with
  | 0 => (swMjd cal2jd f).bind fun x => .ok ({ r.1 with mjd := x }, r.2)
  | 20 => (swValue num f).bind fun
    | some x => .ok ({ r.1 with ap := x }, r.2)
    | none => .ok (r.1, true)
  | 24 => (swValue num f).bind fun
    | some x => .ok ({ r.1 with f107 := x }, r.2)
    | none => .ok (r.1, true)
  | 27 => (swValue num f).bind fun
    | some x => .ok ({ r.1 with f107a := x }, r.2)
    | none => .ok (r.1, true)
  | _ => .ok r

/-- The body of the loop over the lines: src/sw_data_celestrak.cpp 138-212. -/
def swRow [Zero K] (num : List Char → Option (XF K)) (cal2jd : Int → Int → Int → Option K) (line : List Char) : Res (Option (SwRow K)) :=
  (fieldLoop 27 (swUpd num cal2jd) (viewSplit ',' line) 0 (⟨.fin 0, .fin 0, .fin 0, .fin 0⟩, false)).bind fun r =>
    if r.2 ≠ 28 then .throw else if r.1.2 then .ok none else .ok (some r.1.1)

/-- `parse_sw_data_celestrak()`: src/sw_data_celestrak.cpp 130-215. -/
def parseSw [Zero K] (num : List Char → Option (XF K)) (cal2jd : Int → Int → Int → Option K) (text : List Char) : Res (List (SwRow K)) :=
  parseLines (swRow num cal2jd) ((viewSplit '\n' text).drop 1) []

section
variable [Field K] [LinearOrder K] [IsStrictOrderedRing K] [FloorRing K]

/-- The checks on the dates: src/sw_data_celestrak.cpp 237-275. The first argument is the date of the previous row. -/
def reanchorChecks : Option (XF K) → List (SwRow K) → Bool
  | _, [] => true
  | prev, r :: rs =>
    (match r.mjd with
      | .fin x => decide ((⌊x⌋ : K) = x) && decide (|x| ≤ 4294967295)
      | _ => false) &&
    (match prev with
      | none => true
      | some p => p.lt r.mjd && (r.mjd.sub p).feq (.fin 1)) && reanchorChecks (some r.mjd) rs

/-- `f107_off`: src/sw_data_celestrak.cpp 293-296. -/
def f107Off (mjd : K) : K := if mjd < 48408 then 17 / 24 else 20 / 24

/-- `linterp`: src/sw_data_celestrak.cpp 302-305; here `t0 < t1` and `t0 < t`. -/
def linterp (t0 : K) (q0 : XF K) (t1 : K) (q1 : XF K) (t : K) : XF K := q0.add (scalePos (t - t0) (scalePos (1 / (t1 - t0)) (q1.sub q0)))

/-- A re-anchored row: src/sw_data_celestrak.cpp 309-322. -/
def reanchorRow (p c : SwRow K) : Res (SwRow K) :=
  match p.mjd, c.mjd with
  | .fin a, .fin b => .ok ⟨.fin b, linterp (a + 1 / 2) p.ap (b + 1 / 2) c.ap b, linterp (a + f107Off a) p.f107 (b + f107Off b) c.f107 b,
      linterp (a + 1 / 2) p.f107a (b + 1 / 2) c.f107a b⟩
  -- Not reachable after the checks.
  | _, _ => .ub

/-- The loop, in place: src/sw_data_celestrak.cpp 308-323. -/
def reanchorLoop (tbl : List (SwRow K)) : Nat → Nat → Res (List (SwRow K))
  | 0, _ => .ok tbl
  | n + 1, i =>
    match tbl[i - 1]?, tbl[i]? with
    | some p, some c => (reanchorRow p c).bind fun r => reanchorLoop (tbl.set (i - 1) r) n (i + 1)
    | _, _ => .ub

/-- `reanchor_sw_data_celestrak()`: src/sw_data_celestrak.cpp 222-327. -/
def reanchor (tbl : List (SwRow K)) : Res (List (SwRow K)) :=
  if tbl.length < 3 then .throw
  else if !reanchorChecks none tbl then .throw
  else (reanchorLoop tbl (tbl.length - 1) 1).bind fun t => .ok t.dropLast

end

end Heyoka.EopSw
