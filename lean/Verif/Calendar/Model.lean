import Mathlib.Algebra.Order.Floor.Ring
import Mathlib.Algebra.Order.Ring.Rat
import Mathlib.Data.Rat.Cast.Order
import Mathlib.Data.Rat.Floor
import Mathlib.Tactic.NormNum

/-!
# Model of the `dayfrac()` time model and of the calendar routines below it

Models src/model/dayfrac.cpp 62-137 (`tt_to_dayfrac`) and the routines of the bundled ERFA library
which it calls: src/detail/erfa/{jd2cal,cal2jd,dat,utctai,taiutc,tttai,taitt}.c.

Simplifications, for the whole file:

* double-precision numbers are replaced by exact numbers of an ordered field. The compensated
  summations then have corrections which are zero, and `DBL_EPSILON` is zero;
* a negative status of an ERFA routine is `none`. The callers only ask whether the status is negative
  (or nonzero, for the routines which never return a positive status). The positive status "dubious
  year" changes nothing but a log message and is not modelled;
* C's `/` and `%` on signed integers truncate towards zero: `Int.tdiv` and `Int.tmod`.
-/

namespace Heyoka.Cal

variable {K : Type*} [Field K] [LinearOrder K] [IsStrictOrderedRing K] [FloorRing K]

/-- src/detail/erfa/erfam.h 98-101, `ERFA_DNINT`. -/
def dnint (x : K) : ℤ :=
  if |x| < 1 / 2 then 0 else if x < 0 then ⌈x - 1 / 2⌉ else ⌊x + 1 / 2⌋

/-- src/detail/erfa/jd2cal.c 132-142: from a Julian day number to year, month and day. -/
def civil (jd : ℤ) : ℤ × ℤ × ℤ :=
  let l := jd + 68569
  let n := (4 * l).tdiv 146097
  let l := l - (146097 * n + 3).tdiv 4
  let i := (4000 * (l + 1)).tdiv 1461001
  let l := l - ((1461 * i).tdiv 4 - 31)
  let k := (80 * l).tdiv 2447
  let d := l - (2447 * k).tdiv 80
  let l := k.tdiv 11
  (100 * (n - 49) + i + l, k + 2 - 12 * l, d)

/-- src/detail/erfa/jd2cal.c 93-102: one iteration of the summation loop, on the pair of day number
and fraction. -/
def addFrac (p : ℤ × K) (x : K) : ℤ × K :=
  if 1 ≤ p.2 + x then (p.1 + 1, p.2 + x - 1) else (p.1, p.2 + x)

/-- src/detail/erfa/jd2cal.c 106-116: a negative fraction is moved to the preceding day. -/
def fixNeg (p : ℤ × K) : ℤ × K := if p.2 < 0 then (p.1 - 1, p.2 + 1) else p

/-- src/detail/erfa/jd2cal.c 118-130: a fraction of one or more is moved to the next day. -/
def fixOne (p : ℤ × K) : ℤ × K :=
  if 0 ≤ p.2 - 1 then
    if 0 < p.2 - 1 then (p.1 + 1, max (p.2 - 1) 0) else (p.1, p.2 - 1)
  else p

/-- src/detail/erfa/jd2cal.c 80-130: day number and fraction of a two-part Julian date. -/
def splitJd (dj1 dj2 : K) : ℤ × K :=
  fixOne (fixNeg (addFrac (addFrac (dnint dj1 + dnint dj2, 1 / 2) (dj1 - dnint dj1))
    (dj2 - dnint dj2)))

/-- src/detail/erfa/jd2cal.c 67-150, `eraJd2cal`. -/
def jd2cal (dj1 dj2 : K) : Option ((ℤ × ℤ × ℤ) × K) :=
  if dj1 + dj2 < -137139 / 2 ∨ 1000000000 < dj1 + dj2 then none
  else some (civil (splitJd dj1 dj2).1, (splitJd dj1 dj2).2)

/-- src/detail/erfa/cal2jd.c 60-61, `mtab`. -/
def mtab : List ℤ := [31, 28, 31, 30, 31, 30, 31, 31, 30, 31, 30, 31]

/-- src/detail/erfa/cal2jd.c 72, `ly`. -/
def leapDay (iy im : ℤ) : ℤ :=
  if im = 2 ∧ iy.tmod 4 = 0 ∧ (iy.tmod 100 ≠ 0 ∨ iy.tmod 400 = 0) then 1 else 0

/-- src/detail/erfa/cal2jd.c 78-84: the modified Julian date of a calendar date. -/
def calMjd (iy im id : ℤ) : ℤ :=
  let my := (im - 14).tdiv 12
  let iypmy := iy + my
  (1461 * (iypmy + 4800)).tdiv 4 + (367 * (im - 2 - 12 * my)).tdiv 12
    - (3 * (iypmy + 4900).tdiv 100).tdiv 4 + id - 2432076

/-- src/detail/erfa/cal2jd.c 52-91, `eraCal2jd`. Simplified: the first part of the result is always
`ERFA_DJM0` = 2400000.5 and is left out; the date which the C function still computes for a bad day
(status -3) is left out, no caller uses it. -/
def cal2jd (iy im id : ℤ) : Option ℤ :=
  if iy < -4799 then none
  else if im < 1 ∨ 12 < im then none
  else if id < 1 ∨ mtab.getD (im - 1).toNat 0 + leapDay iy im < id then none
  else some (calMjd iy im id)

/-- src/detail/erfa/dat.c 129-144, `drift`: reference dates and drift rates. -/
def drift : List (ℚ × ℚ) :=
  [(37300, 0.0012960), (37300, 0.0012960), (37300, 0.0012960), (37665, 0.0011232),
   (37665, 0.0011232), (38761, 0.0012960), (38761, 0.0012960), (38761, 0.0012960),
   (38761, 0.0012960), (38761, 0.0012960), (38761, 0.0012960), (38761, 0.0012960),
   (39126, 0.0025920), (39126, 0.0025920)]

/-- src/detail/erfa/dat.c 150-193, `_changes`: year, month and TAI-UTC in seconds. -/
def changes : List (ℤ × ℤ × ℚ) :=
  [(1960, 1, 1.4178180), (1961, 1, 1.4228180), (1961, 8, 1.3728180), (1962, 1, 1.8458580),
   (1963, 11, 1.9458580), (1964, 1, 3.2401300), (1964, 4, 3.3401300), (1964, 9, 3.4401300),
   (1965, 1, 3.5401300), (1965, 3, 3.6401300), (1965, 7, 3.7401300), (1965, 9, 3.8401300),
   (1966, 1, 4.3131700), (1968, 2, 4.2131700), (1972, 1, 10), (1972, 7, 11), (1973, 1, 12),
   (1974, 1, 13), (1975, 1, 14), (1976, 1, 15), (1977, 1, 16), (1978, 1, 17), (1979, 1, 18),
   (1980, 1, 19), (1981, 7, 20), (1982, 7, 21), (1983, 7, 22), (1985, 7, 23), (1988, 1, 24),
   (1990, 1, 25), (1991, 1, 26), (1992, 7, 27), (1993, 7, 28), (1994, 7, 29), (1996, 1, 30),
   (1997, 7, 31), (1999, 1, 32), (2006, 1, 33), (2009, 1, 34), (2012, 7, 35), (2015, 7, 36),
   (2017, 1, 37)]

/-- The entry `i` of the table of changes. -/
def change (i : ℕ) : ℤ × ℤ × ℚ := changes.getD i (0, 0, 0)

/-- src/detail/erfa/dat.c 249-255: the search for the preceding entry, from the last entry down; the
argument is the number of entries still to be looked at. -/
def search (m : ℤ) : ℕ → Option ℕ
  | 0 => none
  | i + 1 => if m ≥ 12 * (change i).1 + (change i).2.1 then some i else search m i

/-- src/detail/erfa/dat.c 257-261: the value of an entry, with the drift before 1972. -/
def datEntry (djm fd : K) (i : ℕ) : K :=
  if i < drift.length then
    ((change i).2.2 : K) + (djm + fd - ((drift.getD i (0, 0)).1 : K)) * ((drift.getD i (0, 0)).2 : K)
  else ((change i).2.2 : K)

/-- src/detail/erfa/dat.c 124-271, `eraDat`: TAI-UTC in seconds at a fraction of a UTC day. -/
def dat (iy im id : ℤ) (fd : K) : Option K :=
  if fd < 0 ∨ 1 < fd then none
  else (cal2jd iy im id).bind fun djm =>
    if iy < (change 0).1 then some 0
    else (search (12 * iy + im) changes.length).map (datEntry (djm : K) fd)

/-- src/detail/erfa/utctai.c 99-107: the TAI fraction of the day, from the three values of TAI-UTC. -/
def scaleFd (dat0 dat12 dat24 fd : K) : K :=
  let dlod := 2 * (dat12 - dat0)
  let dleap := dat24 - (dat0 + dlod)
  fd * ((86400 + dleap) / 86400) * ((86400 + dlod) / 86400)

/-- src/detail/erfa/utctai.c 83-115: the second part of the TAI date, for parts of the UTC date in
big-first order. -/
def utctaiA2 (u1 u2 : K) : Option K :=
  (jd2cal u1 u2).bind fun r =>
  (dat r.1.1 r.1.2.1 r.1.2.2 (0 : K)).bind fun dat0 =>
  (dat r.1.1 r.1.2.1 r.1.2.2 (1 / 2 : K)).bind fun dat12 =>
  (jd2cal (u1 + 3 / 2) (u2 - r.2)).bind fun t =>
  (dat t.1.1 t.1.2.1 t.1.2.2 (0 : K)).bind fun dat24 =>
  (cal2jd r.1.1 r.1.2.1 r.1.2.2).map fun z2 : ℤ =>
    4800001 / 2 - u1 + (z2 : K) + (scaleFd dat0 dat12 dat24 r.2 + dat0 / 86400)

/-- src/detail/erfa/utctai.c 67-129, `eraUtctai`. -/
def utctai (utc1 utc2 : K) : Option (K × K) :=
  if |utc2| ≤ |utc1| then (utctaiA2 utc1 utc2).map fun a2 => (utc1, a2)
  else (utctaiA2 utc2 utc1).map fun a2 => (a2, utc2)

/-- src/detail/erfa/taiutc.c 84-94: `n` iterations for the second part of the UTC date; the first
part stays `a1`. -/
def taiutcIter (a1 a2 : K) : ℕ → K → Option K
  | 0, u2 => some u2
  | n + 1, u2 => (utctai a1 u2).bind fun g => taiutcIter a1 a2 n (u2 + (a1 - g.1) + (a2 - g.2))

/-- src/detail/erfa/taiutc.c 64-110, `eraTaiutc`. -/
def taiutc (tai1 tai2 : K) : Option (K × K) :=
  if |tai2| ≤ |tai1| then (taiutcIter tai1 tai2 3 tai2).map fun u2 => (tai1, u2)
  else (taiutcIter tai2 tai1 3 tai1).map fun u2 => (u2, tai2)

/-- src/detail/erfa/tttai.c 44-46, `dtat`: TT-TAI in days. -/
def dtat : K := (4023 / 125) / 86400

/-- src/detail/erfa/tttai.c 42-62, `eraTttai`. -/
def tttai (tt1 tt2 : K) : K × K := if |tt2| < |tt1| then (tt1, tt2 - dtat) else (tt1 - dtat, tt2)

/-- src/detail/erfa/taitt.c 42-62, `eraTaitt`. -/
def taitt (tai1 tai2 : K) : K × K :=
  if |tai2| < |tai1| then (tai1, tai2 + dtat) else (tai1 + dtat, tai2)

/-- src/model/dayfrac.cpp 89-108: the UTC year, as two-part Julian date; variables which a failed
ERFA call does not set keep their initial value zero. -/
def yearUtc (utc : K × K) : K × K :=
  match cal2jd (((jd2cal utc.1 utc.2).map fun r => r.1.1).getD 0) 1 1 with
  | some z => (4800001 / 2, (z : K))
  | none => (0, 0)

/-- src/model/dayfrac.cpp 62-137, `tt_to_dayfrac`. The argument is in days of TT since J2000. The
double-length sum of 2451545 and `tt` is modelled by the pair of its terms; the warnings are not
modelled, the execution goes on after them with the initial zeros. -/
def dayfrac (tt : K) : K :=
  let tai := tttai 2451545 tt
  let utc := (taiutc tai.1 tai.2).getD (0, 0)
  let y := yearUtc utc
  let ytai := (utctai y.1 y.2).getD (0, 0)
  let ytt := taitt ytai.1 ytai.2
  let ret := 2451545 + tt - (ytt.1 + ytt.2)
  if 0 ≤ ret then ret else 0

/-- src/model/dayfrac.cpp 340-356: the Taylor derivatives of `dayfrac()` of a number or parameter. -/
def dayfracDiffNum (c : K) (order : ℕ) : K := if order = 0 then dayfrac c else 0

/-- src/model/dayfrac.cpp 358-392: the Taylor derivatives of `dayfrac()` of a variable with the normalised
derivatives `b`. -/
def dayfracDiffVar (b : ℕ → K) (order : ℕ) : K := if order = 0 then dayfrac (b 0) else b order

end Heyoka.Cal
