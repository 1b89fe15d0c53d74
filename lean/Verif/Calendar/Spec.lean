import Mathlib.Algebra.Order.Ring.Rat
import Mathlib.Data.Int.Order.Basic
import Mathlib.Tactic.NormNum

/-!
# Specification of the Gregorian calendar and of UTC since 1972

Independent of the code: the rules of the proleptic Gregorian calendar, and the list of the leap
seconds.
-/

namespace Heyoka.Cal

/-- The leap years of the Gregorian calendar. -/
def IsLeap (y : ℤ) : Prop := 4 ∣ y ∧ (¬ 100 ∣ y ∨ 400 ∣ y)

instance (y : ℤ) : Decidable (IsLeap y) := by unfold IsLeap; infer_instance

/-- The number of days of a month. -/
def monthLen (y m : ℤ) : ℤ :=
  if m = 2 then (if IsLeap y then 29 else 28)
  else if m = 4 ∨ m = 6 ∨ m = 9 ∨ m = 11 then 30 else 31

/-- The dates of the calendar. -/
def ValidDate (y m d : ℤ) : Prop := 1 ≤ m ∧ m ≤ 12 ∧ 1 ≤ d ∧ d ≤ monthLen y m

instance (y m d : ℤ) : Decidable (ValidDate y m d) := by unfold ValidDate; infer_instance

/-- `N` numbers the days of the proleptic Gregorian calendar: it increases by one from day to day, the
first of a month comes after the last day of the month before, and 1 January 2000 is the day 51544
(the modified Julian date). -/
structure IsCalendar (N : ℤ → ℤ → ℤ → ℤ) : Prop where
  epoch : N 2000 1 1 = 51544
  day : ∀ y m d, N y m (d + 1) = N y m d + 1
  month : ∀ y m, 1 ≤ m → m < 12 → N y (m + 1) 1 = N y m (monthLen y m) + 1
  year : ∀ y, N (y + 1) 1 1 = N y 12 31 + 1

/-- The months at whose first day TAI-UTC increased by one second, since 1972. -/
def leapMonths : List (ℤ × ℤ) :=
  [(1972, 7), (1973, 1), (1974, 1), (1975, 1), (1976, 1), (1977, 1), (1978, 1), (1979, 1), (1980, 1),
   (1981, 7), (1982, 7), (1983, 7), (1985, 7), (1988, 1), (1990, 1), (1991, 1), (1992, 7), (1993, 7),
   (1994, 7), (1996, 1), (1997, 7), (1999, 1), (2006, 1), (2009, 1), (2012, 7), (2015, 7), (2017, 1)]

/-- TAI-UTC in seconds in a month since 1972: ten seconds on 1 January 1972, and one more for each leap
second since then. -/
def taiMinusUtc (y m : ℤ) : ℕ :=
  10 + (leapMonths.filter fun p => p.1 < y ∨ p.1 = y ∧ p.2 ≤ m).length

end Heyoka.Cal
