import Verif.Go.Basic
/-
Go's `time` package as far as the code uses it: UTC dates at noon, i.e. days of the proleptic Gregorian calendar.
A `time.Time` is the number of its day; day 0 is 0001/01/01 (the zero `time.Time`), a Monday.
-/
namespace Verif

/-- Leap years of the Gregorian calendar (`time.isLeap`). -/
def isLeap (y : Int) : Bool := decide (y % 4 = 0 ∧ (y % 100 ≠ 0 ∨ y % 400 = 0))

/-- Number of the first day of year `y` (`time.daysSinceEpoch`, any year). -/
def yearStart (y : Int) : Int := 365 * (y - 1) + (y - 1) / 4 - (y - 1) / 100 + (y - 1) / 400

/-- Days of the year before month `m` (1..12) (`time.daysBefore`). -/
def monthStart (leap : Bool) (m : Int) : Int :=
  if m ≤ 1 then 0
  else if m = 2 then 31
  else (if leap then 1 else 0) +
    (if m = 3 then 59 else if m = 4 then 90 else if m = 5 then 120 else if m = 6 then 151 else if m = 7 then 181
     else if m = 8 then 212 else if m = 9 then 243 else if m = 10 then 273 else if m = 11 then 304 else 334)

/-- `time.Date(y, m, d, 12, 0, 0, 0, time.UTC)`: months outside 1..12 carry into the year, days outside the month into the
month. -/
def goDate (y m d : Int) : Int :=
  let y' := y + (m - 1) / 12
  let m' := (m - 1) % 12 + 1
  yearStart y' + monthStart (isLeap y') m' + (d - 1)

/-- The year of a day: 400-, 100-, 4- and 1-year cycles (`time.(Time).Year`). -/
def goYear (n : Int) : Int :=
  let c400 := n / 146097
  let r := n % 146097
  let c100 := min (r / 36524) 3
  let r := r - 36524 * c100
  let c4 := r / 1461
  let r := r % 1461
  let c1 := min (r / 365) 3
  400 * c400 + 100 * c100 + 4 * c4 + c1 + 1

/-- The month of the day with number `d` (from 0) of a year, `k` being 1 in a leap year. -/
def monthChain (k d : Int) : Int :=
  if d < 31 then 1 else if d < 59 + k then 2 else if d < 90 + k then 3 else if d < 120 + k then 4 else if d < 151 + k then 5
  else if d < 181 + k then 6 else if d < 212 + k then 7 else if d < 243 + k then 8 else if d < 273 + k then 9
  else if d < 304 + k then 10 else if d < 334 + k then 11 else 12

/-- The month of the day with number `yday` (from 0) of a year (`time.(Time).Date`). -/
def monthOf (leap : Bool) (yday : Int) : Int := monthChain (if leap then 1 else 0) yday

/-- `(Time).Date`: month of the year. -/
def goMonth (n : Int) : Int := monthOf (isLeap (goYear n)) (n - yearStart (goYear n))

/-- `(Time).Date`: day of the month. -/
def goDay (n : Int) : Int := n - yearStart (goYear n) - monthStart (isLeap (goYear n)) (goMonth n) + 1

/-- `(Time).Weekday`: 0 is Sunday. -/
def weekday (n : Int) : Int := (n + 1) % 7

/-- `(Time).AddDate`. -/
def addDate (n years months days : Int) : Int := goDate (goYear n + years) (goMonth n + months) (goDay n + days)

/-- Days in a month (`time.daysIn`). -/
def daysIn (leap : Bool) (m : Int) : Int :=
  if m = 2 then (if leap then 29 else 28) else if m = 4 ∨ m = 6 ∨ m = 9 ∨ m = 11 then 30 else 31

end Verif
