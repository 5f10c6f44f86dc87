import Verif.Go.Calendar
/-
Time reducers of the aggregated register (cmd/coin/totals.go:683-724). Times are day numbers (all at noon UTC).
-/
namespace Verif

/-- `week.reduce` (totals.go:684-691): the Sunday on or before. -/
def weekReduce (t : Int) : Int :=
  let t' := addDate t 0 0 (-(weekday t))
  goDate (goYear t') (goMonth t') (goDay t')

/-- `month.reduce` (totals.go:695-700). -/
def monthReduce (t : Int) : Int := goDate (goYear t) (goMonth t) 1

/-- `quarter.reduce` (totals.go:704-709); Go's integer division truncates, months are positive. -/
def quarterReduce (t : Int) : Int := goDate (goYear t) (Int.tdiv (goMonth t - 1) 3 * 3 + 1) 1

/-- `year.reduce` (totals.go:713-718). -/
def yearReduce (t : Int) : Int := goDate (goYear t) 1 1

end Verif
