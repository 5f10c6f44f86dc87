import Verif.Go.Sort
/-
Date-range selection by binary search: `trim` (cmd/coin/utils.go), `cmdStats.transactions` (cmd/coin/stats.go) and
`TransactionsByTime.Day` (transaction.go). `date x` is the `Posted` day of an element; the slices hold non-nil pointers, so the
default of `getD` is never used. An unset `coin.Date` flag (`IsZero`) is `none`.
-/
namespace Verif

/-- `sort.Search(len(l), func(i) !l[i].Posted.Before(d))`. -/
def searchNotBefore {α} [Inhabited α] (date : α → Int) (l : List α) (d : Int) : Nat :=
  search l.length (fun i => !decide (date (l.getD i default) < d))

/-- The `end` half of `trim` (cmd/coin/utils.go:36-45). -/
def cutEnd {α} [Inhabited α] (date : α → Int) (l : List α) : Option Int → List α
  | none => l
  | some e =>
    let to := searchNotBefore date l e
    if to = l.length then l else l.take to

/-- `trim` (cmd/coin/utils.go:26-46). -/
def trimRange {α} [Inhabited α] (date : α → Int) (l : List α) (b e : Option Int) : List α :=
  match b with
  | none => cutEnd date l e
  | some b =>
    let from_ := searchNotBefore date l b
    if from_ = l.length then [] else cutEnd date (l.drop from_) e

/-- `cmdStats.transactions` (cmd/coin/stats.go:99-120): the same code over transactions. -/
def statsTransactions {α} [Inhabited α] (date : α → Int) (l : List α) (b e : Option Int) : List α :=
  let l1 : Option (List α) :=
    match b with
    | none => some l
    | some b =>
      let from_ := searchNotBefore date l b
      if from_ = l.length then none else some (l.drop from_)
  match l1 with
  | none => []
  | some l =>
    match e with
    | none => l
    | some e =>
      let to := searchNotBefore date l e
      if to = l.length then l else l.take to

/-- `TransactionsByTime.Day` (transaction.go:66-79). -/
def dayOf {α} [Inhabited α] (date : α → Int) (l : List α) (d : Int) : List α :=
  let start := searchNotBefore date l d
  if start = l.length then []
  else
    let count := search (l.length - start) (fun i => decide (d < date (l.getD (start + i) default)))
    (l.drop start).take count

end Verif
