import Verif.Model.Import
/-
Model of the checks of `coin stats` (cmd/coin/stats.go). What is printed is modelled by the list of reported transactions; the
text and the lines with the counts are in `Model/Reports`.
-/
namespace Verif

/-- The inner loop over the earlier transactions of the day (stats.go:55-62): the pairs (earlier, later) that are printed. `view` gives the
fields of a transaction. -/
def dupesOf {α} (view : α → ITxn) (t : α) : List α → Except Fault (List (α × α))
  | [] => .ok []
  | t2 :: rest => ((view t).isEqual (view t2)).bind fun b => (dupesOf view t rest).bind fun r => .ok (if b then (t2, t) :: r else r)

/-- The loop of `stats -d` (stats.go:45-64); `day` holds the transactions seen on the current day. -/
def dupesLoop {α} (view : α → ITxn) : List α → List α → Except Fault (List (α × α))
  | _, [] => .ok []
  | [], t :: ts => dupesLoop view [t] ts
  | d :: ds, t :: ts =>
    if (view t).posted.sec ≠ (view d).posted.sec then dupesLoop view [t] ts
    else (dupesOf view t (d :: ds)).bind fun r => (dupesLoop view ((d :: ds) ++ [t]) ts).bind fun r2 => .ok (r ++ r2)

/-- `stats -d` (stats.go:41-66) of the transactions in the range. -/
def statsDupes {α} (view : α → ITxn) (ts : List α) : Except Fault (List (α × α)) := dupesLoop view [] ts

/-- The test of `stats -c` (stats.go:69-71). -/
def badConversion (t : ITxn) : Except Fault Bool :=
  match t.postings with
  | [p1, p2] => (p1.quantity.isEqual p2.quantity.negated).bind fun b => .ok (b && decide (p1.quantity.com ≠ p2.quantity.com))
  | _ => .ok false

/-- The transactions `stats -c` reports (stats.go:68-83). -/
def statsMismatches : List ITxn → Except Fault (List ITxn)
  | [] => .ok []
  | t :: ts => (badConversion t).bind fun b => (statsMismatches ts).bind fun r => .ok (if b then t :: r else r)

/-- The transactions `stats -u` reports (stats.go:84-91): once for every posting to `Unbalanced`. -/
def statsUnbalanced (unbalanced : Str) (ts : List ITxn) : List ITxn :=
  ts.flatMap fun t => (t.postings.filter (fun p => decide (p.account = unbalanced))).map fun _ => t

end Verif
