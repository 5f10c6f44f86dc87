import Verif.Model.ViewGroup
/-
The balances chart of the page (cmd/coin2html/js/src/viewsBalancesChart.ts): the boxes it draws, with the levels and values that decide
their layout.

`stratify` and `sum` are those of d3-hierarchy. The values are sums of JavaScript numbers; here they are whole numbers of the smallest
unit of the account's commodity (the code divides each by 10^decimals and adds floating point numbers). Where a box lies and how big it
is on the screen (d3's `treemap`, which divides the area in proportion to the values), colours, and the order of the boxes of one level
are not modelled.
-/
namespace Verif

/-- A node of the hierarchy: the row given to `stratify` and its own value. -/
structure ChartNode where
  row : BalTotal
  own : Int
  deriving DecidableEq, Repr

/-- What is drawn for a node: the account, its total, its balance if that is shown too, its level, and the value deciding its size. -/
structure ChartBox where
  account : WAcct
  total : Amount
  balance : Option Amount
  depth : Nat
  value : Int
  deriving DecidableEq, Repr

/-- `parentId` (viewsBalancesChart.ts:32-35); `a` is the selected account. Accounts are told apart by their full names. -/
def chartParent (a w : WAcct) : Option Str :=
  match w.parent with
  | none => none
  | some p => if some p = a.parent then none else some p

/-- `stratify` (viewsBalancesChart.ts:30-36, d3-hierarchy stratify.js): it throws when the parent of a node is missing or ambiguous and
unless exactly one node has no parent. (Cycles are found by `chartDepth`.) -/
def stratifyCheck (a : WAcct) (nodes : List ChartNode) : Except Fault Unit :=
  if nodes.all (fun n => match chartParent a n.row.account with
      | none => true
      | some p => decide ((nodes.filter (fun m => decide (m.row.account.fullName = p))).length = 1)) then
    if (nodes.filter (fun n => decide (chartParent a n.row.account = none))).length = 1 then .ok () else .error .err
  else .error .err

/-- `node.depth` (d3-hierarchy): the number of parents; `k` bounds it, going in circles is an error ("cycle"). -/
def chartDepth (a : WAcct) (nodes : List ChartNode) : Nat → WAcct → Except Fault Nat
  | 0, _ => .error .err
  | k + 1, w =>
    match chartParent a w with
    | none => .ok 0
    | some p =>
      match nodes.find? (fun m => decide (m.row.account.fullName = p)) with
      | none => .error .err
      | some m => (chartDepth a nodes k m.row.account).bind fun d => .ok (d + 1)

/-- `node.value` after `sum` (viewsBalancesChart.ts:38, d3-hierarchy sum.js): its own value and those of its children. -/
def chartValue (a : WAcct) (nodes : List ChartNode) : Nat → ChartNode → Int
  | 0, n => n.own
  | k + 1, n => n.own + ((nodes.filter (fun m => decide (chartParent a m.row.account = some n.row.account.fullName))).map (chartValue a nodes k)).sum

/-- The argument of `sum` (viewsBalancesChart.ts:38-44): the balance in the commodity of the selected account, negated in views of
accounts that are normally negative; 0 if that is less. -/
def chartOwn (conv : Com → Amount → Int → Except Fault Amount) (a : WAcct) (negated : Bool) (date : Int) (r : BalTotal) : Except Fault ChartNode :=
  (convTo conv a.com r.balance date).bind fun x =>
  .ok ⟨r, if (if negated then -x.int else x.int) > 0 then (if negated then -x.int else x.int) else 0⟩

/-- What is written into a box (viewsBalancesChart.ts:80-87, 115-123): the balance only if the account has subaccounts, also closed
ones, and the balance is not zero. -/
def chartText (as : List WAcct) (r : BalTotal) : Option Amount :=
  if kids as r.account.fullName ≠ [] ∧ r.balance.int ≠ 0 then some r.balance else none

/-- `viewBalancesChart` (viewsBalancesChart.ts:19-65, 80-87): the boxes drawn; `levels` is `BalanceDepth`. Groups of nodes of one depth
are sorted by depth, and the first `levels` groups are drawn (lines 54-57); there is one group for each depth that occurs, and those
that occur are the depths from 0 on, so these are the nodes whose depth is less than `levels`. -/
def balancesChart (conv : Com → Amount → Int → Except Fault Amount) (negated showClosed : Bool) (as : List WAcct) (ts : List WTxn) (date : Int)
    (levels k : Nat) (a : WAcct) : Except Fault (List ChartBox) :=
  (withAllChildBalances conv as (wSkip showClosed as date [] k) ts date k a).bind fun rows =>
  (allE (chartOwn conv a negated date) rows).bind fun nodes =>
  (stratifyCheck a nodes).bind fun _ =>
  (allE (fun n => (chartDepth a nodes k n.row.account).bind fun d =>
    .ok (⟨n.row.account, n.row.total, chartText as n.row, d, chartValue a nodes k n⟩ : ChartBox)) nodes).bind fun boxes =>
  .ok (boxes.filter (fun b => decide (b.depth < levels)))

end Verif
