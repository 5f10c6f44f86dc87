import Verif.Model.Views
import Verif.Model.Periods
/-
Aggregated views of the page (cmd/coin2html/js/src/utils.ts, viewsRegister.ts, viewsAggregatedRegisterChart.ts).

The intervals of d3-time (`timeWeek`, `timeMonth`, `timeMonth.every(3)`, `timeYear`; views.ts:14-20) start on Sundays, and on the
first days of months, quarters and years, at local midnight; the first day of the period of a day is computed by the reducers of
Model/Periods.lean.
-/
namespace Verif

/-- `Aggregation` (views.ts:14-20) without `None`. -/
inductive Aggregate where
  | weekly | monthly | quarterly | yearly
  deriving DecidableEq, Repr

/-- The first day of the period of a day. -/
def Aggregate.red : Aggregate → Int → Int
  | .weekly => weekReduce
  | .monthly => monthReduce
  | .quarterly => quarterReduce
  | .yearly => yearReduce

/-- d3's `interval(date)` (floor): the start of the period. -/
def floorTime (g : Aggregate) (t : Int) : Int := 86400 * g.red (t / 86400)

/-- d3's `interval.range(start, stop)`: the starts of periods from `start` (inclusive) to `stop` (exclusive), as days. -/
def intervalRange (g : Aggregate) (start stop : Int) : List Int :=
  ((List.range ((-((-stop) / 86400)) - (-((-start) / 86400))).toNat).map (fun n : Nat => -((-start) / 86400) + (n : Int))).filter (fun d => decide (g.red d = d))

/-- `PostingGroup` (utils.ts:24-33); `date` is a day. -/
structure PGroup where
  date : Int
  postings : List VPost
  sum : Amount
  total : Amount
  balance : Amount
  deriving DecidableEq, Repr

/-- `postings.forEach((p) => sum.addIn(p.quantity, date))` (utils.ts:62). -/
def addQuantities (conv : Com → Amount → Int → Except Fault Amount) (date : Int) : Amount → List VPost → Except Fault Amount
  | t, [] => .ok t
  | t, v :: l => (wAddIn conv t v.post.quantity date).bind fun t => addQuantities conv date t l

/-- The postings kept in the map under the key of a date (utils.ts:47-51, 57). -/
def groupOf (off : Int) (g : Aggregate) (posts : List VPost) (date : Int) : List VPost :=
  posts.filter (fun v => decide (dateToString off (floorTime g v.txn.posted) = dateToString off (86400 * date)))

/-- The loop of `groupBy` (utils.ts:56-67). -/
def groupLoop (conv : Com → Amount → Int → Except Fault Amount) (off : Int) (g : Aggregate) (posts : List VPost) (c : Com) :
    Amount → Amount → List Int → Except Fault (List PGroup)
  | _, _, [] => .ok []
  | total, balance, date :: ds =>
    match groupOf off g posts date with
    | [] => (groupLoop conv off g posts c total balance ds).bind fun rest => .ok (⟨date, [], ⟨0, c⟩, total, balance⟩ :: rest)
    | v :: l =>
      (addQuantities conv (86400 * date) ⟨0, c⟩ (v :: l)).bind fun sum =>
      (wAddIn conv total sum (86400 * date)).bind fun total =>
      (groupLoop conv off g posts c total ((v :: l).getLast (by simp)).post.balance ds).bind fun rest =>
      .ok (⟨date, v :: l, sum, total, ((v :: l).getLast (by simp)).post.balance⟩ :: rest)

/-- `groupBy` (utils.ts:41-68). -/
def groupBy (conv : Com → Amount → Int → Except Fault Amount) (off : Int) (g : Aggregate) (start stop : Int) (posts : List VPost) (c : Com) :
    Except Fault (List PGroup) :=
  groupLoop conv off g posts c ⟨0, c⟩ ⟨0, c⟩ (intervalRange g start stop)

/-- `balanceOrSum` (utils.ts:35-39); `flows` is the aggregation style. -/
def balanceOrSum (flows : Bool) (g : PGroup) : Amount := if flows then g.sum else g.balance

/-- `viewRegisterAggregated` (viewsRegister.ts:74-115): date, amount and cumulative total of each row. -/
def viewRegisterAggregated (conv : Com → Amount → Int → Except Fault Amount) (off : Int) (g : Aggregate) (flows : Bool) (ts : List WTxn) (a : WAcct)
    (start stop : Int) : Except Fault (List (Str × Amount × Amount)) :=
  (groupBy conv off g start stop (acctPosts ts a.fullName) a.com).bind fun gs =>
  .ok (gs.map (fun x => (dateToString off (86400 * x.date), balanceOrSum flows x, x.total)))

/-- `AccountPostingGroups` (utils.ts:85-88); no account is `Other`. -/
structure AGroups where
  account : Option WAcct
  groups : List PGroup
  deriving DecidableEq, Repr

/-- `withAllChildPostingGroups` (account.ts:72-90). -/
def withAllChildPostingGroups (conv : Com → Amount → Int → Except Fault Amount) (off : Int) (g : Aggregate) (as : List WAcct) (keep : WAcct → Bool)
    (ts : List WTxn) (k : Nat) (a : WAcct) (start stop : Int) : Except Fault (List AGroups) :=
  allE (fun w => (groupBy conv off g start stop (trimToDateRange (acctPosts ts w.fullName) start stop) w.com).bind fun gs => .ok ⟨some w, gs⟩)
    ((a :: allChildren as keep k a.fullName).filter (fun w => !(acctPosts ts w.fullName).isEmpty))

/-- `commodity.convert` (commodity.ts:147-157) of an amount that may already be in the commodity. -/
def convTo (conv : Com → Amount → Int → Except Fault Amount) (c : Com) (a : Amount) (date : Int) : Except Fault Amount :=
  if a.com = c then .ok a else conv c a date

/-- The average of an account (utils.ts:137-147), a JavaScript number; without groups `last` is undefined and using it throws. -/
def average (conv : Com → Amount → Int → Except Fault Amount) (c : Com) (x : AGroups) : Except Fault (Int × Nat) :=
  match x.groups.getLast? with
  | none => .error .err
  | some g =>
    (convTo conv c g.total (86400 * g.date)).bind fun t =>
    let n := fl t.int (10 ^ c.decimals)
    .ok (fl n.1 (n.2 * x.groups.length))

/-- The comparison of averages (utils.ts:149). -/
def averageLt (negated : Bool) (x y : Int × Nat) : Bool :=
  if negated then decide (x.1 * y.2 < y.1 * x.2) else decide (y.1 * x.2 < x.1 * y.2)

/-- Adding one account's group (utils.ts:105-113). -/
def addGroup (conv : Com → Amount → Int → Except Fault Amount) (g x : PGroup) : Except Fault PGroup :=
  if g.date ≠ x.date then .error .err
  else
    (wAddIn conv g.sum x.sum (86400 * g.date)).bind fun s =>
    (wAddIn conv g.total x.total (86400 * g.date)).bind fun t =>
    (wAddIn conv g.balance x.balance (86400 * g.date)).bind fun b =>
    .ok ⟨g.date, g.postings ++ x.postings, s, t, b⟩

/-- Adding the groups at one position of all accounts (utils.ts:104-113). -/
def addGroupsAt (conv : Com → Amount → Int → Except Fault Amount) (i : Nat) : PGroup → List AGroups → Except Fault PGroup
  | g, [] => .ok g
  | g, x :: l =>
    match x.groups[i]? with
    | none => .error .panic
    | some y => (addGroup conv g y).bind fun g => addGroupsAt conv i g l

/-- `sumAll` (utils.ts:91-116). -/
def sumAll (conv : Com → Amount → Int → Except Fault Amount) (c : Com) (l : List AGroups) : Except Fault AGroups :=
  match l with
  | [] => .error .panic
  | x :: _ =>
    (allE (fun (e : PGroup × Nat) => addGroupsAt conv e.2 ⟨e.1.date, [], ⟨0, c⟩, ⟨0, c⟩, ⟨0, c⟩⟩ l) x.groups.zipIdx).bind fun gs => .ok ⟨none, gs⟩

/-- `list.slice(0, n)`. -/
def sliceTo {α : Type} (n : Int) (l : List α) : List α := if 0 ≤ n then l.take n.toNat else l.take (l.length + n).toNat

/-- `list.slice(n)`. -/
def sliceFrom {α : Type} (n : Int) (l : List α) : List α := if 0 ≤ n then l.drop n.toNat else l.drop (l.length + n).toNat

/-- `groupByWithSubAccounts` (utils.ts:118-161). -/
def groupByWithSubAccounts (conv : Com → Amount → Int → Except Fault Amount) (off : Int) (g : Aggregate) (as : List WAcct) (keep : WAcct → Bool)
    (ts : List WTxn) (k : Nat) (a : WAcct) (start stop : Int) (max : Int) (negated : Bool) : Except Fault (List AGroups) :=
  (withAllChildPostingGroups conv off g as keep ts k a start stop).bind fun groups =>
  (allE (fun x => (average conv a.com x).bind fun v => .ok (v, x)) groups).bind fun avgs =>
  let sorted := (stableSort (fun x y : (Int × Nat) × AGroups => averageLt negated x.1 y.1) avgs).map (fun x => x.2)
  if max < (sorted.length : Int) then
    (sumAll conv a.com (sliceFrom (max - 1) sorted)).bind fun other => .ok ((sliceTo max sorted).dropLast ++ [other])
  else .ok (sliceTo max sorted)

/-- One row of the register with subaccounts (viewsRegister.ts:136-151): the sums of the columns' sums and balances. -/
def rowAt (conv : Com → Amount → Int → Except Fault Amount) (i : Nat) (date : Int) : Amount → Amount → List AGroups → Except Fault (Amount × Amount)
  | s, b, [] => .ok (s, b)
  | s, b, x :: l =>
    match x.groups[i]? with
    | none => .error .panic
    | some y =>
      if y.date ≠ date then .error .err
      else
        (wAddIn conv s y.sum (86400 * y.date)).bind fun s =>
        (wAddIn conv b y.balance (86400 * y.date)).bind fun b => rowAt conv i date s b l

/-- A row of the register with subaccounts: date, the amounts of the columns, the amount under Total, the amount under Cum.Total. -/
structure GRow where
  date : Str
  cells : List Amount
  total : Amount
  cumTotal : Amount
  deriving DecidableEq, Repr

/-- The rows of `viewRegisterAggregatedWithSubAccounts` (viewsRegister.ts:134-163, 186-196). The running total is computed but `Cum.Total`
shows `balanceOrSum`, the same amount as Total (viewsRegister.ts:194-196). -/
def subRegisterRows (conv : Com → Amount → Int → Except Fault Amount) (off : Int) (c : Com) (flows : Bool) (cols : List AGroups) :
    Amount → List (Int × Nat) → Except Fault (List GRow)
  | _, [] => .ok []
  | total, (date, i) :: ds =>
    (rowAt conv i date ⟨0, c⟩ ⟨0, c⟩ cols).bind fun row =>
    (wAddIn conv total row.1 (86400 * date)).bind fun total =>
    (subRegisterRows conv off c flows cols total ds).bind fun rest =>
    .ok (⟨dateToString off (86400 * date), cols.filterMap (fun x => (x.groups[i]?).map (balanceOrSum flows)),
      balanceOrSum flows ⟨date, [], row.1, total, row.2⟩, balanceOrSum flows ⟨date, [], row.1, total, row.2⟩⟩ :: rest)

/-- `viewRegisterAggregatedWithSubAccounts` (viewsRegister.ts:117-197). -/
def viewRegisterAggregatedWithSubAccounts (conv : Com → Amount → Int → Except Fault Amount) (off : Int) (g : Aggregate) (flows : Bool) (as : List WAcct)
    (keep : WAcct → Bool) (ts : List WTxn) (k : Nat) (a : WAcct) (start stop : Int) (max : Int) (negated : Bool) :
    Except Fault (List GRow) :=
  (groupByWithSubAccounts conv off g as keep ts k a start stop max negated).bind fun cols =>
  subRegisterRows conv off a.com flows cols ⟨0, a.com⟩ (intervalRange g start stop).zipIdx

/-- The comparison of `topN` (utils.ts:76-80): by the size of the converted amounts, largest first. -/
def topSort (amounts : List (Int × VPost)) : List (Int × VPost) :=
  stableSort (fun x y : Int × VPost => decide (y.1.natAbs < x.1.natAbs)) amounts

/-- `topN` (utils.ts:70-82); amounts are converted when they are compared, so not when there are fewer than two. -/
def topN (conv : Com → Amount → Int → Except Fault Amount) (n : Nat) (c : Com) (posts : List VPost) : Except Fault (List VPost) :=
  if posts.length < 2 then .ok (posts.take n)
  else
    (allE (fun v : VPost => (convTo conv c v.post.quantity v.txn.posted).bind fun x => .ok (x.int, v)) posts).bind fun l =>
    .ok (((topSort l).take n).map (fun x => x.2))

/-- `widthFromGroup` (viewsAggregatedRegisterChart.ts:65-71): `Math.trunc` of the amount as a number, not below zero. -/
def widthOf (conv : Com → Amount → Int → Except Fault Amount) (c : Com) (flows negated : Bool) (g : PGroup) : Except Fault Int :=
  (convTo conv c (balanceOrSum flows g) (86400 * g.date)).bind fun t =>
  let n := fl t.int (10 ^ c.decimals)
  let w := Int.tdiv n.1 n.2
  let w := if negated then -w else w
  .ok (if w < 0 then 0 else w)

/-- Offsets and widths of the bars of one date (viewsAggregatedRegisterChart.ts:72-81). -/
def barsAt (conv : Com → Amount → Int → Except Fault Amount) (c : Com) (flows negated : Bool) (i : Nat) : Int → List AGroups → Except Fault (List (Int × Int))
  | _, [] => .ok []
  | offset, x :: l =>
    match x.groups[i]? with
    | none => .error .panic
    | some g =>
      (widthOf conv c flows negated g).bind fun w =>
      (barsAt conv c flows negated i (offset + w) l).bind fun rest => .ok ((offset, w) :: rest)

/-- `updateAggregationForTimeRange` (views.ts:284-293); times are seconds. -/
def aggregationFor (start stop : Int) : Aggregate :=
  if stop - start < 180 * 86400 then .weekly
  else if stop - start < 3 * 180 * 86400 then .monthly
  else if stop - start < 5 * 365 * 86400 then .quarterly
  else .yearly

end Verif
