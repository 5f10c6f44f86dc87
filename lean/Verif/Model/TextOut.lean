import Verif.Model.Register
import Verif.Model.Date
import Verif.Model.Json
import Verif.Model.Parser
/-
Text, CSV and JSON output of the `balance` and `register` commands (cmd/coin/balance.go, postings.go, totals.go).

The output is a list of lines without their newlines. `a.CommodityId` of a loaded account is the id of its commodity (account.go:99,
coin.go:226-227). `%*s` pads by characters; a negative width means left adjusted.
-/
namespace Verif

/-- `%*s`. -/
def padStar (w : Int) (s : Str) : Str := if w < 0 then padRight w.natAbs s else padLeft w.toNat s

/-- `%*a` of a non-nil amount: `(*Amount).Format` (amount.go:48-72) with the width only. -/
def amountStar (w : Int) (a : Amount) : Except Fault Str := a.string.bind fun s => .ok (padStar w s)

/-! ### balance -/

/-- `balances.maxWidth` (balance.go:112-120); the maximum does not depend on the order of the map. -/
def balWidth (comOf : Str → Com) (m : AmtMap) : List Str → Except Fault Int
  | [] => .ok 0
  | a :: l =>
    match m a with
    | none => .error .panic
    | some x => (x.width (comOf a).decimals).bind fun w => (balWidth comOf m l).bind fun r => .ok (if w > r then w else r)

/-- `balances.curWidth` (balance.go:123-131). -/
def curWidth (m : AmtMap) : List Str → Nat
  | [] => 0
  | a :: l => match m a with | none => curWidth m l | some x => max (blen x.com.id) (curWidth m l)

/-- One line of `cmdBalance.print` (balance.go:79-80). -/
def balanceLine (comOf : Str → Com) (w cw : Int) (cur : Nat) (r : Str × Option Amount × Option Amount) : Except Fault Str :=
  match r.2.1, r.2.2 with
  | some tot, some cum =>
    (amountStar w tot).bind fun t => (amountStar cw cum).bind fun c =>
    .ok (t ++ str " | " ++ c ++ str " " ++ padRight cur (comOf r.1).id ++ str " | " ++ r.1)
  | _, _ => .error .panic

/-- The lines of several computations. -/
def linesOf {α : Type} (f : α → Except Fault Str) : List α → Except Fault (List Str)
  | [] => .ok []
  | x :: l => (f x).bind fun s => (linesOf f l).bind fun ls => .ok (s :: ls)

/-- The output of the balance command (balance.go:44-83). -/
def balanceOut (env : Env) (compile : Compile) (v : View) (L : Links) (fuel : Nat) (f : Filters) (level : Int) (zero : Bool)
    (acc : Str) : Except Fault (List Str) :=
  let walk := subtree L.children fuel acc
  (ownTotals env compile v f (fun _ => none) walk).bind fun totals =>
  (addUp env L.parent totals (subtreePost L.children fuel acc)).bind fun cum =>
  (balWidth env.comOf totals walk).bind fun w => (balWidth env.comOf cum walk).bind fun cw =>
  (balanceRows L.parent fuel level zero totals cum walk).bind fun rows =>
  linesOf (balanceLine env.comOf w cw (curWidth cum walk)) rows

/-! ### register without aggregation -/

/-- What is printed about postings beyond the selection: `account`, whether a balance was asserted, notes of the posting and of its
transaction, location (already shortened by `trimLocation`, postings.go:20-26). -/
structure PrintView where
  account : PRef → Str
  asserted : PRef → Bool
  notes : PRef → List Str
  txnNotes : PRef → List Str
  location : PRef → Str

/-- `options` (postings.go:135-141) as set by the register command (register.go:87-93); `maxDesc` is never set. -/
structure PrintOpts where
  pre : Str
  location : Bool
  maxAcct : Int
  com : Com
  showNotes : Bool

/-- `MaxDesc` (postings.go:143-148) without `maxDesc`. -/
def maxDesc : Int := 50

/-- `MaxAcct` (postings.go:150-155). -/
def PrintOpts.acct (o : PrintOpts) : Int := if o.maxAcct = 0 then 15 else o.maxAcct

/-- `strings.TrimPrefix`. -/
def trimPrefix (s pre : Str) : Str := if hasPrefix s pre then s.drop pre.length else s

/-- `postings.widths` (postings.go:29-37) of the rows (posting, other posting, running total). -/
def printWidths (v : View) (pv : PrintView) (comOf : Str → Com) (pre : Str) : List (PRef × PRef × Amount) → Except Fault (Int × Int × Int × Int)
  | [] => .ok (0, 0, 0, 0)
  | r :: l =>
    ((v.qty r.1).width (comOf (pv.account r.1)).decimals).bind fun w => (printWidths v pv comOf pre l).bind fun x =>
    .ok (max (blen (v.payee r.1) : Int) x.1, max (blen (trimPrefix (pv.account r.1) pre) : Int) x.2.1, max w x.2.2.1,
      max (blen (pv.account r.2.1) : Int) x.2.2.2)

/-- One line of `print` (`long = false`, postings.go:65-85) or `printLong` (postings.go:104-125). -/
def printLine (v : View) (pv : PrintView) (comOf : Str → Com) (o : PrintOpts) (long : Bool) (w : Int × Int × Int × Int) (tw : Int)
    (r : PRef × PRef × Amount) : Except Fault Str :=
  (amountStar w.2.2.1 (v.qty r.1)).bind fun q => (amountStar tw r.2.2).bind fun t =>
  .ok (formatDate (v.date r.1) ++ str " | " ++ padStar (min w.1 maxDesc) (v.payee r.1) ++
    (if long then str " | " ++ padStar (min w.2.1 o.acct) (shortenAccountName (trimPrefix (pv.account r.1) o.pre) o.acct) else []) ++
    str " | " ++ padStar (min w.2.2.2 o.acct) (shortenAccountName (trimPrefix (pv.account r.2.1) o.pre) o.acct) ++
    str " | " ++ q ++ str " | " ++ t ++ str " " ++ (comOf (pv.account r.1)).id ++ [if pv.asserted r.1 then '*' else ' '] ++
    (if o.location then str "| " ++ pv.location r.1 else []))

/-- The line of a posting followed by the lines of `printNotes` (postings.go:86-88, 128-132), which are prefixed by as many blanks as the
date has. -/
def printEntry (v : View) (pv : PrintView) (comOf : Str → Com) (o : PrintOpts) (long : Bool) (w : Int × Int × Int × Int) (tw : Int)
    (r : PRef × PRef × Amount) : Except Fault (List Str) :=
  (printLine v pv comOf o long w tw r).bind fun line =>
  .ok (line :: if o.showNotes then (pv.notes r.1 ++ pv.txnNotes r.1).map (fun n => rep (formatDate (v.date r.1)).length ' ' ++ str " ;" ++ str " " ++ n) else [])

/-- All entries. -/
def printEntries (v : View) (pv : PrintView) (comOf : Str → Com) (o : PrintOpts) (long : Bool) (w : Int × Int × Int × Int) (tw : Int) :
    List (PRef × PRef × Amount) → Except Fault (List Str)
  | [] => .ok []
  | r :: l => (printEntry v pv comOf o long w tw r).bind fun ls => (printEntries v pv comOf o long w tw l).bind fun rest => .ok (ls ++ rest)

/-- `print` and `printLong` (postings.go:49-126) given the rows of `printRows`; the width of the totals is that of the last one. -/
def printText (v : View) (pv : PrintView) (comOf : Str → Com) (o : PrintOpts) (long : Bool) (rows : List (PRef × PRef × Amount)) :
    Except Fault (List Str) :=
  match rows.getLast? with
  | none => .ok []
  | some last =>
    (printWidths v pv comOf o.pre rows).bind fun w =>
    (last.2.2.width o.com.decimals).bind fun tw =>
    printEntries v pv comOf o long w tw rows

/-- `cmdRegister.execute` (register.go:75-106) without aggregation and with `-o text`: the heading and the postings. `maxAcct` is `-l`. -/
def registerOut (env : Env) (compile : Compile) (v : View) (pv : PrintView) (siblings : PRef → List PRef) (L : Links) (fuel : Nat)
    (f : Filters) (recurse location notes : Bool) (maxAcct : Int) (acc : Str) : Except Fault (List Str) :=
  (fullRegister env compile v siblings L fuel f recurse acc).bind fun rows =>
  (printText v pv env.comOf ⟨acc, location, maxAcct, env.comOf acc, notes⟩ recurse rows).bind fun ls =>
  .ok ((acc ++ str " " ++ (env.comOf acc).id) :: ls)

/-! ### aggregated register -/

/-- `MonthFormat`, `YearFormat` (date.go:51-52). -/
def formatMonth (t : Int) : Str := padInt (goYear t) 4 ++ ['/'] ++ padInt (goMonth t) 2
def formatYear (t : Int) : Str := padInt (goYear t) 4

/-- The amounts of a column. -/
def colAmounts (ts : TS) : List Amount := ts.flatMap (fun t => t.vals.map (·.2))

/-- The largest width of some amounts (totals.go:243-268). -/
def widest (dec : Nat) : List Amount → Except Fault Int
  | [] => .ok 0
  | a :: l => (a.width dec).bind fun w => (widest dec l).bind fun r => .ok (max w r)

/-- `maxWidth` (totals.go:237-269). -/
def colWidth (ts : TS) : Except Fault Int :=
  match ts.getLast? with
  | none => .ok 0
  | some cur =>
    match tsCom (some cur) ts with
    | none => .error .panic
    | some c => widest c.decimals (colAmounts ts)

/-- `maxPeriodWidth` (totals.go:271-276). -/
def periodWidth (fmtT : Option (Int → Str)) (ts : TS) : Except Fault Nat :=
  match fmtT with
  | none => .ok 0
  | some f => match ts with | [] => .error .panic | t :: _ => .ok (blen (f t.time))

/-- `maxCategoryWidth` (totals.go:278-291). -/
def categoryWidth (ts : TS) : Nat := (ts.flatMap (fun t => (t.vals.filterMap (·.1)).map blen)).foldl max 0

/-- `widths` and the labels (totals.go:385-390, 514-524): a column is as wide as its widest amount or its label. -/
def labelledWidths (label : Option Str → Str) : Columns → Except Fault (List Int)
  | [] => .ok []
  | e :: l => (colWidth e.2).bind fun w => (labelledWidths label l).bind fun ws => .ok ((if (blen (label e.1) : Int) > w then (blen (label e.1) : Int) else w) :: ws)

/-- A cell: a nil amount is printed as `<nil>` without padding (fmt catches the panic of `Format`). -/
def cellText (w : Int) : Option Amount → Except Fault Str
  | none => .ok (str "<nil>")
  | some a => amountStar w a

/-- The cells of a row. -/
def cellTexts : List Int → List (Option Amount) → Except Fault (List Str)
  | w :: ws, a :: l => (cellText w a).bind fun s => (cellTexts ws l).bind fun r => .ok (s :: r)
  | _, _ => .ok []

/-- The period and category cells at the start of a line (totals.go:527-532, 549-556). -/
def leadCells (pw cw : Nat) (period category : Str) : List Str :=
  (if pw > 0 then [padStar pw period] else []) ++ (if cw > 0 then [padStar cw category] else [])

/-- The text of a period (totals.go:549), nothing without periods. -/
def periodText (fmtT : Option (Int → Str)) (t : Int) : Str := match fmtT with | none => [] | some f => f t

/-- `print` (totals.go:499-581) given the rows of `outputRows`: the pieces of the format are joined by `|`, which gives cells separated by
` | `. When neither periods nor categories have a width (only empty categories, see C44) the arguments do not fit the format and
the output is not modelled (`Fault.err`). -/
def tableText (fmtT : Option (Int → Str)) (label : Option Str → Str) (cols : Columns) : Except Fault (List Str) :=
  match cols with
  | [] => .error .panic
  | first :: _ =>
    (periodWidth fmtT first.2).bind fun pw =>
    let cw := categoryWidth first.2
    (labelledWidths label cols).bind fun ws =>
    if pw = 0 ∧ cw = 0 then .error .err
    else
      (outputRows false cols).bind fun rows =>
      (linesOf (fun r : Int × Str × List (Option Amount) => (cellTexts ws r.2.2).bind fun cs =>
        .ok (joinWith (str " | ") (leadCells pw cw (periodText fmtT r.1) r.2.1 ++ cs))) rows).bind fun lines =>
      .ok (joinWith (str " | ") (leadCells pw cw [] [] ++ (ws.zip cols).map (fun e => padStar e.1 (label e.2.1))) :: lines)

/-- The amounts of a csv or json row (totals.go:630-634); a nil amount panics. -/
def rowStrings : List (Option Amount) → Except Fault (List Str)
  | [] => .ok []
  | none :: _ => .error .panic
  | some a :: l => a.string.bind fun s => (rowStrings l).bind fun r => .ok (s :: r)

/-- The rows of `rows` (totals.go:585-640) after the header; `cat`: reducing by category. -/
def plainRow (fmtT : Option (Int → Str)) (cat : Bool) (r : Int × Str × List (Option Amount)) : Except Fault (List Str) :=
  (rowStrings r.2.2).bind fun cs =>
  .ok ((match fmtT with | none => [] | some f => [f r.1]) ++ (if cat then [r.2.1] else []) ++ cs)

/-- All of them. -/
def plainRowsOf (fmtT : Option (Int → Str)) (cat : Bool) : List (Int × Str × List (Option Amount)) → Except Fault (List (List Str))
  | [] => .ok []
  | r :: l => (plainRow fmtT cat r).bind fun x => (plainRowsOf fmtT cat l).bind fun xs => .ok (x :: xs)

/-- The header (totals.go:594-604). -/
def plainHeader (fmtT : Option (Int → Str)) (cat : Bool) (label : Option Str → Str) (cols : Columns) : List Str :=
  (if fmtT.isSome then [str "Date"] else []) ++ (if cat then [str "Category"] else []) ++ cols.map (fun e => label e.1)

/-- `rows` (totals.go:585-640). -/
def plainRows (fmtT : Option (Int → Str)) (cat : Bool) (label : Option Str → Str) (cols : Columns) : Except Fault (List (List Str)) :=
  (outputRows true cols).bind fun rows => (plainRowsOf fmtT cat rows).bind fun l => .ok (plainHeader fmtT cat label cols :: l)

/-- `fieldNeedsQuotes` of encoding/csv with comma `,`. -/
def needsQuotes (s : Str) : Bool :=
  match s with
  | [] => false
  | c :: _ => decide (s = ['\\', '.']) || s.any (fun x => decide (x = ',') || decide (x = '"') || decide (x = '\r') || decide (x = '\n')) || isSpaceU c

/-- A field written by encoding/csv. -/
def csvField (s : Str) : Str :=
  if needsQuotes s then '"' :: (s.flatMap (fun c => if c = '"' then ['"', '"'] else [c]) ++ ['"']) else s

/-- `writeCSV` (totals.go:645-651). -/
def csvText (rs : List (List Str)) : Str := rs.flatMap (fun r => joinWith [','] (r.map csvField) ++ ['\n'])

/-- `json.Encoder.Encode` of a slice of strings without indentation. -/
def jsonRow (r : List Str) : Str := '[' :: (joinWith [','] (r.map jsonStr) ++ [']'])

/-- `writeJSON` (totals.go:653-658): one array per line. -/
def jsonLines (rs : List (List Str)) : Str := rs.flatMap (fun r => jsonRow r ++ ['\n'])

end Verif
