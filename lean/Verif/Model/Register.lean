import Verif.Model.Totals
/-
Model of the `register` command (cmd/coin/register.go, cmd/coin/postings.go, and the account level of cmd/coin/totals.go).
-/
namespace Verif

/-- `cmdRegister.trim` called for each account of a walk, in order (register.go:96-98 and 110-115); the payee expression is
carried from call to call because `trim` overwrites `cmd.payee`. -/
def registerWalk (compile : Compile) (v : View) (f : Filters) : Str → List Str → Except Fault (List (Str × List PRef))
  | _, [] => .ok []
  | payee, a :: rest =>
    (registerTrim compile v { f with payee := payee } (v.postings a)).bind fun r =>
    (registerWalk compile v f r.1 rest).bind fun l => .ok ((a, r.2) :: l)

/-- `(*Transaction).Other` (transaction.go:238-245); `siblings` are the transaction's postings. -/
def other (siblings : List PRef) (p : PRef) : Option PRef := siblings.find? (fun q => decide (q ≠ p))

/-- `postings.totals` (postings.go:39-47). -/
def runningTotals (conv : Com → Amount → Except Fault Amount) : Amount → List Amount → Except Fault (List Amount)
  | _, [] => .ok []
  | t, q :: qs => (checkNoError (t.addIn conv q)).bind fun t => (runningTotals conv t qs).bind fun l => .ok (t.copy :: l)

/-- `postings.print` / `printLong` (postings.go:49-131): the rows as (posting, other posting, running total). `widths`
(postings.go:29-37) and the rows dereference `Other(p)`, which is nil for a transaction with one posting. -/
def printRows (conv : Com → Amount → Except Fault Amount) (v : View) (siblings : PRef → List PRef) (com : Com) (ps : List PRef) :
    Except Fault (List (PRef × PRef × Amount)) :=
  if ps.any (fun p => (other (siblings p) p).isNone) then .error .panic
  else (runningTotals conv (zeroAmount com) (ps.map v.qty)).bind fun ts =>
    .ok ((ps.zip ts).map (fun e => (e.1, (other (siblings e.1) e.1).getD 0, e.2)))

/-- `fullRegister` (register.go:86-106). -/
def fullRegister (env : Env) (compile : Compile) (v : View) (siblings : PRef → List PRef) (L : Links) (fuel : Nat) (f : Filters)
    (recurse : Bool) (acc : Str) : Except Fault (List (PRef × PRef × Amount)) :=
  if recurse then
    (registerWalk compile v f f.payee (subtree L.children fuel acc)).bind fun l =>
    printRows env.conv v siblings (env.comOf acc)
      (stableSort (fun p q => decide (v.date p < v.date q)) (l.flatMap (·.2)))
  else
    (registerTrim compile v f (v.postings acc)).bind fun r => printRows env.conv v siblings (env.comOf acc) r.2

/-! ### Aggregated register -/

/-- `accountTotals` during the walks (totals.go:357): account to timeline. -/
abbrev TSMap := Str → Option TS

def TSMap.set (m : TSMap) (a : Str) (ts : TS) : TSMap := fun x => if x = a then some ts else m x

/-- First walk (register.go:110-115). -/
def aggStart (conv : Com → Amount → Except Fault Amount) (red : Reducers) (v : View) : TSMap → List (Str × List PRef) → Except Fault TSMap
  | m, [] => .ok m
  | m, (a, ps) :: rest => (TS.addAll conv red v [] ps).bind fun ts => aggStart conv red v (m.set a ts) rest

/-- Second walk (register.go:117-127): children first, into the parent's timeline if the parent is in the map. -/
def mergeUp (conv : Com → Amount → Except Fault Amount) (red : Reducers) (recurse : Bool) (parent : Str → Option Str) :
    TSMap → List Str → Except Fault TSMap
  | m, [] => .ok m
  | m, a :: rest =>
    match parent a with
    | none => mergeUp conv red recurse parent m rest
    | some p =>
      match m p with
      | none => mergeUp conv red recurse parent m rest
      | some pts =>
        match m a with
        | none => .error .panic
        | some cts => (mergeTotals conv red (!recurse) pts cts).bind fun ts => mergeUp conv red recurse parent (m.set p ts) rest

/-- A finished set of columns; the account `none` is "Other". -/
abbrev Columns := List (Option Str × TS)

/-- Lookup of a column. -/
def Columns.get (c : Columns) (a : Option Str) : Option TS := (c.find? (fun e => decide (e.1 = a))).map (·.2)

/-- `sanitize` (totals.go:470-480): accounts without totals are removed; `keys` are the map's accounts in some order. -/
def sanitize (m : TSMap) (keys : List Str) : List (Str × TS) :=
  keys.filterMap (fun a => match m a with | some (t :: ts) => some (a, t :: ts) | _ => none)

/-- Merging the remaining accounts into the first of them (totals.go:436-440). -/
def mergeRest (conv : Com → Amount → Except Fault Amount) (red : Reducers) : TS → List TS → Except Fault TS
  | ts, [] => .ok ts
  | ts, t :: rest => (mergeTotals conv red false ts t).bind fun ts => mergeRest conv red ts rest

/-- `top` (totals.go:415-445) after sorting: `sorted` are the sanitized accounts with their timelines in the order chosen by
`sort.Slice` (see `BySize`). Returns the columns in output order. A negative `n` panics in `accounts[:n]`. -/
def topColumns (conv : Com → Amount → Except Fault Amount) (red : Reducers) (n : Int) (sorted : List (Str × TS)) : Except Fault Columns :=
  if (sorted.length : Int) ≤ n then .ok (sorted.map (fun e => (some e.1, e.2)))
  else if n < 0 then .error .panic
  else
    let kept : Columns := (sorted.take n.toNat).map (fun e => (some e.1, e.2))
    match sorted.drop n.toNat with
    | r :: r2 :: rest => (mergeRest conv red r.2 ((r2 :: rest).map (·.2))).bind fun ts => .ok (kept ++ [(none, ts)])
    | _ => .ok kept

/-- `sort.Slice` by decreasing magnitude (totals.go:425-427): any permutation in which no later element is bigger. -/
def BySize (conv : Com → Amount → Except Fault Amount) (accts sorted : List (Str × TS)) : Prop :=
  sorted.Perm accts ∧ ∃ mag : Str × TS → Amount, (∀ e ∈ accts, cumMagnitude conv e.2 = .ok (some (mag e))) ∧
    sorted.Pairwise (fun x y => (mag y).isBigger (mag x) = false)

/-- `mergeTime(totals[acc])` (totals.go:450-456, register.go:131): a missing `acc` is a nil pointer that is dereferenced for the
first column. -/
def mergeTime (conv : Com → Amount → Except Fault Amount) (red : Reducers) (acc : Str) (cols : Columns) : Except Fault Columns :=
  match cols.get (some acc) with
  | none => if cols = [] then .ok cols else .error .panic
  | some root => cols.mapM (fun e => if e.1 = some acc then .ok e else (mergeTotals conv red true e.2 root).bind fun ts => .ok (e.1, ts))

/-- `slices.Sort` of the categories of a period (totals.go:595-601); a period of a single total has the category "". -/
def periodCategories (x : TT) : List Str :=
  match x.vals.filterMap (·.1) with
  | [] => [[]]
  | ks => sortStrings ks

/-- The amount shown for a category (totals.go:614-618): `total` for "". -/
def cell (x : TT) (category : Str) : Option Amount := if category = [] then getKey x.vals none else getKey x.vals (some category)

/-- One output row (totals.go:603-631): period number `i` of every column must have the period's time. -/
def outputRow (cols : Columns) (i : Nat) (period : TT) (category : Str) : Except Fault (List (Option Amount)) :=
  cols.mapM (fun e =>
    match e.2[i]? with
    | none => .error .panic                                   -- index out of range
    | some t => if period.time = t.time then .ok (cell t category) else .error .exit)

/-- `rows` / `print` (totals.go:504-637): (time, category, cells) for the periods and categories of the first column.
`order[0]` panics when there is no column. The cells are printed as `<nil>` in text; csv and json panic on a nil amount. -/
def outputRows (csv : Bool) (cols : Columns) : Except Fault (List (Int × Str × List (Option Amount))) :=
  match cols with
  | [] => .error .panic
  | first :: _ =>
    ((first.2.zipIdx).flatMap (fun e => (periodCategories e.1).map (fun c => (e, c)))).mapM (fun e =>
      (outputRow cols e.1.2 e.1.1 e.2).bind fun cells =>
      if csv && cells.any (·.isNone) then .error .panic else .ok (e.1.1.time, e.2, cells))

/-- The columns of `aggregatedRegister` before output (register.go:108-135), given the order chosen by `sort.Slice`. -/
def aggColumns (env : Env) (red : Reducers) (top : Int) (cumulative : Bool) (acc : Str) (sorted : List (Str × TS)) : Except Fault Columns :=
  (topColumns env.conv red top sorted).bind fun cols =>
  (mergeTime env.conv red acc cols).bind fun cols =>
  if cumulative then cols.mapM (fun e => (makeCumulative env.conv red e.2).bind fun ts => .ok (e.1, ts)) else .ok cols

/-- The timelines of `aggregatedRegister` after propagation and `sanitize` (register.go:109-128). -/
def aggTotals (env : Env) (compile : Compile) (v : View) (L : Links) (fuel : Nat) (f : Filters) (red : Reducers) (recurse : Bool)
    (acc : Str) : Except Fault (List (Str × TS)) :=
  let walk := subtree L.children fuel acc
  (registerWalk compile v f f.payee walk).bind fun sel =>
  (aggStart env.conv red v (fun _ => none) sel).bind fun m =>
  (mergeUp env.conv red recurse L.parent m (subtreePost L.children fuel acc)).bind fun m =>
  .ok (sanitize m walk)

/-- The transaction of a posting (`p.Transaction`, posting.go:14). -/
def txnOf (txns : List Txn) (p : PRef) : Option Txn := txns.find? (fun t => decide (p ∈ t.postings))

/-- `p.Transaction.Postings` (transaction.go:26). -/
def siblingsOf (txns : List Txn) (p : PRef) : List PRef := ((txnOf txns p).map (·.postings)).getD []

/-- What the commands see of a loaded ledger (posting.go:10-21, transaction.go:18-30, account.go:18-40); `tagsOf` reads the tags from
notes. -/
def viewOf (tagsOf : List Str → Tags) (fin : Loaded) (txns : List Txn) : View :=
  ⟨fin.books.postings, fun p => (fin.heap p).posted, fun p => ((txnOf txns p).map (·.description)).getD [],
   fun p => tagsOf (fin.heap p).notes, fun p => tagsOf (((txnOf txns p).map (·.notes)).getD []),
   fun p => (fin.heap p).quantity.getD default⟩

end Verif
