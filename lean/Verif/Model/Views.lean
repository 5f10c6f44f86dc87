import Verif.Model.Page
import Verif.Model.Ledger
import Verif.Model.Tags
/-
The views of the page (cmd/coin2html/js/src/account.ts, utils.ts, views*.ts): what is computed before it is put on the screen.

Times are local seconds (`86400 * day` is local midnight), `off` is the offset of the local zone from UTC, the same all year.
Sums are JavaScript additions (`dbl`); `conv` is `commodity.convert` (Model/WebConvert.lean).
-/
namespace Verif

/-! ### From the loaded ledger to the page -/

/-- The fields of a loaded posting that are written (posting.go:75-92). After loading every posting has an account and a quantity. -/
def outPost (fin : Loaded) (p : PRef) : OutPost :=
  ⟨(fin.books.account p).getD [], (fin.heap p).quantity.getD ⟨0, ⟨0, [], 0⟩⟩, (fin.heap p).balance, (fin.heap p).asserted, (fin.heap p).notes,
    (parseTags (fin.heap p).notes).toTags⟩

/-- The fields of a loaded transaction that are written (transaction.go:303-322); `location` is where it was read. -/
def outTxn (location : Txn → Str) (fin : Loaded) (t : Txn) : OutTxn :=
  ⟨t.posted, t.description, location t, t.notes, t.code, parseTags t.notes, t.postings.map (outPost fin)⟩

/-! ### Dates -/

/-- `yyyy-mm-dd` of a day. -/
def isoDay (n : Int) : Str := padInt (goYear n) 4 ++ '-' :: (padInt (goMonth n) 2 ++ '-' :: padInt (goDay n) 2)

/-- `dateToString` (utils.ts:5-7): the day in UTC. -/
def dateToString (off t : Int) : Str := isoDay ((t - off) / 86400)

/-- `new Date(input.value)` (ui.ts:48, 59) for the day `n` entered by the user: midnight in UTC. -/
def inputDate (off n : Int) : Int := 86400 * n + off

/-- `input.valueAsDate = d` (ui.ts:43, 54): the day in UTC. -/
def inputShows (off t : Int) : Int := (t - off) / 86400

/-! ### Postings -/

/-- A posting with its transaction; postings of one transaction are told apart by their position. -/
structure VPost where
  txn : WTxn
  idx : Nat
  post : WPost
  deriving DecidableEq, Repr

/-- The postings made while loading one transaction (account.ts:246-264). -/
def txnPosts (t : WTxn) : List VPost := t.postings.zipIdx.map (fun e => ⟨t, e.2, e.1⟩)

/-- `account.postings` (account.ts:145). -/
def acctPosts (ts : List WTxn) (name : Str) : List VPost := (ts.flatMap txnPosts).filter (fun v => decide (v.post.account = name))

/-- `trimToDateRange` (utils.ts:9-15). -/
def trimToDateRange (l : List VPost) (start stop : Int) : List VPost :=
  match l.findIdx? (fun v => decide (start ≤ v.txn.posted)) with
  | none => []
  | some i =>
    match l.findIdx? (fun v => decide (stop < v.txn.posted)) with
    | none => l.drop i
    | some j => (l.take j).drop i

/-- `Account.balanceAt` (account.ts:45-50). -/
def balanceAt (ts : List WTxn) (a : WAcct) (date : Int) : Amount :=
  match (acctPosts ts a.fullName).reverse.find? (fun v => decide (v.txn.posted ≤ date)) with
  | some v => v.post.balance
  | none => ⟨0, a.com⟩

/-- `Math.sign`. -/
def jsSign (n : Int) : Int := if n < 0 then -1 else if n = 0 then 0 else 1

/-- `Transaction.other` (account.ts:169-177). -/
def vOther (v : VPost) : Except Fault VPost :=
  match (txnPosts v.txn).find? (fun p => decide (p.idx ≠ v.idx) && (decide (jsSign p.post.quantity.int ≠ jsSign v.post.quantity.int) || decide (jsSign v.post.quantity.int = 0))) with
  | some p => .ok p
  | none => .error .err

/-- A row of the register (viewsRegister.ts:258-269): date, description, other account, amount, balance, cumulative total. -/
structure VRow where
  date : Str
  description : Str
  other : Str
  amount : Amount
  balance : Amount
  total : Amount
  deriving DecidableEq, Repr

/-- `renderPostings` (viewsRegister.ts:217-272), the data rows. -/
def vRows (conv : Com → Amount → Int → Except Fault Amount) (off : Int) : Amount → List VPost → Except Fault (List VRow)
  | _, [] => .ok []
  | total, v :: l =>
    (wAddIn conv total v.post.quantity v.txn.posted).bind fun total =>
    (vOther v).bind fun o =>
    (vRows conv off total l).bind fun rest =>
    .ok (⟨dateToString off v.txn.posted, v.txn.description, o.post.account, v.post.quantity, v.post.balance, total⟩ :: rest)

/-- `viewRegisterFull` (viewsRegister.ts:199-215). -/
def viewRegisterFull (conv : Com → Amount → Int → Except Fault Amount) (off : Int) (ts : List WTxn) (a : WAcct) (start stop : Int) :
    Except Fault (List VRow) :=
  vRows conv off ⟨0, a.com⟩ (trimToDateRange (acctPosts ts a.fullName) start stop)

/-! ### The account tree -/

/-- `account.children` (account.ts:16, 26-28): in the order of loading. -/
def kids (as : List WAcct) (a : Str) : List WAcct := as.filter (fun w => decide (w.parent = some a))

/-- Accounts kept by `allChildren` (account.ts:34-37): `ShowClosedAccounts`, `EndDate` and the excluded accounts. -/
def visible (showClosed : Bool) (stop : Int) (exclude : List Str) (w : WAcct) : Bool :=
  (showClosed || (match w.closed with | none => true | some d => decide (stop < d))) && !exclude.contains w.fullName

/-- `allChildren` (account.ts:30-41); the first argument bounds the depth. -/
def allChildren (as : List WAcct) (keep : WAcct → Bool) : Nat → Str → List WAcct
  | 0, _ => []
  | k + 1, a => (kids as a).flatMap (fun w => if keep w then w :: allChildren as keep k w.fullName else [])

/-- `withAllChildPostings` (account.ts:58-71); `Array.sort` is stable. -/
def withAllChildPostings (as : List WAcct) (keep : WAcct → Bool) (ts : List WTxn) (k : Nat) (a : WAcct) (start stop : Int) : List VPost :=
  stableSort (fun x y : VPost => decide (x.txn.posted < y.txn.posted))
    ((a :: allChildren as keep k a.fullName).flatMap (fun w => trimToDateRange (acctPosts ts w.fullName) start stop))

/-- `relativeName` (account.ts:55-57). -/
def relativeName (a child : WAcct) : Str := child.fullName.drop a.fullName.length

/-- A row of the register with subaccounts (viewsRegister.ts:336-346): date, description, subaccount, other account, amount, total. -/
structure VSubRow where
  date : Str
  description : Str
  sub : Str
  other : Str
  amount : Amount
  total : Amount
  deriving DecidableEq, Repr

/-- `renderPostingsWithSubAccounts` (viewsRegister.ts:304-370), the data rows. The page's `shortenAccountName` (utils.ts:168-184) has
the same text as Go's. -/
def vSubRows (conv : Com → Amount → Int → Except Fault Amount) (off : Int) (a : WAcct) : Amount → List VPost → Except Fault (List VSubRow)
  | _, [] => .ok []
  | total, v :: l =>
    (wAddIn conv total v.post.quantity v.txn.posted).bind fun total =>
    (vOther v).bind fun o =>
    (vSubRows conv off a total l).bind fun rest =>
    .ok (⟨dateToString off v.txn.posted, v.txn.description, shortenAccountName (v.post.account.drop a.fullName.length) 30, o.post.account,
      v.post.quantity, total⟩ :: rest)

/-- `viewRegisterFullWithSubAccounts` (viewsRegister.ts:289-302). -/
def viewRegisterWithSubAccounts (conv : Com → Amount → Int → Except Fault Amount) (off : Int) (showClosed : Bool) (as : List WAcct) (ts : List WTxn) (k : Nat)
    (a : WAcct) (start stop : Int) : Except Fault (List VSubRow) :=
  vSubRows conv off a ⟨0, a.com⟩ (withAllChildPostings as (visible showClosed stop []) ts k a start stop)

/-- `AccountBalanceAndTotal` (utils.ts:17-21). -/
structure BalTotal where
  account : WAcct
  balance : Amount
  total : Amount
  deriving DecidableEq, Repr

/-- `isClosed` (account.ts:118-124), going up at most `k` levels. -/
def wIsClosed (as : List WAcct) (date : Int) : Nat → WAcct → Bool
  | 0, _ => false
  | k + 1, w =>
    (match w.closed with | some d => decide (d ≤ date) | none => false) ||
    (match w.parent.bind (findAcct as) with | some p => wIsClosed as date k p | none => false)

/-- Adding the totals of the children (account.ts:99-105). -/
def addTotals (conv : Com → Amount → Int → Except Fault Amount) (date : Int) : Amount → List (List BalTotal) → Except Fault Amount
  | t, [] => .ok t
  | t, (b :: _) :: l => (wAddIn conv t b.total date).bind fun t => addTotals conv date t l
  | _, [] :: _ => .error .panic

/-- Results of a list of computations. -/
def allE {α β : Type} (f : α → Except Fault β) : List α → Except Fault (List β)
  | [] => .ok []
  | x :: l => (f x).bind fun y => (allE f l).bind fun ys => .ok (y :: ys)

/-- `withAllChildBalances` (account.ts:91-107); `skip` are the children left out (closed or excluded); `k` bounds the depth. -/
def withAllChildBalances (conv : Com → Amount → Int → Except Fault Amount) (as : List WAcct) (skip : WAcct → Bool) (ts : List WTxn) (date : Int) :
    Nat → WAcct → Except Fault (List BalTotal)
  | 0, _ => .error .loop
  | k + 1, a =>
    (allE (withAllChildBalances conv as skip ts date k) ((kids as a.fullName).filter (fun w => !skip w))).bind fun cs =>
    (addTotals conv date (balanceAt ts a date) cs).bind fun total =>
    .ok (⟨a, balanceAt ts a date, total⟩ :: cs.flatten)

/-- The children left out by `withAllChildBalances` (account.ts:100-101). -/
def wSkip (showClosed : Bool) (as : List WAcct) (date : Int) (exclude : List Str) (k : Nat) (w : WAcct) : Bool :=
  (!showClosed && wIsClosed as date k w) || exclude.contains w.fullName

/-- `depthFrom` (account.ts:125-130); -1 when `parent` is not above. -/
def depthFrom (as : List WAcct) (top : Str) : Nat → WAcct → Int
  | 0, _ => -1
  | k + 1, w =>
    if w.fullName = top then 0
    else match w.parent.bind (findAcct as) with
      | none => -1
      | some p => let d := depthFrom as top k p; if d < 0 then d else d + 1

/-- The rows of `viewBalances` (viewsBalances.ts:21-36): balance, total, account; `depth` is `BalanceDepth`. -/
def viewBalances (conv : Com → Amount → Int → Except Fault Amount) (showClosed : Bool) (as : List WAcct) (ts : List WTxn) (stop : Int) (depth : Int) (k : Nat)
    (a : WAcct) : Except Fault (List (Amount × Amount × Str)) :=
  (withAllChildBalances conv as (wSkip showClosed as stop [] k) ts stop k a).bind fun rows =>
  .ok ((rows.filter (fun b => decide (depthFrom as a.fullName k b.account ≤ depth))).map (fun b => (b.balance, b.total, relativeName a b.account)))

/-- `withAllParents` (account.ts:108-110): full names from the top. -/
def withAllParents (as : List WAcct) : Nat → WAcct → List WAcct
  | 0, w => [w]
  | k + 1, w => match w.parent.bind (findAcct as) with | none => [w] | some p => withAllParents as k p ++ [w]

/-- `getRootAccount` (account.ts:111-113). -/
def rootAccount (as : List WAcct) : Nat → WAcct → WAcct
  | 0, w => w
  | k + 1, w => match w.parent.bind (findAcct as) with | none => w | some p => rootAccount as k p

/-- The top level accounts that have views (views.ts:52-95). -/
def viewNames : List Str := [str "Assets", str "Liabilities", str "Income", str "Expenses", str "Equity", str "Unbalanced"]

/-- `updateView` finds a view (views.ts:270-275); otherwise `selectedViews` is undefined and using it throws. -/
def findView (as : List WAcct) (k : Nat) (w : WAcct) : Except Fault Unit :=
  if (rootAccount as k w).name ∈ viewNames then .ok () else .error .err

/-- The end of `initializeUI` (ui.ts:32-33, 83): `Accounts.Assets` is selected and its views are offered; without such an account
`SelectedAccount` is undefined and using it throws. -/
def openPage (as : List WAcct) (k : Nat) : Except Fault WAcct :=
  match findAcct as (str "Assets") with
  | none => .error .err
  | some w => (findView as k w).bind fun _ => .ok w

end Verif
