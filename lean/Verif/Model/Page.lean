import Verif.Model.Json
import Verif.Model.WebConvert
import Verif.Model.Date
import Verif.Model.Accounts
import Verif.Go.Sort
/-
What coin2html writes into the page (MarshalJSON methods, cmd/coin2html/main.go) and how the page loads it
(commodity.ts:316-350, account.ts:205-273).

Dates of the page are local times in seconds (see Model/WebConvert.lean); `off` is the offset of the local zone from UTC in
seconds, the same all year. Property names inherited from JavaScript's Object are not modelled, and neither are names starting
with a digit (no account or commodity has one).
-/
namespace Verif

/-! ### Written by Go -/

/-- The fields of `Commodity` that are written (commodity.go:238-251). -/
structure OutCom where
  id : Str
  name : Str
  decimals : Nat
  location : Str
  code : Str
  deriving DecidableEq, Repr

/-- The fields of `Price` that are written (price.go:82-93); the currency is the commodity of the value. -/
structure OutPrice where
  time : Int
  commodityId : Str
  value : Amount
  location : Str
  deriving DecidableEq, Repr

/-- The fields of `Account` that are written (account.go:322-342). -/
structure OutAcct where
  name : Str
  fullName : Str
  commodityId : Str
  location : Str
  closed : Option Int
  code : Str
  parent : Option Str
  deriving DecidableEq, Repr

/-- The fields of `Posting` that are written (posting.go:75-92); `tags` is `none` for a nil map. -/
structure OutPost where
  account : Str
  quantity : Amount
  balance : Option Amount
  asserted : Bool
  notes : List Str
  tags : Option (List (Str × Str))
  deriving DecidableEq, Repr

/-- The fields of `Transaction` that are written (transaction.go:303-322). -/
structure OutTxn where
  posted : Int
  description : Str
  location : Str
  notes : List Str
  code : Str
  tags : List (Str × Str)
  postings : List OutPost
  deriving DecidableEq, Repr

/-- A field that is left out when empty. -/
def optField (k : Str) (s : Str) : List (Str × JVal) := if s = [] then [] else [(k, .str s)]

/-- A map of strings; keys are written in increasing order. -/
def tagsJson (tags : List (Str × Str)) : JVal :=
  .obj ((stableSort (fun a b : Str × Str => strLt a.1 b.1) tags).map fun e => (e.1, .str e.2))

/-- A list of strings. -/
def strsJson (l : List Str) : JVal := .arr (l.map .str)

/-- `(*Commodity).MarshalJSON` (commodity.go:238-251). -/
def commodityJson (c : OutCom) : JVal :=
  .obj (optField (str "code") c.code ++ [(str "decimals", .num c.decimals), (str "id", .str c.id)] ++ optField (str "location") c.location ++
    [(str "name", .str c.name)])

/-- `(*Price).MarshalJSON` (price.go:82-93). -/
def priceJson (p : OutPrice) : Except Fault JVal :=
  (amountJson p.value).bind fun v =>
  .ok (.obj ([(str "commodity", .str p.commodityId), (str "currency", .str p.value.com.id)] ++ optField (str "location") p.location ++
    [(str "time", .str (formatDate p.time)), (str "value", .str v)]))

/-- `(*Account).MarshalJSON` (account.go:322-342). -/
def accountJson (a : OutAcct) : JVal :=
  .obj ((match a.closed with | none => [] | some d => [(str "closed", .str (formatDate d))]) ++ optField (str "code") a.code ++
    [(str "commodity", .str a.commodityId), (str "fullName", .str a.fullName)] ++ optField (str "location") a.location ++
    [(str "name", .str a.name)] ++ (match a.parent with | none => [] | some p => [(str "parent", .str p)]))

/-- The balance fields of a posting (posting.go:81-84). -/
def balanceFields (b : Option Amount) (asserted : Bool) : Except Fault (List (Str × JVal)) :=
  match b with
  | none => .ok []
  | some b => (amountJson b).bind fun s => .ok [(str "balance", .str s), (str "balance_asserted", .bool asserted)]

/-- `(*Posting).MarshalJSON` (posting.go:75-92). -/
def postingJson (p : OutPost) : Except Fault JVal :=
  (amountJson p.quantity).bind fun q =>
  (balanceFields p.balance p.asserted).bind fun bal =>
  .ok (.obj ([(str "account", .str p.account)] ++ bal ++ (if p.notes = [] then [] else [(str "notes", strsJson p.notes)]) ++
    [(str "quantity", .str q)] ++ (match p.tags with | none => [] | some t => [(str "tags", tagsJson t)])))

/-- Marshalling the elements of a list, stopping at the first failure. -/
def jsonAll {α : Type} (f : α → Except Fault JVal) : List α → Except Fault (List JVal)
  | [] => .ok []
  | x :: l => (f x).bind fun v => (jsonAll f l).bind fun vs => .ok (v :: vs)

/-- `(*Transaction).MarshalJSON` (transaction.go:303-322). A transaction always has a posting slice. -/
def txnJson (t : OutTxn) : Except Fault JVal :=
  (jsonAll postingJson t.postings).bind fun ps =>
  .ok (.obj (optField (str "code") t.code ++ [(str "description", .str t.description)] ++ optField (str "location") t.location ++
    (if t.notes = [] then [] else [(str "notes", strsJson t.notes)]) ++
    [(str "posted", .str (formatDate t.posted)), (str "postings", .arr ps)] ++ (if t.tags = [] then [] else [(str "tags", tagsJson t.tags)])))

/-- `coin.Commodities` (main.go:29): a map by id, keys in increasing order. -/
def commoditiesJson (cs : List OutCom) : JVal :=
  .obj ((stableSort (fun a b : OutCom => strLt a.id b.id) cs).map fun c => (c.id, commodityJson c))

/-- `coin.AccountsByName` (main.go:41): a map by full name, keys in increasing order. -/
def accountsJson (as : List OutAcct) : JVal :=
  .obj ((stableSort (fun a b : OutAcct => strLt a.fullName b.fullName) as).map fun a => (a.fullName, accountJson a))

/-- A slice: nil (`null`) when nothing was ever appended. -/
def sliceJson : List JVal → JVal
  | [] => .null
  | l => .arr l

/-- `coin.Prices` (main.go:35). -/
def pricesJson (ps : List OutPrice) : Except Fault JVal := (jsonAll priceJson ps).bind fun l => .ok (sliceJson l)

/-- `coin.Transactions` (main.go:47). -/
def transactionsJson (ts : List OutTxn) : Except Fault JVal := (jsonAll txnJson ts).bind fun l => .ok (sliceJson l)

/-- What is written about the accounts of a loaded ledger (account.go:322-342): the name is the last part of the full name,
the parent the one linked; codes and locations are given by name. -/
def outAccts (code location : Str → Str) (accts : List Acct) (L : Links) : List OutAcct :=
  accts.map fun a => ⟨(parentAndName a.fullName).2, a.fullName, a.commodityId, location a.fullName, a.closed, code a.fullName, L.parent a.fullName⟩

/-! ### Loaded by the page -/

/-- A string property; `undefined` is `none`. -/
def JVal.strOf (v : JVal) (k : Str) : Option Str := match v.get k with | some (.str s) => some s | _ => none

/-- An optional list of strings. -/
def JVal.strsOf (v : JVal) (k : Str) : List Str :=
  match v.get k with
  | some (.arr l) => l.filterMap (fun x => match x with | .str s => some s | _ => none)
  | _ => []

/-- An optional object of strings. -/
def JVal.tagsOf (v : JVal) (k : Str) : List (Str × Str) :=
  match v.get k with
  | some (.obj l) => l.filterMap (fun x => match x.2 with | .str s => some (x.1, s) | _ => none)
  | _ => []

/-- `Object.values(v)`: throws for null. -/
def objectValues : JVal → Except Fault (List JVal)
  | .obj l => .ok (l.map (·.2))
  | .arr l => .ok l
  | _ => .error .err

/-- `new Date("yyyy/mm/dd")`: local midnight (years below 100 are taken as 19xx or 20xx); `none` is an invalid date. -/
def jsDate (s : Str) : Option Int :=
  match splitOn '/' s with
  | [y, m, d] =>
    if (y.all isDigit && m.all isDigit && d.all isDigit) = true ∧ y ≠ [] ∧ m ≠ [] ∧ d ≠ [] then
      let yr := if strNat y < 50 then 2000 + strNat y else if strNat y < 100 then 1900 + strNat y else strNat y
      some (86400 * goDate (yr : Int) (strNat m : Int) (strNat d : Int))
    else none
  | _ => none

/-- A required string; using `undefined` as text is reported as an error. -/
def needStr (v : JVal) (k : Str) : Except Fault Str := match v.strOf k with | some s => .ok s | none => .error .err

/-- A required date. -/
def needDate (s : Str) : Except Fault Int := match jsDate s with | some t => .ok t | none => .error .err

/-- `Commodities` (commodity.ts:160), by id. -/
def findCom (cs : List Com) (id : Str) : Option Com := cs.find? (fun c => decide (c.id = id))

/-- One round of `loadCommodities` (commodity.ts:316-327); the page's commodities are told apart by their id, the name is
only shown. -/
def pageCom (v : JVal) : Except Fault Com :=
  (needStr v (str "id")).bind fun id =>
  match v.get (str "decimals") with
  | some (.num d) => .ok ⟨0, id, d⟩
  | _ => .error .err

/-- `Commodities[commodity.id] = commodity`. -/
def putCom (cs : List Com) (c : Com) : List Com := cs.filter (fun x => decide (x.id ≠ c.id)) ++ [c]

/-- A fold that can throw. -/
def foldE {α β : Type} (f : β → α → Except Fault β) : β → List α → Except Fault β
  | b, [] => .ok b
  | b, x :: l => (f b x).bind fun b => foldE f b l

/-- `loadCommodities` (commodity.ts:316-327). -/
def loadCommodities (v : JVal) : Except Fault (List Com) :=
  (objectValues v).bind fun l => foldE (fun cs v => (pageCom v).bind fun c => .ok (putCom cs c)) [] l

/-- `Commodity.find` (commodity.ts:89-93). -/
def needCom (cs : List Com) (id : Str) : Except Fault Com := match findCom cs id with | some c => .ok c | none => .error .err

/-- One round of `loadPrices` (commodity.ts:332-347), without the reverse price. -/
def pagePrice (cs : List Com) (v : JVal) : Except Fault WPrice :=
  (needStr v (str "commodity")).bind fun id => (needCom cs id).bind fun c =>
  (needStr v (str "value")).bind fun s => (wParse (findCom cs) s).bind fun a =>
  if wString false a ≠ s then .error .err
  else (needStr v (str "time")).bind fun d => (needDate d).bind fun t => .ok ⟨c, t, a⟩

/-- `loadPrices` (commodity.ts:329-350): all prices with their reverses, in order. -/
def loadPagePrices (cs : List Com) (v : JVal) : Except Fault (List WPrice) :=
  match v with
  | .null => .ok []
  | _ => (objectValues v).bind fun l =>
    (foldE (fun ps v => (pagePrice cs v).bind fun p => .ok (ps ++ [p])) [] l).bind fun ps => pushedPrices ps

/-- `Account` of the page (account.ts:15-30) without children and postings, which are `kids` and `postingsOf` below. -/
structure WAcct where
  name : Str
  fullName : Str
  com : Com
  parent : Option Str
  closed : Option Int
  deriving DecidableEq, Repr

/-- `Accounts[name]`. -/
def findAcct (as : List WAcct) (name : Str) : Option WAcct := as.find? (fun a => decide (a.fullName = name))

/-- One round of `loadAccounts` (account.ts:214-230). The parent is the account object found under its name, here its full name. -/
def pageAcct (cs : List Com) (as : List WAcct) (v : JVal) : Except Fault (List WAcct) :=
  (needStr v (str "name")).bind fun name =>
  if name = str "Root" then .ok as
  else
    (needStr v (str "fullName")).bind fun fullName =>
    (needStr v (str "commodity")).bind fun id => (needCom cs id).bind fun c =>
    .ok (as ++ [⟨name, fullName, c, ((v.strOf (str "parent")).bind (findAcct as)).map (·.fullName), (v.strOf (str "closed")).bind jsDate⟩])

/-- `loadAccounts` (account.ts:211-231). -/
def loadAccounts (cs : List Com) (v : JVal) : Except Fault (List WAcct) :=
  (objectValues v).bind fun l => foldE (pageAcct cs) [] l

/-- `Posting` of the page (account.ts:132-146). The transaction it belongs to is the one whose list it is in. -/
structure WPost where
  account : Str
  quantity : Amount
  balance : Amount
  asserted : Bool
  notes : List Str
  tags : List (Str × Str)
  deriving DecidableEq, Repr

/-- `Transaction` of the page (account.ts:157-165). -/
structure WTxn where
  posted : Int
  description : Str
  notes : List Str
  code : Str
  location : Str
  postings : List WPost
  deriving DecidableEq, Repr

/-- One round of the inner loop of `loadTransactions` (account.ts:246-264). -/
def pagePost (cs : List Com) (as : List WAcct) (v : JVal) : Except Fault WPost :=
  (needStr v (str "account")).bind fun acct =>
  match findAcct as acct with
  | none => .error .err
  | some _ =>
    (needStr v (str "quantity")).bind fun q => (wParse (findCom cs) q).bind fun qty =>
    (needStr v (str "balance")).bind fun b => (wParse (findCom cs) b).bind fun bal =>
    .ok ⟨acct, qty, bal, (match v.get (str "balance_asserted") with | some (.bool b) => b | _ => false), v.strsOf (str "notes"), v.tagsOf (str "tags")⟩

/-- `impTransaction.postings` as something to iterate. -/
def postingValues (v : JVal) : Except Fault (List JVal) := match v.get (str "postings") with | some (.arr l) => .ok l | _ => .error .err

/-- One round of the outer loop of `loadTransactions` (account.ts:235-265). -/
def pageTxn (cs : List Com) (as : List WAcct) (v : JVal) : Except Fault WTxn :=
  (needStr v (str "posted")).bind fun d => (needDate d).bind fun posted =>
  (needStr v (str "description")).bind fun desc =>
  (postingValues v).bind fun l =>
  (foldE (fun ps v => (pagePost cs as v).bind fun p => .ok (ps ++ [p])) [] l).bind fun ps =>
  .ok ⟨posted, desc, v.strsOf (str "notes"), (v.strOf (str "code")).getD [], (v.strOf (str "location")).getD [], ps⟩

/-- `loadTransactions` (account.ts:233-265). -/
def loadTransactions (cs : List Com) (as : List WAcct) (v : JVal) : Except Fault (List WTxn) :=
  (objectValues v).bind fun l => foldE (fun ts v => (pageTxn cs as v).bind fun t => .ok (ts ++ [t])) [] l

/-- `MinDate` before rounding (account.ts:201, 237), starting from the current time. -/
def minDate (now : Int) (ts : List WTxn) : Int := ts.foldl (fun m t => if t.posted < m then t.posted else m) now

/-- `MaxDate` before rounding (account.ts:202, 238), starting from 1970-01-01 UTC. -/
def maxDate (epoch : Int) (ts : List WTxn) : Int := ts.foldl (fun m t => if m < t.posted then t.posted else m) epoch

/-- `new Date(d.getFullYear(), 0, 1)` (account.ts:267). -/
def yearFirst (t : Int) : Int := 86400 * goDate (goYear (t / 86400)) 1 1

/-- `new Date(d.getFullYear(), 11, 31)` (account.ts:268). -/
def yearLast (t : Int) : Int := 86400 * goDate (goYear (t / 86400)) 12 31

/-- The loaded page. -/
structure Page where
  coms : List Com
  prices : List WPrice
  accts : List WAcct
  txns : List WTxn
  start : Int
  stop : Int

/-- The texts of the four script elements (main.go:27-51). -/
structure PageTexts where
  coms : Str
  prices : Str
  accts : Str
  txns : Str

/-- What coin2html writes. -/
def pageTexts (cs : List OutCom) (ps : List OutPrice) (as : List OutAcct) (ts : List OutTxn) : Except Fault PageTexts :=
  (pricesJson ps).bind fun p => (transactionsJson ts).bind fun t =>
  .ok ⟨jsonEncode (commoditiesJson cs), jsonEncode p, jsonEncode (accountsJson as), jsonEncode t⟩

/-- `JSON.parse` throws for other texts. -/
def parseE (s : Str) : Except Fault JVal := match jsonParse s with | some v => .ok v | none => .error .err

/-- The loading part of `initializeUI` (ui.ts:26-34). -/
def loadPage (now epoch : Int) (x : PageTexts) : Except Fault Page :=
  (parseE x.coms).bind fun c => (loadCommodities c).bind fun cs =>
  (parseE x.prices).bind fun p => (loadPagePrices cs p).bind fun ps =>
  (parseE x.accts).bind fun a => (loadAccounts cs a).bind fun as =>
  (parseE x.txns).bind fun t => (loadTransactions cs as t).bind fun ts =>
  .ok ⟨cs, ps, as, ts, yearFirst (minDate now ts), yearLast (maxDate epoch ts)⟩

end Verif
