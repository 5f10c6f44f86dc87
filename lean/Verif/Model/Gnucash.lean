import Verif.Model.Import
import Verif.Go.Regex
/-
Model of the conversion of a GnuCash book: gnucash/*.go and cmd/gc2coin/main.go.

The gzipped XML file is decoded by the standard library; a book is modelled by the decoded values. GUIDs of accounts are taken to be
distinct (they are the keys of a map), so an account is identified by its GUID. The `-l` option is not modelled.
-/
namespace Verif

/-- `gnucash.Account` (account.go:52-64), the fields that are used; `onlineId` is the slot of that name, empty if there is none. -/
structure GAccount where
  guid : Str
  name : Str
  type : Str
  comId : Str
  parentGuid : Str
  description : Str
  onlineId : Str
  deriving DecidableEq, Repr

/-- `gnucash.Commodity` (commodity.go:29-39); `fraction` is 0 if the element is missing. -/
structure GCommodity where
  id : Str
  name : Str
  fraction : Int
  deriving DecidableEq, Repr

/-- `gnucash.Price` (price.go:27-37). -/
structure GPrice where
  comId : Str
  curId : Str
  date : Str
  value : Str
  deriving DecidableEq, Repr

/-- `gnucash.Split` (split.go:30-39). -/
structure GSplit where
  account : Str
  memo : Str
  quantity : Str
  deriving DecidableEq, Repr

/-- `gnucash.Transaction` (transaction.go:53-62). -/
structure GTransaction where
  num : Str
  posted : Str
  description : Str
  splits : List GSplit
  deriving DecidableEq, Repr

/-! ### Values (gnucash.go) -/

/-- Reads `w` decimal digits. -/
def readDigits : Nat → Nat → Str → Option (Nat × Str)
  | 0, n, s => some (n, s)
  | _ + 1, _, [] => none
  | w + 1, n, c :: s => if isDigit c then readDigits w (n * 10 + digitVal c) s else none

/-- Reads one given character. -/
def readChar (c : Char) : Str → Option Str
  | [] => none
  | d :: s => if d = c then some s else none

/-- The sign of a zone. -/
def readSign : Str → Option (Int × Str)
  | '+' :: s => some (1, s)
  | '-' :: s => some (-1, s)
  | _ => none

/-- The stamp of the parts that were read, if they are in range. -/
def stampOf (y m d h n s : Nat) (sg : Int) (zh zm : Nat) : Option Stamp :=
  if 1 ≤ m ∧ m ≤ 12 ∧ 1 ≤ d ∧ (d : Int) ≤ daysIn (isLeap y) m ∧ h < 24 ∧ n < 60 ∧ s < 60 ∧ zh < 24 ∧ zm < 60 then
    some ⟨goDate y m d * 86400 + h * 3600 + n * 60 + s - sg * (zh * 3600 + zm * 60), sg * (zh * 3600 + zm * 60)⟩
  else none

/-- The zone at the end of a stamp. -/
def zoneOf (y m d h n s : Nat) (r : Str) : Option Stamp :=
  (readSign r).bind fun sg => (readDigits 2 0 sg.2).bind fun zh => (readDigits 2 0 zh.2).bind fun zm =>
  if zm.2 = [] then stampOf y m d h n s sg.1 zh.1 zm.1 else none

/-- The time of day in a stamp. -/
def clockOf (y m d : Nat) (r : Str) : Option Stamp :=
  (readDigits 2 0 r).bind fun h => (readChar ':' h.2).bind fun r => (readDigits 2 0 r).bind fun n => (readChar ':' n.2).bind fun r =>
  (readDigits 2 0 r).bind fun s => (readChar ' ' s.2).bind fun r => zoneOf y m d h.1 n.1 s.1 r

/-- A text exactly in the layout `TimeStamp` (gnucash.go:63), `2006-01-02 15:04:05 -0700`. -/
def exactStamp (s : Str) : Option Stamp :=
  (readDigits 4 0 s).bind fun y => (readChar '-' y.2).bind fun r => (readDigits 2 0 r).bind fun m => (readChar '-' m.2).bind fun r =>
  (readDigits 2 0 r).bind fun d => (readChar ' ' d.2).bind fun r => clockOf y.1 m.1 d.1 r

/-- What the conversion reads of its surroundings: the commodities by id, and what the library makes of texts that are not in the
exact form: `looseStamp` what `time.Parse` accepts besides (such as fractions of a second), `looseInt` the value that
`big.Int.SetString` leaves after an error, which its documentation does not define. -/
structure GcEnv where
  coms : Str → Option Com
  dflt : Str
  looseStamp : Str → Option Stamp
  looseInt : Str → Int

/-- `mustParseTimeStamp` (gnucash.go:65-71). -/
def mustParseTimeStamp (env : GcEnv) (s : Str) : Except Fault Stamp :=
  match exactStamp s with
  | some t => .ok t
  | none => match env.looseStamp s with
    | some t => .ok t
    | none => .error .panic

/-- `big.Int.SetString` in base 10: an optional sign and digits. -/
def bigSetString : Str → Option Int
  | '-' :: s => if s ≠ [] ∧ s.all isDigit then some (-(strNat s : Int)) else none
  | '+' :: s => if s ≠ [] ∧ s.all isDigit then some (strNat s : Int) else none
  | s => if s ≠ [] ∧ s.all isDigit then some (strNat s : Int) else none

/-- The part of `mustParseAmount` after the text was split (gnucash.go:79-86). -/
def amountOf (env : GcEnv) (num den : Str) (c : Com) : Except Fault Amount :=
  if (bigSetString den).getD (env.looseInt den) ≤ 0 then .error .panic
  else newAmountFrac ((bigSetString num).getD (env.looseInt num)) ((bigSetString den).getD (env.looseInt den)) c

/-- `mustParseAmount` (gnucash.go:74-87). -/
def gcAmount (env : GcEnv) (f : Str) (c : Com) : Except Fault Amount :=
  match splitOn '/' f with
  | [num, den] => amountOf env num den c
  | _ => .error .panic

/-! ### Commodities (commodity.go) -/

/-- `CommodityFrom` (commodity.go:41-50). -/
def commodityFrom (c : GCommodity) : PCom := ⟨c.id, c.name, log10 c.fraction, false, []⟩

/-- An assignment to a map whose entries carry their keys. -/
def putBy {α} (key : α → Str) : List α → α → List α
  | [], a => [a]
  | b :: m, a => if key b = key a then a :: m else b :: putBy key m a

/-- `resolveCommodities` (commodity.go:52-57): the map `Commodities`, in the order of insertion. -/
def resolveCommodities (cs : List GCommodity) : List PCom := cs.foldl (fun m c => putBy (·.id) m (commodityFrom c)) []

/-! ### Accounts (account.go) -/

/-- The name of the created account (account.go:67-72). -/
def gcName (n : Str) : Str := if n = str "Root Account" then str "Root" else n.filter (fun c => decide (c ≠ ' '))

/-- `gc_online_id` (account.go:141). -/
def onlineIdRe : Re := .cat [.opt (.cat [.grp (str "bank") (.plus .digit), .plus .ws]), .grp (str "acct") (.plus .digit)]

/-- The ids of bank and account (account.go:103-107): indexing the groups panics if there is no match. -/
def onlineIds (s : Str) : Except Fault (Str × Str) :=
  if s = [] then .ok ([], [])
  else match onlineIdRe.matches s with
    | none => .error .panic
    | some c => .ok (c.get (str "bank"), c.get (str "acct"))

/-- `coin.Account` as created; the parent is known by GUID, empty if there is none. -/
structure GcAcct where
  guid : Str
  name : Str
  type : Str
  parent : Str
  com : Com
  description : Str
  bank : Str
  acct : Str
  deriving DecidableEq, Repr

/-- `MustFindCommodity` (coin.go:54-59). -/
def GcEnv.find (env : GcEnv) (id : Str) : Except Fault Com :=
  match env.coms id with
  | some c => .ok c
  | none => .error .panic

/-- `AccountFrom` and the first loop of `resolveAccounts` for one account (account.go:66-79, 86-108). -/
def accountFrom (env : GcEnv) (a : GAccount) : Except Fault GcAcct :=
  if a.guid = [] then .error .panic
  else (env.find (if a.comId ≠ [] then a.comId else env.dflt)).bind fun c => (onlineIds a.onlineId).bind fun ids =>
    .ok ⟨a.guid, gcName a.name, a.type, a.parentGuid, c, a.description, ids.1, ids.2⟩

/-- `AccountsByGuid`. -/
def byGuid (as : List GcAcct) (g : Str) : Option GcAcct := as.find? (fun a => decide (a.guid = g))

/-- `Parent` after linking (account.go:109-113). -/
def gcParent (as : List GcAcct) (a : GcAcct) : Option GcAcct := if a.parent = [] then none else byGuid as a.parent

/-- Linking panics on an unknown GUID (account.go:111, 152-158). -/
def linked (as : List GcAcct) : Bool := as.all fun a => decide (a.parent = []) || (byGuid as a.parent).isSome

/-- `isRoot` (account.go:125-127). -/
def gcIsRoot (as : List GcAcct) (a : GcAcct) : Bool := decide (a.type = str "ROOT") || (gcParent as a).isNone

/-- The fields `FullName` by GUID. -/
abbrev NameOf := Str → Str

/-- Assignment to a field. -/
def NameOf.set (f : NameOf) (g n : Str) : NameOf := fun x => if x = g then n else f x

/-- `buildFullName` (account.go:129-139), which keeps names it has computed; running out of fuel stands for endless recursion. -/
def buildFullName (as : List GcAcct) : Nat → NameOf → GcAcct → Except Fault (Str × NameOf)
  | 0, _, _ => .error .loop
  | n + 1, f, a =>
    if f a.guid ≠ [] then .ok (f a.guid, f)
    else if gcIsRoot as a then .ok (a.name, f.set a.guid a.name)
    else match gcParent as a with
      | none => .ok (a.name, f.set a.guid a.name)
      | some p =>
        if gcIsRoot as p then .ok (a.name, f.set a.guid a.name)
        else (buildFullName as n f p).bind fun r => .ok (r.1 ++ [':'] ++ a.name, r.2.set a.guid (r.1 ++ [':'] ++ a.name))

/-- `AccountsByName`. -/
abbrev ByName := List (Str × GcAcct)

/-- The last loop of `resolveAccounts` (account.go:115-122) over the accounts in the order of the map iteration. Sorting of the children
is left out: gc2coin does not use it. -/
def nameAll (as : List GcAcct) : NameOf → ByName → List GcAcct → Except Fault (NameOf × ByName)
  | f, m, [] => .ok (f, m)
  | f, m, a :: rest => (buildFullName as (as.length + 1) f a).bind fun r => nameAll as r.2 (putBy (·.1) m (r.1, a)) rest

/-- The second half of `resolveAccounts` (account.go:109-123). -/
def nameAccounts (as order : List GcAcct) : Except Fault (NameOf × ByName) :=
  if linked as then nameAll as (fun _ => []) [] order else .error .panic

/-! ### Prices (price.go) -/

/-- `coin.Price`. -/
structure GcPrice where
  com : Com
  cur : Com
  value : Amount
  time : Stamp
  deriving DecidableEq, Repr

/-- One price (price.go:40-49): a missing currency or commodity is a nil pointer. -/
def gcPriceFrom (env : GcEnv) (p : GPrice) : Except Fault GcPrice :=
  (env.find p.curId).bind fun cur => (gcAmount env p.value cur).bind fun v => (mustParseTimeStamp env p.date).bind fun t =>
  (env.find p.comId).bind fun c => .ok ⟨c, cur, v, t⟩

/-- `sort.Slice` by time (price.go:58-60, transaction.go:84-86): any sorted permutation. -/
def InTimeOrder {α} (time : α → Stamp) (l l' : List α) : Prop := l'.Perm l ∧ l'.Pairwise (fun a b => (time a).sec ≤ (time b).sec)

/-! ### Transactions (split.go, transaction.go) -/

/-- `coin.Posting`; the account by GUID. -/
structure GcPost where
  account : Str
  quantity : Amount
  notes : List Str
  deriving DecidableEq, Repr

/-- `coin.Transaction`. -/
structure GcTxn where
  posted : Stamp
  code : Str
  description : Str
  notes : List Str
  postings : List GcPost
  deriving DecidableEq, Repr

/-- One split (split.go:41-52). -/
def splitFrom (env : GcEnv) (as : List GcAcct) (s : GSplit) : Except Fault GcPost :=
  match byGuid as s.account with
  | none => .error .panic
  | some a => (gcAmount env s.quantity a.com).bind fun q => .ok ⟨s.account, q, if s.memo ≠ [] then [s.memo] else []⟩

/-- `strings.SplitN(s, " - ", 2)`: the part before the first separator, and the rest if there is one. -/
def splitDash : Str → Str × Option Str
  | [] => ([], none)
  | c :: s => if hasPrefix (c :: s) (str " - ") then ([], some (s.drop 2)) else ((c :: (splitDash s).1), (splitDash s).2)

/-- The notes of a transaction (transaction.go:71-73). -/
def dashNotes : Option Str → List Str
  | none => []
  | some n => if n ≠ [] then [n] else []

/-- One transaction (transaction.go:65-77). -/
def transactionOf (env : GcEnv) (as : List GcAcct) (t : GTransaction) : Except Fault GcTxn :=
  (mustParseTimeStamp env t.posted).bind fun p => (t.splits.mapM (splitFrom env as)).bind fun ps =>
  .ok ⟨p, t.num, (splitDash t.description).1, dashNotes (splitDash t.description).2, ps⟩

/-- `CheckPostings` for one account (account.go:184-205 of the main package) over its postings in their order; none has a balance. -/
def gcBalance (conv : Com → Amount → Except Fault Amount) (a : GcAcct) (ps : List GcPost) : Except Fault Amount :=
  sumInto conv (zeroAmount a.com) (ps.map (·.quantity))

/-! ### Output (cmd/gc2coin/main.go) -/

/-- `Write` of an account under its full name. -/
def GcAcct.written (full : Str) (a : GcAcct) : PAcct := ⟨full, a.description, a.com.id, none, a.bank, a.acct, []⟩

/-- `Write` of a price. -/
def GcPrice.written (p : GcPrice) : PPrice := ⟨p.time.day, p.com.id, p.cur.id, p.value⟩

/-- `Write` of a transaction; the date is that of the stamp's own zone. -/
def GcTxn.written (f : NameOf) (t : GcTxn) : PTxn :=
  ⟨t.posted.day, t.code, t.description, t.notes, t.postings.map fun p => ⟨f p.account, some p.quantity, none, p.notes⟩⟩

/-- The text of the commodities file (main.go:62-74): by id, each followed by an empty line, without the one named `template`. -/
def gcCommodities (coms : List PCom) : Str :=
  textOf ((coms.filter (fun c => decide (c.name ≠ str "template"))).flatMap fun c => writeCommodity c ++ [[]])

/-- The text of the accounts file (main.go:98-109). -/
def gcAccounts (as : ByName) : Str := textOf (as.flatMap fun e => writeAccount (e.2.written e.1) ++ [[]])

/-- `strconv.Itoa`. -/
def itoa (n : Int) : Str := if n < 0 then '-' :: natStr n.natAbs else natStr n.toNat

/-- The directory, by file names, and the file that is open for writing. -/
structure OutDir where
  dir : Str → Option Str
  cur : Str

/-- `next` (main.go:35-45) with `$COINDB`: `os.Create` truncates a file that exists. -/
def OutDir.next (o : OutDir) (fn : Str) : OutDir := ⟨fun x => if x = fn then some [] else o.dir x, fn⟩

/-- Writing to the open file. -/
def OutDir.write (o : OutDir) (s : Str) : OutDir := { o with dir := fun x => if x = o.cur then some ((o.dir x).getD [] ++ s) else o.dir x }

/-- The loop over prices or transactions (main.go:86-96, 119-133): the items with the year and the text of each. The result has the last
value of the variable `year`. -/
def yearLoop (yearly : Bool) (ext : Str) : Int → OutDir → List (Int × Str) → Int × OutDir
  | year, o, [] => (year, o)
  | year, o, (y, s) :: rest =>
    if yearly = true ∧ y ≠ year then yearLoop yearly ext y ((o.next (itoa y ++ ext)).write s) rest
    else yearLoop yearly ext year (o.write s) rest

/-- Opening the first file of prices or transactions (main.go:76-85, 111-118): with `-y` there must be a first item. The variable `year`
that is set there is another one than that of the loop. -/
def openFirst (yearly : Bool) (ext whole : Str) (o : OutDir) : List (Int × Str) → Except Fault OutDir
  | [] => if yearly then .error .panic else .ok (o.next whole)
  | (y, _) :: _ => .ok (o.next (if yearly then itoa y ++ ext else whole))

/-- `main` (main.go:47-135) after loading, with `$COINDB` set: commodities, prices, accounts, transactions. -/
def gcMain (yearly : Bool) (dir : Str → Option Str) (commodities accounts : Str) (prices txns : List (Int × Str)) : Except Fault OutDir :=
  (openFirst yearly (str ".prices") (str "prices.coin") (((OutDir.mk dir []).next (str "commodities.coin")).write commodities) prices).bind fun o =>
  let r := yearLoop yearly (str ".prices") 0 o prices
  (openFirst yearly (str ".coin") (str "transactions.coin") ((r.2.next (str "accounts.coin")).write accounts) txns).bind fun o =>
  .ok (yearLoop yearly (str ".coin") r.1 o txns).2

/-- The year and text of a price (main.go:86-96). -/
def priceEntry (p : GcPrice) : Except Fault (Int × Str) := (writePrice p.written).bind fun ls => .ok (goYear p.time.day, textOf ls)

/-- The year and text of a transaction, with the empty line (main.go:119-133). -/
def txnEntry (dec : Str → Nat) (f : NameOf) (t : GcTxn) : Except Fault (Int × Str) :=
  (writeTxn dec (t.written f)).bind fun ls => .ok (goYear t.posted.day, textOf (ls ++ [[]]))

end Verif
