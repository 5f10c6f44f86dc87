import Verif.Model.Parser
/-
Model of the writers: `Write` of transaction.go, posting.go, account.go, commodity.go, price.go with `ledger = false`. The output is the
list of lines without their newlines.
-/
namespace Verif

/-- `TRANSACTION_LINE_MAX` (transaction.go:16). -/
def lineMax : Nat := 80

/-- Appending the first note to a line if it is short enough (transaction.go:88-91, posting.go:34-37): the line and the notes left. -/
def withNote (line : Str) : List Str → Str × List Str
  | [] => (line, [])
  | n :: ns => if blen n + blen line < lineMax - 3 then (line ++ str " ; " ++ n, ns) else (line, n :: ns)

/-- The number and commodity of an amount as `%*.*f %s` prints it. -/
def amountText (w : Option Nat) (a : Amount) : Except Fault Str :=
  (a.format w (some a.com.decimals)).bind fun s => .ok (s ++ ' ' :: a.com.id)

/-- ` = balance` when asserted (posting.go:30-33). -/
def balanceText : Option Amount → Except Fault Str
  | none => .ok []
  | some b => (amountText none b).bind fun s => .ok (str " = " ++ s)

/-- `(*Posting).Write` (posting.go:23-49) with `accountOffset = 2`. A nil quantity is dereferenced. -/
def writePosting (maxn maxa : Nat) (p : PPost) : Except Fault (List Str) :=
  match p.quantity with
  | none => .error .panic
  | some q =>
    (amountText (some maxa) q).bind fun amt =>
    (balanceText p.balance).bind fun bal =>
    let r := withNote (str "  " ++ padRight maxn p.account ++ str "  " ++ amt ++ bal) p.notes
    .ok (r.1 :: r.2.map (fun n => str "    ; " ++ n))

/-- The widths (transaction.go:102-110); `dec a` are the decimals of the commodity of account `a`. -/
def maxWidths (dec : Str → Nat) : List PPost → Except Fault (Nat × Nat)
  | [] => .ok (0, 0)
  | p :: ps =>
    match p.quantity with
    | none => .error .panic
    | some q =>
      (q.width (dec p.account)).bind fun w => (maxWidths dec ps).bind fun r => .ok (max (blen p.account) r.1, max w.toNat r.2)

/-- Writing the postings (transaction.go:111-116). -/
def writePostings (maxn maxa : Nat) : List PPost → Except Fault (List Str)
  | [] => .ok []
  | p :: ps => (writePosting maxn maxa p).bind fun l => (writePostings maxn maxa ps).bind fun r => .ok (l ++ r)

/-- The first line without note (transaction.go:83-87). -/
def headLine (t : PTxn) : Str :=
  formatDate t.posted ++ str " " ++ (if t.code ≠ [] then str "(" ++ t.code ++ str ") " else []) ++ t.description

/-- `(*Transaction).Write` (transaction.go:81-118). -/
def writeTxn (dec : Str → Nat) (t : PTxn) : Except Fault (List Str) :=
  let r := withNote (headLine t) t.notes
  (maxWidths dec t.postings).bind fun w =>
  (writePostings w.1 w.2 t.postings).bind fun ps =>
  .ok (r.1 :: r.2.map (fun n => str "  ; " ++ n) ++ ps)

/-- `writeTransactions` of the format command (cmd/coin/format.go:68-77) without `-t`: every transaction followed by an empty line. -/
def writeTxns (dec : Str → Nat) : List PTxn → Except Fault (List Str)
  | [] => .ok []
  | t :: ts => (writeTxn dec t).bind fun l => (writeTxns dec ts).bind fun r => .ok (l ++ [[]] ++ r)

/-- `(*Account).Write` (account.go:54-80); the commodity has id `commodityId`. -/
def writeAccount (a : PAcct) : List Str :=
  [str "account " ++ a.fullName] ++
  (if a.description ≠ [] then [str "  note " ++ a.description] else []) ++
  [str "  commodity " ++ a.commodityId] ++
  (match a.closed with | none => [] | some d => [str "  closed " ++ formatDate d]) ++
  (if a.ofxBankId ≠ [] then [str "  ofx_bankid " ++ a.ofxBankId] else []) ++
  (if a.ofxAcctId ≠ [] then [str "  ofx_acctid " ++ a.ofxAcctId] else []) ++
  (if a.csvAcctId ≠ [] then [str "  csv_acctid " ++ a.csvAcctId] else [])

/-- `(*Commodity).Write` (commodity.go:115-135). -/
def writeCommodity (c : PCom) : List Str :=
  [str "commodity " ++ c.id] ++
  (if c.name ≠ [] then [str "  note " ++ c.name] else []) ++
  [str "  format " ++ (if c.decimals > 0 then str "1." ++ rep c.decimals '0' else str "1") ++ str " " ++ c.id] ++
  (if c.noMarket then [str "  nomarket"] else [])

/-- `(*Price).Write` (price.go:26-39). -/
def writePrice (p : PPrice) : Except Fault (List Str) :=
  (amountText none p.value).bind fun s => .ok [str "P " ++ formatDate p.time ++ str " " ++ p.commodityId ++ str " " ++ s]

/-- The written text: every line ends with a newline. -/
def textOf (lines : List Str) : Str := lines.flatMap (fun l => l ++ ['\n'])

end Verif
