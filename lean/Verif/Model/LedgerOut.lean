import Verif.Model.Format
/-
Model of the ledger-compatible output: the writers of transaction.go, posting.go, account.go, commodity.go, price.go and amount.go with
their argument `ledger`, as used by `coin format -ledger` and `gc2coin -l`. With `ledger = false` they are the writers of Model/Writer.lean,
which is proved (`writeTxnL_false` and the others in Props/LedgerOut.lean), not assumed.
-/
namespace Verif

/-- `disallowed` (commodity.go:63). -/
def disallowed : Str := str " \t0123456789.,;:?!-+*^/&|=<>[](){}@"

/-- `(*Commodity).SafeId` (commodity.go:65-76). The result is cached in `quotedId`; the id of a commodity does not change after it was
parsed, so the cache always holds this value. -/
def safeId (ledger : Bool) (id : Str) : Str :=
  if ledger then (if id.any (fun c => disallowed.contains c) then '"' :: (id ++ ['"']) else id) else id

/-- `%*.*f %s` of an amount and `SafeId` (posting.go:26-29, amount.go:105-108). -/
def amountTextL (ledger : Bool) (w : Option Nat) (a : Amount) : Except Fault Str :=
  (a.format w (some a.com.decimals)).bind fun s => .ok (s ++ ' ' :: safeId ledger a.com.id)

/-- ` = balance` when asserted (posting.go:30-33). -/
def balanceTextL (ledger : Bool) : Option Amount → Except Fault Str
  | none => .ok []
  | some b => (amountTextL ledger none b).bind fun s => .ok (str " = " ++ s)

/-- `(*Posting).Write` (posting.go:23-49) with `accountOffset = 2`. A nil quantity is dereferenced. -/
def writePostingL (ledger : Bool) (maxn maxa : Nat) (p : PPost) : Except Fault (List Str) :=
  match p.quantity with
  | none => .error .panic
  | some q =>
    (amountTextL ledger (some maxa) q).bind fun amt =>
    (balanceTextL ledger p.balance).bind fun bal =>
    let r := withNote (str "  " ++ padRight maxn p.account ++ str "  " ++ amt ++ bal) p.notes
    .ok (r.1 :: r.2.map (fun n => str "    ; " ++ n))

/-- Writing the postings (transaction.go:111-116). -/
def writePostingsL (ledger : Bool) (maxn maxa : Nat) : List PPost → Except Fault (List Str)
  | [] => .ok []
  | p :: ps => (writePostingL ledger maxn maxa p).bind fun l => (writePostingsL ledger maxn maxa ps).bind fun r => .ok (l ++ r)

/-- `(*Transaction).Write` (transaction.go:81-118). -/
def writeTxnL (ledger : Bool) (dec : Str → Nat) (t : PTxn) : Except Fault (List Str) :=
  let r := withNote (headLine t) t.notes
  (maxWidths dec t.postings).bind fun w =>
  (writePostingsL ledger w.1 w.2 t.postings).bind fun ps =>
  .ok (r.1 :: r.2.map (fun n => str "  ; " ++ n) ++ ps)

/-- `writeTransactions` of the format command (cmd/coin/format.go:68-77): every transaction followed by an empty line. -/
def writeTxnsL (ledger : Bool) (dec : Str → Nat) : List PTxn → Except Fault (List Str)
  | [] => .ok []
  | t :: ts => (writeTxnL ledger dec t).bind fun l => (writeTxnsL ledger dec ts).bind fun r => .ok (l ++ [[]] ++ r)

/-- `format` of one file's text with or without `-ledger` (cmd/coin/format.go:42-77). -/
def formatTextL (today : Today) (env : Env) (ledger trim : Bool) (st : LoadState) (text : Str) : Except Fault Str :=
  (loadText today { st with items := [] } text).bind fun l =>
  (formatTxns env trim (l.items.filterMap itemTxn)).bind fun ts =>
  (writeTxnsL ledger (fun a => (env.comOf a).decimals) ts).bind fun lines => .ok (textOf lines)

/-- `(*Account).Write` (account.go:54-80): the bank's ids are left out of ledger's format. -/
def writeAccountL (ledger : Bool) (a : PAcct) : List Str :=
  [str "account " ++ a.fullName] ++
  (if a.description ≠ [] then [str "  note " ++ a.description] else []) ++
  [str "  commodity " ++ safeId ledger a.commodityId] ++
  (match a.closed with | none => [] | some d => [str "  closed " ++ formatDate d]) ++
  (if a.ofxBankId ≠ [] ∧ ledger = false then [str "  ofx_bankid " ++ a.ofxBankId] else []) ++
  (if a.ofxAcctId ≠ [] ∧ ledger = false then [str "  ofx_acctid " ++ a.ofxAcctId] else []) ++
  (if a.csvAcctId ≠ [] ∧ ledger = false then [str "  csv_acctid " ++ a.csvAcctId] else [])

/-- `(*Commodity).Write` (commodity.go:115-135). -/
def writeCommodityL (ledger : Bool) (c : PCom) : List Str :=
  [str "commodity " ++ safeId ledger c.id] ++
  (if c.name ≠ [] then [str "  note " ++ c.name] else []) ++
  [str "  format " ++ (if c.decimals > 0 then str "1." ++ rep c.decimals '0' else str "1") ++ str " " ++ safeId ledger c.id] ++
  (if c.noMarket then [str "  nomarket"] else [])

/-- `(*Price).Write` (price.go:26-39). -/
def writePriceL (ledger : Bool) (p : PPrice) : Except Fault (List Str) :=
  (amountTextL ledger none p.value).bind fun s => .ok [str "P " ++ formatDate p.time ++ str " " ++ safeId ledger p.commodityId ++ str " " ++ s]

end Verif
