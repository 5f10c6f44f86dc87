import Verif.Model.Rules
import Verif.Model.Range
import Verif.Model.Writer
/-
Model of importing transactions: `Post`, `PostConversion`, `IsEqual`, `FindEqual`, `MergeDuplicate` (transaction.go), `IsEqual`
(posting.go), and cmd/ofx2coin/main.go.

Transactions live in a heap indexed by `TRef`, because duplicates are merged in place. The text of the OFX file is parsed by a library
that is not part of the repository; a file is modelled by the statements it contains.
-/
namespace Verif

/-- A `time.Time`: the instant in seconds, and the offset of its zone, which `Format` uses and `Equal` and `Before` ignore. Second 0 is
0001/01/01 00:00 UTC, Go's zero time. -/
structure Stamp where
  sec : Int
  off : Int
  deriving DecidableEq, Repr, Inhabited

/-- The day a time is written as. -/
def Stamp.day (s : Stamp) : Int := (s.sec + s.off) / 86400

/-- The time of a parsed date: noon UTC (date.go:114). -/
def Stamp.ofDay (d : Int) : Stamp := ⟨d * 86400 + 43200, 0⟩

/-- `Posting` (posting.go:10-21); `Transaction` and the account's list of postings are left out (C17 is about those lists). -/
structure IPost where
  account : Str
  quantity : Amount
  balance : Option Amount
  asserted : Bool
  deriving DecidableEq, Repr

/-- `Transaction` (transaction.go:18-30). -/
structure ITxn where
  posted : Stamp
  code : Str
  description : Str
  notes : List Str
  postings : List IPost
  deriving DecidableEq, Repr, Inhabited

/-- `Sign() < 0` of an amount. -/
def Amount.negative (a : Amount) : Bool := decide (a.int < 0)

/-- `PostConversion` (transaction.go:219-236). -/
def ITxn.postConversion (t : ITxn) (from_ : Str) (fromAmount : Amount) (fromBalance : Option Amount) (dest : Str) (toAmount : Amount)
    (toBalance : Option Amount) : ITxn :=
  let sFrom : IPost := ⟨from_, fromAmount, fromBalance, fromBalance.isSome⟩
  let sTo : IPost := ⟨dest, toAmount, toBalance, toBalance.isSome⟩
  { t with postings := t.postings ++ (if fromAmount.negative then [sTo, sFrom] else [sFrom, sTo]) }

/-- `Post` (transaction.go:210-217). -/
def ITxn.post (t : ITxn) (from_ dest : Str) (amount : Amount) (balance : Option Amount) : ITxn :=
  t.postConversion from_ amount balance dest amount.negated none

/-- `(*Posting).IsEqual` (posting.go:57-60). -/
def IPost.isEqual (s s2 : IPost) : Except Fault Bool :=
  if s.account = s2.account then s.quantity.isEqual s2.quantity else .ok false

/-- The loop of `IsEqual` (transaction.go:266-270) over the postings of the receiver and of the argument. -/
def postingsEqual : List IPost → List IPost → Except Fault Bool
  | [], _ => .ok true
  | _ :: _, [] => .error .panic
  | s :: ss, u :: us => (u.isEqual s).bind fun b => if b then postingsEqual ss us else .ok false

/-- `(*Transaction).IsEqual` (transaction.go:256-272). -/
def ITxn.isEqual (t t2 : ITxn) : Except Fault Bool :=
  if t.posted.sec ≠ t2.posted.sec then .ok false
  else if t.code ≠ t2.code then .ok false
  else if t.postings.length ≠ t2.postings.length then .ok false
  else postingsEqual t.postings t2.postings

/-- A transaction's place in memory. -/
abbrev TRef := Nat
/-- The transactions. -/
abbrev THeap := TRef → ITxn

/-- `FindEqual` (transaction.go:53-60): on success it returns its argument, not the transaction found. -/
def findEqual (h : THeap) (t : TRef) : List TRef → Except Fault (Option TRef)
  | [] => .ok none
  | t2 :: rest => ((h t2).isEqual (h t)).bind fun b => if b then .ok (some t) else findEqual h t rest

/-- One posting of `MergeDuplicate` (transaction.go:276-279). -/
def IPost.merge (p p2 : IPost) : IPost :=
  if p.balance = none ∧ p2.balance ≠ none then { p with balance := p2.balance, asserted := p2.asserted } else p

/-- The loop of `MergeDuplicate` (transaction.go:275-280). -/
def mergePostings : List IPost → List IPost → Except Fault (List IPost)
  | [], _ => .ok []
  | _ :: _, [] => .error .panic
  | p :: ps, q :: qs => (mergePostings ps qs).bind fun r => .ok (p.merge q :: r)

/-- `t.MergeDuplicate(t2)` (transaction.go:274-281). -/
def mergeDuplicate (h : THeap) (t t2 : TRef) : Except Fault THeap :=
  (mergePostings (h t).postings (h t2).postings).bind fun ps => .ok (fun r => if r = t then { h t with postings := ps } else h r)

/-- The variables of the loop that drops duplicates (cmd/ofx2coin/main.go:89-90). -/
structure Dedupe where
  heap : THeap
  filtered : List TRef
  day : List TRef
  oldDay : List TRef
  prevDay : Int

/-- The seconds of the time a transaction was posted. -/
def THeap.sec (h : THeap) (r : TRef) : Int := (h r).posted.sec

/-- A new day (main.go:92-97). -/
def Dedupe.newDay (old : List TRef) (s : Dedupe) (t : TRef) : Dedupe :=
  if (s.heap t).posted.sec = s.prevDay then s
  else ⟨s.heap, s.filtered ++ s.day, [], dayOf s.heap.sec old (s.heap t).posted.sec, (s.heap t).posted.sec⟩

/-- The body of the loop (main.go:98-114) after a change of day. -/
def Dedupe.handle (s : Dedupe) (t : TRef) : Except Fault Dedupe :=
  (findEqual s.heap t s.oldDay).bind fun
    | some _ => .ok s
    | none => (findEqual s.heap t s.day).bind fun
      | some t2 => (mergeDuplicate s.heap t2 t).bind fun h => .ok { s with heap := h }
      | none => .ok { s with day := s.day ++ [t] }

/-- The loop (main.go:91-115); `old` is `coin.Transactions`. -/
def dedupeLoop (old : List TRef) : Dedupe → List TRef → Except Fault Dedupe
  | s, [] => .ok s
  | s, t :: ts => ((s.newDay old t).handle t).bind fun s => dedupeLoop old s ts

/-- `HasBalanceAssertions` (transaction.go:247-254). -/
def ITxn.hasAssertions (t : ITxn) : Bool := t.postings.any (·.asserted)

/-- `TransactionsByTime.Less` (transaction.go:47-52). -/
def ITxn.less (t u : ITxn) : Bool :=
  decide (t.posted.sec < u.posted.sec) || (decide (t.posted.sec = u.posted.sec) && !t.hasAssertions && u.hasAssertions)

/-- Sorting and dropping duplicates (main.go:86-118): the transactions that are written, and the heap they are written from. -/
def importBatch (keepDupes : Bool) (h : THeap) (old batch : List TRef) : Except Fault (THeap × List TRef) :=
  let sorted := stableSort (fun t u => (h t).less (h u)) batch
  if keepDupes then .ok (h, sorted)
  else (dedupeLoop old ⟨h, [], [], [], 0⟩ sorted).bind fun s => .ok (s.heap, s.filtered ++ s.day)

/-! ### Transactions of a file -/

/-- `NewAmountFrac` of an optional balance (main.go:185-188). -/
def balanceFrac (c : Com) : Option (Int × Int) → Except Fault (Option Amount)
  | none => .ok none
  | some b => (newAmountFrac b.1 b.2 c).bind fun x => .ok (some x)

/-- What an import reads: pattern matching, the rule sets, the commodity of an account, the `Unbalanced` account and a bound for the
depth of the rule lookup. -/
structure ImportEnv where
  matcher : Str → Str → Bool
  sets : List RuleSet
  com : Str → Com
  unbalanced : Str
  fuel : Nat

/-- The part of `newTransaction` (main.go:184-195) after the rule is known. -/
def createTransaction (env : ImportEnv) (account dest : Str) (notes : List Str) (date : Stamp) (payee : Str) (amount : Int × Int)
    (balance : Option (Int × Int)) : Except Fault ITxn :=
  (newAmountFrac amount.1 amount.2 (env.com account)).bind fun amt =>
  (balanceFrac (env.com account) balance).bind fun bal =>
  .ok (ITxn.post ⟨date, [], payee, notes, []⟩ account dest amt bal)

/-- `newTransaction` (main.go:171-196); a rational is its numerator and denominator. -/
def newTransaction (env : ImportEnv) (ars : AccountRules) (date : Stamp) (payee : Str) (amount : Int × Int)
    (balance : Option (Int × Int)) : Except Fault (Option ITxn) :=
  (ruleFor env.matcher env.sets payee env.fuel ars.items).bind fun
    | none => (createTransaction env ars.account env.unbalanced [] date payee amount balance).bind fun t => .ok (some t)
    | some r => match r.account with
      | none => .ok none
      | some a => (createTransaction env ars.account a r.notes date payee amount balance).bind fun t => .ok (some t)

/-- An entry of a statement: when, name, memo, amount. -/
structure OfxEntry where
  date : Stamp
  name : Str
  memo : Str
  amount : Int × Int
  deriving DecidableEq, Repr

/-- A bank statement: account, entries, final balance. -/
structure OfxStatement where
  account : Str
  entries : List OfxEntry
  balance : Int × Int
  deriving DecidableEq, Repr

/-- The words of a text that continues the word `cur`. -/
def words' : Str → Str → List Str
  | cur, [] => if cur = [] then [] else [cur]
  | cur, x :: s => if isSpaceU x then (if cur = [] then words' [] s else cur :: words' [] s) else words' (cur ++ [x]) s

/-- The words of a text, split at white space (`bufio.ScanWords`). -/
def words (s : Str) : List Str := words' [] s

/-- `trim` (cmd/ofx2coin/utils.go:8-21): words separated by single blanks. -/
def trimWords (s : Str) : Str := joinWith [' '] (words s)

/-- The inner loop over a bank statement (main.go:136-150); only the last entry gets the balance. -/
def bankEntries (env : ImportEnv) (ars : AccountRules) (balance : Int × Int) : List OfxEntry → Except Fault (List ITxn)
  | [] => .ok []
  | e :: es =>
    (newTransaction env ars e.date (trimWords (e.name ++ e.memo)) e.amount (if es = [] then some balance else none)).bind fun t =>
    (bankEntries env ars balance es).bind fun ts => .ok (t.toList ++ ts)

/-- The inner loop over a credit card statement (main.go:156-165). -/
def cardEntries (env : ImportEnv) (ars : AccountRules) : List OfxEntry → Except Fault (List ITxn)
  | [] => .ok []
  | e :: es =>
    (newTransaction env ars e.date e.name e.amount none).bind fun t =>
    (cardEntries env ars es).bind fun ts => .ok (t.toList ++ ts)

/-- The loop over bank statements (main.go:133-151). -/
def readBank (env : ImportEnv) (ri : Option RuleIndex) (byOfx : Str → Option Str) : List OfxStatement → Except Fault (List ITxn)
  | [] => .ok []
  | s :: ss =>
    (accountRulesFor ri byOfx s.account).bind fun ars =>
    (bankEntries env ars s.balance s.entries).bind fun ts =>
    (readBank env ri byOfx ss).bind fun us => .ok (ts ++ us)

/-- The loop over credit card statements (main.go:153-166). -/
def readCards (env : ImportEnv) (ri : Option RuleIndex) (byOfx : Str → Option Str) : List OfxStatement → Except Fault (List ITxn)
  | [] => .ok []
  | s :: ss =>
    (accountRulesFor ri byOfx s.account).bind fun ars =>
    (cardEntries env ars s.entries).bind fun ts =>
    (readCards env ri byOfx ss).bind fun us => .ok (ts ++ us)

/-- `readTransactions` (main.go:126-169) on a parsed response. -/
def readTransactions (env : ImportEnv) (ri : Option RuleIndex) (byOfx : Str → Option Str) (bank cards : List OfxStatement) :
    Except Fault (List ITxn) :=
  (readBank env ri byOfx bank).bind fun ts => (readCards env ri byOfx cards).bind fun us => .ok (ts ++ us)

/-- The transaction as `Write` sees it (transaction.go:81-118, posting.go:23-49): the date is that of the time's own zone, a balance is
written when it is asserted. -/
def ITxn.written (t : ITxn) : PTxn :=
  ⟨t.posted.day, t.code, t.description, t.notes, t.postings.map (fun p => ⟨p.account, some p.quantity, if p.asserted then p.balance else none, []⟩)⟩

/-- The text written for the transactions that are left (main.go:120-123). -/
def importText (dec : Str → Nat) (ts : List ITxn) : Except Fault Str :=
  (writeTxns dec (ts.map ITxn.written)).bind fun lines => .ok (textOf lines)

end Verif
