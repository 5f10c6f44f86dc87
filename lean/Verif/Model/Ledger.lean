import Verif.Model.Accounts
import Verif.Model.Postings
/-
Model of ResolveTransactions (coin.go:235-279), CheckPostings (account.go:184-205) and transaction order (transaction.go).

Postings are mutable and shared between a transaction's list and an account's list; they live in a heap indexed by `PRef`.
-/
namespace Verif

/-- `Posting` (posting.go:10-21). `posted` is a copy of `p.Transaction.Posted`; `p.Account` is kept in `Books`. -/
structure PData where
  posted : Int
  accountName : Str
  quantity : Option Amount
  balance : Option Amount
  asserted : Bool
  notes : List Str
  deriving DecidableEq, Repr, Inhabited

/-- The posting heap. -/
abbrev Heap := PRef → PData

/-- Writing one posting. -/
def Heap.set (h : Heap) (p : PRef) (d : PData) : Heap := fun q => if q = p then d else h q

/-- `Transaction` (transaction.go:18-30); tags are derived from the notes. -/
structure Txn where
  posted : Int
  code : Str
  description : Str
  notes : List Str
  postings : List PRef
  deriving DecidableEq, Repr, Inhabited

/-- What resolution reads: account names, their commodities, `MustFindAccount`, and conversion. -/
structure Env where
  names : List Str
  comOf : Str → Com
  find : Str → Except Fault Str
  conv : Com → Amount → Except Fault Amount

/-- `MustFindAccount` over the loaded accounts; `matcher pattern` is the compiled `ToRegex(pattern)`. -/
def Env.ofAccounts (accts : List Acct) (comOf : Str → Com) (matcher : Str → Str → Bool)
    (conv : Com → Amount → Except Fault Amount) : Env :=
  ⟨accts.map (·.fullName), comOf, fun n => mustFindAccount (accts.map (·.fullName)) (matcher n) n, conv⟩

/-- Postings (heap) and account lists. -/
structure LState where
  heap : Heap
  books : Books

/-- First inner loop of `ResolveTransactions` (coin.go:240-245): account lookup and registration. Returns the accounts. -/
def assignAccounts (env : Env) (heap : Heap) : Books → List PRef → Except Fault (Books × List Str)
  | b, [] => .ok (b, [])
  | b, p :: ps =>
    (env.find (heap p).accountName).bind fun a =>
    (assignAccounts env heap (b.post (fun q => (heap q).posted) p a) ps).bind fun r => .ok (r.1, a :: r.2)

/-- `len(commodities) > 1` for the set of the postings' account commodities (coin.go:246). -/
def mixedComs : List Com → Bool
  | [] => false
  | c :: rest => rest.any (fun d => decide (d ≠ c))

/-- A returned error passed to `check.NoError` ends the process; panics propagate. -/
def checkNoError {α} : Except Fault α → Except Fault α
  | .error .err => .error .exit
  | r => r

/-- Second inner loop (coin.go:256-264): total of the stated quantities and the posting without one. -/
def totalLoop (env : Env) (heap : Heap) : Amount → Option PRef → List PRef → Except Fault (Amount × Option PRef)
  | total, empty, [] => .ok (total, empty)
  | total, empty, p :: ps =>
    match (heap p).quantity with
    | none => if empty = none then totalLoop env heap total (some p) ps else .error .exit
    | some q => (checkNoError (total.addIn env.conv q)).bind fun total => totalLoop env heap total empty ps

/-- One transaction of `ResolveTransactions` (coin.go:236-270). -/
def resolveTxn (env : Env) (st : LState) (t : Txn) : Except Fault LState :=
  (assignAccounts env st.heap st.books t.postings).bind fun r =>
  let coms := r.2.map env.comOf
  if mixedComs coms then
    if t.postings.all (fun p => (st.heap p).quantity.isSome) then .ok ⟨st.heap, r.1⟩ else .error .exit
  else
    match coms.getLast? with
    | none => .ok ⟨st.heap, r.1⟩          -- no postings: `total` has a nil commodity and is zero
    | some c =>
      (totalLoop env st.heap (zeroAmount c) none t.postings).bind fun te =>
      match te.2 with
      | none => if te.1.int = 0 then .ok ⟨st.heap, r.1⟩ else .error .exit
      | some e => .ok ⟨st.heap.set e { st.heap e with quantity := some te.1.negated }, r.1⟩

/-- The loop over transactions (coin.go:236-270). -/
def resolveTxns (env : Env) : LState → List Txn → Except Fault LState
  | st, [] => .ok st
  | st, t :: ts => (resolveTxn env st t).bind fun st => resolveTxns env st ts

/-- `sortPostings` (account.go:241-245). -/
def sortPostings (heap : Heap) (l : List PRef) : List PRef :=
  stableSort (fun p q => decide ((heap p).posted < (heap q).posted)) l

/-- The loop of `CheckPostings` (account.go:188-204) with the running account balance. Returns the heap, the final balance and
the postings a warning was printed for. A nil quantity is dereferenced by `AddIn`. -/
def checkLoop (env : Env) : Heap → Amount → List PRef → Except Fault (Heap × Amount × List PRef)
  | h, bal, [] => .ok (h, bal, [])
  | h, bal, p :: ps =>
    match (h p).quantity with
    | none => .error .panic
    | some q =>
      (checkNoError (bal.addIn env.conv q)).bind fun bal =>
      match (h p).balance with
      | some b =>
        (bal.isEqual b).bind fun eq =>
        (checkLoop env h bal ps).bind fun r => .ok (r.1, r.2.1, if eq then r.2.2 else p :: r.2.2)
      | none => checkLoop env (h.set p { h p with balance := some bal.copy }) bal ps

/-- State after loading: heap, account lists, account balances, warnings in the order printed. -/
structure Loaded where
  heap : Heap
  books : Books
  balance : Str → Amount
  warnings : List PRef

/-- The loop over accounts (coin.go:272-277), `accounts` being the map's iteration order; every account starts with a zero
balance (account.go:163-168). -/
def checkAll (env : Env) : Loaded → List Str → Except Fault Loaded
  | st, [] => .ok st
  | st, a :: rest =>
    let l := sortPostings st.heap (st.books.postings a)
    (checkLoop env st.heap (zeroAmount (env.comOf a)) l).bind fun r =>
    checkAll env ⟨r.1, st.books.setPostings a l, fun x => if x = a then r.2.1 else st.balance x, st.warnings ++ r.2.2⟩ rest

/-- `HasBalanceAssertions` (transaction.go:247-254). -/
def hasAssertions (h : Heap) (t : Txn) : Bool := t.postings.any (fun p => (h p).asserted)

/-- `TransactionsByTime.Less` (transaction.go:47-52). -/
def txnLess (h : Heap) (t u : Txn) : Bool :=
  decide (t.posted < u.posted) || (decide (t.posted = u.posted) && !hasAssertions h t && hasAssertions h u)

/-- `ResolveTransactions(true)` (coin.go:235-279) on freshly parsed transactions; `order` is the iteration order of the account
map. Returns the loaded state and the sorted transactions. -/
def resolveTransactions (env : Env) (heap : Heap) (txns : List Txn) (order : List Str) : Except Fault (Loaded × List Txn) :=
  (resolveTxns env ⟨heap, Books.empty⟩ txns).bind fun st =>
  (checkAll env ⟨st.heap, st.books, fun a => zeroAmount (env.comOf a), []⟩ order).bind fun l =>
  .ok (l, stableSort (txnLess l.heap) txns)

/-- What the parser guarantees: all postings are distinct objects, carry the date of their transaction, and have a balance
exactly when one was asserted. -/
structure Parsed (heap : Heap) (txns : List Txn) : Prop where
  nodup : (txns.flatMap (·.postings)).Nodup
  date : ∀ t ∈ txns, ∀ p ∈ t.postings, (heap p).posted = t.posted
  asserted : ∀ p, (heap p).asserted = (heap p).balance.isSome

end Verif
