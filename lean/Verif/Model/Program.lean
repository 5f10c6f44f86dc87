import Verif.Model.CommandLine
import Verif.Model.Scanner
import Verif.Model.FormatOwn
import Verif.Model.Pattern
import Verif.Model.Prices
import Verif.Model.TagsCmd
/-
The whole program: from the files of a ledger to the loaded ledger the commands work on (`LoadAll`, coin.go:73-87, 137-141).

The parser's items are values; here their postings become objects of the heap, numbered in the order in which they were read.
-/
namespace Verif

/-- What a run starts from: the files, the date, the number of files that can be open, the names of the ledger's files (coin.go:28-36). -/
structure Install where
  disk : Disk
  today : Today
  limit : Nat
  files : Names

/-- `Transactions` (coin.go:117): the transactions with their postings numbered from `n`. -/
def txnsFrom : Nat → List PTxn → List Txn
  | _, [] => []
  | n, t :: ts => ⟨t.posted, t.code, t.description, t.notes, List.range' n t.postings.length⟩ :: txnsFrom (n + t.postings.length) ts

/-- A posting as parsed (transaction.go:185-240). -/
def dataOf (posted : Int) (p : PPost) : PData := ⟨posted, p.account, p.quantity, p.balance, p.balance.isSome, p.notes⟩

/-- The postings read, by number. -/
def heapOf (ts : List PTxn) : Heap := fun p => ((ts.flatMap (fun t => t.postings.map (dataOf t.posted)))[p]?).getD ⟨0, [], none, none, false, []⟩

/-- The prices among the items (coin.go:114). -/
def itemPrice : Item → Option PPrice
  | .price p => some p
  | _ => none

/-- A declared account (account.go:18-40). -/
def declOf (a : PAcct) : Acct := ⟨a.fullName, a.description, a.commodityId, a.closed⟩

/-- The accounts declared in the files, in order (coin.go:108-112). -/
def LoadState.decls (st : LoadState) : List Acct := (st.items.filterMap itemAcct).map declOf

/-- The transactions of the files, in order (coin.go:117). -/
def LoadState.txns (st : LoadState) : List PTxn := st.items.filterMap itemTxn

/-- `MustFindCommodity` of both commodities of a price (coin.go:144-147). -/
def LoadState.price (st : LoadState) (p : PPrice) : Except Fault PriceItem :=
  match st.lookup p.commodityId, st.lookup p.currencyId with
  | some a, some b => .ok ⟨a, b, ⟨p.value, p.time⟩⟩
  | _, _ => .error .panic

/-- The commodity of an account (coin.go:223-227); `none`: `MustFindCommodity` panics. -/
def LoadState.comFor (st : LoadState) (a : Acct) : Option Com := st.lookup (if a.commodityId = [] then st.dflt else a.commodityId)

/-- The commodities of the accounts. -/
def LoadState.comOf (st : LoadState) (accts : List Acct) (a : Str) : Com := ((getAcct accts a).bind st.comFor).getD ⟨0, [], 0⟩

/-- What the commands see after loading. `bound` limits the recursion over the tree of accounts (`Opened` makes it large enough). Locations of transactions (file and line) are a parameter, as is the outcome of sorting the
columns of an aggregated register. -/
def ledgerView (env : Env) (compile : Compile) (L : Links) (fin : Loaded) (txns : List Txn) (bound : Nat)
    (location : PRef → Str) (order : List (Str × TS) → List (Str × TS)) : LedgerView where
  env := env
  compile := compile
  view := viewOf (fun n => (parseTags n).toTags) fin txns
  print := ⟨fun p => (fin.books.account p).getD [], fun p => (fin.heap p).asserted, fun p => (fin.heap p).notes,
    fun p => ((txnOf txns p).map (·.notes)).getD [], location⟩
  siblings := siblingsOf txns
  tagKey := fun p => tagCategory (parseTags (((txnOf txns p).map (·.notes)).getD [])) (parseTags (fin.heap p).notes)
  links := L
  fuel := bound
  names := env.names
  matcher := patternMatches
  order := order

/-- `LoadAll` (coin.go:73-87, 137-141) succeeded with the items `st`, the accounts `accts` and the ledger `g`, for some orders in which
maps are enumerated and some outcomes of `sort.Slice`: prices (coin.go:143-160), accounts with their commodities (coin.go:162-233),
transactions (coin.go:235-279). -/
def Opened (P : Install) (compile : Compile) (st : LoadState) (accts : List Acct) (g : LedgerView) : Prop :=
  loadAllS P.disk P.today P.limit P.files ⟨[], str "CAD", []⟩ = .ok st ∧
  ∃ items db ord fuel L walk fin sorted bound location order,
    (st.items.filterMap itemPrice).mapM st.price = .ok items ∧ IsResolved items db ∧ MapOrder.Valid ord db ∧
    (∀ c x, (convert db ord c x x.com fuel).isSome = true) ∧
    ResolvedAccounts st.dflt st.decls accts L ∧ (∀ a ∈ accts, (st.comFor a).isSome = true) ∧
    walk.Perm (accts.map (·.fullName)) ∧
    resolveTransactions (Env.ofAccounts accts (st.comOf accts) patternMatches (convWith db ord fuel)) (heapOf st.txns) (txnsFrom 0 st.txns) walk = .ok (fin, sorted) ∧
    (∀ a ∈ accts, a.fullName.length + 3 ≤ bound) ∧
    g = ledgerView (Env.ofAccounts accts (st.comOf accts) patternMatches (convWith db ord fuel)) compile L fin (txnsFrom 0 st.txns) bound location order

end Verif
