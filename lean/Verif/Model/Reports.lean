import Verif.Model.Program
import Verif.Model.ListCmd
import Verif.Model.Stats
import Mathlib.Data.List.Dedup
/-
The listing commands from the files of a ledger to their output (cmd/coin/main.go:50-82 with accounts.go, tags.go, stats.go, commodities.go).
-/
namespace Verif

/-- `cmdAccounts.init` (accounts.go:30-34) succeeded: of all files only those of the commodities and of the accounts are read, then the
accounts are resolved (coin.go:162-233). -/
def AccountsOpened (P : Install) (st : LoadState) (accts : List Acct) (L : Links) : Prop :=
  ((loadFileS P.disk P.today P.limit ⟨[], str "CAD", []⟩ P.files.commodities).bind fun st =>
    loadFileS P.disk P.today P.limit st P.files.accounts) = .ok st ∧
  ResolvedAccounts st.dflt st.decls accts L ∧ ∀ a ∈ accts, (st.comFor a).isSome = true

/-- `coin accounts` (accounts.go:36-59) with the arguments `argv`. -/
def accountsMain (env : FlagEnv) (accts : List Acct) (L : Links) (fuel : Nat) (argv : List Str) : Except Fault Str :=
  (dispatch env argv).bind fun r =>
  match r.1 with
  | .accounts => (accountsCmd accts L.parent fuel (boolFlag r.2.1 (str "c")) (r.2.2.head?.map patternMatches)).bind fun ls => .ok (textOf ls)
  | _ => .error .err

/-- `LoadAll` (coin.go:73-87, 137-141) succeeded, as in `Opened`, with the postings `fin` and `Transactions` in the order `sorted`. -/
def LoadedAs (P : Install) (st : LoadState) (accts : List Acct) (env : Env) (fin : Loaded) (sorted : List Txn) : Prop :=
  loadAllS P.disk P.today P.limit P.files ⟨[], str "CAD", []⟩ = .ok st ∧
  ∃ items db ord fuel L walk,
    (st.items.filterMap itemPrice).mapM st.price = .ok items ∧ IsResolved items db ∧ MapOrder.Valid ord db ∧
    (∀ c x, (convert db ord c x x.com fuel).isSome = true) ∧
    ResolvedAccounts st.dflt st.decls accts L ∧ (∀ a ∈ accts, (st.comFor a).isSome = true) ∧
    walk.Perm (accts.map (·.fullName)) ∧ env = Env.ofAccounts accts (st.comOf accts) patternMatches (convWith db ord fuel) ∧
    resolveTransactions env (heapOf st.txns) (txnsFrom 0 st.txns) walk = .ok (fin, sorted)

/-- What the tags command reads (cmd/coin/tags.go:49-57): `p.Tags`, `t.Tags` (transaction.go:199-203, 231-235) and accounts. -/
def taggedTxns (fin : Loaded) (sorted : List Txn) : List TaggedTxn :=
  sorted.map fun t => ⟨parseTags t.notes, t.postings.map fun p => (parseTags (fin.heap p).notes, (fin.books.account p).getD [])⟩

/-- The expression for the keys (cmd/coin/tags.go:43-46); `MustCompile` panics. -/
def tagsRegex (compile : Compile) : List Str → Except Fault (Option (Str → Bool))
  | [] => .ok none
  | a :: _ =>
    match compile (str "(?i)" ++ a) with
    | none => .error .panic
    | some m => .ok (some m)

/-- `coin tags` (cmd/coin/tags.go:42-75) with the arguments `argv`; `ord` is the order in which the map of results is visited. -/
def tagsMain (env : FlagEnv) (compile : Compile) (ord : List Str → List Str) (fin : Loaded) (sorted : List Txn) (argv : List Str) : Except Fault Str :=
  (dispatch env argv).bind fun r =>
  match r.1 with
  | .tags => (tagsRegex compile r.2.2).bind fun nrex =>
    tagsExecute nrex (boolFlag r.2.1 (str "v")) (boolFlag r.2.1 (str "a")) ord (taggedTxns fin sorted)
  | _ => .error .err

/-! ### stats -/

/-- What writing reads of a loaded posting (posting.go:23-33): the balance only if it was asserted. -/
def postShown (fin : Loaded) (r : PRef) : PPost :=
  ⟨(fin.books.account r).getD [], (fin.heap r).quantity, if (fin.heap r).asserted then (fin.heap r).balance else none, (fin.heap r).notes⟩

/-- What writing reads of a loaded transaction (transaction.go:81-118). -/
def txnShown (fin : Loaded) (t : Txn) : PTxn := ⟨t.posted, t.code, t.description, t.notes, t.postings.map (postShown fin)⟩

/-- `(*Transaction).String` (transaction.go:197-201). -/
def txnText (env : Env) (fin : Loaded) (t : Txn) : Except Fault Str :=
  (writeTxn (fun a => (env.comOf a).decimals) (txnShown fin t)).bind fun ls => .ok (textOf ls)

/-- The fields `IsEqual` compares (transaction.go:256-272); quantities are not nil in a loaded ledger. -/
def itxnOf (fin : Loaded) (t : Txn) : ITxn :=
  ⟨Stamp.ofDay t.posted, t.code, t.description, t.notes, t.postings.map fun r =>
    ⟨(fin.books.account r).getD [], (fin.heap r).quantity.getD default, (fin.heap r).balance, (fin.heap r).asserted⟩⟩

/-- Printing for one after the other. -/
def printEach {α} (f : α → Except Fault Str) (l : List α) : Except Fault Str := (l.mapM f).bind fun r => .ok r.flatten

/-- A pair reported by `stats -d` (cmd/coin/stats.go:57-60); `loc` gives file and line (transaction.go:203-208). -/
def dupText (env : Env) (fin : Loaded) (loc : Txn → Str) (p : Txn × Txn) : Except Fault Str :=
  (txnText env fin p.1).bind fun s2 => (txnText env fin p.2).bind fun s =>
  .ok (str "DUPLICATE TRANSACTION?\n" ++ loc p.1 ++ str "\n" ++ s2 ++ str "\n" ++ loc p.2 ++ str "\n" ++ s ++ str "\n")

/-- The line of `stats -c` (cmd/coin/stats.go:72-80). -/
def badLine (loc : Str) (t : ITxn) : Except Fault Str :=
  match t.postings with
  | [p, q] =>
    (p.quantity.format none none).bind fun a => (q.quantity.format none none).bind fun b =>
    .ok (str "BAD CONVERSION: " ++ formatDate t.posted.day ++ str " " ++ a ++ str " " ++ p.quantity.com.id ++ str " => " ++ b ++ str " " ++
      q.quantity.com.id ++ str " : " ++ loc ++ str "\n")
  | _ => .ok []

/-- What `stats -c` prints for a transaction (cmd/coin/stats.go:69-82). -/
def mismatchText (fin : Loaded) (loc : Txn → Str) (t : Txn) : Except Fault Str :=
  (badConversion (itxnOf fin t)).bind fun b => if b then badLine (loc t) (itxnOf fin t) else .ok []

/-- What `stats -u` prints for a transaction (cmd/coin/stats.go:83-91). -/
def unbalancedText (env : Env) (fin : Loaded) (loc : Txn → Str) (t : Txn) : Except Fault Str :=
  printEach (fun _ => (txnText env fin t).bind fun s => .ok (str "UNBALANCED TRANSACTION!\n" ++ loc t ++ str "\n" ++ s ++ str "\n"))
    (t.postings.filter fun r => decide (fin.books.account r = some unbalancedName))

/-- The body of the loop of the checks (cmd/coin/stats.go:68-92). -/
def checkText (env : Env) (fin : Loaded) (loc : Txn → Str) (c u : Bool) (t : Txn) : Except Fault Str :=
  (if c then mismatchText fin loc t else .ok []).bind fun x =>
  (if u then unbalancedText env fin loc t else .ok []).bind fun y => .ok (x ++ y)

/-- The counts (cmd/coin/stats.go:94-97): maps are counted by their keys. -/
def statsCounts (st : LoadState) (accts : List Acct) (n : Nat) : Str :=
  str "Commodities: " ++ natStr (st.coms.map (·.id)).dedup.length ++ str "\nPrices: " ++ natStr (st.items.filterMap itemPrice).length ++
  str "\nAccounts: " ++ natStr accts.length ++ str "\nTransactions: " ++ natStr n ++ str "\n"

/-- `cmdStats.execute` (cmd/coin/stats.go:40-98). -/
def statsExecute (st : LoadState) (accts : List Acct) (env : Env) (fin : Loaded) (loc : Txn → Str) (d c u : Bool) (ts : List Txn) : Except Fault Str :=
  if d then (statsDupes (itxnOf fin) ts).bind fun ps => printEach (dupText env fin loc) ps
  else (printEach (checkText env fin loc c u) ts).bind fun s => .ok (s ++ statsCounts st accts ts.length)

/-- `coin stats` with the arguments `argv`. -/
def statsMain (fe : FlagEnv) (st : LoadState) (accts : List Acct) (env : Env) (fin : Loaded) (sorted : List Txn) (loc : Txn → Str) (argv : List Str) : Except Fault Str :=
  (dispatch fe argv).bind fun r =>
  match r.1 with
  | .stats => statsExecute st accts env fin loc (boolFlag r.2.1 (str "d")) (boolFlag r.2.1 (str "c")) (boolFlag r.2.1 (str "u"))
      (statsTransactions (fun t : Txn => t.posted) sorted (fe.dateFlag r.2.1 (str "b")) (fe.dateFlag r.2.1 (str "e")))
  | _ => .error .err

/-! ### commodities -/

/-- The commodities among the items (coin.go:105). -/
def itemCom : Item → Option PCom
  | .commodity c => some c
  | _ => none

/-- The first of every id. -/
def firstPer : List PCom → List PCom
  | [] => []
  | c :: cs => c :: (firstPer cs).filter (fun d => decide (d.id ≠ c.id))

/-- The entries of the map `Commodities` (coin.go:106): the last declared commodity of every id. -/
def LoadState.comEntries (st : LoadState) : List PCom := firstPer (st.items.filterMap itemCom).reverse

/-- `LoadPrices` (coin.go:61-71). -/
def loadPricesS (P : Install) : Except Fault LoadState :=
  (loadFileS P.disk P.today P.limit ⟨[], str "CAD", []⟩ P.files.commodities).bind fun st => loadEachS P.disk P.today P.limit st (pricesFiles P.disk P.files)

/-- `cmdCommodities.init` (cmd/coin/commodities.go:43-50) succeeded; `priced`: with `-p` or with an argument. -/
def CommoditiesOpened (P : Install) (priced : Bool) (st : LoadState) (db : PriceDB) : Prop :=
  if priced then loadPricesS P = .ok st ∧ ∃ items, (st.items.filterMap itemPrice).mapM st.price = .ok items ∧ IsResolved items db
  else loadFileS P.disk P.today P.limit ⟨[], str "CAD", []⟩ P.files.commodities = .ok st ∧ db = fun _ => []

/-- The prices in one currency (commodity.go:83-93); a list of prices is never empty. -/
def latestText (e : Com × List Price) : Except Fault Str :=
  match e.2 with
  | [] => .error .panic
  | p :: ps => (p.value.format none (if e.1.decimals > 0 then some e.1.decimals else none)).bind fun v =>
    .ok (formatDate p.time ++ str " " ++ v ++ str " " ++ e.1.id ++ str " [" ++ natStr (ps.length + 1) ++ str "]")

/-- `(*Commodity).String` (commodity.go:78-98); `prices` is the map `c.Prices` in the order it is visited. -/
def comString (id : Str) (prices : List (Com × List Price)) : Except Fault Str :=
  if prices = [] then .ok id else (prices.mapM latestText).bind fun es => .ok (id ++ str ": " ++ joinWith (str ", ") es)

/-- The prices of one commodity (cmd/coin/commodities.go:53-68); the text for an unknown one goes to the standard error. `loc i` is the
location of the price on line `i`. -/
def pricesOut (st : LoadState) (ord : Com → List (Com × List Price)) (loc : Nat → Str) (f : Bool) (a : Str) : Except Fault Str :=
  match st.lookup a with
  | none => .ok []
  | some c => (pricesCmd (ord c)).bind fun ls => .ok (textOf (if f then ls.mapIdx fun i l => l ++ str " " ++ loc i else ls))

/-- The list of commodities with `-p` (cmd/coin/commodities.go:97-99). -/
def comStrings (st : LoadState) (ord : Com → List (Com × List Price)) : Except Fault (List Str) :=
  (inOrder (·.id) st.comEntries).mapM fun c => comString c.id ((st.lookup c.id).elim [] ord)

/-- `coin commodities` (cmd/coin/commodities.go:52-110) with the arguments `argv`; `ord c` is the map of the prices of `c` in the order it
is visited. With `-q` see `quotesMain`. -/
def commoditiesMain (fe : FlagEnv) (st : LoadState) (ord : Com → List (Com × List Price)) (loc : Nat → Str) (argv : List Str) : Except Fault Str :=
  (dispatch fe argv).bind fun r =>
  match r.1 with
  | .commodities =>
    match r.2.2 with
    | a :: _ => pricesOut st ord loc (boolFlag r.2.1 (str "f")) a
    | [] =>
      if boolFlag r.2.1 (str "q") then .error .err
      else if boolFlag r.2.1 (str "p") then (comStrings st ord).bind fun ls => .ok (textOf ls)
      else .ok (textOf (commoditiesCmd st.comEntries))
  | _ => .error .err

end Verif
