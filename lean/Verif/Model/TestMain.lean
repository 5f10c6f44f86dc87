import Verif.Model.Reports
import Verif.Model.TestCmd
/-
`coin test FILE` with the commands its tests run (cmd/coin/test.go:38-122).
-/
namespace Verif

/-- A resolved ledger as all commands see it, with the orders in which they visit maps and the places they print. -/
structure LedgerAll where
  view : LedgerView
  st : LoadState
  accts : List Acct
  fin : Loaded
  sorted : List Txn
  prices : Com → List (Com × List Price)
  keys : List Str → List Str
  txnLoc : Txn → Str
  priceLoc : Nat → Str
  built : Str

/-- `ResolveAll` (coin.go:137-141) of the items `st` succeeded with the ledger `T`; the same steps as in `Opened`. -/
def Resolves (compile : Compile) (st : LoadState) (T : LedgerAll) : Prop :=
  T.st = st ∧ ∃ items db ord fuel L walk bound location order,
    (st.items.filterMap itemPrice).mapM st.price = .ok items ∧ IsResolved items db ∧ MapOrder.Valid ord db ∧
    (∀ c x, (convert db ord c x x.com fuel).isSome = true) ∧
    ResolvedAccounts st.dflt st.decls T.accts L ∧ (∀ a ∈ T.accts, (st.comFor a).isSome = true) ∧
    walk.Perm (T.accts.map (·.fullName)) ∧
    resolveTransactions (Env.ofAccounts T.accts (st.comOf T.accts) patternMatches (convWith db ord fuel)) (heapOf st.txns) (txnsFrom 0 st.txns) walk =
      .ok (T.fin, T.sorted) ∧
    (∀ a ∈ T.accts, a.fullName.length + 3 ≤ bound) ∧ (∀ c, (T.prices c).Perm (db c)) ∧
    T.view = ledgerView (Env.ofAccounts T.accts (st.comOf T.accts) patternMatches (convWith db ord fuel)) compile L T.fin (txnsFrom 0 st.txns) bound location order

/-- The tests among the items (coin.go:119). -/
def itemTest : Item → Option (Str × Str)
  | .test cmd result => some (cmd, result)
  | _ => none

/-- `cmdTest.init` (cmd/coin/test.go:38-41) succeeded: the file is the only one loaded, with what it includes. `tests` are `Tests` with their
places, which are not modelled here (see `testsOf`). -/
def TestOpened (P : Install) (compile : Compile) (fn : Str) (T : LedgerAll) (tests : List CTest) : Prop :=
  loadFileS P.disk P.today P.limit ⟨[], str "CAD", []⟩ fn = .ok T.st ∧ Resolves compile T.st T ∧
  tests.map (fun t => (t.cmd, t.result)) = T.st.items.filterMap itemTest

/-- `cmdRegister.execute` (register.go:73-85), without the checks of `init`; `Arg(0)` of no arguments is empty. -/
def registerExecute (env : FlagEnv) (g : LedgerView) (l : List (Str × Str)) (args : List Str) : Except Fault Str :=
  (g.find (args.headD [])).bind fun acc =>
  (if (flagPeriod l).isSome || (categoryOf g l).isSome then aggregatedMain env g l acc
   else (fullMain env g l acc).bind fun ls => .ok (textOf ls)).bind fun body =>
  .ok (textOf (registerHead g l acc) ++ body)

/-- The command of a test (cmd/coin/test.go:81-88): flags are parsed by a new command, `init` is not called, everything works on the one
loaded ledger. Commands do not change it, except `modify` and `format`, which are faults here; sequences of these are in `Model/TestWrites`. `nested`
is what running the tests again prints. -/
def executeCmd (fe : FlagEnv) (T : LedgerAll) (nested : Bool → Except Fault Str) (argv : List Str) : Except Fault Str :=
  (dispatch fe argv).bind fun r =>
  match r.1 with
  | .balance => (balanceMain fe T.view r.2.1 r.2.2).bind fun ls => .ok (textOf ls)
  | .register => registerExecute fe T.view r.2.1 r.2.2
  | .accounts => accountsMain fe T.accts T.view.links T.view.fuel argv
  | .tags => tagsMain fe T.view.compile T.keys T.fin T.sorted argv
  | .stats => statsMain fe T.st T.accts T.view.env T.fin T.sorted T.txnLoc argv
  | .commodities => commoditiesMain fe T.st T.prices T.priceLoc argv
  | .version => .ok T.built
  | .test => nested (boolFlag r.2.1 (str "v"))
  | .format => .error .err
  | .modify => .error .err

/-- What the tests run (cmd/coin/test.go:77-88); `n` bounds the depth of tests that run the tests. The tests run again are taken as they are
in the files; the program has filled in results meanwhile. -/
def testEnv (fe : FlagEnv) (T : LedgerAll) (diff : Str → Str → Str) (d : Dir) (tests : List CTest) : Nat → TestEnv
  | 0 => ⟨fun w => (commandOf w).isSome, fun _ _ => .error .loop, diff⟩
  | n + 1 => ⟨fun w => (commandOf w).isSome, fun _ argv => executeCmd fe T
      (fun v => (testExecute (testEnv fe T diff d tests n) v d tests).bind fun r => .ok r.out.flatten) argv, diff⟩

/-- `coin test` with the arguments `argv`: what it prints and the files afterwards. -/
def testMain (fe : FlagEnv) (T : LedgerAll) (diff : Str → Str → Str) (d : Dir) (tests : List CTest) (n : Nat) (argv : List Str) : Except Fault (Str × Dir) :=
  (dispatch fe argv).bind fun r =>
  match r.1 with
  | .test => (testExecute (testEnv fe T diff d tests n) (boolFlag r.2.1 (str "v")) d tests).bind fun s => .ok (s.out.flatten, s.files)
  | _ => .error .err

end Verif
