import Verif.Model.Generate
import Verif.Model.Import
import Verif.Model.Program
import Verif.Model.Pattern
import Verif.Model.Format
/-
Model of `gen2coin <directory>` (cmd/gen2coin/main.go:46-128, rules_personal.go, rule.go:70-100): the built-in rules, the
transactions they generate and the files that are written. Times are UTC seconds as in Model/Generate. `-wb` is left out (C87
shows what it does) and so is `-j`.
-/
namespace Verif

/-- `sample1setup` (rules_personal.go:9-24). -/
def sampleSetup : Str :=
  str "\ncommodity CAD\n  default\n\naccount Assets:Bank:Checking\naccount Assets:Bank:Savings\naccount Liabilities:MasterCard\naccount Liabilities:Amex\naccount Income:Salary\naccount Income:Interest\naccount Expenses:Groceries\naccount Expenses:Heat\naccount Expenses:Electricity\naccount Expenses:Water\n"

/-- `weekday` (dates.go:22). -/
def workdays : List Int := [1, 2, 3, 4, 5]

/-- A rule with its dates and payees (rule.go:45-50). The dates are a function of the random draws, the first and the last time. -/
structure GenSpec where
  dates : (Nat → Nat) → Int → Int → List Int
  payees : List Str
  rule : GenRule

/-- `newRule` with `toAccounts` (rule.go:70-79, 137-142); `find` is `MustFindAccount`. -/
def newRule (find : Str → Except Fault Str) (dates : (Nat → Nat) → Int → Int → List Int) (payees source dest : Str) (min max : Int) : Except Fault GenSpec :=
  ((splitOn '|' source).mapM find).bind fun s => ((splitOn '|' dest).mapM find).bind fun d => .ok ⟨dates, splitOn '|' payees, ⟨s, d, min, max⟩⟩

/-- The arguments of the rules of `personal` (rules_personal.go:30-48). -/
def personalArgs : List (((Nat → Nat) → Int → Int → List Int) × Str × Str × Str × Int × Int) := [
  (fun draw b e => weekly draw 0 1 2 workdays b e, str "Costco", str "Checking|MasterCard|Amex", str "Groceries", 100, 1000),
  (fun draw b e => weekly draw 0 2 1 anyday b e, str "FARM BOY|FRESHCO|LOBLAWS|LOEB|SOBEY'S|NO FRILLS", str "Checking|MasterCard|Amex", str "Groceries", 30, 200),
  (fun draw b e => monthly draw 0 2 1 [15, -1] b e, str "ACME Inc", str "Salary", str "Checking", 2000, 2000),
  (fun draw b e => monthly draw 0 1 1 [-1, -2, -3] b e, str "repay balance", str "Checking", str "MasterCard", toBalance, 1),
  (fun draw b e => monthly draw 0 1 1 [-1, -2, -3] b e, str "repay balance", str "Checking", str "Amex", toBalance, 1),
  (fun draw b e => monthly draw 0 1 1 [1] b e, str "Enbridge Gas", str "Checking", str "Heat", 100, 200),
  (fun draw b e => monthly draw 0 1 1 [1] b e, str "Hydro One", str "Checking", str "Electricity", 50, 100),
  (fun draw b e => monthly draw 0 1 2 [-15] b e, str "City Water&Sewer", str "Checking", str "Water", 100, 150),
  (fun draw b e => monthly draw 0 1 1 [1] b e, str "monthly savings", str "Checking", str "Savings", 300, 2000),
  (fun draw b e => monthly draw 0 1 1 [-1] b e, str "monthly interest %2/12", str "Interest", str "Savings", toBalance, -50 * 12)]

/-- `personal` (rules_personal.go:25-49). -/
def personal (find : Str → Except Fault Str) : Except Fault (List GenSpec) :=
  personalArgs.mapM fun a => newRule find a.1 a.2.1 a.2.2.1 a.2.2.2.1 a.2.2.2.2.1 a.2.2.2.2.2

/-- `sample` (rule.go:52-57) before its postings are made. -/
structure Sample where
  sec : Int
  payee : Str
  rule : GenRule

/-- `generateTransactions` (rule.go:81-91). The random numbers are arbitrary, so every rule may have its own. -/
def GenSpec.samples (r : GenSpec) (draw pay : Nat → Nat) (begin_ end_ : Int) : List Sample :=
  (r.dates draw begin_ end_).zipIdx.map fun d => ⟨d.1, (r.payees[pay d.2 % r.payees.length]?).getD [], r.rule⟩

/-- main.go:64-68: the samples of all rules in order of time. -/
def allSamples (draws pays : Nat → Nat → Nat) (begin_ end_ : Int) (rules : List GenSpec) : List Sample :=
  stableSort (fun x y => decide (x.sec < y.sec)) (rules.zipIdx.flatMap fun r => r.1.samples (draws r.2) (pays r.2) begin_ end_)

/-- What `generatePostings` picks (rule.go:93-96): the account that pays, the one that receives, the amount, and the next draw. -/
def genMove (draw : Nat → Nat) (decimals : Nat) (r : GenRule) (s : GenState) : Except Fault (Str × Str × Int × Nat) :=
  match r.source[draw s.draws % r.source.length]?, r.dest[draw (s.draws + 1) % r.dest.length]? with
  | some src, some dst =>
    (amtBetween draw (s.draws + 2) decimals r.min r.max (s.balance src) (s.balance dst)).bind fun amt => .ok (src, dst, amt.1, amt.2)
  | _, _ => .error .panic

/-- The balances and lists of postings after `generatePostings` (rule.go:97-99, transaction.go:219-230). -/
def genApply (s : GenState) (m : Str × Str × Int × Nat) : GenState :=
  let b1 := setFn s.balance m.2.1 (s.balance m.2.1 + m.2.2.1)
  let p1 := setFn s.posted m.2.1 (s.posted m.2.1 ++ [m.2.2.1])
  ⟨setFn b1 m.1 (b1 m.1 - m.2.2.1), setFn p1 m.1 (p1 m.1 ++ [-m.2.2.1]), m.2.2.2⟩

/-- The loop of main.go:69-71: the transactions with their postings, and the balances at the end. -/
def genTxns (draw : Nat → Nat) (c : Com) : GenState → List Sample → Except Fault (List ITxn × GenState)
  | s, [] => .ok ([], s)
  | s, x :: xs =>
    (genMove draw c.decimals x.rule s).bind fun m => (genTxns draw c (genApply s m) xs).bind fun r =>
    .ok (ITxn.post ⟨⟨x.sec, 0⟩, [], x.payee, [], []⟩ m.2.1 m.1 ⟨m.2.2.1, c⟩ none :: r.1, r.2)

/-- main.go:63-71. `c` is the commodity of all accounts of the sample. -/
def genTransactions (find : Str → Except Fault Str) (c : Com) (draws pays : Nat → Nat → Nat) (amounts : Nat → Nat) (begin_ end_ : Int) :
    Except Fault (List ITxn × GenState) :=
  (personal find).bind fun rules => genTxns amounts c genZero (allSamples draws pays begin_ end_ rules)
where
  /-- no postings yet -/
  genZero : GenState := ⟨fun _ => 0, fun _ => [], 0⟩

/-- `account ` and its commodity (account.go:54-80): what `Write` writes of an account of the sample. -/
def acctWritten (c : Com) (a : Acct) : PAcct := ⟨a.fullName, a.description, c.id, a.closed, [], [], []⟩

/-- Writing the batches (main.go:118-127), in the order in which the map is enumerated. -/
def writeBatches (dec : Str → Nat) : List (Str × List ITxn) → Dir → Except Fault Dir
  | [], d => .ok d
  | b :: bs, d => (importText dec b.2).bind fun text => writeBatches dec bs (d.put (b.1 ++ str ".coin") (some text))

/-- Writing the directory (main.go:92-127). `coms` and `accounts` are the maps in the order in which they are enumerated, `order` is that
order for the batches. -/
def genWrite (l : Labeler) (dec : Str → Nat) (coms : List PCom) (accounts : List PAcct) (order : List (Str × List ITxn) → List (Str × List ITxn))
    (ts : List ITxn) (d : Dir) : Except Fault Dir :=
  writeBatches dec (order (batchesByLabel (fun t => l.label t.posted.sec) ts))
    ((d.put (str "commodities.coin") (some (textOf (coms.flatMap fun c => writeCommodity c ++ [[]])))).put
      (str "accounts.coin") (some (textOf (accounts.flatMap fun a => writeAccount a ++ [[]]))))

end Verif
