import Verif.Model.Format
import Verif.Model.Accounts
/-
Model of `format` and `modify` on files that declare accounts themselves, and on several files in one run.

The commands resolve accounts once, before the files are read (`init`, cmd/coin/format.go:36-40, cmd/coin/modify.go:53-57). `Load` puts
an account declared in a file into `AccountsByName` (coin.go:112), replacing one of the same name, but its `Commodity` stays nil.
-/
namespace Verif

/-- What both commands have loaded before the files: names, commodities, and `ToRegex(pattern)` as a predicate. -/
structure Setup where
  names : List Str
  comOf : Str → Com
  matcher : Str → Str → Bool
  conv : Com → Amount → Except Fault Amount

/-- The account items among the loaded ones. -/
def itemAcct : Item → Option PAcct
  | .account a => some a
  | _ => none

/-- `AccountsByName` after loading files that declare the accounts `own` (coin.go:112). -/
def Setup.all (s : Setup) (own : List Str) : List Str := s.names ++ own.filter (fun n => decide (n ∉ s.names))

/-- `MustFindAccount` (coin.go:285-311) after loading. -/
def Setup.find (s : Setup) (own : List Str) (n : Str) : Except Fault Str := mustFindAccount (s.all own) (s.matcher n) n

/-- `Account.Commodity`: nil for an account declared in a file, because `ResolveAccounts` does not run again. -/
def Setup.com (s : Setup) (own : List Str) (a : Str) : Option Com := if a ∈ own then none else some (s.comOf a)

/-- `s.Account = MustFindAccount(s.accountName)` (coin.go:241). -/
def placeOwn (s : Setup) (own : List Str) (p : PPost) : Except Fault PPost := (s.find own p.account).bind fun a => .ok { p with account := a }

/-- `len(commodities) > 1` (coin.go:246); nil is a key like any other. -/
def mixedOpt : List (Option Com) → Bool
  | [] => false
  | c :: rest => rest.any (fun d => decide (d ≠ c))

/-- The loop over the postings when the common commodity is nil (coin.go:256-264): adding any quantity to the total asks the nil
commodity to convert (amount.go:121-122), which ends in `c.Id` (commodity.go:223). A posting without quantity is remembered, a second
one ends the process. -/
def totalNil : Bool → List PPost → Except Fault Unit
  | _, [] => .ok ()
  | missing, p :: ps =>
    match p.quantity with
    | none => if missing then .error .exit else totalNil true ps
    | some _ => .error .panic

/-- The postings of one transaction in `ResolveTransactions` (coin.go:236-270), where commodities may be nil. With the nil commodity a
single posting without quantity can be left; its quantity becomes a zero of no commodity, which `writeOwn` does not read. -/
def resolveOwn (s : Setup) (own : List Str) (l : List PPost) : Except Fault (List PPost) :=
  (l.mapM (placeOwn s own)).bind fun ps =>
  if mixedOpt (ps.map (fun p => s.com own p.account)) then
    if ps.all (fun p => p.quantity.isSome) then .ok ps else .error .exit
  else
    match (ps.map (fun p => s.com own p.account)).getLast? with
    | none => .ok ps
    | some none => (totalNil false ps).bind fun _ => .ok ps
    | some (some c) =>
      (totalP s.conv (zeroAmount c) false ps).bind fun r =>
      if r.2 then .ok (ps.map (fillQuantity r.1.negated))
      else if r.1.int = 0 then .ok ps else .error .exit

/-- `ResolveTransactions(false)` (coin.go:235-279) on values. -/
def resolveOwnTxns (s : Setup) (own : List Str) (ts : List PTxn) : Except Fault (List PTxn) :=
  (ts.mapM (fun t => (resolveOwn s own t.postings).bind fun ps => .ok { t with postings := ps })).bind fun rs => .ok (stableSort pLess rs)

/-- `(*Transaction).Write` (transaction.go:81-118): `s.Account.Commodity.Decimals` (line 107) with a nil commodity panics. -/
def writeOwn (s : Setup) (own : List Str) (t : PTxn) : Except Fault (List Str) :=
  if t.postings.any (fun p => decide (p.account ∈ own)) then .error .panic else writeTxn (fun a => (s.comOf a).decimals) t

/-- `writeTransactions` (cmd/coin/format.go:68-77). -/
def writeOwnTxns (s : Setup) (own : List Str) : List PTxn → Except Fault (List Str)
  | [] => .ok []
  | t :: ts => (writeOwn s own t).bind fun l => (writeOwnTxns s own ts).bind fun r => .ok (l ++ [[]] ++ r)

/-- One pass of the loop over the files (cmd/coin/format.go:47-65): the text written, and what stays loaded for the next file: the
commodities, and the names of the accounts declared so far. `DropTransactions` removes the transactions. -/
def formatOwn (today : Today) (s : Setup) (trim : Bool) (st : LoadState) (own : List Str) (text : Str) : Except Fault (Str × LoadState × List Str) :=
  (loadText today { st with items := [] } text).bind fun l =>
  let own := own ++ (l.items.filterMap itemAcct).map (·.fullName)
  (resolveOwnTxns s own (l.items.filterMap itemTxn)).bind fun ts =>
  (writeOwnTxns s own (ts.map (trimTxn trim))).bind fun lines => .ok (textOf lines, { l with items := [] }, own)

/-- `format` of several files (cmd/coin/format.go:42-66): the text written for each of them. -/
def formatFiles (today : Today) (s : Setup) (trim : Bool) : LoadState → List Str → List Str → Except Fault (List Str)
  | _, _, [] => .ok []
  | st, own, text :: texts =>
    (formatOwn today s trim st own text).bind fun r => (formatFiles today s trim r.2.1 r.2.2 texts).bind fun outs => .ok (r.1 :: outs)

end Verif
