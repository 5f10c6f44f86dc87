import Verif.Model.Writer
import Verif.Model.Tags
import Verif.Model.Ledger
/-
Model of the commands that rewrite files: cmd/coin/format.go, cmd/coin/modify.go, and `trimWS` of cmd/coin/utils.go.

Both commands write only what is in the transactions, so resolution is modelled here on values: a transaction owns its postings, and a
posting's `account` is first the written name and after resolution the full name of the account found. The posting lists of the
accounts, which the commands never read, are left out (`Model/Ledger.lean` has them). Accounts declared inside the rewritten file
itself are not resolved (`env.find` is fixed).
-/
namespace Verif

/-- Second inner loop of `ResolveTransactions` (coin.go:256-264) on values: the total and whether a posting lacks its quantity. -/
def totalP (conv : Com → Amount → Except Fault Amount) : Amount → Bool → List PPost → Except Fault (Amount × Bool)
  | total, missing, [] => .ok (total, missing)
  | total, missing, p :: ps =>
    match p.quantity with
    | none => if missing then .error .exit else totalP conv total true ps
    | some q => (checkNoError (total.addIn conv q)).bind fun total => totalP conv total missing ps

/-- `empty.Quantity = total.Negated()` (coin.go:268). -/
def fillQuantity (a : Amount) (p : PPost) : PPost := match p.quantity with | none => { p with quantity := some a } | some _ => p

/-- `s.Account = MustFindAccount(s.accountName)` (coin.go:241). -/
def placePosting (env : Env) (p : PPost) : Except Fault PPost := (env.find p.account).bind fun a => .ok { p with account := a }

/-- The postings of one transaction in `ResolveTransactions` (coin.go:236-270) on values. -/
def resolvePostings (env : Env) (l : List PPost) : Except Fault (List PPost) :=
  (l.mapM (placePosting env)).bind fun ps =>
  if mixedComs (ps.map (fun p => env.comOf p.account)) then
    if ps.all (fun p => p.quantity.isSome) then .ok ps else .error .exit
  else
    match (ps.map (fun p => env.comOf p.account)).getLast? with
    | none => .ok ps
    | some c =>
      (totalP env.conv (zeroAmount c) false ps).bind fun r =>
      if r.2 then .ok (ps.map (fillQuantity r.1.negated))
      else if r.1.int = 0 then .ok ps else .error .exit

/-- One transaction of `ResolveTransactions` (coin.go:236-270) on values. -/
def resolvePTxn (env : Env) (t : PTxn) : Except Fault PTxn :=
  (resolvePostings env t.postings).bind fun ps => .ok { t with postings := ps }

/-- `HasBalanceAssertions` (transaction.go:247-254). -/
def assertsP (t : PTxn) : Bool := t.postings.any (fun p => p.balance.isSome)

/-- `TransactionsByTime.Less` (transaction.go:47-52). -/
def pLess (t u : PTxn) : Bool := decide (t.posted < u.posted) || (decide (t.posted = u.posted) && !assertsP t && assertsP u)

/-- `ResolveTransactions(false)` (coin.go:235-279) on values. -/
def resolveP (env : Env) (ts : List PTxn) : Except Fault (List PTxn) :=
  (ts.mapM (resolvePTxn env)).bind fun rs => .ok (stableSort pLess rs)

/-- `bufio.ScanWords`: maximal runs of characters that are not space, `acc` being the current word. Its `isSpace` is
`unicode.IsSpace` (bufio/scan.go). -/
def scanWords : Str → Str → List Str
  | acc, [] => if acc = [] then [] else [acc]
  | acc, c :: s => if isSpaceU c then (if acc = [] then scanWords [] s else acc :: scanWords [] s) else scanWords (acc ++ [c]) s

/-- `trimWS` of one line (cmd/coin/utils.go:48-64): the words joined by single blanks. -/
def trimWS (s : Str) : Str := joinWith [' '] (scanWords [] s)

/-- The `-t` flag (cmd/coin/format.go:70-73): descriptions and notes of transactions, not notes of postings. -/
def trimTxn (trim : Bool) (t : PTxn) : PTxn :=
  if trim then { t with description := trimWS t.description, notes := t.notes.map trimWS } else t

/-- The transactions among the loaded items, in the order of `Transactions`. -/
def itemTxn : Item → Option PTxn
  | .transaction t => some t
  | _ => none

/-- The transactions `format` writes for loaded transactions (cmd/coin/format.go:49-55, 68-77). -/
def formatTxns (env : Env) (trim : Bool) (ts : List PTxn) : Except Fault (List PTxn) :=
  (resolveP env ts).bind fun rs => .ok (rs.map (trimTxn trim))

/-- `format` of one file's text (cmd/coin/format.go:42-77): the text written. `st` are the commodities loaded before. -/
def formatText (today : Today) (env : Env) (trim : Bool) (st : LoadState) (text : Str) : Except Fault Str :=
  (loadText today { st with items := [] } text).bind fun l =>
  (formatTxns env trim (l.items.filterMap itemTxn)).bind fun ts =>
  (writeTxns (fun a => (env.comOf a).decimals) ts).bind fun lines => .ok (textOf lines)

/-! ### modify -/

/-- The fields of `cmdModify` after parsing the flags (cmd/coin/modify.go:19-35, 60-81). Accounts are full names; an empty tag line
means the flag is not set. -/
structure Modify where
  source : Option Str
  target : Option Str
  payee : Option (Str → Bool)
  ttag : Option TagMatcher
  ptag : Option TagMatcher
  setTTag : Str
  setPTag : Str

/-- `modifyPosting` (cmd/coin/modify.go:138-148): the posting and whether it was modified. -/
def modifyPosting (m : Modify) (p : PPost) : PPost × Bool :=
  let p1 := match m.target with | none => p | some a => { p with account := a }
  let p2 := if m.setPTag = [] then p1 else { p1 with notes := addTagLine p1.notes m.setPTag }
  (p2, m.target.isSome || decide (m.setPTag ≠ []))

/-- `cmd.ptag.Match(p.Tags)`; the tags are those parsed from the file (transaction.go:192-195). -/
def ptagMatch (m : Modify) (p : PPost) : Bool := match m.ptag with | none => false | some f => f.matches (parseTags p.notes).toTags

/-- The body of the loop over postings (cmd/coin/modify.go:119-127): `modified || …` does not evaluate `modifyPosting` once `modified`
is true. `p.Account == cmd.from` compares with nil when there is no `-a`. -/
def modifyStep (m : Modify) (modified : Bool) (p : PPost) : PPost × Bool :=
  let r1 := if some p.account = m.source ∧ modified = false then modifyPosting m p else (p, modified)
  if ptagMatch m p ∧ r1.2 = false then modifyPosting m r1.1 else r1

/-- The loop over postings. -/
def modifyLoop (m : Modify) : Bool → List PPost → List PPost × Bool
  | modified, [] => ([], modified)
  | modified, p :: ps =>
    let r := modifyStep m modified p
    let rest := modifyLoop m r.2 ps
    (r.1 :: rest.1, rest.2)

/-- The conditions on the transaction (cmd/coin/modify.go:112-117). -/
def modifySelects (m : Modify) (t : PTxn) : Bool :=
  (match m.payee with | none => true | some f => f t.description) &&
  (match m.ttag with | none => true | some f => f.matches (parseTags t.notes).toTags)

/-- `modify` (cmd/coin/modify.go:111-136). -/
def modifyTxn (m : Modify) (t : PTxn) : PTxn × Bool :=
  if modifySelects m t = false then (t, false)
  else
    let r := modifyLoop m false t.postings
    let t1 := { t with postings := r.1 }
    if m.source.isSome ∧ t.postings.all (fun p => decide (some p.account ≠ m.source)) then (t1, r.2)
    else if m.setTTag = [] then (t1, r.2)
    else ({ t1 with notes := addTagLine t.notes m.setTTag }, r.2)

/-! ### Replacing the file -/

/-- The directory: contents by file name. -/
abbrev Dir := Str → Option Str

def Dir.put (d : Dir) (n : Str) (c : Option Str) : Dir := fun x => if x = n then c else d x

/-- The file operations of `format -i` and `modify`. -/
inductive FileOp
  | create (n : Str)
  | append (n : Str) (chunk : Str)
  | remove (n : Str)
  | rename (a b : Str)

def FileOp.exec (d : Dir) : FileOp → Dir
  | .create n => d.put n (some [])
  | .append n chunk => d.put n ((d n).map (· ++ chunk))
  | .remove n => d.put n none
  | .rename a b => (d.put b (d a)).put a none

/-- The operations rewriting file `fn` through the temporary file `tmp` (cmd/coin/format.go:51-63, cmd/coin/modify.go:93-106); `chunks`
are the single writes. -/
def replaceOps (fn tmp : Str) (chunks : List Str) : List FileOp :=
  .create tmp :: chunks.map (.append tmp) ++ [.remove fn, .rename tmp fn]

/-- The directory when the process dies after `k` operations. -/
def crashAfter (d : Dir) (ops : List FileOp) (k : Nat) : Dir := (ops.take k).foldl FileOp.exec d

end Verif
