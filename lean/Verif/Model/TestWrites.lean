import Verif.Model.ModifyMain
/-
Model of tests (`coin test`) whose commands are `modify` and `format`: without files these commands work on the transactions in memory
and change them (cmd/coin/modify.go:82-89, cmd/coin/format.go:43-46, 68-77), so that later tests see what earlier ones did. Postings are
by value; the lists of postings of the accounts, which `MoveTo` also changes, are not read by these commands.
-/
namespace Verif

/-- A transaction in memory: what `Write` reads, and the tags of the transaction and of its postings. The tags are parsed when the
transaction is read (transaction.go:190-193) and not when the notes are changed. -/
structure MemTxn where
  txn : PTxn
  tags : Tags
  ptags : List Tags

/-- A transaction as it is loaded. -/
def MemTxn.load (t : PTxn) : MemTxn := ⟨t, (parseTags t.notes).toTags, t.postings.map fun p => (parseTags p.notes).toTags⟩

/-- The loop over postings (cmd/coin/modify.go:119-127); `tgs` are the tags of the postings. -/
def memLoop (m : Modify) : Bool → List Tags → List PPost → List PPost × Bool
  | modified, _, [] => ([], modified)
  | modified, [], p :: ps => (p :: ps, modified)                 -- not reached: there are tags for every posting
  | modified, tg :: tgs, p :: ps =>
    let r1 := if some p.account = m.source ∧ modified = false then modifyPosting m p else (p, modified)
    let r2 := if (match m.ptag with | none => false | some f => f.matches tg) = true ∧ r1.2 = false then modifyPosting m r1.1 else r1
    let rest := memLoop m r2.2 tgs ps
    (r2.1 :: rest.1, rest.2)

/-- The conditions on the transaction (cmd/coin/modify.go:112-117): the description as it is now, the tags of when it was read. -/
def memSelects (m : Modify) (x : MemTxn) : Bool :=
  (match m.payee with | none => true | some f => f x.txn.description) && (match m.ttag with | none => true | some f => f.matches x.tags)

/-- `modify` (cmd/coin/modify.go:111-136) of a transaction in memory. -/
def memModify (m : Modify) (x : MemTxn) : MemTxn :=
  if memSelects m x = false then x
  else
    let t1 := { x.txn with postings := (memLoop m false x.ptags x.txn.postings).1 }
    if m.source.isSome ∧ x.txn.postings.all (fun p => decide (some p.account ≠ m.source)) then { x with txn := t1 }
    else if m.setTTag = [] then { x with txn := t1 }
    else { x with txn := { t1 with notes := addTagLine x.txn.notes m.setTTag } }

/-- The command of a test (cmd/coin/test.go:77-88) that is `modify` or `format` without files: what it prints and the transactions
afterwards. `names` are the names of the accounts, `dec` the decimals of their commodities. Commands with files and other commands are
not covered here. -/
def memCommand (fe : FlagEnv) (compile : Compile) (names : List Str) (dec : Str → Nat) (xs : List MemTxn) (argv : List Str) :
    Except Fault (Str × List MemTxn) :=
  (dispatch fe argv).bind fun r =>
  match r.1, r.2.2 with
  | .modify, [] =>
    (modifyOf compile names r.2.1).bind fun m =>
    (writeTxns dec ((xs.map (memModify m)).map (·.txn))).bind fun lines => .ok (textOf lines, xs.map (memModify m))
  | .format, [] =>
    (writeTxnsL (boolFlag r.2.1 (str "ledger")) dec ((xs.map fun x => { x with txn := trimTxn (boolFlag r.2.1 (str "t")) x.txn }).map (·.txn))).bind fun lines =>
    .ok (textOf lines, xs.map fun x => { x with txn := trimTxn (boolFlag r.2.1 (str "t")) x.txn })
  | _, _ => .error .err

/-- The loop over the tests (cmd/coin/test.go:58-88): what each of them prints. -/
def memTests (fe : FlagEnv) (compile : Compile) (names : List Str) (dec : Str → Nat) : List MemTxn → List (List Str) → Except Fault (List Str)
  | _, [] => .ok []
  | xs, c :: cs => (memCommand fe compile names dec xs c).bind fun r => (memTests fe compile names dec r.2 cs).bind fun l => .ok (r.1 :: l)

end Verif
