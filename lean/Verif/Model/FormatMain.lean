import Verif.Model.Format
import Verif.Model.LedgerOut
import Verif.Model.Reports
/-
Model of `coin format … FILES` from the command line and the files of the ledger to the files written or the text printed
(cmd/coin/format.go:24-77).
-/
namespace Verif

/-- What `ResolveTransactions` looks up in `format` (cmd/coin/format.go:36-40): the accounts resolved by `init`; prices are never
resolved, so that no commodity has a price to convert with (coin.go:143-160 does not run). -/
def formatEnv (st : LoadState) (accts : List Acct) : Env :=
  Env.ofAccounts accts (st.comOf accts) patternMatches (convWith (fun _ => []) (fun _ _ => []) 1)

/-- The file system after a file was replaced (cmd/coin/format.go:50-53, 57-61: temporary file, `os.Remove`, `os.Rename`; crashes in
between are the matter of `Model/Format`). -/
def Disk.put (d : Disk) (fn text : Str) : Disk := { d with read := fun x => if x = fn then some text else d.read x }

/-- `coin format -i FILE` (cmd/coin/format.go:42-77) after `init` left `st` and `accts`: `Transactions` are those of the files read by
`init` and of the file. For files that declare no accounts themselves (`Model/FormatOwn` has those). -/
def formatInPlace (P : Install) (trim : Bool) (st : LoadState) (accts : List Acct) (fn : Str) : Except Fault Install :=
  (loadFileS P.disk P.today P.limit st fn).bind fun l =>
  (formatTxns (formatEnv st accts) trim l.txns).bind fun ts =>
  (writeTxns (fun a => (st.comOf accts a).decimals) ts).bind fun lines => .ok { P with disk := P.disk.put fn (textOf lines) }

/-- One turn of the loop over the files (cmd/coin/format.go:47-65): the file system, what is loaded after `DropTransactions`, and what is
printed. As in `formatInPlace` for files that declare no accounts themselves. -/
def formatFile (P : Install) (ledger replace trim : Bool) (st : LoadState) (accts : List Acct) (fn : Str) : Except Fault (Install × LoadState × Str) :=
  (loadFileS P.disk P.today P.limit st fn).bind fun l =>
  (formatTxns (formatEnv st accts) trim l.txns).bind fun ts =>
  (writeTxnsL ledger (fun a => (st.comOf accts a).decimals) ts).bind fun lines =>
  .ok (if replace then { P with disk := P.disk.put fn (textOf lines) } else P, { l with items := l.items.filter fun i => (itemTxn i).isNone },
    if replace then [] else textOf lines)

/-- The loop over the files (cmd/coin/format.go:47-65). -/
def formatLoop (ledger replace trim : Bool) (accts : List Acct) : Install → LoadState → List Str → Except Fault (Install × Str)
  | P, _, [] => .ok (P, [])
  | P, st, fn :: fns =>
    (formatFile P ledger replace trim st accts fn).bind fun r => (formatLoop ledger replace trim accts r.1 r.2.1 fns).bind fun r' => .ok (r'.1, r.2.2 ++ r'.2)

/-- `coin format` with the arguments `argv` (cmd/coin/main.go:56-81, cmd/coin/format.go:24-77) after `init` left `st` and `accts`; the file
system and what is printed. Without files it prints the transactions loaded by `init`, of which there are none in files of commodities
and accounts. -/
def formatMain (env : FlagEnv) (P : Install) (st : LoadState) (accts : List Acct) (argv : List Str) : Except Fault (Install × Str) :=
  (dispatch env argv).bind fun r =>
  match r.1 with
  | .format => formatLoop (boolFlag r.2.1 (str "ledger")) (boolFlag r.2.1 (str "i")) (boolFlag r.2.1 (str "t")) accts P st r.2.2
  | _ => .error .err

end Verif
