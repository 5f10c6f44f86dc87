import Verif.Model.FormatMain
/-
Model of `coin modify … FILES` from the command line and the files of the ledger to the files written (cmd/coin/modify.go:37-108).
-/
namespace Verif

/-- `if len(x) > 0 { … }` around the evaluation of an argument (cmd/coin/modify.go:60-74). -/
def optArg {α : Type} (f : Str → Except Fault α) (x : Str) : Except Fault (Option α) :=
  if x = [] then .ok none else (f x).bind fun a => .ok (some a)

/-- `if len(x) > 0 { … = mustParseTags(x) }` (cmd/coin/modify.go:75-80). -/
def tagArg (x : Str) : Except Fault Str := if x = [] then .ok [] else mustParseTags x

/-- The first part of `execute` (cmd/coin/modify.go:59-81): the fields set from the flags. -/
def modifyOf (compile : Compile) (names : List Str) (l : List (Str × Str)) : Except Fault Modify :=
  (optArg (fun x => mustFindAccount names (patternMatches x) x) (textFlag l (str "a") [])).bind fun source =>
  (optArg (fun x => mustFindAccount names (patternMatches x) x) (textFlag l (str "a:") [])).bind fun target =>
  (optArg (fun x => match compile x with | none => .error .panic | some f => .ok f) (textFlag l (str "p") [])).bind fun payee =>
  (optArg (newTagMatcher compile) (textFlag l (str "tt") [])).bind fun ttag =>
  (optArg (newTagMatcher compile) (textFlag l (str "pt") [])).bind fun ptag =>
  (tagArg (textFlag l (str "pt:") [])).bind fun setPTag =>
  (tagArg (textFlag l (str "tt:") [])).bind fun setTTag =>
  .ok ⟨source, target, payee, ttag, ptag, setTTag, setPTag⟩

/-- The line on the standard error for a file (cmd/coin/modify.go:106). -/
def updatedLine (n : Nat) (fn : Str) : Str := str "Updated " ++ natStr n ++ str " transactions in " ++ fn ++ ['\n']

/-- One turn of the loop over the files (cmd/coin/modify.go:90-108) after `init` left `st` and `accts`; the file system, what is loaded
after `DropTransactions`, and the line on the standard error. As in `formatInPlace` for files that declare no accounts themselves. -/
def modifyFile (P : Install) (m : Modify) (st : LoadState) (accts : List Acct) (fn : Str) : Except Fault (Install × LoadState × Str) :=
  (loadFileS P.disk P.today P.limit st fn).bind fun l =>
  (resolveP (formatEnv st accts) l.txns).bind fun ts =>
  (writeTxns (fun a => (st.comOf accts a).decimals) (ts.map fun t => (modifyTxn m t).1)).bind fun lines =>
  .ok ({ P with disk := P.disk.put fn (textOf lines) }, { l with items := l.items.filter fun i => (itemTxn i).isNone },
    updatedLine (ts.filter fun t => (modifyTxn m t).2).length fn)

/-- The loop over the files (cmd/coin/modify.go:90-108); the file system and what is on the standard error. -/
def modifyFiles (m : Modify) (accts : List Acct) : Install → LoadState → List Str → Except Fault (Install × Str)
  | P, _, [] => .ok (P, [])
  | P, st, fn :: fns => (modifyFile P m st accts fn).bind fun r => (modifyFiles m accts r.1 r.2.1 fns).bind fun r' => .ok (r'.1, r.2.2 ++ r'.2)

/-- `coin modify` with the arguments `argv` (cmd/coin/main.go:56-81, cmd/coin/modify.go:53-108) after `init` left `st` and `accts`. Without
files it writes the transactions loaded by `init`, of which there are none in files of commodities and accounts, to the standard output
and leaves the files alone. -/
def modifyMain (env : FlagEnv) (compile : Compile) (P : Install) (st : LoadState) (accts : List Acct) (argv : List Str) : Except Fault (Install × Str) :=
  (dispatch env argv).bind fun r =>
  match r.1 with
  | .modify => (modifyOf compile (accts.map (·.fullName)) r.2.1).bind fun m => modifyFiles m accts P st r.2.2
  | _ => .error .err

end Verif
