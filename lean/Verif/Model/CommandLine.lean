import Verif.Model.TextOut
import Verif.Model.ViewGroup
import Verif.Model.Writer
/-
Model of the command line of `coin`: Go's `flag` package as used by cmd/coin/main.go, the flags of the commands, and the `balance` and
`register` commands from their arguments to their output.

Every failure of parsing prints a usage text and ends the process (`flag.ExitOnError`), as does `-h`: all are `Fault.exit`.
`strconv.ParseInt` with base 0 and `(*coin.Date).Set` are parameters.
-/
namespace Verif

/-- The kinds of flags: `BoolVar`, `StringVar`, `IntVar`, and `Var` of a `coin.Date`. -/
inductive FlagKind
  | bool | text | int | date
  deriving DecidableEq, Repr

/-- How values are read. -/
structure FlagEnv where
  int : Str → Option Int
  date : Str → Option Int

/-- `strconv.ParseBool`. -/
def parseBool (s : Str) : Option Bool :=
  if s ∈ [str "1", str "t", str "T", str "TRUE", str "true", str "True"] then some true
  else if s ∈ [str "0", str "f", str "F", str "FALSE", str "false", str "False"] then some false
  else none

/-- `flag.Value.Set` succeeds. -/
def FlagEnv.accepts (env : FlagEnv) : FlagKind → Str → Bool
  | .bool, v => (parseBool v).isSome
  | .text, _ => true
  | .int, v => (env.int v).isSome
  | .date, v => (env.date v).isSome

/-- What an argument is to `parseOne` (flag.go). -/
inductive FlagTok
  | arg                                            -- not a flag: ends the flags and stays
  | stop                                           -- `--`: ends the flags
  | bad                                            -- bad flag syntax
  | flag (name : Str) (value : Option Str)
  deriving DecidableEq, Repr

/-- Cutting at the first `=`. -/
def cutEquals : Str → Str × Option Str
  | [] => ([], none)
  | c :: t => if c = '=' then ([], some t) else (c :: (cutEquals t).1, (cutEquals t).2)

/-- The name of a flag and its value, after the dashes. -/
def flagNamed (u : Str) : FlagTok :=
  match u with
  | [] => .bad
  | c :: _ => if c = '-' ∨ c = '=' then .bad else .flag (cutEquals u).1 (cutEquals u).2

/-- The beginning of `parseOne` (flag.go). -/
def flagToken (s : Str) : FlagTok :=
  match s with
  | [] => .arg
  | [_] => .arg
  | c :: d :: t =>
    if c ≠ '-' then .arg
    else if d = '-' then (if t = [] then .stop else flagNamed t)
    else flagNamed (d :: t)

/-- `f.formal[name]`. -/
def kindOf (defs : List (Str × FlagKind)) (name : Str) : Option FlagKind := (defs.find? (fun e => decide (e.1 = name))).map (·.2)

/-- `(*FlagSet).Parse` (flag.go): the flags set, in order, and the arguments left. -/
def parseFlags (env : FlagEnv) (defs : List (Str × FlagKind)) : List Str → Except Fault (List (Str × Str) × List Str)
  | [] => .ok ([], [])
  | s :: rest =>
    match flagToken s with
    | .arg => .ok ([], s :: rest)
    | .stop => .ok ([], rest)
    | .bad => .error .exit
    | .flag name value =>
      match kindOf defs name, value with
      | none, _ => .error .exit
      | some k, some v =>
        if env.accepts k v then (parseFlags env defs rest).bind fun r => .ok ((name, v) :: r.1, r.2) else .error .exit
      | some .bool, none => (parseFlags env defs rest).bind fun r => .ok ((name, str "true") :: r.1, r.2)
      | some k, none =>
        match rest with
        | [] => .error .exit
        | v :: rest => if env.accepts k v then (parseFlags env defs rest).bind fun r => .ok ((name, v) :: r.1, r.2) else .error .exit

/-! ### Values -/

/-- The value a flag is left with: each `Set` overwrites. -/
def lastSetting (l : List (Str × Str)) (name : Str) : Option Str := ((l.filter (fun e => decide (e.1 = name))).getLast?).map (·.2)

/-- The value of a `BoolVar` with default false. -/
def boolFlag (l : List (Str × Str)) (name : Str) : Bool := decide ((lastSetting l name).bind parseBool = some true)
/-- The value of a `StringVar`. -/
def textFlag (l : List (Str × Str)) (name dflt : Str) : Str := (lastSetting l name).getD dflt
/-- The value of an `IntVar`. -/
def FlagEnv.intFlag (env : FlagEnv) (l : List (Str × Str)) (name : Str) (dflt : Int) : Int := ((lastSetting l name).bind env.int).getD dflt
/-- The value of a `coin.Date`; unset is `IsZero`. -/
def FlagEnv.dateFlag (env : FlagEnv) (l : List (Str × Str)) (name : Str) : Option Int := (lastSetting l name).bind env.date

/-! ### Commands -/

/-- The commands (cmd/coin). -/
inductive Cmd
  | accounts | balance | commodities | format | modify | register | stats | tags | test | version
  deriving DecidableEq, Repr

/-- `aliases` (cmd/coin/main.go:11, 32-34) as filled by the `init` functions (accounts.go:12, balance.go:13, commodities.go:19,
format.go:14, modify.go:16, register.go:16, stats.go:12, tags.go:14, test.go:19, version.go:11). -/
def aliases : List (Str × Cmd) :=
  [(str "accounts", .accounts), (str "acc", .accounts), (str "a", .accounts), (str "balance", .balance), (str "bal", .balance),
   (str "b", .balance), (str "commodities", .commodities), (str "com", .commodities), (str "c", .commodities), (str "format", .format),
   (str "fmt", .format), (str "f", .format), (str "modify", .modify), (str "mod", .modify), (str "m", .modify), (str "register", .register),
   (str "reg", .register), (str "r", .register), (str "stats", .stats), (str "s", .stats), (str "tags", .tags), (str "test", .test),
   (str "t", .test), (str "version", .version), (str "ver", .version), (str "v", .version)]

/-- `aliases[name]`. -/
def commandOf (name : Str) : Option Cmd := (aliases.find? (fun e => decide (e.1 = name))).map (·.2)

/-- The flags of the commands (accounts.go:26, balance.go:32-37, commodities.go:35-37, format.go:29-31, modify.go:42-48,
register.go:43-66, stats.go:28-32, tags.go:31-32, test.go:34; version has none). -/
def flagsOf : Cmd → List (Str × FlagKind)
  | .accounts => [(str "c", .bool)]
  | .balance => [(str "b", .date), (str "e", .date), (str "p", .text), (str "t", .text), (str "z", .bool), (str "l", .int)]
  | .commodities => [(str "q", .bool), (str "p", .bool), (str "f", .bool)]
  | .format => [(str "ledger", .bool), (str "i", .bool), (str "t", .bool)]
  | .modify => [(str "p", .text), (str "tt", .text), (str "pt", .text), (str "a", .text), (str "a:", .text), (str "pt:", .text), (str "tt:", .text)]
  | .register =>
    [(str "v", .bool), (str "r", .bool), (str "b", .date), (str "e", .date), (str "p", .text), (str "t", .text), (str "w", .bool),
     (str "m", .bool), (str "q", .bool), (str "y", .bool), (str "bp", .bool), (str "bt", .bool), (str "g", .int), (str "c", .bool),
     (str "l", .int), (str "f", .bool), (str "o", .text), (str "n", .bool)]
  | .stats => [(str "d", .bool), (str "u", .bool), (str "c", .bool), (str "b", .date), (str "e", .date)]
  | .tags => [(str "v", .bool), (str "a", .bool)]
  | .test => [(str "v", .bool)]
  | .version => []

/-- `main` up to `Parse` (cmd/coin/main.go:56-79); `argv` is `os.Args[1:]`. An unknown command prints the usage and ends with 1. -/
def dispatch (env : FlagEnv) (argv : List Str) : Except Fault (Cmd × List (Str × Str) × List Str) :=
  match commandOf (argv.headD (str "balance")) with
  | none => .error .exit
  | some c => (parseFlags env (flagsOf c) argv.tail).bind fun r => .ok (c, r)

/-- A loaded ledger as the commands see it. `order` is what `sort.Slice` makes of the accounts of an aggregated register. -/
structure LedgerView where
  env : Env
  compile : Compile
  view : View
  print : PrintView
  siblings : PRef → List PRef
  tagKey : PRef → Str
  links : Links
  fuel : Nat
  names : List Str
  matcher : Str → Str → Bool
  order : List (Str × TS) → List (Str × TS)

/-- `MustFindAccount` (coin.go:285-311). -/
def LedgerView.find (g : LedgerView) (pattern : Str) : Except Fault Str := mustFindAccount g.names (g.matcher pattern) pattern

/-- The filters of a command line (balance.go:32-35, register.go:46-49). -/
def filtersOf (env : FlagEnv) (l : List (Str × Str)) : Filters :=
  ⟨env.dateFlag l (str "b"), env.dateFlag l (str "e"), textFlag l (str "p") [], textFlag l (str "t") []⟩

/-- The account of the balance command (balance.go:45-48). -/
def LedgerView.account (g : LedgerView) : List Str → Except Fault Str
  | [] => .ok rootName
  | a :: _ => g.find a

/-- `cmdBalance.execute` (balance.go:44-70) with its flags and arguments. -/
def balanceMain (env : FlagEnv) (g : LedgerView) (l : List (Str × Str)) (args : List Str) : Except Fault (List Str) :=
  (g.account args).bind fun acc =>
  balanceOut g.env g.compile g.view g.links g.fuel (filtersOf env l) (env.intFlag l (str "l") 0) (boolFlag l (str "z")) acc

/-- `period` (register.go:165-177). -/
def flagPeriod (l : List (Str × Str)) : Option Aggregate :=
  if boolFlag l (str "w") then some .weekly
  else if boolFlag l (str "m") then some .monthly
  else if boolFlag l (str "q") then some .quarterly
  else if boolFlag l (str "y") then some .yearly
  else none

/-- The formats of the reducers (totals.go:683-716). -/
def periodFormat : Aggregate → Int → Str
  | .weekly => formatDate
  | .monthly => formatMonth
  | .quarterly => formatMonth
  | .yearly => formatYear

/-- `category` (register.go:154-163), with the reducers of totals.go:662-677; `tagKey` is `tags.reduce`. -/
def categoryOf (g : LedgerView) (l : List (Str × Str)) : Option (PRef → Str) :=
  if boolFlag l (str "bp") then some g.view.payee
  else if boolFlag l (str "bt") then some g.tagKey
  else none

/-- The labels of the columns (register.go:136-146). -/
def columnLabel (acc : Str) (width : Int) : Option Str → Str
  | none => str "Other"
  | some a => if a = acc then (splitOn ':' acc).getLastD [] else shortenAccountName (trimPrefix a acc) width

/-- `output` (totals.go:482-495) as text. -/
def outputText (fmtT : Option (Int → Str)) (cat : Bool) (label : Option Str → Str) (format : Str) (cols : Columns) : Except Fault Str :=
  if format = str "json" then (plainRows fmtT cat label cols).bind fun rs => .ok (jsonLines rs)
  else if format = str "csv" then (plainRows fmtT cat label cols).bind fun rs => .ok (csvText rs)
  else (tableText fmtT label cols).bind fun ls => .ok (textOf ls)

/-- `aggregatedRegister` (register.go:108-148). -/
def aggregatedMain (env : FlagEnv) (g : LedgerView) (l : List (Str × Str)) (acc : Str) : Except Fault Str :=
  let red : Reducers := ⟨(flagPeriod l).map Aggregate.red, categoryOf g l⟩
  (aggTotals g.env g.compile g.view g.links g.fuel (filtersOf env l) red (boolFlag l (str "r")) acc).bind fun ts =>
  (aggColumns g.env red (env.intFlag l (str "g") 5) (boolFlag l (str "c")) acc (g.order ts)).bind fun cols =>
  outputText ((flagPeriod l).map periodFormat) (categoryOf g l).isSome (columnLabel acc (env.intFlag l (str "l") 12)) (textFlag l (str "o") (str "text")) cols

/-- The heading (register.go:78-80). -/
def registerHead (g : LedgerView) (l : List (Str × Str)) (acc : Str) : List Str :=
  if textFlag l (str "o") (str "text") = str "text" then [acc ++ str " " ++ (g.env.comOf acc).id] else []

/-- `fullRegister` (register.go:86-106) as lines. -/
def fullMain (env : FlagEnv) (g : LedgerView) (l : List (Str × Str)) (acc : Str) : Except Fault (List Str) :=
  (fullRegister g.env g.compile g.view g.siblings g.links g.fuel (filtersOf env l) (boolFlag l (str "r")) acc).bind fun rows =>
  printText g.view g.print g.env.comOf ⟨acc, boolFlag l (str "f"), env.intFlag l (str "l") 12, g.env.comOf acc, boolFlag l (str "n")⟩ (boolFlag l (str "r")) rows

/-- `cmdRegister.init` and `execute` (register.go:69-85, 150-152). -/
def registerMain (env : FlagEnv) (g : LedgerView) (l : List (Str × Str)) (args : List Str) : Except Fault Str :=
  match args with
  | [] => .error .exit
  | a :: _ =>
    if boolFlag l (str "bp") && boolFlag l (str "bt") then .error .exit
    else
      (g.find a).bind fun acc =>
      (if (flagPeriod l).isSome || (categoryOf g l).isSome then aggregatedMain env g l acc
       else (fullMain env g l acc).bind fun ls => .ok (textOf ls)).bind fun body =>
      .ok (textOf (registerHead g l acc) ++ body)

/-- `coin` with the arguments `argv` on a loaded ledger (cmd/coin/main.go:50-82), for the two reports. Other commands are not run here
(`Fault.err`). -/
def coinMain (env : FlagEnv) (g : LedgerView) (argv : List Str) : Except Fault Str :=
  (dispatch env argv).bind fun r =>
  match r.1 with
  | .balance => (balanceMain env g r.2.1 r.2.2).bind fun ls => .ok (textOf ls)
  | .register => registerMain env g r.2.1 r.2.2
  | _ => .error .err

end Verif
