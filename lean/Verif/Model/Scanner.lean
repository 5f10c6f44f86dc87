import Verif.Model.Load
import Verif.Model.Csv
/-
Model of what `bufio.Scanner` does with long lines, and of its users.

The scanner's buffer holds at most `bufio.MaxScanTokenSize` (64 KiB) bytes. A line whose bytes, without the line feed, fill it makes `Scan`
return false with `Err() = ErrTooLong` (bufio/scan.go); the lines before it have been delivered. None of the users calls `Scan` again
after it returned false. `Model/Parser.lean`, `Model/Rules.lean` and `Model/Csv.lean` describe the users on texts without such lines; here
are the same functions on all texts.
-/
namespace Verif

/-- `bufio.MaxScanTokenSize`. -/
def maxToken : Nat := 65536

/-- The pieces between the line feeds, with carriage returns; the last counts only if it is not empty (`bufio.ScanLines`). -/
def rawLines (s : Str) : List Str :=
  let l := splitOn '\n' s
  if l.getLast? = some [] then l.dropLast else l

/-- A line filling the buffer. -/
def tooLong (raw : Str) : Bool := decide (maxToken ≤ blen raw)

/-- The lines delivered before `Scan` returns false. -/
def scannedLines (s : Str) : List Str := ((rawLines s).takeWhile (fun l => !tooLong l)).map dropCR

/-- `Err() != nil` once `Scan` has returned false. -/
def scanFailed (s : Str) : Bool := (rawLines s).any tooLong

/-- Items whose parse function returns `p.Err()` (transaction.go:194, account.go:144, commodity.go:178, test.go:32); `parsePrice`
(price.go:58-68) and `parseInclude` (include.go:29-30) do not look at it. -/
def looksAtErr : Item → Bool
  | .include_ _ => false
  | .price _ => false
  | _ => true

/-- `Load` (coin.go:96-135) as in `Model/Load.lean`, with the scanner's error: `failed` tells whether `Scan` fails after the last of
`lines`. An item that used them up is refused with the error, or stored before `Next` (parser.go:34-36) returns it. -/
def loadReaderS (d : Disk) (today : Today) (load : LoadState → Str → Except Fault LoadState) (fn : Str) (failed : Bool) :
    Nat → LoadState → List Str → Except Fault LoadState
  | 0, st, _ => .ok st
  | n + 1, st, lines =>
    match next ⟨today, st.lookup, st.dflt⟩ lines with
    | .error .err => .error .exit
    | .error f => .error f
    | .ok (none, _) => if failed then .error .exit else .ok st
    | .ok (some i, rest) =>
      if failed ∧ rest = [] ∧ looksAtErr i.1 then .error .exit
      else (loadItem d load fn st i).bind fun st => loadReaderS d today load fn failed n st rest

/-- `LoadFile` (coin.go:89-94). -/
def loadFileS (d : Disk) (today : Today) : Nat → LoadState → Str → Except Fault LoadState
  | 0, _, _ => .error .exit
  | limit + 1, st, fn =>
    match d.read fn with
    | none => .error .exit
    | some text =>
      loadReaderS d today (loadFileS d today limit) fn (scanFailed text) ((scannedLines text).length + 1) st (scannedLines text)

/-- Loading files one after the other. -/
def loadEachS (d : Disk) (today : Today) (limit : Nat) : LoadState → List Str → Except Fault LoadState
  | st, [] => .ok st
  | st, f :: fs => (loadFileS d today limit st f).bind fun st => loadEachS d today limit st fs

/-- `LoadAll` (coin.go:61-87) up to `ResolveAll`. -/
def loadAllS (d : Disk) (today : Today) (limit : Nat) (n : Names) (st : LoadState) : Except Fault LoadState :=
  (loadFileS d today limit st n.commodities).bind fun st =>
  (loadEachS d today limit st (pricesFiles d n)).bind fun st =>
  (loadFileS d today limit st n.accounts).bind fun st =>
  loadEachS d today limit st (transactionFiles d n)

/-- `ReadRules` (rules.go:155-161) on delivered lines. -/
def rulesOf (env : RuleEnv) (lines : List Str) : Except Fault (Option RuleIndex) :=
  match lines with
  | [] => .ok none
  | lines => (scanRules env lines.length ⟨[], []⟩ lines).bind fun ri => .ok (some ri)

/-- `ReadRules` (rules.go:155-161) and `check.NoError` of its error (cmd/ofx2coin/main.go:62-63): every path on which `Scan` returns
false returns the scanner's error (rules.go:157-158, 185-187, 216-217). -/
def readRulesS (env : RuleEnv) (text : Str) : Except Fault (Option RuleIndex) :=
  (rulesOf env (scannedLines text)).bind fun r => if scanFailed text then .error .exit else .ok r

/-- `ReadRules` of csv2coin (cmd/csv2coin/rules.go:176-197): when `Scan` returns false after the separator the error is not looked at
(rules.go:183-185); otherwise it comes back from `ScanRules`. -/
def readCsvRulesS (env : RuleEnv) (text : Str) : Except Fault CsvRules :=
  let lines := scannedLines text
  (readSources env (lines.length + 1) [] lines).bind fun r =>
  if scanFailed text ∧ r.index.isSome then .error .exit else .ok r

end Verif
