import Verif.Model.Format
import Verif.Model.Load
/-
Model of the test command (cmd/coin/test.go) and of the position of a test (test.go).

The files are a `Dir` (name to contents). The commands that tests run are not modelled here: `aliases` tells which names are commands,
`run k args` is what the command of the k-th executed test writes, or how it fails; it may depend on `k`, since commands share the ledger.
The text of a difference (difflib) is a parameter. The temporary file, removal and renaming in `updateTestFile` are one step here;
interruption between them is the subject of C51, whose model of the steps (`replaceOps`) is the same sequence.
-/
namespace Verif

/-- A test (test.go:9-15). -/
structure CTest where
  cmd : Str
  result : Str
  line : Nat
  file : Str
  deriving DecidableEq, Repr

/-- `(*Test).Location` (test.go:35-37). -/
def CTest.location (t : CTest) : Str := t.file ++ ':' :: natStr t.line

/-- `strings.Cut(s, ":")` without the flag. -/
def cutColon : Str → Str × Str
  | [] => ([], [])
  | c :: s => if c = ':' then ([], s) else (c :: (cutColon s).1, (cutColon s).2)

/-- `file` (cmd/coin/test.go:124-127). -/
def fileOf (t : CTest) : Str := (cutColon t.location).1

/-- `strconv.Atoi` of the part of a location after the first colon with the error ignored (cmd/coin/test.go:148-149); such a part is
either a number in decimal or contains a colon, which is an error with value 0. -/
def lineOf (t : CTest) : Nat :=
  let s := (cutColon t.location).2
  if s ≠ [] ∧ s.all isDigit = true then strNat s else 0

/-- The writing loops of `updateTestFile` (cmd/coin/test.go:146-167) over the remaining lines of the old file, of which `line` are
already copied. -/
def updateLoop : List Str → Nat → List CTest → Str
  | lines, _, [] => textOf lines
  | lines, line, t :: ts =>
    textOf (lines.take (lineOf t - line)) ++ t.result ++
      updateLoop (lines.drop (lineOf t - line)) (line + (lines.take (lineOf t - line)).length) ts

/-- `updateTestFile` (cmd/coin/test.go:132-174). -/
def updateTestFile (d : Dir) (ts : List CTest) : Except Fault Dir :=
  match ts with
  | [] => .error .panic
  | t :: _ =>
    match d (fileOf t) with
    | none => .error .exit
    | some text => .ok (d.put (fileOf t) (some (updateLoop (scanLines text) 0 ts)))

/-- What a test run depends on: the commands and the text of a difference between expected and actual. -/
structure TestEnv where
  aliases : Str → Bool
  run : Nat → List Str → Except Fault Str
  diff : Str → Str → Str

/-- The variables of the loop of `execute`: what is written to `f`, the tests to update, success, the last file, and the files. -/
structure TestRun where
  out : List Str
  toUpdate : List CTest
  success : Bool
  last : Str
  files : Dir

/-- `if len(toUpdate) > 0 { updateTestFile(toUpdate) }` (cmd/coin/test.go:59-62, 113-115). -/
def TestRun.flush (s : TestRun) : Except Fault TestRun :=
  if s.toUpdate = [] then .ok s else (updateTestFile s.files s.toUpdate).bind fun d => .ok { s with toUpdate := [], files := d }

/-- The summary at the end (cmd/coin/test.go:113-121). -/
def testEnd (verbose : Bool) (s : TestRun) : Except Fault TestRun :=
  s.flush.bind fun s => .ok (if verbose then s else { s with out := s.out ++ [(if s.success then str "OK" else str "FAIL") ++ ' ' :: s.last ++ ['\n']] })

/-- What happens with the output of a test (cmd/coin/test.go:87-110); `old` is `oldTestFile`. -/
def testVerdict (env : TestEnv) (verbose : Bool) (old : Str) (s : TestRun) (t : CTest) (b : Str) : TestRun :=
  if t.result = [] then { s with toUpdate := s.toUpdate ++ [{ t with result := b }] }
  else if b = t.result then
    if verbose then { s with out := s.out ++ [str "OK " ++ t.location ++ ' ' :: t.cmd ++ ['\n']] }
    else if old ≠ [] then { s with out := s.out ++ [str "OK " ++ old ++ ['\n']] }
    else s
  else { s with success := false, out := s.out ++ [str "FAIL " ++ t.location ++ ' ' :: t.cmd ++ ['\n'] ++ env.diff t.result b] }

/-- Moving on to the file of the next test (cmd/coin/test.go:52-62). -/
def testMove (s : TestRun) (t : CTest) : Except Fault TestRun :=
  if fileOf t ≠ s.last then { s with last := fileOf t }.flush else .ok s

/-- The loop of `execute` (cmd/coin/test.go:49-122); `k` counts the tests executed. A test without command or with an unknown one ends
it without summary and without updates (cmd/coin/test.go:69-80). -/
def testLoopRun (env : TestEnv) (verbose : Bool) : Nat → TestRun → List CTest → Except Fault TestRun
  | _, s, [] => testEnd verbose s
  | k, s, t :: ts =>
    (testMove s t).bind fun s' =>
    match scanWords [] t.cmd with
    | [] => .ok s'
    | w :: ws =>
      if env.aliases w then
        (env.run k (w :: ws)).bind fun b =>
          testLoopRun env verbose (k + 1) (testVerdict env verbose (if fileOf t ≠ s.last then s.last else []) s' t b) ts
      else .ok s'

/-- `(*cmdTest).execute` (cmd/coin/test.go:43-122). -/
def testExecute (env : TestEnv) (verbose : Bool) (d : Dir) (ts : List CTest) : Except Fault TestRun :=
  match ts with
  | [] => .ok ⟨[], [], true, [], d⟩
  | t :: _ => testLoopRun env verbose 0 ⟨[], [], true, fileOf t, d⟩ ts

/-- The tests of one text with their positions: the walk of `Load` (coin.go:96-135), where the line number of a test is that of its first
line (parser.go:25-31, test.go:21). `total` is the number of lines of the text. Includes are not followed. -/
def locateTests (today : Today) (fn : Str) (total : Nat) : Nat → LoadState → List Str → List CTest
  | 0, _, _ => []
  | n + 1, st, lines =>
    match next ⟨today, st.lookup, st.dflt⟩ lines with
    | .error _ => []
    | .ok (none, _) => []
    | .ok (some i, rest) =>
      (match i.1 with
      | .test cmd result => [⟨cmd, result, total + 1 - (lines.dropWhile (fun l => isBlank l || isComment l)).length, fn⟩]
      | _ => []) ++
      match storeItem st i with
      | .error _ => []
      | .ok st => locateTests today fn total n st rest

/-- The tests of a file, as `Load` collects them in `Tests`. -/
def testsOf (today : Today) (fn : Str) (st : LoadState) (text : Str) : List CTest :=
  locateTests today fn (scanLines text).length ((scanLines text).length + 1) st (scanLines text)

end Verif
