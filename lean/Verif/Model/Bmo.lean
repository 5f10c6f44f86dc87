import Verif.Go.Basic
/-
Model of cmd/ofx2coin/bmo.go: the reader that repairs the statements of one bank.

The underlying `bufio.Reader` is the list of what remains of the text, cut at line feeds: complete lines, without their line feed, and
last the text after the last line feed. Characters stand for bytes: the reader only compares whole lines and copies.
-/
namespace Verif

/-- `ignore` (bmo.go:18-21). -/
def bmoIgnore : List Str := [str "<BANKMSGSET><BANKMSGSETV1>\n", str "<BANKMSGSETV1><BANKMSGSET>\n"]

/-- `bmoReader` (bmo.go:28-35). -/
structure Bmo where
  src : List Str
  lastLine : Str
  reachedHeader : Bool
  reachedBody : Bool
  emptyLineAfterHeader : Bool
  deriving DecidableEq, Repr

/-- The loop of `Read` (bmo.go:39-70): the state once a line is chosen, and whether an empty line is returned first (bmo.go:55-58).
`ReadBytes` fails on a line without line feed, and the loop ends with that error (bmo.go:42-44). -/
def bmoLoop (header body empty : Bool) : List Str → Option (Bool × Bmo)
  | [] => none
  | [_] => none
  | l :: next :: rest =>
    if !header && decide (l ++ ['\n'] = ['\n']) then bmoLoop header body empty (next :: rest)
    else if !body then
      if l ++ ['\n'] = str "<OFX>\n" then some (!empty, ⟨next :: rest, l ++ ['\n'], true, true, empty⟩)
      else some (false, ⟨next :: rest, l ++ ['\n'], true, body, empty || decide (l ++ ['\n'] = ['\n'])⟩)
    else if bmoIgnore.contains (l ++ ['\n']) then bmoLoop true body empty (next :: rest)
    else some (false, ⟨next :: rest, l ++ ['\n'], true, body, empty⟩)

/-- The end of `Read` (bmo.go:72-74): as much of the line as fits. -/
def bmoCopy (p : Nat) (r : Bmo) : Str × Bmo := (r.lastLine.take p, { r with lastLine := r.lastLine.drop p })

/-- `Read` (bmo.go:37-75) into a buffer of length `p`; none is the end of the file. -/
def bmoRead (p : Nat) (r : Bmo) : Option (Str × Bmo) :=
  if r.lastLine = [] then
    match bmoLoop r.reachedHeader r.reachedBody r.emptyLineAfterHeader r.src with
    | none => none
    | some (true, r) => some (['\n'].take p, r)
    | some (false, r) => some (bmoCopy p r)
  else some (bmoCopy p r)

/-- `newBMOReader` (bmo.go:24-26). -/
def newBmo (text : Str) : Bmo := ⟨splitOn '\n' text, [], false, false, false⟩

/-- Reading everything (`io.ReadAll` or any other caller that reads up to the end of the file) with the `k`-th buffer of length
`size k`. The first number bounds the calls. -/
def bmoReadAll (size : Nat → Nat) : Nat → Nat → Bmo → Option Str
  | 0, _, _ => none
  | n + 1, k, r => match bmoRead (size k) r with
    | none => some []
    | some (s, r) => (bmoReadAll size n (k + 1) r).map (s ++ ·)

end Verif
