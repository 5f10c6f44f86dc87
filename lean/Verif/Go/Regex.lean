import Verif.Go.Basic
/-
Go's `regexp` package for the operators the code uses: leftmost-first ("Perl-like") matching with greedy `*`, `+`, `?`,
ordered alternation, named groups and `$`. A matcher is written in continuation passing style, so that alternatives are tried in the
order a backtracking matcher tries them; the package documents that it returns the match such a matcher would find first.
Texts are character sequences (valid UTF-8).
-/
namespace Verif

/-- Regular expressions. Unnamed groups are not kept. -/
inductive Re
  | eps
  | cls (p : Char → Bool)
  | seq (a b : Re)
  | alt (a b : Re)
  | star (a : Re)
  | grp (name : Str) (a : Re)
  | eot

/-- Captured groups, latest first. -/
abbrev Caps := List (Str × Str)

/-- `match[name]`: "" when the group is not there or did not take part (rex/rex.go:36-59). -/
def Caps.get (c : Caps) (n : Str) : Str :=
  match c.find? (fun e => decide (e.1 = n)) with
  | some e => e.2
  | none => []

/-- A continuation: what remains to be matched, and the groups so far. -/
abbrev ReK := Str → Caps → Option (Caps × Str)

/-- First result of two alternatives. -/
def orElse {α} (a : Option α) (b : Option α) : Option α := match a with | some x => some x | none => b

/-- Greedy repetition; an iteration must consume something. The first number bounds the iterations (the length of the text). -/
def starLoop (m : ReK → ReK) (k : ReK) : Nat → ReK
  | 0, s, c => k s c
  | n + 1, s, c => orElse (m (fun s' c' => if s'.length < s.length then starLoop m k n s' c' else none) s c) (k s c)

/-- Matching with a continuation. -/
def Re.run : Re → ReK → ReK
  | .eps, k, s, c => k s c
  | .cls p, k, s, c => match s with | x :: s => if p x then k s c else none | [] => none
  | .seq a b, k, s, c => a.run (b.run k) s c
  | .alt a b, k, s, c => orElse (a.run k s c) (b.run k s c)
  | .star a, k, s, c => starLoop a.run k s.length s c
  | .grp n a, k, s, c => a.run (fun s' c' => k s' ((n, s.take (s.length - s'.length)) :: c')) s c
  | .eot, k, s, c => if s = [] then k s c else none

/-- The final continuation. -/
def reDone : ReK := fun s c => some (c, s)

/-- A match beginning at the start of the text: groups and the text after the match. -/
def Re.matchAt (r : Re) (s : Str) : Option (Caps × Str) := r.run reDone s []

/-- `FindSubmatch`: the leftmost match: text before it, groups, text after it. -/
def Re.find (r : Re) : Str → Option (Str × Caps × Str)
  | [] => (r.matchAt []).map (fun m => ([], m.1, m.2))
  | x :: s =>
    match r.matchAt (x :: s) with
    | some m => some ([], m.1, m.2)
    | none => (r.find s).map (fun m => (x :: m.1, m.2.1, m.2.2))

/-- `(*rex.Exp).Match` (rex/rex.go:36-59): the groups of the leftmost match, nil if there is none. A group name used several times is
numbered in order of occurrence; the expressions of the model carry the numbered names. -/
def Re.matches (r : Re) (s : Str) : Option Caps := (r.find s).map (·.2.1)

/-- `FindAllStringSubmatch` for expressions that do not match the empty text: matches from left to right, not overlapping. The number
bounds the matches (the length of the text). -/
def Re.findAll (r : Re) : Nat → Str → List Caps
  | 0, _ => []
  | n + 1, s => match r.find s with | none => [] | some m => m.2.1 :: r.findAll n m.2.2

/-! ### Derived expressions -/

/-- One given character. -/
def Re.ch (c : Char) : Re := .cls (fun x => decide (x = c))
/-- A literal text. -/
def Re.lit : Str → Re
  | [] => .eps
  | [c] => .ch c
  | c :: s => .seq (.ch c) (Re.lit s)
def Re.opt (a : Re) : Re := .alt a .eps
def Re.plus (a : Re) : Re := .seq a (.star a)
/-- Several in a row. -/
def Re.cat : List Re → Re
  | [] => .eps
  | [a] => a
  | a :: l => .seq a (Re.cat l)

/-- `\d`, `\w`, `\s` (ASCII classes), `.`. -/
def isAlpha (c : Char) : Bool := (decide (65 ≤ c.toNat) && decide (c.toNat ≤ 90)) || (decide (97 ≤ c.toNat) && decide (c.toNat ≤ 122))
def isWord (c : Char) : Bool := isAlpha c || isDigit c || decide (c = '_')
def isWs (c : Char) : Bool := decide (c = ' ') || decide (c = '\t') || decide (c = '\n') || decide (c = '\x0c') || decide (c = '\r')
def Re.digit : Re := .cls isDigit
def Re.word : Re := .cls isWord
def Re.ws : Re := .cls isWs
def Re.notWs : Re := .cls (fun c => !isWs c)
def Re.any : Re := .cls (fun c => decide (c ≠ '\n'))

end Verif
