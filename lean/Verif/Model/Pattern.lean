import Verif.Model.Accounts
import Verif.Model.Parser
/-
Model of account patterns: `ToRegex` (coin.go:322-345) for patterns of plain words. A pattern's words are regular expressions written
by the user; only patterns made of letters, digits, `_`, `/`, `-` and `:` (characters that mean themselves), optionally with `^` at the
beginning and `$` at the end, are modelled.
-/
namespace Verif

/-- ASCII lower case. -/
def lowerA (c : Char) : Char := if 65 ≤ c.toNat ∧ c.toNat ≤ 90 then Char.ofNat (c.toNat + 32) else c

/-- `(?i)c`: equal up to case; the long s and the Kelvin sign fold to s and k. -/
def foldEq (c x : Char) : Bool :=
  decide (lowerA x = lowerA c) || (decide (lowerA c = 's') && decide (x = '\u017f')) || (decide (lowerA c = 'k') && decide (x = '\u212a'))

/-- `[\w/_-]` under `(?i)` (coin.go:324). -/
def isNameFold (c : Char) : Bool := isNameChar c || decide (c = '\u017f') || decide (c = '\u212a')

/-- A plain word under `(?i)`. -/
def wordRe : Str → Re
  | [] => .eps
  | c :: w => .seq (if c = '$' then .eot else .cls (foldEq c)) (wordRe w)

/-- `multiple` (coin.go:323). -/
def multipleRe : Re := .star (.cls fun c => isNameFold c || decide (c = ':'))
/-- `single` (coin.go:324). -/
def singleRe : Re := .cat [.star (.cls isNameFold), .ch ':', .star (.cls isNameFold)]

/-- The loop of `ToRegex` (coin.go:329-342). -/
def toRegexLoop : Re → Bool → List Str → Re
  | rx, _, [] => rx
  | rx, wordLast, w :: ws =>
    if w = [] then toRegexLoop (if wordLast then .seq rx multipleRe else rx) false ws
    else toRegexLoop (.seq (if wordLast then .seq rx singleRe else rx) (wordRe w)) true ws

/-- `ToRegex` (coin.go:322-345). -/
def toRegex (pattern : Str) : Re :=
  match splitOn ':' pattern with
  | [] => .eps
  | w :: ws => toRegexLoop (wordRe w) true ws

/-- `MatchString`; `^` lets the match begin only at the beginning. -/
def patternMatches (pattern name : Str) : Bool :=
  match pattern with
  | '^' :: pattern => ((toRegex pattern).matchAt name).isSome
  | _ => ((toRegex pattern).find name).isSome

end Verif
