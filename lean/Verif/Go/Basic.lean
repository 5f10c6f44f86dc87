/-
Go library semantics used throughout the model: strings, decimal numerals, `strconv.ParseInt`,
`sort.Search`, `sort.Find`, and the ways a Go program can stop.
Everything here describes Go's standard library (go1.21+), not the repository.
-/
namespace Verif

/-- Go strings / byte slices, as sequences of characters. -/
abbrev Str := List Char

/-- Number of bytes of the UTF-8 encoding (`len(s)` in Go). -/
def blen (s : Str) : Nat := (s.map Char.utf8Size).sum

/-- String literal as a character list (reducible, so that `decide` and `simp` can compute it). -/
abbrev str (s : String) : Str := s.toList

/-- How a computation can end other than by returning normally:
`err` – a returned non-nil `error`; `panic` – a Go panic (including nil dereference and index out of range);
`exit` – `os.Exit(1)` through `check.If`/`check.NoError`; `loop` – the call does not return (stack overflow). -/
inductive Fault
  | err | panic | exit | loop
  deriving DecidableEq, Repr, Inhabited

deriving instance DecidableEq for Except

/-! ### Decimal numerals -/

/-- The character for a decimal digit. -/
def digitChar (d : Nat) : Char := Char.ofNat (48 + d)

/-- Value of a digit character. -/
def digitVal (c : Char) : Nat := c.toNat - 48

/-- `'0' <= c && c <= '9'` -/
def isDigit (c : Char) : Bool := decide (48 ≤ c.toNat) && decide (c.toNat ≤ 57)

/-- Decimal representation of a natural number without leading zeros (`nat.utoa(10)`). -/
def natStr (n : Nat) : Str :=
  if n < 10 then [digitChar n] else natStr (n / 10) ++ [digitChar (n % 10)]
termination_by n
decreasing_by omega

/-- Value of a digit string. -/
def strNat (s : Str) : Nat := s.foldl (fun a c => a * 10 + digitVal c) 0

/-- The `k` low decimal digits of `n`, zero padded. -/
def padDigits : Nat → Nat → Str
  | 0, _ => []
  | k + 1, n => padDigits k (n / 10) ++ [digitChar (n % 10)]

/-- `n` spaces (or any other repeated character): `strings.Repeat`. -/
def rep (n : Nat) (c : Char) : Str := List.replicate n c

/-- `math/big` `(*Rat).FloatString(prec)` of the rational `num/den` (`den > 0`):
rounds half away from zero; the sign is printed whenever the numerator is negative.
(The library first reduces to lowest terms; quotient and rounding are invariant under reduction.) -/
def floatString (num : Int) (den : Nat) (prec : Nat) : Str :=
  let a := num.natAbs
  let q := a / den
  let r := a % den
  let p := 10 ^ prec
  let r1 := r * p / den
  let r2 := r * p % den
  let up := decide (den ≤ r2 + r2)
  let r3 := if up then r1 + 1 else r1
  let carry := up && decide (p ≤ r3)
  let q' := if carry then q + 1 else q
  let r' := if carry then r3 - p else r3
  (if num < 0 then ['-'] else []) ++ natStr q' ++
    (if prec > 0 then
      '.' :: (rep (prec - (natStr r').length) '0' ++ natStr r') else [])

/-- `strconv.ParseInt(s, 10, 64)`: optional sign, at least one digit, nothing else, 64-bit range. -/
def parseInt64 (s : Str) : Except Fault Int :=
  let (neg, ds) := match s with
    | '-' :: t => (true, t)
    | '+' :: t => (false, t)
    | t => (false, t)
  if ds = [] then .error .err
  else if ds.all isDigit then
    let n := strNat ds
    if neg then (if n ≤ 2 ^ 63 then .ok (-(n : Int)) else .error .err)
    else (if n < 2 ^ 63 then .ok (n : Int) else .error .err)
  else .error .err

/-- `strings.Split(s, sep)` for a one-character separator. -/
def splitOn (sep : Char) : Str → List Str
  | [] => [[]]
  | c :: cs =>
    if c = sep then [] :: splitOn sep cs
    else match splitOn sep cs with
      | [] => [[c]]
      | h :: t => (c :: h) :: t

/-- `strings.Join(parts, sep)`. -/
def joinWith (sep : Str) : List Str → Str
  | [] => []
  | [a] => a
  | a :: b :: t => a ++ sep ++ joinWith sep (b :: t)

/-! ### sort.Search and sort.Find -/

/-- The loop of `sort.Search` (sort/search.go): invariant interval `[i, j)`. -/
def searchLoop (f : Nat → Bool) (i j : Nat) : Nat :=
  if h : i < j then
    let m := (i + j) / 2
    if f m then searchLoop f i m else searchLoop f (m + 1) j
  else i
termination_by j - i
decreasing_by all_goals omega

/-- `sort.Search(n, f)`. -/
def search (n : Nat) (f : Nat → Bool) : Nat := searchLoop f 0 n

/-- `sort.Find(n, cmp)`: binary search for the first index with `cmp ≤ 0`. -/
def find (n : Nat) (cmp : Nat → Int) : Nat × Bool :=
  let i := searchLoop (fun h => decide (¬ cmp h > 0)) 0 n
  (i, decide (i < n) && decide (cmp i = 0))

end Verif
