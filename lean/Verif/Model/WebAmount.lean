import Verif.Model.Amount
/-
Model of the numbers of the page produced by coin2html: `Amount.MarshalJSON` (amount.go) and the class `Amount` of
cmd/coin2html/js/src/commodity.ts.

A JavaScript number is an IEEE double. Amount values are integers; every operation on them is rounded by `dbl` / `fl`
(53 bits, to nearest, ties to even; overflow to infinity and subnormal numbers are not modelled).
A JavaScript commodity is identified by its id (one object per id, commodity.ts:316-327), so `Com` is reused.
-/
namespace Verif

/-! ### JavaScript numbers -/

/-- Quotient rounded to the nearest integer, ties to even. -/
def quoEven (n : Int) (m : Nat) : Int :=
  let q := n / (m : Int)
  let r := n % (m : Int)
  if 2 * r < m then q else if (m : Int) < 2 * r then q + 1 else if q % 2 = 0 then q else q + 1

/-- The double nearest to the rational `n / m` (`m > 0`), as a fraction: the numerator is scaled so that the quotient has
53 binary digits. -/
def fl (n : Int) (m : Nat) : Int × Nat :=
  if n = 0 then (0, 1)
  else
    let a := n.natAbs
    let la := Nat.log2 a
    let lm := Nat.log2 m
    if la ≤ 52 + lm then
      let k := 52 + lm - la
      let k := if a * 2 ^ k < 2 ^ 52 * m then k + 1 else k
      (quoEven (n * 2 ^ k) m, 2 ^ k)
    else
      let s := la - lm - 52
      let s := if a < 2 ^ 52 * m * 2 ^ s then s - 1 else s
      (quoEven n (m * 2 ^ s) * 2 ^ s, 1)

/-- An integer result rounded to a double. -/
def dbl (n : Int) : Int := (fl n 1).1 / ((fl n 1).2 : Int)

/-- `Math.round`: to the nearest integer, halves up. -/
def mathRound (x : Int × Nat) : Int := (2 * x.1 + (x.2 : Int)) / (2 * (x.2 : Int))

/-- `parseInt(s)` on text without leading blanks or a `0x` prefix: optional sign, then the longest run of digits; `none` is
NaN. -/
def jsParseInt (s : Str) : Option Int :=
  let (neg, t) := match s with
    | '-' :: t => (true, t)
    | '+' :: t => (false, t)
    | t => (false, t)
  let ds := t.takeWhile isDigit
  if ds = [] then none else some (dbl (if neg then -(strNat ds : Int) else (strNat ds : Int)))

/-- `s.replace(",", "")` with a string pattern: only the first occurrence is replaced. -/
def dropFirst (c : Char) : Str → Str
  | [] => []
  | x :: s => if x = c then s else x :: dropFirst c s

/-! ### The page's amounts -/

/-- `(*Amount).MarshalJSON` (amount.go:198-200), the text inside the quotes: `fmt.Sprintf("%.*f %s", ...)`. -/
def amountJson (a : Amount) : Except Fault Str :=
  (a.format none (some a.com.decimals)).bind fun s => .ok (s ++ [' '] ++ a.com.id)

/-- `Amount.parse` (commodity.ts:173-193); `find` is `Commodities[id]`. An unknown commodity or a wrong number of words
throws; a value that is not a number (NaN in the original) is reported as an error as well. -/
def wParse (find : Str → Option Com) (input : Str) : Except Fault Amount :=
  match splitOn ' ' input with
  | [num, id] =>
    match find id with
    | none => .error .err
    | some c =>
      let int := (splitOn '.' num).getD 0 []
      let dec := (splitOn '.' num).getD 1 []
      let text :=
        if c.decimals > 0 then
          dropFirst ',' int ++
            (if dec.length > c.decimals then dec.take c.decimals else dec ++ rep (c.decimals - dec.length) '0')
        else int
      match jsParseInt text with
      | none => .error .err
      | some v => .ok ⟨v, c⟩
  | _ => .error .err

/-- The loop of `triplets` (commodity.ts:352-360) going down from `stop`; `fuel` bounds the number of rounds. -/
def tripletsLoop (s : Str) : Nat → Nat → List Str → List Str
  | 0, _, acc => acc
  | fuel + 1, stop, acc =>
    if stop = 0 then acc else tripletsLoop s fuel (stop - 3) ((s.take stop).drop (stop - 3) :: acc)

/-- `triplets` (commodity.ts:352-360). -/
def triplets (s : Str) : List Str := tripletsLoop s s.length s.length []

/-- `Amount.toString` (commodity.ts:194-210). Numbers are printed in full (JavaScript switches to exponents at 10^21, far
above the exactly represented integers). -/
def wString (sep : Bool) (a : Amount) : Str :=
  let s := natStr a.int.natAbs
  let d := a.com.decimals
  let s :=
    if d > 0 then
      let s := if s.length < d then rep (d - s.length + 1) '0' ++ s else s
      let intPart := s.take (s.length - d)
      let t := (if sep then joinWith [','] (triplets intPart) else intPart) ++ ['.'] ++ s.drop (s.length - d)
      if t.head? = some '.' then '0' :: t else t
    else s
  (if a.int < 0 then ['-'] else []) ++ s ++ [' '] ++ a.com.id

/-- `Amount.convertTo` (commodity.ts:221-227) for a price value `p`; `10 ** decimals` is exact up to 22 decimals. -/
def wConvertTo (a p : Amount) : Amount :=
  ⟨mathRound (fl (dbl (a.int * p.int)) (10 ^ a.com.decimals)), p.com⟩

/-- `Amount.reciprocal` (commodity.ts:236-239) of a non-zero amount; a zero amount gives Infinity, reported as a fault. -/
def wReciprocal (a : Amount) (decimals : Nat) : Except Fault Int :=
  if a.int = 0 then .error .panic
  else
    let r := fl (if a.int < 0 then -((10 ^ a.com.decimals : Nat) : Int) else ((10 ^ a.com.decimals : Nat) : Int)) a.int.natAbs
    .ok (mathRound (fl (r.1 * ((10 ^ decimals : Nat) : Int)) r.2))

/-- `Amount.cmp` (commodity.ts:228-235) with `absolute`; comparing different commodities throws. Only the sign matters. -/
def wCmpAbs (a b : Amount) : Except Fault Int :=
  if a.com ≠ b.com then .error .err else .ok ((a.int.natAbs : Int) - (b.int.natAbs : Int))

end Verif
