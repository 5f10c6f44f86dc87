import Verif.Go.Basic
/-
Model of amount.go, pow10.go and the commodity conversion of commodity.go.
-/
namespace Verif

/-- `*Commodity` (commodity.go:22-38). `ref` stands for the pointer identity, so that pointer comparison is
structural equality; only the fields used by arithmetic and printing are kept here
(name, code, market flag and symbol are in `Model/Ledger.lean`, prices in `PriceDB`). -/
structure Com where
  ref : Nat
  id : Str
  decimals : Nat
  deriving DecidableEq, Repr, Inhabited

/-- `Amount` (amount.go:15-18). -/
structure Amount where
  int : Int
  com : Com
  deriving DecidableEq, Repr, Inhabited

/-! ### pow10.go -/

/-- Contents of the `log10s` table (pow10.go:18-24): `log10s[i] = 10^(i+1)`, 18 entries. -/
def log10s (i : Nat) : Nat := 10 ^ (i + 1)

/-- `log10` (pow10.go:35-50). -/
def log10 (i : Int) : Nat :=
  if i < 10 then 0
  else if i < 100 then 1
  else if i < 1000 then 2
  else if i < 10000 then 3
  else search 18 (fun j => decide (i < (log10s j : Int)))

/-- `pow10` (pow10.go:52-57): index out of range panics. -/
def pow10 (i : Int) : Except Fault Int :=
  if i < 1 then .ok 1
  else if i - 1 < 18 then .ok (log10s (i - 1).toNat) else .error .panic

/-- `bigPow10s` table (pow10.go:25-32): `bigPow10s[i] = 10^(i+1)`, 50 entries. -/
def bigPow10s (i : Nat) : Nat := 10 ^ (i + 1)

/-- `bigPow10` (pow10.go:68-73) on non-negative arguments: index out of range panics. -/
def bigPow10 (i : Nat) : Except Fault Nat :=
  if i < 1 then .ok 1
  else if i - 1 < 50 then .ok (bigPow10s (i - 1)) else .error .panic

/-- The loop of `bigLog10` (pow10.go:59-66), scanning the table from index `i` with `n` entries left. -/
def bigLog10Loop (x : Nat) : Nat → Nat → Except Fault Nat
  | _, 0 => .error .panic
  | i, n + 1 => if x < bigPow10s i then .ok i else bigLog10Loop x (i + 1) n

/-- `bigLog10` (pow10.go:59-66); compares absolute values. -/
def bigLog10 (x : Int) : Except Fault Nat := bigLog10Loop x.natAbs 0 50

/-- `(*Commodity).SetFraction` (commodity.go:234-236). -/
def Com.setFraction (c : Com) (frac : Int) : Com := { c with decimals := log10 frac }

/-! ### amount.go -/

/-- `NewAmountFrac` (amount.go:20-27). `big.Int.Div` is Euclidean division and panics on zero. -/
def newAmountFrac (num den : Int) (c : Com) : Except Fault Amount :=
  (if c.decimals > 0 then (fun (p : Nat) => num * (p : Int)) <$> bigPow10 c.decimals else .ok num).bind fun b =>
  if den = 0 then .error .panic else .ok ⟨b / den, c⟩

/-- `NewZeroAmount` (amount.go:29-31). -/
def zeroAmount (c : Com) : Amount := ⟨0, c⟩

/-- `(*Amount).String` (amount.go:41-45). -/
def Amount.string (a : Amount) : Except Fault Str := do
  let p ← bigPow10 a.com.decimals
  return floatString a.int p a.com.decimals

/-- Padding as done by `%*s` / `%-*s` (fmt pads by rune count). -/
def padLeft (w : Nat) (s : Str) : Str := rep (w - s.length) ' ' ++ s
def padRight (w : Nat) (s : Str) : Str := s ++ rep (w - s.length) ' '

/-- `(*Amount).Format` (amount.go:48-72) for the verbs used by the code: optional precision, optional width,
no flags. -/
def Amount.format (a : Amount) (width : Option Nat) (prec : Option Nat) : Except Fault Str := do
  let p ← bigPow10 a.com.decimals
  let s := floatString a.int p (prec.getD a.com.decimals)
  return match width with
    | some w => padLeft w s
    | none => s

/-- `parseAmount` (amount.go:74-103). -/
def parseAmount (s : Str) (c : Com) : Except Fault Amount :=
  match splitOn '.' s with
  | [i] =>
      (parseInt64 i).bind fun v =>
      if c.decimals > 0 then
        (bigPow10 c.decimals).bind fun p => .ok ⟨v * (p : Int), c⟩
      else .ok ⟨v, c⟩
  | [i, f] =>
      (parseInt64 (i ++ f)).bind fun v =>
      -- `len(ss[1])`; after ParseInt succeeded these are ASCII, so bytes = characters
      if c.decimals ≠ f.length then
        (bigPow10 c.decimals).bind fun p => (bigPow10 f.length).bind fun q =>
        .ok ⟨v * (p : Int) / (q : Int), c⟩
      else .ok ⟨v, c⟩
  | _ => .error .err

/-- `(*Amount).adjustedTo` (amount.go:110-118): `b` rescaled to the decimals of `a`; `Quo` truncates.
The power index is below 50 whenever both commodities have at most 50 decimals; the panic otherwise is modelled. -/
def Amount.adjustedTo (b a : Amount) : Except Fault Int :=
  if b.com.decimals < a.com.decimals then
    (fun (p : Nat) => b.int * (p : Int)) <$> bigPow10 (a.com.decimals - b.com.decimals)
  else if a.com.decimals < b.com.decimals then
    (fun (p : Nat) => Int.tdiv b.int (p : Int)) <$> bigPow10 (b.com.decimals - a.com.decimals)
  else .ok b.int

/-- `(*Amount).Times` (amount.go:131-137): product truncated to the decimals of `a`, in the commodity of `a`. -/
def Amount.times (a b : Amount) : Except Fault Amount :=
  (fun (p : Nat) => ⟨Int.tdiv (a.int * b.int) (p : Int), a.com⟩) <$> bigPow10 b.com.decimals

/-- `(*Amount).IsZero` (amount.go:139-141); `none` is the nil pointer. -/
def isZero : Option Amount → Bool
  | none => true
  | some a => decide (a.int = 0)

/-- `big.Int.Cmp`. -/
def intCmp (x y : Int) : Int := if x < y then -1 else if x = y then 0 else 1

/-- `(*Amount).Cmp` (amount.go:146-148). -/
def Amount.cmp (a b : Amount) : Except Fault Int := do
  let b' ← b.adjustedTo a
  return intCmp a.int b'

/-- `IsEqual`, `IsLessThan`, `IsMoreThan` (amount.go:143-145). -/
def Amount.isEqual (a b : Amount) : Except Fault Bool := (fun r => decide (r = 0)) <$> a.cmp b
def Amount.isLessThan (a b : Amount) : Except Fault Bool := (fun r => decide (r < 0)) <$> a.cmp b
def Amount.isMoreThan (a b : Amount) : Except Fault Bool := (fun r => decide (r > 0)) <$> a.cmp b

/-- `(*Amount).CmpMagnitude` (amount.go:150-158). -/
def Amount.cmpMagnitude (a b : Amount) : Int := intCmp a.int.natAbs b.int.natAbs

/-- `IsBigger`, `IsSmaller` (amount.go:154-155). -/
def Amount.isBigger (a b : Amount) : Bool := decide (a.cmpMagnitude b > 0)
def Amount.isSmaller (a b : Amount) : Bool := decide (a.cmpMagnitude b < 0)

/-- `(*Amount).Negated` (amount.go:168-173). -/
def Amount.negated (a : Amount) : Amount := ⟨-a.int, a.com⟩

/-- `(*Amount).Copy` (amount.go:37-39). -/
def Amount.copy (a : Amount) : Amount := ⟨a.int, a.com⟩

/-- `(*Amount).Width` (amount.go:183-196). -/
def Amount.width (a : Amount) (decimals : Nat) : Except Fault Int := do
  let l ← bigLog10 a.int
  let w : Int := (l : Int) + 1
  let w := if w ≤ (a.com.decimals : Int) then (a.com.decimals : Int) + 1 else w
  let w := w - a.com.decimals + decimals
  let w := if decimals > 0 then w + 1 else w
  return if a.int < 0 then w + 1 else w

/-! ### Prices and conversion (commodity.go, price.go) -/

/-- `Price` (price.go:13-23): value and date (day number) of a price. Commodity and currency are the keys of the
maps it is stored under. -/
structure Price where
  value : Amount
  time : Int
  deriving DecidableEq, Repr, Inhabited

/-- `Commodity.Prices` (commodity.go:31) for every commodity: the association list from currency to price list.
The order of the list is the iteration order of the Go map and is not meaningful;
see `MapOrder`. -/
abbrev PriceDB := Com → List (Com × List Price)

/-- `c2.Prices[c]`: nil when missing. -/
def lookupPrices (l : List (Com × List Price)) (c : Com) : Option (List Price) :=
  (l.find? (fun e => decide (e.1 = c))).map (·.2)

/-- The order in which `for c3, prices := range c2.Prices` (commodity.go:210) enumerates the map may differ at each
call; it is given by a function of the call (the path walked so far and the commodity). -/
abbrev MapOrder := List Com → Com → List (Com × List Price)

/-- Every enumeration is a permutation of the map. -/
def MapOrder.Valid (ord : MapOrder) (db : PriceDB) : Prop := ∀ prev c, (ord prev c).Perm (db c)

/-- The `range` loop of `convert` (commodity.go:210-223): the remaining entries are tried in order;
the first success is returned, errors are skipped, panics propagate. `sub val2 c3` is the recursive call
`c.convert(val2, c3, append(previous, c2))`. -/
def convertLoop (sub : Amount → Com → Option (Except Fault Amount)) (amount : Amount) (previous : List Com) :
    List (Com × List Price) → Option (Except Fault Amount)
  | [] => some (.error .err)
  | (c3, prices) :: rest =>
    if c3 ∈ previous then convertLoop sub amount previous rest
    else match prices with
      | [] => some (.error .panic)
      | p :: _ =>
        match amount.times p.value with
        | .error e => some (.error e)
        | .ok val2 =>
          match sub val2 c3 with
          | none => none
          | some (.ok v) => some (.ok v)
          | some (.error .err) => convertLoop sub amount previous rest
          | some (.error f) => some (.error f)

/-- `(*Commodity).convert` (commodity.go:197-224). The first argument bounds the recursion depth; `none` means it ran out
(the real function has no such bound – that it can always be chosen large enough is theorem C12). -/
def convertF (db : PriceDB) (ord : MapOrder) (c : Com) : Nat → Amount → Com → List Com → Option (Except Fault Amount)
  | 0, _, _, _ => none
  | fuel + 1, amount, c2, previous =>
    if c = c2 then some (.ok amount)
    else match lookupPrices (db c2) c with
      | some (p :: _) => some (amount.times p.value)
      | some [] => some (.error .panic)
      | none => convertLoop (fun v c3 => convertF db ord c fuel v c3 (previous ++ [c2])) amount previous (ord previous c2)

/-- `(*Commodity).Convert` (commodity.go:184-186) with a recursion bound. -/
def convert (db : PriceDB) (ord : MapOrder) (c : Com) (amount : Amount) (c2 : Com) (fuel : Nat) :
    Option (Except Fault Amount) := convertF db ord c fuel amount c2 []

/-- Outcome of `c.Convert(b, b.Commodity)` as used by `AddIn` (amount.go:122). Running out of recursion bound is
reported as `Fault.loop`; C12 proves that this cannot happen for a large enough bound. -/
def convWith (db : PriceDB) (ord : MapOrder) (fuel : Nat) : Com → Amount → Except Fault Amount :=
  fun c b => (convert db ord c b b.com fuel).getD (.error .loop)

/-- `(*Amount).AddIn` (amount.go:120-129): returns the new value of the receiver (mutated in place in Go).
`conv` is the outcome of `a.Commodity.Convert(b, b.Commodity)`. On error the receiver is unchanged. -/
def Amount.addIn (conv : Com → Amount → Except Fault Amount) (a b : Amount) : Except Fault Amount :=
  (if a.com ≠ b.com then conv a.com b else .ok b).bind fun b' =>
  (b'.adjustedTo a).bind fun x =>
  .ok ⟨a.int + x, a.com⟩

/-- The receiver after a call of `AddIn`, whether it failed or not (amount.go:120-129 only writes on success). -/
def Amount.addInState (conv : Com → Amount → Except Fault Amount) (a b : Amount) : Amount × Option Fault :=
  match a.addIn conv b with
  | .ok a' => (a', none)
  | .error e => (a, some e)

/-- Adding a sequence of amounts, stopping at the first error (the pattern `for … { err := total.AddIn(q); check.NoError(err) }`). -/
def sumInto (conv : Com → Amount → Except Fault Amount) : Amount → List Amount → Except Fault Amount
  | t, [] => .ok t
  | t, q :: qs => do sumInto conv (← t.addIn conv q) qs

end Verif
