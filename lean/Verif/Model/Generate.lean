import Verif.Model.Date
import Verif.Go.Sort
/-
Model of cmd/gen2coin: dates.go, rule.go, and the parts of main.go that order and split the transactions.

Times are seconds (second 0 is 0001/01/01 00:00), all in UTC: `begin` and `end` may have different times of day, since the default of
`end` is the current time while a flag is noon (date.go:114). `rnd.Intn(n)` is `draw k % n` where `k` counts the draws and `draw` is
arbitrary. Counts are natural numbers (a negative count draws nothing, like 0).
-/
namespace Verif

/-- `t.Weekday()`. -/
def secWeekday (t : Int) : Int := weekday (t / 86400)
/-- `t.AddDate(0, 0, n)`. -/
def secAddDays (t n : Int) : Int := t + 86400 * n
/-- `t.AddDate(0, m, d)`. -/
def secAddDate (t m d : Int) : Int := addDate (t / 86400) 0 m d * 86400 + t % 86400

/-- Drawing without replacement (dates.go:39-50, 83-94): the picks and the next draw. -/
def drawPicks {α : Type} (draw : Nat → Nat) : Nat → Nat → List α → List α × Nat
  | 0, k, _ => ([], k)
  | c + 1, k, cands =>
    match cands[draw k % cands.length]? with
    | none => ([], k)
    | some p =>
      let r := drawPicks draw c (k + 1) (cands.eraseIdx (draw k % cands.length))
      (p :: r.1, r.2)

/-- The picks of one week or month (dates.go:37-50, 77-95). -/
def picksOf {α : Type} (draw : Nat → Nat) (count k : Nat) (days : List α) : List α × Nat :=
  if count < days.length then drawPicks draw count k days else (days, k)

/-- `!(end.Before(pick) || pick.Before(begin))`. -/
def inGenRange (begin_ end_ t : Int) : Bool := !(decide (end_ < t) || decide (t < begin_))

/-- The weekdays picked for one week (dates.go:37-52), sorted if they were drawn. -/
def weekPicks (draw : Nat → Nat) (count k : Nat) (days : List Int) : List Int × Nat :=
  let r := picksOf draw count k days
  if count < days.length then (stableSort (fun a b => decide (a < b)) r.1, r.2) else r

/-- The loop of `weekly` (dates.go:36-60). The number bounds the iterations; `step` is 7 times the interval. -/
def weeklyLoop (draw : Nat → Nat) (count : Nat) (step : Int) (days : List Int) (begin_ end_ : Int) : Nat → Nat → Int → List Int
  | 0, _, _ => []
  | n + 1, k, current =>
    if current < end_ then
      let r := weekPicks draw count k days
      (r.1.map (secAddDays current)).filter (inGenRange begin_ end_) ++ weeklyLoop draw count step days begin_ end_ n r.2 (secAddDays current step)
    else []

/-- `if interval < 1 { interval = 1 }` (dates.go:33-35, 73-75). -/
def intervalOf (i : Int) : Int := if i < 1 then 1 else i

/-- `anyday` (dates.go:21). -/
def anyday : List Int := [0, 1, 2, 3, 4, 5, 6]

/-- `weekly(count, interval, days...)(begin, end)` (dates.go:27-63); `k` is the number of draws made before. Every iteration advances by
at least a second, so the difference bounds the iterations. -/
def weekly (draw : Nat → Nat) (k count : Nat) (interval : Int) (days : List Int) (begin_ end_ : Int) : List Int :=
  weeklyLoop draw count (7 * intervalOf interval) (if days = [] then anyday else days) begin_ end_
    (end_ - secAddDays begin_ (-secWeekday begin_)).toNat k (secAddDays begin_ (-secWeekday begin_))

/-- `mDays[:nDays]` (dates.go:65, 79-80). -/
def allDays (current : Int) : List Int :=
  (List.range (goDay (secAddDate current 1 (-1) / 86400)).toNat).map fun (i : Nat) => ((i : Int) + 1)

/-- The date of a day of the month (dates.go:99-104). -/
def pickDay (current p : Int) : Int := if p ≤ 0 then secAddDate current 1 p else secAddDate current 0 (p - 1)

/-- The condition on the year and month (dates.go:97, 105-106). -/
def sameMonth (a b : Int) : Bool := decide (goYear (a / 86400) = goYear (b / 86400)) && decide (goMonth (a / 86400) = goMonth (b / 86400))

/-- The dates of one month (dates.go:96-110), in order. Elements `sort.Slice` may swap are equal, so a stable sort gives the same. -/
def monthDates (begin_ end_ current : Int) (picks : List Int) : List Int :=
  stableSort (fun a b => decide (a < b))
    ((picks.map (pickDay current)).filter fun t => sameMonth current t && inGenRange begin_ end_ t)

/-- The loop of `monthly` (dates.go:76-113). -/
def monthlyLoop (draw : Nat → Nat) (count : Nat) (interval : Int) (days : List Int) (begin_ end_ : Int) : Nat → Nat → Int → List Int
  | 0, _, _ => []
  | n + 1, k, current =>
    if current < end_ then
      let r := picksOf draw count k (if days = [] then allDays current else days)
      monthDates begin_ end_ current r.1 ++ monthlyLoop draw count interval days begin_ end_ n r.2 (secAddDate current interval 0)
    else []

/-- `monthly(count, interval, days...)(begin, end)` (dates.go:70-116). -/
def monthly (draw : Nat → Nat) (k count : Nat) (interval : Int) (days : List Int) (begin_ end_ : Int) : List Int :=
  monthlyLoop draw count (intervalOf interval) days begin_ end_
    (end_ - secAddDate begin_ 0 (1 - goDay (begin_ / 86400))).toNat k (secAddDate begin_ 0 (1 - goDay (begin_ / 86400)))

/-! ### Splitting into files (main.go:110-149) -/

/-- The labelers (main.go:110-116). -/
inductive Labeler
  | one
  | byYear
  | byMonth

def Labeler.label : Labeler → Int → Str
  | .one, _ => str "transactions"
  | .byYear, t => padInt (goYear (t / 86400)) 4
  | .byMonth, t => padInt (goYear (t / 86400)) 4 ++ '-' :: padInt (goMonth (t / 86400)) 2

/-- `m[k] = v` for a map kept as a list with distinct keys. -/
def mapPut {α : Type} (m : List (Str × α)) (k : Str) (v : α) : List (Str × α) := (k, v) :: m.filter (fun e => decide (e.1 ≠ k))

/-- `m[k]`, nil if there is none. -/
def mapGet {α : Type} (m : List (Str × List α)) (k : Str) : List α := match m.find? (fun e => decide (e.1 = k)) with | some e => e.2 | none => []

/-- The loop of `batchesByLabel` (main.go:134-148): the batches so far, the label and transactions of the current one. -/
def batchLoop {α : Type} (label : α → Str) : List (Str × List α) → Str → List α → List α → List (Str × List α)
  | m, previous, batch, [] => mapPut m previous batch
  | m, previous, batch, t :: ts =>
    if previous = label t then batchLoop label m previous (batch ++ [t]) ts
    else batchLoop label (mapPut m previous batch) (label t) [t] ts

/-- `batchesByLabel` (main.go:129-149). -/
def batchesByLabel {α : Type} (label : α → Str) : List α → List (Str × List α)
  | [] => []
  | t :: ts => batchLoop label [] (label t) [] (t :: ts)

/-! ### Amounts (rule.go) -/

/-- Wrapping to int64. -/
def wrap64 (x : Int) : Int := (x + 2 ^ 63) % 2 ^ 64 - 2 ^ 63

/-- The loop of `pow` (rule.go:148-154); `exp &&& bitMask` as a test of one binary digit. -/
def powLoop (exp : Nat) : Nat → Nat → Int → Int → Int
  | 0, _, _, res => res
  | n + 1, bitMask, p, res =>
    if bitMask ≤ exp then powLoop exp n (bitMask * 2) (wrap64 (p * p)) (if exp / bitMask % 2 = 1 then wrap64 (res * p) else res)
    else res

/-- `pow` (rule.go:144-156) with int64 arithmetic; the mask doubles, so `exp + 1` bounds the iterations. -/
def intPow (base : Int) (exp : Nat) : Int := powLoop exp (exp + 1) 1 base 1

/-- `constants`, `FROM_BALANCE`, `TO_BALANCE` (rule.go:38-43). -/
def genConstants : Int := 2 ^ 31
def fromBalance : Int := 2 ^ 31 + 1
def toBalance : Int := 2 ^ 31 + 2

/-- A generating rule without its dates and payees (rule.go:45-50). -/
structure GenRule where
  source : List Str
  dest : List Str
  min : Int
  max : Int

/-- What generating changes: the running balances by account, in units of the one commodity of the sample, and the postings made, by
account, in order. -/
structure GenState where
  balance : Str → Int
  posted : Str → List Int
  draws : Nat

/-- `amtFromBalance` (rule.go:123-135); `Div` is Euclidean division and panics for 0. -/
def amtFromBalance (a divisor : Int) (fromBal toBal : Int) : Except Fault Int :=
  if a = fromBalance then (if divisor = 0 then .error .panic else .ok (-fromBal / divisor))
  else if a = toBalance then (if divisor = 0 then .error .panic else .ok (-toBal / divisor))
  else .error .panic

/-- The random amount (rule.go:107-113), in whole units. -/
def amtRandom (draw : Nat → Nat) (k : Nat) (a b : Int) : Int × Nat :=
  let lo := if a > b then b else a
  let hi := if a > b then a else b
  if hi ≠ lo then (lo + (draw k % (hi - lo).toNat : Nat), k + 1) else (lo, k)

/-- `amtBetween` (rule.go:103-118): the amount in units of the commodity with `decimals` decimals. -/
def amtBetween (draw : Nat → Nat) (k : Nat) (decimals : Nat) (a b fromBal toBal : Int) : Except Fault (Int × Nat) :=
  if a > genConstants then (amtFromBalance a b fromBal toBal).bind fun x => .ok (x, k)
  else
    let r := amtRandom draw k a b
    .ok (wrap64 (r.1 * intPow 10 decimals), r.2)

/-- `f[x] = v`. -/
def setFn {α : Type} (f : Str → α) (x : Str) (v : α) : Str → α := fun y => if y = x then v else f y

/-- `generatePostings` (rule.go:93-100): `Post(to, from, amt)` gives the accounts their postings, then the balances are updated. -/
def generatePostings (draw : Nat → Nat) (decimals : Nat) (r : GenRule) (s : GenState) : Except Fault GenState :=
  match r.source[draw s.draws % r.source.length]?, r.dest[draw (s.draws + 1) % r.dest.length]? with
  | some src, some dst =>
    (amtBetween draw (s.draws + 2) decimals r.min r.max (s.balance src) (s.balance dst)).bind fun amt =>
    let b1 := setFn s.balance dst (s.balance dst + amt.1)
    let p1 := setFn s.posted dst (s.posted dst ++ [amt.1])
    .ok ⟨setFn b1 src (b1 src - amt.1), setFn p1 src (p1 src ++ [-amt.1]), amt.2⟩
  | _, _ => .error .panic

/-- The loop of main.go:69-71 over the sorted transactions, each given by its rule. -/
def generateAll (draw : Nat → Nat) (decimals : Nat) : GenState → List GenRule → Except Fault GenState
  | s, [] => .ok s
  | s, r :: rs => (generatePostings draw decimals r s).bind fun s => generateAll draw decimals s rs

/-- `CheckPostings` (account.go:184-205) on an account whose postings carry no balance: the balances they get, and the balance left. -/
def checkBalances : Int → List Int → List Int × Int
  | b, [] => ([], b)
  | b, q :: qs => let r := checkBalances (b + q) qs; ((b + q) :: r.1, r.2)

/-- The balances `-wb` puts on the postings of account `a` (main.go:73-77). -/
def withBalances (s : GenState) (a : Str) : List Int := (checkBalances (s.balance a) (s.posted a)).1

end Verif
