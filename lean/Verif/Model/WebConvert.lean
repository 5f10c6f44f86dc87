import Verif.Model.WebAmount
import Verif.Go.Sort
/-
Model of prices and conversions of the page (cmd/coin2html/js/src/commodity.ts:7-158, 255-350).

Times are seconds of local time (day number × 86400 at midnight; day 0 is 0001/01/01, a Monday); summer time is not modelled.
-/
namespace Verif

/-- `Price` (commodity.ts:255-261) without its location: commodity, date, value. -/
structure WPrice where
  com : Com
  time : Int
  value : Amount
  deriving DecidableEq, Repr, Inhabited

/-- Seconds of a week. -/
def weekSec : Int := 604800

/-- `timeWeek.ceil`: the first Sunday midnight at or after `t` (Sundays are the days 7k+6). -/
def weekCeil (t : Int) : Int := 518400 + weekSec * ((t - 518400 + (weekSec - 1)) / weekSec)

/-- `timeWeek.range(from, to)` (d3-time): the Sunday midnights `s` with `from ≤ s < to`. -/
def weekRange (start stop : Int) : List Int :=
  (List.range ((stop - weekCeil start + (weekSec - 1)) / weekSec).toNat).map (fun i : Nat => weekCeil start + weekSec * i)

/-- The `dates.map` of `newConversion` (commodity.ts:36-40): `cpi` never goes back, so the list is what is left from it on.
Running off the end reads a property of `undefined`, which throws. -/
def weeklyPrices : List WPrice → List Int → Except Fault (List WPrice)
  | _, [] => .ok []
  | ps, d :: ds =>
    match ps.dropWhile (fun p => decide (p.time < d)) with
    | [] => .error .panic
    | p :: r => (weeklyPrices (p :: r) ds).bind fun ws => .ok (p :: ws)

/-- `Math.round(scale(d))` for `scaleTime([from, to], [0, n - 1]).clamp(true)` (commodity.ts:34, 42), `from < to`. Computed
exactly; the rounding errors of the original's floating point steps are not modelled. -/
def scaleIndex (start stop : Int) (n : Nat) (d : Int) : Nat :=
  let x := if d < start then start else if stop < d then stop else d
  ((2 * ((x - start) * ((n : Int) - 1)) + (stop - start)) / (2 * (stop - start))).toNat

/-- `newConversion(ps)` applied to a date (commodity.ts:16-49). An index outside the array gives `undefined`, whose use
throws. -/
def convPrice (ps : List WPrice) (d : Int) : Except Fault WPrice :=
  match ps.head?, ps.getLast? with
  | some f, some l =>
    let dates := weekRange f.time l.time
    if dates = [] then .ok f
    else
      (weeklyPrices ps dates).bind fun ws =>
      match ws[scaleIndex f.time l.time dates.length d]? with
      | some p => .ok p
      | none => .error .panic
  | _, _ => .error .err

/-- A conversion (commodity.ts:8-14): made of known prices from one commodity to another, or composed. -/
inductive WConv
  | direct (src dst : Com)
  | comp (c1 c2 : WConv)
  deriving DecidableEq, Repr

/-- `conversion.from`. -/
def WConv.src : WConv → Com
  | direct s _ => s
  | comp c1 _ => c1.src

/-- `conversion.to`. -/
def WConv.dst : WConv → Com
  | direct _ d => d
  | comp _ c2 => c2.dst

/-- `conversion.steps`. -/
def WConv.steps : WConv → Nat
  | direct _ _ => 1
  | comp c1 c2 => c1.steps + c2.steps

/-- `composeConversions` (commodity.ts:51-76). -/
def composeConv (c1 c2 : WConv) : Except Fault WConv :=
  if c1.steps > 1 ∨ c1.dst ≠ c2.src then .error .err else .ok (.comp c1 c2)

/-- `commodity.prices` of every commodity, grouped by the commodity they are in, sorted by date (commodity.ts:99-117). -/
abbrev WPrices := Com → Com → List WPrice

/-- Calling a conversion with a date: the value of the price (commodity.ts:42, 60-66). -/
def WConv.value (db : WPrices) : WConv → Int → Except Fault Amount
  | .direct s t, d => (convPrice (db s t) d).bind fun p => .ok p.value
  | .comp c1 c2, d => (c1.value db d).bind fun v => (c2.value db d).bind fun w => .ok (wConvertTo v w)

/-- `_conversions` of every commodity: a JavaScript Map, that is entries with distinct keys in insertion order. -/
abbrev ConvMap := Com → List (Com × WConv)

/-- `map.get(key)`. -/
def jsGet (l : List (Com × WConv)) (k : Com) : Option WConv := (l.find? (fun e => decide (e.1 = k))).map (·.2)

/-- `map.set(key, value)`: an existing key keeps its place. -/
def jsSet (l : List (Com × WConv)) (k : Com) (v : WConv) : List (Com × WConv) :=
  if l.any (fun e => decide (e.1 = k)) then l.map (fun e => if e.1 = k then (k, v) else e) else l ++ [(k, v)]

/-- Setting one entry of one commodity's map. -/
def ConvMap.put (m : ConvMap) (c k : Com) (v : WConv) : ConvMap := fun x => if x = c then jsSet (m c) k v else m x

/-- The inner loop of the search (commodity.ts:128-132). -/
def pushAll (path : List WConv) : List (Com × WConv) → List (Com × List WConv) → List Com → List (Com × List WConv) × List Com
  | [], q, v => (q, v)
  | (c2, cv) :: rest, q, v =>
    if cv.steps > 1 ∨ c2 ∈ v then pushAll path rest q v else pushAll path rest (q ++ [(c2, cv :: path)]) (v ++ [c2])

/-- `breadthFirstSearch` (commodity.ts:119-135); paths are in reverse order. The first argument bounds the number of rounds;
`none` means it ran out (C114 proves that it does not). -/
def bfs (m : ConvMap) (dst : Com) : Nat → List (Com × List WConv) → List Com → Option (Option (List WConv))
  | 0, _, _ => none
  | _ + 1, [], _ => some none
  | fuel + 1, (c, path) :: q, v =>
    match jsGet (m c) dst with
    | some cv =>
      if cv.steps = 1 then some (some (cv :: path))
      else bfs m dst fuel (pushAll path (m c) q v).1 (pushAll path (m c) q v).2
    | none => bfs m dst fuel (pushAll path (m c) q v).1 (pushAll path (m c) q v).2

/-- The `reduce` of `findConversion` (commodity.ts:139-143): composes from the end of the path and remembers each result. -/
def composeAll : WConv → List WConv → ConvMap → Except Fault (WConv × ConvMap)
  | prev, [], m => .ok (prev, m)
  | prev, c :: rest, m =>
    (composeConv c prev).bind fun x => composeAll x rest (m.put x.src x.dst x)

/-- `findConversion` (commodity.ts:118-144) of `src`; running out of rounds is reported as `Fault.loop`. -/
def findConversion (m : ConvMap) (fuel : Nat) (src dst : Com) : Except Fault (Option WConv × ConvMap) :=
  match bfs m dst fuel [(src, [])] [src] with
  | none => .error .loop
  | some none => .ok (none, m)
  | some (some []) => .ok (none, m)
  | some (some (p :: rest)) => (composeAll p rest m).bind fun r => .ok (some r.1, r.2)

/-- `this.convert(amount, date)` (commodity.ts:147-157); `dst` is `this`. -/
def wConvert (db : WPrices) (m : ConvMap) (fuel : Nat) (dst : Com) (a : Amount) (date : Int) : Except Fault (Amount × ConvMap) :=
  if a.com = dst then .ok (a, m)
  else if a.int = 0 then .ok (⟨0, dst⟩, m)
  else
    (findConversion m fuel a.com dst).bind fun r =>
    match r.1 with
    | none => .error .err
    | some cv => (cv.value db date).bind fun v => .ok (wConvertTo a v, r.2)

/-- `this.addIn(amount, date)` (commodity.ts:214-220). -/
def wAddIn (conv : Com → Amount → Int → Except Fault Amount) (t a : Amount) (date : Int) : Except Fault Amount :=
  if a.com = t.com then .ok ⟨dbl (t.int + a.int), t.com⟩
  else (conv t.com a date).bind fun b => .ok ⟨dbl (t.int + b.int), t.com⟩

/-- `price.reverse()` (commodity.ts:282-292); a zero price has no reverse (the original gets Infinity). -/
def wReverse (p : WPrice) : Except Fault WPrice :=
  (wReciprocal p.value p.com.decimals).bind fun r => .ok ⟨p.value.com, p.time, ⟨r, p.com⟩⟩

/-- The prices pushed by `loadPrices` (commodity.ts:329-350), in order: each price and its reverse. -/
def pushedPrices : List WPrice → Except Fault (List WPrice)
  | [] => .ok []
  | p :: ps => (wReverse p).bind fun r => (pushedPrices ps).bind fun rest => .ok (p :: r :: rest)

/-- Distinct elements in order of first occurrence. -/
def firsts : List Com → List Com
  | [] => []
  | c :: l => c :: (firsts l).filter (fun x => decide (x ≠ c))

/-- `get conversions` (commodity.ts:99-117) before anything was composed: prices sorted by date (stable) and grouped by the
commodity of their value, in order of first occurrence. -/
def wPricesOf (all : List WPrice) : WPrices := fun s t =>
  (stableSort (fun p q => decide (p.time < q.time)) (all.filter (fun p => decide (p.com = s)))).filter (fun p => decide (p.value.com = t))

/-- The Map built by `get conversions`: one direct conversion for every commodity priced in. -/
def directMap (all : List WPrice) : ConvMap := fun s =>
  (firsts ((stableSort (fun p q => decide (p.time < q.time)) (all.filter (fun p => decide (p.com = s)))).map (·.value.com))).map
    (fun t => (t, WConv.direct s t))

end Verif
