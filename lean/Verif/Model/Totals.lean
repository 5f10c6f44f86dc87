import Verif.Model.Balance
/-
Model of cmd/coin/totals.go: time series of totals and their merging.

* `timeTotal` (totals.go:19-26) has either `total` or the map `totals`. Both are one association list here: `total` is the entry
  with key `none`, `totals[k]` the entry with key `some k`.
* `timeTotals.all` is the list `TS`. `timeTotals.current` always points to the last element of `all` when reducing by time;
  when not reducing by time `all` stays empty in Go and `current` is the only total: then `TS` is the list with just that element
  (time 0 stands for the zero time).
* Times are day numbers.
-/
namespace Verif

/-- `timeTotal` (totals.go:19-26). -/
structure TT where
  time : Int
  vals : List (Option Str × Amount)
  deriving DecidableEq, Repr, Inhabited

abbrev TS := List TT

/-- Map lookup. -/
def getKey (l : List (Option Str × Amount)) (k : Option Str) : Option Amount := (l.find? (fun e => decide (e.1 = k))).map (·.2)

/-- Map assignment. -/
def setKey : List (Option Str × Amount) → Option Str → Amount → List (Option Str × Amount)
  | [], k, a => [(k, a)]
  | e :: l, k, a => if e.1 = k then (k, a) :: l else e :: setKey l k a

/-- How postings are reduced: by period and/or category (totals.go:100-109). -/
structure Reducers where
  time : Option (Int → Int)
  category : Option (PRef → Str)

/-- `ts.current.Equal(period)` branch of `add`: adding to the current total (totals.go:132-145). -/
def TT.addQty (conv : Com → Amount → Except Fault Amount) (x : TT) (k : Option Str) (q : Amount) : Except Fault TT :=
  match getKey x.vals k with
  | some amt => (checkNoError (amt.addIn conv q)).bind fun a => .ok { x with vals := setKey x.vals k a }
  | none => .ok { x with vals := setKey x.vals k q.copy }

/-- `(*timeTotals).add` (totals.go:127-156). -/
def TS.add (conv : Com → Amount → Except Fault Amount) (red : Reducers) (v : View) (ts : TS) (p : PRef) : Except Fault TS :=
  let period := match red.time with | none => 0 | some r => r (v.date p)
  let key := red.category.map (fun c => c p)
  let fresh : TT := ⟨period, [(key, (v.qty p).copy)]⟩
  match ts.getLast? with
  | none => .ok [fresh]
  | some cur =>
    if cur.time = period then (cur.addQty conv key (v.qty p)).bind fun cur => .ok (ts.dropLast ++ [cur])
    else .ok (ts ++ [fresh])

/-- Adding all postings of an account (register.go:112-114). -/
def TS.addAll (conv : Com → Amount → Except Fault Amount) (red : Reducers) (v : View) : TS → List PRef → Except Fault TS
  | ts, [] => .ok ts
  | ts, p :: ps => (TS.add conv red v ts p).bind fun ts => TS.addAll conv red v ts ps

/-- Loop body of `(*timeTotal).AddIn` (totals.go:41-52, and 37-40 for the single total). The error of `AddIn` is ignored; a panic
of `AddIn` (scales differing by more than 50 digits) is not modelled here. -/
def addEntry (conv : Com → Amount → Except Fault Amount) (keysOnly : Bool) (vals : List (Option Str × Amount)) (e : Option Str × Amount) :
    List (Option Str × Amount) :=
  match getKey vals e.1 with
  | some amt => if keysOnly then vals else setKey vals e.1 (amt.addInState conv e.2).1
  | none => setKey vals e.1 (if keysOnly then zeroAmount e.2.com else e.2.copy)

/-- `(*timeTotal).AddIn` (totals.go:35-53); callers only pass totals of the same time. -/
def TT.addIn (conv : Com → Amount → Except Fault Amount) (keysOnly : Bool) (x y : TT) : TT :=
  { x with vals := y.vals.foldl (addEntry conv keysOnly) x.vals }

/-- `(*timeTotal).Copy` (totals.go:55-68). -/
def TT.copy (keysOnly : Bool) (x : TT) : TT :=
  { x with vals := x.vals.map (fun e => (e.1, if keysOnly && e.1.isSome then zeroAmount e.2.com else e.2.copy)) }

/-- `(*timeTotal).Commodity` (totals.go:70-78): of some entry. -/
def TT.com (x : TT) : Option Com := x.vals.head?.map (·.2.com)

/-- `(*timeTotals).Commodity` (totals.go:111-123) for `current` and `all`. -/
def tsCom (current : Option TT) (all : TS) : Option Com :=
  match current.bind TT.com with
  | some c => some c
  | none => all.findSome? TT.com

/-- `newTotal` (totals.go:158-165); `cat`: reducing by category. A missing commodity exits. -/
def newTotal (cat : Bool) (t : Int) (c : Option Com) : Except Fault TT :=
  if cat then .ok ⟨t, []⟩
  else match c with
    | none => .error .exit
    | some c => .ok ⟨t, [(none, zeroAmount c)]⟩

/-- First loop of `mergeTotals` (totals.go:187-203): `done` are the elements of `ts.all` before `remaining`. Returns the updated
`ts.all` and the extras with their offsets. -/
def gather (conv : Com → Amount → Except Fault Amount) (keysOnly : Bool) :
    TS → TS → TS → Nat → List (Nat × TT) → TS × List (Nat × TT)
  | [], done, remaining, _, extras => (done ++ remaining, extras)
  | t :: ts, done, remaining, j, extras =>
    let i := search remaining.length (fun i => !decide ((remaining.getD i default).time < t.time))
    let done := done ++ remaining.take i
    let remaining := remaining.drop i
    let j := j + i
    match remaining with
    | [] => gather conv keysOnly ts done [] 0 (extras ++ [(j, t)])
    | r :: rs =>
      if r.time = t.time then gather conv keysOnly ts done (r.addIn conv keysOnly t :: rs) j extras
      else gather conv keysOnly ts done (r :: rs) 0 (extras ++ [(j, t)])

/-- Second loop of `mergeTotals` (totals.go:209-223): `acc` is the new `ts.all`, `current` the old `ts.current`. -/
def inject (conv : Com → Amount → Except Fault Amount) (keysOnly cat : Bool) (current : Option TT) :
    TS → TS → List (Nat × TT) → Except Fault TS
  | acc, remaining, [] => .ok (acc ++ remaining)
  | acc, remaining, (mark, extra) :: extras =>
    let com := match tsCom current acc with | some c => some c | none => extra.com
    (newTotal cat extra.time com).bind fun fresh =>
    inject conv keysOnly cat current (acc ++ remaining.take mark ++ [fresh.addIn conv keysOnly extra]) (remaining.drop mark) extras

/-- `(*timeTotals).mergeTotals` (totals.go:170-224). -/
def mergeTotals (conv : Com → Amount → Except Fault Amount) (red : Reducers) (keysOnly : Bool) (ts ts2 : TS) : Except Fault TS :=
  match red.time with
  | none =>
    match ts2.getLast?, ts.getLast? with
    | none, _ => .ok ts
    | some y, none => .ok [y.copy keysOnly]
    | some y, some x => .ok [x.addIn conv keysOnly y]
  | some _ =>
    let (all, extras) := gather conv keysOnly ts2 [] ts 0 []
    if extras = [] then .ok all
    else inject conv keysOnly red.category.isSome all.getLast? [] all extras

/-- `cumMagnitude` (totals.go:291-312) of a non-empty timeline. -/
def cumMagnitude (conv : Com → Amount → Except Fault Amount) (ts : TS) : Except Fault (Option Amount) :=
  match ts.getLast? with
  | none => .ok none
  | some cur =>
    match tsCom (some cur) ts with
    | none => .error .panic      -- zero amount without commodity
    | some c => (checkNoError (sumInto conv (zeroAmount c) (ts.flatMap (fun t => t.vals.map (·.2))))).bind fun a => .ok (some a)

/-- The loop of `makeCumulative` (totals.go:321-325). -/
def cumLoop (conv : Com → Amount → Except Fault Amount) : Amount → TS → Except Fault TS
  | _, [] => .ok []
  | cum, t :: ts =>
    match getKey t.vals none with
    | none => .error .panic
    | some a => (checkNoError (cum.addIn conv a)).bind fun cum =>
      (cumLoop conv cum ts).bind fun rest => .ok ({ t with vals := setKey t.vals none cum.copy } :: rest)

/-- `(*timeTotals).makeCumulative` (totals.go:315-326). -/
def makeCumulative (conv : Com → Amount → Except Fault Amount) (red : Reducers) (ts : TS) : Except Fault TS :=
  if red.category.isSome then .error .exit
  else match ts.getLast? with
    | none => .ok ts
    | some cur =>
      match tsCom (some cur) ts with
      | none => .error .panic
      | some c => cumLoop conv (zeroAmount c) ts

end Verif
