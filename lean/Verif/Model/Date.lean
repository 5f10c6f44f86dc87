import Verif.Go.Regex
import Verif.Go.Calendar
/-
Model of date.go: date texts. Times are day numbers; offsets and years are unbounded integers (Go's int is 64 bits: offsets of more
than 18 digits are not modelled).
-/
namespace Verif

/-- `\d{1,2}`. -/
def d12 : Re := .cat [.digit, .opt .digit]

/-- The first alternative of `ymd` (date.go:55). -/
def ymdFull : Re :=
  .grp (str "ymd") (.cat [.opt (.cat [.grp (str "ymdy") (.cat [.digit, .digit, .opt (.cat [.digit, .digit])]), .ch '/']),
    .grp (str "ymdm") d12, .ch '/', .grp (str "ymdd") d12])

/-- The second alternative of `ymd` (date.go:56). -/
def ymdShort : Re :=
  .grp (str "ym") (.cat [.grp (str "ymy") (.cat [.digit, .digit, .digit, .digit]), .opt (.cat [.ch '/', .grp (str "ymm") d12])])

/-- `ymd` (date.go:54-56). -/
def ymdRe : Re := .alt ymdFull ymdShort

/-- `offset` (date.go:57); the class `[d|w|m|y]` contains the bar too. -/
def offsetRe : Re :=
  .grp (str "offset") (.cat [.cls (fun c => decide (c = '+') || decide (c = '-')), .plus .digit,
    .cls (fun c => decide (c = 'd') || decide (c = '|') || decide (c = 'w') || decide (c = 'm') || decide (c = 'y'))])

/-- `DateREX` (date.go:58). -/
def dateRe : Re := .grp (str "date") (.cat [.opt ymdRe, .opt offsetRe])

/-- The globals `Year, Month, Day` (date.go:15-17). -/
structure Today where
  y : Int
  m : Int
  d : Int

/-- `strconv.Atoi` of a captured offset without its unit. -/
def signedAtoi : Str → Int
  | '-' :: s => -(strNat s : Int)
  | '+' :: s => strNat s
  | s => strNat s

/-- A two digit year (date.go:86-93). -/
def fullYear (y yy : Int) : Int :=
  let yyy := Int.tdiv y 1000 * 1000 + yy
  if yyy < y ∧ y - yyy > 50 then yyy + 100
  else if yyy > y ∧ yyy - y > 50 then yyy - 100
  else yyy

/-- An omitted year (date.go:98-102). -/
def closeYear (y m mm : Int) : Int :=
  if mm < m ∧ m - mm > 6 then y + 1 else if m < mm ∧ mm - m > 6 then y - 1 else y

/-- The date without offset (date.go:77-114); `none`: neither date nor offset, an error. -/
def dateBase (today : Today) (c : Caps) : Option (Int × Int × Int) :=
  if c.get (str "ymd") ≠ [] then
    let mm : Int := strNat (c.get (str "ymdm"))
    let y := if c.get (str "ymdy") ≠ [] then
        (let yyy : Int := strNat (c.get (str "ymdy")); if yyy < 100 then fullYear today.y yyy else yyy)
      else closeYear today.y today.m mm
    some (y, mm, strNat (c.get (str "ymdd")))
  else if c.get (str "ym") ≠ [] then
    some (strNat (c.get (str "ymy")), if c.get (str "ymm") ≠ [] then strNat (c.get (str "ymm")) else 1, 1)
  else if c.get (str "offset") = [] then none
  else some (today.y, today.m, today.d)

/-- The offset (date.go:117-129). -/
def applyOffset (t : Int) (off : Str) : Int :=
  match off.getLast? with
  | none => t
  | some 'd' => addDate t 0 0 (signedAtoi off.dropLast)
  | some 'w' => addDate t 0 0 (signedAtoi off.dropLast * 7)
  | some 'm' => addDate t 0 (signedAtoi off.dropLast) 0
  | some 'y' => addDate t (signedAtoi off.dropLast) 0 0
  | some _ => t

/-- `parseDate` (date.go:73-130) with `idx = 0`. -/
def parseDate (today : Today) (c : Caps) : Except Fault Int :=
  match dateBase today c with
  | none => .error .err
  | some (y, m, d) => .ok (applyOffset (goDate y m d) (c.get (str "offset")))

/-- `mustParseDate` (date.go:60-66). -/
def mustParseDate (today : Today) (c : Caps) : Except Fault Int :=
  match parseDate today c with
  | .ok t => .ok t
  | .error _ => .error .panic

/-- `(*Date).Set` (date.go:41-48); `MustParseDate` (date.go:68-71) is the same with panics for errors. -/
def dateSet (today : Today) (s : Str) : Except Fault Int :=
  match dateRe.matches s with
  | none => .error .err
  | some c => parseDate today c

/-- Zero padded decimal (`time.appendInt`). -/
def padInt (x : Int) (w : Nat) : Str :=
  let s := natStr x.natAbs
  (if x < 0 then ['-'] else []) ++ rep (w - s.length) '0' ++ s

/-- `t.Format("2006/01/02")` (`DateFormat`, date.go:50, used by `(*Date).String`, date.go:37-39). -/
def formatDate (t : Int) : Str := padInt (goYear t) 4 ++ ['/'] ++ padInt (goMonth t) 2 ++ ['/'] ++ padInt (goDay t) 2

end Verif
