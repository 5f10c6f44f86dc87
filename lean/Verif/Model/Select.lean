import Verif.Model.Range
import Verif.Model.Ledger
/-
Posting selection shared by the commands: tag matchers (tags.go:77-113) and the `trim` methods of `balance`
(cmd/coin/balance.go:85-108) and `register` (cmd/coin/register.go:179-207).

Regular expressions given on the command line are not modelled themselves: `compile s` is `regexp.MustCompile("(?i)" + s)`,
`none` when the expression is invalid (MustCompile panics), otherwise the predicate `MatchString`.
-/
namespace Verif

abbrev Compile := Str → Option (Str → Bool)

/-- `Tags` (tags.go:15): a map, here a list of key/value pairs in iteration order; a nil map is `none`. -/
abbrev Tags := Option (List (Str × Str))

/-- `TagMatcher` (tags.go:80-83). -/
structure TagMatcher where
  key : Str → Bool
  value : Option (Str → Bool)
  inverted : Bool

/-- `strings.SplitN(s, ":", 2)` as (first, rest after the first colon if there is one). -/
def splitFirstColon : Str → Str × Option Str
  | [] => ([], none)
  | c :: cs => if c = ':' then ([], some cs) else ((c :: (splitFirstColon cs).1), (splitFirstColon cs).2)

/-- Leading `!` of an expression: (inverted, rest). -/
def stripBang : Str → Bool × Str
  | '!' :: s => (true, s)
  | s => (false, s)

/-- `NewTagMatcher` (tags.go:85-101) for a non-empty expression. -/
def newTagMatcher (compile : Compile) (exp : Str) : Except Fault TagMatcher :=
  let (inverted, e) := stripBang exp
  let (k, v) := splitFirstColon e
  match compile k with
  | none => .error .panic
  | some key =>
    match v with
    | none => .ok ⟨key, none, inverted⟩
    | some v =>
      match compile v with
      | none => .error .panic
      | some value => .ok ⟨key, some value, inverted⟩

/-- The test inside the loop of `Match` (tags.go:108) without inversion. -/
def TagMatcher.hit (m : TagMatcher) (kv : Str × Str) : Bool :=
  m.key kv.1 && (match m.value with | none => true | some v => v kv.2)

/-- `(*TagMatcher).Match` (tags.go:103-113). -/
def TagMatcher.matches (m : TagMatcher) : Tags → Bool
  | none => false
  | some tags => tags.any (fun kv => (m.hit kv && !m.inverted) || (!m.hit kv && m.inverted))

/-- What the commands read of a loaded ledger: per account the posting list, per posting date, payee, tags of the posting and of
its transaction, and the quantity (always present after loading, see C26/C28). -/
structure View where
  postings : Str → List PRef
  date : PRef → Int
  payee : PRef → Str
  tags : PRef → Tags
  txnTags : PRef → Tags
  qty : PRef → Amount

/-- The filters of a command: `-b`, `-e`, `-p`, `-t` (empty string: not given). -/
structure Filters where
  begin_ : Option Int
  end_ : Option Int
  payee : Str
  tag : Str

/-- The tag part of both `trim` methods (balance.go:97-106, register.go:196-205). -/
def filterTag (compile : Compile) (v : View) (tag : Str) (l : List PRef) : Except Fault (List PRef) :=
  if tag = [] then .ok l
  else (newTagMatcher compile tag).bind fun m => .ok (l.filter (fun p => m.matches (v.tags p) || m.matches (v.txnTags p)))

/-- The payee part of `cmdBalance.trim` (balance.go:87-96). -/
def filterPayee (compile : Compile) (v : View) (payee : Str) (l : List PRef) : Except Fault (List PRef) :=
  if payee = [] then .ok l
  else match compile payee with
    | none => .error .panic
    | some m => .ok (l.filter (fun p => m (v.payee p)))

/-- `cmdBalance.trim` (balance.go:85-108). -/
def balanceTrim (compile : Compile) (v : View) (f : Filters) (l : List PRef) : Except Fault (List PRef) :=
  (filterPayee compile v f.payee (trimRange v.date l f.begin_ f.end_)).bind fun l =>
  filterTag compile v f.tag l

/-- The payee part of `cmdRegister.trim` (register.go:181-195), which writes `cmd.payee`: returns the new expression too. -/
def filterPayeeInv (compile : Compile) (v : View) (payee : Str) (l : List PRef) : Except Fault (Str × List PRef) :=
  if payee = [] then .ok (payee, l)
  else
    let (inverted, e) := stripBang payee
    match compile e with
    | none => .error .panic
    | some m => .ok (e, l.filter (fun p => (m (v.payee p) && !inverted) || (!m (v.payee p) && inverted)))

/-- `cmdRegister.trim` (register.go:179-207). It is called once per account and writes `cmd.payee`, so it returns the command's
payee expression for the next call. -/
def registerTrim (compile : Compile) (v : View) (f : Filters) (l : List PRef) : Except Fault (Str × List PRef) :=
  (filterPayeeInv compile v f.payee (trimRange v.date l f.begin_ f.end_)).bind fun r =>
  (filterTag compile v f.tag r.2).bind fun l => .ok (r.1, l)

end Verif
