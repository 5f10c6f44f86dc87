import Verif.Model.Parser
/-
Model of rules.go: rules, rule sets, `RuleFor`, and reading a rule file.

Rule sets are shared by pointer: a set is identified by its position in `RuleIndex.Sets`. Accounts are identified by their full names
(`MustFindAccount` is a parameter, C32 is about it), a pattern by the function `MatchString` of the compiled expression.
-/
namespace Verif

/-- `Rule` (rules.go:127-131). `account = none`: transactions of this payee are dropped. `src` is the pattern's text. -/
structure Rule where
  account : Option Str
  src : Str
  notes : List Str
  deriving DecidableEq, Repr

/-- An element of a `Rules` slice (rules.go:16-20): a rule, or a reference to a rule set. -/
inductive RuleItem
  | rule (r : Rule)
  | ref (i : Nat)
  deriving DecidableEq, Repr

/-- `RuleSet` (rules.go:102-105). -/
structure RuleSet where
  name : Str
  items : List RuleItem
  deriving DecidableEq, Repr

/-- `AccountRules` (rules.go:88-91). -/
structure AccountRules where
  account : Str
  items : List RuleItem
  deriving DecidableEq, Repr

/-- `RuleIndex` (rules.go:22-26). `accounts` is the map from ids, latest first; `SetsByName` is derived: the last set of that name. -/
structure RuleIndex where
  accounts : List (Str × AccountRules)
  sets : List RuleSet
  deriving DecidableEq, Repr

/-- `ri.Accounts[id]`. -/
def RuleIndex.accountRules (ri : RuleIndex) (id : Str) : Option AccountRules := (ri.accounts.find? (fun e => decide (e.1 = id))).map (·.2)

/-- `AccountRulesFor` (rules.go:28-36); `byOfx` is `FindAccountOfxId`. Without a rule file the receiver is nil and `rs.Accounts` panics. -/
def accountRulesFor (ri : Option RuleIndex) (byOfx : Str → Option Str) (id : Str) : Except Fault AccountRules :=
  match ri with
  | none => .error .panic
  | some ri => match ri.accountRules id with
    | some ars => .ok ars
    | none => match byOfx id with
      | some a => .ok ⟨a, []⟩
      | none => .error .exit

/-- `(*Rule).RuleFor` (rules.go:142-147); `m` is `MatchString`. -/
def Rule.ruleFor (m : Str → Str → Bool) (payee : Str) (r : Rule) : Option Rule := if m r.src payee then some r else none

/-- The loop shared by `(*AccountRules).RuleFor` (rules.go:93-100) and `(*RuleSet).RuleFor` (rules.go:116-123), the call through the
interface being dispatched on the item; `inner` is `RuleFor` of a referenced set's items. -/
def ruleLoop (m : Str → Str → Bool) (sets : List RuleSet) (payee : Str) (inner : List RuleItem → Except Fault (Option Rule)) :
    List RuleItem → Except Fault (Option Rule)
  | [] => .ok none
  | .rule r :: rest => if m r.src payee then .ok (some r) else ruleLoop m sets payee inner rest
  | .ref i :: rest =>
    match sets[i]? with
    | none => .error .panic
    | some s => (inner s.items).bind fun
      | some r => .ok (some r)
      | none => ruleLoop m sets payee inner rest

/-- `RuleFor` (rules.go:93-100 and 116-123). The number bounds the depth of the calls; without it the recursion need not end. -/
def ruleFor (m : Str → Str → Bool) (sets : List RuleSet) (payee : Str) : Nat → List RuleItem → Except Fault (Option Rule)
  | 0 => ruleLoop m sets payee fun _ => .error .loop
  | n + 1 => ruleLoop m sets payee (ruleFor m sets payee n)

/-! ### Reading -/

/-- `[\w:$^\\-]` (rules.go:149). -/
def isPatternChar (c : Char) : Bool := isWord c || decide (c ∈ [':', '$', '^', '\\', '-'])
/-- `patternRE` (rules.go:149). -/
def patternRe (n : Str) : Re := .grp n (.plus (.cls isPatternChar))
/-- `headerRE` (rules.go:150); both alternatives are anchored at the start. -/
def headerRe : Re :=
  .alt (.cat [.grp (str "1") (.plus .word), .plus .ws, patternRe (str "2")]) (.grp (str "3") (.plus .word))
/-- `bodyRE` (rules.go:151-153); all alternatives are anchored at the start. -/
def bodyRe : Re :=
  .alt (.cat [.plus .ws, patternRe (str "1"), .opt (.seq (.plus .ws) (.grp (str "3") (.cat [.notWs, .star .any, .notWs])))]) <|
  .alt (.cat [.plus .ws, .ch '@', .grp (str "4") (.plus .word)])
    (.cat [.plus .ws, .ch ';', .plus .ws, .grp (str "5") (.star .any)])

/-- What reading rules needs: `MustFindAccount` and whether `regexp.MustCompile` accepts a pattern. -/
structure RuleEnv where
  find : Str → Except Fault Str
  compiles : Str → Bool

/-- Index of the last set of that name: `ri.SetsByName[name]`. -/
def lastSet (sets : List RuleSet) (name : Str) : Option Nat :=
  match sets.reverse.findIdx? (fun s => decide (s.name = name)) with
  | some k => some (sets.length - 1 - k)
  | none => none

/-- `lastRule.Notes = append(lastRule.Notes, note)`: the last rule read is the last item, when it is a rule (rules.go:210-212; after a
reference `lastRule` is nil). -/
def addNote : List RuleItem → Str → List RuleItem
  | [], _ => []
  | [.rule r], n => [.rule { r with notes := r.notes ++ [n] }]
  | [.ref i], _ => [.ref i]
  | x :: y :: rest, n => x :: addNote (y :: rest) n

/-- One body line (rules.go:194-212), given its match. -/
def bodyLine (env : RuleEnv) (sets : List RuleSet) (items : List RuleItem) (c : Caps) : Except Fault (List RuleItem) :=
  if c.get (str "1") ≠ [] then
    (if c.get (str "1") = str "--" then .ok none else (env.find (c.get (str "1"))).bind fun a => .ok (some a)).bind fun a =>
    if env.compiles (c.get (str "3")) then .ok (items ++ [.rule ⟨a, c.get (str "3"), []⟩]) else .error .panic
  else if c.get (str "4") ≠ [] then
    match lastSet sets (c.get (str "4")) with
    | none => .error .panic
    | some i => .ok (items ++ [.ref i])
  else .ok (addNote items (c.get (str "5")))

/-- The inner loop (rules.go:184-213): the items of a section and the remaining lines, the first of which is not a body line. -/
def bodyLoop (env : RuleEnv) (sets : List RuleSet) : List RuleItem → List Str → Except Fault (List RuleItem × List Str)
  | items, [] => .ok (items, [])
  | items, line :: rest =>
    match bodyRe.matchAt line with
    | none => .ok (items, line :: rest)
    | some m => (bodyLine env sets items m.1).bind fun items => bodyLoop env sets items rest

/-- The outer loop of `ScanRules` (rules.go:168-221). A line that is not a header is skipped, and the next one is trimmed before it is
looked at. The number bounds the lines. -/
def scanRules (env : RuleEnv) : Nat → RuleIndex → List Str → Except Fault RuleIndex
  | 0, ri, _ => .ok ri
  | _, ri, [] => .ok ri
  | n + 1, ri, line :: rest =>
    match headerRe.matchAt line with
    | none => match rest with
      | [] => .ok ri
      | l :: rest => scanRules env n ri (trimSpace l :: rest)
    | some m =>
      if m.1.get (str "1") ≠ [] then
        (env.find (m.1.get (str "2"))).bind fun a =>
        (bodyLoop env ri.sets [] rest).bind fun r =>
        scanRules env n { ri with accounts := (m.1.get (str "1"), ⟨a, r.1⟩) :: ri.accounts } r.2
      else
        (bodyLoop env (ri.sets ++ [⟨m.1.get (str "3"), []⟩]) [] rest).bind fun r =>
        scanRules env n { ri with sets := ri.sets ++ [⟨m.1.get (str "3"), r.1⟩] } r.2

/-- `ReadRules` (rules.go:155-161); an empty reader gives a nil index. -/
def readRules (env : RuleEnv) (text : Str) : Except Fault (Option RuleIndex) :=
  match scanLines text with
  | [] => .ok none
  | lines => (scanRules env lines.length ⟨[], []⟩ lines).bind fun ri => .ok (some ri)

/-! ### Writing -/

/-- `Name()` of an item (rules.go:107-109, 133-135); a rule that drops transactions has no account, and its name panics. -/
def RuleItem.nameOf (sets : List RuleSet) : RuleItem → Except Fault Str
  | .rule r => match r.account with | some a => .ok a | none => .error .panic
  | .ref i => match sets[i]? with | some s => .ok s.name | none => .error .panic

/-- `Write` of an item (rules.go:111-114, 137-140), without the line feed. -/
def RuleItem.write (sets : List RuleSet) (max : Nat) (it : RuleItem) : Except Fault Str :=
  (it.nameOf sets).bind fun n => .ok <| match it with
    | .rule r => str "  " ++ padRight max n ++ str " " ++ r.src
    | .ref _ => str "  @" ++ padRight max n

/-- `writeRules` (rules.go:72-86): the lines that are written. Names consist of ASCII characters, so `len` counts characters. -/
def writeRules (sets : List RuleSet) (items : List RuleItem) : Except Fault (List Str) :=
  (items.mapM (RuleItem.nameOf sets)).bind fun names => items.mapM (RuleItem.write sets (names.foldl (fun m n => max m n.length) 0))

end Verif
