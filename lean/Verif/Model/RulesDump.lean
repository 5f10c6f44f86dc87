import Verif.Model.Rules
import Verif.Model.Writer
/-
Model of dumping the rules: `(*RuleIndex).Write` (rules.go:38-70). The output is the list of lines without their newlines.
-/
namespace Verif

/-- The entries of the map `rs.Accounts`: the latest of every id. -/
def mapEntries : List (Str × AccountRules) → List (Str × AccountRules)
  | [] => []
  | e :: l => e :: (mapEntries l).filter (fun x => decide (x.1 ≠ e.1))

/-- The sections of the rule sets (rules.go:39-46), `all` being all sets. -/
def writeSets (all : List RuleSet) : List RuleSet → Except Fault (List Str)
  | [] => .ok []
  | s :: ss => (writeRules all s.items).bind fun ls => (writeSets all ss).bind fun r => .ok (s.name :: ls ++ r)

/-- The line of an account (rules.go:62): `%-*s %s`. Ids and account names are ASCII. -/
def accountHead (w : Nat) (e : Str × AccountRules) : Str := padRight w e.1 ++ str " " ++ e.2.account

/-- The sections of the accounts (rules.go:60-68). -/
def writeAccounts (sets : List RuleSet) (w : Nat) : List (Str × AccountRules) → Except Fault (List Str)
  | [] => .ok []
  | e :: es => (writeRules sets e.2.items).bind fun ls => (writeAccounts sets w es).bind fun r => .ok (accountHead w e :: ls ++ r)

/-- `(*RuleIndex).Write` (rules.go:38-70). `order` are the entries of the map as `sort.Slice` by account leaves them: some permutation
ordered by the accounts' names. -/
def writeIndex (sets : List RuleSet) (order : List (Str × AccountRules)) : Except Fault (List Str) :=
  (writeSets sets sets).bind fun a =>
  (writeAccounts sets ((order.map (·.1)).foldl (fun m n => max m n.length) 0) order).bind fun b => .ok (a ++ b)

end Verif
