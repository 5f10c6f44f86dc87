import Verif.Go.Sort
import Verif.Model.Amount
/-
Model of account.go (names, tree, shortening) and of the account part of coin.go (ResolveAccounts, MustFindAccount).

An account pointer is identified with its full name: `AccountsByName` is keyed by `FullName`, so there is exactly one
account object per name once loading is done.
-/
namespace Verif

/-- `Account` (account.go:18-40), the declared data. The date is a day number; `none` is the zero time. -/
structure Acct where
  fullName : Str
  description : Str
  commodityId : Str
  closed : Option Int
  deriving DecidableEq, Repr, Inhabited

/-- `strings.LastIndex(s, ":")` for a one-character needle. -/
def lastIndex (c : Char) : Str → Option Nat
  | [] => none
  | x :: xs =>
    match lastIndex c xs with
    | some i => some (i + 1)
    | none => if x = c then some 0 else none

/-- `parentAndName` (account.go:103-109). -/
def parentAndName (name : Str) : Str × Str :=
  match lastIndex ':' name with
  | none => ([], name)
  | some i => (name.take i, name.drop (i + 1))

/-- `accountFromName` (account.go:94-101); `dflt` is the global `DefaultCommodityId` (coin.go:30, commodity.go:173). -/
def accountFromName (dflt fullName : Str) : Acct := ⟨fullName, [], dflt, none⟩

def rootName : Str := str "Root"
def unbalancedName : Str := str "Unbalanced"

/-- `AccountsByName[a.FullName] = a` (coin.go:112): replaces an account of the same name. -/
def putAcct : List Acct → Acct → List Acct
  | [], a => [a]
  | b :: m, a => if b.fullName = a.fullName then a :: m else b :: putAcct m a

/-- `AccountsByName[name] != nil`. -/
def hasAcct (m : List Acct) (name : Str) : Bool := m.any (fun a => decide (a.fullName = name))

/-- `AccountsByName[name]`. -/
def getAcct (m : List Acct) (name : Str) : Option Acct := m.find? (fun a => decide (a.fullName = name))

/-- All account items loaded in file order (coin.go:108-112), then `Root` and `Unbalanced` (coin.go:163-173; both globals are
nil when a program starts loading). -/
def baseAccounts (dflt : Str) (decls : List Acct) : List Acct :=
  let m := decls.foldl putAcct []
  let m := if hasAcct m rootName then m else m ++ [accountFromName dflt rootName]
  putAcct m (accountFromName dflt unbalancedName)

/-- The names visited by the inner loop of coin.go:182-190 for one account; `fuel` is the length of the name, which the
loop strictly decreases. -/
def ancLoop : Nat → Str → List Str
  | 0, _ => []
  | k + 1, fn =>
    let p := (parentAndName fn).1
    if p = [] then [] else p :: ancLoop k p

/-- Creating one missing ancestor (coin.go:187-189). -/
def addMissing (dflt : Str) (m : List Acct) (fn : Str) : List Acct := if hasAcct m fn then m else m ++ [accountFromName dflt fn]

/-- "create parents if missing" (coin.go:175-191). `known` is the map in its (arbitrary) iteration order. -/
def createParents (dflt : Str) (known m : List Acct) : List Acct :=
  known.foldl (fun m a => (ancLoop a.fullName.length a.fullName).foldl (addMissing dflt) m) m

/-- `Parent` and `Children` of all accounts. -/
structure Links where
  parent : Str → Option Str
  children : Str → List Str

/-- No links. -/
def Links.empty : Links := ⟨fun _ => none, fun _ => []⟩

/-- The accounts visited by `WithChildrenDo` (account.go:207-212), in order. `fuel` bounds the depth. -/
def subtree (children : Str → List Str) : Nat → Str → List Str
  | 0, _ => []
  | k + 1, a => a :: (children a).flatMap (subtree children k)

/-- `(*Account).adopt` (account.go:221-239). -/
def Links.adopt (fuel : Nat) (L : Links) (a c : Str) : Except Fault Links :=
  if a ∈ subtree L.children fuel c then .error .panic
  else if c ∈ subtree L.children fuel a then .error .panic
  else .ok ⟨fun x => if x = c then some a else L.parent x, fun x => if x = a then L.children a ++ [c] else L.children x⟩

/-- "link parents with children" (coin.go:193-206); `names` are the map's keys, `order` their iteration order. -/
def linkAll (fuel : Nat) (names : List Str) : Links → List Str → Except Fault Links
  | L, [] => .ok L
  | L, a :: rest =>
    if a = rootName then linkAll fuel names L rest
    else
      let pName := (parentAndName a).1
      if pName = [] then (L.adopt fuel rootName a).bind fun L => linkAll fuel names L rest
      else if pName ∈ names then (L.adopt fuel pName a).bind fun L => linkAll fuel names L rest
      else .error .exit

/-- `sort.Slice` of all children by `Name` (coin.go:228-230): any ordered permutation. -/
def SortedLinks (L L' : Links) : Prop :=
  L'.parent = L.parent ∧ ∀ p, (L'.children p).Perm (L.children p) ∧
    (L'.children p).Pairwise (fun a b => strLt (parentAndName b).2 (parentAndName a).2 = false)

/-- Outcome of a successful `ResolveAccounts` (coin.go:162-233) on the declared accounts: the account map and the tree, for
some iteration orders of the map. (Commodity lookup, which may exit, is in `Model/Ledger.lean`.) -/
def ResolvedAccounts (dflt : Str) (decls accts : List Acct) (L : Links) : Prop :=
  ∃ known order fuel L0, known.Perm (baseAccounts dflt decls) ∧ accts = createParents dflt known (baseAccounts dflt decls) ∧
    order.Perm (accts.map (·.fullName)) ∧ linkAll fuel (accts.map (·.fullName)) Links.empty order = .ok L0 ∧ SortedLinks L0 L

/-- `!a.Closed.IsZero()`. -/
def ownClosed (accts : List Acct) (a : Str) : Bool :=
  match getAcct accts a with | some x => x.closed.isSome | none => false

/-- `(*Account).IsClosed` (account.go:170-175): recursion through `Parent`. -/
def isClosed (accts : List Acct) (parent : Str → Option Str) : Nat → Option Str → Except Fault Bool
  | 0, _ => .error .loop
  | _ + 1, none => .ok false
  | k + 1, some a => (isClosed accts parent k (parent a)).bind fun b =>
      .ok (b || ownClosed accts a)

/-- `(*Account).Depth` (account.go:177-182). -/
def depth (parent : Str → Option Str) : Nat → Str → Except Fault Nat
  | 0, _ => .error .loop
  | k + 1, a =>
    match parent a with
    | none => .ok 1
    | some p => if p = rootName then .ok 1 else (depth parent k p).bind fun d => .ok (d + 1)

/-! ### Finding accounts -/

/-- `FindAccounts` (coin.go:347-360): the names matching the compiled pattern, in byte order. `m` is the compiled pattern
(`ToRegex`, coin.go:322-345) as a predicate on names. -/
def findAccounts (names : List Str) (m : Str → Bool) : List Str := sortStrings ((sortStrings names).filter m)

/-- The loop of `MustFindAccount` (coin.go:298-302): the assignment is part of the `if`, and the loop is left as soon as
`all` is true. -/
def allLoop (parent : Str) : Bool → List Str → Bool
  | all, [] => all
  | all, a :: rest =>
    let all := all && hasPrefix a parent
    if all then all else allLoop parent all rest

/-- `MustFindAccount` (coin.go:285-311); the panics are not recovered by callers. -/
def mustFindAccount (names : List Str) (m : Str → Bool) (pattern : Str) : Except Fault Str :=
  if pattern ∈ names then .ok pattern
  else match findAccounts names m with
    | [] => .error .panic
    | [a] => .ok a
    | a :: b :: rest => if allLoop a true (b :: rest) then .ok a else .error .panic

/-! ### Shortening names -/

/-- The loop of `ShortenAccountName` (account.go:303-311). -/
def shortenLoop : Int → List Str → List Str
  | _, [] => []
  | over, p :: rest =>
    if over > 0 then
      if p.length = 0 then p :: shortenLoop over rest
      else
        let drop := min over ((p.length : Int) - 1)
        p.take (p.length - drop.toNat) :: shortenLoop (over - drop) rest
    else p :: rest

/-- `ShortenAccountName` (account.go:297-313). Account names are ASCII (`AccountREX`), so byte and character lengths agree. -/
def shortenAccountName (n : Str) (size : Int) : Str :=
  if (n.length : Int) ≤ size then n
  else joinWith [':'] (shortenLoop (n.length - size) (splitOn ':' n))

end Verif
