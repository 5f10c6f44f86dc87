import Verif.Model.Accounts
import Verif.Model.Parser
import Verif.Model.Prices
import Verif.Model.Date
/-
Model of the listing commands: cmd/coin/accounts.go and cmd/coin/commodities.go (without quotes from the net).
-/
namespace Verif

/-- `CommoditiesDo` and `AccountsDo` (coin.go:362-382): the entries of the map in the order of their keys. `m` is the map in its
iteration order. -/
def inOrder {α} (key : α → Str) (m : List α) : List α :=
  (sortStrings (m.map key)).filterMap fun n => m.find? (fun a => decide (key a = n))

/-- The first pass of `execute` (accounts.go:42-49): the longest name that is selected, closed or not; names are ASCII. -/
def accountsWidth (sel : Str → Bool) (names : List Str) : Nat := names.foldl (fun w n => if sel n && decide (w < n.length) then n.length else w) 0

/-- A line (accounts.go:57). -/
def acctListLine (w : Nat) (a : Acct) : Str := padRight w a.fullName ++ str " | " ++ padRight 10 a.commodityId ++ str " | " ++ a.description

/-- The second pass of `execute` (accounts.go:50-58); `closed` is the flag -c, `isClosed` the method of the account. -/
def accountsPass (closed : Bool) (isClosed : Str → Except Fault Bool) (sel : Str → Bool) (w : Nat) : List Acct → Except Fault (List Str)
  | [] => .ok []
  | a :: as =>
    (if closed then .ok false else isClosed a.fullName).bind fun c =>
    (accountsPass closed isClosed sel w as).bind fun ls =>
    .ok (if c then ls else if sel a.fullName then acctListLine w a :: ls else ls)

/-- `cmdAccounts.execute` (accounts.go:37-59) on the account map; `sel` is the pattern, if any. -/
def accountsCmd (accts : List Acct) (parent : Str → Option Str) (fuel : Nat) (closed : Bool) (sel : Option (Str → Bool)) : Except Fault (List Str) :=
  let sel := sel.getD (fun _ => true)
  let as := inOrder (·.fullName) accts
  accountsPass closed (fun n => isClosed accts parent fuel (some n)) sel (accountsWidth sel (as.map (·.fullName))) as

/-- A line of the list of commodities (commodities.go:103-108). -/
def comListLine (c : PCom) : Str :=
  padLeft 10 c.id ++ str " | " ++ padLeft 10 c.symbol ++ str " | " ++ [if c.symbol ≠ [] ∧ c.noMarket = false then 'Q' else ' '] ++ str " | " ++ c.name

/-- The list of commodities (commodities.go:99-110 without flags). -/
def commoditiesCmd (coms : List PCom) : List Str := (inOrder (·.id) coms).map comListLine

/-- A line of the list of prices (commodities.go:60); the value's commodity is the currency. -/
def priceLine (p : Price) : Except Fault Str := p.value.string.bind fun v => .ok (formatDate p.time ++ str " " ++ v ++ str " " ++ p.value.com.id)

/-- The list of prices of a commodity (commodities.go:54-63); `prices` is the map in its iteration order. -/
def pricesCmd (prices : List (Com × List Price)) : Except Fault (List Str) := (prices.flatMap (·.2)).mapM priceLine

end Verif
