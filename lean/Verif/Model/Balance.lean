import Verif.Model.Select
/-
Model of the `balance` command (cmd/coin/balance.go) and of the tree walks it uses (account.go:207-219).
-/
namespace Verif

/-- The accounts visited by `FirstWithChildrenDo` (account.go:214-219), in order: children first. -/
def subtreePost (children : Str → List Str) : Nat → Str → List Str
  | 0, _ => []
  | k + 1, a => (children a).flatMap (subtreePost children k) ++ [a]

/-- A map from accounts to amounts. -/
abbrev AmtMap := Str → Option Amount

def AmtMap.set (m : AmtMap) (a : Str) (x : Amount) : AmtMap := fun y => if y = a then some x else m y

/-- First walk of `execute` (balance.go:51-59): own totals. -/
def ownTotals (env : Env) (compile : Compile) (v : View) (f : Filters) : AmtMap → List Str → Except Fault AmtMap
  | m, [] => .ok m
  | m, a :: rest =>
    (balanceTrim compile v f (v.postings a)).bind fun ps =>
    (checkNoError (sumInto env.conv (zeroAmount (env.comOf a)) (ps.map v.qty))).bind fun t =>
    ownTotals env compile v f (m.set a t) rest

/-- Second walk (balance.go:60-68): adding each account's cumulative amount to its parent's, if that is in the map. -/
def addUp (env : Env) (parent : Str → Option Str) : AmtMap → List Str → Except Fault AmtMap
  | m, [] => .ok m
  | m, a :: rest =>
    match parent a with
    | none => addUp env parent m rest
    | some p =>
      match m p with
      | none => addUp env parent m rest
      | some cump =>
        match m a with
        | none => .error .panic        -- nil *Amount passed to AddIn
        | some cum => (checkNoError (cump.addIn env.conv cum)).bind fun x => addUp env parent (m.set p x) rest

/-- `!cum.IsZero()` (amount.go) on a map entry; the walk only meets entries that exist. -/
def entryNonZero : Option Amount → Bool
  | none => false
  | some x => decide (x.int ≠ 0)

/-- The rows of `print` (balance.go:72-83): accounts of the walk passing level and zero filters, with both amounts. `fuel`
bounds `Depth()`. -/
def balanceRows (parent : Str → Option Str) (fuel : Nat) (level : Int) (zero : Bool) (totals cum : AmtMap) :
    List Str → Except Fault (List (Str × Option Amount × Option Amount))
  | [] => .ok []
  | a :: rest =>
    (if level = 0 then .ok false else (depth parent fuel a).bind fun d => .ok (decide ((d : Int) > level))).bind fun skip =>
    (balanceRows parent fuel level zero totals cum rest).bind fun rows =>
    .ok (if skip then rows else if zero || entryNonZero (cum a) then (a, totals a, cum a) :: rows else rows)

/-- `cmdBalance.execute` (balance.go:44-70) for the account `acc`: the printed rows (name, own total, cumulative total). -/
def balanceCmd (env : Env) (compile : Compile) (v : View) (L : Links) (fuel : Nat) (f : Filters) (level : Int) (zero : Bool)
    (acc : Str) : Except Fault (List (Str × Option Amount × Option Amount)) :=
  let walk := subtree L.children fuel acc
  (ownTotals env compile v f (fun _ => none) walk).bind fun totals =>
  (addUp env L.parent totals (subtreePost L.children fuel acc)).bind fun cum =>
  balanceRows L.parent fuel level zero totals cum walk

end Verif
