import Verif.Model.Amount
import Mathlib.Data.List.Forall2
/-
Model of the price part of coin.go (ResolvePrices) and commodity.go (AddPrice).
-/
namespace Verif

/-- One parsed `P` line after its commodities were looked up (price.go:13-23, coin.go:144-146). -/
structure PriceItem where
  commodity : Com
  currency : Com
  price : Price
  deriving DecidableEq, Repr, Inhabited

/-- `(*Commodity).AddPrice` (commodity.go:40-45): append to the list kept for the currency. -/
def addPrice : List (Com × List Price) → Com → Price → List (Com × List Price)
  | [], cur, p => [(cur, [p])]
  | (c, l) :: rest, cur, p => if c = cur then (c, l ++ [p]) :: rest else (c, l) :: addPrice rest cur p

/-- The maps after the first loop of `ResolvePrices` (coin.go:144-148), for each commodity. -/
def loadPrices (items : List PriceItem) : PriceDB := fun c =>
  (items.filter (fun i => decide (i.commodity = c))).foldl (fun m i => addPrice m i.currency i.price) []

/-- `ResolvePrices` (coin.go:143-160): every price list is sorted by `sort.Slice` with the comparison
"later date first". `sort.Slice` is not stable, so the outcome is any permutation that is sorted. -/
def IsResolved (items : List PriceItem) (db : PriceDB) : Prop := ∀ c,
  List.Forall₂ (fun e e' => e'.1 = e.1 ∧ e'.2.Perm e.2 ∧ e'.2.Pairwise (fun p q => q.time ≤ p.time))
    (loadPrices items c) (db c)

end Verif
