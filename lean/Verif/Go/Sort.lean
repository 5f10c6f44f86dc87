import Verif.Go.Basic
/-
`sort.SliceStable` / `sort.Stable` / `sort.Strings`. A stable sort by a strict weak order has exactly one result, which is
computed here by insertion; the lemmas in `Lemmas/Sort.lean` (permutation, ordered, ties in input order) characterise it.
-/
namespace Verif

/-- Insert `a` in front of the first element that is not less than `a`. -/
def insertBy {α} (lt : α → α → Bool) (a : α) : List α → List α
  | [] => [a]
  | b :: l => if lt b a then b :: insertBy lt a l else a :: b :: l

/-- Stable sort with respect to `lt` (`sort.SliceStable`, `sort.Stable`). -/
def stableSort {α} (lt : α → α → Bool) : List α → List α
  | [] => []
  | a :: l => insertBy lt a (stableSort lt l)

/-- Go string comparison: bytewise, which for UTF-8 is the lexicographic order of code points. -/
def strLt : Str → Str → Bool
  | _, [] => false
  | [], _ :: _ => true
  | a :: s, b :: t => decide (a.toNat < b.toNat) || (decide (a = b) && strLt s t)

/-- `sort.Strings`. -/
def sortStrings (l : List Str) : List Str := stableSort strLt l

/-- `strings.HasPrefix(s, p)`. -/
def hasPrefix (s p : Str) : Bool := p.isPrefixOf s

end Verif
