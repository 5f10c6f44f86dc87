import Verif.Model.Range
import Verif.Lemmas.Postings
/-!
# Properties C33–C35: date ranges
-/
namespace Verif

/-- In date order (the order established by loading, C29/C32). -/
def InDateOrder {α} (date : α → Int) (l : List α) : Prop := l.Pairwise (fun a b => date a ≤ date b)

theorem split_notBefore {α} (date : α → Int) (d : Int) (l : List α) (hs : InDateOrder date l) :
    l = l.filter (fun x => decide (date x < d)) ++ l.filter (fun x => decide (d ≤ date x)) := by
  induction l with
  | nil => rfl
  | cons a l ih =>
    obtain ⟨h1, h2⟩ := List.pairwise_cons.mp hs
    by_cases h : date a < d
    · have h' : ¬ d ≤ date a := by omega
      simp only [List.filter_cons, h, h', decide_true, decide_false, if_true, List.cons_append]
      simpa using ih h2
    · have h' : d ≤ date a := by omega
      have hall : l.filter (fun x => decide (date x < d)) = [] := by
        rw [List.filter_eq_nil_iff]; intro x hx; have := h1 x hx; simp; omega
      have ih' := ih h2
      rw [hall] at ih'
      simp only [List.filter_cons, h, h', decide_true, decide_false, if_true, hall]
      simpa using ih'

theorem searchNotBefore_eq {α} [Inhabited α] (date : α → Int) (d : Int) (l : List α) (hs : InDateOrder date l) :
    searchNotBefore date l d = (l.filter (fun x => decide (date x < d))).length := by
  unfold searchNotBefore search
  have := searchLoop_append (fun x => !decide (date x < d)) default (l.filter (fun x => decide (date x < d)))
    (l.filter (fun x => decide (d ≤ date x))) (by intro x hx; simp at hx ⊢; exact hx.2) (by intro x hx; simp at hx ⊢; exact hx.2)
  rw [← split_notBefore date d l hs] at this
  exact this

theorem drop_search {α} [Inhabited α] (date : α → Int) (d : Int) (l : List α) (hs : InDateOrder date l) :
    l.drop (searchNotBefore date l d) = l.filter (fun x => decide (d ≤ date x)) := by
  rw [searchNotBefore_eq date d l hs]
  conv_lhs => arg 2; rw [split_notBefore date d l hs]
  simp

theorem take_search {α} [Inhabited α] (date : α → Int) (d : Int) (l : List α) (hs : InDateOrder date l) :
    l.take (searchNotBefore date l d) = l.filter (fun x => decide (date x < d)) := by
  rw [searchNotBefore_eq date d l hs]
  conv_lhs => arg 2; rw [split_notBefore date d l hs]
  simp

/-- The elements with `b ≤ date < e`, in order; a missing bound does not restrict. -/
def inRange {α} (date : α → Int) (b e : Option Int) (l : List α) : List α :=
  l.filter (fun x => (∀ d ∈ b, d ≤ date x) ∧ (∀ d ∈ e, date x < d))

theorem endCut {α} [Inhabited α] (date : α → Int) (e : Int) (l : List α) (hs : InDateOrder date l) :
    (if searchNotBefore date l e = l.length then l else l.take (searchNotBefore date l e)) = l.filter (fun x => decide (date x < e)) := by
  rw [take_search date e l hs]
  split
  · rename_i h
    have := take_search date e l hs
    rw [h, List.take_length] at this
    exact this
  · rfl

/-- **C33** On a list in date order, `Day(d)` returns exactly the elements of day `d`, in their order. -/
theorem C33_day {α} [Inhabited α] (date : α → Int) (l : List α) (d : Int) (hs : InDateOrder date l) :
    dayOf date l d = l.filter (fun x => decide (date x = d)) := by
  have hdrop := drop_search date d l hs
  unfold dayOf
  simp only
  split
  · rename_i h
    rw [h, List.drop_length] at hdrop
    symm
    rw [List.filter_eq_nil_iff]
    have := List.filter_eq_nil_iff.mp hdrop.symm
    intro x hx
    have := this x hx
    simp at this ⊢; omega
  · set s := searchNotBefore date l d
    have hs2 : InDateOrder date (l.filter (fun x => decide (d ≤ date x))) := hs.sublist List.filter_sublist
    have hlen : l.length - s = (l.filter (fun x => decide (d ≤ date x))).length := by rw [← hdrop]; simp
    have hget : ∀ i, l.getD (s + i) default = (l.filter (fun x => decide (d ≤ date x))).getD i default := by
      intro i; rw [← hdrop]; simp [List.getD_eq_getElem?_getD, List.getElem?_drop]
    simp only [hget]
    rw [hlen, hdrop]
    have hfun : (fun i => decide (d < date ((l.filter (fun x => decide (d ≤ date x))).getD i default))) =
        fun i => !decide (date ((l.filter (fun x => decide (d ≤ date x))).getD i default) < d + 1) := by
      funext i
      rw [Bool.eq_iff_iff]; simp; omega
    rw [hfun]
    change (List.filter _ l).take (searchNotBefore date _ (d + 1)) = _
    rw [take_search date (d + 1) _ hs2, List.filter_filter]
    apply List.filter_congr
    intro x _
    rw [Bool.eq_iff_iff]; simp; omega

/-- **C34** The begin/end filter of `balance` and `register` keeps exactly the postings with `begin ≤ date < end`, in order. -/
theorem C34_trim {α} [Inhabited α] (date : α → Int) (l : List α) (b e : Option Int) (hs : InDateOrder date l) :
    trimRange date l b e = inRange date b e l := by
  have hstep : ∀ l' : List α, InDateOrder date l' → cutEnd date l' e =
      l'.filter (fun x => decide (∀ d ∈ e, date x < d)) := by
    intro l' hs'
    cases e with
    | none => simp [cutEnd]
    | some e =>
      simp only [cutEnd, endCut date e l' hs']
      apply List.filter_congr; intro x _; simp
  cases b with
  | none =>
    simp only [trimRange, inRange]
    rw [hstep l hs]
    apply List.filter_congr; intro x _; simp
  | some b =>
    simp only [trimRange, inRange]
    have hd := drop_search date b l hs
    split
    · rename_i h
      rw [h, List.drop_length] at hd
      symm
      rw [List.filter_eq_nil_iff]
      have := List.filter_eq_nil_iff.mp hd.symm
      intro x hx
      have := this x hx
      simp at this ⊢; intro h; omega
    · rw [hd, hstep _ (hs.sublist List.filter_sublist), List.filter_filter]
      apply List.filter_congr; intro x _; simp [Bool.and_comm]

/-- **C35** `stats -b -e` considers exactly the transactions with `begin ≤ date < end`. -/
theorem C35_stats_range {α} [Inhabited α] (date : α → Int) (l : List α) (b e : Option Int) (hs : InDateOrder date l) :
    statsTransactions date l b e = inRange date b e l := by
  rw [← C34_trim date l b e hs]
  unfold statsTransactions trimRange
  cases b with
  | none => cases e <;> rfl
  | some b => by_cases h : searchNotBefore date l b = l.length <;> simp only [h, if_true, if_false] <;> cases e <;> rfl

example : dayOf id [1, 2, 2, 4, 4, 4, 7] 4 = [4, 4, 4] := by
  rw [C33_day _ _ _ (by unfold InDateOrder; decide)]; decide
example : trimRange id [1, 2, 2, 4, 7] (some 2) (some 7) = [2, 2, 4] := by
  rw [C34_trim _ _ _ _ (by unfold InDateOrder; decide)]; decide
example : statsTransactions id [1, 2, 2, 4, 7] (some 3) none = [4, 7] := by
  rw [C35_stats_range _ _ _ _ (by unfold InDateOrder; decide)]; decide

end Verif
