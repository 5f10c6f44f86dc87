import Verif.Lemmas.Basic
import Verif.Model.Postings
import Mathlib.Data.List.Perm.Basic
import Mathlib.Data.List.Nodup
import Mathlib.Data.List.Infix
import Mathlib.Order.Defs.LinearOrder
/-!
Lemmas about sorted posting lists and the binary search over them.
-/
namespace Verif

/-- Binary search over a list split into a part failing and a part satisfying the predicate. -/
theorem searchLoop_append {α} (f : α → Bool) (d : α) (X Y : List α) (hX : ∀ x ∈ X, f x = false) (hY : ∀ y ∈ Y, f y = true) :
    searchLoop (fun i => f ((X ++ Y).getD i d)) 0 (X ++ Y).length = X.length := by
  have := search_eq (X ++ Y).length (fun i => f ((X ++ Y).getD i d)) X.length (by simp) ?_ ?_
  · exact this
  · intro k hk
    have : (X ++ Y).getD k d = X[k] := by
      simp [List.getD_eq_getElem?_getD, List.getElem?_append_left hk, hk]
    simp only [this]
    exact hX _ (List.getElem_mem hk)
  · intro k hk hk2
    have hk3 : k - X.length < Y.length := by simp at hk2; omega
    have : (X ++ Y).getD k d = Y[k - X.length] := by
      simp [List.getD_eq_getElem?_getD, List.getElem?_append_right hk, hk3]
    simp only [this]
    exact hY _ (List.getElem_mem hk3)

/-- A list sorted by `date` falls into the parts before, at and after `d`. -/
theorem sorted_split {α} (date : α → Int) (d : Int) (l : List α) (hs : l.Pairwise (fun a b => date a ≤ date b)) :
    l = l.filter (fun x => decide (date x < d)) ++ (l.filter (fun x => decide (date x = d)) ++
      l.filter (fun x => decide (d < date x))) := by
  induction l with
  | nil => rfl
  | cons a l ih =>
    obtain ⟨h1, h2⟩ := List.pairwise_cons.mp hs
    have ih := ih h2
    rcases lt_trichotomy (date a) d with h | h | h
    · simp only [List.filter_cons, h, decide_true, if_true, show ¬ (date a = d) by omega, show ¬ (d < date a) by omega,
        decide_false]
      simp only [Bool.false_eq_true, if_false, List.cons_append]
      rw [← ih]
    · have hA : l.filter (fun x => decide (date x < d)) = [] := by
        rw [List.filter_eq_nil_iff]; intro x hx; have := h1 x hx; simp; omega
      rw [hA, List.nil_append] at ih
      simp only [List.filter_cons, h, decide_true, if_true, lt_irrefl, decide_false, Bool.false_eq_true, if_false,
        hA, List.nil_append, List.cons_append]
      rw [← ih]
    · have hA : l.filter (fun x => decide (date x < d)) = [] := by
        rw [List.filter_eq_nil_iff]; intro x hx; have := h1 x hx; simp; omega
      have hB : l.filter (fun x => decide (date x = d)) = [] := by
        rw [List.filter_eq_nil_iff]; intro x hx; have := h1 x hx; simp; omega
      rw [hA, hB, List.nil_append, List.nil_append] at ih
      simp only [List.filter_cons, h, decide_true, if_true, show ¬ (date a = d) by omega, show ¬ (date a < d) by omega,
        decide_false, Bool.false_eq_true, if_false, hA, hB, List.nil_append]
      rw [← ih]

theorem scanFrom_spec (date : PRef → Int) (p : PRef) (B C : List PRef) (i : Nat) (hB : ∀ q ∈ B, date q = date p)
    (hC : ∀ q ∈ C, date q ≠ date p) :
    scanFrom date p i (B ++ C) = if p ∈ B then (i + B.idxOf p, true) else (i + B.length, false) := by
  induction B generalizing i with
  | nil =>
    cases C with
    | nil => simp [scanFrom]
    | cons c C => simp [scanFrom, hC c (by simp)]
  | cons b B ih =>
    have ih := ih (i + 1) (fun q hq => hB q (by simp [hq]))
    rw [List.cons_append, scanFrom]
    simp only [hB b (by simp), if_true]
    by_cases hbp : b = p
    · subst hbp; simp
    · simp only [hbp, if_false, ih, List.mem_cons, Ne.symm hbp, false_or]
      split
      · rw [List.idxOf_cons_ne _ (by simpa using hbp)]; congr 1; omega
      · simp; omega

/-- What `findPosting` computes on a sorted list. -/
theorem findPosting_spec (date : PRef → Int) (A B C : List PRef) (p : PRef) (hA : ∀ q ∈ A, date q < date p)
    (hB : ∀ q ∈ B, date q = date p) (hC : ∀ q ∈ C, date p < date q) :
    findPosting date (A ++ (B ++ C)) p =
      if p ∈ B then (A.length + B.idxOf p, true) else (A.length + B.length, false) := by
  have hfind : (find (A ++ (B ++ C)).length (fun i => timeCompare (date p) (date ((A ++ (B ++ C)).getD i 0)))).1 = A.length := by
    unfold find
    simp only
    refine searchLoop_append (fun q => decide (¬ timeCompare (date p) (date q) > 0)) 0 A (B ++ C) ?_ ?_
    · intro q hq
      have := hA q hq
      simp [timeCompare, show ¬ date p < date q by omega, show ¬ date p = date q by omega]
    · intro q hq
      rcases List.mem_append.mp hq with hq | hq
      · have := hB q hq; simp [timeCompare, this]
      · have := hC q hq; simp [timeCompare, this]
  have hfound : (find (A ++ (B ++ C)).length (fun i => timeCompare (date p) (date ((A ++ (B ++ C)).getD i 0)))).2 = decide (B ≠ []) := by
    have h2 : (find (A ++ (B ++ C)).length (fun i => timeCompare (date p) (date ((A ++ (B ++ C)).getD i 0)))).2 =
      (decide (A.length < (A ++ (B ++ C)).length) && decide (timeCompare (date p) (date ((A ++ (B ++ C)).getD A.length 0)) = 0)) := by
      rw [← hfind]; rfl
    rw [h2]
    cases B with
    | nil =>
      cases C with
      | nil => simp
      | cons c C =>
        have := hC c (by simp)
        simp [timeCompare, this]
    | cons b B =>
      have := hB b (by simp)
      simp [timeCompare, this]
  unfold findPosting
  generalize hf : find (A ++ (B ++ C)).length (fun i => timeCompare (date p) (date ((A ++ (B ++ C)).getD i 0))) = r at hfind hfound
  obtain ⟨i, found⟩ := r
  simp only at hfind hfound
  subst hfind hfound
  cases B with
  | nil => simp
  | cons b B =>
    simp only [ne_eq, reduceCtorEq, not_false_eq_true, decide_true, Bool.not_true, Bool.false_eq_true, if_false]
    have hdrop : (A ++ (b :: B ++ C)).drop A.length = (b :: B) ++ C := by simp
    rw [hdrop]
    exact scanFrom_spec date p (b :: B) C A.length hB (fun q hq => by have := hC q hq; omega)

/-- A posting list is sorted by date. -/
def SortedBy (date : PRef → Int) (l : List PRef) : Prop := l.Pairwise (fun a b => date a ≤ date b)

theorem exists_split (date : PRef → Int) (l : List PRef) (p : PRef) (hs : SortedBy date l) :
    ∃ A B C, l = A ++ (B ++ C) ∧ (∀ q ∈ A, date q < date p) ∧ (∀ q ∈ B, date q = date p) ∧ (∀ q ∈ C, date p < date q) :=
  ⟨_, _, _, sorted_split date (date p) l hs, by simp, by simp, by simp⟩

theorem addPosting_split (date : PRef → Int) (A B C : List PRef) (p : PRef) (hA : ∀ q ∈ A, date q < date p)
    (hB : ∀ q ∈ B, date q = date p) (hC : ∀ q ∈ C, date p < date q) :
    addPosting date (A ++ (B ++ C)) p = if p ∈ B then A ++ (B ++ C) else A ++ (B ++ p :: C) := by
  unfold addPosting
  rw [findPosting_spec date A B C p hA hB hC]
  by_cases h : p ∈ B
  · simp [h]
  · simp only [h, if_false, Bool.false_eq_true]
    rw [← List.append_assoc, ← List.length_append, List.take_left', List.drop_left'] <;> simp

theorem deletePosting_split (date : PRef → Int) (A B C : List PRef) (p : PRef) (hA : ∀ q ∈ A, date q < date p)
    (hB : ∀ q ∈ B, date q = date p) (hC : ∀ q ∈ C, date p < date q) :
    deletePosting date (A ++ (B ++ C)) p = A ++ (B.erase p ++ C) := by
  unfold deletePosting
  rw [findPosting_spec date A B C p hA hB hC]
  by_cases h : p ∈ B
  · simp only [h, if_true]
    obtain ⟨B1, B2, rfl, hn⟩ : ∃ B1 B2, B = B1 ++ p :: B2 ∧ p ∉ B1 := List.eq_append_cons_of_mem h
    have hi : (B1 ++ p :: B2).idxOf p = B1.length := by
      rw [List.idxOf_append_of_notMem hn]; simp
    rw [hi, List.erase_append_right _ hn]
    have e1 : A ++ (B1 ++ p :: B2 ++ C) = (A ++ B1) ++ (p :: (B2 ++ C)) := by simp
    have e2 : A.length + B1.length = (A ++ B1).length := by simp
    rw [e1, e2, List.take_left', ← List.drop_drop, List.drop_left'] <;> simp
  · simp [h, List.erase_of_not_mem h]

theorem mem_split_iff (date : PRef → Int) (A B C : List PRef) (p : PRef) (hA : ∀ q ∈ A, date q < date p)
    (hC : ∀ q ∈ C, date p < date q) : p ∈ A ++ (B ++ C) ↔ p ∈ B := by
  simp only [List.mem_append]
  constructor
  · rintro (h | h | h)
    · have := hA p h; omega
    · exact h
    · have := hC p h; omega
  · intro h; exact .inr (.inl h)

theorem addPosting_mem (date : PRef → Int) (l : List PRef) (p : PRef) (hs : SortedBy date l) (h : p ∈ l) :
    addPosting date l p = l := by
  obtain ⟨A, B, C, rfl, hA, hB, hC⟩ := exists_split date l p hs
  rw [addPosting_split date A B C p hA hB hC, if_pos ((mem_split_iff date A B C p hA hC).mp h)]

theorem addPosting_new (date : PRef → Int) (l : List PRef) (p : PRef) (hs : SortedBy date l) (h : p ∉ l) :
    ∃ L R, l = L ++ R ∧ addPosting date l p = L ++ p :: R ∧ (∀ q ∈ L, date q ≤ date p) ∧ (∀ q ∈ R, date p < date q) := by
  obtain ⟨A, B, C, rfl, hA, hB, hC⟩ := exists_split date l p hs
  rw [addPosting_split date A B C p hA hB hC, if_neg (fun h' => h ((mem_split_iff date A B C p hA hC).mpr h'))]
  refine ⟨A ++ B, C, by simp, by simp, ?_, hC⟩
  intro q hq
  rcases List.mem_append.mp hq with hq | hq
  · exact le_of_lt (hA q hq)
  · exact le_of_eq (hB q hq)

theorem deletePosting_eq_erase (date : PRef → Int) (l : List PRef) (p : PRef) (hs : SortedBy date l) :
    deletePosting date l p = l.erase p := by
  obtain ⟨A, B, C, rfl, hA, hB, hC⟩ := exists_split date l p hs
  rw [deletePosting_split date A B C p hA hB hC]
  have hpA : p ∉ A := fun h => by have := hA p h; omega
  have hpC : p ∉ C := fun h => by have := hC p h; omega
  rw [List.erase_append_right _ hpA]
  congr 1
  by_cases h : p ∈ B
  · rw [List.erase_append_left _ h]
  · rw [List.erase_append_right _ h, List.erase_of_not_mem h, List.erase_of_not_mem hpC]

theorem addPosting_perm (date : PRef → Int) (l : List PRef) (p : PRef) (hs : SortedBy date l) (h : p ∉ l) :
    (addPosting date l p).Perm (p :: l) := by
  obtain ⟨L, R, rfl, e, _, _⟩ := addPosting_new date l p hs h
  rw [e]; exact List.perm_middle

theorem addPosting_sorted (date : PRef → Int) (l : List PRef) (p : PRef) (hs : SortedBy date l) :
    SortedBy date (addPosting date l p) := by
  by_cases h : p ∈ l
  · rw [addPosting_mem date l p hs h]; exact hs
  · obtain ⟨L, R, rfl, e, hL, hR⟩ := addPosting_new date l p hs h
    rw [e]
    unfold SortedBy at *
    rw [List.pairwise_append] at hs ⊢
    obtain ⟨h1, h2, h3⟩ := hs
    refine ⟨h1, List.pairwise_cons.mpr ⟨fun q hq => le_of_lt (hR q hq), h2⟩, ?_⟩
    intro a ha b hb
    rcases List.mem_cons.mp hb with rfl | hb
    · exact hL a ha
    · exact h3 a ha b hb

theorem mem_addPosting (date : PRef → Int) (l : List PRef) (p q : PRef) (hs : SortedBy date l) :
    q ∈ addPosting date l p ↔ q = p ∨ q ∈ l := by
  by_cases h : p ∈ l
  · rw [addPosting_mem date l p hs h]
    constructor
    · exact .inr
    · rintro (rfl | h'); exacts [h, h']
  · rw [(addPosting_perm date l p hs h).mem_iff]; simp

theorem addPosting_nodup (date : PRef → Int) (l : List PRef) (p : PRef) (hs : SortedBy date l) (hn : l.Nodup) :
    (addPosting date l p).Nodup := by
  by_cases h : p ∈ l
  · rw [addPosting_mem date l p hs h]; exact hn
  · rw [(addPosting_perm date l p hs h).nodup_iff]; exact List.nodup_cons.mpr ⟨h, hn⟩

theorem deletePosting_sorted (date : PRef → Int) (l : List PRef) (p : PRef) (hs : SortedBy date l) :
    SortedBy date (deletePosting date l p) := by
  rw [deletePosting_eq_erase date l p hs]
  exact hs.sublist List.erase_sublist

theorem deletePosting_nodup (date : PRef → Int) (l : List PRef) (p : PRef) (hs : SortedBy date l) (hn : l.Nodup) :
    (deletePosting date l p).Nodup := by
  rw [deletePosting_eq_erase date l p hs]
  exact hn.erase _

end Verif
