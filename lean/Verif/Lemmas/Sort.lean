import Verif.Go.Sort
import Mathlib.Data.List.Perm.Basic
import Mathlib.Data.List.Nodup
import Mathlib.Data.List.Infix
import Mathlib.Tactic.Tauto
/-! Lemmas about the stable sort. -/
namespace Verif

theorem insertBy_perm {α} (lt : α → α → Bool) (a : α) (l : List α) : (insertBy lt a l).Perm (a :: l) := by
  induction l with
  | nil => exact List.Perm.refl _
  | cons b l ih =>
    unfold insertBy
    split
    · exact (ih.cons b).trans (List.Perm.swap a b l)
    · exact List.Perm.refl _

theorem stableSort_perm {α} (lt : α → α → Bool) (l : List α) : (stableSort lt l).Perm l := by
  induction l with
  | nil => exact List.Perm.refl _
  | cons a l ih => exact (insertBy_perm lt a _).trans (ih.cons a)

/-- Strict weak order, as `sort` requires of its `less` function. -/
structure StrictWeak {α} (lt : α → α → Bool) : Prop where
  asymm : ∀ a b, lt a b = true → lt b a = false
  negTrans : ∀ a b c, lt a b = false → lt b c = false → lt a c = false

theorem insertBy_sorted {α} (lt : α → α → Bool) (h : StrictWeak lt) (a : α) (l : List α)
    (hs : l.Pairwise (fun x y => lt y x = false)) : (insertBy lt a l).Pairwise (fun x y => lt y x = false) := by
  induction l with
  | nil => simp [insertBy]
  | cons b l ih =>
    obtain ⟨h1, h2⟩ := List.pairwise_cons.mp hs
    unfold insertBy
    split
    · rename_i hba
      refine List.pairwise_cons.mpr ⟨?_, ih h2⟩
      intro x hx
      rcases List.mem_cons.mp ((insertBy_perm lt a l).mem_iff.mp hx) with rfl | hx
      · exact h.asymm _ _ hba
      · exact h1 x hx
    · rename_i hba
      have hba : lt b a = false := by simpa using hba
      refine List.pairwise_cons.mpr ⟨?_, hs⟩
      intro x hx
      rcases List.mem_cons.mp hx with rfl | hx
      · exact hba
      · exact h.negTrans _ _ _ (h1 x hx) hba

theorem stableSort_sorted {α} (lt : α → α → Bool) (h : StrictWeak lt) (l : List α) :
    (stableSort lt l).Pairwise (fun x y => lt y x = false) := by
  induction l with
  | nil => exact List.Pairwise.nil
  | cons a l ih => exact insertBy_sorted lt h a _ ih

/-- Elements of one equivalence class (given by any predicate `P` such that two `P` elements are never `lt`) keep their order. -/
theorem insertBy_filter {α} (lt : α → α → Bool) (P : α → Bool) (hP : ∀ a b, P a = true → P b = true → lt a b = false)
    (a : α) (l : List α) : (insertBy lt a l).filter P = (a :: l).filter P := by
  induction l with
  | nil => rfl
  | cons b l ih =>
    unfold insertBy
    split
    · rename_i hba
      rw [List.filter_cons, ih, List.filter_cons, List.filter_cons, List.filter_cons]
      by_cases ha : P a = true
      · by_cases hb : P b = true
        · rw [hP b a hb ha] at hba; simp at hba
        · simp [ha, hb]
      · simp [ha]
    · rfl

theorem stableSort_filter {α} (lt : α → α → Bool) (P : α → Bool) (hP : ∀ a b, P a = true → P b = true → lt a b = false)
    (l : List α) : (stableSort lt l).filter P = l.filter P := by
  induction l with
  | nil => rfl
  | cons a l ih =>
    unfold stableSort
    rw [insertBy_filter lt P hP, List.filter_cons, List.filter_cons, ih]

theorem insertBy_id {α} (lt : α → α → Bool) (a : α) (l : List α) (h : ∀ b ∈ l, lt b a = false) :
    insertBy lt a l = a :: l := by
  cases l with
  | nil => rfl
  | cons b l => simp [insertBy, h b (by simp)]

/-- Sorting a sorted list changes nothing. -/
theorem stableSort_id {α} (lt : α → α → Bool) (l : List α) (hs : l.Pairwise (fun x y => lt y x = false)) :
    stableSort lt l = l := by
  induction l with
  | nil => rfl
  | cons a l ih =>
    obtain ⟨h1, h2⟩ := List.pairwise_cons.mp hs
    unfold stableSort
    rw [ih h2, insertBy_id lt a l h1]

/-! ### String order -/

theorem strLt_asymm (s t : Str) : strLt s t = true → strLt t s = false := by
  induction s generalizing t with
  | nil => cases t <;> simp [strLt]
  | cons a s ih =>
    cases t with
    | nil => simp [strLt]
    | cons b t =>
      simp only [strLt, Bool.or_eq_true, Bool.and_eq_true, decide_eq_true_eq, Bool.or_eq_false_iff, Bool.and_eq_false_iff,
        decide_eq_false_iff_not]
      rintro (h | ⟨rfl, h⟩)
      · exact ⟨by omega, .inl (by rintro rfl; omega)⟩
      · exact ⟨by omega, .inr (ih t h)⟩

theorem char_eq_of_toNat {a b : Char} (h : a.toNat = b.toNat) : a = b := by
  exact Char.ext (UInt32.toNat_inj.mp h)

theorem strLt_total (s t : Str) (h1 : strLt s t = false) (h2 : strLt t s = false) : s = t := by
  induction s generalizing t with
  | nil => cases t with
    | nil => rfl
    | cons => simp [strLt] at h1
  | cons a s ih =>
    cases t with
    | nil => simp [strLt] at h2
    | cons b t =>
      simp only [strLt, Bool.or_eq_false_iff, Bool.and_eq_false_iff, decide_eq_false_iff_not] at h1 h2
      have : a = b := char_eq_of_toNat (by omega)
      subst this
      rw [ih t (h1.2.resolve_left (by simp)) (h2.2.resolve_left (by simp))]

theorem strLt_trans (s t u : Str) (h1 : strLt s t = true) (h2 : strLt t u = true) : strLt s u = true := by
  induction s generalizing t u with
  | nil => cases t with
    | nil => simp [strLt] at h1
    | cons => cases u with
      | nil => simp [strLt] at h2
      | cons => rfl
  | cons a s ih =>
    cases t with
    | nil => simp [strLt] at h1
    | cons b t =>
      cases u with
      | nil => simp [strLt] at h2
      | cons c u =>
        simp only [strLt, Bool.or_eq_true, Bool.and_eq_true, decide_eq_true_eq] at h1 h2 ⊢
        rcases h1 with h1 | ⟨rfl, h1⟩
        · rcases h2 with h2 | ⟨rfl, h2⟩
          · left; omega
          · left; exact h1
        · rcases h2 with h2 | ⟨rfl, h2⟩
          · left; exact h2
          · right; exact ⟨rfl, ih t u h1 h2⟩

theorem strLt_irrefl (s : Str) : strLt s s = false := by
  by_contra h
  have h : strLt s s = true := by simpa using h
  have := strLt_asymm s s h
  rw [h] at this; simp at this

theorem strLt_strictWeak : StrictWeak strLt where
  asymm := strLt_asymm
  negTrans := by
    intro a b c h1 h2
    by_contra h
    have h : strLt a c = true := by simpa using h
    by_cases hb : strLt c b = true
    · have := strLt_trans _ _ _ h hb; rw [h1] at this; simp at this
    · have hb : strLt c b = false := by simpa using hb
      have := strLt_total _ _ h2 hb
      subst this; rw [h1] at h; simp at h

theorem strLt_of_prefix (s r : Str) (h : r ≠ []) : strLt s (s ++ r) = true := by
  induction s with
  | nil => cases r with
    | nil => exact absurd rfl h
    | cons => rfl
  | cons a s ih => simp [strLt, ih]

/-- Pullback of a strict weak order. -/
theorem StrictWeak.comap {α β} {lt : α → α → Bool} (h : StrictWeak lt) (f : β → α) :
    StrictWeak (fun x y => lt (f x) (f y)) :=
  ⟨fun _ _ => h.asymm _ _, fun _ _ _ => h.negTrans _ _ _⟩

theorem intLt_strictWeak : StrictWeak (fun a b : Int => decide (a < b)) where
  asymm := by intro a b; simp; omega
  negTrans := by intro a b c; simp; omega

/-- A sorted permutation is unique when ties are equal. -/
theorem sorted_perm_unique {α} (lt : α → α → Bool) (htot : ∀ a b, lt a b = false → lt b a = false → a = b)
    (l l' : List α) (hp : l.Perm l') (h1 : l.Pairwise (fun x y => lt y x = false)) (h2 : l'.Pairwise (fun x y => lt y x = false)) :
    l = l' := by
  induction l generalizing l' with
  | nil => exact hp.nil_eq
  | cons a l ih =>
    cases l' with
    | nil => exact absurd hp.eq_nil (by simp)
    | cons b l' =>
      obtain ⟨ha, hl⟩ := List.pairwise_cons.mp h1
      obtain ⟨hb, hl'⟩ := List.pairwise_cons.mp h2
      have hab : a = b := by
        by_cases h : a = b
        · exact h
        · have hb' : b ∈ l := by
            have := hp.mem_iff.mpr (List.mem_cons_self (a := b)); simpa [Ne.symm h] using this
          have ha' : a ∈ l' := by
            have := hp.mem_iff.mp (List.mem_cons_self (a := a)); simpa [h] using this
          exact htot _ _ (hb a ha') (ha b hb')
      subst hab
      rw [ih l' (List.perm_cons a |>.mp hp) hl hl']

end Verif
