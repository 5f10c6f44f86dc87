import Verif.Lemmas.Postings
/-!
# Properties C17–C19: posting lists of accounts

`date p` is the posting date of `p`; all theorems hold for every assignment of dates.
-/
namespace Verif

/-- Every account's list is in date order and lists no posting twice. -/
def BooksOk (date : PRef → Int) (b : Books) : Prop :=
  ∀ a, (b.postings a).Pairwise (fun p q => date p ≤ date q) ∧ (b.postings a).Nodup

theorem booksOk_set (date : PRef → Int) (b : Books) (h : BooksOk date b) (a : Str) (l : List PRef)
    (hl : l.Pairwise (fun p q => date p ≤ date q) ∧ l.Nodup) : BooksOk date (b.setPostings a l) := by
  intro x
  unfold Books.setPostings
  by_cases hx : x = a
  · simp only [hx, if_true]; exact hl
  · simp only [hx, if_false]; exact h x

theorem booksOk_step (date : PRef → Int) (b b' : Books) (o : BookOp) (h : BooksOk date b) (hs : b.step date o = .ok b') :
    BooksOk date b' := by
  cases o with
  | post p a =>
    simp only [Books.step, Books.post, Except.ok.injEq] at hs
    subst hs
    exact booksOk_set date (b.setAccount p a) h a _ ⟨addPosting_sorted date _ p (h a).1, addPosting_nodup date _ p (h a).1 (h a).2⟩
  | move p a =>
    simp only [Books.step, Books.moveTo] at hs
    rcases hp : b.account p with _ | a0
    · rw [hp] at hs; simp at hs
    · rw [hp] at hs
      simp only at hs
      split at hs
      · injection hs with hs; subst hs; exact h
      · injection hs with hs; subst hs
        have h1 := booksOk_set date b h a0 _
          ⟨deletePosting_sorted date _ p (h a0).1, deletePosting_nodup date _ p (h a0).1 (h a0).2⟩
        exact booksOk_set date _ h1 a _
          ⟨addPosting_sorted date _ p (h1 a).1, addPosting_nodup date _ p (h1 a).1 (h1 a).2⟩
  | drop p =>
    simp only [Books.step, Books.dropPosting] at hs
    rcases hp : b.account p with _ | a0
    · rw [hp] at hs; simp at hs
    · rw [hp] at hs
      injection hs with hs; subst hs
      exact booksOk_set date b h a0 _
          ⟨deletePosting_sorted date _ p (h a0).1, deletePosting_nodup date _ p (h a0).1 (h a0).2⟩

/-- **C17** After any sequence of posting, moving and dropping postings – in any order, repeated or not – every account's
list is sorted by date and duplicate free. -/
theorem C17_sorted_nodup (date : PRef → Int) (ops : List BookOp) (b : Books) (h : Books.empty.run date ops = .ok b) :
    ∀ a, (b.postings a).Pairwise (fun p q => date p ≤ date q) ∧ (b.postings a).Nodup := by
  have gen : ∀ (ops : List BookOp) (b0 b : Books), BooksOk date b0 → b0.run date ops = .ok b → BooksOk date b := by
    intro ops
    induction ops with
    | nil => intro b0 b h0 h; simp only [Books.run, Except.ok.injEq] at h; subst h; exact h0
    | cons o ops ih =>
      intro b0 b h0 h
      simp only [Books.run] at h
      rcases hs : b0.step date o with e | b1
      · rw [hs] at h; simp [Except.bind] at h
      · rw [hs] at h
        exact ih b1 b (booksOk_step date b0 b1 o h0 hs) h
  exact gen ops Books.empty b (fun a => by simp [Books.empty]) h

/-- Non-vacuity: five postings on two accounts with ties, a move and a drop. -/
example : (Books.empty.run (fun p => [3, 1, 3, 2, 3].getD p 0)
    [.post 0 (str "A"), .post 1 (str "A"), .post 2 (str "A"), .post 3 (str "B"), .post 4 (str "B"),
     .move 3 (str "A"), .drop 0]).map (fun b => (b.postings (str "A"), b.postings (str "B"))) = .ok ([1, 3, 2], [4]) := by
  decide +kernel

/-- **C18** (adding) On a date-ordered list, adding `p` makes it occur exactly once, removes nothing and does not reorder:
taking `p` out again gives back the old list (without `p`); a new `p` goes after everything of the same or an
earlier day and before everything later. -/
theorem C18_add (date : PRef → Int) (l : List PRef) (hs : l.Pairwise (fun p q => date p ≤ date q)) (hn : l.Nodup) (p : PRef) :
    (addPosting date l p).count p = 1 ∧ (∀ q, q ∈ addPosting date l p ↔ q = p ∨ q ∈ l) ∧
    (addPosting date l p).erase p = l.erase p ∧
    (p ∉ l → ∃ L R, l = L ++ R ∧ addPosting date l p = L ++ p :: R ∧ (∀ q ∈ L, date q ≤ date p) ∧ (∀ q ∈ R, date p < date q)) := by
  refine ⟨?_, fun q => mem_addPosting date l p q hs, ?_, addPosting_new date l p hs⟩
  · exact List.count_eq_one_of_mem (addPosting_nodup date l p hs hn) ((mem_addPosting date l p p hs).mpr (.inl rfl))
  · by_cases h : p ∈ l
    · rw [addPosting_mem date l p hs h]
    · obtain ⟨L, R, rfl, e, _, _⟩ := addPosting_new date l p hs h
      rw [e, List.erase_of_not_mem h, List.erase_append_right]
      · simp
      · intro h'; exact h (by simp [h'])

/-- **C18** (deleting) removes exactly `p`, keeps the rest in order, and does nothing when `p` is not there. -/
theorem C18_delete (date : PRef → Int) (l : List PRef) (hs : l.Pairwise (fun p q => date p ≤ date q)) (hn : l.Nodup) (p : PRef) :
    deletePosting date l p = l.filter (fun q => decide (q ≠ p)) := by
  rw [deletePosting_eq_erase date l p hs, hn.erase_eq_filter]
  congr 1; funext q; by_cases h : q = p <;> simp [h]

/-- **C18** (ties) Posting a list of distinct postings one after the other to an account: on each day they are listed in the
order they were posted. -/
theorem C18_ties_in_arrival_order (date : PRef → Int) (ps : List PRef) (hn : ps.Nodup) (d : Int) :
    (ps.foldl (addPosting date) []).filter (fun q => decide (date q = d)) = ps.filter (fun q => decide (date q = d)) := by
  have gen : ∀ (ps l : List PRef), l.Pairwise (fun p q => date p ≤ date q) → (∀ p ∈ ps, p ∉ l) → ps.Nodup →
      (ps.foldl (addPosting date) l).filter (fun q => decide (date q = d)) =
        l.filter (fun q => decide (date q = d)) ++ ps.filter (fun q => decide (date q = d)) := by
    intro ps
    induction ps with
    | nil => intro l _ _ _; simp
    | cons p ps ih =>
      intro l hs hd hn
      rw [List.foldl_cons, ih _ (addPosting_sorted date l p hs) ?_ (List.nodup_cons.mp hn).2]
      · obtain ⟨L, R, rfl, e, hL, hR⟩ := addPosting_new date l p hs (hd p (by simp))
        rw [e]
        by_cases hp : date p = d
        · have : R.filter (fun q => decide (date q = d)) = [] := by
            rw [List.filter_eq_nil_iff]; intro q hq; have := hR q hq; simp; omega
          simp [List.filter_append, List.filter_cons, hp, this]
        · simp [List.filter_append, List.filter_cons, hp]
      · intro q hq hm
        rcases (mem_addPosting date l p q hs).mp hm with rfl | hm
        · exact (List.nodup_cons.mp hn).1 hq
        · exact hd q (by simp [hq]) hm
  rw [gen ps [] List.Pairwise.nil (by simp) hn]; simp

example : [0, 1, 2, 3].foldl (addPosting (fun p => [5, 2, 5, 2].getD p 0)) [] = [1, 3, 0, 2] := by decide +kernel

/-- Books the program can reach: postings are posted once, when they get their account, and later moved or dropped. -/
inductive BooksReachable (date : PRef → Int) : Books → Prop
  | empty : BooksReachable date Books.empty
  | post {b} (p a) : BooksReachable date b → b.account p = none → BooksReachable date (b.post date p a)
  | move {b b'} (p a) : BooksReachable date b → b.moveTo date p a = .ok b' → BooksReachable date b'
  | drop {b b'} (p) : BooksReachable date b → b.dropPosting date p = .ok b' → BooksReachable date b'

/-- In reachable books a posting is listed at most by its own account, and lists are sorted and duplicate free. -/
theorem C19_listed_only_by_own_account (date : PRef → Int) (b : Books) (h : BooksReachable date b) :
    BooksOk date b ∧ ∀ a p, p ∈ b.postings a → b.account p = some a := by
  induction h with
  | empty => exact ⟨fun a => by simp [Books.empty], by simp [Books.empty]⟩
  | @post b p a _ hnone ih =>
    refine ⟨booksOk_step date b _ (.post p a) ih.1 rfl, ?_⟩
    intro x q hq
    simp only [Books.post, Books.setPostings, Books.setAccount] at hq ⊢
    by_cases hx : x = a
    · subst hx
      simp only [if_true] at hq
      rcases (mem_addPosting date _ p q (ih.1 x).1).mp hq with rfl | hq
      · simp
      · have := ih.2 x q hq
        by_cases hqp : q = p
        · simp [hqp]
        · simp [hqp, this]
    · simp only [hx, if_false] at hq
      have := ih.2 x q hq
      have hqp : q ≠ p := by rintro rfl; rw [hnone] at this; simp at this
      simp [hqp, this]
  | @move b b' p a _ hm ih =>
    refine ⟨booksOk_step date b _ (.move p a) ih.1 hm, ?_⟩
    simp only [Books.moveTo] at hm
    rcases hp : b.account p with _ | a0
    · rw [hp] at hm; simp at hm
    · rw [hp] at hm
      simp only at hm
      split at hm
      · injection hm with hm; subst hm; exact ih.2
      · rename_i hne
        injection hm with hm; subst hm
        intro x q hq
        have h1 := booksOk_set date b ih.1 a0 _
          ⟨deletePosting_sorted date _ p (ih.1 a0).1, deletePosting_nodup date _ p (ih.1 a0).1 (ih.1 a0).2⟩
        simp only [Books.setAccount] at hq ⊢
        by_cases hxa : x = a
        · subst hxa
          simp only [Books.setPostings, if_true, Ne.symm hne, if_false] at hq
          rcases (mem_addPosting date _ p q (ih.1 x).1).mp hq with rfl | hq
          · simp
          · have := ih.2 x q hq
            by_cases hqp : q = p
            · simp [hqp]
            · simp [Books.setPostings, hqp, this]
        · simp only [Books.setPostings, hxa, if_false] at hq
          by_cases hx0 : x = a0
          · subst hx0
            simp only [if_true] at hq
            rw [deletePosting_eq_erase date _ p (ih.1 x).1, (ih.1 x).2.mem_erase_iff] at hq
            simp [Books.setPostings, hq.1, ih.2 x q hq.2]
          · simp only [hx0, if_false] at hq
            have := ih.2 x q hq
            have hqp : q ≠ p := by rintro rfl; rw [hp] at this; injection this with this; exact hx0 this.symm
            simp [Books.setPostings, hqp, this]
  | @drop b b' p _ hd ih =>
    refine ⟨booksOk_step date b _ (.drop p) ih.1 hd, ?_⟩
    simp only [Books.dropPosting] at hd
    rcases hp : b.account p with _ | a0
    · rw [hp] at hd; simp at hd
    · rw [hp] at hd
      injection hd with hd; subst hd
      intro x q hq
      simp only [Books.setPostings] at hq ⊢
      by_cases hx : x = a0
      · subst hx
        simp only [if_true] at hq
        rw [deletePosting_eq_erase date _ p (ih.1 x).1] at hq
        exact ih.2 x q (List.mem_of_mem_erase hq)
      · simp only [hx, if_false] at hq
        exact ih.2 x q hq

/-- **C19** Moving a listed posting `p` to account `a`: it succeeds, `p` is then listed by `a` and by no other account, every
other posting stays in the same account at the same relative position, and the multiset of all postings over all accounts is
unchanged (for every duplicate-free enumeration of the accounts). -/
theorem C19_move_loses_nothing (date : PRef → Int) (b : Books) (h : BooksReachable date b) (p : PRef) (a0 a : Str)
    (hp : p ∈ b.postings a0) :
    ∃ b', b.moveTo date p a = .ok b' ∧ b'.account p = some a ∧
      (∀ x, p ∈ b'.postings x ↔ x = a) ∧
      (∀ x, (b'.postings x).filter (fun q => decide (q ≠ p)) = (b.postings x).filter (fun q => decide (q ≠ p))) ∧
      (∀ q, q ≠ p → b'.account q = b.account q) ∧
      (∀ accts : List Str, accts.Nodup → a ∈ accts → a0 ∈ accts →
        (accts.flatMap b'.postings).Perm (accts.flatMap b.postings)) := by
  obtain ⟨hok, hacc⟩ := C19_listed_only_by_own_account date b h
  have hpa : b.account p = some a0 := hacc a0 p hp
  have hother : ∀ x, x ≠ a0 → p ∉ b.postings x := by
    intro x hx hm
    have := hacc x p hm
    rw [hpa] at this; injection this with this; exact hx this.symm
  unfold Books.moveTo
  rw [hpa]
  simp only
  by_cases haa : a0 = a
  · subst haa
    rw [if_pos rfl]
    refine ⟨b, rfl, hpa, ?_, fun _ => rfl, fun _ _ => rfl, fun _ _ _ _ => List.Perm.refl _⟩
    intro x
    constructor
    · intro hm; by_contra hx; exact hother x hx hm
    · rintro rfl; exact hp
  · rw [if_neg haa]
    have hpnew : p ∉ b.postings a := hother a (Ne.symm haa)
    have hfil : ∀ (l : List PRef), l.Pairwise (fun p q => date p ≤ date q) → l.Nodup → ∀ (h : p ∉ l),
        (addPosting date l p).filter (fun q => decide (q ≠ p)) = l.filter (fun q => decide (q ≠ p)) := by
      intro l hs _ hnot
      obtain ⟨L, R, rfl, e, _, _⟩ := addPosting_new date l p hs hnot
      rw [e]; simp [List.filter_append, List.filter_cons]
    refine ⟨_, rfl, by simp [Books.setAccount], ?_, ?_, ?_, ?_⟩
    · intro x
      simp only [Books.setAccount, Books.setPostings]
      by_cases hx : x = a
      · subst hx
        simp only [if_true, Ne.symm haa, if_false, iff_true]
        exact (mem_addPosting date _ p p (hok x).1).mpr (.inl rfl)
      · simp only [hx, if_false, iff_false]
        by_cases hx0 : x = a0
        · subst hx0
          simp only [if_true]
          rw [C18_delete date _ (hok x).1 (hok x).2]; simp
        · simp only [hx0, if_false]; exact hother x hx0
    · intro x
      simp only [Books.setAccount, Books.setPostings]
      by_cases hx : x = a
      · subst hx
        simp only [if_true, Ne.symm haa, if_false]
        exact hfil _ (hok x).1 (hok x).2 hpnew
      · simp only [hx, if_false]
        by_cases hx0 : x = a0
        · subst hx0
          simp only [if_true]
          rw [C18_delete date _ (hok x).1 (hok x).2]; simp
        · simp only [hx0, if_false]
    · intro q hq; simp [Books.setAccount, Books.setPostings, hq]
    · intro accts hnd ha ha0
      simp only [Books.setAccount, Books.setPostings]
      rw [List.perm_iff_count]
      intro q
      rw [List.count_flatMap, List.count_flatMap]
      simp only [Function.comp_def]
      by_cases hq : q = p
      · subst hq
        have key : ∀ (f : Str → Nat) (c : Str), (∀ x, f x = if x = c then 1 else 0) → ∀ l : List Str, l.Nodup → c ∈ l →
            (l.map f).sum = 1 := by
          intro f c hf l
          induction l with
          | nil => simp
          | cons y l ih =>
            intro hnd hc
            obtain ⟨h1, h2⟩ := List.nodup_cons.mp hnd
            rw [List.map_cons, List.sum_cons, hf y]
            by_cases hy : y = c
            · subst hy
              have : (l.map f).sum = 0 := by
                clear ih hc hnd h2
                induction l with
                | nil => rfl
                | cons z l ih =>
                  rw [List.map_cons, List.sum_cons, hf z, if_neg (by rintro rfl; exact h1 (by simp)),
                    ih (fun h => h1 (by simp [h]))]
              simp [this]
            · rw [if_neg hy, ih h2 (by simpa [Ne.symm hy] using hc)]
        rw [key _ a ?_ accts hnd ha, key _ a0 ?_ accts hnd ha0]
        · intro x
          by_cases hx : x = a0
          · subst hx; simp only [if_true]; exact List.count_eq_one_of_mem (hok x).2 hp
          · simp only [hx, if_false]; exact List.count_eq_zero_of_not_mem (hother x hx)
        · intro x
          by_cases hx : x = a
          · subst hx
            simp only [if_true, Ne.symm haa, if_false]
            exact (C18_add date _ (hok x).1 (hok x).2 q).1
          · simp only [hx, if_false]
            by_cases hx0 : x = a0
            · subst hx0
              simp only [if_true]
              rw [C18_delete date _ (hok x).1 (hok x).2]
              apply List.count_eq_zero_of_not_mem; simp
            · simp only [hx0, if_false]
              exact List.count_eq_zero_of_not_mem (hother x hx0)
      · congr 1
        refine List.map_congr_left ?_
        intro x _
        by_cases hx : x = a
        · subst hx
          simp only [if_true, Ne.symm haa, if_false]
          obtain ⟨L, R, e0, e, _, _⟩ := addPosting_new date _ p (hok x).1 hpnew
          rw [e, e0]; simp [List.count_append, List.count_cons, Ne.symm hq]
        · simp only [hx, if_false]
          by_cases hx0 : x = a0
          · subst hx0
            simp only [if_true]
            rw [deletePosting_eq_erase date _ p (hok x).1, List.count_erase_of_ne hq]
          · simp only [hx0, if_false]

/-- Non-vacuity: reachable books with a listed posting that really moves. -/
example : ∃ b, BooksReachable (fun p => [5, 2, 5].getD p 0) b ∧ 0 ∈ b.postings (str "A") ∧
    (b.moveTo (fun p => [5, 2, 5].getD p 0) 0 (str "B")).map (fun b => (b.postings (str "A"), b.postings (str "B"))) =
      .ok ([1], [2, 0]) := by
  refine ⟨_, .post 2 (str "B") (.post 1 (str "A") (.post 0 (str "A") .empty ?_) ?_) ?_, ?_, ?_⟩ <;> decide +kernel

end Verif
