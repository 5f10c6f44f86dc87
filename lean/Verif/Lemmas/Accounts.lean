import Verif.Lemmas.Basic
import Verif.Lemmas.Sort
import Verif.Model.Accounts
/-! Lemmas about account names and the account map. -/
namespace Verif

theorem lastIndex_none (c : Char) (s : Str) (h : c ∉ s) : lastIndex c s = none := by
  induction s with
  | nil => rfl
  | cons x s ih =>
    have h1 : x ≠ c := fun e => h (by simp [e])
    have h2 : c ∉ s := fun e => h (by simp [e])
    simp [lastIndex, ih h2, h1]

theorem lastIndex_some (c : Char) (p x : Str) (h : c ∉ x) : lastIndex c (p ++ c :: x) = some p.length := by
  induction p with
  | nil => simp [lastIndex, lastIndex_none c x h]
  | cons a p ih => simp [lastIndex, ih]

theorem parentAndName_none (n : Str) (h : ':' ∉ n) : parentAndName n = ([], n) := by
  simp [parentAndName, lastIndex_none _ _ h]

theorem parentAndName_some (p x : Str) (h : ':' ∉ x) : parentAndName (p ++ ':' :: x) = (p, x) := by
  simp [parentAndName, lastIndex_some _ _ _ h]

/-- Every name with a colon splits at the last one. -/
theorem exists_lastSplit (c : Char) (n : Str) (h : c ∈ n) : ∃ p x, n = p ++ c :: x ∧ c ∉ x := by
  induction n with
  | nil => simp at h
  | cons a n ih =>
    by_cases hn : c ∈ n
    · obtain ⟨p, x, rfl, hx⟩ := ih hn
      exact ⟨a :: p, x, rfl, hx⟩
    · have : a = c := by simpa [hn, eq_comm] using h
      subst this
      exact ⟨[], n, rfl, hn⟩

/-- The parent in the sense of `parentAndName`, with its two cases. -/
theorem parent_cases (n : Str) :
    ((parentAndName n).1 = []) ∨ ∃ p x, p ≠ [] ∧ ':' ∉ x ∧ n = p ++ ':' :: x ∧ (parentAndName n).1 = p := by
  by_cases h : ':' ∈ n
  · obtain ⟨p, x, rfl, hx⟩ := exists_lastSplit ':' n h
    rw [parentAndName_some p x hx]
    by_cases hp : p = []
    · exact .inl hp
    · exact .inr ⟨p, x, hp, hx, rfl, rfl⟩
  · left; rw [parentAndName_none n h]

theorem split_prefix_cases (p x q r : Str) (hx : ':' ∉ x) (h : p ++ ':' :: x = q ++ ':' :: r) :
    q = p ∨ ∃ r', p = q ++ ':' :: r' := by
  induction p generalizing q with
  | nil =>
    cases q with
    | nil => exact .inl rfl
    | cons b q =>
      simp only [List.nil_append, List.cons_append, List.cons.injEq] at h
      exfalso; apply hx; rw [h.2]; simp
  | cons a p ih =>
    cases q with
    | nil =>
      simp only [List.nil_append, List.cons_append, List.cons.injEq] at h
      exact .inr ⟨p, by simp [h.1]⟩
    | cons b q =>
      simp only [List.cons_append, List.cons.injEq] at h
      rcases ih q h.2 with e | ⟨r', e⟩
      · left; rw [e, h.1]
      · right; exact ⟨r', by rw [e, h.1]; simp⟩

theorem mem_ancLoop (k : Nat) (fn x : Str) (hk : fn.length ≤ k) :
    x ∈ ancLoop k fn ↔ x ≠ [] ∧ ∃ r, fn = x ++ ':' :: r := by
  induction k generalizing fn with
  | zero =>
    have : fn = [] := by simpa using hk
    subst this; simp [ancLoop]
  | succ k ih =>
    unfold ancLoop
    simp only
    rcases parent_cases fn with h | ⟨p, n, hp, hn, rfl, h⟩
    · rw [h]
      simp only [if_true, List.not_mem_nil, false_iff, not_and, not_exists]
      intro hx r hr
      rw [hr] at h
      by_cases hc : ':' ∈ r
      · obtain ⟨p, y, rfl, hy⟩ := exists_lastSplit ':' r hc
        rw [show x ++ ':' :: (p ++ ':' :: y) = (x ++ ':' :: p) ++ ':' :: y by simp, parentAndName_some _ _ hy] at h
        simp at h
      · rw [parentAndName_some _ _ hc] at h; exact hx h
    · rw [h, if_neg hp, List.mem_cons, ih p (by simp at hk; omega)]
      constructor
      · rintro (rfl | ⟨hx, r, rfl⟩)
        · exact ⟨hp, n, rfl⟩
        · exact ⟨hx, r ++ ':' :: n, by simp⟩
      · rintro ⟨hx, r, e⟩
        rcases split_prefix_cases p n x r hn e with rfl | ⟨r', e⟩
        · exact .inl rfl
        · exact .inr ⟨hx, r', e⟩

/-! ### The account map -/

theorem putAcct_names (m : List Acct) (a : Acct) (x : Str) :
    x ∈ (putAcct m a).map (·.fullName) ↔ x = a.fullName ∨ x ∈ m.map (·.fullName) := by
  induction m with
  | nil => simp [putAcct]
  | cons b m ih =>
    unfold putAcct
    split
    · rename_i h; simp only [List.map_cons, List.mem_cons, h]; tauto
    · simp only [List.map_cons, List.mem_cons, ih]; tauto

theorem putAcct_nodup (m : List Acct) (a : Acct) (h : (m.map (·.fullName)).Nodup) : ((putAcct m a).map (·.fullName)).Nodup := by
  induction m with
  | nil => simp [putAcct]
  | cons b m ih =>
    obtain ⟨h1, h2⟩ := List.nodup_cons.mp (by simpa using h : ((b.fullName) :: m.map (·.fullName)).Nodup)
    unfold putAcct
    split
    · rename_i he; simp only [List.map_cons, List.nodup_cons]; exact ⟨by rw [← he]; exact h1, h2⟩
    · rename_i he
      simp only [List.map_cons, List.nodup_cons]
      refine ⟨?_, ih h2⟩
      intro hm
      rcases (putAcct_names m a b.fullName).mp hm with e | e
      · exact he e
      · exact h1 e

theorem mem_putAcct_of_ne (m : List Acct) (a b : Acct) (h : b ∈ m) (hne : b.fullName ≠ a.fullName) : b ∈ putAcct m a := by
  induction m with
  | nil => simp at h
  | cons c m ih =>
    unfold putAcct
    split
    · rename_i he
      rcases List.mem_cons.mp h with rfl | h
      · exact absurd he hne
      · simp [h]
    · rcases List.mem_cons.mp h with rfl | h
      · simp
      · simp [ih h]

theorem mem_putAcct_self (m : List Acct) (a : Acct) : a ∈ putAcct m a := by
  induction m with
  | nil => simp [putAcct]
  | cons c m ih =>
    unfold putAcct
    split
    · simp
    · simp [ih]

theorem mem_putAcct (m : List Acct) (a b : Acct) (h : b ∈ putAcct m a) : b = a ∨ b ∈ m := by
  induction m with
  | nil => simpa [putAcct] using h
  | cons c m ih =>
    unfold putAcct at h
    split at h
    · rcases List.mem_cons.mp h with rfl | h
      · exact .inl rfl
      · exact .inr (by simp [h])
    · rcases List.mem_cons.mp h with rfl | h
      · exact .inr (by simp)
      · rcases ih h with h | h
        · exact .inl h
        · exact .inr (by simp [h])

theorem hasAcct_iff (m : List Acct) (x : Str) : hasAcct m x = true ↔ x ∈ m.map (·.fullName) := by
  simp [hasAcct, List.any_eq_true, List.mem_map]

theorem loaded_names (decls m : List Acct) (x : Str) :
    x ∈ (decls.foldl putAcct m).map (·.fullName) ↔ x ∈ m.map (·.fullName) ∨ x ∈ decls.map (·.fullName) := by
  induction decls generalizing m with
  | nil => simp
  | cons d decls ih =>
    rw [List.foldl_cons, ih, putAcct_names]
    simp only [List.map_cons, List.mem_cons]; tauto

theorem loaded_nodup (decls m : List Acct) (h : (m.map (·.fullName)).Nodup) :
    ((decls.foldl putAcct m).map (·.fullName)).Nodup := by
  induction decls generalizing m with
  | nil => exact h
  | cons d decls ih => exact ih _ (putAcct_nodup m d h)

/-- The last declaration of a name is the one in the map. -/
theorem loaded_last (l1 l2 m : List Acct) (a : Acct) (h : ∀ b ∈ l2, b.fullName ≠ a.fullName) :
    a ∈ (l1 ++ a :: l2).foldl putAcct m := by
  rw [List.foldl_append, List.foldl_cons]
  generalize l1.foldl putAcct m = m'
  have gen : ∀ (l : List Acct) (m : List Acct), (∀ b ∈ l, b.fullName ≠ a.fullName) → a ∈ m → a ∈ l.foldl putAcct m := by
    intro l
    induction l with
    | nil => intro m _ h; exact h
    | cons b l ih =>
      intro m hl hm
      exact ih _ (fun b hb => hl b (by simp [hb])) (mem_putAcct_of_ne m b a hm (fun e => hl b (by simp) e.symm))
  exact gen l2 _ h (mem_putAcct_self m' a)

theorem base_nodup (dflt : Str) (decls : List Acct) : ((baseAccounts dflt decls).map (·.fullName)).Nodup := by
  unfold baseAccounts
  simp only
  apply putAcct_nodup
  have h := loaded_nodup decls [] (by simp)
  split
  · exact h
  · rename_i hr
    rw [List.map_append, List.nodup_append]
    refine ⟨h, by simp, ?_⟩
    intro x hx y hy
    simp [accountFromName] at hy
    subst hy
    rintro rfl
    exact hr ((hasAcct_iff _ _).mpr hx)

theorem base_names (dflt : Str) (decls : List Acct) (x : Str) :
    x ∈ (baseAccounts dflt decls).map (·.fullName) ↔ x = rootName ∨ x = unbalancedName ∨ x ∈ decls.map (·.fullName) := by
  unfold baseAccounts
  simp only [putAcct_names]
  have h := loaded_names decls [] x
  simp only [List.map_nil, List.not_mem_nil, false_or] at h
  have h' := loaded_names decls [] rootName
  split
  · rename_i hr
    rw [hasAcct_iff] at hr
    rw [h]
    have : rootName ∈ decls.map (·.fullName) := by simpa using h'.mp hr
    constructor
    · rintro (h | h)
      · exact .inr (.inl h)
      · exact .inr (.inr h)
    · rintro (rfl | h | h)
      · exact .inr this
      · exact .inl h
      · exact .inr h
  · rw [List.map_append, List.mem_append, h]
    simp only [List.map_cons, List.map_nil, List.mem_singleton, accountFromName]
    tauto

/-- Adding missing names keeps the map as a prefix. -/
theorem addMissing_fold (dflt : Str) (fns : List Str) (m : List Acct) :
    (∃ ext, fns.foldl (addMissing dflt) m = m ++ ext) ∧
    (∀ x, x ∈ (fns.foldl (addMissing dflt) m).map (·.fullName) ↔ x ∈ m.map (·.fullName) ∨ x ∈ fns) ∧
    ((m.map (·.fullName)).Nodup → ((fns.foldl (addMissing dflt) m).map (·.fullName)).Nodup) := by
  induction fns generalizing m with
  | nil => exact ⟨⟨[], by simp⟩, by simp, id⟩
  | cons f fns ih =>
    rw [List.foldl_cons]
    obtain ⟨⟨ext, e⟩, h2, h3⟩ := ih (addMissing dflt m f)
    by_cases hf : hasAcct m f = true
    · have hm : addMissing dflt m f = m := by simp [addMissing, hf]
      rw [hm] at e h2 h3 ⊢
      refine ⟨⟨ext, e⟩, ?_, h3⟩
      intro x
      rw [h2]
      have := (hasAcct_iff m f).mp hf
      simp only [List.mem_cons]
      constructor
      · tauto
      · rintro (h | rfl | h)
        · exact .inl h
        · exact .inl this
        · exact .inr h
    · have hm : addMissing dflt m f = m ++ [accountFromName dflt f] := by simp [addMissing, hf]
      have hf' : f ∉ m.map (·.fullName) := fun h => hf ((hasAcct_iff m f).mpr h)
      rw [hm] at e h2 h3 ⊢
      refine ⟨⟨[accountFromName dflt f] ++ ext, by rw [e]; simp⟩, ?_, ?_⟩
      · intro x
        rw [h2, List.map_append, List.mem_append]
        simp only [List.map_cons, List.map_nil, List.mem_singleton, List.mem_cons, accountFromName]
        tauto
      · intro hn
        apply h3
        rw [List.map_append, List.nodup_append]
        refine ⟨hn, by simp, ?_⟩
        intro x hx y hy
        simp [accountFromName] at hy
        subst hy
        rintro rfl
        exact hf' hx

theorem createParents_spec (dflt : Str) (known m : List Acct) :
    (∃ ext, createParents dflt known m = m ++ ext) ∧
    (∀ x, x ∈ (createParents dflt known m).map (·.fullName) ↔
      x ∈ m.map (·.fullName) ∨ (x ≠ [] ∧ ∃ a ∈ known, ∃ r, a.fullName = x ++ ':' :: r)) ∧
    ((m.map (·.fullName)).Nodup → ((createParents dflt known m).map (·.fullName)).Nodup) := by
  unfold createParents
  induction known generalizing m with
  | nil => exact ⟨⟨[], by simp⟩, by simp, id⟩
  | cons a known ih =>
    rw [List.foldl_cons]
    obtain ⟨⟨e1, h1⟩, h2, h3⟩ := addMissing_fold dflt (ancLoop a.fullName.length a.fullName) m
    obtain ⟨⟨e4, h4⟩, h5, h6⟩ := ih ((ancLoop a.fullName.length a.fullName).foldl (addMissing dflt) m)
    refine ⟨⟨e1 ++ e4, by rw [h4, h1]; simp⟩, ?_, fun h => h6 (h3 h)⟩
    intro x
    rw [h5, h2, mem_ancLoop _ _ _ (le_refl _)]
    simp only [List.mem_cons]
    constructor
    · rintro ((h | ⟨h, r, e⟩) | ⟨h, b, hb, r, e⟩)
      · exact .inl h
      · exact .inr ⟨h, a, .inl rfl, r, e⟩
      · exact .inr ⟨h, b, .inr hb, r, e⟩
    · rintro (h | ⟨h, b, rfl | hb, r, e⟩)
      · exact .inl (.inl h)
      · exact .inl (.inr ⟨h, r, e⟩)
      · exact .inr ⟨h, b, hb, r, e⟩

/-! ### The tree -/

/-- The parent an account is linked to. -/
def parentOf (a : Str) : Str := if (parentAndName a).1 = [] then rootName else (parentAndName a).1

/-- Links after the accounts of `done` were processed. -/
structure Linked (done : List Str) (L : Links) : Prop where
  parent : ∀ a, L.parent a = if a ∈ done ∧ a ≠ rootName then some (parentOf a) else none
  children : ∀ p, L.children p = done.filter (fun a => decide (a ≠ rootName ∧ parentOf a = p))

/-- A proper ancestor by links: `Root`, or a name that `a` extends. -/
def AncName (a d : Str) : Prop := d ≠ rootName ∧ (a = rootName ∨ (a ≠ [] ∧ ∃ r, d = a ++ ':' :: r))

theorem ancName_parentOf (d : Str) (hd : d ≠ rootName) : AncName (parentOf d) d := by
  unfold parentOf
  refine ⟨hd, ?_⟩
  split
  · exact .inl rfl
  · rename_i h
    rcases parent_cases d with h' | ⟨p, x, hp, _, rfl, h'⟩
    · exact absurd h' h
    · rw [h']; exact .inr ⟨hp, x, rfl⟩

theorem ancName_trans (a b c : Str) (h1 : AncName a b) (h2 : AncName b c) : AncName a c := by
  obtain ⟨hb, h1⟩ := h1
  obtain ⟨hc, h2⟩ := h2
  refine ⟨hc, ?_⟩
  rcases h2 with rfl | ⟨_, r2, rfl⟩
  · exact absurd rfl hb
  · rcases h1 with rfl | ⟨ha, r1, rfl⟩
    · exact .inl rfl
    · exact .inr ⟨ha, r1 ++ ':' :: r2, by simp⟩

theorem ancName_irrefl (a : Str) : ¬ AncName a a := by
  rintro ⟨h, rfl | ⟨_, r, e⟩⟩
  · exact h rfl
  · have := congrArg List.length e; simp at this

theorem subtree_mem (done : List Str) (L : Links) (h : Linked done L) (k : Nat) (a x : Str)
    (hx : x ∈ subtree L.children k a) : x = a ∨ (AncName a x ∧ x ∈ done) := by
  induction k generalizing a with
  | zero => simp [subtree] at hx
  | succ k ih =>
    unfold subtree at hx
    rcases List.mem_cons.mp hx with rfl | hx
    · exact .inl rfl
    · obtain ⟨c, hc, hx⟩ := List.mem_flatMap.mp hx
      rw [h.children] at hc
      simp only [List.mem_filter, decide_eq_true_eq] at hc
      have hac : AncName a c := by rw [← hc.2.2]; exact ancName_parentOf c hc.2.1
      rcases ih c hx with rfl | ⟨hanc, hd⟩
      · exact .inr ⟨hac, hc.1⟩
      · exact .inr ⟨ancName_trans _ _ _ hac hanc, hd⟩

theorem adopt_ok (fuel : Nat) (done : List Str) (L : Links) (h : Linked done L) (c : Str) (hc : c ∉ done) (hr : c ≠ rootName) :
    ∃ L', L.adopt fuel (parentOf c) c = .ok L' ∧ Linked (done ++ [c]) L' := by
  unfold Links.adopt
  have hanc := ancName_parentOf c hr
  have h1 : parentOf c ∉ subtree L.children fuel c := by
    intro hm
    rcases subtree_mem done L h fuel c _ hm with e | ⟨e, _⟩
    · rw [e] at hanc; exact ancName_irrefl c hanc
    · exact ancName_irrefl c (ancName_trans _ _ _ e hanc)
  have h2 : c ∉ subtree L.children fuel (parentOf c) := by
    intro hm
    rcases subtree_mem done L h fuel _ c hm with e | ⟨_, e⟩
    · rw [← e] at hanc; exact ancName_irrefl c hanc
    · exact hc e
  rw [if_neg h1, if_neg h2]
  refine ⟨_, rfl, ?_, ?_⟩
  · intro a
    simp only
    by_cases ha : a = c
    · subst ha; simp [hr]
    · simp only [ha, if_false, h.parent, List.mem_append, List.mem_singleton, or_false]
  · intro p
    simp only [List.filter_append]
    by_cases hp : p = parentOf c
    · subst hp
      simp [h.children, hr]
    · simp [hp, h.children, Ne.symm hp]

theorem linkAll_ok (fuel : Nat) (names done order : List Str) (L : Links) (h : Linked done L) (hn : (done ++ order).Nodup)
    (hp : ∀ a ∈ order, (parentAndName a).1 ≠ [] → (parentAndName a).1 ∈ names) :
    ∃ L', linkAll fuel names L order = .ok L' ∧ Linked (done ++ order) L' := by
  induction order generalizing done L with
  | nil => exact ⟨L, rfl, by simpa using h⟩
  | cons a rest ih =>
    have hn' : ((done ++ [a]) ++ rest).Nodup := by simpa using hn
    have ha : a ∉ done := by
      intro hm
      rw [List.nodup_append] at hn
      exact hn.2.2 a hm a (by simp) rfl
    have hp' : ∀ b ∈ rest, (parentAndName b).1 ≠ [] → (parentAndName b).1 ∈ names := fun b hb => hp b (by simp [hb])
    have e : done ++ a :: rest = (done ++ [a]) ++ rest := by simp
    unfold linkAll
    by_cases hr : a = rootName
    · rw [if_pos hr, e]
      refine ih (done ++ [a]) L ⟨?_, ?_⟩ hn' hp'
      · intro x
        rw [h.parent]
        by_cases hx : x = a
        · subst hx; simp [hr]
        · simp [hx]
      · intro p
        rw [h.children, List.filter_append]
        simp [hr]
    · rw [if_neg hr]
      simp only
      obtain ⟨L', hL', hlinked⟩ := adopt_ok fuel done L h a ha hr
      by_cases hpn : (parentAndName a).1 = []
      · have : parentOf a = rootName := by simp [parentOf, hpn]
        rw [if_pos hpn, ← this, hL', e]
        exact ih _ L' hlinked hn' hp'
      · have : parentOf a = (parentAndName a).1 := by simp [parentOf, hpn]
        rw [if_neg hpn, if_pos (hp a (by simp) hpn), ← this, hL', e]
        exact ih _ L' hlinked hn' hp'

end Verif
