import Verif.Lemmas.Accounts
import Mathlib.Data.List.Forall2
/-!
# Properties C20–C25: the account tree, account lookup, shortened names

`ResolvedAccounts dflt decls accts L`: loading the declarations `decls` and running `ResolveAccounts`, for some iteration order
of the account map, produced the accounts `accts` and the tree links `L`.
-/
namespace Verif

/-- `x` is a proper ancestor *name* of `n`: `n` continues `x` after a colon. -/
def ProperAncestorName (x n : Str) : Prop := x ≠ [] ∧ ∃ r, n = x ++ ':' :: r

/-- `p` is the full name up to the last colon of `a`; `Root` when there is nothing before a colon. -/
def IsParentName (a p : Str) : Prop :=
  (':' ∉ a ∧ p = str "Root") ∨
  ∃ pre n, a = pre ++ ':' :: n ∧ ':' ∉ n ∧ ((pre ≠ [] ∧ p = pre) ∨ (pre = [] ∧ p = str "Root"))

/-- Reachable from `a` by following children. -/
inductive ReachChild (children : Str → List Str) (a : Str) : Str → Prop
  | refl : ReachChild children a a
  | step {p c} : ReachChild children a p → c ∈ children p → ReachChild children a c

theorem isParentName_parentOf (a : Str) : IsParentName a (parentOf a) := by
  unfold parentOf IsParentName
  by_cases h : ':' ∈ a
  · obtain ⟨p, x, rfl, hx⟩ := exists_lastSplit ':' a h
    rw [parentAndName_some p x hx]
    right
    refine ⟨p, x, rfl, hx, ?_⟩
    by_cases hp : p = []
    · right; simp [hp, rootName]
    · left; simp [hp]
  · left; simp [parentAndName_none a h, h, rootName]

/-- The names that exist after resolution. -/
theorem resolved_names (dflt : Str) (decls accts : List Acct) (known : List Acct) (hk : known.Perm (baseAccounts dflt decls))
    (ha : accts = createParents dflt known (baseAccounts dflt decls)) (x : Str) :
    x ∈ accts.map (·.fullName) ↔ x = str "Root" ∨ x = str "Unbalanced" ∨
      ∃ d ∈ decls, x = d.fullName ∨ ProperAncestorName x d.fullName := by
  subst ha
  obtain ⟨_, h2, _⟩ := createParents_spec dflt known (baseAccounts dflt decls)
  rw [h2, base_names]
  constructor
  · rintro ((h | h | h) | ⟨h, a, ha, r, e⟩)
    · exact .inl h
    · exact .inr (.inl h)
    · obtain ⟨d, hd, rfl⟩ := List.mem_map.mp h; exact .inr (.inr ⟨d, hd, .inl rfl⟩)
    · have ham : a.fullName ∈ (baseAccounts dflt decls).map (·.fullName) := List.mem_map.mpr ⟨a, hk.mem_iff.mp ha, rfl⟩
      rcases (base_names dflt decls _).mp ham with h' | h' | h'
      · rw [h'] at e; have : ':' ∈ rootName := by rw [e]; simp
        exact absurd this (by decide)
      · rw [h'] at e; have : ':' ∈ unbalancedName := by rw [e]; simp
        exact absurd this (by decide)
      · obtain ⟨d, hd, hde⟩ := List.mem_map.mp h'
        exact .inr (.inr ⟨d, hd, .inr ⟨h, r, by rw [hde]; exact e⟩⟩)
  · rintro (h | h | ⟨d, hd, h | ⟨h, r, e⟩⟩)
    · exact .inl (.inl h)
    · exact .inl (.inr (.inl h))
    · exact .inl (.inr (.inr (List.mem_map.mpr ⟨d, hd, h.symm⟩)))
    · have : d.fullName ∈ (baseAccounts dflt decls).map (·.fullName) := by
        rw [base_names]; exact .inr (.inr (List.mem_map.mpr ⟨d, hd, rfl⟩))
      obtain ⟨a, ha, hae⟩ := List.mem_map.mp this
      exact .inr ⟨h, a, hk.mem_iff.mpr ha, r, by rw [hae]; exact e⟩

/-- The map is closed under parents. -/
theorem resolved_closed (dflt : Str) (decls accts : List Acct) (known : List Acct) (hk : known.Perm (baseAccounts dflt decls))
    (ha : accts = createParents dflt known (baseAccounts dflt decls)) (a : Str) (hm : a ∈ accts.map (·.fullName)) :
    ((parentAndName a).1 ≠ [] → (parentAndName a).1 ∈ accts.map (·.fullName)) ∧ parentOf a ∈ accts.map (·.fullName) := by
  have key : (parentAndName a).1 ≠ [] → (parentAndName a).1 ∈ accts.map (·.fullName) := by
    intro hne
    rcases parent_cases a with h | ⟨p, x, hp, hx, rfl, h⟩
    · exact absurd h hne
    · rw [h, resolved_names dflt decls accts known hk ha]
      rcases (resolved_names dflt decls accts known hk ha _).mp hm with h' | h' | ⟨d, hd, h' | ⟨_, r, h'⟩⟩
      · have : ':' ∈ str "Root" := by rw [← h']; simp
        exact absurd this (by decide)
      · have : ':' ∈ str "Unbalanced" := by rw [← h']; simp
        exact absurd this (by decide)
      · exact .inr (.inr ⟨d, hd, .inr ⟨hp, x, h'.symm⟩⟩)
      · exact .inr (.inr ⟨d, hd, .inr ⟨hp, x ++ ':' :: r, by rw [h']; simp⟩⟩)
  refine ⟨key, ?_⟩
  unfold parentOf
  split
  · rw [resolved_names dflt decls accts known hk ha]; exact .inl rfl
  · rename_i h; exact key h

/-- Everything the other proofs need about a resolved tree. -/
theorem resolved_spec (dflt : Str) (decls accts : List Acct) (L : Links) (h : ResolvedAccounts dflt decls accts L) :
    (accts.map (·.fullName)).Nodup ∧
    (∀ a, L.parent a = if a ∈ accts.map (·.fullName) ∧ a ≠ rootName then some (parentOf a) else none) ∧
    (∀ p, ∃ order : List Str, order.Perm (accts.map (·.fullName)) ∧
      (L.children p).Perm (order.filter (fun a => decide (a ≠ rootName ∧ parentOf a = p)))) ∧
    (∀ a ∈ accts.map (·.fullName), parentOf a ∈ accts.map (·.fullName)) ∧ rootName ∈ accts.map (·.fullName) := by
  obtain ⟨known, order, fuel, L0, hk, ha, ho, hL0, hs⟩ := h
  have hn : (accts.map (·.fullName)).Nodup := by
    rw [ha]; exact (createParents_spec dflt known _).2.2 (base_nodup dflt decls)
  obtain ⟨L1, h1, hl⟩ := linkAll_ok fuel (accts.map (·.fullName)) [] order Links.empty
    ⟨by simp [Links.empty], by simp [Links.empty]⟩ (by simpa using (ho.nodup_iff).mpr hn)
    (fun a hm => (resolved_closed dflt decls accts known hk ha a (ho.mem_iff.mp hm)).1)
  rw [hL0] at h1; injection h1 with h1; subst h1
  refine ⟨hn, ?_, ?_, fun a hm => (resolved_closed dflt decls accts known hk ha a hm).2, ?_⟩
  · intro a
    rw [hs.1, hl.parent]
    simp only [List.nil_append, ho.mem_iff]
  · intro p
    refine ⟨order, ho, ?_⟩
    have := (hs.2 p).1
    rw [hl.children] at this
    simpa using this
  · rw [resolved_names dflt decls accts known hk ha]; exact .inl rfl

theorem resolved_children (dflt : Str) (decls accts : List Acct) (L : Links) (h : ResolvedAccounts dflt decls accts L) (p c : Str) :
    c ∈ L.children p ↔ c ∈ accts.map (·.fullName) ∧ c ≠ rootName ∧ parentOf c = p := by
  obtain ⟨_, _, h3, _, _⟩ := resolved_spec dflt decls accts L h
  obtain ⟨order, ho, hp⟩ := h3 p
  rw [hp.mem_iff, List.mem_filter, ho.mem_iff]
  simp

/-! ## C20 -/

/-- **C20** (never fails) Linking succeeds for every set of declarations and every map order: no missing parent, no
"is child of" panic. -/
theorem C20_linking_succeeds (dflt : Str) (decls known : List Acct) (order : List Str) (fuel : Nat)
    (hk : known.Perm (baseAccounts dflt decls))
    (ho : order.Perm ((createParents dflt known (baseAccounts dflt decls)).map (·.fullName))) :
    ∃ L, linkAll fuel ((createParents dflt known (baseAccounts dflt decls)).map (·.fullName)) Links.empty order = .ok L := by
  obtain ⟨L1, h1, _⟩ := linkAll_ok fuel _ [] order Links.empty
    ⟨by simp [Links.empty], by simp [Links.empty]⟩
    (by simpa using (ho.nodup_iff).mpr ((createParents_spec dflt known _).2.2 (base_nodup dflt decls)))
    (fun a hm => (resolved_closed dflt decls _ known hk rfl a (ho.mem_iff.mp hm)).1)
  exact ⟨L1, h1⟩

/-- **C20** Accounts form one tree: every account other than Root has exactly one parent, the account named by its full name up
to the last colon (Root for top level names); that parent exists and lists it exactly once, no other account lists it; Root has
no parent and is nobody's child; every account is reachable from Root. -/
theorem C20_one_tree (dflt : Str) (decls accts : List Acct) (L : Links) (h : ResolvedAccounts dflt decls accts L) :
    (∀ a ∈ accts.map (·.fullName), a ≠ str "Root" →
      ∃ p, IsParentName a p ∧ p ∈ accts.map (·.fullName) ∧ L.parent a = some p ∧ (L.children p).count a = 1 ∧
        ∀ q, a ∈ L.children q → q = p) ∧
    L.parent (str "Root") = none ∧ (∀ q, str "Root" ∉ L.children q) ∧
    (∀ a ∈ accts.map (·.fullName), ReachChild L.children (str "Root") a) := by
  obtain ⟨hn, hpar, hch, hcl, hroot⟩ := resolved_spec dflt decls accts L h
  have hmem := resolved_children dflt decls accts L h
  refine ⟨?_, ?_, ?_, ?_⟩
  · intro a ha hr
    refine ⟨parentOf a, isParentName_parentOf a, hcl a ha, ?_, ?_, ?_⟩
    · rw [hpar, if_pos ⟨ha, hr⟩]
    · obtain ⟨order, ho, hp⟩ := hch (parentOf a)
      apply List.count_eq_one_of_mem
      · rw [hp.nodup_iff]; exact ((ho.nodup_iff).mpr hn).filter _
      · rw [hmem]; exact ⟨ha, hr, rfl⟩
    · intro q hq; exact ((hmem q a).mp hq).2.2.symm
  · rw [hpar]; simp [rootName]
  · intro q hq; exact ((hmem q _).mp hq).2.1 rfl
  · intro a ha
    induction hlen : a.length using Nat.strongRecOn generalizing a with
    | ind n ih =>
      by_cases hr : a = rootName
      · rw [hr]; exact .refl
      · refine .step (p := parentOf a) ?_ ((hmem _ _).mpr ⟨ha, hr, rfl⟩)
        rcases (ancName_parentOf a hr).2 with e | ⟨_, r, e⟩
        · rw [e]; exact .refl
        · refine ih (parentOf a).length ?_ (parentOf a) (hcl a ha) rfl
          have := congrArg List.length e; simp at this; omega

/-! ## C21 -/

/-- **C21** (names) The accounts after resolution are exactly Root, Unbalanced, the declared accounts and their proper ancestors,
each once. -/
theorem C21_exactly_missing_ancestors (dflt : Str) (decls accts : List Acct) (L : Links) (h : ResolvedAccounts dflt decls accts L) :
    (accts.map (·.fullName)).Nodup ∧
    ∀ x, x ∈ accts.map (·.fullName) ↔ x = str "Root" ∨ x = str "Unbalanced" ∨
      ∃ d ∈ decls, x = d.fullName ∨ ProperAncestorName x d.fullName := by
  refine ⟨(resolved_spec dflt decls accts L h).1, ?_⟩
  obtain ⟨known, _, _, _, hk, ha, _⟩ := h
  exact resolved_names dflt decls accts known hk ha

/-- Full statement of C21's "keeps every declared account": the last declaration of each name is in the account map. -/
def C21_Statement : Prop := ∀ (dflt : Str) (decls accts : List Acct) (L : Links), ResolvedAccounts dflt decls accts L →
  ∀ l1 l2 a, decls = l1 ++ a :: l2 → (∀ b ∈ l2, b.fullName ≠ a.fullName) → a ∈ accts

/-- **C21 (partial)**: true for every name but `Unbalanced`. -/
theorem C21_declared_kept_partial (dflt : Str) (decls accts : List Acct) (L : Links) (h : ResolvedAccounts dflt decls accts L)
    (l1 l2 : List Acct) (a : Acct) (hd : decls = l1 ++ a :: l2) (hl : ∀ b ∈ l2, b.fullName ≠ a.fullName)
    (hu : a.fullName ≠ str "Unbalanced") : a ∈ accts := by
  obtain ⟨known, _, _, _, _, ha, _⟩ := h
  obtain ⟨⟨ext, e⟩, _, _⟩ := createParents_spec dflt known (baseAccounts dflt decls)
  rw [ha, e]
  apply List.mem_append_left
  unfold baseAccounts
  simp only
  apply mem_putAcct_of_ne _ _ _ _ hu
  have := loaded_last l1 l2 [] a hl
  rw [← hd] at this
  split
  · exact this
  · exact List.mem_append_left _ this

/-- Resolving the single declaration `Unbalanced` with commodity USD. -/
def unbalancedDecl : Acct := ⟨str "Unbalanced", str "mine", str "USD", none⟩

theorem resolved_exists (dflt : Str) (decls : List Acct) : ∃ accts L, ResolvedAccounts dflt decls accts L := by
  obtain ⟨L0, h0⟩ := C20_linking_succeeds dflt decls (baseAccounts dflt decls) _ 0 (List.Perm.refl _) (List.Perm.refl _)
  refine ⟨_, ⟨L0.parent, fun p => stableSort (fun a b => strLt (parentAndName a).2 (parentAndName b).2) (L0.children p)⟩,
    _, _, 0, L0, List.Perm.refl _, rfl, List.Perm.refl _, h0, rfl, ?_⟩
  intro p
  exact ⟨stableSort_perm _ _, stableSort_sorted _ (strLt_strictWeak.comap _) _⟩

/-- **C21's "kept" part is false** of the code: a declared `Unbalanced` account is replaced by a fresh one. -/
theorem C21_declared_kept_violated : ¬ C21_Statement := by
  intro h
  obtain ⟨accts, L, hr⟩ := resolved_exists (str "CAD") [unbalancedDecl]
  have hm := h (str "CAD") [unbalancedDecl] accts L hr [] [] unbalancedDecl rfl (by simp)
  obtain ⟨known, _, _, _, hk, ha, _⟩ := hr
  have hn := (createParents_spec (str "CAD") known _).2.2 (base_nodup (str "CAD") [unbalancedDecl])
  obtain ⟨⟨ext, e⟩, _, _⟩ := createParents_spec (str "CAD") known (baseAccounts (str "CAD") [unbalancedDecl])
  rw [← ha] at hn e
  have hm2 : accountFromName (str "CAD") unbalancedName ∈ accts := by
    rw [e]; apply List.mem_append_left; unfold baseAccounts; exact mem_putAcct_self _ _
  have := List.inj_on_of_nodup_map hn hm hm2 rfl
  revert this; decide

/-- Non-vacuity of C20/C21: a resolved tree exists for every list of declarations, e.g. this one, which creates two parents. -/
example : (createParents (str "CAD") (baseAccounts (str "CAD") [⟨str "A:B:C", [], str "CAD", none⟩])
    (baseAccounts (str "CAD") [⟨str "A:B:C", [], str "CAD", none⟩])).map (·.fullName) =
    [str "A:B:C", str "Root", str "Unbalanced", str "A:B", str "A"] := by decide +kernel

example : ∃ L, linkAll 9 [str "A:B:C", str "Root", str "Unbalanced", str "A:B", str "A"] Links.empty
    [str "A:B", str "Unbalanced", str "A:B:C", str "Root", str "A"] = .ok L ∧
    L.children (str "Root") = [str "Unbalanced", str "A"] ∧ L.children (str "A:B") = [str "A:B:C"] := by
  exact ⟨_, rfl, by decide +kernel, by decide +kernel⟩

/-! ## C22 -/

theorem getAcct_of_mem (accts : List Acct) (hn : (accts.map (·.fullName)).Nodup) (x : Acct) (hx : x ∈ accts) :
    getAcct accts x.fullName = some x := by
  unfold getAcct
  induction accts with
  | nil => simp at hx
  | cons b m ih =>
    obtain ⟨h1, h2⟩ := List.nodup_cons.mp (by simpa using hn : ((b.fullName) :: m.map (·.fullName)).Nodup)
    rcases List.mem_cons.mp hx with rfl | hx
    · simp
    · have : b.fullName ≠ x.fullName := by
        intro e; exact h1 (e ▸ List.mem_map.mpr ⟨x, hx, rfl⟩)
      rw [List.find?_cons_of_neg (by simpa using this)]
      exact ih h2 hx

/-- Whether an account carries its own closing date. -/
def HasClosingDate (accts : List Acct) (n : Str) : Prop := ∃ a ∈ accts, a.fullName = n ∧ a.closed ≠ none

theorem hasClosing_iff (accts : List Acct) (hn : (accts.map (·.fullName)).Nodup) (n : Str) :
    HasClosingDate accts n ↔ ownClosed accts n = true := by
  unfold ownClosed
  constructor
  · rintro ⟨a, ha, rfl, hc⟩
    rw [getAcct_of_mem accts hn a ha]
    cases h : a.closed with
    | none => exact absurd h hc
    | some _ => simp [h]
  · intro h
    unfold getAcct at h
    rcases hf : accts.find? (fun a => decide (a.fullName = n)) with _ | x
    · rw [hf] at h; simp at h
    · rw [hf] at h
      refine ⟨x, List.mem_of_find?_eq_some hf, by simpa using List.find?_some hf, ?_⟩
      intro e; simp [e] at h

/-- **C22** `IsClosed` of an account terminates and holds exactly when the account itself, Root, or an account whose name it
extends carries a closing date. -/
theorem C22_closed_iff (dflt : Str) (decls accts : List Acct) (L : Links) (h : ResolvedAccounts dflt decls accts L)
    (a : Str) (ha : a ∈ accts.map (·.fullName)) (fuel : Nat) (hf : a.length + 3 ≤ fuel) :
    ∃ b, isClosed accts L.parent fuel (some a) = .ok b ∧
      (b = true ↔ HasClosingDate accts a ∨ HasClosingDate accts (str "Root") ∨
        ∃ x, ProperAncestorName x a ∧ HasClosingDate accts x) := by
  obtain ⟨hn, hpar, _, hcl, hroot⟩ := resolved_spec dflt decls accts L h
  have hR : ∀ fuel, 2 ≤ fuel → ∃ b, isClosed accts L.parent fuel (some rootName) = .ok b ∧
      (b = true ↔ HasClosingDate accts rootName) := by
    intro fuel hf
    obtain ⟨k, rfl⟩ : ∃ k, fuel = k + 2 := ⟨fuel - 2, by omega⟩
    rw [isClosed, hpar]
    simp only [ne_eq, not_true_eq_false, and_false, if_false]
    rw [isClosed]
    refine ⟨_, rfl, ?_⟩
    rw [hasClosing_iff accts hn]; simp
  induction hlen : a.length using Nat.strongRecOn generalizing a fuel with
  | ind n ih =>
    by_cases hr : a = rootName
    · subst hr
      obtain ⟨b, h1, h2⟩ := hR fuel (by omega)
      refine ⟨b, h1, ?_⟩
      rw [h2]
      constructor
      · exact .inl
      · rintro (h | h | ⟨x, ⟨hx, r, e⟩, _⟩)
        · exact h
        · exact h
        · have : ':' ∈ rootName := by rw [e]; simp
          exact absurd this (by decide)
    · obtain ⟨k, rfl⟩ : ∃ k, fuel = k + 1 := ⟨fuel - 1, by omega⟩
      rw [isClosed, hpar, if_pos ⟨ha, hr⟩]
      have hown := hasClosing_iff accts hn a
      have hanc := ancName_parentOf a hr
      unfold parentOf at hanc ⊢
      rcases parent_cases a with h0 | ⟨p, x, hp, hx, rfl, h0⟩
      · rw [if_pos h0]
        obtain ⟨b, h1, h2⟩ := hR k (by omega)
        rw [h1]
        refine ⟨_, rfl, ?_⟩
        rw [Bool.or_eq_true, h2, ← hown]
        constructor
        · rintro (h | h)
          · exact .inr (.inl h)
          · exact .inl h
        · rintro (h | h | ⟨x, ⟨hx, r, e⟩, _⟩)
          · exact .inr h
          · exact .inl h
          · exfalso
            have hm := (mem_ancLoop a.length a x (le_refl _)).mpr ⟨hx, r, e⟩
            cases hl : a.length with
            | zero => rw [hl] at hm; simp [ancLoop] at hm
            | succ m => rw [hl] at hm; simp [ancLoop, h0] at hm
      · rw [h0, if_neg hp]
        have hpm : p ∈ accts.map (·.fullName) := by
          have := hcl _ ha; unfold parentOf at this; rw [h0, if_neg hp] at this; exact this
        obtain ⟨b, h1, h2⟩ := ih p.length (by simp at hlen; omega) p hpm k (by simp at hf; omega) rfl
        rw [h1]
        refine ⟨_, rfl, ?_⟩
        rw [Bool.or_eq_true, h2, ← hown]
        constructor
        · rintro ((h | h | ⟨y, ⟨hy, r, e⟩, h⟩) | h)
          · exact .inr (.inr ⟨p, ⟨hp, x, rfl⟩, h⟩)
          · exact .inr (.inl h)
          · exact .inr (.inr ⟨y, ⟨hy, r ++ ':' :: x, by rw [e]; simp⟩, h⟩)
          · exact .inl h
        · rintro (h | h | ⟨y, ⟨hy, r, e⟩, h⟩)
          · exact .inr h
          · exact .inl (.inr (.inl h))
          · rcases split_prefix_cases p x y r hx e with rfl | ⟨r', e'⟩
            · exact .inl (.inl h)
            · exact .inl (.inr (.inr ⟨y, ⟨hy, r', e'⟩, h⟩))

example : isClosed [⟨str "A:B", [], [], none⟩, ⟨str "A", [], [], some 5⟩, ⟨str "Root", [], [], none⟩]
    (fun x => if x = str "A:B" then some (str "A") else if x = str "A" then some (str "Root") else none) 6 (some (str "A:B"))
    = .ok true := by decide +kernel

/-! ## C23 -/

/-- Full statement of C23. -/
def C23_Statement : Prop := ∀ (dflt : Str) (decls accts : List Acct) (L : Links), ResolvedAccounts dflt decls accts L →
  (∀ d ∈ decls, ∀ c ∈ splitOn ':' d.fullName, c ≠ []) → ∀ a ∈ accts.map (·.fullName), ∀ fuel, a.length + 1 ≤ fuel →
  depth L.parent fuel a = .ok (splitOn ':' a).length

theorem splitOn_length_append (p x : Str) (hx : ':' ∉ x) : (splitOn ':' (p ++ ':' :: x)).length = (splitOn ':' p).length + 1 := by
  induction p with
  | nil => simp [splitOn, splitOn_noSep _ _ hx]
  | cons a p ih =>
    rw [List.cons_append, splitOn, splitOn]
    split
    · simp [ih]
    · have h1 := splitOn_ne_nil ':' (p ++ ':' :: x)
      have h2 := splitOn_ne_nil ':' p
      rcases h1' : splitOn ':' (p ++ ':' :: x) with _ | ⟨u, us⟩
      · exact absurd h1' h1
      · rcases h2' : splitOn ':' p with _ | ⟨v, vs⟩
        · exact absurd h2' h2
        · rw [h1', h2'] at ih; simpa using ih

/-- **C23 (partial)**: `Depth` terminates and equals the number of name components for every account that does not lie below
Root *by name* (`Root:…`); component names are non-empty, as `AccountREX` guarantees. -/
theorem C23_depth_partial (dflt : Str) (decls accts : List Acct) (L : Links) (h : ResolvedAccounts dflt decls accts L)
    (a : Str) (ha : a ∈ accts.map (·.fullName)) (hv : ∀ r, a ≠ ':' :: r) (hR : ¬ ProperAncestorName (str "Root") a) (fuel : Nat)
    (hf : a.length + 1 ≤ fuel) : depth L.parent fuel a = .ok (splitOn ':' a).length := by
  obtain ⟨hn, hpar, _, hcl, hroot⟩ := resolved_spec dflt decls accts L h
  induction hlen : a.length using Nat.strongRecOn generalizing a fuel with
  | ind n ih =>
    obtain ⟨k, rfl⟩ : ∃ k, fuel = k + 1 := ⟨fuel - 1, by omega⟩
    rw [depth, hpar]
    by_cases hr : a = rootName
    · subst hr
      simp only [ne_eq, not_true_eq_false, and_false, if_false]
      rfl
    · rw [if_pos ⟨ha, hr⟩]
      simp only
      by_cases hc : ':' ∈ a
      · obtain ⟨p, x, rfl, hx⟩ := exists_lastSplit ':' a hc
        have hp : p ≠ [] := by rintro rfl; exact hv x rfl
        have hpo : parentOf (p ++ ':' :: x) = p := by simp [parentOf, parentAndName_some p x hx, hp]
        rw [hpo]
        have hpr : p ≠ rootName := by
          rintro rfl; exact hR ⟨hp, x, rfl⟩
        rw [if_neg hpr]
        have hpm : p ∈ accts.map (·.fullName) := by have := hcl _ ha; rwa [hpo] at this
        rw [ih p.length (by simp at hlen; omega) p hpm
          (by rintro r rfl; exact hv _ rfl)
          (by rintro ⟨h1, r, rfl⟩; exact hR ⟨h1, r ++ ':' :: x, by simp⟩) k (by simp at hf; omega) rfl]
        rw [splitOn_length_append p x hx]; rfl
      · have hpo : parentOf a = rootName := by simp [parentOf, parentAndName_none a hc]
        rw [hpo, if_pos rfl, splitOn_noSep ':' a hc]; rfl

/-- **C23 is false** of the code: a declared account `Root:Foo` has depth 1 but two components. -/
theorem C23_depth_violated : ¬ C23_Statement := by
  intro h
  obtain ⟨accts, L, hr⟩ := resolved_exists (str "CAD") [accountFromName (str "CAD") (str "Root:Foo")]
  have hm : str "Root:Foo" ∈ accts.map (·.fullName) := by
    rw [(C21_exactly_missing_ancestors _ _ _ _ hr).2]; right; right
    exact ⟨_, List.mem_singleton.mpr rfl, .inl rfl⟩
  have := h _ _ _ _ hr (by decide +kernel) (str "Root:Foo") hm 9 (by decide)
  obtain ⟨_, hpar, _, _, _⟩ := resolved_spec _ _ _ _ hr
  rw [depth, hpar, if_pos ⟨hm, by decide⟩] at this
  have hp : parentOf (str "Root:Foo") = rootName := by decide +kernel
  have hl : (splitOn ':' (str "Root:Foo")).length = 2 := by decide +kernel
  rw [hp, hl] at this
  simp at this

example : depth (fun x => if x = str "A:B:C" then some (str "A:B") else if x = str "A:B" then some (str "A") else
    if x = str "A" then some (str "Root") else none) 6 (str "A:B:C") = .ok 3 := by decide +kernel

/-! ## C24 -/

/-- `x` is an account equal to or above `y` in the hierarchy. -/
def AtOrAbove (x y : Str) : Prop := x = y ∨ ∃ r, y = x ++ ':' :: r

/-- Full statement of C24: the function returns the exactly named account, otherwise a match that is at or above every
match, and it refuses (panics) when there is none. -/
def C24_Statement : Prop := ∀ (names : List Str) (m : Str → Bool) (pattern : Str), names.Nodup →
  (pattern ∈ names → mustFindAccount names m pattern = .ok pattern) ∧
  (pattern ∉ names → ∀ a, mustFindAccount names m pattern = .ok a ↔
    (a ∈ names ∧ m a = true ∧ ∀ b ∈ names, m b = true → AtOrAbove a b))

/-- **C24 is false** of the code: with matches `A:x`, `A:xy`, `B:x` the pattern is ambiguous, yet `A:x` is returned. -/
theorem C24_ambiguous_violated : ¬ C24_Statement := by
  intro h
  have := ((h [str "A:x", str "A:xy", str "B:x"] (fun _ => true) (str "x") (by decide)).2 (by decide) (str "A:x")).mp (by decide +kernel)
  have := this.2.2 (str "B:x") (by simp) rfl
  rcases this with h | ⟨r, h⟩
  · revert h; decide
  · have := congrArg List.head? h; simp at this; revert this; decide

theorem findAccounts_perm (names : List Str) (m : Str → Bool) : (findAccounts names m).Perm (names.filter m) :=
  (stableSort_perm _ _).trans ((stableSort_perm _ _).filter m)

theorem findAccounts_sorted (names : List Str) (m : Str → Bool) :
    (findAccounts names m).Pairwise (fun x y => strLt y x = false) := stableSort_sorted _ strLt_strictWeak _

theorem allLoop_false (p : Str) (l : List Str) : allLoop p false l = false := by
  induction l with
  | nil => rfl
  | cons a l ih => simp [allLoop, ih]

theorem allLoop_cons (p b : Str) (l : List Str) : allLoop p true (b :: l) = hasPrefix b p := by
  unfold allLoop
  simp only [Bool.true_and]
  split
  · rename_i h; exact h.symm ▸ rfl
  · rename_i h
    have h : hasPrefix b p = false := by simpa using h
    rw [h, allLoop_false]

/-- **C24 (partial)**: an exact name always wins; no match is refused; a single match is returned; a match that is above all
other matches is found and returned; whatever is returned is a match and the second match in name order starts with it. Missing:
with three or more matches only the first two (in name order) are compared, and the comparison is by string prefix. -/
theorem C24_find_partial (names : List Str) (m : Str → Bool) (pattern : Str) (hn : names.Nodup) :
    (pattern ∈ names → mustFindAccount names m pattern = .ok pattern) ∧
    (pattern ∉ names →
      ((∀ a ∈ names, m a = false) → mustFindAccount names m pattern = .error .panic) ∧
      (∀ a ∈ names, m a = true → (∀ b ∈ names, m b = true → AtOrAbove a b) → mustFindAccount names m pattern = .ok a) ∧
      (∀ a, mustFindAccount names m pattern = .ok a → a ∈ names ∧ m a = true ∧
        (∀ b ∈ names, m b = true → strLt b a = false) ∧
        ((∃ b ∈ names, m b = true ∧ b ≠ a) → ∃ b ∈ names, m b = true ∧ b ≠ a ∧ ∃ r, b = a ++ r))) := by
  refine ⟨fun h => by simp [mustFindAccount, h], fun hp => ?_⟩
  unfold mustFindAccount
  rw [if_neg hp]
  have hperm := findAccounts_perm names m
  have hsort := findAccounts_sorted names m
  have hnd : (findAccounts names m).Nodup := (hperm.nodup_iff).mpr (hn.filter _)
  have hmem : ∀ x, x ∈ findAccounts names m ↔ x ∈ names ∧ m x = true := by
    intro x; rw [hperm.mem_iff, List.mem_filter]
  generalize findAccounts names m = as at hperm hsort hnd hmem
  refine ⟨?_, ?_, ?_⟩
  · intro hnone
    rcases as with _ | ⟨a, as⟩
    · rfl
    · have := (hmem a).mp (by simp); rw [hnone a this.1] at this; simp at this
  · intro a ha hma hall
    have hin := (hmem a).mpr ⟨ha, hma⟩
    rcases as with _ | ⟨x, as⟩
    · simp at hin
    · have hx := (hmem x).mp (by simp)
      have hax : a = x := by
        rcases List.mem_cons.mp hin with e | hin
        · exact e
        · have h1 := (List.pairwise_cons.mp hsort).1 a hin
          rcases hall x hx.1 hx.2 with e | ⟨r, e⟩
          · exact e
          · rw [e, strLt_of_prefix a _ (by simp)] at h1; simp at h1
      subst hax
      rcases as with _ | ⟨b, as⟩
      · rfl
      · simp only [allLoop_cons]
        have hb := (hmem b).mp (by simp)
        have hne : b ≠ a := by
          have := (List.nodup_cons.mp hnd).1
          rintro rfl; exact this (by simp)
        rcases hall b hb.1 hb.2 with e | ⟨r, e⟩
        · exact absurd e.symm hne
        · rw [if_pos]; rw [e]; simp [hasPrefix]
  · intro a h
    rcases as with _ | ⟨x, as⟩
    · simp at h
    · have hmin : ∀ b ∈ names, m b = true → strLt b x = false := by
        intro b hb hmb
        rcases List.mem_cons.mp ((hmem b).mpr ⟨hb, hmb⟩) with rfl | hin
        · exact strLt_irrefl _
        · exact (List.pairwise_cons.mp hsort).1 b hin
      have hx := (hmem x).mp (by simp)
      rcases as with _ | ⟨y, as⟩
      · injection h with h; subst h
        refine ⟨hx.1, hx.2, hmin, ?_⟩
        rintro ⟨b, hb, hmb, hne⟩
        have := (hmem b).mpr ⟨hb, hmb⟩; simp at this; exact absurd this hne
      · simp only [allLoop_cons] at h
        split at h
        · rename_i hpre
          injection h with h; subst h
          refine ⟨hx.1, hx.2, hmin, fun _ => ?_⟩
          have hy := (hmem y).mp (by simp)
          refine ⟨y, hy.1, hy.2, ?_, ?_⟩
          · have := (List.nodup_cons.mp hnd).1
            rintro rfl; exact this (by simp)
          · obtain ⟨r, e⟩ := List.isPrefixOf_iff_prefix.mp hpre
            exact ⟨r, e.symm⟩
        · simp at h

example : mustFindAccount [str "B:food", str "A:food", str "A:food:out"] (fun n => decide (n ≠ str "B:food")) (str "food")
    = .ok (str "A:food") := by decide +kernel

/-! ## C25 -/

/-- Least possible length after shortening every component to one character. -/
def minimalLength (parts : List Str) : Nat := (parts.map (fun p => min p.length 1)).sum + (parts.length - 1)

theorem shortenLoop_spec (over : Int) (parts : List Str) (ho : 0 ≤ over) :
    List.Forall₂ (fun p q => q.IsPrefix p ∧ (p ≠ [] → q ≠ [])) parts (shortenLoop over parts) ∧
    ((((shortenLoop over parts).map List.length).sum : Nat) : Int) =
      max ((((parts.map List.length).sum : Nat) : Int) - over) (((parts.map (fun p => min p.length 1)).sum : Nat) : Int) := by
  induction parts generalizing over with
  | nil => simp [shortenLoop]; omega
  | cons p rest ih =>
    have hle : (rest.map (fun p => min p.length 1)).sum ≤ (rest.map List.length).sum := by
      clear ih
      induction rest with
      | nil => simp
      | cons a l ih => simp only [List.map_cons, List.sum_cons]; omega
    have hrefl : ∀ l : List Str, List.Forall₂ (fun p q => q.IsPrefix p ∧ (p ≠ [] → q ≠ [])) l l := by
      intro l
      induction l with
      | nil => exact .nil
      | cons a l ih => exact .cons ⟨List.prefix_refl _, id⟩ ih
    unfold shortenLoop
    by_cases hov : over > 0
    · rw [if_pos hov]
      by_cases hp : p.length = 0
      · rw [if_pos hp]
        obtain ⟨h1, h2⟩ := ih over ho
        refine ⟨.cons ⟨List.prefix_refl _, id⟩ h1, ?_⟩
        simp only [List.map_cons, List.sum_cons] at h2 ⊢
        push_cast at h2 ⊢
        omega
      · rw [if_neg hp]
        simp only
        obtain ⟨h1, h2⟩ := ih (over - min over ((p.length : Int) - 1)) (by omega)
        refine ⟨.cons ⟨List.take_prefix _ _, ?_⟩ h1, ?_⟩
        · intro _ h
          have := congrArg List.length h
          simp only [List.length_take, List.length_nil] at this
          omega
        · simp only [List.map_cons, List.sum_cons, List.length_take] at h2 ⊢
          push_cast at h2 ⊢
          omega
    · rw [if_neg hov]
      refine ⟨hrefl _, ?_⟩
      simp only [List.map_cons, List.sum_cons]
      push_cast
      omega

theorem joinWith_length (l : List Str) (h : l ≠ []) : (joinWith [':'] l).length = (l.map List.length).sum + (l.length - 1) := by
  induction l with
  | nil => exact absurd rfl h
  | cons a l ih =>
    cases l with
    | nil => simp [joinWith]
    | cons b t =>
      rw [joinWith_cons _ _ _ (by simp)]
      simp only [List.length_append, List.map_cons, List.sum_cons, List.length_cons, List.length_nil]
      have := ih (by simp)
      simp only [List.map_cons, List.sum_cons, List.length_cons] at this
      omega

theorem splitOn_joinWith (l : List Str) (h : l ≠ []) (hc : ∀ p ∈ l, ':' ∉ p) : splitOn ':' (joinWith [':'] l) = l := by
  induction l with
  | nil => exact absurd rfl h
  | cons a l ih =>
    cases l with
    | nil => exact splitOn_noSep _ _ (hc a (by simp))
    | cons b t =>
      rw [joinWith_cons _ _ _ (by simp)]
      rw [show a ++ [':'] ++ joinWith [':'] (b :: t) = a ++ ':' :: joinWith [':'] (b :: t) by simp,
        splitOn_append_sep ':' a _ (hc a (by simp)), ih (by simp) (fun p hp => hc p (by simp [hp]))]

theorem splitOn_noColon (sep : Char) (s : Str) : ∀ p ∈ splitOn sep s, sep ∉ p := by
  induction s with
  | nil => simp [splitOn]
  | cons c s ih =>
    unfold splitOn
    split
    · intro p hp
      rcases List.mem_cons.mp hp with rfl | hp
      · simp
      · exact ih p hp
    · rename_i hc
      rcases hs : splitOn sep s with _ | ⟨x, xs⟩
      · simp; exact fun e => hc e.symm
      · rw [hs] at ih
        intro p hp
        rcases List.mem_cons.mp hp with rfl | hp
        · intro hm
          rcases List.mem_cons.mp hm with e | hm
          · exact hc e.symm
          · exact ih x (by simp) hm
        · exact ih p (by simp [hp])

theorem forall2_prefix {l l' : List Str} (h : List.Forall₂ (fun p q : Str => q.IsPrefix p ∧ (p ≠ [] → q ≠ [])) l l') :
    ∀ q ∈ l', ∃ p ∈ l, q.IsPrefix p := by
  induction h with
  | nil => simp
  | @cons a b l l' hr _ ih =>
    intro q hq
    rcases List.mem_cons.mp hq with rfl | hq
    · exact ⟨a, by simp, hr.1⟩
    · obtain ⟨p, hp, h⟩ := ih q hq
      exact ⟨p, by simp [hp], h⟩

/-- **C25** A name that fits is unchanged; otherwise the shortened name has the same number of components, each a prefix of the
original one and non-empty when the original is, and its length is the larger of the requested size and the least possible. -/
theorem C25_shorten (n : Str) (size : Int) :
    ((n.length : Int) ≤ size → shortenAccountName n size = n) ∧
    (size < n.length →
      List.Forall₂ (fun p q => q.IsPrefix p ∧ (p ≠ [] → q ≠ [])) (splitOn ':' n) (splitOn ':' (shortenAccountName n size)) ∧
      ((shortenAccountName n size).length : Int) = max size (minimalLength (splitOn ':' n))) := by
  refine ⟨fun h => by simp [shortenAccountName, h], fun h => ?_⟩
  unfold shortenAccountName
  rw [if_neg (by omega)]
  obtain ⟨h1, h2⟩ := shortenLoop_spec (n.length - size) (splitOn ':' n) (by omega)
  have hlen := h1.length_eq
  have hne : shortenLoop (n.length - size) (splitOn ':' n) ≠ [] := by
    intro e; rw [e] at hlen; exact splitOn_ne_nil ':' n (List.length_eq_zero_iff.mp (by simpa using hlen))
  have hnc : ∀ p ∈ shortenLoop (n.length - size) (splitOn ':' n), ':' ∉ p := by
    intro p hp
    obtain ⟨q, hq, hpre⟩ := forall2_prefix h1 p hp
    intro hm
    exact splitOn_noColon ':' n q hq (hpre.subset hm)
  refine ⟨by rw [splitOn_joinWith _ hne hnc]; exact h1, ?_⟩
  rw [joinWith_length _ hne]
  have h0 := joinWith_length (splitOn ':' n) (splitOn_ne_nil ':' n)
  rw [joinWith_splitOn] at h0
  unfold minimalLength
  have hpos : 0 < (splitOn ':' n).length := List.length_pos_iff.mpr (splitOn_ne_nil ':' n)
  rw [← hlen]
  push_cast
  omega

example : shortenAccountName (str "Expenses:Food:Out") 10 = str "Ex:Foo:Out" ∨
    shortenAccountName (str "Expenses:Food:Out") 10 = str "E:Food:Out" := by right; decide +kernel

end Verif
