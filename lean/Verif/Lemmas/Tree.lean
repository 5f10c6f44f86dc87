import Verif.Props.Accounts
import Verif.Model.Balance
/-! The account tree as a finite tree: complete walks, induction, and sums over subtrees. -/
namespace Verif

/-- What the walks need of a resolved account tree over `names`. -/
structure TreeOK (names : List Str) (L : Links) : Prop where
  nodup : names.Nodup
  parent : ∀ a, L.parent a = if a ∈ names ∧ a ≠ rootName then some (parentOf a) else none
  mem : ∀ p c, c ∈ L.children p ↔ c ∈ names ∧ c ≠ rootName ∧ parentOf c = p
  chNodup : ∀ p, (L.children p).Nodup
  closed : ∀ a ∈ names, parentOf a ∈ names
  root : rootName ∈ names

theorem TreeOK.of {dflt : Str} {decls accts : List Acct} {L : Links} (h : ResolvedAccounts dflt decls accts L) :
    TreeOK (accts.map (·.fullName)) L := by
  obtain ⟨h1, h2, h3, h4, h5⟩ := resolved_spec dflt decls accts L h
  refine ⟨h1, h2, resolved_children dflt decls accts L h, ?_, h4, h5⟩
  intro p
  obtain ⟨order, ho, hp⟩ := h3 p
  rw [hp.nodup_iff]
  exact (ho.nodup_iff.mpr h1).filter _

/-- Longest name. -/
def maxLen (names : List Str) : Nat := (names.map List.length).foldr max 0

theorem le_maxLen {names : List Str} {a : Str} (h : a ∈ names) : a.length ≤ maxLen names := by
  unfold maxLen
  induction names with
  | nil => simp at h
  | cons b l ih =>
    simp only [List.map_cons, List.foldr_cons]
    rcases List.mem_cons.mp h with rfl | h
    · omega
    · have := ih h; omega

/-- A measure growing along child links. -/
def rank (a : Str) : Nat := if a = rootName then 0 else a.length + 1

theorem rank_lt_of_anc {a d : Str} (h : AncName a d) : rank a < rank d := by
  obtain ⟨hd, h⟩ := h
  unfold rank
  rw [if_neg hd]
  rcases h with rfl | ⟨_, r, rfl⟩
  · simp
  · split
    · omega
    · simp

/-- `a` itself or a descendant. -/
def InSub (a x : Str) : Prop := x = a ∨ AncName a x

variable {names : List Str} {L : Links}

theorem TreeOK.child_anc (t : TreeOK names L) {p c : Str} (h : c ∈ L.children p) : AncName p c := by
  obtain ⟨_, h2, rfl⟩ := (t.mem p c).mp h
  exact ancName_parentOf c h2

theorem TreeOK.child_names (t : TreeOK names L) {p c : Str} (h : c ∈ L.children p) : c ∈ names := ((t.mem p c).mp h).1

theorem rank_le {a : Str} (h : a ∈ names) : rank a ≤ maxLen names + 1 := by
  have := le_maxLen h
  unfold rank; split <;> omega

/-- Induction along child links. -/
theorem TreeOK.induction (t : TreeOK names L) {Q : Str → Prop}
    (h : ∀ a ∈ names, (∀ c ∈ L.children a, Q c) → Q a) : ∀ a ∈ names, Q a := by
  have key : ∀ n a, a ∈ names → maxLen names + 1 - rank a = n → Q a := by
    intro n
    induction n using Nat.strongRecOn with
    | ind n ih =>
      intro a ha hn
      apply h a ha
      intro c hc
      have h1 := rank_lt_of_anc (t.child_anc hc)
      have h2 := rank_le (t.child_names hc)
      exact ih _ (by omega) c (t.child_names hc) rfl
  exact fun a ha => key _ a ha rfl

/-- Enough fuel for every walk. -/
def treeFuel (names : List Str) : Nat := maxLen names + 3

theorem TreeOK.subtree_stable (t : TreeOK names L) (k k' : Nat) (a : Str) (ha : a ∈ names) (hk : maxLen names + 1 < k + rank a)
    (hk' : maxLen names + 1 < k' + rank a) : subtree L.children k a = subtree L.children k' a := by
  induction k generalizing k' a with
  | zero => have := rank_le ha; omega
  | succ k ih =>
    cases k' with
    | zero => have := rank_le ha; omega
    | succ k' =>
      simp only [subtree]
      congr 1
      apply List.flatMap_congr
      intro c hc
      have := rank_lt_of_anc (t.child_anc hc)
      exact ih k' c (t.child_names hc) (by omega) (by omega)

theorem TreeOK.subtreePost_stable (t : TreeOK names L) (k k' : Nat) (a : Str) (ha : a ∈ names) (hk : maxLen names + 1 < k + rank a)
    (hk' : maxLen names + 1 < k' + rank a) : subtreePost L.children k a = subtreePost L.children k' a := by
  induction k generalizing k' a with
  | zero => have := rank_le ha; omega
  | succ k ih =>
    cases k' with
    | zero => have := rank_le ha; omega
    | succ k' =>
      simp only [subtreePost]
      congr 1
      apply List.flatMap_congr
      intro c hc
      have := rank_lt_of_anc (t.child_anc hc)
      exact ih k' c (t.child_names hc) (by omega) (by omega)

/-- Complete walk in preorder. -/
def walkOf (names : List Str) (L : Links) (a : Str) : List Str := subtree L.children (treeFuel names) a
/-- Complete walk in postorder. -/
def walkPostOf (names : List Str) (L : Links) (a : Str) : List Str := subtreePost L.children (treeFuel names) a

theorem TreeOK.walk_cons (t : TreeOK names L) (a : Str) :
    walkOf names L a = a :: (L.children a).flatMap (walkOf names L) := by
  conv_lhs => unfold walkOf treeFuel
  rw [subtree]
  congr 1
  apply List.flatMap_congr
  intro c hc
  have h1 := rank_lt_of_anc (t.child_anc hc)
  exact t.subtree_stable _ _ c (t.child_names hc) (by omega) (by unfold treeFuel; omega)

theorem TreeOK.walkPost_cons (t : TreeOK names L) (a : Str) :
    walkPostOf names L a = (L.children a).flatMap (walkPostOf names L) ++ [a] := by
  conv_lhs => unfold walkPostOf treeFuel
  rw [subtreePost]
  congr 1
  apply List.flatMap_congr
  intro c hc
  have h1 := rank_lt_of_anc (t.child_anc hc)
  exact t.subtreePost_stable _ _ c (t.child_names hc) (by omega) (by unfold treeFuel; omega)

/-- Any fuel at least `treeFuel` gives the complete walk. -/
theorem TreeOK.walk_fuel (t : TreeOK names L) (k : Nat) (hk : treeFuel names ≤ k) (a : Str) (ha : a ∈ names) :
    subtree L.children k a = walkOf names L a := by
  unfold treeFuel at hk
  exact t.subtree_stable _ _ a ha (by omega) (by unfold treeFuel; omega)

theorem TreeOK.walkPost_fuel (t : TreeOK names L) (k : Nat) (hk : treeFuel names ≤ k) (a : Str) (ha : a ∈ names) :
    subtreePost L.children k a = walkPostOf names L a := by
  unfold treeFuel at hk
  exact t.subtreePost_stable _ _ a ha (by omega) (by unfold treeFuel; omega)

theorem anc_parent_cases {a d : Str} (h : AncName a d) : a = parentOf d ∨ AncName a (parentOf d) := by
  obtain ⟨hd, h⟩ := h
  rcases h with rfl | ⟨ha, r, rfl⟩
  · by_cases hp : parentOf d = rootName
    · exact .inl hp.symm
    · exact .inr ⟨hp, .inl rfl⟩
  · obtain ⟨p, x, he, hx⟩ := exists_lastSplit ':' (a ++ ':' :: r) (by simp)
    have hpar : parentAndName (a ++ ':' :: r) = (p, x) := by rw [he, parentAndName_some p x hx]
    rcases split_prefix_cases p x a r hx he.symm with h' | ⟨s, h'⟩
    · subst h'
      left
      unfold parentOf; rw [hpar]; simp [ha]
    · have hpne : p ≠ [] := by rw [h']; simp
      have hpo : parentOf (a ++ ':' :: r) = p := by unfold parentOf; rw [hpar]; simp [hpne]
      rw [hpo]
      by_cases hpr : p = rootName
      · exfalso
        have : ':' ∈ rootName := by rw [← hpr, h']; simp
        exact absurd this (by decide)
      · exact .inr ⟨hpr, .inr ⟨ha, s, h'⟩⟩

theorem TreeOK.mem_walk (t : TreeOK names L) : ∀ a ∈ names, ∀ x, x ∈ walkOf names L a ↔ x ∈ names ∧ InSub a x := by
  refine t.induction (Q := fun a => ∀ x, x ∈ walkOf names L a ↔ x ∈ names ∧ InSub a x) ?_
  intro a ha ih x
  rw [t.walk_cons]
  simp only [List.mem_cons, List.mem_flatMap]
  constructor
  · rintro (rfl | ⟨c, hc, hx⟩)
    · exact ⟨ha, .inl rfl⟩
    · obtain ⟨h1, h2⟩ := (ih c hc x).mp hx
      refine ⟨h1, .inr ?_⟩
      have hac := t.child_anc hc
      rcases h2 with rfl | h2
      · exact hac
      · exact ancName_trans _ _ _ hac h2
  · rintro ⟨hx, rfl | h⟩
    · exact .inl rfl
    · right
      -- climb from x to the child of a
      have climb : ∀ n, ∀ y, y.length = n → y ∈ names → AncName a y → ∃ c ∈ L.children a, InSub c y := by
        intro n
        induction n using Nat.strongRecOn with
        | ind n ihn =>
          intro y hn hy hay
          rcases anc_parent_cases hay with h' | h'
          · exact ⟨y, (t.mem a y).mpr ⟨hy, hay.1, h'.symm⟩, .inl rfl⟩
          · have hpy := t.closed y hy
            have hlt : (parentOf y).length < n := by
              have hanc := ancName_parentOf y hay.1
              obtain ⟨_, he | ⟨_, r, he⟩⟩ := hanc
              · exfalso; rw [he] at h'; exact h'.1 rfl
              · have := congrArg List.length he
                simp at this; omega
            obtain ⟨c, hc, hcy⟩ := ihn _ hlt (parentOf y) rfl hpy h'
            refine ⟨c, hc, .inr ?_⟩
            have hanc := ancName_parentOf y hay.1
            rcases hcy with h2 | h2
            · rw [← h2]; exact hanc
            · exact ancName_trans _ _ _ h2 hanc
      obtain ⟨c, hc, hcx⟩ := climb _ x rfl hx h
      exact ⟨c, hc, (ih c hc x).mpr ⟨hx, hcx⟩⟩

theorem anc_comparable {a b x : Str} (h1 : AncName a x) (h2 : AncName b x) : a = b ∨ AncName a b ∨ AncName b a := by
  induction hn : x.length using Nat.strongRecOn generalizing x with
  | ind n ih =>
    rcases anc_parent_cases h1 with e1 | g1
    · rcases anc_parent_cases h2 with e2 | g2
      · left; rw [e1, e2]
      · right; right; rw [e1]; exact g2
    · rcases anc_parent_cases h2 with e2 | g2
      · right; left; rw [e2]; exact g1
      · have hlt : (parentOf x).length < n := by
          obtain ⟨_, he | ⟨_, r, he⟩⟩ := ancName_parentOf x h1.1
          · exfalso; rw [he] at g1; exact g1.1 rfl
          · have := congrArg List.length he; simp at this; omega
        exact ih _ hlt g1 g2 rfl

theorem TreeOK.siblings_disjoint (t : TreeOK names L) {p c d x : Str} (hc : c ∈ L.children p) (hd : d ∈ L.children p)
    (h1 : InSub c x) (h2 : InSub d x) : c = d := by
  have sib : ∀ c d, c ∈ L.children p → d ∈ L.children p → ¬ AncName c d := by
    intro c d hc hd h
    have hpd : parentOf d = p := ((t.mem p d).mp hd).2.2
    rcases anc_parent_cases h with e | g
    · rw [hpd] at e; subst e; exact ancName_irrefl _ (t.child_anc hc)
    · rw [hpd] at g; exact ancName_irrefl _ (ancName_trans _ _ _ g (t.child_anc hc))
  rcases h1 with rfl | h1
  · rcases h2 with rfl | h2
    · rfl
    · exact absurd h2 (sib d x hd hc)
  · rcases h2 with rfl | h2
    · exact absurd h1 (sib c x hc hd)
    · rcases anc_comparable h1 h2 with h | h | h
      · exact h
      · exact absurd h (sib c d hc hd)
      · exact absurd h (sib d c hd hc)

theorem TreeOK.walk_nodup (t : TreeOK names L) : ∀ a ∈ names, (walkOf names L a).Nodup := by
  refine t.induction (Q := fun a => (walkOf names L a).Nodup) ?_
  intro a ha ih
  rw [t.walk_cons, List.nodup_cons]
  constructor
  · intro h
    obtain ⟨c, hc, hx⟩ := List.mem_flatMap.mp h
    have hac := t.child_anc hc
    rcases ((t.mem_walk c (t.child_names hc) a).mp hx).2 with h | h
    · subst h; exact ancName_irrefl _ hac
    · exact ancName_irrefl _ (ancName_trans _ _ _ hac h)
  · rw [List.nodup_flatMap]
    refine ⟨fun c hc => ih c hc, ?_⟩
    refine (t.chNodup a).imp_of_mem ?_
    intro c d hc hd hne
    simp only [Function.onFun, List.disjoint_left]
    intro x hx1 hx2
    exact hne (t.siblings_disjoint hc hd ((t.mem_walk c (t.child_names hc) x).mp hx1).2 ((t.mem_walk d (t.child_names hd) x).mp hx2).2)

theorem TreeOK.walk_perm (t : TreeOK names L) (a : Str) (ha : a ∈ names) [DecidablePred (InSub a)] :
    (walkOf names L a).Perm (names.filter (fun x => decide (InSub a x))) := by
  rw [List.perm_ext_iff_of_nodup (t.walk_nodup a ha) (t.nodup.filter _)]
  intro x
  rw [t.mem_walk a ha, List.mem_filter]; simp

theorem TreeOK.walkPost_perm (t : TreeOK names L) : ∀ a ∈ names, (walkPostOf names L a).Perm (walkOf names L a) := by
  refine t.induction (Q := fun a => (walkPostOf names L a).Perm (walkOf names L a)) ?_
  intro a ha ih
  rw [t.walk_cons, t.walkPost_cons]
  refine List.perm_append_comm.trans ?_
  simp only [List.singleton_append]
  refine List.Perm.cons a ?_
  have : ∀ cs : List Str, (∀ c ∈ cs, c ∈ L.children a) → (cs.flatMap (walkPostOf names L)).Perm (cs.flatMap (walkOf names L)) := by
    intro cs
    induction cs with
    | nil => intro _; exact List.Perm.refl _
    | cons c cs ihc =>
      intro h
      simp only [List.flatMap_cons]
      exact (ih c (h c (by simp))).append (ihc (fun d hd => h d (by simp [hd])))
  exact this _ (fun c hc => hc)

/-- In preorder no account comes before one of its ancestors. -/
theorem TreeOK.walk_parents_first (t : TreeOK names L) : ∀ a ∈ names, (walkOf names L a).Pairwise (fun x y => ¬ AncName y x) := by
  refine t.induction (Q := fun a => (walkOf names L a).Pairwise (fun x y => ¬ AncName y x)) ?_
  intro a ha ih
  rw [t.walk_cons, List.pairwise_cons]
  constructor
  · intro y hy h
    obtain ⟨c, hc, hx⟩ := List.mem_flatMap.mp hy
    have hac := t.child_anc hc
    rcases ((t.mem_walk c (t.child_names hc) y).mp hx).2 with h' | h'
    · subst h'; exact ancName_irrefl _ (ancName_trans _ _ _ hac h)
    · exact ancName_irrefl _ (ancName_trans _ _ _ (ancName_trans _ _ _ hac h') h)
  · have : ∀ cs : List Str, cs.Nodup → (∀ c ∈ cs, c ∈ L.children a) → (cs.flatMap (walkOf names L)).Pairwise (fun x y => ¬ AncName y x) := by
      intro cs
      induction cs with
      | nil => intro _ _; exact List.Pairwise.nil
      | cons c cs ihc =>
        intro hn h
        simp only [List.flatMap_cons]
        rw [List.pairwise_append]
        refine ⟨ih c (h c (by simp)), ihc (List.nodup_cons.mp hn).2 (fun d hd => h d (by simp [hd])), ?_⟩
        intro x hx y hy hyx
        obtain ⟨d, hd, hy⟩ := List.mem_flatMap.mp hy
        have hc := h c (by simp)
        have hdm := h d (by simp [hd])
        have hxc := ((t.mem_walk c (t.child_names hc) x).mp hx).2
        have hyd := ((t.mem_walk d (t.child_names hdm) y).mp hy).2
        have hxd : InSub d x := by
          rcases hyd with rfl | hyd
          · exact .inr hyx
          · exact .inr (ancName_trans _ _ _ hyd hyx)
        have := t.siblings_disjoint hc hdm hxc hxd
        subst this
        exact (List.nodup_cons.mp hn).1 hd
    exact this _ (t.chNodup a) (fun c hc => hc)

end Verif
