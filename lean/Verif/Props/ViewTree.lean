import Verif.Props.Views
import Mathlib.Data.List.Forall2
import Mathlib.Data.List.Chain
import Mathlib.Algebra.Order.BigOperators.Group.List
/-!
# Properties C123 to C126: the tree of accounts on the page, lists of subaccounts and totals of balances
-/
namespace Verif

/-- The accounts loaded by the page form a tree (see `C123_loaded`): full names are distinct, and the parent of an account is a
loaded account whose full name is what stands before the last colon. -/
structure WTree (as : List WAcct) : Prop where
  nodup : (as.map (fun w : WAcct => w.fullName)).Nodup
  up : ∀ w ∈ as, ∀ p, w.parent = some p → p ∈ as.map (fun w : WAcct => w.fullName) ∧ ∃ n, w.fullName = p ++ ':' :: n
  named : ∀ w ∈ as, ∀ p n, w.fullName = p ++ ':' :: n → ':' ∉ n → p ≠ [] → p ≠ str "Root" → w.parent = some p

/-- `w` is below the account called `a`, and it and all accounts between are kept. -/
inductive Down (as : List WAcct) (keep : WAcct → Bool) (a : Str) : WAcct → Prop
  | child {w : WAcct} : w ∈ as → w.parent = some a → keep w = true → Down as keep a w
  | step {v w : WAcct} : Down as keep a v → w ∈ as → w.parent = some v.fullName → keep w = true → Down as keep a w

/-- In a list of accounts every account comes after its parent, which is one of `seen` or earlier in the list. -/
def ParentsFirst (seen : List Str) : List WAcct → Prop
  | [] => True
  | w :: l => (∃ p ∈ seen, w.parent = some p) ∧ ParentsFirst (w.fullName :: seen) l

theorem WTree.eq_of_name {as : List WAcct} (ht : WTree as) {v w : WAcct} (hv : v ∈ as) (hw : w ∈ as) (e : v.fullName = w.fullName) : v = w := by
  have := ht.nodup
  rw [List.nodup_map_iff_inj_on ht.nodup.of_map] at this
  exact this v hv w hw e

theorem WTree.shorter {as : List WAcct} (ht : WTree as) {w : WAcct} (hw : w ∈ as) {p : Str} (h : w.parent = some p) : p.length < w.fullName.length := by
  obtain ⟨_, n, e⟩ := ht.up w hw p h
  rw [e]; simp

theorem Down.mem {as : List WAcct} {keep : WAcct → Bool} {a : Str} {w : WAcct} (h : Down as keep a w) : w ∈ as := by cases h <;> assumption

theorem Down.kept {as : List WAcct} {keep : WAcct → Bool} {a : Str} {w : WAcct} (h : Down as keep a w) : keep w = true := by cases h <;> assumption

theorem Down.longer {as : List WAcct} {keep : WAcct → Bool} (ht : WTree as) {a : Str} {w : WAcct} (h : Down as keep a w) : a.length < w.fullName.length := by
  induction h with
  | child hw hp _ => exact ht.shorter hw hp
  | step hd hw hp _ ih => have := ht.shorter hw hp; omega

/-- From the top: below `a` are its kept children and what is below them. -/
theorem Down.top {as : List WAcct} {keep : WAcct → Bool} {a : Str} {w : WAcct} :
    Down as keep a w ↔ ∃ v ∈ as, v.parent = some a ∧ keep v = true ∧ (w = v ∨ Down as keep v.fullName w) := by
  constructor
  · intro h
    induction h with
    | child hw hp hk => exact ⟨_, hw, hp, hk, Or.inl rfl⟩
    | step hd hw hp hk ih =>
      obtain ⟨v, h1, h2, h3, h4⟩ := ih
      refine ⟨v, h1, h2, h3, Or.inr ?_⟩
      rcases h4 with rfl | h4
      · exact .child hw hp hk
      · exact .step h4 hw hp hk
  · rintro ⟨v, h1, h2, h3, h4⟩
    rcases h4 with rfl | h4
    · exact .child h1 h2 h3
    · induction h4 with
      | child hw hp hk => exact .step (.child h1 h2 h3) hw hp hk
      | step hd hw hp hk ih => exact .step ih hw hp hk

/-- Accounts above a given one lie on one line. -/
theorem Down.linear {as : List WAcct} {keep : WAcct → Bool} (ht : WTree as) {p q : Str} {w : WAcct} (h1 : Down as keep p w) (h2 : Down as keep q w) :
    p = q ∨ (∃ v, v.fullName = p ∧ Down as keep q v) ∨ (∃ v, v.fullName = q ∧ Down as keep p v) := by
  induction h1 with
  | child hw hp hk =>
    cases h2 with
    | child _ hp2 _ => rw [hp] at hp2; injection hp2 with e; exact Or.inl e
    | step hd _ hp2 _ => rw [hp] at hp2; injection hp2 with e; exact Or.inr (Or.inl ⟨_, e.symm, hd⟩)
  | step hd hw hp hk ih =>
    cases h2 with
    | child _ hp2 _ => rw [hp] at hp2; injection hp2 with e; exact Or.inr (Or.inr ⟨_, e, hd⟩)
    | step hd2 _ hp2 _ =>
      rw [hp] at hp2; injection hp2 with e
      have := ht.eq_of_name hd.mem hd2.mem e
      subst this
      exact ih hd2

/-- Nothing is below two children of one account. -/
theorem Down.apart {as : List WAcct} {keep : WAcct → Bool} (ht : WTree as) {a : Str} {u v w : WAcct} (hu : u ∈ as) (hv : v ∈ as)
    (pu : u.parent = some a) (pv : v.parent = some a) (h1 : w = u ∨ Down as keep u.fullName w) (h2 : w = v ∨ Down as keep v.fullName w) : u = v := by
  have no : ∀ {u v : WAcct}, u ∈ as → v ∈ as → u.parent = some a → v.parent = some a → ¬ Down as keep u.fullName v := by
    intro u v hu hv pu pv hd
    have l1 := ht.shorter hu pu
    cases hd with
    | child _ hp _ => rw [pv] at hp; injection hp with e; rw [← e] at l1; omega
    | step hd _ hp _ =>
      rw [pv] at hp; injection hp with e
      have := hd.longer ht
      rw [← e] at this; omega
  rcases h1 with rfl | h1 <;> rcases h2 with rfl | h2
  · rfl
  · exact absurd h2 (no hv hu pv pu)
  · exact absurd h1 (no hu hv pu pv)
  · rcases Down.linear ht h1 h2 with e | ⟨x, e, hd⟩ | ⟨x, e, hd⟩
    · exact ht.eq_of_name hu hv e
    · have := ht.eq_of_name hd.mem hu e
      subst this
      exact absurd hd (no hv hd.mem pv pu)
    · have := ht.eq_of_name hd.mem hv e
      subst this
      exact absurd hd (no hu hd.mem pu pv)

theorem mem_kids {as : List WAcct} {a : Str} {w : WAcct} : w ∈ kids as a ↔ w ∈ as ∧ w.parent = some a := by
  unfold kids
  rw [List.mem_filter, decide_eq_true_eq]

theorem allChildren_mem {as : List WAcct} (keep : WAcct → Bool) (ht : WTree as) : ∀ (k : Nat) (a : Str), (∀ w ∈ as, w.fullName.length ≤ a.length + k) →
    ∀ w, w ∈ allChildren as keep k a ↔ Down as keep a w := by
  intro k
  induction k with
  | zero =>
    intro a hk w
    simp only [allChildren, List.not_mem_nil, false_iff]
    intro h
    have := h.longer ht
    have := hk w h.mem
    omega
  | succ k ih =>
    intro a hk w
    have deeper : ∀ v ∈ as, v.parent = some a → ∀ w ∈ as, w.fullName.length ≤ v.fullName.length + k := by
      intro v hv hp w hw
      have := ht.shorter hv hp
      have := hk w hw
      omega
    unfold allChildren
    rw [List.mem_flatMap, Down.top]
    constructor
    · rintro ⟨v, hv, hm⟩
      obtain ⟨h1, h2⟩ := mem_kids.mp hv
      split at hm
      · next hkeep =>
        refine ⟨v, h1, h2, hkeep, ?_⟩
        rcases List.mem_cons.mp hm with rfl | hm
        · exact Or.inl rfl
        · exact Or.inr ((ih v.fullName (deeper v h1 h2) w).mp hm)
      · cases hm
    · rintro ⟨v, h1, h2, h3, h4⟩
      refine ⟨v, mem_kids.mpr ⟨h1, h2⟩, ?_⟩
      rw [if_pos h3, List.mem_cons]
      rcases h4 with rfl | h4
      · exact Or.inl rfl
      · exact Or.inr ((ih v.fullName (deeper v h1 h2) w).mpr h4)

theorem allChildren_nodup {as : List WAcct} (keep : WAcct → Bool) (ht : WTree as) : ∀ (k : Nat) (a : Str), (∀ w ∈ as, w.fullName.length ≤ a.length + k) →
    (allChildren as keep k a).Nodup := by
  intro k
  induction k with
  | zero => intro a _; simp [allChildren]
  | succ k ih =>
    intro a hk
    have deeper : ∀ v ∈ as, v.parent = some a → ∀ w ∈ as, w.fullName.length ≤ v.fullName.length + k := by
      intro v hv hp w hw
      have := ht.shorter hv hp
      have := hk w hw
      omega
    unfold allChildren
    rw [List.nodup_flatMap]
    constructor
    · intro v hv
      obtain ⟨h1, h2⟩ := mem_kids.mp hv
      split
      · rw [List.nodup_cons]
        refine ⟨?_, ih v.fullName (deeper v h1 h2)⟩
        intro hm
        have := ((allChildren_mem keep ht k v.fullName (deeper v h1 h2) v).mp hm).longer ht
        omega
      · exact List.nodup_nil
    · have hnd : (kids as a).Nodup := ht.nodup.of_map.filter _
      refine (List.Pairwise.and_mem.mp hnd).imp ?_
      rintro u v ⟨hu, hv, hne⟩
      obtain ⟨u1, u2⟩ := mem_kids.mp hu
      obtain ⟨v1, v2⟩ := mem_kids.mp hv
      show List.Disjoint _ _
      intro w m1 m2
      apply hne
      refine Down.apart (keep := keep) ht u1 v1 u2 v2 (w := w) ?_ ?_
      · dsimp only at m1
        split at m1
        · rcases List.mem_cons.mp m1 with rfl | m
          · exact Or.inl rfl
          · exact Or.inr ((allChildren_mem keep ht k _ (deeper u u1 u2) w).mp m)
        · cases m1
      · dsimp only at m2
        split at m2
        · rcases List.mem_cons.mp m2 with rfl | m
          · exact Or.inl rfl
          · exact Or.inr ((allChildren_mem keep ht k _ (deeper v v1 v2) w).mp m)
        · cases m2

theorem ParentsFirst.mono {l : List WAcct} : ∀ {s s' : List Str}, (∀ x ∈ s, x ∈ s') → ParentsFirst s l → ParentsFirst s' l := by
  induction l with
  | nil => intro s s' _ _; trivial
  | cons w l ih =>
    rintro s s' hs ⟨⟨p, hp, e⟩, hl⟩
    refine ⟨⟨p, hs p hp, e⟩, ih ?_ hl⟩
    intro x hx
    rcases List.mem_cons.mp hx with rfl | hx
    · simp
    · exact List.mem_cons_of_mem _ (hs x hx)

theorem ParentsFirst.append {l m : List WAcct} : ∀ {s : List Str}, ParentsFirst s l → ParentsFirst s m → ParentsFirst s (l ++ m) := by
  induction l with
  | nil => intro s _ h; exact h
  | cons w l ih =>
    rintro s ⟨h, hl⟩ hm
    exact ⟨h, ih hl (hm.mono (fun x hx => List.mem_cons_of_mem _ hx))⟩

theorem allChildren_order (as : List WAcct) (keep : WAcct → Bool) : ∀ (k : Nat) (a : Str), ParentsFirst [a] (allChildren as keep k a) := by
  intro k
  induction k with
  | zero => intro a; trivial
  | succ k ih =>
    intro a
    unfold allChildren
    have : ∀ l : List WAcct, (∀ w ∈ l, w.parent = some a) →
        ParentsFirst [a] (l.flatMap (fun w => if keep w then w :: allChildren as keep k w.fullName else [])) := by
      intro l
      induction l with
      | nil => intro _; trivial
      | cons w l ihl =>
        intro h
        rw [List.flatMap_cons]
        refine ParentsFirst.append ?_ (ihl (fun x hx => h x (List.mem_cons_of_mem _ hx)))
        split
        · refine ⟨⟨a, by simp, h w (by simp)⟩, (ih w.fullName).mono ?_⟩
          intro x hx
          rw [List.mem_singleton] at hx
          subst hx
          simp
        · trivial
    exact this _ (fun w hw => (mem_kids.mp hw).2)

/-- **C123** (list of subaccounts): each account below the given one that is kept together with all accounts between is listed
exactly once, after its parent, and no other. -/
theorem C123_children (as : List WAcct) (keep : WAcct → Bool) (ht : WTree as) (k : Nat) (hk : ∀ w ∈ as, w.fullName.length ≤ k) (a : Str) :
    (∀ w, w ∈ allChildren as keep k a ↔ Down as keep a w) ∧ (allChildren as keep k a).Nodup ∧ ParentsFirst [a] (allChildren as keep k a) := by
  have hk' : ∀ w ∈ as, w.fullName.length ≤ a.length + k := fun w hw => by have := hk w hw; omega
  exact ⟨allChildren_mem keep ht k a hk', allChildren_nodup keep ht k a hk', allChildren_order as keep k a⟩

/-- What is kept: an account not closed by the end of the range (unless closed accounts are shown) and not excluded. -/
theorem C123_visible (showClosed : Bool) (stop : Int) (exclude : List Str) (w : WAcct) :
    visible showClosed stop exclude w = true ↔ (showClosed = true ∨ ∀ d, w.closed = some d → stop < d) ∧ w.fullName ∉ exclude := by
  unfold visible
  cases hc : w.closed <;> simp

/-- By names: with nothing left out, below `a` are the accounts whose full name extends that of `a`. -/
theorem C123_names (as : List WAcct) (ht : WTree as) (a : WAcct) (hne : a.fullName ≠ []) (hr : a.fullName ≠ str "Root") (w : WAcct) :
    Down as (fun _ => true) a.fullName w ↔ w ∈ as ∧ ProperAncestorName a.fullName w.fullName := by
  constructor
  · intro h
    refine ⟨h.mem, hne, ?_⟩
    induction h with
    | child hw hp _ => exact (ht.up _ hw _ hp).2
    | step hd hw hp _ ih =>
      obtain ⟨_, n, e⟩ := ht.up _ hw _ hp
      obtain ⟨r, e2⟩ := ih
      exact ⟨r ++ ':' :: n, by rw [e, e2]; simp⟩
  · rintro ⟨hw, _, r, e⟩
    have : ∀ (m : Nat) (w : WAcct) (r : Str), w.fullName.length ≤ m → w ∈ as → w.fullName = a.fullName ++ ':' :: r → Down as (fun _ => true) a.fullName w := by
      intro m
      induction m with
      | zero => intro w r hl hw e; rw [e] at hl; simp at hl
      | succ m ih =>
        intro w r hl hw e
        by_cases hcol : ':' ∈ r
        · obtain ⟨p, x, rfl, hx⟩ := exists_lastSplit ':' r hcol
          have e' : w.fullName = (a.fullName ++ ':' :: p) ++ ':' :: x := by rw [e]; simp
          have hpar := ht.named w hw _ x e' hx (by simp) (by
            intro h
            have hm : ':' ∈ str "Root" := by rw [← h]; simp
            exact absurd hm (by decide))
          obtain ⟨v, hv, ev⟩ := List.mem_map.mp (ht.up w hw _ hpar).1
          refine .step (ih v p ?_ hv ev) hw (by rw [ev]; exact hpar) rfl
          have h1 := congrArg List.length e'
          have h2 := congrArg List.length ev
          simp at h1 h2
          omega
        · exact .child hw (ht.named w hw _ r e hcol hne hr) rfl
    exact this _ w r (Nat.le_refl _) hw e

/-- The accounts of the page of a loaded ledger (C117) form such a tree. -/
theorem C123_loaded (cs : List Com) (dflt : Str) (decls accts : List Acct) (L : Links) (was : List WAcct) (h : ResolvedAccounts dflt decls accts L)
    (hs : SameAccounts cs accts was) : WTree was := by
  obtain ⟨c1, _⟩ := C20_one_tree dflt decls accts L h
  obtain ⟨s1, s2, s3⟩ := hs
  have uniq : ∀ {a p q : Str}, IsParentName a p → IsParentName a q → p = q := by
    rintro a p q (⟨h1, rfl⟩ | ⟨pre, n, e, hn, h1⟩) (⟨h2, rfl⟩ | ⟨pre', n', e', hn', h2⟩)
    · rfl
    · rw [e'] at h1; simp at h1
    · rw [e] at h2; simp at h2
    · have : pre = pre' := by
        have := parentAndName_some pre n hn
        rw [← e, e', parentAndName_some pre' n' hn'] at this
        simpa using (congrArg Prod.fst this).symm
      subst this
      rcases h1 with ⟨a1, rfl⟩ | ⟨a1, rfl⟩ <;> rcases h2 with ⟨b1, rfl⟩ | ⟨b1, rfl⟩
      · rfl
      · exact absurd b1 a1
      · exact absurd a1 b1
      · rfl
  refine ⟨?_, ?_, ?_⟩
  · unfold List.Nodup
    rw [List.pairwise_map]
    refine s1.imp ?_
    intro a b hlt e
    rw [e] at hlt
    have := strLt_asymm _ _ hlt
    rw [hlt] at this; cases this
  · intro w hw p hp
    obtain ⟨h1, a, ha, e, _, _, _, q, hq, hpar⟩ := s3 w hw
    rw [hp] at hpar
    split at hpar
    · cases hpar
    · next hne =>
      injection hpar with hpar
      subst hpar
      obtain ⟨q, hq', hm, _⟩ := c1 a.fullName (List.mem_map.mpr ⟨a, ha, rfl⟩) (e ▸ h1)
      have := uniq hq hq'
      subst this
      refine ⟨?_, ?_⟩
      · obtain ⟨b, hb, eb⟩ := List.mem_map.mp hm
        obtain ⟨v, hv, ev⟩ := s2 b hb (by rw [eb]; exact hne)
        exact List.mem_map.mpr ⟨v, hv, by rw [ev, eb]⟩
      · rcases hq with ⟨_, h2⟩ | ⟨pre, n, e2, _, h2⟩
        · exact absurd h2 hne
        · rcases h2 with ⟨_, rfl⟩ | ⟨_, h2⟩
          · exact ⟨n, by rw [e, e2]⟩
          · exact absurd h2 hne
  · intro w hw p n e hn h1 h2
    obtain ⟨_, a, ha, e2, _, _, _, q, hq, hpar⟩ := s3 w hw
    have : IsParentName a.fullName p := Or.inr ⟨p, n, by rw [← e2, e], hn, Or.inl ⟨h1, rfl⟩⟩
    have := uniq this hq
    subst this
    rw [hpar, if_neg h2]

/-! ## C124: balances with totals -/

theorem allChildren_fuel {as : List WAcct} (keep : WAcct → Bool) (ht : WTree as) : ∀ (k : Nat) (a : Str), (∀ w ∈ as, w.fullName.length ≤ a.length + k) →
    ∀ j, allChildren as keep (k + j) a = allChildren as keep k a := by
  intro k
  induction k with
  | zero =>
    intro a hk j
    have : kids as a = [] := by
      apply List.eq_nil_iff_forall_not_mem.mpr
      intro w hw
      obtain ⟨h1, h2⟩ := mem_kids.mp hw
      have := ht.shorter h1 h2
      have := hk w h1
      omega
    cases j with
    | zero => rfl
    | succ j => rw [show 0 + (j + 1) = j + 1 by omega]; unfold allChildren; rw [this]; rfl
  | succ k ih =>
    intro a hk j
    rw [show k + 1 + j = (k + j) + 1 by omega]
    unfold allChildren
    have : ∀ l : List WAcct, (∀ w ∈ l, w ∈ as ∧ w.parent = some a) →
        l.flatMap (fun w => if keep w then w :: allChildren as keep (k + j) w.fullName else []) =
          l.flatMap (fun w => if keep w then w :: allChildren as keep k w.fullName else []) := by
      intro l
      induction l with
      | nil => intro _; rfl
      | cons w l ihl =>
        intro h
        rw [List.flatMap_cons, List.flatMap_cons, ihl (fun x hx => h x (List.mem_cons_of_mem _ hx))]
        obtain ⟨h1, h2⟩ := h w (by simp)
        rw [ih w.fullName (by
          intro v hv
          have := ht.shorter h1 h2
          have := hk v hv
          omega) j]
    exact this _ (fun w hw => mem_kids.mp hw)

/-- The sum of the balances of an account and the accounts listed below it. -/
def subtreeSum (bal : WAcct → Int) (as : List WAcct) (keep : WAcct → Bool) (k : Nat) (a : WAcct) : Int :=
  ((a :: allChildren as keep k a.fullName).map bal).sum

theorem addTotals_ok (conv : Com → Amount → Int → Except Fault Amount) (date : Int) (c : Com) : ∀ (l : List (List BalTotal)) (t : Int) (ts : List Int),
    List.Forall₂ (fun (rows : List BalTotal) x => ∃ b rest, rows = b :: rest ∧ b.total = ⟨x, c⟩) l ts →
    (∀ n, n ≤ ts.length → (t + (ts.take n).sum).natAbs ≤ 2 ^ 53) → addTotals conv date ⟨t, c⟩ l = .ok ⟨t + ts.sum, c⟩ := by
  intro l
  induction l with
  | nil =>
    intro t ts h _
    cases h
    simp [addTotals]
  | cons rows l ih =>
    intro t ts h hb
    cases h with
    | cons h1 h2 =>
      next x xs =>
      obtain ⟨b, rest, rfl, hb2⟩ := h1
      unfold addTotals wAddIn
      have h1 := hb 1 (by simp)
      simp only [List.take_succ_cons, List.take_zero, List.sum_cons, List.sum_nil, Int.add_zero] at h1
      rw [hb2]
      simp only [if_true]
      rw [dbl_exact _ h1]
      show addTotals conv date ⟨t + x, c⟩ l = _
      rw [ih (t + x) xs h2]
      · simp only [List.sum_cons]; rw [Int.add_assoc]
      · intro n hn
        have := hb (n + 1) (by simp; omega)
        simp only [List.take_succ_cons, List.sum_cons] at this
        rw [Int.add_assoc]
        exact this

theorem allE_ok {α β : Type} (f : α → Except Fault β) (g : α → β) : ∀ l : List α, (∀ x ∈ l, f x = .ok (g x)) → allE f l = .ok (l.map g) := by
  intro l
  induction l with
  | nil => intro _; rfl
  | cons x l ih =>
    intro h
    unfold allE
    rw [h x (by simp), ih (fun y hy => h y (List.mem_cons_of_mem _ hy))]
    rfl

theorem natAbs_sum_le (l : List Int) : l.sum.natAbs ≤ (l.map Int.natAbs).sum := by
  induction l with
  | nil => simp
  | cons x l ih => simp only [List.sum_cons, List.map_cons]; omega

theorem nat_sum_take_le (l : List Nat) (n : Nat) : (l.take n).sum ≤ l.sum := by
  conv_rhs => rw [← List.take_append_drop n l]
  rw [List.sum_append]; omega

theorem flatMap_filter_if {α β : Type} (p : α → Bool) (f : α → List β) (l : List α) :
    l.flatMap (fun w => if p w then f w else []) = (l.filter p).flatMap f := by
  induction l with
  | nil => rfl
  | cons w l ih =>
    rw [List.flatMap_cons, ih]
    by_cases h : p w
    · rw [List.filter_cons_of_pos h, List.flatMap_cons, if_pos h]
    · rw [List.filter_cons_of_neg h, if_neg h]; rfl

theorem sum_natAbs_flatMap {α β : Type} (f : α → List β) (g : β → Nat) (l : List α) :
    ((l.flatMap f).map g).sum = (l.map (fun x => ((f x).map g).sum)).sum := by
  induction l with
  | nil => rfl
  | cons x l ih => simp [List.sum_append, ih]

theorem sum_int_flatMap {α β : Type} (f : α → List β) (g : β → Int) (l : List α) :
    ((l.flatMap f).map g).sum = (l.map (fun x => ((f x).map g).sum)).sum := by
  induction l with
  | nil => rfl
  | cons x l ih => simp [List.sum_append, ih]

theorem balances_rows (conv : Com → Amount → Int → Except Fault Amount) {as : List WAcct} (skip : WAcct → Bool) (ht : WTree as) (ts : List WTxn) (date : Int)
    (c : Com) (K : Nat) (hK : ∀ w ∈ as, w.fullName.length ≤ K) : ∀ (k : Nat) (a : WAcct), (∀ w ∈ as, w.fullName.length ≤ a.fullName.length + k) →
    (∀ w ∈ a :: allChildren as (fun w => !skip w) K a.fullName, (balanceAt ts w date).com = c) →
    ((a :: allChildren as (fun w => !skip w) K a.fullName).map (fun w => (balanceAt ts w date).int.natAbs)).sum ≤ 2 ^ 53 →
    withAllChildBalances conv as skip ts date (k + 1) a =
      .ok ((a :: allChildren as (fun w => !skip w) K a.fullName).map
        (fun w => ⟨w, balanceAt ts w date, ⟨subtreeSum (fun w => (balanceAt ts w date).int) as (fun w => !skip w) K w, c⟩⟩)) := by
  intro k
  induction k with
  | zero =>
    intro a hk hc hb
    have hkids : kids as a.fullName = [] := by
      apply List.eq_nil_iff_forall_not_mem.mpr
      intro w hw
      obtain ⟨h1, h2⟩ := mem_kids.mp hw
      have := ht.shorter h1 h2
      have := hk w h1
      omega
    have hall : allChildren as (fun w => !skip w) K a.fullName = [] := by
      have := allChildren_fuel (fun w => !skip w) ht 0 a.fullName hk K
      rw [Nat.zero_add] at this
      rw [this]; rfl
    have e0 : (⟨(balanceAt ts a date).int, c⟩ : Amount) = balanceAt ts a date := by rw [← hc a (by simp)]
    unfold withAllChildBalances
    rw [hkids, hall]
    simp only [List.filter_nil, allE, Except.bind, addTotals, List.flatten_nil, List.map_cons, List.map_nil, subtreeSum, hall, List.sum_cons, List.sum_nil, Int.add_zero, e0]
  | succ k ih =>
    intro a hk hc hb
    set keep : WAcct → Bool := fun w => !skip w with hkeep
    set bal : WAcct → Int := fun w => (balanceAt ts w date).int with hbal
    have hsplit : ∀ b : WAcct, allChildren as keep K b.fullName =
        ((kids as b.fullName).filter keep).flatMap (fun w => w :: allChildren as keep K w.fullName) := by
      intro b
      have h1 := allChildren_fuel keep ht K b.fullName (fun w hw => by have := hK w hw; omega) 1
      rw [← h1]
      conv_lhs => unfold allChildren
      exact flatMap_filter_if keep _ _
    have hmem : ∀ w ∈ (kids as a.fullName).filter keep, ∀ v ∈ w :: allChildren as keep K w.fullName, v ∈ a :: allChildren as keep K a.fullName := by
      intro w hw v hv
      rw [hsplit a]
      exact List.mem_cons_of_mem _ (List.mem_flatMap.mpr ⟨w, hw, hv⟩)
    have hsumN : ((a :: allChildren as keep K a.fullName).map (fun w => (balanceAt ts w date).int.natAbs)).sum =
        (bal a).natAbs + (((kids as a.fullName).filter keep).map
          (fun w => ((w :: allChildren as keep K w.fullName).map (fun w => (balanceAt ts w date).int.natAbs)).sum)).sum := by
      conv_lhs => rw [hsplit a]
      rw [List.map_cons, List.sum_cons, sum_natAbs_flatMap]
    have hsum : subtreeSum bal as keep K a = bal a + (((kids as a.fullName).filter keep).map (subtreeSum bal as keep K)).sum := by
      unfold subtreeSum
      conv_lhs => rw [hsplit a]
      rw [List.map_cons, List.sum_cons, sum_int_flatMap]
    have hrec : allE (withAllChildBalances conv as skip ts date (k + 1)) ((kids as a.fullName).filter (fun w => !skip w)) =
        .ok (((kids as a.fullName).filter keep).map (fun b => (b :: allChildren as keep K b.fullName).map
          (fun w => (⟨w, balanceAt ts w date, ⟨subtreeSum bal as keep K w, c⟩⟩ : BalTotal)))) := by
      apply allE_ok
      intro w hw
      obtain ⟨h1, h2⟩ := mem_kids.mp (List.mem_filter.mp hw).1
      apply ih w
      · intro v hv
        have := ht.shorter h1 h2
        have := hk v hv
        omega
      · intro v hv; exact hc v (hmem w hw v hv)
      · refine Nat.le_trans ?_ hb
        rw [hsumN]
        have : ((w :: allChildren as keep K w.fullName).map (fun w => (balanceAt ts w date).int.natAbs)).sum ≤
            (((kids as a.fullName).filter keep).map
              (fun w => ((w :: allChildren as keep K w.fullName).map (fun w => (balanceAt ts w date).int.natAbs)).sum)).sum :=
          List.le_sum_of_mem (List.mem_map.mpr ⟨w, hw, rfl⟩)
        omega
    have e0 : balanceAt ts a date = ⟨bal a, c⟩ := by rw [← hc a (by simp)]
    unfold withAllChildBalances
    rw [hrec]
    have htot : addTotals conv date (balanceAt ts a date) (((kids as a.fullName).filter keep).map (fun b => (b :: allChildren as keep K b.fullName).map
          (fun w => (⟨w, balanceAt ts w date, ⟨subtreeSum bal as keep K w, c⟩⟩ : BalTotal)))) = .ok ⟨subtreeSum bal as keep K a, c⟩ := by
      rw [e0, hsum]
      apply addTotals_ok conv date c _ _ (((kids as a.fullName).filter keep).map (subtreeSum bal as keep K))
      · rw [List.forall₂_map_left_iff, List.forall₂_map_right_iff, List.forall₂_same]
        intro w _
        exact ⟨_, _, rfl, rfl⟩
      · intro n _
        refine Nat.le_trans ?_ hb
        rw [hsumN]
        have h1 := natAbs_sum_le ((((kids as a.fullName).filter keep).map (subtreeSum bal as keep K)).take n)
        rw [List.map_take] at h1
        have h2 := nat_sum_take_le (((((kids as a.fullName).filter keep).map (subtreeSum bal as keep K))).map Int.natAbs) n
        have h3 : ((((kids as a.fullName).filter keep).map (subtreeSum bal as keep K)).map Int.natAbs).sum ≤
            (((kids as a.fullName).filter keep).map
              (fun w => ((w :: allChildren as keep K w.fullName).map (fun w => (balanceAt ts w date).int.natAbs)).sum)).sum := by
          rw [List.map_map]
          apply List.sum_le_sum
          intro w _
          have := natAbs_sum_le ((w :: allChildren as keep K w.fullName).map bal)
          rw [List.map_map] at this
          exact this
        omega
    show (addTotals conv date (balanceAt ts a date) _).bind _ = _
    rw [htot]
    show Except.ok _ = Except.ok _
    congr 1
    rw [List.map_cons]
    congr 1
    rw [hsplit a, List.map_flatMap]
    rfl

theorem sum_subset (g : WAcct → Nat) (l m : List WAcct) (hn : l.Nodup) (hs : ∀ w ∈ l, w ∈ m) : (l.map g).sum ≤ (m.map g).sum := by
  obtain ⟨l', hp, hs⟩ := List.subperm_of_subset hn hs
  rw [← (hp.map g).sum_eq]
  exact (hs.map g).sum_le_sum (fun _ _ => Nat.zero_le _)

/-- **C124** (balances with totals): the first row is the account itself, the others are the accounts below it that are not left
out (each once), every row has the account's balance at the date, and its total is the sum of the balances of the account and of
all accounts listed below it. (Balances of one commodity that together stay within 2^53 units.) -/
theorem C124_totals (conv : Com → Amount → Int → Except Fault Amount) (as : List WAcct) (skip : WAcct → Bool) (ht : WTree as) (ts : List WTxn) (date : Int)
    (c : Com) (a : WAcct) (ha : a ∈ as) (k : Nat) (hk : ∀ w ∈ as, w.fullName.length < k)
    (hc : ∀ w, w = a ∨ Down as (fun w => !skip w) a.fullName w → (balanceAt ts w date).com = c)
    (hb : (as.map (fun w => (balanceAt ts w date).int.natAbs)).sum ≤ 2 ^ 53) :
    ∃ rows : List BalTotal, withAllChildBalances conv as skip ts date k a = .ok rows ∧
      (∃ below, rows.map (fun r => r.account) = a :: below ∧ (∀ w, w ∈ below ↔ Down as (fun w => !skip w) a.fullName w)) ∧
      (rows.map (fun r => r.account)).Nodup ∧
      ∀ r ∈ rows, r.balance = balanceAt ts r.account date ∧ ∃ sub : List WAcct, sub.Nodup ∧
        (∀ v, v ∈ sub ↔ v = r.account ∨ Down as (fun w => !skip w) r.account.fullName v) ∧
        r.total = ⟨(sub.map (fun w => (balanceAt ts w date).int)).sum, c⟩ := by
  obtain ⟨k, rfl⟩ : ∃ j, k = j + 1 := ⟨k - 1, by have := hk a ha; omega⟩
  have hk' : ∀ w ∈ as, w.fullName.length ≤ k := fun w hw => by have := hk w hw; omega
  have hnd : ∀ b : WAcct, (b :: allChildren as (fun w => !skip w) k b.fullName).Nodup := by
    intro b
    rw [List.nodup_cons]
    obtain ⟨m, n, _⟩ := C123_children as (fun w => !skip w) ht k hk' b.fullName
    refine ⟨fun h => ?_, n⟩
    have := ((m b).mp h).longer ht
    omega
  have hmem : ∀ b w : WAcct, w ∈ b :: allChildren as (fun w => !skip w) k b.fullName ↔ w = b ∨ Down as (fun w => !skip w) b.fullName w := by
    intro b w
    rw [List.mem_cons, (C123_children as (fun w => !skip w) ht k hk' b.fullName).1]
  have h := balances_rows conv skip ht ts date c k hk' k a (fun w hw => by have := hk' w hw; omega)
    (fun w hw => hc w ((hmem a w).mp hw))
    (Nat.le_trans (sum_subset _ _ as (hnd a) (fun w hw => by
      rcases (hmem a w).mp hw with rfl | h
      · exact ha
      · exact h.mem)) hb)
  refine ⟨_, h, ⟨_, by rw [List.map_map]; exact (List.map_id' _), (C123_children as (fun w => !skip w) ht k hk' a.fullName).1⟩, ?_, ?_⟩
  · rw [List.map_map]
    show (List.map id _).Nodup
    rw [List.map_id]
    exact hnd a
  · intro r hr
    obtain ⟨w, _, rfl⟩ := List.mem_map.mp hr
    exact ⟨rfl, _, hnd w, hmem w, rfl⟩

/-- **C124** (closed accounts): an account is closed at a date when it or an account above it is. -/
theorem C124_closed (as : List WAcct) (ht : WTree as) (date : Int) : ∀ (k : Nat) (w : WAcct), w ∈ as → w.fullName.length < k →
    (wIsClosed as date k w = true ↔ ∃ v ∈ as, (v = w ∨ Down as (fun _ => true) v.fullName w) ∧ ∃ d, v.closed = some d ∧ d ≤ date) := by
  intro k
  induction k with
  | zero => intro w _ h; omega
  | succ k ih =>
    intro w hw hl
    unfold wIsClosed
    have own : (match w.closed with | some d => decide (d ≤ date) | none => false) = true ↔ ∃ d, w.closed = some d ∧ d ≤ date := by
      cases w.closed <;> simp
    rw [Bool.or_eq_true]
    refine (or_congr own Iff.rfl).trans ?_
    cases hp : w.parent with
    | none =>
      simp only [Option.bind_none, Bool.false_eq_true, or_false]
      constructor
      · rintro ⟨d, h⟩; exact ⟨w, hw, Or.inl rfl, d, h⟩
      · rintro ⟨v, _, hv, d, h⟩
        rcases hv with rfl | hv
        · exact ⟨d, h⟩
        · cases hv with
          | child _ hp2 _ => rw [hp] at hp2; cases hp2
          | step _ _ hp2 _ => rw [hp] at hp2; cases hp2
    | some p =>
      obtain ⟨hm, _⟩ := ht.up w hw p hp
      obtain ⟨u, hu, eu⟩ := List.mem_map.mp hm
      have hf : findAcct as p = some u := by
        unfold findAcct
        cases hf : as.find? (fun a => decide (a.fullName = p)) with
        | none =>
          have := List.find?_eq_none.mp hf u hu
          simp [eu] at this
        | some x =>
          have h1 := List.mem_of_find?_eq_some hf
          have h2 := List.find?_some hf
          rw [decide_eq_true_eq] at h2
          rw [ht.eq_of_name h1 hu (by rw [h2, eu])]
      simp only [Option.bind_some, hf]
      rw [ih u hu (by have := ht.shorter hw hp; rw [← eu] at this; omega)]
      constructor
      · rintro (⟨d, h⟩ | ⟨v, hv, h1, h2⟩)
        · exact ⟨w, hw, Or.inl rfl, d, h⟩
        · refine ⟨v, hv, Or.inr ?_, h2⟩
          rcases h1 with rfl | h1
          · exact .child hw (by rw [hp, eu]) rfl
          · exact .step h1 hw (by rw [hp, eu]) rfl
      · rintro ⟨v, hv, h1, h2⟩
        rcases h1 with rfl | h1
        · exact Or.inl h2
        · refine Or.inr ⟨v, hv, ?_, h2⟩
          cases h1 with
          | child _ hp2 _ =>
            rw [hp] at hp2; injection hp2 with e
            exact Or.inl (ht.eq_of_name hv hu (by rw [← e, eu]))
          | step hd _ hp2 _ =>
            rw [hp] at hp2; injection hp2 with e
            have := ht.eq_of_name hd.mem hu (by rw [← e, eu])
            subst this
            exact Or.inr hd

/-! ## C125: depth -/

/-- `w` is `n` levels below the account called `a`. -/
inductive Level (as : List WAcct) (a : Str) : Nat → WAcct → Prop
  | here {w : WAcct} : w ∈ as → w.fullName = a → Level as a 0 w
  | under {n : Nat} {v w : WAcct} : Level as a n v → w ∈ as → w.parent = some v.fullName → Level as a (n + 1) w

theorem Level.mem {as : List WAcct} {a : Str} {n : Nat} {w : WAcct} (h : Level as a n w) : w ∈ as := by cases h <;> assumption

theorem Level.long {as : List WAcct} (ht : WTree as) {a : Str} {n : Nat} {w : WAcct} (h : Level as a n w) : a.length + n ≤ w.fullName.length := by
  induction h with
  | here _ e => rw [e]; omega
  | under _ hw hp ih => have := ht.shorter hw hp; omega

theorem findAcct_tree {as : List WAcct} (ht : WTree as) {u : WAcct} (hu : u ∈ as) : findAcct as u.fullName = some u := by
  unfold findAcct
  cases hf : as.find? (fun a => decide (a.fullName = u.fullName)) with
  | none =>
    have := List.find?_eq_none.mp hf u hu
    simp at this
  | some x =>
    have h1 := List.mem_of_find?_eq_some hf
    have h2 := List.find?_some hf
    rw [decide_eq_true_eq] at h2
    rw [ht.eq_of_name h1 hu h2]

theorem depthFrom_level {as : List WAcct} (ht : WTree as) (a : Str) : ∀ (k : Nat) (w : WAcct) (n : Nat), Level as a n w → w.fullName.length < k →
    depthFrom as a k w = n := by
  intro k
  induction k with
  | zero => intro w n _ h; omega
  | succ k ih =>
    intro w n h hl
    unfold depthFrom
    cases h with
    | here _ e => rw [if_pos e]; rfl
    | under hd hw hp =>
      next m v =>
      have hne : w.fullName ≠ a := by
        intro e
        have := hd.long ht
        have := ht.shorter hw hp
        rw [e] at this
        omega
      rw [if_neg hne, hp, Option.bind_some, findAcct_tree ht hd.mem]
      dsimp only
      rw [ih v m hd (by have := ht.shorter hw hp; omega), if_neg (by omega)]
      push_cast; rfl

theorem Down.level {as : List WAcct} {keep : WAcct → Bool} {a : WAcct} (ha : a ∈ as) {w : WAcct} (h : Down as keep a.fullName w) : ∃ n, Level as a.fullName (n + 1) w := by
  induction h with
  | child hw hp _ => exact ⟨0, .under (.here ha rfl) hw hp⟩
  | step _ hw hp _ ih => obtain ⟨n, h⟩ := ih; exact ⟨n + 1, .under h hw hp⟩

/-- **C125** (the table of balances): the table has a row for the account and for each account at most `depth` levels below it that
is not closed (unless closed accounts are shown), with its balance, the total over all accounts below it, also the deeper ones,
and its name relative to the account. -/
theorem C125_table (conv : Com → Amount → Int → Except Fault Amount) (showClosed : Bool) (as : List WAcct) (ht : WTree as) (ts : List WTxn) (stop : Int) (c : Com)
    (depth : Nat) (a : WAcct) (ha : a ∈ as) (k : Nat) (hk : ∀ w ∈ as, w.fullName.length < k) (keep : WAcct → Bool)
    (hkeep : keep = fun w => showClosed || !wIsClosed as stop k w)
    (hc : ∀ w, w = a ∨ Down as keep a.fullName w → (balanceAt ts w stop).com = c)
    (hb : (as.map (fun w => (balanceAt ts w stop).int.natAbs)).sum ≤ 2 ^ 53) :
    ∃ shown : List WAcct, shown.Nodup ∧
      (∀ w, w ∈ shown ↔ w = a ∨ (Down as keep a.fullName w ∧ ∃ n, n ≤ depth ∧ Level as a.fullName n w)) ∧
      ∃ total : WAcct → Int, viewBalances conv showClosed as ts stop depth k a =
          .ok (shown.map (fun w => (balanceAt ts w stop, ⟨total w, c⟩, w.fullName.drop a.fullName.length))) ∧
        ∀ w ∈ shown, ∃ sub : List WAcct, sub.Nodup ∧ (∀ v, v ∈ sub ↔ v = w ∨ Down as keep w.fullName v) ∧
          total w = (sub.map (fun w => (balanceAt ts w stop).int)).sum := by
  have hsk : (fun w => !wSkip showClosed as stop [] k w) = keep := by
    rw [hkeep]; funext w; unfold wSkip; cases showClosed <;> cases wIsClosed as stop k w <;> simp
  obtain ⟨rows, h1, ⟨below, h2, h2'⟩, h3, h4⟩ := C124_totals conv as (wSkip showClosed as stop [] k) ht ts stop c a ha k hk
    (by rw [hsk]; exact hc) hb
  rw [hsk] at h2' h4
  refine ⟨(rows.filter (fun b => decide (depthFrom as a.fullName k b.account ≤ depth))).map (fun r => r.account), ?_, ?_,
    fun w => match rows.find? (fun r => decide (r.account = w)) with | some r => r.total.int | none => 0, ?_, ?_⟩
  · exact ((List.filter_sublist).map _).nodup h3
  · intro w
    have hrow : ∀ r ∈ rows, r.account = a ∨ Down as keep a.fullName r.account := by
      intro r hr
      have : r.account ∈ a :: below := by rw [← h2]; exact List.mem_map.mpr ⟨r, hr, rfl⟩
      rcases List.mem_cons.mp this with h | h
      · exact Or.inl h
      · exact Or.inr ((h2' _).mp h)
    rw [List.mem_map]
    constructor
    · rintro ⟨r, hr, rfl⟩
      obtain ⟨hr, hd⟩ := List.mem_filter.mp hr
      rw [decide_eq_true_eq] at hd
      rcases hrow r hr with h | h
      · exact Or.inl h
      · obtain ⟨n, hn⟩ := h.level ha
        rw [depthFrom_level ht a.fullName k _ _ hn (hk _ h.mem)] at hd
        exact Or.inr ⟨h, n + 1, by omega, hn⟩
    · intro h
      have hin : w ∈ a :: below := by
        rcases h with rfl | ⟨h, _⟩
        · simp
        · exact List.mem_cons_of_mem _ ((h2' w).mpr h)
      rw [← h2] at hin
      obtain ⟨r, hr, rfl⟩ := List.mem_map.mp hin
      refine ⟨r, List.mem_filter.mpr ⟨hr, ?_⟩, rfl⟩
      rw [decide_eq_true_eq]
      rcases h with h | ⟨h, n, hn, hl⟩
      · rw [h, depthFrom_level ht a.fullName k a 0 (.here ha rfl) (hk a ha)]; omega
      · rw [depthFrom_level ht a.fullName k _ n hl (hk _ h.mem)]; omega
  · unfold viewBalances
    rw [h1]
    show Except.ok _ = Except.ok _
    congr 1
    rw [List.map_map]
    apply List.map_congr_left
    intro r hr
    have hr := (List.mem_filter.mp hr).1
    obtain ⟨e1, sub, _, _, e2⟩ := h4 r hr
    have hf : rows.find? (fun r' => decide (r'.account = r.account)) = some r := by
      cases hf : rows.find? (fun r' => decide (r'.account = r.account)) with
      | none => have := List.find?_eq_none.mp hf r hr; simp at this
      | some x =>
        have m1 := List.mem_of_find?_eq_some hf
        have m2 := List.find?_some hf
        rw [decide_eq_true_eq] at m2
        have := (List.nodup_map_iff_inj_on h3.of_map).mp h3 x m1 r hr m2
        rw [this]
    show (_, _, _) = (_, _, _)
    simp only [hf]
    rw [e1, e2]
    rfl
  · intro w hw
    obtain ⟨r, hr, rfl⟩ := List.mem_map.mp hw
    have hr := (List.mem_filter.mp hr).1
    obtain ⟨_, sub, n1, n2, e2⟩ := h4 r hr
    have hf : rows.find? (fun r' => decide (r'.account = r.account)) = some r := by
      cases hf : rows.find? (fun r' => decide (r'.account = r.account)) with
      | none => have := List.find?_eq_none.mp hf r hr; simp at this
      | some x =>
        have m1 := List.mem_of_find?_eq_some hf
        have m2 := List.find?_some hf
        rw [decide_eq_true_eq] at m2
        have := (List.nodup_map_iff_inj_on h3.of_map).mp h3 x m1 r hr m2
        rw [this]
    refine ⟨sub, n1, n2, ?_⟩
    simp only [hf]
    rw [e2]

/-! ## C126: the register with subaccounts -/

theorem acctPosts_union (ts : List WTxn) (names : List Str) (hn : names.Nodup) (q : VPost → Bool) :
    (names.flatMap (fun n => (acctPosts ts n).filter q)).Perm ((ts.flatMap txnPosts).filter (fun v => q v && names.contains v.post.account)) := by
  unfold acctPosts
  generalize ts.flatMap txnPosts = l
  induction names with
  | nil => simp
  | cons n names ih =>
    obtain ⟨h1, h2⟩ := List.nodup_cons.mp hn
    rw [List.flatMap_cons]
    refine ((List.Perm.refl _).append (ih h2)).trans ?_
    rw [List.filter_filter]
    clear ih
    induction l with
    | nil => simp
    | cons v l ihl =>
      by_cases hq : q v = true
      · by_cases hv : v.post.account = n
        · have hc : names.contains v.post.account = false := by rw [hv]; simpa using h1
          rw [List.filter_cons_of_pos (by simp [hq, hv]), List.filter_cons_of_neg (by simp only [hc]; simp), List.filter_cons_of_pos (by simp [hq, hv])]
          exact ihl.cons v
        · by_cases hc : names.contains v.post.account = true
          · rw [List.filter_cons_of_neg (by simp [hv]), List.filter_cons_of_pos (by simp only [hc, hq]; rfl),
              List.filter_cons_of_pos (by rw [List.contains_cons, hc]; simp [hq])]
            exact List.perm_middle.trans (ihl.cons v)
          · rw [List.filter_cons_of_neg (by simp [hv]), List.filter_cons_of_neg (by simp only [hc]; simp),
              List.filter_cons_of_neg (by rw [List.contains_cons]; simp only [Bool.not_eq_true] at hc; rw [hc]; simp [hv])]
            exact ihl
      · rw [List.filter_cons_of_neg (by simp [hq]), List.filter_cons_of_neg (by simp [hq]), List.filter_cons_of_neg (by simp [hq])]
        exact ihl

/-- **C126** (postings with subaccounts): all postings of the account and the kept accounts below it dated in the range, each once,
in the order of their dates. -/
theorem C126_postings (as : List WAcct) (keep : WAcct → Bool) (ht : WTree as) (ts : List WTxn) (hts : TxnsSorted ts) (k : Nat)
    (hk : ∀ w ∈ as, w.fullName.length ≤ k) (a : WAcct) (start stop : Int) (ha : a ∈ as) :
    (withAllChildPostings as keep ts k a start stop).Pairwise (fun x y : VPost => x.txn.posted ≤ y.txn.posted) ∧
    ∃ names : List Str, (∀ n, n ∈ names ↔ n = a.fullName ∨ ∃ w, Down as keep a.fullName w ∧ w.fullName = n) ∧
      (withAllChildPostings as keep ts k a start stop).Perm
        ((ts.flatMap txnPosts).filter (fun v => decide (start ≤ v.txn.posted ∧ v.txn.posted ≤ stop) && names.contains v.post.account)) := by
  have hsw : StrictWeak (fun x y : VPost => decide (x.txn.posted < y.txn.posted)) := by
    constructor
    · intro x y h; simp only [decide_eq_true_eq, decide_eq_false_iff_not] at *; omega
    · intro x y z h1 h2; simp only [decide_eq_false_iff_not] at *; omega
  obtain ⟨m1, m2, _⟩ := C123_children as keep ht k hk a.fullName
  constructor
  · refine (stableSort_sorted _ hsw _).imp ?_
    intro x y h
    simp only [decide_eq_false_iff_not] at h
    omega
  · refine ⟨(a :: allChildren as keep k a.fullName).map (fun w => w.fullName), ?_, ?_⟩
    · intro n
      rw [List.map_cons, List.mem_cons, List.mem_map]
      exact or_congr Iff.rfl ⟨fun ⟨w, h1, h2⟩ => ⟨w, (m1 w).mp h1, h2⟩, fun ⟨w, h1, h2⟩ => ⟨w, (m1 w).mpr h1, h2⟩⟩
    · unfold withAllChildPostings
      refine (stableSort_perm _ _).trans ?_
      have hnd : ((a :: allChildren as keep k a.fullName).map (fun w => w.fullName)).Nodup := by
        have hn : (a :: allChildren as keep k a.fullName).Nodup := by
          rw [List.nodup_cons]
          refine ⟨fun h => ?_, m2⟩
          have := ((m1 a).mp h).longer ht
          omega
        rw [List.nodup_map_iff_inj_on hn]
        have hin : ∀ w ∈ a :: allChildren as keep k a.fullName, w ∈ as := by
          intro w hw
          rcases List.mem_cons.mp hw with rfl | hw
          · exact ha
          · exact ((m1 w).mp hw).mem
        intro x hx y hy e
        exact ht.eq_of_name (hin x hx) (hin y hy) e
      have := acctPosts_union ts _ hnd (fun v => decide (start ≤ v.txn.posted ∧ v.txn.posted ≤ stop))
      rw [List.flatMap_map] at this
      refine List.Perm.trans (List.Perm.of_eq ?_) this
      congr 1
      funext w
      rw [trim_filter _ (acctPosts_sorted ts hts _)]

theorem vSubRows_spec (conv : Com → Amount → Int → Except Fault Amount) (off : Int) (a : WAcct) (c : Com) : ∀ (l : List VPost) (t : Int) (rows : List VSubRow),
    (∀ v ∈ l, v.post.quantity.com = c) → (∀ n, n ≤ l.length → (t + ((l.take n).map (fun v : VPost => v.post.quantity.int)).sum).natAbs ≤ 2 ^ 53) →
    vSubRows conv off a ⟨t, c⟩ l = .ok rows → rows.length = l.length ∧ ∀ (i : Nat) (v : VPost), l[i]? = some v → ∃ r o, rows[i]? = some r ∧ vOther v = .ok o ∧
      r = ⟨dateToString off v.txn.posted, v.txn.description, shortenAccountName (v.post.account.drop a.fullName.length) 30, o.post.account, v.post.quantity,
        ⟨t + ((l.take (i + 1)).map (fun v : VPost => v.post.quantity.int)).sum, c⟩⟩ := by
  intro l
  induction l with
  | nil =>
    intro t rows _ _ h
    have h : Except.ok [] = Except.ok rows := h
    injection h with h
    subst h
    simp
  | cons v l ih =>
    intro t rows hc hb h
    unfold vSubRows wAddIn at h
    rw [if_pos (hc v (by simp))] at h
    have h1 := hb 1 (by simp)
    simp only [List.take_succ_cons, List.take_zero, List.map_cons, List.map_nil, List.sum_cons, List.sum_nil, Int.add_zero] at h1
    rw [dbl_exact _ h1] at h
    obtain ⟨o, ho, h⟩ := bind_ok.mp (show (vOther v).bind _ = _ from h)
    obtain ⟨rest, hr, h⟩ := bind_ok.mp h
    injection h with h
    subst h
    obtain ⟨e1, e2⟩ := ih (t + v.post.quantity.int) rest (fun x hx => hc x (List.mem_cons_of_mem _ hx)) (by
      intro n hn
      have := hb (n + 1) (by simp; omega)
      simp only [List.take_succ_cons, List.map_cons, List.sum_cons] at this
      rw [Int.add_assoc]; exact this) hr
    refine ⟨by simp [e1], ?_⟩
    intro i x hx
    cases i with
    | zero =>
      simp only [List.getElem?_cons_zero, Option.some.injEq] at hx
      subst hx
      exact ⟨_, o, rfl, ho, by simp⟩
    | succ i =>
      rw [List.getElem?_cons_succ] at hx
      obtain ⟨r, o, h1, h2, h3⟩ := e2 i x hx
      refine ⟨r, o, by rw [List.getElem?_cons_succ]; exact h1, h2, ?_⟩
      rw [h3]
      simp only [List.take_succ_cons, List.map_cons, List.sum_cons, Int.add_assoc]

/-- **C126** (register with subaccounts): the rows are those postings, in that order, with date, description, the name of the
subaccount below the account shortened to 30 characters, the account on the other side, the quantity and the sum of all quantities so far. -/
theorem C126_register (conv : Com → Amount → Int → Except Fault Amount) (off : Int) (showClosed : Bool) (as : List WAcct) (ts : List WTxn) (k : Nat)
    (a : WAcct) (start stop : Int) (rows : List VSubRow) (l : List VPost) (hl : l = withAllChildPostings as (visible showClosed stop []) ts k a start stop)
    (hf : SumsFit a.com l) (h : viewRegisterWithSubAccounts conv off showClosed as ts k a start stop = .ok rows) :
    rows.length = l.length ∧ ∀ (i : Nat) (v : VPost), l[i]? = some v → ∃ r o, rows[i]? = some r ∧ vOther v = .ok o ∧
      r = ⟨dateToString off v.txn.posted, v.txn.description, shortenAccountName (v.post.account.drop a.fullName.length) 30, o.post.account, v.post.quantity,
        ⟨((l.take (i + 1)).map (fun v : VPost => v.post.quantity.int)).sum, a.com⟩⟩ := by
  unfold viewRegisterWithSubAccounts at h
  rw [← hl] at h
  have := vSubRows_spec conv off a a.com l 0 rows hf.1 (fun n _ => by simpa using hf.2 n) h
  simpa using this

/-! ## The path to an account -/

/-- **C127** (path of an account): the accounts shown above an account are exactly those above it, from the top level one down to
itself, each the parent of the next. -/
theorem C127_path (as : List WAcct) (ht : WTree as) : ∀ (k : Nat) (w : WAcct), w ∈ as → w.fullName.length ≤ k →
    (∃ top, (withAllParents as k w).head? = some top ∧ top.parent = none ∧ rootAccount as k w = top) ∧
    (withAllParents as k w).getLast? = some w ∧
    (withAllParents as k w).IsChain (fun v u : WAcct => u.parent = some v.fullName) ∧
    ∀ v, v ∈ withAllParents as k w ↔ v ∈ as ∧ (v = w ∨ Down as (fun _ => true) v.fullName w) := by
  have nopar : ∀ {w : WAcct} {keep : WAcct → Bool} {s : Str}, w.parent = none → ¬ Down as keep s w := by
    intro w keep s hp h
    cases h with
    | child _ hp2 _ => rw [hp] at hp2; cases hp2
    | step _ _ hp2 _ => rw [hp] at hp2; cases hp2
  have root : ∀ w ∈ as, w.parent = none → ∀ v, v ∈ [w] ↔ v ∈ as ∧ (v = w ∨ Down as (fun _ => true) v.fullName w) := by
    intro w hw hp v
    rw [List.mem_singleton]
    constructor
    · rintro rfl; exact ⟨hw, Or.inl rfl⟩
    · rintro ⟨_, h | h⟩
      · exact h
      · exact absurd h (nopar hp)
  intro k
  induction k with
  | zero =>
    intro w hw hl
    have hp : w.parent = none := by
      cases hp : w.parent with
      | none => rfl
      | some p => have := ht.shorter hw hp; omega
    exact ⟨⟨w, rfl, hp, rfl⟩, rfl, by simp [withAllParents], root w hw hp⟩
  | succ k ih =>
    intro w hw hl
    cases hp : w.parent with
    | none =>
      have e1 : withAllParents as (k + 1) w = [w] := by unfold withAllParents; rw [hp]; rfl
      have e2 : rootAccount as (k + 1) w = w := by unfold rootAccount; rw [hp]; rfl
      rw [e1, e2]
      exact ⟨⟨w, rfl, hp, rfl⟩, rfl, by simp, root w hw hp⟩
    | some p =>
      obtain ⟨hm, _⟩ := ht.up w hw p hp
      obtain ⟨u, hu, eu⟩ := List.mem_map.mp hm
      have hf := findAcct_tree ht hu
      rw [eu] at hf
      have e1 : withAllParents as (k + 1) w = withAllParents as k u ++ [w] := by
        conv_lhs => unfold withAllParents
        rw [hp, Option.bind_some, hf]
      have e2 : rootAccount as (k + 1) w = rootAccount as k u := by
        conv_lhs => unfold rootAccount
        rw [hp, Option.bind_some, hf]
      obtain ⟨⟨top, h1, h2, h3⟩, h4, h5, h6⟩ := ih u hu (by have := ht.shorter hw hp; rw [← eu] at this; omega)
      rw [e1, e2]
      refine ⟨⟨top, ?_, h2, h3⟩, by simp, ?_, ?_⟩
      · rw [List.head?_append, h1]; rfl
      · rw [List.isChain_append]
        refine ⟨h5, by simp, ?_⟩
        intro x hx y hy
        rw [h4] at hx
        simp only [Option.mem_def, Option.some.injEq] at hx hy
        simp only [List.head?_cons, Option.some.injEq] at hy
        subst hx hy
        rw [hp, eu]
      · intro v
        rw [List.mem_append, h6, List.mem_singleton]
        constructor
        · rintro (⟨hv, h⟩ | rfl)
          · refine ⟨hv, Or.inr ?_⟩
            rcases h with rfl | h
            · exact .child hw (by rw [hp, eu]) rfl
            · exact .step h hw (by rw [hp, eu]) rfl
          · exact ⟨hw, Or.inl rfl⟩
        · rintro ⟨hv, h⟩
          rcases h with rfl | h
          · exact Or.inr rfl
          · refine Or.inl ⟨hv, ?_⟩
            cases h with
            | child _ hp2 _ =>
              rw [hp] at hp2; injection hp2 with e
              exact Or.inl (ht.eq_of_name hv hu (by rw [← e, eu]))
            | step hd _ hp2 _ =>
              rw [hp] at hp2; injection hp2 with e
              have := ht.eq_of_name hd.mem hu (by rw [← e, eu])
              subst this
              exact Or.inr hd

/-- The full statement of C128: the page opens, and every account of the ledger can be viewed. -/
def C128_Statement : Prop := ∀ (as : List WAcct), WTree as → as ≠ [] → ∀ k, (∀ w ∈ as, w.fullName.length ≤ k) →
  (∃ w, openPage as k = .ok w) ∧ ∀ w ∈ as, findView as k w = .ok ()

/-- A page with the accounts Assets, Assets:Bank (closed on day 100), Assets:Bank:Savings and Savings. -/
def treeAccts : List WAcct :=
  [⟨str "Assets", str "Assets", sampleCom, none, none⟩, ⟨str "Bank", str "Assets:Bank", sampleCom, some (str "Assets"), some 8640000⟩,
   ⟨str "Savings", str "Assets:Bank:Savings", sampleCom, some (str "Assets:Bank"), none⟩, ⟨str "Savings", str "Savings", sampleCom, none, none⟩]

theorem treeAccts_tree : WTree treeAccts := by
  have key : ∀ (c : Char) (p n q m : Str), p ++ c :: n = q ++ c :: m → c ∉ n → c ∉ m → p = q := by
    intro c p n q m e h1 h2
    have e := congrArg List.reverse e
    simp only [List.reverse_append, List.reverse_cons, List.append_assoc, List.singleton_append] at e
    have aux : ∀ (a b x y : Str), c ∉ a → c ∉ b → a ++ c :: x = b ++ c :: y → x = y := by
      intro a
      induction a with
      | nil =>
        intro b x y _ hb e
        cases b with
        | nil => simpa using e
        | cons z b =>
          simp only [List.nil_append, List.cons_append, List.cons.injEq] at e
          exact absurd (by simp [e.1]) hb
      | cons z a ih =>
        intro b x y ha hb e
        cases b with
        | nil =>
          simp only [List.nil_append, List.cons_append, List.cons.injEq] at e
          exact absurd (by simp [e.1]) ha
        | cons z' b =>
          simp only [List.cons_append, List.cons.injEq] at e
          exact ih b x y (by simp at ha; exact ha.2) (by simp at hb; exact hb.2) e.2
    have := aux _ _ _ _ (by simpa using h1) (by simpa using h2) e
    simpa using congrArg List.reverse this
  refine ⟨by decide, ?_, ?_⟩
  · intro w hw p hp
    simp only [treeAccts, List.mem_cons, List.not_mem_nil, or_false] at hw
    rcases hw with rfl | rfl | rfl | rfl
    · cases hp
    · injection hp with hp; subst hp; exact ⟨by decide, str "Bank", rfl⟩
    · injection hp with hp; subst hp; exact ⟨by decide, str "Savings", rfl⟩
    · cases hp
  · intro w hw p n e hn _ _
    simp only [treeAccts, List.mem_cons, List.not_mem_nil, or_false] at hw
    rcases hw with rfl | rfl | rfl | rfl
    · have : ':' ∈ str "Assets" := by rw [show str "Assets" = p ++ ':' :: n from e]; simp
      exact absurd this (by decide)
    · have := key ':' p n (str "Assets") (str "Bank") (by rw [← show str "Assets:Bank" = p ++ ':' :: n from e]; rfl) hn (by decide)
      rw [this]
    · have := key ':' p n (str "Assets:Bank") (str "Savings") (by rw [← show str "Assets:Bank:Savings" = p ++ ':' :: n from e]; rfl) hn (by decide)
      rw [this]
    · have : ':' ∈ str "Savings" := by rw [show str "Savings" = p ++ ':' :: n from e]; simp
      exact absurd this (by decide)

example : (allChildren treeAccts (visible true 9000000 []) 20 (str "Assets")).map (fun w => w.fullName) = [str "Assets:Bank", str "Assets:Bank:Savings"] ∧
    allChildren treeAccts (visible false 9000000 []) 20 (str "Assets") = [] := by decide +kernel

example : (viewBalances (fun _ _ _ => .error .err) true treeAccts [⟨0, [], [], [], [], [⟨str "Assets:Bank:Savings", ⟨5, sampleCom⟩, ⟨5, sampleCom⟩, false, [], []⟩]⟩]
    9000000 1 20 ⟨str "Assets", str "Assets", sampleCom, none, none⟩).toOption.map (fun l => l.map (fun r => (r.2.1.int, r.2.2))) =
    some [(5, []), (5, str ":Bank")] := by decide +kernel

/-- **C128 (violated)**: an account at the top called anything but the six known names cannot be viewed. -/
theorem C128_views_violated : ¬ C128_Statement := by
  intro h
  have := (h treeAccts treeAccts_tree (by decide) 20 (by decide)).2 ⟨str "Savings", str "Savings", sampleCom, none, none⟩ (by decide)
  revert this
  have e : (findView treeAccts 20 ⟨str "Savings", str "Savings", sampleCom, none, none⟩).isOk = false := by decide +kernel
  intro this
  rw [this] at e
  cases e

/-- **C128**: the page opens exactly when there is an account `Assets`, and an account can be viewed exactly when the name of the
top level account above it is one of the six. -/
theorem C128_views_partial (as : List WAcct) (ht : WTree as) (k : Nat) (hk : ∀ w ∈ as, w.fullName.length ≤ k) :
    ((∃ w, openPage as k = .ok w) ↔ ∃ w ∈ as, w.fullName = str "Assets" ∧
      ∃ top ∈ as, top.parent = none ∧ (top = w ∨ Down as (fun _ => true) top.fullName w) ∧
        top.name ∈ [str "Assets", str "Liabilities", str "Income", str "Expenses", str "Equity", str "Unbalanced"]) ∧
    ∀ w ∈ as, (findView as k w = .ok () ↔ ∃ top ∈ as, top.parent = none ∧ (top = w ∨ Down as (fun _ => true) top.fullName w) ∧
        top.name ∈ [str "Assets", str "Liabilities", str "Income", str "Expenses", str "Equity", str "Unbalanced"]) := by
  have key : ∀ w ∈ as, (findView as k w = .ok () ↔ ∃ top ∈ as, top.parent = none ∧ (top = w ∨ Down as (fun _ => true) top.fullName w) ∧
        top.name ∈ [str "Assets", str "Liabilities", str "Income", str "Expenses", str "Equity", str "Unbalanced"]) := by
    intro w hw
    obtain ⟨⟨top, h1, h2, h3⟩, _, _, h4⟩ := C127_path as ht k w hw (hk w hw)
    have hin := (h4 top).mp (List.mem_of_head? h1)
    have uniq : ∀ t ∈ as, t.parent = none → (t = w ∨ Down as (fun _ => true) t.fullName w) → t = top := by
      intro t ht1 ht2 ht3
      have nopar : ∀ {w : WAcct} {s : Str}, w.parent = none → ¬ Down as (fun _ => true) s w := by
        intro w s hp h
        cases h with
        | child _ hp2 _ => rw [hp] at hp2; cases hp2
        | step _ _ hp2 _ => rw [hp] at hp2; cases hp2
      rcases ht3 with rfl | ht3 <;> rcases hin.2 with e | h
      · exact e.symm
      · exact absurd h (nopar ht2)
      · subst e; exact absurd ht3 (nopar h2)
      · rcases Down.linear ht ht3 h with e | ⟨v, e, hd⟩ | ⟨v, e, hd⟩
        · exact ht.eq_of_name ht1 hin.1 e
        · have := ht.eq_of_name hd.mem ht1 e; subst this; exact absurd hd (nopar ht2)
        · have := ht.eq_of_name hd.mem hin.1 e; subst this; exact absurd hd (nopar h2)
    unfold findView
    rw [h3]
    constructor
    · intro h
      split at h
      · next hv => exact ⟨top, hin.1, h2, hin.2, hv⟩
      · cases h
    · rintro ⟨t, t1, t2, t3, t4⟩
      have := uniq t t1 t2 t3
      subst this
      rw [if_pos (show t.name ∈ viewNames from t4)]
  refine ⟨?_, key⟩
  unfold openPage
  constructor
  · rintro ⟨w, h⟩
    split at h
    · cases h
    · next x hx =>
      obtain ⟨u, hu, h⟩ := bind_ok.mp h
      have m := List.mem_of_find?_eq_some hx
      have e := List.find?_some hx
      rw [decide_eq_true_eq] at e
      exact ⟨x, m, e, (key x m).mp hu⟩
  · rintro ⟨w, hw, e, h⟩
    have hf := findAcct_tree ht hw
    rw [e] at hf
    rw [hf]
    refine ⟨w, ?_⟩
    show (findView as k w).bind _ = _
    rw [(key w hw).mpr h]
    rfl

end Verif
