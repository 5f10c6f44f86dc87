import Verif.Lemmas.Tree
import Verif.Props.Ledger
import Verif.Props.Range
import Verif.Props.TagExpr
/-!
# Properties C36–C38: the balance command
-/
namespace Verif

variable {names : List Str} {L : Links}

/-- Sum of `v` over an account and its descendants. -/
def sumOver (names : List Str) (L : Links) (v : Str → Int) (a : Str) : Int := ((walkOf names L a).map v).sum

theorem TreeOK.parent_of_child (t : TreeOK names L) {p c : Str} (h : c ∈ L.children p) : L.parent c = some p := by
  obtain ⟨h1, h2, h3⟩ := (t.mem p c).mp h
  rw [t.parent, if_pos ⟨h1, h2⟩, h3]

theorem TreeOK.not_mem_walk_child (t : TreeOK names L) {p c : Str} (h : c ∈ L.children p) : p ∉ walkOf names L c := by
  intro hp
  have := ((t.mem_walk c (t.child_names h) p).mp hp).2
  have hac := t.child_anc h
  rcases this with e | e
  · subst e; exact ancName_irrefl _ hac
  · exact ancName_irrefl _ (ancName_trans _ _ _ hac e)

/-- Adding up over one subtree. -/
theorem TreeOK.addUp_walk (t : TreeOK names L) (env : Env) (c : Com) (v : Str → Int) : ∀ a ∈ names,
    ∀ (m : AmtMap) (rest : List Str), (∀ x ∈ walkOf names L a, m x = some ⟨v x, c⟩) →
    (∀ p, L.parent a = some p → ∀ q, m p = some q → q.com = c) →
    ∃ m', addUp env L.parent m (walkPostOf names L a ++ rest) = addUp env L.parent m' rest ∧
      (∀ x ∈ walkOf names L a, m' x = some ⟨sumOver names L v x, c⟩) ∧
      (∀ p, L.parent a = some p → m' p = (m p).map (fun q => ⟨q.int + sumOver names L v a, c⟩)) ∧
      (∀ x, x ∉ walkOf names L a → L.parent a ≠ some x → m' x = m x) := by
  refine t.induction (Q := fun a => ∀ (m : AmtMap) (rest : List Str), (∀ x ∈ walkOf names L a, m x = some ⟨v x, c⟩) →
    (∀ p, L.parent a = some p → ∀ q, m p = some q → q.com = c) →
    ∃ m', addUp env L.parent m (walkPostOf names L a ++ rest) = addUp env L.parent m' rest ∧
      (∀ x ∈ walkOf names L a, m' x = some ⟨sumOver names L v x, c⟩) ∧
      (∀ p, L.parent a = some p → m' p = (m p).map (fun q => ⟨q.int + sumOver names L v a, c⟩)) ∧
      (∀ x, x ∉ walkOf names L a → L.parent a ≠ some x → m' x = m x)) ?_
  intro a ha ih m rest hm hpc
  -- the children
  have forest : ∀ (cs : List Str), cs.Nodup → (∀ d ∈ cs, d ∈ L.children a) → ∀ (m : AmtMap) (rest : List Str) (s : Int),
      (∀ d ∈ cs, ∀ x ∈ walkOf names L d, m x = some ⟨v x, c⟩) → m a = some ⟨s, c⟩ →
      ∃ m', addUp env L.parent m (cs.flatMap (walkPostOf names L) ++ rest) = addUp env L.parent m' rest ∧
        (∀ d ∈ cs, ∀ x ∈ walkOf names L d, m' x = some ⟨sumOver names L v x, c⟩) ∧
        m' a = some ⟨s + (cs.map (sumOver names L v)).sum, c⟩ ∧
        (∀ x, x ≠ a → (∀ d ∈ cs, x ∉ walkOf names L d) → m' x = m x) := by
    intro cs
    induction cs with
    | nil => intro _ _ m rest s _ h; exact ⟨m, rfl, by simp, by simpa using h, fun _ _ _ => rfl⟩
    | cons d cs ihc =>
      intro hn hsub m rest s hv hs
      have hd := hsub d (by simp)
      have hpd := t.parent_of_child hd
      obtain ⟨hnd, hn'⟩ := List.nodup_cons.mp hn
      obtain ⟨m1, h1, h2, h3, h4⟩ := ih d hd m (cs.flatMap (walkPostOf names L) ++ rest) (hv d (by simp)) (by
        intro p hp q hq
        rw [hpd] at hp; injection hp with hp; subst hp
        rw [hs] at hq; injection hq with hq; rw [← hq])
      have hdisj : ∀ e ∈ cs, ∀ x ∈ walkOf names L e, x ∉ walkOf names L d := by
        intro e he x hx hx'
        have hem := hsub e (by simp [he])
        have := t.siblings_disjoint hd hem ((t.mem_walk d (t.child_names hd) x).mp hx').2 ((t.mem_walk e (t.child_names hem) x).mp hx).2
        subst this; exact hnd he
      have hnota : ∀ e ∈ L.children a, ∀ x ∈ walkOf names L e, x ≠ a := by
        rintro e he x hx rfl; exact t.not_mem_walk_child he hx
      obtain ⟨m2, g1, g2, g3, g4⟩ := ihc hn' (fun e he => hsub e (by simp [he])) m1 rest (s + sumOver names L v d)
        (by
          intro e he x hx
          rw [h4 x (hdisj e he x hx) (by
            rw [hpd]; intro h; injection h with h
            exact hnota e (hsub e (by simp [he])) x hx h.symm)]
          exact hv e (by simp [he]) x hx)
        (by rw [h3 a hpd, hs]; rfl)
      refine ⟨m2, ?_, ?_, ?_, ?_⟩
      · rw [List.flatMap_cons, List.append_assoc, h1, g1]
      · intro e he x hx
        rcases List.mem_cons.mp he with rfl | he
        · rw [g4 x (hnota e hd x hx) (fun e' he' hx' => hdisj e' he' x hx' hx)]
          exact h2 x hx
        · exact g2 e he x hx
      · rw [g3]; simp only [List.map_cons, List.sum_cons]; rw [add_assoc]
      · intro x hxa hx
        rw [g4 x hxa (fun e he => hx e (by simp [he])), h4 x (hx d (by simp)) (by
          rw [hpd]; intro h; injection h with h; exact hxa h.symm)]
  have hwalk := t.walk_cons a
  obtain ⟨m1, h1, h2, h3, h4⟩ := forest (L.children a) (t.chNodup a) (fun d hd => hd) m (a :: rest) (v a)
    (fun d hd x hx => hm x (by rw [hwalk]; simp only [List.mem_cons, List.mem_flatMap]; exact .inr ⟨d, hd, hx⟩))
    (hm a (by rw [hwalk]; simp))
  have hsum : v a + ((L.children a).map (sumOver names L v)).sum = sumOver names L v a := by
    unfold sumOver
    rw [hwalk, List.map_cons, List.sum_cons, sum_flatMap]
  rw [hsum] at h3
  have hnotwalk : ∀ p, L.parent a = some p → p ∉ walkOf names L a ∧ p ≠ a := by
    intro p hp
    rw [t.parent] at hp
    split at hp
    · rename_i hh
      injection hp with hp
      subst hp
      have hac := ancName_parentOf a hh.2
      constructor
      · intro hmem
        rcases ((t.mem_walk a ha _).mp hmem).2 with e | e
        · rw [e] at hac; exact ancName_irrefl _ hac
        · exact ancName_irrefl _ (ancName_trans _ _ _ hac e)
      · intro e; rw [e] at hac; exact ancName_irrefl _ hac
    · simp at hp
  have hout : ∀ x, x ∉ walkOf names L a → m1 x = m x := by
    intro x hx
    apply h4
    · rintro rfl; exact hx (by rw [hwalk]; simp)
    · intro d hd hxd; exact hx (by rw [hwalk]; simp only [List.mem_cons, List.mem_flatMap]; exact .inr ⟨d, hd, hxd⟩)
  have hin : ∀ x ∈ walkOf names L a, m1 x = some ⟨sumOver names L v x, c⟩ := by
    intro x hx
    rw [hwalk, List.mem_cons, List.mem_flatMap] at hx
    rcases hx with rfl | ⟨d, hd, hx⟩
    · exact h3
    · exact h2 d hd x hx
  rw [t.walkPost_cons, List.append_assoc, List.singleton_append, h1]
  cases hpar : L.parent a with
  | none =>
    refine ⟨m1, ?_, hin, by simp, fun x hx _ => hout x hx⟩
    rw [addUp, hpar]
  | some p =>
    obtain ⟨hpw, hpa⟩ := hnotwalk p hpar
    have hmp := hout p hpw
    cases hmpv : m p with
    | none =>
      rw [hmpv] at hmp
      refine ⟨m1, ?_, hin, ?_, fun x hx _ => hout x hx⟩
      · rw [addUp, hpar]; simp only [hmp]
      · intro p' hp'; injection hp' with hp'; subst hp'; rw [hmp, hmpv]; rfl
    | some q =>
      rw [hmpv] at hmp
      have hqc := hpc p hpar q hmpv
      refine ⟨m1.set p ⟨q.int + sumOver names L v a, c⟩, ?_, ?_, ?_, ?_⟩
      · rw [addUp, hpar]
        simp only [hmp, h3]
        rw [addIn_same env.conv q _ hqc]
        simp only [checkNoError, Except.bind, hqc]
      · intro x hx
        have : x ≠ p := by rintro rfl; exact hpw hx
        simp only [AmtMap.set, this, if_false]
        exact hin x hx
      · intro p' hp'; injection hp' with hp'; subst hp'
        simp [AmtMap.set, hmpv]
      · intro x hx hxp
        have : x ≠ p := by rintro rfl; exact hxp rfl
        simp only [AmtMap.set, this, if_false]
        exact hout x hx

/-! ## Selection -/

/-- A posting selected by the filters of `balance`: dated in `[begin, end)`, payee matching `-p`, and the posting's or the
transaction's tags matching `-t`. -/
def Selected (compile : Compile) (v : View) (f : Filters) (p : PRef) : Prop :=
  (∀ b ∈ f.begin_, b ≤ v.date p) ∧ (∀ e ∈ f.end_, v.date p < e) ∧
  (f.payee ≠ [] → ∃ m, compile f.payee = some m ∧ m (v.payee p) = true) ∧
  (f.tag ≠ [] → TagSelects compile f.tag ((v.tags p).getD []) ∨ TagSelects compile f.tag ((v.txnTags p).getD []))

open Classical in
/-- The selected postings of an account, in order. -/
noncomputable def selectedOf (compile : Compile) (v : View) (f : Filters) (a : Str) : List PRef :=
  (v.postings a).filter (fun p => decide (Selected compile v f p))

/-- The expressions given with `-p` and `-t` are valid. -/
def ValidFilters (compile : Compile) (f : Filters) : Prop :=
  (f.payee ≠ [] → ∃ m, compile f.payee = some m) ∧ (f.tag ≠ [] → ∃ m, newTagMatcher compile f.tag = .ok m)

theorem balanceTrim_spec (compile : Compile) (v : View) (f : Filters) (a : Str) (hv : ValidFilters compile f)
    (hs : InDateOrder v.date (v.postings a)) : balanceTrim compile v f (v.postings a) = .ok (selectedOf compile v f a) := by
  classical
  unfold balanceTrim selectedOf
  rw [C34_trim v.date (v.postings a) f.begin_ f.end_ hs]
  have h1 : ∃ P : PRef → Bool, (∀ p, P p = true ↔ (f.payee ≠ [] → ∃ m, compile f.payee = some m ∧ m (v.payee p) = true)) ∧
      ∀ l, filterPayee compile v f.payee l = .ok (l.filter P) := by
    by_cases hp : f.payee = []
    · exact ⟨fun _ => true, by simp [hp], fun l => by simp [filterPayee, hp]⟩
    · obtain ⟨m, hm⟩ := hv.1 hp
      exact ⟨fun p => m (v.payee p), by simp [hp, hm], fun l => by simp [filterPayee, hp, hm]⟩
  have h2 : ∃ P : PRef → Bool, (∀ p, P p = true ↔ (f.tag ≠ [] → TagSelects compile f.tag ((v.tags p).getD []) ∨ TagSelects compile f.tag ((v.txnTags p).getD []))) ∧
      ∀ l, filterTag compile v f.tag l = .ok (l.filter P) := by
    by_cases hp : f.tag = []
    · exact ⟨fun _ => true, by simp [hp], fun l => by simp [filterTag, hp]⟩
    · obtain ⟨m, hm⟩ := hv.2 hp
      exact ⟨fun p => m.matches (v.tags p) || m.matches (v.txnTags p), by intro p; rw [← tag_either]; simp [hp, hm], fun l => by simp [filterTag, hp, hm, Except.bind]⟩
  obtain ⟨P1, e1, f1⟩ := h1
  obtain ⟨P2, e2, f2⟩ := h2
  rw [f1]
  simp only [Except.bind]
  rw [f2]
  congr 1
  unfold inRange
  rw [List.filter_filter, List.filter_filter]
  apply List.filter_congr
  intro p _
  rw [Bool.eq_iff_iff]
  rw [Bool.and_eq_true, Bool.and_eq_true, e1, e2, decide_eq_true_iff, decide_eq_true_iff]
  constructor
  · rintro ⟨⟨h1, h2⟩, h3, h4⟩; exact ⟨h3, h4, h2, h1⟩
  · intro h; obtain ⟨h3, h4, h2, h1⟩ := h; exact ⟨⟨h1, h2⟩, h3, h4⟩

/-- Own total of an account. -/
noncomputable def ownSum (compile : Compile) (v : View) (f : Filters) (a : Str) : Int := total ((selectedOf compile v f a).map v.qty)

theorem ownTotals_spec (env : Env) (compile : Compile) (v : View) (f : Filters) (hv : ValidFilters compile f)
    (accs : List Str) (hn : accs.Nodup) (m : AmtMap) (hs : ∀ a ∈ accs, InDateOrder v.date (v.postings a))
    (hq : ∀ a ∈ accs, ∀ p ∈ v.postings a, (v.qty p).com = env.comOf a) :
    ∃ m', ownTotals env compile v f m accs = .ok m' ∧ (∀ a ∈ accs, m' a = some ⟨ownSum compile v f a, env.comOf a⟩) ∧
      (∀ a, a ∉ accs → m' a = m a) := by
  induction accs generalizing m with
  | nil => exact ⟨m, rfl, by simp, fun _ _ => rfl⟩
  | cons a accs ih =>
    obtain ⟨hna, hn'⟩ := List.nodup_cons.mp hn
    obtain ⟨m', h1, h2, h3⟩ := ih hn' (m.set a ⟨ownSum compile v f a, env.comOf a⟩)
      (fun b hb => hs b (by simp [hb])) (fun b hb => hq b (by simp [hb]))
    refine ⟨m', ?_, ?_, ?_⟩
    · rw [ownTotals, balanceTrim_spec compile v f a hv (hs a (by simp))]
      simp only [Except.bind]
      rw [sumInto_same env.conv (env.comOf a) (zeroAmount (env.comOf a)) _ rfl (by
        intro q hqm
        obtain ⟨p, hp, rfl⟩ := List.mem_map.mp hqm
        exact hq a (by simp) p (List.mem_of_mem_filter hp))]
      simp only [checkNoError, zeroAmount, zero_add]
      exact h1
    · intro b hb
      by_cases hba : b ∈ accs
      · exact h2 b hba
      · have : b = a := by simpa [hba] using hb
        subst this
        rw [h3 b hba]; simp [AmtMap.set]
    · intro b hb
      simp only [List.mem_cons, not_or] at hb
      rw [h3 b hb.2]; simp [AmtMap.set, hb.1]

theorem TreeOK.depth_total (t : TreeOK names L) (k : Nat) (a : Str) (ha : a ∈ names) (hk : rank a < k) :
    ∃ d, depth L.parent k a = .ok d := by
  induction k generalizing a with
  | zero => omega
  | succ k ih =>
    rw [depth, t.parent]
    by_cases h : a ∈ names ∧ a ≠ rootName
    · rw [if_pos h]
      simp only
      split
      · exact ⟨1, rfl⟩
      · have := rank_lt_of_anc (ancName_parentOf a h.2)
        obtain ⟨d, hd⟩ := ih (parentOf a) (t.closed a ha) (by omega)
        exact ⟨d + 1, by rw [hd]; rfl⟩
    · rw [if_neg h]; exact ⟨1, rfl⟩

open Classical in
/-- The accounts that get a row. -/
noncomputable def RowOf (L : Links) (fuel : Nat) (level : Int) (zero : Bool) (cum : AmtMap) (a : Str) : Bool :=
  decide ((level = 0 ∨ ∃ d : Nat, depth L.parent fuel a = .ok d ∧ (d : Int) ≤ level) ∧ (zero = true ∨ entryNonZero (cum a) = true))

theorem balanceRows_spec (t : TreeOK names L) (fuel : Nat) (level : Int) (zero : Bool) (totals cum : AmtMap) (accs : List Str)
    (hf : treeFuel names ≤ fuel) (ha : ∀ a ∈ accs, a ∈ names) :
    balanceRows L.parent fuel level zero totals cum accs =
      .ok ((accs.filter (RowOf L fuel level zero cum)).map (fun a => (a, totals a, cum a))) := by
  induction accs with
  | nil => rfl
  | cons a accs ih =>
    obtain ⟨d, hd⟩ := t.depth_total fuel a (ha a (by simp)) (by
      have := rank_le (ha a (by simp)); unfold treeFuel at hf; omega)
    rw [balanceRows, ih (fun b hb => ha b (by simp [hb]))]
    by_cases hl : level = 0
    · simp only [hl, if_true, Except.bind, Bool.false_eq_true, if_false]
      by_cases hz : zero = true ∨ entryNonZero (cum a) = true
      · rw [if_pos (by simpa using hz), List.filter_cons_of_pos (by simp [RowOf, hz])]; simp [hl]
      · rw [if_neg (by simpa using hz), List.filter_cons_of_neg (by simp only [RowOf, decide_eq_true_eq]; tauto)]
    · simp only [hl, if_false, hd, Except.bind]
      by_cases hdl : (d : Int) > level
      · simp only [hdl, decide_true, if_true]
        rw [List.filter_cons_of_neg]
        simp [RowOf, hl, hd]; omega
      · simp only [hdl, decide_false, Bool.false_eq_true, if_false]
        by_cases hz : zero = true ∨ entryNonZero (cum a) = true
        · rw [if_pos (by simpa using hz), List.filter_cons_of_pos (by simp [RowOf, hl, hd, hz]; omega)]; rfl
        · rw [if_neg (by simpa using hz), List.filter_cons_of_neg (by simp only [RowOf, decide_eq_true_eq]; tauto)]

/-! ## The command

`accts`, `L`: resolved accounts; `r`: the account the command is run for; `fuel`: any bound large enough for the tree's depth. -/

/-- The ledger as the command finds it: postings in date order (C29), one commodity in the subtree of `r`. -/
structure OneCommodity (env : Env) (v : View) (names : List Str) (r : Str) (c : Com) : Prop where
  sorted : ∀ a ∈ names, InDateOrder v.date (v.postings a)
  com : ∀ a ∈ names, InSub r a → env.comOf a = c
  qty : ∀ a ∈ names, InSub r a → ∀ p ∈ v.postings a, (v.qty p).com = c

/-- The accounts of the ledger that are `a` or below it (by name). -/
noncomputable def familyOf (names : List Str) (a : Str) : List Str := by
  classical exact names.filter (fun x => decide (InSub a x))

theorem balanceCmd_spec {dflt : Str} {decls accts : List Acct} (h : ResolvedAccounts dflt decls accts L) (env : Env) (compile : Compile)
    (v : View) (f : Filters) (hv : ValidFilters compile f) (level : Int) (fuel : Nat) (zero : Bool) (r : Str) (c : Com)
    (hr : r ∈ accts.map (·.fullName)) (hc : OneCommodity env v (accts.map (·.fullName)) r c) (hf : treeFuel (accts.map (·.fullName)) ≤ fuel) :
    ∃ totals cum : AmtMap, balanceCmd env compile v L fuel f level zero r =
        .ok (((walkOf (accts.map (·.fullName)) L r).filter (RowOf L fuel level zero cum)).map (fun a => (a, totals a, cum a))) ∧
      (∀ a ∈ walkOf (accts.map (·.fullName)) L r, totals a = some ⟨ownSum compile v f a, c⟩ ∧
        cum a = some ⟨((familyOf (accts.map (·.fullName)) a).map (ownSum compile v f)).sum, c⟩) := by
  classical
  have t := TreeOK.of h
  set names := accts.map (·.fullName)
  have hmem := t.mem_walk r hr
  obtain ⟨totals, h1, h2, h3⟩ := ownTotals_spec env compile v f hv (walkOf names L r) (t.walk_nodup r hr) (fun _ => none)
    (fun a ha => hc.sorted a ((hmem a).mp ha).1)
    (fun a ha p hp => by rw [hc.qty a ((hmem a).mp ha).1 ((hmem a).mp ha).2 p hp, hc.com a ((hmem a).mp ha).1 ((hmem a).mp ha).2])
  have h2' : ∀ a ∈ walkOf names L r, totals a = some ⟨ownSum compile v f a, c⟩ := by
    intro a ha; rw [h2 a ha, hc.com a ((hmem a).mp ha).1 ((hmem a).mp ha).2]
  have hparent : ∀ p, L.parent r = some p → totals p = none := by
    intro p hp
    rw [h3]
    rw [t.parent] at hp
    split at hp
    · rename_i hh
      injection hp with hp
      subst hp
      intro hm
      have hac := ancName_parentOf r hh.2
      rcases ((hmem _).mp hm).2 with e | e
      · rw [e] at hac; exact ancName_irrefl _ hac
      · exact ancName_irrefl _ (ancName_trans _ _ _ hac e)
    · simp at hp
  obtain ⟨cum, g1, g2, _, _⟩ := t.addUp_walk env c (ownSum compile v f) r hr totals [] h2' (by
    intro p hp q hq; rw [hparent p hp] at hq; simp at hq)
  refine ⟨totals, cum, ?_, ?_⟩
  · unfold balanceCmd
    simp only [t.walk_fuel fuel hf r hr, t.walkPost_fuel fuel hf r hr]
    rw [h1]
    simp only [Except.bind]
    rw [List.append_nil] at g1
    rw [g1]
    simp only [addUp]
    exact balanceRows_spec t fuel level zero totals cum _ hf (fun a ha => ((hmem a).mp ha).1)
  · intro a ha
    refine ⟨h2' a ha, ?_⟩
    rw [g2 a ha]
    unfold sumOver familyOf
    rw [perm_sum_int ((t.walk_perm a ((hmem a).mp ha).1).map _)]

/-- **C36** Every printed row shows as own total the exact sum of the quantities of the account's selected postings. -/
theorem C36_balance_own_totals {dflt : Str} {decls accts : List Acct} (h : ResolvedAccounts dflt decls accts L) (env : Env) (compile : Compile)
    (v : View) (f : Filters) (hv : ValidFilters compile f) (level : Int) (fuel : Nat) (zero : Bool) (r : Str) (c : Com)
    (hr : r ∈ accts.map (·.fullName)) (hc : OneCommodity env v (accts.map (·.fullName)) r c) (hf : treeFuel (accts.map (·.fullName)) ≤ fuel) :
    ∃ rows, balanceCmd env compile v L fuel f level zero r = .ok rows ∧
      ∀ row ∈ rows, row.2.1 = some ⟨total ((selectedOf compile v f row.1).map v.qty), c⟩ := by
  obtain ⟨totals, cum, h1, h2⟩ := balanceCmd_spec h env compile v f hv level fuel zero r c hr hc hf
  refine ⟨_, h1, ?_⟩
  intro row hrow
  obtain ⟨a, ha, rfl⟩ := List.mem_map.mp hrow
  exact (h2 a (List.mem_of_mem_filter ha)).1

/-- **C37** Every printed row shows as cumulative total the exact sum over the account and all accounts below it, each counted
once. -/
theorem C37_balance_cumulative_totals {dflt : Str} {decls accts : List Acct} (h : ResolvedAccounts dflt decls accts L) (env : Env)
    (compile : Compile) (v : View) (f : Filters) (hv : ValidFilters compile f) (level : Int) (fuel : Nat) (zero : Bool) (r : Str) (c : Com)
    (hr : r ∈ accts.map (·.fullName)) (hc : OneCommodity env v (accts.map (·.fullName)) r c) (hf : treeFuel (accts.map (·.fullName)) ≤ fuel) :
    ∃ rows, balanceCmd env compile v L fuel f level zero r = .ok rows ∧
      ∀ row ∈ rows, row.2.2 = some ⟨((familyOf (accts.map (·.fullName)) row.1).map
        (fun x => total ((selectedOf compile v f x).map v.qty))).sum, c⟩ := by
  obtain ⟨totals, cum, h1, h2⟩ := balanceCmd_spec h env compile v f hv level fuel zero r c hr hc hf
  refine ⟨_, h1, ?_⟩
  intro row hrow
  obtain ⟨a, ha, rfl⟩ := List.mem_map.mp hrow
  exact (h2 a (List.mem_of_mem_filter ha)).2

/-- **C38** A row is printed for exactly the accounts that are `r` or below it, whose `Depth()` is within the level (0: any) and
whose cumulative total is non-zero (or `-z` is given); no account twice, and no account before one of its ancestors. -/
theorem C38_balance_rows {dflt : Str} {decls accts : List Acct} (h : ResolvedAccounts dflt decls accts L) (env : Env)
    (compile : Compile) (v : View) (f : Filters) (hv : ValidFilters compile f) (level : Int) (fuel : Nat) (zero : Bool) (r : Str) (c : Com)
    (hr : r ∈ accts.map (·.fullName)) (hc : OneCommodity env v (accts.map (·.fullName)) r c) (hf : treeFuel (accts.map (·.fullName)) ≤ fuel) :
    ∃ rows, balanceCmd env compile v L fuel f level zero r = .ok rows ∧
      (∀ a, a ∈ rows.map (·.1) ↔ a ∈ accts.map (·.fullName) ∧ InSub r a ∧
        (level = 0 ∨ ∃ d : Nat, depth L.parent fuel a = .ok d ∧ (d : Int) ≤ level) ∧
        (zero = true ∨ ((familyOf (accts.map (·.fullName)) a).map (fun x => total ((selectedOf compile v f x).map v.qty))).sum ≠ 0)) ∧
      (rows.map (·.1)).Nodup ∧ (rows.map (·.1)).Pairwise (fun x y => ¬ AncName y x) := by
  obtain ⟨totals, cum, h1, h2⟩ := balanceCmd_spec h env compile v f hv level fuel zero r c hr hc hf
  have t := TreeOK.of h
  have hrows : ∀ (l : List Str), ((l.map (fun a => (a, totals a, cum a))).map (·.1)) = l := by
    intro l; rw [List.map_map]; exact List.map_id'' (fun _ => rfl) l
  refine ⟨_, h1, ?_, ?_, ?_⟩
  · intro a
    rw [hrows, List.mem_filter, t.mem_walk r hr]
    constructor
    · rintro ⟨⟨g1, g2⟩, g3⟩
      simp only [RowOf, decide_eq_true_eq] at g3
      refine ⟨g1, g2, g3.1, ?_⟩
      have := (h2 a ((t.mem_walk r hr a).mpr ⟨g1, g2⟩)).2
      rw [this, show ownSum compile v f = fun x => total ((selectedOf compile v f x).map v.qty) from rfl] at g3
      simpa [entryNonZero] using g3.2
    · rintro ⟨g1, g2, g3, g4⟩
      refine ⟨⟨g1, g2⟩, ?_⟩
      have := (h2 a ((t.mem_walk r hr a).mpr ⟨g1, g2⟩)).2
      simp only [RowOf, decide_eq_true_eq]
      rw [this, show ownSum compile v f = fun x => total ((selectedOf compile v f x).map v.qty) from rfl]
      exact ⟨g3, by simpa [entryNonZero] using g4⟩
  · rw [hrows]; exact (t.walk_nodup r hr).filter _
  · rw [hrows]; exact (t.walk_parents_first r hr).filter _

/-! ## Non-vacuity -/

/-- Two accounts below `A` with postings and no filters: the hypotheses are met by a resolved tree. -/
def balDecls : List Acct := [accountFromName (str "CAD") (str "A:B"), accountFromName (str "CAD") (str "A:C")]
def balView : View := ⟨fun a => if a = str "A:B" then [0, 1] else if a = str "A:C" then [2] else [], fun p => (p : Nat), fun _ => [],
  fun _ => none, fun _ => none, fun p => ⟨[5, 7, -2].getD p 0, sampleCom⟩⟩

example : ∃ accts L, ResolvedAccounts (str "CAD") balDecls accts L ∧ str "A" ∈ accts.map (·.fullName) ∧
    OneCommodity sampleEnv balView (accts.map (·.fullName)) (str "A") sampleCom ∧ ValidFilters (fun _ => none) ⟨some 1, none, [], []⟩ := by
  obtain ⟨accts, L, h⟩ := resolved_exists (str "CAD") balDecls
  refine ⟨accts, L, h, ?_, ⟨?_, fun _ _ _ => rfl, fun _ _ _ _ _ => rfl⟩, ?_⟩
  · rw [(C21_exactly_missing_ancestors _ _ _ _ h).2]
    right; right
    exact ⟨_, List.mem_cons_self, .inr ⟨by decide, str "B", by decide⟩⟩
  · intro a _
    unfold InDateOrder balView
    simp only
    split
    · decide
    · split <;> simp
  · exact ⟨fun h => absurd rfl h, fun h => absurd rfl h⟩

/-- A small hand-linked tree computed through the model. -/
def balLinks : Links := ⟨fun x => if x = str "A:B" ∨ x = str "A:C" then some (str "A") else if x = str "A" then some rootName else none,
  fun x => if x = rootName then [str "A"] else if x = str "A" then [str "A:B", str "A:C"] else []⟩

example : (balanceCmd sampleEnv (fun _ => none) balView balLinks 7 ⟨some 1, none, [], []⟩ 0 false rootName).toOption.map
    (fun rows => rows.map (fun r => (r.1, r.2.1.map (·.int), r.2.2.map (·.int)))) =
    some [(str "Root", some 0, some 5), (str "A", some 0, some 5), (str "A:B", some 7, some 7), (str "A:C", some (-2), some (-2))] := by
  decide +kernel

end Verif
