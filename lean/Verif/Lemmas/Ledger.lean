import Verif.Lemmas.Amount
import Verif.Lemmas.Accounts
import Verif.Lemmas.Postings
import Verif.Model.Ledger
import Mathlib.Algebra.BigOperators.Group.List.Basic
/-! Lemmas about ResolveTransactions and CheckPostings. -/
namespace Verif

theorem bind_ok {α β} {x : Except Fault α} {f : α → Except Fault β} {b : β} :
    x.bind f = .ok b ↔ ∃ a, x = .ok a ∧ f a = .ok b := by
  cases x with
  | error e => simp [Except.bind]
  | ok a => simp [Except.bind]

theorem checkNoError_ok {α} {x : Except Fault α} {a : α} : checkNoError x = .ok a ↔ x = .ok a := by
  cases x with
  | ok => simp [checkNoError]
  | error e => cases e <;> simp [checkNoError]

/-- Two heaps that differ only in quantities and balances. -/
def SameStatic (h h' : Heap) : Prop :=
  ∀ p, (h' p).posted = (h p).posted ∧ (h' p).accountName = (h p).accountName ∧ (h' p).asserted = (h p).asserted ∧ (h' p).notes = (h p).notes

theorem SameStatic.refl (h : Heap) : SameStatic h h := fun _ => ⟨rfl, rfl, rfl, rfl⟩
theorem SameStatic.trans {a b c : Heap} (h1 : SameStatic a b) (h2 : SameStatic b c) : SameStatic a c := fun p =>
  ⟨(h2 p).1.trans (h1 p).1, (h2 p).2.1.trans (h1 p).2.1, (h2 p).2.2.1.trans (h1 p).2.2.1, (h2 p).2.2.2.trans (h1 p).2.2.2⟩

/-- The account a posting names. -/
def accountOf (env : Env) (h : Heap) (p : PRef) : Except Fault Str := env.find (h p).accountName

/-- Account lists after the postings in `done` were registered. -/
structure BInv (env : Env) (h : Heap) (done : List PRef) (b : Books) : Prop where
  sorted : ∀ a, SortedBy (fun p => (h p).posted) (b.postings a)
  nodup : ∀ a, (b.postings a).Nodup
  mem : ∀ a p, p ∈ b.postings a ↔ p ∈ done ∧ accountOf env h p = .ok a
  account : ∀ p, p ∈ done → ∃ a, accountOf env h p = .ok a ∧ b.account p = some a

theorem BInv.empty (env : Env) (h : Heap) : BInv env h [] Books.empty :=
  ⟨fun _ => List.Pairwise.nil, fun _ => List.nodup_nil, by simp [Books.empty], by simp⟩

theorem BInv.congr {env : Env} {h h' : Heap} {done b} (hs : SameStatic h h') (hb : BInv env h done b) : BInv env h' done b := by
  have e1 : (fun p => (h' p).posted) = fun p => (h p).posted := by funext p; exact (hs p).1
  have e2 : ∀ p, accountOf env h' p = accountOf env h p := by intro p; unfold accountOf; rw [(hs p).2.1]
  refine ⟨?_, hb.nodup, ?_, ?_⟩
  · intro a; rw [e1]; exact hb.sorted a
  · intro a p; rw [hb.mem, e2]
  · intro p hp; simp only [e2]; exact hb.account p hp

theorem BInv.post {env : Env} {h : Heap} {done b} (hb : BInv env h done b) (p : PRef) (hp : p ∉ done) (a : Str)
    (ha : accountOf env h p = .ok a) : BInv env h (done ++ [p]) (b.post (fun q => (h q).posted) p a) := by
  have hn : p ∉ b.postings a := fun hm => hp ((hb.mem a p).mp hm).1
  refine ⟨?_, ?_, ?_, ?_⟩
  · intro x
    simp only [Books.post, Books.setPostings, Books.setAccount]
    split
    · exact addPosting_sorted _ _ _ (hb.sorted a)
    · exact hb.sorted x
  · intro x
    simp only [Books.post, Books.setPostings, Books.setAccount]
    split
    · exact addPosting_nodup _ _ _ (hb.sorted a) (hb.nodup a)
    · exact hb.nodup x
  · intro x q
    simp only [Books.post, Books.setPostings, Books.setAccount, List.mem_append, List.mem_singleton]
    split
    · rename_i hx
      subst hx
      rw [mem_addPosting _ _ _ _ (hb.sorted x), hb.mem]
      constructor
      · rintro (rfl | ⟨h1, h2⟩)
        · exact ⟨.inr rfl, ha⟩
        · exact ⟨.inl h1, h2⟩
      · rintro ⟨h1 | rfl, h2⟩
        · exact .inr ⟨h1, h2⟩
        · exact .inl rfl
    · rename_i hx
      rw [hb.mem]
      constructor
      · rintro ⟨h1, h2⟩; exact ⟨.inl h1, h2⟩
      · rintro ⟨h1 | rfl, h2⟩
        · exact ⟨h1, h2⟩
        · rw [ha] at h2; injection h2 with h2; exact absurd h2.symm hx
  · intro q hq
    simp only [Books.post, Books.setPostings, Books.setAccount]
    by_cases hqp : q = p
    · subst hqp; exact ⟨a, ha, by simp⟩
    · rw [if_neg hqp]; exact hb.account q (by simpa [hqp] using hq)

theorem assign_ok {env : Env} {h : Heap} {done b} (hb : BInv env h done b) (ps : List PRef) (hn : (done ++ ps).Nodup)
    {r} (hr : assignAccounts env h b ps = .ok r) :
    BInv env h (done ++ ps) r.1 ∧ List.Forall₂ (fun p a => accountOf env h p = .ok a) ps r.2 := by
  induction ps generalizing done b r with
  | nil =>
    simp only [assignAccounts, Except.ok.injEq] at hr; subst hr
    exact ⟨by simpa using hb, .nil⟩
  | cons p ps ih =>
    simp only [assignAccounts, bind_ok] at hr
    obtain ⟨a, ha, r', hr', hr⟩ := hr
    injection hr with hr; subst hr
    have hp : p ∉ done := by
      intro hm; rw [List.nodup_append] at hn; exact hn.2.2 p hm p (by simp) rfl
    have := ih (hb.post p hp a ha) (by simpa using hn) hr'
    exact ⟨by simpa using this.1, .cons ha this.2⟩

theorem assign_total {env : Env} {h : Heap} (b) (ps : List PRef) (hf : ∀ p ∈ ps, ∃ a, accountOf env h p = .ok a) :
    ∃ r, assignAccounts env h b ps = .ok r := by
  induction ps generalizing b with
  | nil => exact ⟨_, rfl⟩
  | cons p ps ih =>
    obtain ⟨a, ha⟩ := hf p (by simp)
    obtain ⟨r, hr⟩ := ih (b.post (fun q => (h q).posted) p a) (fun q hq => hf q (by simp [hq]))
    refine ⟨(r.1, a :: r.2), ?_⟩
    simp only [assignAccounts, bind_ok]
    exact ⟨a, ha, r, hr, rfl⟩

/-! ### The total of one transaction -/

/-- Stated quantities of a list of postings. -/
def stated (h : Heap) (ps : List PRef) : List Amount := ps.filterMap (fun p => (h p).quantity)

/-- Postings without quantity. -/
def elided (h : Heap) (ps : List PRef) : List PRef := ps.filter (fun p => decide ((h p).quantity = none))

theorem totalLoop_ok (env : Env) (h : Heap) (total : Amount) (empty : Option PRef) (ps : List PRef) (T e) :
    totalLoop env h total empty ps = .ok (T, e) ↔
      sumInto env.conv total (stated h ps) = .ok T ∧ empty.toList ++ elided h ps = e.toList := by
  induction ps generalizing total empty with
  | nil =>
    simp only [totalLoop, stated, elided, List.filterMap_nil, List.filter_nil, sumInto, List.append_nil, Except.ok.injEq, Prod.mk.injEq]
    constructor
    · rintro ⟨rfl, rfl⟩; exact ⟨rfl, rfl⟩
    · rintro ⟨rfl, h⟩
      refine ⟨rfl, ?_⟩
      cases empty <;> cases e <;> simp_all
  | cons p ps ih =>
    unfold totalLoop
    rcases hq : (h p).quantity with _ | q
    · have e1 : stated h (p :: ps) = stated h ps := by simp [stated, hq]
      have e2 : elided h (p :: ps) = p :: elided h ps := by simp [elided, hq]
      rw [e1, e2]
      simp only
      by_cases hem : empty = none
      · subst hem
        rw [if_pos rfl, ih]
        simp
      · rw [if_neg hem]
        obtain ⟨x, rfl⟩ := Option.ne_none_iff_exists'.mp hem
        simp only [reduceCtorEq, Option.toList_some, List.cons_append, List.nil_append, false_iff, not_and]
        intro _ h
        cases e <;> simp at h
    · have e1 : stated h (p :: ps) = q :: stated h ps := by simp [stated, hq]
      have e2 : elided h (p :: ps) = elided h ps := by simp [elided, hq]
      rw [e1, e2]
      simp only [bind_ok, checkNoError_ok, ih]
      constructor
      · rintro ⟨t, h1, h2, h3⟩
        refine ⟨?_, h3⟩
        unfold sumInto; rw [h1]; exact h2
      · rintro ⟨h1, h3⟩
        unfold sumInto at h1
        rcases ha : total.addIn env.conv q with er | t
        · rw [ha] at h1; simp [bind, Except.bind] at h1
        · rw [ha] at h1; exact ⟨t, rfl, h1, h3⟩

theorem mixedComs_false (cs : List Com) : mixedComs cs = false ↔ ∀ c ∈ cs, ∀ d ∈ cs, c = d := by
  cases cs with
  | nil => simp [mixedComs]
  | cons c rest =>
    simp only [mixedComs, List.any_eq_false, decide_eq_true_eq, not_not]
    constructor
    · intro h x hx y hy
      have hx' : x = c := by rcases List.mem_cons.mp hx with e | e; exacts [e, h x e]
      have hy' : y = c := by rcases List.mem_cons.mp hy with e | e; exacts [e, h y e]
      rw [hx', hy']
    · intro h x hx
      exact h x (by simp [hx]) c (by simp)

theorem sumInto_com (conv) (c : Com) (t T : Amount) (l : List Amount) (ht : t.com = c) (h : sumInto conv t l = .ok T) : T.com = c := by
  induction l generalizing t with
  | nil => simp only [sumInto, Except.ok.injEq] at h; rw [← h, ht]
  | cons q l ih =>
    unfold sumInto at h
    rcases ha : t.addIn conv q with er | t'
    · rw [ha] at h; simp [bind, Except.bind] at h
    · rw [ha] at h
      refine ih t' ?_ h
      unfold Amount.addIn at ha
      rw [bind_ok] at ha
      obtain ⟨x, _, ha⟩ := ha
      rw [bind_ok] at ha
      obtain ⟨y, _, ha⟩ := ha
      injection ha with ha; rw [← ha]; exact ht

/-- All accounts named by the transaction have commodity `c`. -/
def SharesCommodity (env : Env) (h : Heap) (t : Txn) (c : Com) : Prop :=
  ∀ p ∈ t.postings, ∀ a, accountOf env h p = .ok a → env.comOf a = c

/-- When `ResolveTransactions` accepts a transaction. -/
def Accepted (env : Env) (h : Heap) (t : Txn) : Prop :=
  (∀ p ∈ t.postings, ∃ a, accountOf env h p = .ok a) ∧
  ((¬ ∃ c, SharesCommodity env h t c) → elided h t.postings = []) ∧
  (∀ c, t.postings ≠ [] → SharesCommodity env h t c →
    (elided h t.postings).length ≤ 1 ∧ ∃ T, sumInto env.conv (zeroAmount c) (stated h t.postings) = .ok T ∧
      (elided h t.postings = [] → T.int = 0))

theorem forall2_mem_left {α β} {R : α → β → Prop} {l : List α} {l' : List β} (h : List.Forall₂ R l l') :
    ∀ a ∈ l, ∃ b ∈ l', R a b := by
  induction h with
  | nil => simp
  | cons hr _ ih =>
    intro a ha
    rcases List.mem_cons.mp ha with rfl | ha
    · exact ⟨_, by simp, hr⟩
    · obtain ⟨b, hb, h⟩ := ih a ha; exact ⟨b, by simp [hb], h⟩

theorem forall2_mem_right {α β} {R : α → β → Prop} {l : List α} {l' : List β} (h : List.Forall₂ R l l') :
    ∀ b ∈ l', ∃ a ∈ l, R a b := by
  induction h with
  | nil => simp
  | cons hr _ ih =>
    intro a ha
    rcases List.mem_cons.mp ha with rfl | ha
    · exact ⟨_, by simp, hr⟩
    · obtain ⟨b, hb, h⟩ := ih a ha; exact ⟨b, by simp [hb], h⟩

theorem mixed_iff {env : Env} {h : Heap} {t : Txn} {as : List Str}
    (hf : List.Forall₂ (fun p a => accountOf env h p = .ok a) t.postings as) :
    mixedComs (as.map env.comOf) = false ↔ ∃ c, SharesCommodity env h t c := by
  rw [mixedComs_false]
  constructor
  · intro hh
    cases has : as with
    | nil =>
      refine ⟨default, ?_⟩
      intro p hp a _
      obtain ⟨b, hb, _⟩ := forall2_mem_left hf p hp
      rw [has] at hb; simp at hb
    | cons x xs =>
      refine ⟨env.comOf x, ?_⟩
      intro p hp a ha
      obtain ⟨b, hb, hpb⟩ := forall2_mem_left hf p hp
      rw [ha] at hpb; injection hpb with hpb; subst hpb
      exact hh _ (List.mem_map.mpr ⟨a, hb, rfl⟩) _ (List.mem_map.mpr ⟨x, by simp [has], rfl⟩)
  · rintro ⟨c, hc⟩ x hx y hy
    obtain ⟨a, ha, rfl⟩ := List.mem_map.mp hx
    obtain ⟨b, hb, rfl⟩ := List.mem_map.mp hy
    obtain ⟨p, hp, hpa⟩ := forall2_mem_right hf a ha
    obtain ⟨q, hq, hqb⟩ := forall2_mem_right hf b hb
    rw [hc p hp a hpa, hc q hq b hqb]

theorem all_isSome_iff (h : Heap) (ps : List PRef) : ps.all (fun p => (h p).quantity.isSome) = true ↔ elided h ps = [] := by
  rw [List.all_eq_true, elided, List.filter_eq_nil_iff]
  constructor
  · intro hh p hp; have := hh p hp; cases hq : (h p).quantity <;> simp_all
  · intro hh p hp; have := hh p hp; cases hq : (h p).quantity <;> simp_all

/-- Effect of an accepted transaction on the heap. -/
def TxnEffect (env : Env) (t : Txn) (h h' : Heap) : Prop :=
  (∀ p, (elided h t.postings = [p] → ∀ c, SharesCommodity env h t c →
      ∃ T, sumInto env.conv (zeroAmount c) (stated h t.postings) = .ok T ∧ h' p = { h p with quantity := some T.negated }) ∧
    (elided h t.postings ≠ [p] → h' p = h p))

theorem resolveTxn_ok {env : Env} {st st' : LState} {done : List PRef} {t : Txn} (hb : BInv env st.heap done st.books)
    (hn : (done ++ t.postings).Nodup) (hr : resolveTxn env st t = .ok st') :
    Accepted env st.heap t ∧ BInv env st.heap (done ++ t.postings) st'.books ∧ TxnEffect env t st.heap st'.heap := by
  unfold resolveTxn at hr
  rw [bind_ok] at hr
  obtain ⟨r, hr1, hr⟩ := hr
  obtain ⟨hb', hf⟩ := assign_ok hb t.postings hn hr1
  have hfound : ∀ p ∈ t.postings, ∃ a, accountOf env st.heap p = .ok a := fun p hp => by
    obtain ⟨a, _, ha⟩ := forall2_mem_left hf p hp; exact ⟨a, ha⟩
  have hmix := mixed_iff hf
  simp only at hr
  by_cases hm : mixedComs (r.2.map env.comOf) = true
  · rw [if_pos hm] at hr
    have hno : ¬ ∃ c, SharesCommodity env st.heap t c := by
      intro hc; rw [hmix.mpr hc] at hm; simp at hm
    split at hr
    · rename_i hall
      injection hr with hr; subst hr
      have hel := (all_isSome_iff _ _).mp hall
      refine ⟨⟨hfound, fun _ => hel, fun c _ hc => absurd ⟨c, hc⟩ hno⟩, hb', ?_⟩
      intro p
      exact ⟨fun h => by rw [hel] at h; simp at h, fun _ => rfl⟩
    · simp at hr
  · rw [if_neg hm] at hr
    have hm : mixedComs (r.2.map env.comOf) = false := by simpa using hm
    have hyes := hmix.mp hm
    rcases hlast : (r.2.map env.comOf).getLast? with _ | c0
    · rw [hlast] at hr
      injection hr with hr; subst hr
      have hnil : t.postings = [] := by
        have : r.2 = [] := by simpa using hlast
        rw [this] at hf; exact List.forall₂_nil_right_iff.mp hf
      refine ⟨⟨hfound, fun h => absurd hyes h, fun c hne _ => absurd hnil hne⟩, hb', ?_⟩
      intro p
      refine ⟨fun h => ?_, fun _ => rfl⟩
      rw [hnil] at h; simp [elided] at h
    · rw [hlast] at hr
      simp only [bind_ok] at hr
      obtain ⟨⟨T, e⟩, ht, hr⟩ := hr
      rw [totalLoop_ok] at ht
      obtain ⟨hsum, hel⟩ := ht
      simp only [Option.toList_none, List.nil_append] at hel
      have hc0 : ∀ c, t.postings ≠ [] → SharesCommodity env st.heap t c → c = c0 := by
        intro c _ hc
        have hmem := List.mem_of_getLast? hlast
        obtain ⟨a, ha, rfl⟩ := List.mem_map.mp hmem
        obtain ⟨p, hp, hpa⟩ := forall2_mem_right hf a ha
        exact (hc p hp a hpa).symm
      have hne : t.postings ≠ [] := by
        intro h0; rw [h0] at hf
        rw [List.forall₂_nil_left_iff.mp hf] at hlast; simp at hlast
      cases e with
      | none =>
        simp only [Option.toList_none] at hel
        simp only at hr
        split at hr
        · rename_i hz
          injection hr with hr; subst hr
          refine ⟨⟨hfound, fun _ => hel, ?_⟩, hb', ?_⟩
          · intro c h1 h2
            rw [hc0 c h1 h2]
            exact ⟨by simp [hel], T, hsum, fun _ => hz⟩
          · intro p
            exact ⟨fun h => by rw [hel] at h; simp at h, fun _ => rfl⟩
        · simp at hr
      | some e =>
        simp only [Option.toList_some] at hel
        simp only at hr
        injection hr with hr; subst hr
        refine ⟨⟨hfound, fun h => absurd hyes h, ?_⟩, hb', ?_⟩
        · intro c h1 h2
          rw [hc0 c h1 h2]
          exact ⟨by simp [hel], T, hsum, by simp [hel]⟩
        · intro p
          rw [hel]
          refine ⟨?_, ?_⟩
          · intro h c hc
            simp only [List.cons.injEq, and_true] at h
            subst h
            rw [hc0 c hne hc]
            exact ⟨T, hsum, by simp [Heap.set]⟩
          · intro h
            have : p ≠ e := by rintro rfl; exact h rfl
            simp [Heap.set, this]

theorem resolveTxn_total {env : Env} {st : LState} {t : Txn} (ha : Accepted env st.heap t) : ∃ st', resolveTxn env st t = .ok st' := by
  obtain ⟨hfound, hmixed, hsame⟩ := ha
  obtain ⟨r, hr⟩ := assign_total (env := env) (h := st.heap) st.books t.postings hfound
  have hf : List.Forall₂ (fun p a => accountOf env st.heap p = .ok a) t.postings r.2 := by
    clear hmixed hsame hfound
    generalize t.postings = ps at hr
    generalize st.books = b at hr
    induction ps generalizing b r with
    | nil => simp only [assignAccounts, Except.ok.injEq] at hr; subst hr; exact .nil
    | cons p ps ih =>
      simp only [assignAccounts, bind_ok] at hr
      obtain ⟨a, ha, r', hr', hr⟩ := hr
      injection hr with hr; subst hr
      exact .cons ha (ih r' _ hr')
  have hmix := mixed_iff hf
  unfold resolveTxn
  rw [hr]
  simp only [Except.bind]
  by_cases hm : mixedComs (r.2.map env.comOf) = true
  · rw [if_pos hm, if_pos]
    · exact ⟨_, rfl⟩
    · rw [all_isSome_iff]; apply hmixed; intro hc; rw [hmix.mpr hc] at hm; simp at hm
  · rw [if_neg hm]
    have hm : mixedComs (r.2.map env.comOf) = false := by simpa using hm
    obtain ⟨c, hc⟩ := hmix.mp hm
    rcases hlast : (r.2.map env.comOf).getLast? with _ | c0
    · exact ⟨_, rfl⟩
    · have hmem := List.mem_of_getLast? hlast
      obtain ⟨a, ha, rfl⟩ := List.mem_map.mp hmem
      obtain ⟨p, hp, hpa⟩ := forall2_mem_right hf a ha
      have hcc : SharesCommodity env st.heap t (env.comOf a) := by
        rw [hc p hp a hpa]; exact hc
      obtain ⟨hlen, T, hT, hz⟩ := hsame _ (by intro h0; rw [h0] at hp; simp at hp) hcc
      simp only
      rcases hel : elided st.heap t.postings with _ | ⟨e, l⟩
      · have : totalLoop env st.heap (zeroAmount (env.comOf a)) none t.postings = .ok (T, none) :=
          (totalLoop_ok ..).mpr ⟨hT, by simp [hel]⟩
        rw [this]
        simp only [hz hel, if_true]
        exact ⟨_, rfl⟩
      · have hl : l = [] := by rw [hel] at hlen; simpa using hlen
        subst hl
        have : totalLoop env st.heap (zeroAmount (env.comOf a)) none t.postings = .ok (T, some e) :=
          (totalLoop_ok ..).mpr ⟨hT, by simp [hel]⟩
        rw [this]
        exact ⟨_, rfl⟩

theorem TxnEffect.static {env t h h'} (he : TxnEffect env t h h') (hsc : ∀ p, elided h t.postings = [p] → ∃ c, SharesCommodity env h t c) :
    SameStatic h h' ∧ (∀ p, (h' p).balance = (h p).balance) ∧ (∀ p, p ∉ t.postings → h' p = h p) ∧
    (∀ p q, (h p).quantity = some q → (h' p).quantity = some q) := by
  have key : ∀ p, h' p = h p ∨ (p ∈ t.postings ∧ (h p).quantity = none ∧ ∃ x, h' p = { h p with quantity := some x }) := by
    intro p
    by_cases hp : elided h t.postings = [p]
    · right
      have : p ∈ elided h t.postings := by rw [hp]; simp
      simp only [elided, List.mem_filter, decide_eq_true_eq] at this
      obtain ⟨c, hc⟩ := hsc p hp
      obtain ⟨T, _, e⟩ := (he p).1 hp c hc
      exact ⟨this.1, this.2, _, e⟩
    · exact .inl ((he p).2 hp)
  refine ⟨?_, ?_, ?_, ?_⟩
  · intro p; rcases key p with e | ⟨_, _, x, e⟩ <;> rw [e] <;> exact ⟨rfl, rfl, rfl, rfl⟩
  · intro p; rcases key p with e | ⟨_, _, x, e⟩ <;> rw [e]
  · intro p hp; rcases key p with e | ⟨h1, _⟩; exacts [e, absurd h1 hp]
  · intro p q hq; rcases key p with e | ⟨_, h2, _⟩
    · rw [e]; exact hq
    · rw [h2] at hq; simp at hq

theorem Accepted.effect_sc {env h t} (ha : Accepted env h t) : ∀ p, elided h t.postings = [p] → ∃ c, SharesCommodity env h t c := by
  intro p hp
  by_contra hno
  rw [ha.2.1 hno] at hp; simp at hp

theorem stated_congr {h h' : Heap} {ps : List PRef} (e : ∀ p ∈ ps, (h' p).quantity = (h p).quantity) : stated h' ps = stated h ps := by
  unfold stated
  induction ps with
  | nil => rfl
  | cons p ps ih => simp only [List.filterMap_cons, e p (by simp), ih (fun p hp => e p (by simp [hp]))]

theorem elided_congr {h h' : Heap} {ps : List PRef} (e : ∀ p ∈ ps, (h' p).quantity = (h p).quantity) : elided h' ps = elided h ps := by
  unfold elided
  apply List.filter_congr
  intro p hp; rw [e p hp]

theorem Accepted.congr {env h h' t} (e : ∀ p ∈ t.postings, h' p = h p) : Accepted env h' t ↔ Accepted env h t := by
  have e1 : stated h' t.postings = stated h t.postings := stated_congr (fun p hp => by rw [e p hp])
  have e2 : elided h' t.postings = elided h t.postings := elided_congr (fun p hp => by rw [e p hp])
  have e3 : ∀ p ∈ t.postings, accountOf env h' p = accountOf env h p := fun p hp => by unfold accountOf; rw [e p hp]
  have e4 : ∀ c, SharesCommodity env h' t c ↔ SharesCommodity env h t c := by
    intro c; unfold SharesCommodity
    constructor
    · intro hh p hp a ha; exact hh p hp a (by rw [e3 p hp]; exact ha)
    · intro hh p hp a ha; exact hh p hp a (by rw [← e3 p hp]; exact ha)
  unfold Accepted
  simp only [e1, e2, e4]
  constructor
  · rintro ⟨h1, h2⟩; exact ⟨fun p hp => by obtain ⟨a, ha⟩ := h1 p hp; exact ⟨a, by rw [← e3 p hp]; exact ha⟩, h2⟩
  · rintro ⟨h1, h2⟩; exact ⟨fun p hp => by obtain ⟨a, ha⟩ := h1 p hp; exact ⟨a, by rw [e3 p hp]; exact ha⟩, h2⟩

/-- Everything about the first phase of `ResolveTransactions`. -/
theorem resolveTxns_spec {env : Env} {st st' : LState} {done : List PRef} (txns : List Txn) (hb : BInv env st.heap done st.books)
    (hn : (done ++ txns.flatMap (·.postings)).Nodup) (hr : resolveTxns env st txns = .ok st') :
    (∀ t ∈ txns, Accepted env st.heap t) ∧ BInv env st.heap (done ++ txns.flatMap (·.postings)) st'.books ∧
    SameStatic st.heap st'.heap ∧ (∀ p, (st'.heap p).balance = (st.heap p).balance) ∧
    (∀ p, p ∉ txns.flatMap (·.postings) → st'.heap p = st.heap p) ∧
    (∀ p q, (st.heap p).quantity = some q → (st'.heap p).quantity = some q) ∧
    (∀ t ∈ txns, ∀ p, elided st.heap t.postings = [p] → ∀ c, SharesCommodity env st.heap t c →
      ∃ T, sumInto env.conv (zeroAmount c) (stated st.heap t.postings) = .ok T ∧ (st'.heap p).quantity = some T.negated) := by
  induction txns generalizing st done with
  | nil =>
    simp only [resolveTxns, Except.ok.injEq] at hr; subst hr
    exact ⟨by simp, by simpa using hb, SameStatic.refl _, fun _ => rfl, fun _ _ => rfl, fun _ _ h => h, by simp⟩
  | cons t ts ih =>
    simp only [resolveTxns, bind_ok] at hr
    obtain ⟨st1, hr1, hr⟩ := hr
    have hn1 : (done ++ t.postings).Nodup := by
      rw [List.flatMap_cons, ← List.append_assoc] at hn; exact (List.nodup_append.mp hn).1
    obtain ⟨hacc, hb1, heff⟩ := resolveTxn_ok hb hn1 hr1
    obtain ⟨hs1, hbal1, hfr1, hq1⟩ := heff.static hacc.effect_sc
    have hb1' := hb1.congr hs1
    have hn2 : ((done ++ t.postings) ++ ts.flatMap (·.postings)).Nodup := by simpa using hn
    obtain ⟨h1, h2, h3, h4, h5, h6, h7⟩ := ih hb1' hn2 hr
    have hdisj : ∀ u ∈ ts, ∀ p ∈ u.postings, st1.heap p = st.heap p := by
      intro u hu p hp
      apply hfr1
      intro hpt
      have := (List.nodup_append.mp hn2).2.2 p (by simp [hpt]) p (List.mem_flatMap.mpr ⟨u, hu, hp⟩)
      exact this rfl
    refine ⟨?_, ?_, hs1.trans h3, fun p => (h4 p).trans (hbal1 p), ?_, fun p q hq => h6 p q (hq1 p q hq), ?_⟩
    · intro u hu
      rcases List.mem_cons.mp hu with rfl | hu
      · exact hacc
      · exact (Accepted.congr (hdisj u hu)).mp (h1 u hu)
    · have := h2.congr (h := st1.heap) (h' := st.heap) (fun p => ⟨(hs1 p).1.symm, (hs1 p).2.1.symm, (hs1 p).2.2.1.symm, (hs1 p).2.2.2.symm⟩)
      simpa using this
    · intro p hp
      rw [List.flatMap_cons, List.mem_append, not_or] at hp
      rw [h5 p hp.2, hfr1 p hp.1]
    · intro u hu p hp c hc
      rcases List.mem_cons.mp hu with rfl | hu
      · obtain ⟨T, hT, e⟩ := (heff p).1 hp c hc
        refine ⟨T, hT, h6 p _ ?_⟩
        rw [e]
      · have e1 : stated st1.heap u.postings = stated st.heap u.postings := stated_congr (fun p hp => by rw [hdisj u hu p hp])
        have e2 : elided st1.heap u.postings = elided st.heap u.postings := elided_congr (fun p hp => by rw [hdisj u hu p hp])
        have := h7 u hu p (by rw [e2]; exact hp) c (by
          intro q hq a ha
          refine hc q hq a ?_
          unfold accountOf at ha ⊢; rw [← hdisj u hu q hq]; exact ha)
        rw [e1] at this; exact this

theorem resolveTxns_total {env : Env} {st : LState} {done : List PRef} (txns : List Txn) (hb : BInv env st.heap done st.books)
    (hn : (done ++ txns.flatMap (·.postings)).Nodup) (ha : ∀ t ∈ txns, Accepted env st.heap t) :
    ∃ st', resolveTxns env st txns = .ok st' := by
  induction txns generalizing st done with
  | nil => exact ⟨_, rfl⟩
  | cons t ts ih =>
    obtain ⟨st1, hr1⟩ := resolveTxn_total (ha t (by simp))
    have hn1 : (done ++ t.postings).Nodup := by
      rw [List.flatMap_cons, ← List.append_assoc] at hn; exact (List.nodup_append.mp hn).1
    obtain ⟨hacc, hb1, heff⟩ := resolveTxn_ok hb hn1 hr1
    obtain ⟨hs1, hbal1, hfr1, hq1⟩ := heff.static hacc.effect_sc
    have hn2 : ((done ++ t.postings) ++ ts.flatMap (·.postings)).Nodup := by simpa using hn
    obtain ⟨st', hr⟩ := ih (hb1.congr hs1) hn2 (fun u hu => by
      refine (Accepted.congr (fun p hp => ?_)).mpr (ha u (by simp [hu]))
      apply hfr1
      intro hpt
      exact (List.nodup_append.mp hn2).2.2 p (by simp [hpt]) p (List.mem_flatMap.mpr ⟨u, hu, hp⟩) rfl)
    refine ⟨st', ?_⟩
    simp only [resolveTxns, bind_ok]
    exact ⟨st1, hr1, hr⟩

/-! ### CheckPostings -/

theorem sortPostings_id (h : Heap) (l : List PRef) (hs : SortedBy (fun p => (h p).posted) l) : sortPostings h l = l := by
  unfold sortPostings
  apply stableSort_id
  refine hs.imp ?_
  intro a b hab
  simp only [decide_eq_false_iff_not]; exact not_lt.mpr hab

/-- `checkLoop` changes nothing but balances of listed postings that had none. -/
theorem checkLoop_frame {env : Env} {h h' : Heap} {bal bal' : Amount} {w} (ps : List PRef)
    (hr : checkLoop env h bal ps = .ok (h', bal', w)) :
    (∀ p, (h' p).quantity = (h p).quantity) ∧ SameStatic h h' ∧ (∀ p, p ∉ ps → h' p = h p) ∧
    (∀ p b, (h p).balance = some b → h' p = h p) ∧ w.Sublist ps := by
  induction ps generalizing h bal w with
  | nil =>
    simp only [checkLoop, Except.ok.injEq, Prod.mk.injEq] at hr
    obtain ⟨rfl, _, rfl⟩ := hr
    exact ⟨fun _ => rfl, SameStatic.refl _, fun _ _ => rfl, fun _ _ _ => rfl, List.Sublist.refl _⟩
  | cons p ps ih =>
    unfold checkLoop at hr
    rcases hq : (h p).quantity with _ | q
    · rw [hq] at hr; simp at hr
    · rw [hq] at hr
      simp only [bind_ok] at hr
      obtain ⟨bal1, _, hr⟩ := hr
      rcases hb : (h p).balance with _ | b
      · rw [hb] at hr
        simp only at hr
        obtain ⟨h1, h2, h3, h4, h5⟩ := ih hr
        have hset : ∀ x, h.set p { h p with balance := some bal1.copy } x = if x = p then { h p with balance := some bal1.copy } else h x := fun x => rfl
        refine ⟨?_, ?_, ?_, ?_, h5.cons _⟩
        · intro x; rw [h1, hset]; split
          · rename_i e; rw [e]
          · rfl
        · refine SameStatic.trans ?_ h2
          intro x; rw [hset]; split
          · rename_i e; rw [e]; exact ⟨rfl, rfl, rfl, rfl⟩
          · exact ⟨rfl, rfl, rfl, rfl⟩
        · intro x hx
          rw [List.mem_cons, not_or] at hx
          rw [h3 x hx.2, hset, if_neg hx.1]
        · intro x b' hxb
          have hx : x ≠ p := by rintro rfl; rw [hb] at hxb; simp at hxb
          rw [h4 x b' (by rw [hset, if_neg hx]; exact hxb), hset, if_neg hx]
      · rw [hb] at hr
        simp only [bind_ok] at hr
        obtain ⟨eq, _, r, hr1, hr2⟩ := hr
        obtain ⟨rh, rb, rw'⟩ := r
        injection hr2 with hr2
        simp only [Prod.mk.injEq] at hr2
        obtain ⟨rfl, rfl, rfl⟩ := hr2
        obtain ⟨h1, h2, h3, h4, h5⟩ := ih hr1
        refine ⟨h1, h2, fun x hx => h3 x (fun h => hx (by simp [h])), h4, ?_⟩
        split
        · exact h5.cons _
        · exact h5.cons_cons _

/-- The signed number of a posting's quantity (0 when missing). -/
def qint (h : Heap) (p : PRef) : Int := match (h p).quantity with | some q => q.int | none => 0

theorem isEqual_same (a b : Amount) (h : a.com.decimals = b.com.decimals) : a.isEqual b = .ok (decide (a.int = b.int)) := by
  unfold Amount.isEqual Amount.cmp
  rw [adjustedTo_same a b h.symm]
  simp only [bind, Except.bind, pure, Except.pure, Functor.map, Except.map]
  congr 1
  exact decide_eq_decide.mpr intCmp_zero

/-- On a single-commodity list `checkLoop` records prefix sums. -/
theorem checkLoop_spec {env : Env} {h h' : Heap} {bal bal' : Amount} {w} (c : Com) (hbc : bal.com = c) (ps : List PRef) (hn : ps.Nodup)
    (hq : ∀ p ∈ ps, ∀ q, (h p).quantity = some q → q.com = c)
    (hr : checkLoop env h bal ps = .ok (h', bal', w)) :
    bal' = ⟨bal.int + (ps.map (qint h)).sum, c⟩ ∧
    (∀ l1 p l2, ps = l1 ++ p :: l2 → (h p).balance = none → (h' p).balance = some ⟨bal.int + ((l1 ++ [p]).map (qint h)).sum, c⟩) ∧
    (∀ l1 p l2, ps = l1 ++ p :: l2 → ∀ b, (h p).balance = some b → b.com.decimals = c.decimals →
      (p ∈ w ↔ b.int ≠ bal.int + ((l1 ++ [p]).map (qint h)).sum)) ∧
    (∀ p ∈ w, ∃ b, (h p).balance = some b) := by
  induction ps generalizing h bal w with
  | nil =>
    simp only [checkLoop, Except.ok.injEq, Prod.mk.injEq] at hr
    obtain ⟨rfl, rfl, rfl⟩ := hr
    refine ⟨by subst hbc; simp, ?_, ?_, by simp⟩
    · intro l1 p l2 e; simp at e
    · intro l1 p l2 e; simp at e
  | cons p ps ih =>
    obtain ⟨hnp, hn'⟩ := List.nodup_cons.mp hn
    unfold checkLoop at hr
    rcases hqp : (h p).quantity with _ | q
    · rw [hqp] at hr; simp at hr
    · rw [hqp] at hr
      simp only [bind_ok, checkNoError_ok] at hr
      obtain ⟨bal1, hb1, hr⟩ := hr
      have hqc : q.com = c := hq p (by simp) q hqp
      rw [addIn_same env.conv bal q (by rw [hbc, hqc])] at hb1
      injection hb1 with hb1
      have hqi : qint h p = q.int := by simp [qint, hqp]
      rcases hb : (h p).balance with _ | b
      · rw [hb] at hr
        simp only at hr
        have hset : ∀ x, x ≠ p → h.set p { h p with balance := some bal1.copy } x = h x := fun x hx => by simp [Heap.set, hx]
        have hfr := checkLoop_frame ps hr
        obtain ⟨h1, h2, h3, h4⟩ := ih (by rw [← hb1]; exact hbc) hn'
          (fun x hx q hq' => hq x (by simp [hx]) q (by rw [← hset x (by rintro rfl; exact hnp hx)]; exact hq')) hr
        have hqi' : ∀ l : List PRef, (∀ x ∈ l, x ∈ ps) → l.map (qint (h.set p { h p with balance := some bal1.copy })) = l.map (qint h) := by
          intro l hl
          apply List.map_congr_left
          intro x hx
          unfold qint; rw [hset x (by rintro rfl; exact hnp (hl _ hx))]
        have hbal1 : bal1.int = bal.int + qint h p := by rw [← hb1, hqi]
        refine ⟨?_, ?_, ?_, ?_⟩
        · rw [h1, hqi' ps (fun x hx => hx), hbal1]; simp [add_assoc]
        · intro l1 x l2 e hx
          cases l1 with
          | nil =>
            simp only [List.nil_append, List.cons.injEq] at e
            obtain ⟨rfl, rfl⟩ := e
            rw [hfr.2.2.1 p hnp]
            simp only [Heap.set, if_true, Amount.copy, List.nil_append, List.map_cons, List.map_nil, List.sum_cons, List.sum_nil, add_zero]
            rw [hbal1, ← hb1, hbc]
          | cons y l1 =>
            simp only [List.cons_append, List.cons.injEq] at e
            obtain ⟨rfl, rfl⟩ := e
            have hxp : x ≠ p := by rintro rfl; exact hnp (by simp)
            have := h2 l1 x l2 rfl (by rw [hset x hxp]; exact hx)
            rw [this, hqi' _ (by intro z hz; simp at hz ⊢; tauto), hbal1]
            simp only [List.cons_append, List.map_cons, List.sum_cons, add_assoc]
        · intro l1 x l2 e b' hx hd
          cases l1 with
          | nil =>
            simp only [List.nil_append, List.cons.injEq] at e
            obtain ⟨rfl, rfl⟩ := e
            rw [hb] at hx; simp at hx
          | cons y l1 =>
            simp only [List.cons_append, List.cons.injEq] at e
            obtain ⟨rfl, rfl⟩ := e
            have hxp : x ≠ p := by rintro rfl; exact hnp (by simp)
            rw [h3 l1 x l2 rfl b' (by rw [hset x hxp]; exact hx) hd, hqi' _ (by intro z hz; simp at hz ⊢; tauto), hbal1]
            simp only [List.cons_append, List.map_cons, List.sum_cons, add_assoc]
        · intro x hx
          have hxp : x ≠ p := by
            rintro rfl; exact hnp (hfr.2.2.2.2.subset hx)
          obtain ⟨b', hb'⟩ := h4 x hx
          rw [hset x hxp] at hb'; exact ⟨b', hb'⟩
      · rw [hb] at hr
        simp only [bind_ok] at hr
        obtain ⟨eq, heq, r, hr1, hr2⟩ := hr
        obtain ⟨rh, rb, rw'⟩ := r
        injection hr2 with hr2
        simp only [Prod.mk.injEq] at hr2
        obtain ⟨rfl, rfl, rfl⟩ := hr2
        have hfr := checkLoop_frame ps hr1
        obtain ⟨h1, h2, h3, h4⟩ := ih (by rw [← hb1]; exact hbc) hn' (fun x hx => hq x (by simp [hx])) hr1
        have hbal1 : bal1.int = bal.int + qint h p := by rw [← hb1, hqi]
        refine ⟨?_, ?_, ?_, ?_⟩
        · rw [h1, hbal1]; simp [add_assoc]
        · intro l1 x l2 e hx
          cases l1 with
          | nil =>
            simp only [List.nil_append, List.cons.injEq] at e
            obtain ⟨rfl, rfl⟩ := e
            rw [hb] at hx; simp at hx
          | cons y l1 =>
            simp only [List.cons_append, List.cons.injEq] at e
            obtain ⟨rfl, rfl⟩ := e
            rw [h2 l1 x l2 rfl hx, hbal1]
            simp only [List.cons_append, List.map_cons, List.sum_cons, add_assoc]
        · intro l1 x l2 e b' hx hd
          have hpw : p ∉ rw' := fun hm => hnp (hfr.2.2.2.2.subset hm)
          cases l1 with
          | nil =>
            simp only [List.nil_append, List.cons.injEq] at e
            obtain ⟨rfl, rfl⟩ := e
            rw [hb] at hx; injection hx with hx; subst hx
            rw [isEqual_same bal1 b (by rw [← hb1]; simp only; rw [hbc]; exact hd.symm)] at heq
            injection heq with heq
            simp only [List.nil_append, List.map_cons, List.map_nil, List.sum_cons, List.sum_nil, add_zero]
            rw [← hbal1]
            by_cases hbb : bal1.int = b.int
            · simp only [hbb, decide_true] at heq
              rw [← heq]
              simp [hpw, hbb]
            · simp only [hbb, decide_false] at heq
              rw [← heq]
              simp only [Bool.false_eq_true, if_false, List.mem_cons, true_or, true_iff]
              exact fun e => hbb e.symm
          | cons y l1 =>
            simp only [List.cons_append, List.cons.injEq] at e
            obtain ⟨rfl, rfl⟩ := e
            have hxp : x ≠ p := by rintro rfl; exact hnp (by simp)
            have hiff := h3 l1 x l2 rfl b' hx hd
            have hw : x ∈ (if eq = true then rw' else p :: rw') ↔ x ∈ rw' := by
              split
              · rfl
              · simp [hxp]
            rw [hw, hiff, hbal1]
            simp only [List.cons_append, List.map_cons, List.sum_cons, add_assoc]
        · intro x hx
          split at hx
          · exact h4 x hx
          · rcases List.mem_cons.mp hx with rfl | hx
            · exact ⟨b, hb⟩
            · exact h4 x hx

/-- `checkLoop` cannot fail on a single-commodity list. -/
theorem checkLoop_total {env : Env} {h : Heap} {bal : Amount} (c : Com) (hbc : bal.com = c) (ps : List PRef) (hn : ps.Nodup)
    (hq : ∀ p ∈ ps, ∃ q, (h p).quantity = some q ∧ q.com = c)
    (hb : ∀ p ∈ ps, ∀ b, (h p).balance = some b → b.com.decimals = c.decimals) :
    ∃ r, checkLoop env h bal ps = .ok r := by
  induction ps generalizing h bal with
  | nil => exact ⟨_, rfl⟩
  | cons p ps ih =>
    obtain ⟨hnp, hn'⟩ := List.nodup_cons.mp hn
    obtain ⟨q, hqp, hqc⟩ := hq p (by simp)
    unfold checkLoop
    rw [hqp]
    simp only
    rw [addIn_same env.conv bal q (by rw [hbc, hqc])]
    simp only [checkNoError, Except.bind]
    rcases hbp : (h p).balance with _ | b
    · simp only
      have hset : ∀ d x, x ≠ p → h.set p d x = h x := fun d x hx => by simp [Heap.set, hx]
      refine ih hbc hn' ?_ ?_
      · intro x hx
        rw [hset _ x (by rintro rfl; exact hnp hx)]; exact hq x (by simp [hx])
      · intro x hx
        rw [hset _ x (by rintro rfl; exact hnp hx)]; exact hb x (by simp [hx])
    · simp only
      rw [isEqual_same _ _ (by simp only; rw [hbc]; exact (hb p (by simp) b hbp).symm)]
      obtain ⟨r, hr⟩ := ih (h := h) (bal := ⟨bal.int + q.int, bal.com⟩) hbc hn' (fun x hx => hq x (by simp [hx])) (fun x hx => hb x (by simp [hx]))
      simp only [hr]
      exact ⟨_, rfl⟩

/-- Everything about the second phase. -/
theorem checkAll_spec {env : Env} {st fin : Loaded} (order : List Str) (hnd : order.Nodup)
    (hsorted : ∀ a, SortedBy (fun p => (st.heap p).posted) (st.books.postings a))
    (hown : ∀ a b p, p ∈ st.books.postings a → p ∈ st.books.postings b → a = b)
    (hr : checkAll env st order = .ok fin) :
    fin.books.postings = st.books.postings ∧ fin.books.account = st.books.account ∧ SameStatic st.heap fin.heap ∧
    (∀ p, (fin.heap p).quantity = (st.heap p).quantity) ∧
    (∀ p b, (st.heap p).balance = some b → (fin.heap p).balance = some b) ∧
    (∀ p, (∀ a ∈ order, p ∉ st.books.postings a) → fin.heap p = st.heap p ∧ (p ∈ fin.warnings ↔ p ∈ st.warnings)) ∧
    (∀ a, a ∉ order → fin.balance a = st.balance a) ∧
    (∀ a ∈ order, ∃ h h' w, checkLoop env h (zeroAmount (env.comOf a)) (st.books.postings a) = .ok (h', fin.balance a, w) ∧
      (∀ p ∈ st.books.postings a, h p = st.heap p ∧ h' p = fin.heap p ∧ (p ∈ fin.warnings ↔ p ∈ st.warnings ∨ p ∈ w))) := by
  induction order generalizing st with
  | nil =>
    simp only [checkAll, Except.ok.injEq] at hr; subst hr
    exact ⟨rfl, rfl, SameStatic.refl _, fun _ => rfl, fun _ _ h => h, fun _ _ => ⟨rfl, Iff.rfl⟩, fun _ _ => rfl, by simp⟩
  | cons a rest ih =>
    obtain ⟨hna, hnd'⟩ := List.nodup_cons.mp hnd
    simp only [checkAll, bind_ok] at hr
    obtain ⟨⟨h1, bal1, w1⟩, hc, hr⟩ := hr
    rw [sortPostings_id _ _ (hsorted a)] at hc hr
    have hfr := checkLoop_frame _ hc
    have hpost : (st.books.setPostings a (st.books.postings a)).postings = st.books.postings := by
      funext x; simp only [Books.setPostings]; split
      · rename_i e; rw [e]
      · rfl
    have hacc : (st.books.setPostings a (st.books.postings a)).account = st.books.account := rfl
    obtain ⟨g1, g2, g3, g4, g5, g6, g7, g8⟩ := ih hnd'
      (by intro x; simp only [hpost]; have e : (fun p => (h1 p).posted) = fun p => (st.heap p).posted := by
            funext p; exact (hfr.2.1 p).1
          rw [e]; exact hsorted x)
      (by simp only [hpost]; exact hown) hr
    simp only [hpost] at g1 g6 g8
    have hnot : ∀ p ∈ st.books.postings a, ∀ b ∈ rest, p ∉ st.books.postings b := by
      intro p hp b hb hpb
      have := hown a b p hp hpb
      subst this; exact hna hb
    refine ⟨g1, g2, hfr.2.1.trans g3, fun p => (g4 p).trans (hfr.1 p), ?_, ?_, ?_, ?_⟩
    · intro p b hb
      apply g5
      have := hfr.2.2.2.1 p b hb
      simp only [this]; exact hb
    · intro p hp
      obtain ⟨e1, e2⟩ := g6 p (fun b hb => hp b (by simp [hb]))
      have hpa : p ∉ st.books.postings a := hp a (by simp)
      refine ⟨e1.trans (hfr.2.2.1 p hpa), ?_⟩
      rw [e2, List.mem_append]
      constructor
      · rintro (h | h)
        · exact h
        · exact absurd (hfr.2.2.2.2.subset h) hpa
      · exact .inl
    · intro x hx
      rw [List.mem_cons, not_or] at hx
      rw [g7 x hx.2]; simp [hx.1]
    · intro x hx
      rcases List.mem_cons.mp hx with rfl | hx
      · refine ⟨st.heap, h1, w1, ?_, ?_⟩
        · rw [g7 x hna]; simpa using hc
        · intro p hp
          obtain ⟨e1, e2⟩ := g6 p (fun b hb => hnot p hp b hb)
          refine ⟨rfl, e1.symm, ?_⟩
          rw [e2, List.mem_append]
      · obtain ⟨h, h', w, e, hh⟩ := g8 x hx
        refine ⟨h, h', w, e, ?_⟩
        intro p hp
        obtain ⟨e1, e2, e3⟩ := hh p hp
        have hpa : p ∉ st.books.postings a := by
          intro hpa
          have := hown a x p hpa hp
          subst this; exact hna hx
        refine ⟨e1.trans (hfr.2.2.1 p hpa), e2, ?_⟩
        rw [e3, List.mem_append]
        constructor
        · rintro ((h | h) | h)
          · exact .inl h
          · exact absurd (hfr.2.2.2.2.subset h) hpa
          · exact .inr h
        · rintro (h | h)
          · exact .inl (.inl h)
          · exact .inr h

theorem mapM_ok {α β} (f : α → Except Fault β) (l : List α) (r : List β) :
    l.mapM f = .ok r ↔ List.Forall₂ (fun a b => f a = .ok b) l r := by
  induction l generalizing r with
  | nil =>
    simp only [List.mapM_nil, pure, Except.pure, Except.ok.injEq, List.forall₂_nil_left_iff]
    exact eq_comm
  | cons a l ih =>
    rw [List.mapM_cons]
    cases ha : f a with
    | error e => simp [bind, Except.bind, List.forall₂_cons_left_iff, ha]
    | ok b =>
      cases hl : l.mapM f with
      | error e =>
        simp only [bind, Except.bind, List.forall₂_cons_left_iff, ha]
        constructor
        · intro h; simp at h
        · rintro ⟨b', u', _, h, rfl⟩
          have := (ih u').mpr h; rw [hl] at this; simp at this
      | ok bs =>
        simp only [bind, Except.bind, pure, Except.pure, Except.ok.injEq, List.forall₂_cons_left_iff, ha]
        constructor
        · rintro rfl; exact ⟨b, bs, rfl, (ih bs).mp hl, rfl⟩
        · rintro ⟨b', u', rfl, h, rfl⟩
          have := (ih u').mpr h; rw [hl] at this; injection this with this; rw [this]

theorem mapM_total {α β} (f : α → Except Fault β) (l : List α) (h : ∀ a ∈ l, ∃ b, f a = .ok b) : ∃ r, l.mapM f = .ok r := by
  induction l with
  | nil => exact ⟨[], rfl⟩
  | cons a l ih =>
    obtain ⟨b, hb⟩ := h a (by simp)
    obtain ⟨r, hr⟩ := ih (fun x hx => h x (by simp [hx]))
    exact ⟨b :: r, by rw [List.mapM_cons, hb, hr]; rfl⟩

theorem mapM_eq {α β} (f : α → Except Fault β) (g : α → β) (l : List α) (h : ∀ a ∈ l, f a = .ok (g a)) : l.mapM f = .ok (l.map g) := by
  induction l with
  | nil => rfl
  | cons a l ih =>
    rw [List.mapM_cons, h a (by simp), ih (fun x hx => h x (by simp [hx]))]; rfl

end Verif
