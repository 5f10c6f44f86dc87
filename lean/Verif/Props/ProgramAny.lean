import Verif.Props.Program
import Mathlib.Data.List.Perm.Basic
/-
C156 over any commodities, and C157: the register command from the files to its output.
-/
namespace Verif

/-! ## Specification -/

/-- The name or pattern `x` means the account `a`. -/
def Means (names : List Str) (x a : Str) : Prop := mustFindAccount names (patternMatches x) x = .ok a

/-- Conversion by the prices of the files. -/
def Rates (st : LoadState) (conv : Conv) : Prop :=
  ∃ items db ord fuel, (st.items.filterMap itemPrice).mapM st.price = .ok items ∧ IsResolved items db ∧ MapOrder.Valid ord db ∧
    (∀ c x, (convert db ord c x x.com fuel).isSome = true) ∧ conv = convWith db ord fuel

/-- The amount a posting is booked with: the one written, or, if none is written, the one that balances the transaction, whose accounts
are then all in one commodity. -/
inductive AmountOf (names : List Str) (comOf : Str → Com) (conv : Conv) (t : PTxn) (p : PPost) (q : Amount) : Prop
  | stated : p.quantity = some q → AmountOf names comOf conv t p q
  | missing : p.quantity = none → (∀ p' ∈ t.postings, ∀ a, Means names p'.account a → comOf a = q.com) →
      SumOf conv q.com (t.postings.filterMap (·.quantity)) (-q.int) → AmountOf names comOf conv t p q

/-- A posting of a transaction in the files passes the filters of the register, where `-p !x` selects what does not match `x`. -/
def RegPicks (compile : Compile) (f : Filters) (t : PTxn) (p : PPost) : Prop :=
  (∀ b ∈ f.begin_, b ≤ t.posted) ∧ (∀ e ∈ f.end_, t.posted < e) ∧
  (f.payee ≠ [] → PayeeMatch compile f.payee t.description) ∧
  (f.tag ≠ [] → TagSelects compile f.tag (parseTags p.notes) ∨ TagSelects compile f.tag (parseTags t.notes))

open Classical in
/-- The postings whose account name means `a` and that pass the filters of the register. -/
noncomputable def regBooked (names : List Str) (compile : Compile) (f : Filters) (ts : List PTxn) (a : Str) : List (PTxn × PPost) :=
  (allPostings ts).filter fun e => decide (Means names e.2.account a ∧ RegPicks compile f e.1 e.2)

/-- An entry of the register. -/
structure Entry where
  txn : PTxn
  post : PPost
  acct : Str
  other : Str
  amount : Amount
  total : Amount

/-- The account and the amount of the entry's posting, and the account of the first other posting of its transaction. -/
structure Entry.Of (names : List Str) (comOf : Str → Com) (conv : Conv) (e : Entry) : Prop where
  acct : Means names e.post.account e.acct
  other : ∃ before after p', e.txn.postings = before ++ e.post :: after ∧ (before ++ after).head? = some p' ∧ Means names p'.account e.other
  amount : AmountOf names comOf conv e.txn e.post e.amount

/-- `line` shows the entry: date, description, with `-r` the posting's account, the other account (both without the prefix `pre` and
shortened to `width`), amount, running total, commodity, `*` when the posting asserts a balance, with `-f` a location. -/
def EntryLine (comOf : Str → Com) (pre : Str) (width : Int) (long location : Bool) (e : Entry) (line : Str) : Prop :=
  ∃ q t desc acct oacct qty tot loc, e.amount.string = .ok q ∧ e.total.string = .ok t ∧
    Padded e.txn.description desc ∧ Padded (shortenAccountName (trimPrefix e.acct pre) width) acct ∧
    Padded (shortenAccountName (trimPrefix e.other pre) width) oacct ∧ Padded q qty ∧ Padded t tot ∧
    line = formatDate e.txn.posted ++ str " | " ++ desc ++ (if long then str " | " ++ acct else []) ++ str " | " ++ oacct ++
      str " | " ++ qty ++ str " | " ++ tot ++ str " " ++ (comOf e.acct).id ++ [if e.post.balance.isSome then '*' else ' '] ++
      (if location then str "| " ++ loc else [])

/-- With `-n` the notes of the posting and of its transaction, indented. -/
def entryNotes (notes : Bool) (e : Entry) : List Str :=
  if notes then (e.post.notes ++ e.txn.notes).map (fun n => rep (formatDate e.txn.posted).length ' ' ++ str " ; " ++ n) else []

/-! ## The ledger -/

theorem laid_stated {heap : Heap} {t' : Txn} {t : PTxn} (hl : Laid heap t' t) : stated heap t'.postings = t.postings.filterMap (·.quantity) := by
  have h3 := hl.2.2.2
  unfold stated
  generalize t'.postings = rs at h3
  generalize t.postings = ps at h3
  induction h3 with
  | nil => rfl
  | cons hab _ ih => rw [List.filterMap_cons, List.filterMap_cons, ih, hab]; rfl

theorem loaded_quantity {env : Env} {ts : List PTxn} {walk : List Str} {fin : Loaded} {sorted : List Txn} (hw : walk.Nodup)
    (h : resolveTransactions env (heapOf ts) (txnsFrom 0 ts) walk = .ok (fin, sorted)) {names : List Str}
    (hn : ∀ x, env.find x = mustFindAccount names (patternMatches x) x) {r : PRef} {e : PTxn × PPost}
    (hr : Stands (heapOf ts) (txnsFrom 0 ts) r e) :
    ∃ q, (fin.heap r).quantity = some q ∧ AmountOf names env.comOf env.conv e.1 e.2 q := by
  obtain ⟨t, p⟩ := e
  obtain ⟨e1, t', ht', hrt, hl⟩ := hr
  have hp := heapOf_parsed ts
  obtain ⟨st, h1, h2, _⟩ := load_parts h
  have hqf := (phase2 hp hw h1 h2).2.2.2.1
  obtain ⟨hacc, _, _, _, _, hkeep, hel⟩ := phase1 hp h1
  have eq : ((heapOf ts) r).quantity = p.quantity := by rw [e1]; rfl
  cases hpq : p.quantity with
  | some q =>
    rw [hpq] at eq
    rw [hqf, hkeep r q eq]
    exact ⟨q, rfl, .stated hpq⟩
  | none =>
    rw [hpq] at eq
    have hmem : r ∈ elided (heapOf ts) t'.postings := by simp [elided, hrt, eq]
    have hsh : ∃ c, SharesCommodity env (heapOf ts) t' c := by
      by_contra hno
      rw [(hacc t' ht').2.1 hno] at hmem
      cases hmem
    obtain ⟨c, hc⟩ := hsh
    have hlen := ((hacc t' ht').2.2 c (by intro h0; rw [h0] at hrt; simp at hrt) hc).1
    have hsing : elided (heapOf ts) t'.postings = [r] := by
      rcases hels : elided (heapOf ts) t'.postings with _ | ⟨x, l⟩
      · rw [hels] at hmem; simp at hmem
      · rw [hels] at hlen hmem
        have : l = [] := by simpa using hlen
        subst this; simp at hmem; rw [hmem]
    obtain ⟨T, g1, g2⟩ := hel t' ht' r hsing c hc
    obtain ⟨k1, n, k2, k3⟩ := sumInto_sumOf g1
    have k1 : T.com = c := k1
    have k3 : T.int = n := by simpa [zeroAmount] using k3
    have k2 : SumOf env.conv c (stated (heapOf ts) t'.postings) n := k2
    rw [laid_stated hl] at k2
    rw [hqf, g2]
    refine ⟨T.negated, rfl, .missing hpq ?_ ?_⟩
    · intro p' hp' a ha
      obtain ⟨r', hr', e'⟩ := forall2_mem_right hl.2.2.2 p' hp'
      have := hc r' hr' a (by unfold accountOf; rw [e']; exact (hn _).trans ha)
      rw [this]; exact k1.symm
    · show SumOf env.conv T.com _ (- -T.int)
      rw [k1, neg_neg, k3]; exact k2

theorem loaded_amount {env : Env} {ts : List PTxn} {walk : List Str} {fin : Loaded} {sorted : List Txn} (hw : walk.Nodup)
    (h : resolveTransactions env (heapOf ts) (txnsFrom 0 ts) walk = .ok (fin, sorted)) {names : List Str}
    (hn : ∀ x, env.find x = mustFindAccount names (patternMatches x) x) {r : PRef} {e : PTxn × PPost}
    (hr : Stands (heapOf ts) (txnsFrom 0 ts) r e) :
    AmountOf names env.comOf env.conv e.1 e.2 ((fin.heap r).quantity.getD default) := by
  obtain ⟨q, h1, h2⟩ := loaded_quantity hw h hn hr
  rw [h1]; exact h2

/-- The postings of an account in a loaded ledger. -/
theorem loaded_posts {env : Env} {ts : List PTxn} {walk : List Str} {fin : Loaded} {sorted : List Txn} (hw : walk.Nodup)
    (h : resolveTransactions env (heapOf ts) (txnsFrom 0 ts) walk = .ok (fin, sorted)) (a : Str) (S : PRef → Prop) (K : PTxn × PPost → Prop)
    (hSK : ∀ r e, Stands (heapOf ts) (txnsFrom 0 ts) r e → (S r ↔ K e)) :
    ∃ rs, ((fin.books.postings a).filter (by classical exact fun r => decide (S r))).Perm rs ∧
      List.Forall₂ (Stands (heapOf ts) (txnsFrom 0 ts)) rs
        ((allPostings ts).filter (by classical exact fun e => decide (env.find e.2.account = .ok a ∧ K e))) := by
  classical
  have hp := heapOf_parsed ts
  obtain ⟨st, h1, h2, _⟩ := load_parts h
  obtain ⟨_, hb, hs1, _⟩ := phase1 hp h1
  obtain ⟨g1, _, g3, _⟩ := phase2 hp hw h1 h2
  refine ⟨((txnsFrom 0 ts).flatMap (·.postings)).filter (fun r => decide (accountOf env (heapOf ts) r = .ok a ∧ S r)), ?_, ?_⟩
  · apply (List.perm_ext_iff_of_nodup ?_ ?_).mpr
    · intro r
      rw [List.mem_filter, List.mem_filter, g1, hb.mem]
      simp only [List.nil_append, decide_eq_true_eq]
      tauto
    · rw [g1]; exact (hb.nodup a).filter _
    · exact hp.nodup.filter _
  · refine forall2_filter (stands_all ts) ?_
    rintro r ⟨t, p⟩ hr hst
    rw [decide_eq_decide, hSK r (t, p) hst]
    unfold accountOf
    rw [hst.1]
    rfl

/-- What is shown of a posting. -/
theorem loaded_shown {env : Env} {ts : List PTxn} {walk : List Str} {fin : Loaded} {sorted : List Txn} (hw : walk.Nodup)
    (h : resolveTransactions env (heapOf ts) (txnsFrom 0 ts) walk = .ok (fin, sorted)) {r : PRef} {e : PTxn × PPost}
    (hr : Stands (heapOf ts) (txnsFrom 0 ts) r e) :
    (fin.heap r).posted = e.1.posted ∧ (fin.heap r).asserted = e.2.balance.isSome ∧ (fin.heap r).notes = e.2.notes ∧
    (∃ t', txnOf (txnsFrom 0 ts) r = some t' ∧ Laid (heapOf ts) t' e.1 ∧ t' ∈ txnsFrom 0 ts ∧ r ∈ t'.postings) ∧
    ∃ a, fin.books.account r = some a ∧ env.find e.2.account = .ok a := by
  obtain ⟨t, p⟩ := e
  obtain ⟨e1, t', ht', hrt, hl⟩ := hr
  have hp := heapOf_parsed ts
  obtain ⟨st, h1, h2, _⟩ := load_parts h
  obtain ⟨_, hb, hs1, _⟩ := phase1 hp h1
  obtain ⟨g1, ga, g3, _⟩ := phase2 hp hw h1 h2
  refine ⟨?_, ?_, ?_, ⟨t', txnOf_unique hp.nodup ht' hrt, hl, ht', hrt⟩, ?_⟩
  · rw [(g3 r).1, (hs1 r).1, e1]; rfl
  · rw [(g3 r).2.2.1, (hs1 r).2.2.1, e1]; rfl
  · rw [(g3 r).2.2.2, (hs1 r).2.2.2, e1]; rfl
  · obtain ⟨a, h3, h4⟩ := hb.account r (by simpa using List.mem_flatMap.mpr ⟨t', ht', hrt⟩)
    refine ⟨a, by rw [ga]; exact h4, ?_⟩
    unfold accountOf at h3
    rw [e1] at h3
    exact h3

/-! ## Lists -/

theorem forall2_join {α β γ : Type} {R : α → β → Prop} {S : α → γ → Prop} : ∀ {l : List α} {m : List β} {n : List γ}, List.Forall₂ R l m → List.Forall₂ S l n →
    List.Forall₂ (fun b c => ∃ a, R a b ∧ S a c) m n := by
  intro l m n h
  induction h generalizing n with
  | nil => intro h'; cases h'; exact .nil
  | cons hab _ ih =>
    intro h'
    cases h' with
    | cons hac h' => exact .cons ⟨_, hab, hac⟩ (ih h')

theorem forall2_lift {α β γ : Type} {R : α → β → Prop} {S : α → γ → Prop} {k : γ → β} : ∀ {l : List α} {m : List β}, List.Forall₂ R l m →
    (∀ a ∈ l, ∀ b ∈ m, R a b → ∃ c, S a c ∧ k c = b) → ∃ cs, List.Forall₂ S l cs ∧ cs.map k = m := by
  intro l m h
  induction h with
  | nil => intro _; exact ⟨[], .nil, rfl⟩
  | cons hab _ ih =>
    intro hf
    obtain ⟨c, h1, h2⟩ := hf _ (by simp) _ (by simp) hab
    obtain ⟨cs, h3, h4⟩ := ih fun a ha b hb => hf a (by simp [ha]) b (by simp [hb])
    exact ⟨c :: cs, .cons h1 h3, by rw [List.map_cons, h2, h4]⟩

theorem forall2_map {α β γ : Type} {S : α → β → Prop} {f : α → γ} {g : β → γ} : ∀ {l : List α} {m : List β}, List.Forall₂ S l m →
    (∀ a b, S a b → f a = g b) → l.map f = m.map g := by
  intro l m h
  induction h with
  | nil => intro _; rfl
  | cons hab _ ih => intro hf; rw [List.map_cons, List.map_cons, hf _ _ hab, ih hf]

/-- The element of the second list at a position of the first. -/
theorem forall2_split {α β : Type} {R : α → β → Prop} {a : α} : ∀ {l : List α} {m : List β}, List.Forall₂ R l m → a ∈ l →
    ∃ l1 l2 m1 b m2, l = l1 ++ a :: l2 ∧ m = m1 ++ b :: m2 ∧ R a b ∧ List.Forall₂ R l1 m1 ∧ List.Forall₂ R l2 m2 := by
  intro l m h
  induction h with
  | nil => intro h; cases h
  | @cons x y l m hab hlm ih =>
    intro ha
    rcases List.mem_cons.mp ha with rfl | ha
    · exact ⟨[], l, [], y, m, rfl, rfl, hab, .nil, hlm⟩
    · obtain ⟨l1, l2, m1, b, m2, rfl, rfl, h1, h2, h3⟩ := ih ha
      exact ⟨x :: l1, l2, y :: m1, b, m2, rfl, rfl, h1, .cons hab h2, h3⟩

theorem dataOf_inj {d d' : Int} {p p' : PPost} (h : dataOf d p = dataOf d' p') : p = p' := by
  unfold dataOf at h
  obtain ⟨a, b, c, n⟩ := p
  obtain ⟨a', b', c', n'⟩ := p'
  injection h with _ h2 h3 h4 _ h6
  simp only at h2 h3 h4 h6
  subst h2 h3 h4 h6
  rfl

/-- The first other posting of a transaction. -/
theorem other_first {heap : Heap} {t' : Txn} {t : PTxn} (hl : Laid heap t' t) (hn : t'.postings.Nodup) {r q : PRef} {p : PPost} (hr : r ∈ t'.postings)
    (hp : heap r = dataOf t.posted p) (ho : other t'.postings r = some q) :
    ∃ before after p', t.postings = before ++ p :: after ∧ (before ++ after).head? = some p' ∧ heap q = dataOf t.posted p' ∧ q ∈ t'.postings := by
  have hmem : q ∈ t'.postings := List.mem_of_find?_eq_some ho
  obtain ⟨l1, l2, m1, b, m2, e1, e2, h1, h2, h3⟩ := forall2_split hl.2.2.2 hr
  have : b = p := dataOf_inj (h1.symm.trans hp)
  subst this
  refine ⟨m1, m2, ?_⟩
  unfold other at ho
  rw [e1] at ho hn
  cases h2 with
  | nil =>
    rw [List.nil_append, List.find?_cons] at ho
    simp only [ne_eq, not_true_eq_false, decide_false] at ho
    cases h3 with
    | nil => cases ho
    | @cons x y l2 m2 hxy h3 =>
      have : x ≠ r := by
        rintro rfl
        simp at hn
      rw [List.find?_cons] at ho
      simp only [ne_eq, this, not_false_eq_true, decide_true] at ho
      injection ho with ho
      subst ho
      exact ⟨y, e2, rfl, hxy, hmem⟩
  | @cons x y l1 m1 hxy h2 =>
    have : x ≠ r := by
      rintro rfl
      simp at hn
    rw [List.cons_append, List.find?_cons] at ho
    simp only [ne_eq, this, not_false_eq_true, decide_true] at ho
    injection ho with ho
    subst ho
    exact ⟨y, e2, rfl, hxy, hmem⟩

theorem printRows_other {conv : Conv} {v : View} {siblings : PRef → List PRef} {c : Com} {ps : List PRef} {rows : List (PRef × PRef × Amount)}
    (h : printRows conv v siblings c ps = .ok rows) : ∀ row ∈ rows, other (siblings row.1) row.1 = some row.2.1 := by
  unfold printRows at h
  split at h
  · cases h
  · rename_i hany
    obtain ⟨ts, hts, h⟩ := bind_ok.mp h
    injection h with h
    subst h
    intro row hrow
    obtain ⟨⟨p, t⟩, he, rfl⟩ := List.mem_map.mp hrow
    have hp : p ∈ ps := (List.of_mem_zip he).1
    cases ho : other (siblings p) p with
    | none => exact absurd (List.any_eq_true.mpr ⟨p, hp, by rw [ho]; rfl⟩) hany
    | some q => rfl

theorem fullRegister_other {env : Env} {compile : Compile} {v : View} {siblings : PRef → List PRef} {L : Links} {fuel : Nat} {f : Filters} {recurse : Bool} {acc : Str}
    {rows : List (PRef × PRef × Amount)} (h : fullRegister env compile v siblings L fuel f recurse acc = .ok rows) :
    ∀ row ∈ rows, other (siblings row.1) row.1 = some row.2.1 := by
  unfold fullRegister at h
  split at h
  · obtain ⟨_, _, h⟩ := bind_ok.mp h; exact printRows_other h
  · obtain ⟨_, _, h⟩ := bind_ok.mp h; exact printRows_other h

/-! ## C157 -/

/-- What the register shows is the entry `e`. -/
structure RowShows (st : LoadState) (names : List Str) (comOf : Str → Com) (g : LedgerView) (row : PRef × PRef × Amount) (e : Entry) : Prop where
  of : e.Of names comOf g.env.conv
  date : g.view.date row.1 = e.txn.posted
  payee : g.view.payee row.1 = e.txn.description
  qty : g.view.qty row.1 = e.amount
  total : row.2.2 = e.total
  acct : g.print.account row.1 = e.acct
  other : g.print.account row.2.1 = e.other
  asserted : g.print.asserted row.1 = e.post.balance.isSome
  notes : g.print.notes row.1 = e.post.notes
  txnNotes : g.print.txnNotes row.1 = e.txn.notes

/-- The rows of the register of a loaded ledger. -/
theorem opened_register {P : Install} {compile : Compile} {st : LoadState} {accts : List Acct} {g : LedgerView} (hO : Opened P compile st accts g)
    (f : Filters) (hv : RegValid compile f) (recurse : Bool) (hbang : recurse = true → NoBang f.payee) {r : Str} (hr : r ∈ accts.map (·.fullName))
    {rows : List (PRef × PRef × Amount)} (hrun : fullRegister g.env g.compile g.view g.siblings g.links g.fuel f recurse r = .ok rows) :
    Rates st g.env.conv ∧ g.env.comOf = st.comOf accts ∧
    ∃ entries : List Entry, List.Forall₂ (RowShows st (accts.map (·.fullName)) (st.comOf accts) g) rows entries ∧
      (entries.map fun e => (e.txn, e.post)).Perm
        ((if recurse then familyOf (accts.map (·.fullName)) r else [r]).flatMap (regBooked (accts.map (·.fullName)) compile f st.txns)) ∧
      entries.Pairwise (fun x y => x.txn.posted ≤ y.txn.posted) ∧
      ∀ (i : Nat) (hi : i < entries.length), entries[i].total.com = st.comOf accts r ∧
        SumOf g.env.conv (st.comOf accts r) ((entries.take (i + 1)).map (·.amount)) entries[i].total.int := by
  classical
  obtain ⟨hl, items, db, ord, fuel, L, walk, fin, sorted, bound, location, order, hi1, hi2, hi3, hi4, hA, hsome, hwalk, hres, hbound, rfl⟩ := hO
  obtain ⟨hn, _, _, _, hroot⟩ := resolved_spec _ _ _ _ hA
  have hw : walk.Nodup := hwalk.nodup_iff.mpr hn
  have hp := heapOf_parsed st.txns
  refine ⟨⟨items, db, ord, fuel, hi1, hi2, hi3, hi4, rfl⟩, rfl, ?_⟩
  set env := Env.ofAccounts accts (st.comOf accts) patternMatches (convWith db ord fuel) with henv
  have hfuel : treeFuel (accts.map (·.fullName)) ≤ bound := by
    have hne : ∃ x, x ∈ accts.map (·.fullName) := ⟨_, hroot⟩
    exact treeFuel_le hne (by intro x hx; obtain ⟨a, ha, rfl⟩ := List.mem_map.mp hx; exact hbound a ha)
  have hsort : ∀ a ∈ accts.map (·.fullName), InDateOrder (viewOf (fun n => (parseTags n).toTags) fin (txnsFrom 0 st.txns)).date
      ((viewOf (fun n => (parseTags n).toTags) fin (txnsFrom 0 st.txns)).postings a) := by
    intro a _
    obtain ⟨st', h1, h2, _⟩ := load_parts hres
    obtain ⟨_, hb, hs1, _⟩ := phase1 hp h1
    obtain ⟨g1, _, g3, _⟩ := phase2 hp hw h1 h2
    show InDateOrder (fun p => (fin.heap p).posted) (fin.books.postings a)
    rw [g1]
    have hd : ∀ p, (fin.heap p).posted = (heapOf st.txns p).posted := fun p => ((g3 p).1).trans (hs1 p).1
    unfold InDateOrder
    simp only [hd]
    exact hb.sorted a
  have hrun : fullRegister env compile (viewOf (fun n => (parseTags n).toTags) fin (txnsFrom 0 st.txns)) (siblingsOf (txnsFrom 0 st.txns)) L bound f recurse r = .ok rows := hrun
  obtain ⟨k1, k2, k3⟩ := C146_register_converts hA env compile _ _ f hv bound recurse r hr hsort hfuel hbang rows hrun
  have hoth := fullRegister_other hrun
  set v := viewOf (fun n => (parseTags n).toTags) fin (txnsFrom 0 st.txns) with hvdef
  -- the postings selected
  have hsel : ∀ a, ∃ rs, (regSelectedOf compile v f a).Perm rs ∧
      List.Forall₂ (Stands (heapOf st.txns) (txnsFrom 0 st.txns)) rs (regBooked (accts.map (·.fullName)) compile f st.txns a) := by
    intro a
    obtain ⟨rs, h1, h2⟩ := loaded_posts hw hres a (fun r => RegSelected compile v f r) (fun e => RegPicks compile f e.1 e.2) (by
      rintro r ⟨t, p⟩ hst
      obtain ⟨s1, s2, s3, ⟨t', s4, s5, _⟩, _⟩ := loaded_shown hw hres hst
      unfold RegSelected RegPicks
      simp only [hvdef, viewOf, s4, Option.map_some, Option.getD_some, s1, s3, s5.2.1, s5.2.2.1, toTags_getD])
    refine ⟨rs, ?_, ?_⟩
    · unfold regSelectedOf; exact h1
    · unfold regBooked Means; convert h2; rfl
  have hall : ∀ as : List Str, ∃ rs, (as.flatMap (regSelectedOf compile v f)).Perm rs ∧
      List.Forall₂ (Stands (heapOf st.txns) (txnsFrom 0 st.txns)) rs (as.flatMap (regBooked (accts.map (·.fullName)) compile f st.txns)) := by
    intro as
    induction as with
    | nil => exact ⟨[], .refl _, .nil⟩
    | cons a as ih =>
      obtain ⟨rs1, h1, h2⟩ := hsel a
      obtain ⟨rs2, h3, h4⟩ := ih
      exact ⟨rs1 ++ rs2, by rw [List.flatMap_cons]; exact h1.append h3, by rw [List.flatMap_cons]; exact List.rel_append h2 h4⟩
  obtain ⟨rs, h1, h2⟩ := hall (if recurse then familyOf (accts.map (·.fullName)) r else [r])
  obtain ⟨es, h3, h4⟩ := List.perm_comp_forall₂ (k1.trans h1) h2
  rw [List.forall₂_map_left_iff] at h3
  obtain ⟨entries, h5, h6⟩ := forall2_lift (S := RowShows st (accts.map (·.fullName)) (st.comOf accts) (ledgerView env compile L fin (txnsFrom 0 st.txns) bound location order))
    (k := fun e : Entry => (e.txn, e.post)) h3 (by
      rintro row hrow ⟨t, p⟩ _ hst
      obtain ⟨s1, s2, s3, ⟨t', s4, s5, s6, s7⟩, a, s8, s9⟩ := loaded_shown hw hres hst
      have ho := hoth row hrow
      unfold siblingsOf at ho
      rw [s4] at ho
      have ho : other t'.postings row.1 = some row.2.1 := ho
      have hnt : t'.postings.Nodup := (List.nodup_flatMap.mp hp.nodup).1 t' s6
      obtain ⟨before, after, p', e1, e2, e3, e4⟩ := other_first s5 hnt s7 hst.1 ho
      have hst' : Stands (heapOf st.txns) (txnsFrom 0 st.txns) row.2.1 (t, p') := ⟨e3, t', s6, e4, s5⟩
      obtain ⟨_, _, _, _, a', u8, u9⟩ := loaded_shown hw hres hst'
      refine ⟨⟨t, p, a, a', v.qty row.1, row.2.2⟩, ⟨⟨s9, ⟨before, after, p', e1, e2, u9⟩, ?_⟩, s1, ?_, rfl, rfl, ?_, ?_, s2, s3, ?_⟩, rfl⟩
      · exact loaded_amount hw hres (fun _ => rfl) hst
      · show ((txnOf (txnsFrom 0 st.txns) row.1).map (·.description)).getD [] = t.description
        rw [s4]; exact s5.2.1
      · show (fin.books.account row.1).getD [] = a
        rw [s8]; rfl
      · show (fin.books.account row.2.1).getD [] = a'
        rw [u8]; rfl
      · show ((txnOf (txnsFrom 0 st.txns) row.1).map (·.notes)).getD [] = t.notes
        rw [s4]; exact s5.2.2.1)
  refine ⟨entries, h5, by rw [h6]; exact h4, ?_, ?_⟩
  · have e : rows.map (fun row => v.date row.1) = entries.map (fun e => e.txn.posted) := forall2_map h5 (fun _ _ h => h.date)
    have : (rows.map (fun row => v.date row.1)).Pairwise (· ≤ ·) := by
      rw [List.pairwise_map] at k2 ⊢
      exact k2
    rw [e, List.pairwise_map] at this
    exact this
  · intro i hi
    have hlen := h5.length_eq
    have e1 : rows.map (fun row => v.qty row.1) = entries.map (·.amount) := forall2_map h5 (fun _ _ h => h.qty)
    have e2 : rows.map (fun row => row.2.2) = entries.map (·.total) := forall2_map h5 (fun _ _ h => h.total)
    obtain ⟨g1, g2⟩ := k3 i (by omega)
    have e3 : rows[i].2.2 = entries[i].total := by
      have := List.getElem_of_eq e2 (i := i) (by simp; omega)
      simpa using this
    rw [List.map_take, e1, ← List.map_take, e3] at g2
    rw [e3] at g1
    exact ⟨g1, g2⟩

theorem zip_notes {st : LoadState} {names : List Str} {comOf : Str → Com} {g : LedgerView} {notes : Bool} : ∀ {rows : List (PRef × PRef × Amount)} {entries : List Entry},
    List.Forall₂ (RowShows st names comOf g) rows entries → ∀ ls : List Str,
    (rows.zip ls).flatMap (fun e => e.2 :: noteLines g.view g.print notes e.1.1) = (entries.zip ls).flatMap (fun e => e.2 :: entryNotes notes e.1) := by
  intro rows entries h
  induction h with
  | nil => intro ls; rfl
  | @cons row e rows entries hre _ ih =>
    intro ls
    cases ls with
    | nil => rfl
    | cons l ls =>
      rw [List.zip_cons_cons, List.zip_cons_cons, List.flatMap_cons, List.flatMap_cons, ih]
      congr 2
      unfold noteLines entryNotes
      rw [hre.notes, hre.txnNotes, hre.date]

/-- None of the flags that ask for an aggregated register. -/
def NotAggregated (l : List (Str × Str)) : Prop :=
  ∀ x ∈ [str "w", str "m", str "q", str "y", str "bp", str "bt"], boolFlag l x = false

/-- **C157** The register command from the files to its output, over any commodities: whenever it prints something, it prints a heading
(unless `-o` asks for another format) and one line, with `-n` followed by the notes, for every posting of the files whose account name means
the account asked for (with `-r` this account or one below) and that passes the filters, in date order, with the running total of the
amounts up to it. -/
theorem C157_register_of_files (P : Install) (compile : Compile) (st : LoadState) (accts : List Acct) (g : LedgerView) (hO : Opened P compile st accts g)
    (fe : FlagEnv) (w : Str) (l : List (Str × Str)) (toks : List (List Str)) (tail args : List Str) (hw : commandOf w = some .register)
    (hl : List.Forall₂ (Written fe (flagsOf .register)) l toks) (ht : Remaining tail args) (hna : NotAggregated l)
    (hv : RegValid compile (filtersOf fe l)) (hbang : boolFlag l (str "r") = true → NoBang (filtersOf fe l).payee)
    (out : Str) (hout : coinMain fe g (w :: (toks.flatten ++ tail)) = .ok out) :
    ∃ conv a rest r entries lines, Rates st conv ∧ args = a :: rest ∧ Means (accts.map (·.fullName)) a r ∧
      ((entries : List Entry).map fun e => (e.txn, e.post)).Perm
        ((if boolFlag l (str "r") then familyOf (accts.map (·.fullName)) r else [r]).flatMap
          (regBooked (accts.map (·.fullName)) compile (filtersOf fe l) st.txns)) ∧
      entries.Pairwise (fun x y => x.txn.posted ≤ y.txn.posted) ∧
      (∀ e ∈ entries, e.Of (accts.map (·.fullName)) (st.comOf accts) conv) ∧
      (∀ (i : Nat) (hi : i < entries.length), entries[i].total.com = st.comOf accts r ∧
        SumOf conv (st.comOf accts r) ((entries.take (i + 1)).map (·.amount)) entries[i].total.int) ∧
      List.Forall₂ (EntryLine (st.comOf accts) r (if fe.intFlag l (str "l") 12 = 0 then 15 else fe.intFlag l (str "l") 12) (boolFlag l (str "r")) (boolFlag l (str "f")))
        entries lines ∧
      out = textOf ((if textFlag l (str "o") (str "text") = str "text" then [r ++ ' ' :: (st.comOf accts r).id] else []) ++
        (entries.zip lines).flatMap (fun e => e.2 :: entryNotes (boolFlag l (str "n")) e.1)) := by
  have hnames : g.names = accts.map (·.fullName) ∧ g.matcher = patternMatches ∧ (accts.map (·.fullName)).Nodup := by
    obtain ⟨_, _, _, _, _, _, _, _, _, _, _, _, _, _, _, _, hA, _, _, _, _, rfl⟩ := hO
    exact ⟨rfl, rfl, (resolved_spec _ _ _ _ hA).1⟩
  unfold coinMain at hout
  rw [dispatch_written hw hl ht] at hout
  have hout : registerMain fe g l args = .ok out := hout
  unfold registerMain at hout
  cases args with
  | nil => cases hout
  | cons a rest =>
    simp only at hout
    have hper : flagPeriod l = none := by
      unfold flagPeriod
      rw [hna _ (by simp), hna _ (by simp), hna _ (by simp), hna _ (by simp)]; rfl
    have hcat : categoryOf g l = none := by
      unfold categoryOf
      rw [hna (str "bp") (by simp), hna (str "bt") (by simp)]; rfl
    rw [hna (str "bp") (by simp)] at hout
    rw [if_neg (by simp), hper, hcat] at hout
    obtain ⟨r, hr, hout⟩ := bind_ok.mp hout
    have hm : Means (accts.map (·.fullName)) a r := by
      unfold LedgerView.find at hr
      rw [hnames.1, hnames.2.1] at hr
      exact hr
    obtain ⟨body, hb, hout⟩ := bind_ok.mp hout
    simp only [Option.isSome_none, Bool.or_self, Bool.false_eq_true, if_false] at hb
    obtain ⟨ls, hfm, hb⟩ := bind_ok.mp hb
    injection hb with hb
    injection hout with hout
    unfold fullMain at hfm
    obtain ⟨rows, hrows, hpt⟩ := bind_ok.mp hfm
    obtain ⟨c1, c2, entries, h1, h2, h3, h4⟩ := opened_register hO (filtersOf fe l) hv (boolFlag l (str "r")) hbang (mustFind_mem hnames.2.2 hm) hrows
    have hro : registerOut g.env g.compile g.view g.print g.siblings g.links g.fuel (filtersOf fe l) (boolFlag l (str "r")) (boolFlag l (str "f")) (boolFlag l (str "n"))
        (fe.intFlag l (str "l") 12) r = .ok ((r ++ str " " ++ (g.env.comOf r).id) :: ls) := by
      unfold registerOut
      rw [hrows]
      show (printText _ _ _ _ _ rows).bind _ = _
      rw [hpt]; rfl
    obtain ⟨rows', lines, h5, h6, h7⟩ := C138_register_lines _ _ _ _ _ _ _ _ _ _ _ _ _ _ hro
    rw [hrows] at h5
    injection h5 with h5
    subst h5
    rw [zip_notes h1] at h7
    injection h7 with _ h7
    refine ⟨g.env.conv, a, rest, r, entries, lines, c1, rfl, hm, h2, h3, ?_, h4, ?_, ?_⟩
    · intro e he
      obtain ⟨row, _, hre⟩ := forall2_mem_right h1 e he
      exact hre.of
    · refine (forall2_join h1 h6).imp ?_
      rintro e line ⟨row, hre, cells, q, t, k1, k2, k3, k4, k5, k6, k7, k8⟩
      refine ⟨q, t, cells.desc, cells.acct, cells.oacct, cells.qty, cells.tot, g.print.location row.1, ?_, ?_, ?_, ?_, ?_, k6, k7, ?_⟩
      · rw [← hre.qty]; exact k1
      · rw [← hre.total]; exact k2
      · rw [← hre.payee]; exact k3
      · rw [← hre.acct]; exact k4
      · rw [← hre.other]; exact k5
      · rw [k8, hre.date, hre.acct, hre.asserted, c2]
    · rw [← hout, ← hb, h7]
      unfold registerHead
      rw [c2]
      have ha : ∀ x y : List Str, textOf x ++ textOf y = textOf (x ++ y) := by
        intro x y; unfold textOf; simp
      rw [ha]
      congr 2
      split <;> simp [str]

/-! ## C156 over any commodities -/

/-- The balance report over any commodities, with the totals `own` and `cum`: own totals add up the amounts of the account's postings, each
converted by the prices; cumulative totals add those of the accounts directly below, converted. -/
structure AnyReport (names : List Str) (comOf : Str → Com) (conv : Conv) (compile : Compile) (f : Filters) (level : Int) (zero : Bool) (ts : List PTxn)
    (r : Str) (own cum : Str → Amount) (accs lines : List Str) : Prop where
  ownTotal : ∀ a ∈ names, InSub r a → (own a).com = comOf a ∧ ∃ amounts,
    List.Forall₂ (fun e q => AmountOf names comOf conv e.1 e.2 q) (booked names compile f ts a) amounts ∧ SumOf conv (comOf a) amounts (own a).int
  cumTotal : ∀ a ∈ names, InSub r a → (cum a).com = comOf a ∧ ∃ n,
    SumOf conv (comOf a) ((childrenOf names a).map cum) n ∧ (cum a).int = (own a).int + n
  rows : ∀ a, a ∈ accs ↔ a ∈ names ∧ InSub r a ∧ (level = 0 ∨ ((splitOn ':' a).length : Int) ≤ level) ∧ (zero = true ∨ (cum a).int ≠ 0)
  once : accs.Nodup
  order : accs.Pairwise (fun x y => ¬ AncName y x)
  text : ∃ w cw cur, List.Forall₂ (fun a line => BalanceRow comOf w cw cur (a, some (own a), some (cum a)) line) accs lines

/-- **C156** The balance command from the files to its output, over any commodities. -/
theorem C156_any_commodities (P : Install) (compile : Compile) (st : LoadState) (accts : List Acct) (g : LedgerView) (hO : Opened P compile st accts g)
    (hdec : ∀ a, (st.comOf accts a).decimals ≤ 50)
    (fe : FlagEnv) (w : Str) (l : List (Str × Str)) (toks : List (List Str)) (tail args : List Str) (hw : commandOf w = some .balance)
    (hl : List.Forall₂ (Written fe (flagsOf .balance)) l toks) (ht : Remaining tail args)
    (hv : ValidFilters compile (filtersOf fe l))
    (hname : fe.intFlag l (str "l") 0 ≠ 0 → ∀ a ∈ accts.map (·.fullName), (∀ x, a ≠ ':' :: x) ∧ ¬ ProperAncestorName (str "Root") a)
    (out : Str) (hout : coinMain fe g (w :: (toks.flatten ++ tail)) = .ok out) :
    ∃ conv r own cum accs lines, Rates st conv ∧ Asked (accts.map (·.fullName)) args r ∧ out = textOf lines ∧
      AnyReport (accts.map (·.fullName)) (st.comOf accts) conv compile (filtersOf fe l) (fe.intFlag l (str "l") 0) (boolFlag l (str "z")) st.txns r own cum accs lines := by
  classical
  have hnames : g.names = accts.map (·.fullName) ∧ g.matcher = patternMatches := by
    obtain ⟨_, _, _, _, _, _, _, _, _, _, _, _, _, _, _, _, _, _, _, _, _, rfl⟩ := hO
    exact ⟨rfl, rfl⟩
  obtain ⟨hld, items, db, ord, fuel, L, walk, fin, sorted, bound, location, order, hi1, hi2, hi3, hi4, hA, hsome, hwalk, hres, hbound, rfl⟩ := hO
  obtain ⟨hn, _, _, _, hroot⟩ := resolved_spec _ _ _ _ hA
  have hwn : walk.Nodup := hwalk.nodup_iff.mpr hn
  have hp := heapOf_parsed st.txns
  unfold coinMain at hout
  rw [dispatch_written hw hl ht] at hout
  have hout : (balanceMain fe (ledgerView _ compile L fin (txnsFrom 0 st.txns) bound location order) l args).bind (fun ls => .ok (textOf ls)) = .ok out := hout
  obtain ⟨lines, hb, ho⟩ := bind_ok.mp hout
  injection ho with ho
  unfold balanceMain at hb
  obtain ⟨r, hr, hb⟩ := bind_ok.mp hb
  have hask := (asked_of hnames.1 hnames.2).mp hr
  have hrm : r ∈ accts.map (·.fullName) := by
    rcases hask with ⟨_, rfl⟩ | ⟨a, rest, _, hf⟩
    · exact hroot
    · exact mustFind_mem hn hf
  set env := Env.ofAccounts accts (st.comOf accts) patternMatches (convWith db ord fuel) with henv
  have hfuel : treeFuel (accts.map (·.fullName)) ≤ bound :=
    treeFuel_le ⟨_, hroot⟩ (by intro x hx; obtain ⟨a, ha, rfl⟩ := List.mem_map.mp hx; exact hbound a ha)
  set v := viewOf (fun n => (parseTags n).toTags) fin (txnsFrom 0 st.txns) with hvdef
  have hsort : ∀ a ∈ accts.map (·.fullName), InDateOrder v.date (v.postings a) := by
    intro a _
    obtain ⟨st', h1, h2, _⟩ := load_parts hres
    obtain ⟨_, hb, hs1, _⟩ := phase1 hp h1
    obtain ⟨g1, _, g3, _⟩ := phase2 hp hwn h1 h2
    show InDateOrder (fun p => (fin.heap p).posted) (fin.books.postings a)
    rw [g1]
    have hd : ∀ p, (fin.heap p).posted = (heapOf st.txns p).posted := fun p => ((g3 p).1).trans (hs1 p).1
    unfold InDateOrder
    simp only [hd]
    exact hb.sorted a
  have hb : balanceOut env compile v L bound (filtersOf fe l) (fe.intFlag l (str "l") 0) (boolFlag l (str "z")) r = .ok lines := hb
  obtain ⟨rows, w', cw, cur, h5, h6⟩ := C137_balance_aligned _ _ _ _ _ _ _ _ _ _ hdec hb
  obtain ⟨own, cum, k1, k2⟩ := C145_balance_converts hA env compile v (filtersOf fe l) hv _ bound _ r hrm hsort hfuel rows h5
  have t := TreeOK.of hA
  refine ⟨env.conv, r, own, cum, (walkOf (accts.map (·.fullName)) L r).filter (RowOf L bound (fe.intFlag l (str "l") 0) (boolFlag l (str "z")) (fun a => some (cum a))), lines, ⟨items, db, ord, fuel, hi1, hi2, hi3, hi4, rfl⟩, hask, ho.symm, ?_, ?_, ?_,
    (t.walk_nodup r hrm).filter _, (t.walk_parents_first r hrm).filter _, w', cw, cur, ?_⟩
  · intro a ha hs
    obtain ⟨g1, ⟨ns, g2, g3⟩, _⟩ := k2 a ha hs
    refine ⟨g1, ?_⟩
    obtain ⟨rs, h1, h2⟩ := loaded_posts hwn hres a (fun r => Selected compile v (filtersOf fe l) r) (fun e => Picks compile (filtersOf fe l) e.1 e.2) (by
      rintro r ⟨t, p⟩ hst
      obtain ⟨s1, s2, s3, ⟨t', s4, s5, _⟩, _⟩ := loaded_shown hwn hres hst
      unfold Selected Picks
      simp only [hvdef, viewOf, s4, Option.map_some, Option.getD_some, s1, s3, s5.2.1, s5.2.2.1, toTags_getD])
    have h1 : (selectedOf compile v (filtersOf fe l) a).Perm rs := by unfold selectedOf; exact h1
    obtain ⟨ns', q1, q2⟩ := forall2_perm_sum (h1.map v.qty) g2
    have h3 : List.Forall₂ (Stands (heapOf st.txns) (txnsFrom 0 st.txns)) rs (booked (accts.map (·.fullName)) compile (filtersOf fe l) st.txns a) := by
      unfold booked; convert h2; rfl
    refine ⟨rs.map v.qty, ?_, ns', q1, by rw [g3, q2]⟩
    rw [List.forall₂_map_right_iff]
    exact h3.flip.imp fun e r hre => loaded_amount hwn hres (fun _ => rfl) hre
  · intro a ha hs
    obtain ⟨_, _, g3, g4⟩ := k2 a ha hs
    exact ⟨g3, g4⟩
  · intro a
    rw [List.mem_filter, t.mem_walk r hrm]
    simp only [RowOf, decide_eq_true_eq, entryNonZero]
    constructor
    · rintro ⟨⟨g1, g2⟩, g3, g4⟩
      refine ⟨g1, g2, ?_, by simpa using g4⟩
      rcases g3 with g3 | ⟨d, g3, g5⟩
      · exact .inl g3
      · by_cases h0 : fe.intFlag l (str "l") 0 = 0
        · exact .inl h0
        · right
          rw [C23_depth_partial _ _ _ _ hA a g1 (hname h0 a g1).1 (hname h0 a g1).2 bound (by
            obtain ⟨x, hx, rfl⟩ := List.mem_map.mp g1; have := hbound x hx; omega)] at g3
          injection g3 with g3
          omega
    · rintro ⟨g1, g2, g3, g4⟩
      refine ⟨⟨g1, g2⟩, ?_, by simpa using g4⟩
      rcases g3 with g3 | g3
      · exact .inl g3
      · by_cases h0 : fe.intFlag l (str "l") 0 = 0
        · exact .inl h0
        · exact .inr ⟨_, C23_depth_partial _ _ _ _ hA a g1 (hname h0 a g1).1 (hname h0 a g1).2 bound (by
            obtain ⟨x, hx, rfl⟩ := List.mem_map.mp g1; have := hbound x hx; omega), g3⟩
  · rw [k1, List.forall₂_map_left_iff] at h6
    exact h6

/-! ## A run of both commands -/

/-- Non-vacuity of C157: the register of the account `Cash` of the sample ledger. -/
theorem prog_registers : (coinMain cmdFlags (progView fun _ => none) [str "reg", str "Cash"]).toOption =
    some (str "Assets:Cash CAD\n2020/01/02 | Shop |       Food | -3.50 | -3.50 CAD \n2020/01/05 |  Pay | Unbalanced | 10.00 | 6.50 CAD \n") := by
  decide +kernel

example := C157_register_of_files progInstall (fun _ => none) progState progAccts (progView fun _ => none) (prog_opens _).1
    cmdFlags (str "reg") [] [] [str "Cash"] [str "Cash"] (by decide) .nil (.plain (.inr (by decide))) (by unfold NotAggregated; decide)
    ⟨fun h => absurd (by decide +kernel) h, fun h => absurd (by decide +kernel) h⟩ (fun h => absurd h (by decide)) _ (ok_of_opt prog_registers)

/-! ### Two commodities -/

/-- An account in USD below one in CAD, at 1.30. -/
def fxDir : List (Str × Str) :=
  [(str "commodities.coin", str "commodity CAD\n  format 1.00 CAD\ncommodity USD\n  format 1.00 USD\n"), (str "prices.coin", str "P 2020/01/01 USD 1.30 CAD\n"),
   (str "accounts.coin", str "account Assets\naccount Assets:Cash\naccount Assets:Bank\n  commodity USD\naccount Food\n"),
   (str "transactions.coin", str "2020/01/02 Shop\n  Food  3.50 CAD\n  Cash\n\n2020/01/05 Pay\n  Bank  12.05 USD\n  Unbalanced  -15.66 CAD\n")]

def fxInstall : Install := ⟨dirDisk fxDir, ⟨2020, 1, 1⟩, 5, ledgerNames⟩
def fxUsd : Com := ⟨1, str "USD", 2⟩
def fxTxns : List PTxn :=
  [⟨737425, [], str "Shop", [], [⟨str "Food", some ⟨350, progCad⟩, none, []⟩, ⟨str "Cash", none, none, []⟩]⟩,
   ⟨737428, [], str "Pay", [], [⟨str "Bank", some ⟨1205, fxUsd⟩, none, []⟩, ⟨str "Unbalanced", some ⟨-1566, progCad⟩, none, []⟩]⟩]
def fxState : LoadState := ⟨[fxUsd, progCad], str "CAD",
  [.commodity ⟨str "CAD", [], 2, false, []⟩, .commodity ⟨str "USD", [], 2, false, []⟩, .price ⟨737424, str "USD", str "CAD", ⟨130, progCad⟩⟩,
   .account ⟨str "Assets", [], str "CAD", none, [], [], []⟩, .account ⟨str "Assets:Cash", [], str "CAD", none, [], [], []⟩,
   .account ⟨str "Assets:Bank", [], str "USD", none, [], [], []⟩, .account ⟨str "Food", [], str "CAD", none, [], [], []⟩] ++ fxTxns.map .transaction⟩
def fxItems : List PriceItem := [⟨fxUsd, progCad, ⟨⟨130, progCad⟩, 737424⟩⟩]
def fxDb : PriceDB := loadPrices fxItems
def fxAccts : List Acct := createParents (str "CAD") (baseAccounts (str "CAD") fxState.decls) (baseAccounts (str "CAD") fxState.decls)
def fxEnv : Env := Env.ofAccounts fxAccts (fxState.comOf fxAccts) patternMatches (convWith fxDb (fun _ => fxDb) 3)

theorem fx_loads : loadAllS fxInstall.disk fxInstall.today fxInstall.limit fxInstall.files ⟨[], str "CAD", []⟩ = .ok fxState :=
  load_eq (by decide +kernel)

theorem fx_resolves : ∃ r, resolveTransactions fxEnv (heapOf fxState.txns) (txnsFrom 0 fxState.txns) (fxAccts.map (·.fullName)) = .ok r := by
  have h : (resolveTransactions fxEnv (heapOf fxState.txns) (txnsFrom 0 fxState.txns) (fxAccts.map (·.fullName))).isOk = true := by decide +kernel
  cases hx : resolveTransactions fxEnv (heapOf fxState.txns) (txnsFrom 0 fxState.txns) (fxAccts.map (·.fullName)) with
  | error e => rw [hx] at h; cases h
  | ok r => exact ⟨r, rfl⟩

def fxLinks : Links :=
  match linkAll 0 (fxAccts.map (·.fullName)) Links.empty (fxAccts.map (·.fullName)) with
  | .ok L => ⟨L.parent, fun p => stableSort (fun a b => strLt (parentAndName a).2 (parentAndName b).2) (L.children p)⟩
  | .error _ => Links.empty

def fxView (compile : Compile) : LedgerView :=
  match resolveTransactions fxEnv (heapOf fxState.txns) (txnsFrom 0 fxState.txns) (fxAccts.map (·.fullName)) with
  | .ok (fin, _) => ledgerView fxEnv compile fxLinks fin (txnsFrom 0 fxState.txns) 100 (fun _ => []) id
  | .error _ => cmdLedger

theorem fx_db (c : Com) : fxDb c = if c = fxUsd then [(progCad, [⟨⟨130, progCad⟩, 737424⟩])] else [] := by
  unfold fxDb loadPrices fxItems
  by_cases h : c = fxUsd
  · subst h; rfl
  · rw [if_neg h, List.filter_cons_of_neg (by simpa using fun h' => h h'.symm)]; rfl

theorem fx_opens (compile : Compile) : Opened fxInstall compile fxState fxAccts (fxView compile) := by
  obtain ⟨L0, h0⟩ := C20_linking_succeeds (str "CAD") fxState.decls (baseAccounts (str "CAD") fxState.decls) _ 0 (List.Perm.refl _) (List.Perm.refl _)
  obtain ⟨⟨fin, sorted⟩, hr⟩ := fx_resolves
  have hA : ResolvedAccounts (str "CAD") fxState.decls fxAccts fxLinks := by
    refine ⟨_, _, 0, L0, List.Perm.refl _, rfl, List.Perm.refl _, h0, ?_⟩
    have : fxLinks = ⟨L0.parent, fun p => stableSort (fun a b => strLt (parentAndName a).2 (parentAndName b).2) (L0.children p)⟩ := by
      unfold fxLinks
      rw [show linkAll 0 (fxAccts.map (·.fullName)) Links.empty (fxAccts.map (·.fullName)) = .ok L0 from h0]
    rw [this]
    exact ⟨rfl, fun p => ⟨stableSort_perm _ _, stableSort_sorted _ (strLt_strictWeak.comap _) _⟩⟩
  refine ⟨fx_loads, fxItems, fxDb, fun _ => fxDb, 3, fxLinks, _, fin, sorted, 100, fun _ => [], id, rfl, ?_, fun _ _ => .refl _, ?_, hA, ?_,
    List.Perm.refl _, hr, ?_, ?_⟩
  · intro c
    show List.Forall₂ _ (fxDb c) (fxDb c)
    rw [fx_db]
    split
    · exact .cons ⟨rfl, .refl _, by simp⟩ .nil
    · exact .nil
  · intro c x
    have hn : fxDb progCad = [] := by rw [fx_db]; rfl
    unfold convert
    simp only [convertF]
    split
    · rfl
    · rw [fx_db]
      by_cases hx : x.com = fxUsd
      · rw [if_pos hx]
        by_cases hc : progCad = c
        · simp [lookupPrices, hc]
        · have : lookupPrices [(progCad, [(⟨⟨130, progCad⟩, 737424⟩ : Price)])] c = none := by simp [lookupPrices, hc]
          rw [this]
          have hc' : ¬ c = progCad := fun h => hc h.symm
          rcases h : x.times ⟨130, progCad⟩ with e | e <;>
            simp only [convertLoop, h, if_neg hc', hn, lookupPrices, List.find?_nil, Option.map_none, List.not_mem_nil, if_false, Option.isSome_some]
      · rw [if_neg hx]; simp [lookupPrices, convertLoop]
  · decide +kernel
  · decide +kernel
  · unfold fxView; rw [hr]; rfl

/-- Non-vacuity of C156 over several commodities: 12.05 USD count as 15.66 CAD. -/
theorem fx_prints : (coinMain cmdFlags (fxView fun _ => none) [str "balance"]).toOption =
    some (str "  0.00 |  12.16 CAD | Assets\n 12.05 |  12.05 USD | Assets:Bank\n -3.50 |  -3.50 CAD | Assets:Cash\n  3.50 |   3.50 CAD | Food\n-15.66 | -15.66 CAD | Unbalanced\n") := by
  decide +kernel

theorem fx_decimals (a : Str) : (fxState.comOf fxAccts a).decimals ≤ 50 := by
  unfold LoadState.comOf
  rcases h : (getAcct fxAccts a).bind fxState.comFor with _ | c
  · exact Nat.zero_le _
  · obtain ⟨x, hx, hc⟩ := Option.bind_eq_some_iff.mp h
    have hm : x ∈ fxAccts := List.mem_of_find?_eq_some hx
    have : ∀ x ∈ fxAccts, ∀ c ∈ fxState.comFor x, c.decimals ≤ 50 := by decide +kernel
    exact this x hm c hc

example := C156_any_commodities fxInstall (fun _ => none) fxState fxAccts (fxView fun _ => none) (fx_opens _) fx_decimals
    cmdFlags (str "balance") [] [] [] [] (by decide) .nil
    .nothing ⟨fun h => absurd (by decide +kernel) h, fun h => absurd (by decide +kernel) h⟩ (fun h => absurd (by decide +kernel) h) _ (ok_of_opt fx_prints)

/-! ## C158: the unit on a register line -/

/-- Every line of a register names the commodity its running total is in, that of the account asked for. -/
def C158_Statement : Prop :=
  ∀ (P : Install) (compile : Compile) (st : LoadState) (accts : List Acct) (g : LedgerView), Opened P compile st accts g →
    ∀ (fe : FlagEnv) (w : Str) (l : List (Str × Str)) (toks : List (List Str)) (tail args : List Str), commandOf w = some .register →
    List.Forall₂ (Written fe (flagsOf .register)) l toks → Remaining tail args → NotAggregated l →
    RegValid compile (filtersOf fe l) → (boolFlag l (str "r") = true → NoBang (filtersOf fe l).payee) →
    ∀ out, coinMain fe g (w :: (toks.flatten ++ tail)) = .ok out →
    ∃ a rest r entries lines, args = a :: rest ∧ Means (accts.map (·.fullName)) a r ∧
      List.Forall₂ (EntryLine (fun _ => st.comOf accts r) r (if fe.intFlag l (str "l") 12 = 0 then 15 else fe.intFlag l (str "l") 12) (boolFlag l (str "r")) (boolFlag l (str "f")))
        entries lines ∧
      out = textOf ((if textFlag l (str "o") (str "text") = str "text" then [r ++ ' ' :: (st.comOf accts r).id] else []) ++
        (entries.zip lines).flatMap (fun e => e.2 :: entryNotes (boolFlag l (str "n")) e.1))

/-- With `-r` the total in CAD is shown with the unit of the account in USD. -/
theorem fx_registers : (coinMain cmdFlags (fxView fun _ => none) [str "reg", str "-r", str "Assets"]).toOption =
    some (str "Assets CAD\n2020/01/02 | Shop | :Cash |       Food | -3.50 | -3.50 CAD \n2020/01/05 |  Pay | :Bank | Unbalanced | 12.05 | 12.16 USD \n") := by
  decide +kernel

theorem zip_lines {names : List Str} {α : Type} {R : α → Str → Prop} : ∀ {es : List α} {ls : List Str}, List.Forall₂ R es ls →
    (es.zip ls).flatMap (fun e => [e.2]) = ls
  | _, _, .nil => rfl
  | _, _, .cons _ h => by rw [List.zip_cons_cons, List.flatMap_cons, zip_lines (names := names) h]; rfl

theorem C158_unit_violated : ¬ C158_Statement := by
  intro h
  obtain ⟨a, rest, r, entries, lines, ha, hr, h1, h2⟩ := h fxInstall (fun _ => none) fxState fxAccts (fxView fun _ => none) (fx_opens _)
    cmdFlags (str "reg") [(str "r", str "true")] [[str "-r"]] [str "Assets"] [str "Assets"] (by decide)
    (.cons (.bare (d := ['-']) (.inl rfl) (by decide)) .nil) (.plain (.inr (by decide))) (by unfold NotAggregated; decide)
    ⟨fun h => absurd (by decide +kernel) h, fun h => absurd (by decide +kernel) h⟩ (fun _ => by unfold NoBang; decide +kernel) _ (ok_of_opt fx_registers)
  injection ha with ha _
  subst ha
  have hr' : r = str "Assets" := by
    have h0 : Means (fxAccts.map (·.fullName)) (str "Assets") (str "Assets") := ok_of_opt (by decide +kernel)
    exact Except.ok.inj (hr.symm.trans h0)
  subst hr'
  have hn : ∀ e : Entry × Str, e.2 :: entryNotes (boolFlag [(str "r", str "true")] (str "n")) e.1 = [e.2] := by
    intro e
    rw [show boolFlag [(str "r", str "true")] (str "n") = false from by decide]
    rfl
  simp only [hn] at h2
  rw [zip_lines (names := []) h1] at h2
  rcases List.eq_nil_or_concat lines with hl | ⟨ls, line, hl⟩
  · subst hl
    exact absurd h2 (by decide +kernel)
  · subst hl
    obtain ⟨e, _, q, t, desc, acct, oacct, qty, tot, loc, _, _, _, _, _, _, _, hline⟩ := forall2_mem_right h1 line (by simp)
    rw [show boolFlag [(str "r", str "true")] (str "f") = false from by decide, show (fxState.comOf fxAccts (str "Assets")).id = str "CAD" from by decide +kernel] at hline
    have hend : ∃ y c, line = y ++ str "CAD" ++ [c] :=
      ⟨formatDate e.txn.posted ++ str " | " ++ desc ++ (if boolFlag [(str "r", str "true")] (str "r") then str " | " ++ acct else []) ++ str " | " ++ oacct ++
          str " | " ++ qty ++ str " | " ++ tot ++ str " ", if e.post.balance.isSome then '*' else ' ', by rw [hline]; simp⟩
    obtain ⟨y, c, hx⟩ := hend
    have h3 := congrArg (fun s => (s.reverse.drop 2).take 3) h2
    have h4 : ∀ (z : Str), ((z ++ (y ++ str "CAD" ++ [c]) ++ ['\n']).reverse.drop 2).take 3 = (str "CAD").reverse := by
      intro z
      have e1 : z ++ (y ++ str "CAD" ++ [c]) ++ ['\n'] = (z ++ y) ++ str "CAD" ++ [c, '\n'] := by simp
      rw [e1]
      simp only [List.reverse_append, str]
      rfl
    have h5 : ∃ z, textOf ((if textFlag [(str "r", str "true")] (str "o") (str "text") = str "text" then [str "Assets" ++ ' ' :: (fxState.comOf fxAccts (str "Assets")).id] else []) ++
        (ls.concat line)) = z ++ line ++ ['\n'] := by
      unfold textOf
      rw [List.concat_eq_append, ← List.append_assoc, List.flatMap_append]
      exact ⟨_, by rw [List.append_assoc]; simp only [List.flatMap_cons, List.flatMap_nil, List.append_nil]; rfl⟩
    obtain ⟨z, h5⟩ := h5
    rw [h5, hx] at h3
    have h3 : _ = ((z ++ (y ++ str "CAD" ++ [c]) ++ ['\n']).reverse.drop 2).take 3 := h3
    rw [h4 z] at h3
    exact absurd h3 (by decide +kernel)

/-- **C158 (part)** The unit is right when every account shown is in the commodity of the account asked for. -/
theorem C158_unit_partial (P : Install) (compile : Compile) (st : LoadState) (accts : List Acct) (g : LedgerView) (hO : Opened P compile st accts g)
    (fe : FlagEnv) (w : Str) (l : List (Str × Str)) (toks : List (List Str)) (tail args : List Str) (hw : commandOf w = some .register)
    (hl : List.Forall₂ (Written fe (flagsOf .register)) l toks) (ht : Remaining tail args) (hna : NotAggregated l)
    (hv : RegValid compile (filtersOf fe l)) (hbang : boolFlag l (str "r") = true → NoBang (filtersOf fe l).payee)
    (hcom : boolFlag l (str "r") = true → ∀ a rest r, args = a :: rest → Means (accts.map (·.fullName)) a r →
      ∀ b ∈ familyOf (accts.map (·.fullName)) r, st.comOf accts b = st.comOf accts r)
    (out : Str) (hout : coinMain fe g (w :: (toks.flatten ++ tail)) = .ok out) :
    ∃ a rest r entries lines, args = a :: rest ∧ Means (accts.map (·.fullName)) a r ∧ (∀ e ∈ (entries : List Entry), e.total.com = st.comOf accts r) ∧
      List.Forall₂ (EntryLine (fun _ => st.comOf accts r) r (if fe.intFlag l (str "l") 12 = 0 then 15 else fe.intFlag l (str "l") 12) (boolFlag l (str "r")) (boolFlag l (str "f")))
        entries lines ∧
      out = textOf ((if textFlag l (str "o") (str "text") = str "text" then [r ++ ' ' :: (st.comOf accts r).id] else []) ++
        (entries.zip lines).flatMap (fun e => e.2 :: entryNotes (boolFlag l (str "n")) e.1)) := by
  classical
  obtain ⟨conv, a, rest, r, entries, lines, _, h1, h2, h3, _, h4, h5, h6, h7⟩ := C157_register_of_files P compile st accts g hO fe w l toks tail args hw hl ht hna hv hbang out hout
  refine ⟨a, rest, r, entries, lines, h1, h2, ?_, ?_, h7⟩
  · intro e he
    obtain ⟨i, hi, rfl⟩ := List.mem_iff_getElem.mp he
    exact (h5 i hi).1
  · refine (forall2_imp_mem h6 fun e he line hel => ?_)
    have hc : st.comOf accts e.acct = st.comOf accts r := by
      have hm : (e.txn, e.post) ∈ entries.map (fun e => (e.txn, e.post)) := List.mem_map_of_mem he
      obtain ⟨b, hb, hbk⟩ := List.mem_flatMap.mp (h3.mem_iff.mp hm)
      have hacct := (h4 e he).acct
      have : e.acct = b := by
        unfold regBooked at hbk
        have hbk := (List.mem_filter.mp hbk).2
        have hbk := ((decide_eq_true_iff (p := _ ∧ _)).mp hbk).1
        exact Except.ok.inj (hacct.symm.trans hbk)
      rw [this]
      by_cases hr : boolFlag l (str "r") = true
      · rw [if_pos hr] at hb
        exact hcom hr a rest r h1 h2 b hb
      · rw [if_neg hr] at hb
        rw [List.mem_singleton.mp hb]
    obtain ⟨q, t, desc, acct, oacct, qty, tot, loc, k1, k2, k3, k4, k5, k6, k7, k8⟩ := hel
    exact ⟨q, t, desc, acct, oacct, qty, tot, loc, k1, k2, k3, k4, k5, k6, k7, by rw [k8, hc]⟩

example := C158_unit_partial progInstall (fun _ => none) progState progAccts (progView fun _ => none) (prog_opens _).1
    cmdFlags (str "reg") [] [] [str "Cash"] [str "Cash"] (by decide) .nil (.plain (.inr (by decide))) (by unfold NotAggregated; decide)
    ⟨fun h => absurd (by decide +kernel) h, fun h => absurd (by decide +kernel) h⟩ (fun h => absurd h (by decide)) (fun h => absurd h (by decide)) _ (ok_of_opt prog_registers)

end Verif
