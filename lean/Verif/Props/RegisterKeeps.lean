import Verif.Props.RegisterText
import Verif.Lemmas.Format
/-
C175 and C176 for the register: when it stays the same.
-/
namespace Verif

/-! ## Ledgers that show the same -/

/-- Two postings of one commodity that show the same: they mean the same accounts, book the same, both or none assert a balance, and the notes are the same. -/
structure PostLike (names names' : List Str) (t t' : PTxn) (p p' : PPost) : Prop where
  acct : ∀ a, Means names p.account a ↔ Means names' p'.account a
  units : unitsOf t p = unitsOf t' p'
  asserted : p.balance.isSome = p'.balance.isSome
  notes : p.notes = p'.notes

structure TxnLike (names names' : List Str) (t t' : PTxn) : Prop where
  posted : t.posted = t'.posted
  description : t.description = t'.description
  notes : t.notes = t'.notes
  postings : List.Forall₂ (PostLike names names' t t') t.postings t'.postings

structure PlaceLike (names names' : List Str) (p p' : Place) : Prop where
  txn : TxnLike names names' p.txn p'.txn
  post : PostLike names names' p.txn p'.txn p.post p'.post
  before : List.Forall₂ (PostLike names names' p.txn p'.txn) p.before p'.before
  after : List.Forall₂ (PostLike names names' p.txn p'.txn) p.after p'.after

theorem placesIn_like {names names' : List Str} {t t' : PTxn} (h : TxnLike names names' t t') : ∀ (rest rest' before before' : List PPost),
    List.Forall₂ (PostLike names names' t t') rest rest' → List.Forall₂ (PostLike names names' t t') before before' →
    List.Forall₂ (PlaceLike names names') (placesIn t before rest) (placesIn t' before' rest') := by
  intro rest
  induction rest with
  | nil => intro rest' _ _ h1 _; cases h1; exact .nil
  | cons p rest ih =>
    intro rest' before before' h1 h2
    cases h1 with
    | cons hp h1 =>
      rw [placesIn, placesIn]
      exact .cons ⟨h, hp, h2, h1⟩ (ih _ _ _ h1 (List.rel_append h2 (.cons hp .nil)))

theorem places_like {names names' : List Str} {ts ts' : List PTxn} (h : List.Forall₂ (TxnLike names names') ts ts') :
    List.Forall₂ (PlaceLike names names') (placesOf ts) (placesOf ts') := by
  unfold placesOf
  exact forall2_flatMap h (fun t _ t' hl => placesIn_like hl _ _ _ _ hl.postings .nil)

theorem placesOf_day (ts : List PTxn) (d : Int) : (placesOf ts).filter (fun p => decide (p.txn.posted = d)) = placesOf (ts.filter fun t => decide (t.posted = d)) := by
  unfold placesOf
  rw [filter_flatMap]
  induction ts with
  | nil => rfl
  | cons t ts ih =>
    rw [List.flatMap_cons, ih]
    by_cases hd : t.posted = d
    · rw [List.filter_cons_of_pos (by simpa using hd), List.flatMap_cons]
      congr 1
      rw [List.filter_eq_self]
      intro p hp
      rw [(placesIn_mem _ _ _ hp).1]
      simpa using hd
    · rw [List.filter_cons_of_neg (by simpa using hd)]
      rw [show (placesIn t [] t.postings).filter (fun p => decide (p.txn.posted = d)) = [] from ?_]
      · rfl
      rw [List.filter_eq_nil_iff]
      intro p hp
      rw [(placesIn_mem _ _ _ hp).1]
      simpa using hd

/-- The postings picked, day by day. -/
theorem picked_like {names names' : List Str} {ts ts' : List PTxn}
    (h : ∀ d : Int, List.Forall₂ (TxnLike names names') (ts.filter fun t => decide (t.posted = d)) (ts'.filter fun t => decide (t.posted = d)))
    (compile : Compile) (f : Filters) (a : Str) (d : Int) :
    List.Forall₂ (PlaceLike names names') ((picked names compile f ts a).filter fun p => decide (p.txn.posted = d))
      ((picked names' compile f ts' a).filter fun p => decide (p.txn.posted = d)) := by
  classical
  have hc : ∀ (names : List Str) (ts : List PTxn), (picked names compile f ts a).filter (fun p => decide (p.txn.posted = d)) =
      (placesOf (ts.filter fun t => decide (t.posted = d))).filter (fun p => decide (Means names p.post.account a ∧ RegPicks compile f p.txn p.post)) := by
    intro names ts
    rw [← placesOf_day]
    unfold picked
    rw [List.filter_filter, List.filter_filter]
    congr 1
    funext p
    rw [Bool.and_comm]
  rw [hc, hc]
  refine forall2_filter (places_like (h d)) ?_
  intro p p' _ hl
  rw [decide_eq_decide, hl.post.acct a]
  unfold RegPicks
  rw [hl.txn.posted, hl.txn.description, hl.txn.notes, hl.post.notes]

/-- Two lists in date order that are alike on every day are alike. -/
theorem sorted_days_forall2 {α β : Type} {R : α → β → Prop} (date : α → Int) (date' : β → Int) (hR : ∀ a b, R a b → date a = date' b) : ∀ (l : List α) (l' : List β),
    l.Pairwise (fun p q => date p ≤ date q) → l'.Pairwise (fun p q => date' p ≤ date' q) →
    (∀ d, List.Forall₂ R (l.filter fun p => decide (date p = d)) (l'.filter fun p => decide (date' p = d))) → List.Forall₂ R l l' := by
  intro l
  induction l with
  | nil =>
    intro l' _ _ h
    cases l' with
    | nil => exact .nil
    | cons x l' =>
      have := h (date' x)
      rw [List.filter_nil, List.filter_cons_of_pos (by simp)] at this
      cases this
  | cons p l ih =>
    intro l' hl hl' h
    obtain ⟨l1, l2⟩ := List.pairwise_cons.mp hl
    have hp := h (date p)
    rw [List.filter_cons_of_pos (by simp)] at hp
    cases l' with
    | nil => cases hp
    | cons x l' =>
      obtain ⟨m1, m2⟩ := List.pairwise_cons.mp hl'
      have hx : date' x = date p := by
        have hx := h (date' x)
        rw [List.filter_cons_of_pos (l := l') (by simp)] at hx
        obtain ⟨y, hy, hyx⟩ := forall2_mem_right hx x (by simp)
        have hy := (List.mem_filter.mp hy).1
        have e1 := hR _ _ hyx
        have : date p ≤ date y := by
          rcases List.mem_cons.mp hy with rfl | hy
          · exact le_refl _
          · exact l1 y hy
        obtain ⟨z, hz, hpz⟩ := forall2_mem_left hp p (by simp)
        have hz' := (List.mem_filter.mp hz).1
        have e2 := hR _ _ hpz
        have : date' x ≤ date' z := by
          rcases List.mem_cons.mp hz' with rfl | hz'
          · exact le_refl _
          · exact m1 z hz'
        omega
      rw [List.filter_cons_of_pos (by simpa using hx)] at hp
      cases hp with
      | cons hpx hp =>
        refine .cons hpx (ih l' l2 m2 ?_)
        intro d
        by_cases hd : date p = d
        · subst hd
          exact hp
        · have := h d
          rw [List.filter_cons_of_neg (by simpa using hd), List.filter_cons_of_neg (by rw [hx]; simpa using hd)] at this
          exact this

/-! ## One commodity -/

theorem sumOf_one {conv : Conv} {c : Com} : ∀ {l : List Amount} {n : Int}, (∀ x ∈ l, x.com = c) → SumOf conv c l n → n = (l.map (·.int)).sum := by
  intro l n hl ⟨ns, h, e⟩
  subst e
  induction h with
  | nil => rfl
  | cons hx _ ih =>
    rw [List.sum_cons, List.map_cons, List.sum_cons, ih (fun x hx => hl x (by simp [hx]))]
    rcases hx with ⟨_, h⟩ | ⟨h, _⟩
    · rw [h]
    · exact absurd (hl _ (by simp)) h

theorem amountOf_one {names : List Str} {comOf : Str → Com} {conv : Conv} {t : PTxn} {p : PPost} {q : Amount} {c : Com} (hp : p ∈ t.postings) {a : Str} (ha : Means names p.account a)
    (hc : comOf a = c) (hq : ∀ p ∈ t.postings, ∀ q, p.quantity = some q → q.com = c) (h : AmountOf names comOf conv t p q) : q = ⟨unitsOf t p, c⟩ := by
  obtain ⟨n, k⟩ := q
  cases h with
  | stated h =>
    have := hq p hp _ h
    dsimp only at this
    subst this
    unfold unitsOf
    rw [h]
  | missing h1 h2 h3 =>
    have e : k = c := (h2 p hp a ha).symm.trans hc
    subst e
    have := sumOf_one (by
      intro x hx
      obtain ⟨p', hp', e⟩ := List.mem_filterMap.mp hx
      exact hq p' hp' x e) h3
    unfold unitsOf
    rw [h1]
    dsimp only at this ⊢
    congr 1
    omega

/-- What is shown of two entries is the same. -/
structure EntryLike (e e' : Entry) : Prop where
  posted : e.txn.posted = e'.txn.posted
  description : e.txn.description = e'.txn.description
  notes : e.txn.notes = e'.txn.notes
  postNotes : e.post.notes = e'.post.notes
  asserted : e.post.balance.isSome = e'.post.balance.isSome
  acct : e.acct = e'.acct
  other : e.other = e'.other
  amount : e.amount = e'.amount
  total : e.total = e'.total

/-- Registers of ledgers of one commodity that are alike day by day are the same. -/
theorem register_like {names names' : List Str} {comOf comOf' : Str → Com} {conv conv' : Conv} {compile : Compile} {f : Filters} {ts ts' : List PTxn} {r : Str}
    {recurse notes : Bool} {width : Int} {lines lines' : List Str} {c : Com} (hn : names.Nodup) (hmem : ∀ a, a ∈ names ↔ a ∈ names') (hr : r ∈ names)
    (hcom : ∀ a ∈ names, comOf a = c) (hcom' : ∀ a ∈ names, comOf' a = c)
    (hq : ∀ t ∈ ts, ∀ p ∈ t.postings, ∀ q, p.quantity = some q → q.com = c) (hq' : ∀ t ∈ ts', ∀ p ∈ t.postings, ∀ q, p.quantity = some q → q.com = c)
    (hts : ∀ d : Int, List.Forall₂ (TxnLike names names') (ts.filter fun t => decide (t.posted = d)) (ts'.filter fun t => decide (t.posted = d)))
    (h : ExactRegister names comOf conv compile f ts r recurse false notes width lines)
    (h' : ExactRegister names' comOf' conv' compile f ts' r recurse false notes width lines') : lines = lines' := by
  obtain ⟨⟨accs, places, es, wqs, wt, texts, h1, h2, h3, h4, h5, h6, h7, h8, h9⟩⟩ := h
  obtain ⟨⟨accs', places', es', wqs', wt', texts', k1, k2, k3, k4, k5, k6, k7, k8, k9⟩⟩ := h'
  have hnd : ∀ {l : List Str}, l.Pairwise NameBefore → l.Nodup := by
    intro l hl
    exact hl.imp (fun hab e => by subst e; exact nameBefore_asymm hab hab)
  have hperm : accs.Perm accs' := by
    rw [List.perm_ext_iff_of_nodup (hnd h2) (hnd k2)]
    intro a
    rw [h1, k1, hmem]
  have e : accs = accs' := List.Perm.eq_of_pairwise (fun a b _ _ hab hba => absurd hba (nameBefore_asymm hab)) h2 k2 hperm
  subst e
  -- the places
  have hplaces : List.Forall₂ (PlaceLike names names') places places' := by
    refine sorted_days_forall2 (fun p : Place => p.txn.posted) (fun p : Place => p.txn.posted) (fun _ _ hl => hl.txn.posted) _ _ h3.1 k3.1 ?_
    intro d
    rw [h3.2, k3.2]
    clear h1 h2 h3 k1 k2 k3 hperm
    induction accs with
    | nil => exact .nil
    | cons a as ih =>
      rw [List.flatMap_cons, List.flatMap_cons, List.filter_append, List.filter_append]
      exact List.rel_append (picked_like hts compile f a d) ih
  have hpl : ∀ {names : List Str} {ts : List PTxn} {places : List Place}, ByDay (accs.flatMap (picked names compile f ts)) places →
      ∀ p ∈ places, p.txn ∈ ts ∧ p.txn.postings = p.before ++ p.post :: p.after := by
    intro names ts places h3 p hp
    have : p ∈ places.filter (fun q => decide (q.txn.posted = p.txn.posted)) := List.mem_filter.mpr ⟨hp, by simp⟩
    rw [h3.2] at this
    obtain ⟨a, _, ha⟩ := List.mem_flatMap.mp (List.mem_filter.mp this).1
    exact placesOf_mem (List.mem_filter.mp ha).1
  -- the entries, but for the totals
  have hent : ∀ p p' e e', p ∈ places → p' ∈ places' → PlaceLike names names' p p' → EntryAt names comOf conv p e → EntryAt names' comOf' conv' p' e' →
      e.txn.posted = e'.txn.posted ∧ e.txn.description = e'.txn.description ∧ e.txn.notes = e'.txn.notes ∧ e.post.notes = e'.post.notes ∧
      e.post.balance.isSome = e'.post.balance.isSome ∧ e.acct = e'.acct ∧ e.other = e'.other ∧ e.amount = e'.amount ∧ e.acct ∈ names ∧ e.amount.com = c := by
    intro p p' e e' hp hp' hl he he'
    obtain ⟨m1, m2⟩ := hpl h3 p hp
    obtain ⟨m3, m4⟩ := hpl k3 p' hp'
    have ha := (hl.post.acct _).mp he.acct
    have hae : e.acct = e'.acct := means_unique ha he'.acct
    have hm : e.acct ∈ names := mustFind_mem hn he.acct
    have ham := amountOf_one (by rw [m2]; simp) he.acct (hcom _ hm) (hq _ m1) he.amount
    have ham' := amountOf_one (by rw [m4]; simp) he'.acct (hcom' _ (hae ▸ hm)) (hq' _ m3) he'.amount
    refine ⟨by rw [he.txn, he'.txn, hl.txn.posted], by rw [he.txn, he'.txn, hl.txn.description], by rw [he.txn, he'.txn, hl.txn.notes], by rw [he.post, he'.post, hl.post.notes],
      by rw [he.post, he'.post, hl.post.asserted], hae, ?_, by rw [ham, ham', hl.post.units], hm, by rw [ham]⟩
    obtain ⟨q, g1, g2⟩ := he.other
    obtain ⟨q', g3, g4⟩ := he'.other
    have hba : List.Forall₂ (PostLike names names' p.txn p'.txn) (p.before ++ p.after) (p'.before ++ p'.after) := List.rel_append hl.before hl.after
    generalize p.before ++ p.after = x at hba g1
    generalize p'.before ++ p'.after = x' at hba g3
    cases hba with
    | nil => cases g1
    | cons hqq _ =>
      cases g1
      cases g3
      exact means_unique ((hqq.acct _).mp g2) g4
  have hpre : List.Forall₂ (fun e e' : Entry => e.txn.posted = e'.txn.posted ∧ e.txn.description = e'.txn.description ∧ e.txn.notes = e'.txn.notes ∧ e.post.notes = e'.post.notes ∧
      e.post.balance.isSome = e'.post.balance.isSome ∧ e.acct = e'.acct ∧ e.other = e'.other ∧ e.amount = e'.amount ∧ e.acct ∈ names ∧ e.amount.com = c) es es' := by
    have a1 := forall2_imp_mem h4 (fun p hp e he => (⟨hp, he⟩ : p ∈ places ∧ EntryAt names comOf conv p e))
    have a2 := forall2_imp_mem k4 (fun p hp e he => (⟨hp, he⟩ : p ∈ places' ∧ EntryAt names' comOf' conv' p e))
    have a3 := forall2_join a1 hplaces
    have a4 := forall2_join (R := fun p' e => ∃ p, (p ∈ places ∧ EntryAt names comOf conv p e) ∧ PlaceLike names names' p p') a3.flip a2
    refine a4.imp ?_
    rintro e e' ⟨p', ⟨p, ⟨hp, he⟩, hl⟩, hp', he'⟩
    exact hent p p' e e' hp hp' hl he he'
  have ha : es.map (·.amount) = es'.map (·.amount) := forall2_map hpre (fun _ _ h => h.2.2.2.2.2.2.2.1)
  have hac : ∀ e ∈ es, e.amount.com = c ∧ e.acct ∈ names := by
    intro e he
    obtain ⟨_, _, hh⟩ := forall2_mem_left hpre e he
    exact ⟨hh.2.2.2.2.2.2.2.2.2, hh.2.2.2.2.2.2.2.2.1⟩
  have hlen := hpre.length_eq
  rw [hcom r hr] at h5
  rw [hcom' r hr] at k5
  have hlike : List.Forall₂ EntryLike es es' := by
    rw [List.forall₂_iff_get]
    refine ⟨hlen, ?_⟩
    intro i hi hi'
    obtain ⟨x1, x2, x3, x4, x5, x6, x7, x8, _⟩ := (List.forall₂_iff_get.mp hpre).2 i hi hi'
    refine ⟨x1, x2, x3, x4, x5, x6, x7, x8, ?_⟩
    obtain ⟨t1, t2⟩ := h5 i hi
    obtain ⟨t3, t4⟩ := k5 i hi'
    have s1 := sumOf_one (by
      intro x hx
      obtain ⟨e, he, rfl⟩ := List.mem_map.mp hx
      exact (hac e (List.mem_of_mem_take he)).1) t2
    have s2 := sumOf_one (by
      intro x hx
      rw [List.map_take, ← ha, ← List.map_take] at hx
      obtain ⟨e, he, rfl⟩ := List.mem_map.mp hx
      exact (hac e (List.mem_of_mem_take he)).1) t4
    have s3 : (es.take (i + 1)).map (·.amount) = (es'.take (i + 1)).map (·.amount) := by rw [List.map_take, ha, ← List.map_take]
    rw [s3] at s1
    simp only [List.get_eq_getElem]
    generalize es[i].total = x at *
    generalize es'[i].total = y at *
    obtain ⟨x6, x7⟩ := x
    obtain ⟨y6, y7⟩ := y
    dsimp only at *
    rw [s1, s2, t1, t3]
  -- the columns
  have e : wqs = wqs' := by
    have a1 := forall2_join (hlike) (forall2_imp_mem h6 (fun e he n hn' => (⟨he, hn'⟩ : e ∈ es ∧ RoomFor (comOf e.acct) e.amount n)))
    refine forall2_functional (R := fun (e : Entry) n => RoomFor c e.amount n) (fun _ _ _ => room_unique) (l := es') ?_ ?_
    · refine a1.imp ?_
      rintro e' n ⟨e, hl, he, hn'⟩
      rw [hcom _ (hac e he).2, hl.amount] at hn'
      exact hn'
    · have a2 : ∀ e' ∈ es', e'.acct ∈ names := by
        intro e' he'
        obtain ⟨e, he, hl⟩ := forall2_mem_right hlike e' he'
        rw [← hl.acct]
        exact (hac e he).2
      refine forall2_imp_mem k6 ?_
      intro e' he' n hn'
      rw [hcom' _ (a2 e' he')] at hn'
      exact hn'
  subst e
  rw [hcom r hr] at h7
  rw [hcom' r hr] at k7
  have hwt : ∀ e ∈ es, wt = wt' := by
    intro e0 he0
    rcases hl : es.getLast? with _ | e
    · rw [List.getLast?_eq_none_iff.mp hl] at he0
      cases he0
    · have b1 : es.map (·.total) = es'.map (·.total) := forall2_map hlike (fun _ _ h => h.total)
      have b2 := congrArg List.getLast? b1
      rw [List.getLast?_map, List.getLast?_map, hl] at b2
      cases hl' : es'.getLast? with
      | none => rw [hl'] at b2; cases b2
      | some e' =>
        rw [hl'] at b2
        have b2 : e.total = e'.total := Option.some.inj b2
        have := k7 e' hl'
        rw [← b2] at this
        exact room_unique (h7 e hl) this
  have d1 : es.map (fun e => (blen e.txn.description : Int)) = es'.map (fun e => (blen e.txn.description : Int)) := forall2_map hlike (fun _ _ h => by rw [h.description])
  have d2 : es.map (fun e => (blen (trimPrefix e.acct r) : Int)) = es'.map (fun e => (blen (trimPrefix e.acct r) : Int)) := forall2_map hlike (fun _ _ h => by rw [h.acct])
  have d3 : es.map (fun e => (blen e.other : Int)) = es'.map (fun e => (blen e.other : Int)) := forall2_map hlike (fun _ _ h => by rw [h.other])
  have e : texts = texts' := by
    refine forall2_functional (R := ExactLine comOf' r width recurse false es' (largest wqs) wt') (fun _ _ _ => exactLine_unique) (l := es') ?_ k8
    refine (forall2_join hlike (forall2_imp_mem h8 (fun e he n hn' => (⟨he, hn'⟩ : e ∈ es ∧ ExactLine comOf r width recurse false es (largest wqs) wt e n)))).imp ?_
    rintro e' line ⟨e, hl, he, q, t, loc, q1, q2, q3⟩
    refine ⟨q, t, loc, by rw [← hl.amount]; exact q1, by rw [← hl.total]; exact q2, ?_⟩
    have hce : comOf e.acct = comOf' e'.acct := by rw [← hl.acct, hcom _ (hac e he).2, hcom' _ (hac e he).2]
    rw [q3, hl.posted, hl.description, hl.acct, hl.other, hl.asserted, d1, d2, d3, hwt e he]
    rw [← hl.acct, hce, hl.acct]
  subst e
  rw [h9, k9]
  clear h9 k9 h8 k8 h7 k7 h6 k6 h5 k5 h4 k4 hpre ha hac hlen hwt d1 d2 d3
  induction hlike generalizing texts with
  | nil => rfl
  | cons hl _ ih =>
    cases texts with
    | nil => rfl
    | cons t texts =>
      rw [List.zip_cons_cons, List.zip_cons_cons, List.flatMap_cons, List.flatMap_cons, ih]
      congr 2
      unfold entryNotes
      rw [hl.posted, hl.notes, hl.postNotes]

/-- The register of two ledgers of one commodity that are alike day by day. -/
theorem registers_same {P P' : Install} {compile : Compile} {st st' : LoadState} {accts accts' : List Acct} {g g' : LedgerView}
    (hO : Opened P compile st accts g) (hO' : Opened P' compile st' accts' g') (hp : PlainNames (accts.map (·.fullName))) {c : Com} (hc : OneCom st accts c) (hc' : OneCom st' accts' c)
    (hperm : (accts.map (·.fullName)).Perm (accts'.map (·.fullName)))
    (hts : ∀ d : Int, List.Forall₂ (TxnLike (accts.map (·.fullName)) (accts'.map (·.fullName))) (st.txns.filter fun t => decide (t.posted = d)) (st'.txns.filter fun t => decide (t.posted = d)))
    (fe : FlagEnv) (w : Str) (l : List (Str × Str)) (toks : List (List Str)) (tail args : List Str) (hw : commandOf w = some .register)
    (hl : List.Forall₂ (Written fe (flagsOf .register)) l toks) (ht : Remaining tail args) (hna : NotAggregated l) (hloc : boolFlag l (str "f") = false)
    (hv : RegValid compile (filtersOf fe l)) (hbang : boolFlag l (str "r") = true → NoBang (filtersOf fe l).payee)
    (out out' : Str) (hout : coinMain fe g (w :: (toks.flatten ++ tail)) = .ok out) (hout' : coinMain fe g' (w :: (toks.flatten ++ tail)) = .ok out') : out = out' := by
  obtain ⟨_, _, _, hcom0, _, hR, _⟩ := opened_balance hO hc (filtersOf fe l)
  obtain ⟨_, _, _, hcom0', _, hR', _⟩ := opened_balance hO' hc' (filtersOf fe l)
  have hcom : ∀ a ∈ accts.map (·.fullName), st.comOf accts a = c := by
    obtain ⟨_, _, _, _, _, _, _, _, _, _, _, _, _, _, _, _, _, _, _, _, _, rfl⟩ := hO
    exact hcom0
  have hcom' : ∀ a ∈ accts.map (·.fullName), st'.comOf accts' a = c := by
    obtain ⟨_, _, _, _, _, _, _, _, _, _, _, _, _, _, _, _, _, _, _, _, _, rfl⟩ := hO'
    intro a ha
    exact hcom0' a (hperm.mem_iff.mp ha)
  have hn := (resolved_spec _ _ _ _ hR).1
  have hp' : PlainNames (accts'.map (·.fullName)) := by
    intro a ha
    exact hp a (hperm.mem_iff.mpr ha)
  obtain ⟨conv, a, rest, r, lines, _, h2, h3, h4, h5⟩ := C178_register_text P compile st accts g hO hp fe w l toks tail args hw hl ht hna hv hbang out hout
  obtain ⟨conv', a', rest', r', lines', _, k2, k3, k4, k5⟩ := C178_register_text P' compile st' accts' g' hO' hp' fe w l toks tail args hw hl ht hna hv hbang out' hout'
  rw [h2] at k2
  injection k2 with k2 k2'
  subst k2 k2'
  have hr : r = r' := by
    unfold Means at k3
    rw [← mustFind_perm hperm] at k3
    exact means_unique h3 k3
  subst hr
  have hrm : r ∈ accts.map (·.fullName) := mustFind_mem hn h3
  rw [hloc] at h4 k4
  have := register_like hn (fun a => hperm.mem_iff) hrm hcom hcom' hc.amounts hc'.amounts hts h4 k4
  subst this
  rw [h5, k5, hcom r hrm, hcom' r hrm]

theorem txnLike_refl {names names' : List Str} (h : names.Perm names') (t : PTxn) : TxnLike names names' t t := by
  refine ⟨rfl, rfl, rfl, ?_⟩
  rw [List.forall₂_same]
  intro p _
  refine ⟨fun a => ?_, rfl, rfl, rfl⟩
  unfold Means
  rw [mustFind_perm h]

theorem txnsLike_refl {names names' : List Str} (h : names.Perm names') (ts : List PTxn) : List.Forall₂ (TxnLike names names') ts ts := by
  rw [List.forall₂_same]
  exact fun t _ => txnLike_refl h t

/-- **C175**, one more case: in a ledger of one commodity the plain register does not depend on any order, whatever prices there are. -/
theorem C175_register_partial (P : Install) (compile : Compile) (st st' : LoadState) (accts accts' : List Acct) (g g' : LedgerView)
    (hO : Opened P compile st accts g) (hO' : Opened P compile st' accts' g') (hp : PlainNames (accts.map (·.fullName))) (c : Com) (hc : OneCom st accts c)
    (fe : FlagEnv) (w : Str) (l : List (Str × Str)) (toks : List (List Str)) (tail args : List Str) (hw : commandOf w = some .register)
    (hl : List.Forall₂ (Written fe (flagsOf .register)) l toks) (ht : Remaining tail args) (hna : NotAggregated l) (hloc : boolFlag l (str "f") = false)
    (hv : RegValid compile (filtersOf fe l)) (hbang : boolFlag l (str "r") = true → NoBang (filtersOf fe l).payee)
    (out out' : Str) (hout : coinMain fe g (w :: (toks.flatten ++ tail)) = .ok out) (hout' : coinMain fe g' (w :: (toks.flatten ++ tail)) = .ok out') : out = out' := by
  have e : st' = st := Except.ok.inj (hO'.1.symm.trans hO.1)
  subst e
  obtain ⟨_, _, _, _, _, _, _, _, _, _, _, _, _, _, _, hR, _⟩ := hO.2
  obtain ⟨_, _, _, _, _, _, _, _, _, _, _, _, _, _, _, hR', _⟩ := hO'.2
  have hc' : OneCom st' accts' c := by
    refine ⟨?_, hc.amounts⟩
    intro a ha
    have h1 := getAcct_of_mem accts' (resolved_spec _ _ _ _ hR').1 a ha
    rw [← resolved_getAcct hR hR'] at h1
    exact hc.accounts a (List.mem_of_find?_eq_some h1)
  exact registers_same hO hO' hp hc hc' (resolved_names_perm hR hR') (fun d => txnsLike_refl (resolved_names_perm hR hR') _) fe w l toks tail args hw hl ht hna hloc hv hbang out out' hout hout'

/-! ## Formatting -/

/-- No transaction that asserts a balance stands before one of the same day that does not. -/
def AssertsBehind (ts : List PTxn) : Prop :=
  ts.Pairwise fun t u => t.posted = u.posted → (∃ p ∈ t.postings, p.balance.isSome = true) → ∃ p ∈ u.postings, p.balance.isSome = true

theorem assertsP_iff (t : PTxn) : assertsP t = true ↔ ∃ p ∈ t.postings, p.balance.isSome = true := by unfold assertsP; rw [List.any_eq_true]

/-- Sorting such a list leaves the order of a day. -/
theorem sort_day {us : List PTxn} (h : AssertsBehind us) (d : Int) :
    (stableSort pLess us).filter (fun t => decide (t.posted = d)) = us.filter (fun t => decide (t.posted = d)) := by
  have hpair : ∀ l : List PTxn, l.Pairwise (fun t u => t.posted = u.posted → assertsP t = true → assertsP u = true) →
      (l.filter fun t => decide (t.posted = d)).Pairwise (fun t u => (if assertsP t = true then (1 : Int) else 0) ≤ if assertsP u = true then 1 else 0) := by
    intro l hl
    rw [List.pairwise_filter]
    refine hl.imp ?_
    intro t u hh ht hu
    simp only [decide_eq_true_eq] at ht hu
    by_cases h1 : assertsP t = true
    · rw [if_pos h1, if_pos (hh (by rw [ht, hu]) h1)]
    · rw [if_neg h1]; split <;> decide
  refine sorted_days_unique (fun t => if assertsP t = true then (1 : Int) else 0) _ _ _ rfl (hpair _ ?_) (hpair _ ?_) ?_
  · refine (stableSort_sorted pLess pLess_strictWeak us).imp ?_
    intro t u hh hd ht
    unfold pLess at hh
    cases hu : assertsP u with
    | true => rfl
    | false => rw [hu, ht, hd] at hh; simp at hh
  · refine h.imp ?_
    intro t u hh hd ht
    exact (assertsP_iff u).mpr (hh hd ((assertsP_iff t).mp ht))
  · intro k
    rw [List.filter_filter, List.filter_filter]
    refine stableSort_filter pLess _ ?_ us
    intro a b ha hb
    simp only [Bool.and_eq_true, decide_eq_true_eq] at ha hb
    unfold pLess
    have hab : assertsP a = assertsP b := by
      obtain ⟨ha, _⟩ := ha
      obtain ⟨hb, _⟩ := hb
      cases h1 : assertsP a <;> cases h2 : assertsP b <;> simp_all <;> omega
    rw [ha.2, hb.2, hab]
    cases assertsP b <;> simp

theorem resolved_like {names names' : List Str} (hn : names.Nodup) (hperm : names.Perm names') {env : Env} (hfind : ∀ n, env.find n = mustFindAccount names (patternMatches n) n) {c : Com}
    (hf : ∀ n a, env.find n = .ok a → env.comOf a = c) {t r : PTxn} (h : resolvePTxn env t = .ok r)
    (hq : ∀ p ∈ t.postings, ∀ q, p.quantity = some q → q.com = c) : TxnLike names names' t r ∧ (assertsP t = assertsP r) := by
  obtain ⟨e, h2⟩ := resolve_one hf h hq
  have e1 : r.posted = t.posted := by rw [e]
  have e2 : r.description = t.description := by rw [e]
  have e3 : r.notes = t.notes := by rw [e]
  refine ⟨⟨e1.symm, e2.symm, e3.symm, h2.imp ?_⟩, ?_⟩
  · rintro p q ⟨k1, k2, k3, k4⟩
    rw [hfind] at k1
    refine ⟨fun a => ?_, ?_, by rw [k3], k4.symm⟩
    · unfold Means
      rw [← mustFind_perm hperm, mustFind_again hn k1, k1]
    · conv_rhs => unfold unitsOf
      rw [k2]
  · unfold assertsP
    clear e e1 e2 e3
    revert h2
    generalize r.postings = rp
    generalize hu : unitsOf t = u
    clear hu hq h
    generalize t.postings = tp
    intro h2
    induction h2 with
    | nil => rfl
    | cons h _ ih => rw [List.any_cons, List.any_cons, ih, h.2.2.1]

/-- **C176**, the register: in a ledger of one commodity formatting a file in place changes no register, if no transaction of the file that asserts a balance stands
before one of the same day that does not. -/
theorem C176_register_partial (P P' : Install) (compile : Compile) (st0 st st' : LoadState) (accts0 accts accts' : List Acct) (L0 : Links) (g g' : LedgerView)
    (fn : Str) (pre post : List Str) (c : Com) (hA : AccountsOpened P st0 accts0 L0) (hfile : TxnFile P st0 fn pre post)
    (hP : formatInPlace P false st0 accts0 fn = .ok P') (hO : Opened P compile st accts g) (hO' : Opened P' compile st' accts' g')
    (hp : PlainNames (accts.map (·.fullName))) (hc0 : OneCom st0 accts0 c) (hc : OneCom st accts c) (hsame : (accts0.map (·.fullName)).Perm (accts.map (·.fullName)))
    (hcom : CommodityName c.id) (hnames : ∀ a ∈ accts0, AccountName a.fullName) (hids : (st0.coms.map (·.id)).Nodup)
    (hlong : ∀ text, P'.disk.read fn = some text → ¬ Long text)
    (hset : ∀ text l, P.disk.read fn = some text → loadText P.today { st0 with items := [] } text = .ok l →
      ∀ rs, formatTxns (formatEnv st0 accts0) false l.txns = .ok rs → ∀ t ∈ rs, Settled t)
    (hbehind : ∀ text l, P.disk.read fn = some text → loadText P.today { st0 with items := [] } text = .ok l → AssertsBehind l.txns)
    (fe : FlagEnv) (w : Str) (fl : List (Str × Str)) (toks : List (List Str)) (tail args : List Str) (hw : commandOf w = some .register)
    (hl : List.Forall₂ (Written fe (flagsOf .register)) fl toks) (ht : Remaining tail args) (hna : NotAggregated fl) (hloc : boolFlag fl (str "f") = false)
    (hv : RegValid compile (filtersOf fe fl)) (hbang : boolFlag fl (str "r") = true → NoBang (filtersOf fe fl).payee)
    (out out' : Str) (hout : coinMain fe g (w :: (toks.flatten ++ tail)) = .ok out) (hout' : coinMain fe g' (w :: (toks.flatten ++ tail)) = .ok out') : out = out' := by
  obtain ⟨before, own, aft, rs, e1, e2, e3, text, lt, r1, r2, r3⟩ := C176_loads P P' st0 st accts0 L0 fn pre post c hA hfile hO.1 hc0 hc.amounts hcom hnames hids hP hlong hset
  obtain ⟨htx, htx', hdecls, hdflt, hown, hc'⟩ := formatted_state hA hO hO' hc0 hc e1 e2 e3
  obtain ⟨_, _, _, _, _, _, _, _, _, _, _, _, _, _, _, hR, _⟩ := hO.2
  obtain ⟨_, _, _, _, _, _, _, _, _, _, _, _, _, _, _, hR', _⟩ := hO'.2
  rw [hdflt, hdecls] at hR'
  have hperm := resolved_names_perm hR hR'
  have hn0 := (resolved_spec _ _ _ _ hA.2.1).1
  have hn := (resolved_spec _ _ _ _ hR).1
  have hb : AssertsBehind own := by rw [r3]; exact hbehind text lt r1 r2
  refine registers_same hO hO' hp hc hc' hperm ?_ fe w fl toks tail args hw hl ht hna hloc hv hbang out out' hout hout'
  intro d
  rw [htx, htx']
  simp only [List.filter_append]
  refine List.rel_append (List.rel_append (txnsLike_refl hperm _) ?_) (txnsLike_refl hperm _)
  unfold formatTxns resolveP at e2
  obtain ⟨ss, h3, h4⟩ := bind_ok.mp e2
  obtain ⟨us, h5, h6⟩ := bind_ok.mp h3
  cases h6; cases h4
  have : (stableSort pLess us).map (trimTxn false) = stableSort pLess us := by
    have : trimTxn false = id := rfl
    rw [this, List.map_id]
  rw [this]
  have hlike : List.Forall₂ (fun t r => TxnLike (accts.map (·.fullName)) (accts'.map (·.fullName)) t r ∧ assertsP t = assertsP r) own us :=
    forall2_imp_mem ((mapM_ok _ _ _).mp h5) (fun t ht' r hr => resolved_like hn hperm (env := formatEnv st0 accts0) (fun n => mustFind_perm hsame _ _) (formatEnv_one hn0 hc0.accounts) hr (hown t ht'))
  have hbu : AssertsBehind us := by
    clear h5 this e2 e1 e3 htx htx' hown h3 r3
    unfold AssertsBehind at hb ⊢
    induction hlike with
    | nil => exact .nil
    | @cons t r own us htr hl' ih =>
      obtain ⟨b1, b2⟩ := List.pairwise_cons.mp hb
      refine List.pairwise_cons.mpr ⟨?_, ih b2⟩
      intro r2 hr2 hd ha
      obtain ⟨t2, ht2, hh⟩ := forall2_mem_right hl' r2 hr2
      rw [← assertsP_iff, ← htr.2, assertsP_iff] at ha
      have := b1 t2 ht2 (by rw [htr.1.posted, hh.1.posted, hd]) ha
      rw [← assertsP_iff] at this ⊢
      rw [← hh.2]; exact this
  rw [sort_day hbu]
  refine forall2_filter (hlike.imp fun _ _ h => h.1) ?_
  intro t r _ hh
  rw [hh.posted]


/-! ### Non-vacuity -/

/-- All hypotheses of `C175_register_partial` hold of this ledger. -/
example (st' : LoadState) (accts' : List Acct) (g' : LedgerView) (hO : Opened fkInstall (fun _ => none) st' accts' g')
    (out : Str) (h : coinMain cmdFlags g' [str "register", str "Cash"] = .ok out) :
    str "Assets:Cash CAD\n2020/01/02 |  Pay | Unbalanced | 10.00 | 10.00 CAD*\n2020/01/02 | Shop |       Food | -3.50 | 6.50 CAD \n" = out :=
  C175_register_partial fkInstall (fun _ => none) (fkState fkTxns) st' fkAccts accts' _ g' (fk_opens fkInstall fkTxns _ fk_loads (by decide +kernel)).1 hO fk_plain progCad
    (fk_one fkTxns (by decide +kernel)) cmdFlags (str "register") [] [] [str "Cash"] [str "Cash"] (by decide) .nil (.plain (.inr (by decide))) (by unfold NotAggregated; decide) (by decide)
    ⟨fun h => absurd (by decide +kernel) h, fun h => absurd (by decide +kernel) h⟩ (fun h => absurd h (by decide)) _ _ (ok_of_opt fk_first) h

/-- The ledger of C176 with its transactions the other way round: the balance is asserted at the end of the day. -/
def rkDir : List (Str × Str) :=
  [(str "commodities.coin", str "commodity CAD\n  format 1.00 CAD\n"), (str "prices.coin", []),
   (str "accounts.coin", str "account Assets:Cash\naccount Food\n"),
   (str "transactions.coin", str "2020/01/02 Shop\n  Food  3.50 CAD\n  Cash\n\n2020/01/02 Pay\n  Cash  10.00 CAD = 6.50 CAD\n  Unbalanced  -10.00 CAD\n")]

def rkInstall : Install := ⟨dirDisk rkDir, ⟨2020, 1, 1⟩, 5, ledgerNames⟩
def rkNew : Str := str "2020/01/02 Shop\n  Food          3.50 CAD\n  Assets:Cash  -3.50 CAD\n\n2020/01/02 Pay\n  Assets:Cash   10.00 CAD = 6.50 CAD\n  Unbalanced   -10.00 CAD\n\n"
def rkAfter : Install := { rkInstall with disk := rkInstall.disk.put fkFile rkNew }
def rkPay (cash : Str) : PTxn := ⟨737425, [], str "Pay", [], [⟨cash, some ⟨1000, progCad⟩, some ⟨650, progCad⟩, []⟩, ⟨str "Unbalanced", some ⟨-1000, progCad⟩, none, []⟩]⟩
def rkTxns : List PTxn := [fkShop (str "Cash") none, rkPay (str "Cash")]
def rkTxns' : List PTxn := [fkShop (str "Assets:Cash") (some ⟨-350, progCad⟩), rkPay (str "Assets:Cash")]

theorem rk_opens0 : AccountsOpened rkInstall fkState0 fkAccts fkLinks := ⟨load_eq (by decide +kernel), fk_accounts, by decide +kernel⟩
theorem rk_loads : loadAllS rkInstall.disk rkInstall.today rkInstall.limit rkInstall.files ⟨[], str "CAD", []⟩ = .ok (fkState rkTxns) := load_eq (by decide +kernel)
theorem rk_loads' : loadAllS rkAfter.disk rkAfter.today rkAfter.limit rkAfter.files ⟨[], str "CAD", []⟩ = .ok (fkState rkTxns') := load_eq (by decide +kernel)

theorem rk_formats : formatInPlace rkInstall false fkState0 fkAccts fkFile = .ok rkAfter := by
  have e1 : loadFileS rkInstall.disk rkInstall.today rkInstall.limit fkState0 fkFile = .ok (fkState rkTxns) := load_eq (by decide +kernel)
  have e2 : formatTxns (formatEnv fkState0 fkAccts) false rkTxns = .ok rkTxns' := ok_of_opt (by decide +kernel)
  have e3 : ∃ lines, writeTxns (fun a => (fkState0.comOf fkAccts a).decimals) rkTxns' = .ok lines ∧ textOf lines = rkNew := by
    have h : (writeTxns (fun a => (fkState0.comOf fkAccts a).decimals) rkTxns').toOption.map textOf = some rkNew := by decide +kernel
    cases hx : writeTxns (fun a => (fkState0.comOf fkAccts a).decimals) rkTxns' with
    | error e => rw [hx] at h; cases h
    | ok r => rw [hx] at h; exact ⟨r, rfl, Option.some.inj h⟩
  obtain ⟨lines, e3, e4⟩ := e3
  unfold formatInPlace
  refine bind_ok.mpr ⟨_, e1, bind_ok.mpr ⟨rkTxns', ?_, bind_ok.mpr ⟨lines, e3, ?_⟩⟩⟩
  · rw [fkState_txns]; exact e2
  · rw [e4]; rfl

theorem rk_noIncludes : ∀ f g, ¬ Includes rkInstall.disk f g := by
  rintro f g ⟨text, hr, hg⟩
  have hall : ∀ e ∈ rkDir, includedBy rkInstall.disk e.1 ((scanLines e.2).length + 1) (scanLines e.2) = [] := by decide +kernel
  have hm : (f, text) ∈ rkDir := by
    have hl : ∀ (dir : List (Str × Str)) (t : Str), dir.lookup f = some t → (f, t) ∈ dir := by
      intro dir t
      induction dir with
      | nil => intro h; cases h
      | cons e dir ih =>
        intro h
        rw [List.lookup_cons] at h
        split at h
        · rename_i hf
          cases h
          rw [LawfulBEq.eq_of_beq hf]
          exact List.mem_cons_self
        · exact List.mem_cons_of_mem _ (ih h)
    exact hl rkDir text hr
  rw [hall _ hm] at hg
  cases hg

theorem rk_file : TxnFile rkInstall fkState0 fkFile [] [] := by
  refine ⟨by decide +kernel, ?_, ⟨_, { fkState0 with items := rkTxns.map .transaction }, rfl, load_eq (by decide +kernel), ?_⟩, ?_, by decide +kernel⟩
  · intro g hg hi
    have hne : g ≠ fkFile := by
      rcases hg with rfl | hg | rfl | hg | hg
      · decide
      · have : pricesFiles rkInstall.disk rkInstall.files = [str "prices.coin"] := by decide +kernel
        rw [this] at hg
        simp only [List.mem_singleton] at hg
        subst hg
        decide
      · decide
      · cases hg
      · cases hg
    rcases Relation.ReflTransGen.cases_head hi with rfl | ⟨b, hb, _⟩
    · exact hne rfl
    · exact rk_noIncludes _ _ hb
  · intro i hi
    obtain ⟨t, _, rfl⟩ := List.mem_map.mp hi
    exact ⟨t, rfl⟩
  · intro s hs
    have : loadBefore rkInstall [] = .ok fkState0 := load_eq (by decide +kernel)
    cases (this.symm.trans hs)
    exact ⟨rfl, rfl⟩

theorem rk_settled : ∀ t ∈ rkTxns', Settled t := by
  intro t ht
  unfold rkTxns' at ht
  simp only [List.mem_cons, List.not_mem_nil, or_false] at ht
  rcases ht with rfl | rfl
  · exact fk_settled _ (by unfold fkTxns'; exact List.mem_cons_self)
  · refine ⟨by unfold PlainYear; decide +kernel, by decide, by decide, by unfold SafeNotes; decide, by decide, ?_, ?_⟩
    · intro p hp
      simp only [rkPay, List.mem_cons, List.not_mem_nil, or_false] at hp
      rcases hp with rfl | rfl <;> (unfold SafeNotes; decide)
    · intro p hp q hq
      simp only [rkPay, List.mem_cons, List.not_mem_nil, or_false] at hp
      rcases hp with rfl | rfl <;> rcases hq with hq | hq <;> cases hq <;> (unfold FitsText progCad; decide)

theorem rk_short : ∀ text, rkAfter.disk.read fkFile = some text → ¬ Long text := by
  intro text h
  have : rkAfter.disk.read fkFile = some rkNew := by decide +kernel
  have e : rkNew = text := Option.some.inj (this.symm.trans h)
  rw [← e]
  unfold Long
  decide +kernel

theorem rk_text : ∀ text l, rkInstall.disk.read fkFile = some text → loadText rkInstall.today { fkState0 with items := [] } text = .ok l → l.txns = rkTxns := by
  intro text l h1 h2
  have k : loadText rkInstall.today { fkState0 with items := [] } text = .ok { fkState0 with items := rkTxns.map .transaction } := by
    have e : rkInstall.disk.read fkFile = some (str "2020/01/02 Shop\n  Food  3.50 CAD\n  Cash\n\n2020/01/02 Pay\n  Cash  10.00 CAD = 6.50 CAD\n  Unbalanced  -10.00 CAD\n") := by
      decide +kernel
    rw [← Option.some.inj (e.symm.trans h1)]
    exact load_eq (by decide +kernel)
  rw [← Except.ok.inj (k.symm.trans h2)]
  exact filterMap_txns _

theorem rk_reads : ∀ text l, rkInstall.disk.read fkFile = some text → loadText rkInstall.today { fkState0 with items := [] } text = .ok l →
    ∀ rs, formatTxns (formatEnv fkState0 fkAccts) false l.txns = .ok rs → ∀ t ∈ rs, Settled t := by
  intro text l h1 h2 rs h3
  have e : formatTxns (formatEnv fkState0 fkAccts) false rkTxns = .ok rkTxns' := ok_of_opt (by decide +kernel)
  rw [rk_text text l h1 h2, e] at h3
  rw [← Except.ok.inj h3]
  exact rk_settled

theorem rk_behind : AssertsBehind rkTxns := by
  unfold AssertsBehind rkTxns
  refine .cons ?_ (.cons (fun _ h => by cases h) .nil)
  intro u hu _ _
  rw [List.mem_singleton.mp hu]
  exact ⟨⟨str "Cash", some ⟨1000, progCad⟩, some ⟨650, progCad⟩, []⟩, List.mem_cons_self, rfl⟩

theorem rk_cad : CommodityName progCad.id := ⟨'C', str "AD", rfl, by decide, fun y hy => by
  rcases List.mem_cons.mp hy with rfl | hy
  · decide
  · rw [List.mem_singleton.mp hy]; decide⟩

theorem rk_open : Opened rkInstall (fun _ => none) (fkState rkTxns) fkAccts (fkView rkTxns fun _ => none) :=
  (fk_opens rkInstall rkTxns (fun _ => none) rk_loads (by decide +kernel)).1
theorem rk_open' : Opened rkAfter (fun _ => none) (fkState rkTxns') fkAccts (fkView rkTxns' fun _ => none) :=
  (fk_opens rkAfter rkTxns' (fun _ => none) rk_loads' (by decide +kernel)).1

theorem rk_shows : (coinMain cmdFlags (fkView rkTxns fun _ => none) [str "register", str "Cash"]).toOption =
    some (str "Assets:Cash CAD\n2020/01/02 | Shop |       Food | -3.50 | -3.50 CAD \n2020/01/02 |  Pay | Unbalanced | 10.00 | 6.50 CAD*\n") := by decide +kernel

/-- All hypotheses of `C176_register_partial` hold of this ledger. -/
example (out : Str) (h : coinMain cmdFlags (fkView rkTxns' fun _ => none) [str "register", str "Cash"] = .ok out) :
    str "Assets:Cash CAD\n2020/01/02 | Shop |       Food | -3.50 | -3.50 CAD \n2020/01/02 |  Pay | Unbalanced | 10.00 | 6.50 CAD*\n" = out :=
  C176_register_partial rkInstall rkAfter (fun _ => none) fkState0 (fkState rkTxns) (fkState rkTxns') fkAccts fkAccts fkAccts fkLinks
    (fkView rkTxns fun _ => none) (fkView rkTxns' fun _ => none) fkFile [] [] progCad rk_opens0 rk_file rk_formats rk_open rk_open' fk_plain fk_one0
    (fk_one rkTxns (by decide +kernel)) (.refl _) rk_cad fk_names (by decide +kernel) rk_short rk_reads
    (fun text l h1 h2 => by rw [rk_text text l h1 h2]; exact rk_behind)
    cmdFlags (str "register") [] [] [str "Cash"] [str "Cash"] (by decide) .nil (.plain (.inr (by decide))) (by unfold NotAggregated; decide) (by decide)
    ⟨fun h => absurd (by decide +kernel) h, fun h => absurd (by decide +kernel) h⟩ (fun h => absurd h (by decide)) _ _ (ok_of_opt rk_shows) h

end Verif
