import Verif.Props.BalanceText
import Verif.Props.ViewBalance
import Verif.Props.ReportTags
/-
C178: the text of the register, to the character.
-/
namespace Verif

/-! ## Specification -/

/-- A posting at its place in a transaction. -/
structure Place where
  txn : PTxn
  before : List PPost
  post : PPost
  after : List PPost

/-- The places of the postings `rest` that follow the postings `before`. -/
def placesIn (t : PTxn) : List PPost → List PPost → List Place
  | _, [] => []
  | before, p :: rest => ⟨t, before, p, rest⟩ :: placesIn t (before ++ [p]) rest

/-- All postings, in the order in which they were read. -/
def placesOf (ts : List PTxn) : List Place := ts.flatMap fun t => placesIn t [] t.postings

open Classical in
/-- The postings whose account name means `a` and that pass the filters, in the order in which they were read. -/
noncomputable def picked (names : List Str) (compile : Compile) (f : Filters) (ts : List PTxn) (a : Str) : List Place :=
  (placesOf ts).filter fun p => decide (Means names p.post.account a ∧ RegPicks compile f p.txn p.post)

/-- `m` is `l` in the order of days, postings of one day in the order they have in `l`. -/
def ByDay (l m : List Place) : Prop :=
  m.Pairwise (fun p q => p.txn.posted ≤ q.txn.posted) ∧
  ∀ d : Int, m.filter (fun p => decide (p.txn.posted = d)) = l.filter (fun p => decide (p.txn.posted = d))

/-- The entry shown for a posting: its account, the account of the first other posting of the transaction and the amount. -/
structure EntryAt (names : List Str) (comOf : Str → Com) (conv : Conv) (p : Place) (e : Entry) : Prop where
  txn : e.txn = p.txn
  post : e.post = p.post
  acct : Means names p.post.account e.acct
  other : ∃ q, (p.before ++ p.after).head? = some q ∧ Means names q.account e.other
  amount : AmountOf names comOf conv p.txn p.post e.amount

/-- The totals of the entries are the sums of the amounts up to them. -/
def RunningTotals (conv : Conv) (c : Com) (entries : List Entry) : Prop :=
  ∀ (i : Nat) (hi : i < entries.length), entries[i].total.com = c ∧ SumOf conv c ((entries.take (i + 1)).map (·.amount)) entries[i].total.int

/-- The largest of some numbers, 0 if there are none. -/
def largest : List Int → Int
  | [] => 0
  | n :: l => max n (largest l)

/-- How much of a text the decimal point and the digits after it take. -/
def tailLen (c : Com) : Int := if c.decimals = 0 then 0 else (c.decimals : Int) + 1

/-- The room for the amount `a` with the digits after the point that `c` has: the length of its text when it is in `c`. -/
def RoomFor (c : Com) (a : Amount) (n : Int) : Prop := ∃ s, a.string = .ok s ∧ n = (s.length : Int) - tailLen a.com + tailLen c

/-- `s` in a column of width `w`: blanks in front, or behind when `w` is negative. -/
def inColumn (w : Int) (s : Str) : Str := if w < 0 then s ++ rep (w.natAbs - s.length) ' ' else rep (w.toNat - s.length) ' ' ++ s

/-- The line of an entry; the columns of descriptions and accounts are as wide as the longest of them (in bytes), descriptions at most 50 and accounts at
most `width`, and the account the report is for is cut off the accounts shown (but the width of the other account is taken without that cut);
that of the amounts is `wq` wide, that of the totals `wt`. -/
def ExactLine (comOf : Str → Com) (pre : Str) (width : Int) (long location : Bool) (entries : List Entry) (wq wt : Int) (e : Entry) (line : Str) : Prop :=
  ∃ q t loc, e.amount.string = .ok q ∧ e.total.string = .ok t ∧
    line = formatDate e.txn.posted ++
      str " | " ++ inColumn (min (largest (entries.map fun e => (blen e.txn.description : Int))) 50) e.txn.description ++
      (if long then str " | " ++ inColumn (min (largest (entries.map fun e => (blen (trimPrefix e.acct pre) : Int))) width) (shortenAccountName (trimPrefix e.acct pre) width) else []) ++
      str " | " ++ inColumn (min (largest (entries.map fun e => (blen e.other : Int))) width) (shortenAccountName (trimPrefix e.other pre) width) ++
      str " | " ++ inColumn wq q ++ str " | " ++ inColumn wt t ++ str " " ++ (comOf e.acct).id ++ [if e.post.balance.isSome then '*' else ' '] ++
      (if location then str "| " ++ loc else [])

/-- The lines of the register for `r`, to the character. -/
structure ExactRegister (names : List Str) (comOf : Str → Com) (conv : Conv) (compile : Compile) (f : Filters) (ts : List PTxn) (r : Str)
    (recurse location notes : Bool) (width : Int) (lines : List Str) : Prop where
  exact : ∃ (accs : List Str) (places : List Place) (entries : List Entry) (wqs : List Int) (wt : Int) (texts : List Str),
    (∀ a, a ∈ accs ↔ a ∈ names ∧ if recurse then InSub r a else a = r) ∧ accs.Pairwise NameBefore ∧
    ByDay (accs.flatMap (picked names compile f ts)) places ∧
    List.Forall₂ (EntryAt names comOf conv) places entries ∧
    RunningTotals conv (comOf r) entries ∧
    List.Forall₂ (fun e n => RoomFor (comOf e.acct) e.amount n) entries wqs ∧
    (∀ e, entries.getLast? = some e → RoomFor (comOf r) e.total wt) ∧
    List.Forall₂ (ExactLine comOf r width recurse location entries (largest wqs) wt) entries texts ∧
    lines = (entries.zip texts).flatMap (fun e => e.2 :: entryNotes notes e.1)

/-! ## Widths -/

theorem string_small {a : Amount} {s : Str} (h : a.string = .ok s) : a.com.decimals ≤ 50 := by
  by_contra hc
  unfold Amount.string at h
  rw [bigPow10_panic (by omega)] at h
  cases h

theorem width_room {a : Amount} {c : Com} {w : Int} {s : Str} (hs : a.string = .ok s) (h : a.width c.decimals = .ok w) : RoomFor c a w := by
  refine ⟨s, hs, ?_⟩
  obtain ⟨s', h1, h2⟩ := C08_width a (string_small hs) (width_small h)
  cases hs.symm.trans h1
  unfold Amount.width at h h2
  cases hl : bigLog10 a.int with
  | error e => rw [hl] at h; cases h
  | ok k =>
    rw [hl] at h h2
    simp only [bind, Except.bind, pure, Except.pure, Except.ok.injEq] at h h2
    unfold tailLen
    rw [← h, ← h2]
    split_ifs <;> omega

theorem room_unique {c : Com} {a : Amount} {m n : Int} (h : RoomFor c a m) (h' : RoomFor c a n) : m = n := by
  obtain ⟨s, h1, h2⟩ := h
  obtain ⟨s', h3, h4⟩ := h'
  cases h1.symm.trans h3
  omega

theorem padStar_column (w : Int) (s : Str) : padStar w s = inColumn w s := rfl

/-! ## Places in the heap -/

/-- The posting `r` of the heap is the posting at the place `p`. -/
def PStands (heap : Heap) (txns : List Txn) (r : PRef) (p : Place) : Prop :=
  heap r = dataOf p.txn.posted p.post ∧ ∃ t' l1 l2, t' ∈ txns ∧ Laid heap t' p.txn ∧ t'.postings = l1 ++ r :: l2 ∧
    List.Forall₂ (fun q x => heap q = dataOf p.txn.posted x) l1 p.before ∧ List.Forall₂ (fun q x => heap q = dataOf p.txn.posted x) l2 p.after

theorem PStands.stands {heap : Heap} {txns : List Txn} {r : PRef} {p : Place} (h : PStands heap txns r p) : Stands heap txns r (p.txn, p.post) := by
  obtain ⟨h1, t', l1, l2, h2, h3, h4, _⟩ := h
  exact ⟨h1, t', h2, by rw [h4]; simp, h3⟩

theorem placesIn_stand {heap : Heap} {txns : List Txn} {t' : Txn} {t : PTxn} (ht : t' ∈ txns) (hl : Laid heap t' t) : ∀ (rest : List PRef) (ps : List PPost) (l1 : List PRef) (before : List PPost),
    t'.postings = l1 ++ rest → List.Forall₂ (fun q x => heap q = dataOf t.posted x) l1 before → List.Forall₂ (fun q x => heap q = dataOf t.posted x) rest ps →
    List.Forall₂ (PStands heap txns) rest (placesIn t before ps) := by
  intro rest
  induction rest with
  | nil => intro ps l1 before _ _ h; cases h; exact .nil
  | cons r rest ih =>
    intro ps l1 before e h1 h2
    cases h2 with
    | @cons _ p _ ps hrp h2 =>
      rw [placesIn]
      refine .cons ⟨hrp, t', l1, rest, ht, hl, e, h1, h2⟩ (ih ps (l1 ++ [r]) (before ++ [p]) (by rw [e]; simp) (List.rel_append h1 (.cons hrp .nil)) h2)

theorem places_stand (ts : List PTxn) : List.Forall₂ (PStands (heapOf ts) (txnsFrom 0 ts)) ((txnsFrom 0 ts).flatMap (·.postings)) (placesOf ts) := by
  unfold placesOf
  refine forall2_flatMap (heapOf_laid ts) ?_
  intro t' ht' t hl
  exact placesIn_stand ht' hl t'.postings t.postings [] [] rfl .nil hl.2.2.2

theorem PStands.other {heap : Heap} {txns : List Txn} (hn : (txns.flatMap (·.postings)).Nodup) {r q : PRef} {p : Place} (h : PStands heap txns r p) {t' : Txn}
    (ht : txnOf txns r = some t') (ho : other t'.postings r = some q) :
    ∃ x, (p.before ++ p.after).head? = some x ∧ Stands heap txns q (p.txn, x) := by
  obtain ⟨h1, t1, l1, l2, h2, h3, h4, h5, h6⟩ := h
  obtain ⟨t, before, p, after⟩ := p
  dsimp only at h1 h3 h5 h6 ⊢
  have : t1 = t' := by
    have := txnOf_unique hn h2 (r := r) (by rw [h4]; simp)
    rw [this] at ht
    exact Option.some.inj ht
  subst this
  have hnt : t1.postings.Nodup := (List.nodup_flatMap.mp hn).1 t1 h2
  have hmem : q ∈ t1.postings := List.mem_of_find?_eq_some ho
  unfold Verif.other at ho
  rw [h4] at ho hnt
  revert ho
  cases h5 with
  | nil =>
    intro ho
    rw [List.nil_append, List.find?_cons] at ho
    simp only [ne_eq, not_true_eq_false, decide_false] at ho
    cases h6 with
    | nil => cases ho
    | @cons x y l2 m2 hxy h6 =>
      have : x ≠ r := by rintro rfl; simp at hnt
      rw [List.find?_cons] at ho
      simp only [ne_eq, this, not_false_eq_true, decide_true] at ho
      injection ho with ho
      subst ho
      exact ⟨y, rfl, hxy, t1, h2, hmem, h3⟩
  | @cons x y l1 m1 hxy h5 =>
    intro ho
    have : x ≠ r := by rintro rfl; simp at hnt
    rw [List.cons_append, List.find?_cons] at ho
    simp only [ne_eq, this, not_false_eq_true, decide_true] at ho
    injection ho with ho
    subst ho
    exact ⟨y, rfl, hxy, t1, h2, hmem, h3⟩

/-! ## The order of the postings -/

/-- The selected postings of an account of a loaded ledger, in the order of days and, on a day, of the files. -/
theorem loaded_days {env : Env} {ts : List PTxn} {walk : List Str} {fin : Loaded} {sorted : List Txn} (hw : walk.Nodup)
    (h : resolveTransactions env (heapOf ts) (txnsFrom 0 ts) walk = .ok (fin, sorted)) (a : Str) (d : Int) :
    (fin.books.postings a).filter (fun r => decide ((fin.heap r).posted = d)) =
      (((txnsFrom 0 ts).flatMap (·.postings)).filter (owned env (heapOf ts) a)).filter (fun r => decide ((fin.heap r).posted = d)) := by
  have hp := heapOf_parsed ts
  obtain ⟨st, h1, h2, _⟩ := load_parts h
  obtain ⟨g1, _, g3, _⟩ := phase2 hp hw h1 h2
  obtain ⟨_, hb, hs1, _⟩ := phase1 hp h1
  have ho := resolveTxns_order (txnsFrom 0 ts) (st := ⟨heapOf ts, Books.empty⟩) (done := []) (BInv.empty env (heapOf ts)) (by simpa using hp.nodup)
    (by intro x d; rfl) h1
  rw [List.nil_append] at ho
  have hd : ∀ p, (fin.heap p).posted = (heapOf ts p).posted := fun p => ((g3 p).1).trans (hs1 p).1
  simp only [hd]
  rw [g1, ho a d, List.filter_filter]
  apply List.filter_congr
  intro p _
  rw [Bool.and_comm]

theorem flatMap_days {α β : Type} {F G : α → List β} {P : β → Bool} : ∀ (l : List α), (∀ a ∈ l, (F a).filter P = (G a).filter P) → (l.flatMap F).filter P = (l.flatMap G).filter P := by
  intro l
  induction l with
  | nil => intro _; rfl
  | cons a l ih =>
    intro h
    rw [List.flatMap_cons, List.flatMap_cons, List.filter_append, List.filter_append, h a (by simp), ih (fun b hb => h b (by simp [hb]))]

/-- The postings listed, in their order, and the totals. -/
theorem register_ordered {L : Links} {dflt : Str} {decls accts : List Acct} (h : ResolvedAccounts dflt decls accts L) (hp : PlainNames (accts.map (·.fullName))) (env : Env) (compile : Compile)
    (v : View) (siblings : PRef → List PRef) (f : Filters) (hv : RegValid compile f) (fuel : Nat) (recurse : Bool) (r : Str)
    (hr : r ∈ accts.map (·.fullName)) (hs : ∀ a ∈ accts.map (·.fullName), InDateOrder v.date (v.postings a))
    (hf : treeFuel (accts.map (·.fullName)) ≤ fuel) (hbang : recurse = true → NoBang f.payee) (rows : List (PRef × PRef × Amount))
    (hrun : fullRegister env compile v siblings L fuel f recurse r = .ok rows) :
    ∃ accs : List Str, (∀ a, a ∈ accs ↔ a ∈ accts.map (·.fullName) ∧ if recurse then InSub r a else a = r) ∧ accs.Pairwise NameBefore ∧
      rows.map (·.1) = stableSort (fun p q => decide (v.date p < v.date q)) (accs.flatMap (regSelectedOf compile v f)) ∧
      ∀ (i : Nat) (hi : i < rows.length), (rows[i].2.2).com = env.comOf r ∧
        SumOf env.conv (env.comOf r) ((rows.take (i + 1)).map (fun row => v.qty row.1)) (rows[i].2.2).int := by
  have t := TreeOK.of h
  have hsort : ∀ p, (L.children p).Pairwise (fun a b => strLt (parentAndName b).2 (parentAndName a).2 = false) := by
    obtain ⟨_, _, _, _, _, _, _, _, _, hs⟩ := h; exact fun p => (hs p).2
  set names := accts.map (·.fullName)
  have hmem := t.mem_walk r hr
  unfold fullRegister at hrun
  cases recurse with
  | false =>
    simp only [Bool.false_eq_true, if_false] at hrun ⊢
    rw [registerTrim_spec compile v f r hv (hs r hr)] at hrun
    obtain ⟨g1, g2⟩ := printRows_sums hrun
    refine ⟨[r], ?_, by simp, ?_, g2⟩
    · intro a
      rw [List.mem_singleton]
      exact ⟨fun e => ⟨e ▸ hr, e⟩, fun e => e.2⟩
    · rw [g1, List.flatMap_cons, List.flatMap_nil, List.append_nil, stableSort_id]
      have : (regSelectedOf compile v f r).Pairwise (fun p q => v.date p ≤ v.date q) := (hs r hr).filter _
      exact this.imp (by intro a b hab; simpa using hab)
  | true =>
    simp only [if_true] at hrun ⊢
    rw [t.walk_fuel fuel hf r hr, registerWalk_spec compile v f hv (hbang rfl) _ (fun a ha => hs a ((hmem a).mp ha).1)] at hrun
    obtain ⟨g1, g2⟩ := printRows_sums hrun
    have e : ((walkOf names L r).map (fun a => (a, regSelectedOf compile v f a))).flatMap (·.2) =
        (walkOf names L r).flatMap (regSelectedOf compile v f) := by
      rw [List.flatMap_map]
    rw [e] at g1
    exact ⟨walkOf names L r, hmem, t.walk_sorted hp hsort r hr, g1, g2⟩


/-- The rows of the register of a loaded ledger, in their order. -/
theorem opened_ordered {P : Install} {compile : Compile} {st : LoadState} {accts : List Acct} {g : LedgerView} (hO : Opened P compile st accts g)
    (hpl : PlainNames (accts.map (·.fullName))) (f : Filters) (hv : RegValid compile f) (recurse : Bool) (hbang : recurse = true → NoBang f.payee) {r : Str} (hr : r ∈ accts.map (·.fullName))
    {rows : List (PRef × PRef × Amount)} (hrun : fullRegister g.env g.compile g.view g.siblings g.links g.fuel f recurse r = .ok rows) :
    Rates st g.env.conv ∧ g.env.comOf = st.comOf accts ∧
    ∃ (accs : List Str) (places : List Place) (entries : List Entry), (∀ a, a ∈ accs ↔ a ∈ accts.map (·.fullName) ∧ if recurse then InSub r a else a = r) ∧ accs.Pairwise NameBefore ∧
      ByDay (accs.flatMap (picked (accts.map (·.fullName)) compile f st.txns)) places ∧
      List.Forall₂ (EntryAt (accts.map (·.fullName)) (st.comOf accts) g.env.conv) places entries ∧
      List.Forall₂ (RowShows st (accts.map (·.fullName)) (st.comOf accts) g) rows entries ∧
      RunningTotals g.env.conv (st.comOf accts r) entries := by
  classical
  obtain ⟨hl, items, db, ord, fuel, L, walk, fin, sorted, bound, location, order, hi1, hi2, hi3, hi4, hA, hsome, hwalk, hres, hbound, rfl⟩ := hO
  obtain ⟨hn, _, _, _, hroot⟩ := resolved_spec _ _ _ _ hA
  have hw : walk.Nodup := hwalk.nodup_iff.mpr hn
  have hp := heapOf_parsed st.txns
  refine ⟨⟨items, db, ord, fuel, hi1, hi2, hi3, hi4, rfl⟩, rfl, ?_⟩
  set env := Env.ofAccounts accts (st.comOf accts) patternMatches (convWith db ord fuel) with henv
  have hfuel : treeFuel (accts.map (·.fullName)) ≤ bound := by
    have hne : ∃ x, x ∈ accts.map (·.fullName) := ⟨_, hroot⟩
    exact treeFuel_le hne (by intro x hx; obtain ⟨a, ha, rfl⟩ := List.mem_map.mp hx; exact hbound a ha)
  have hsort : ∀ a ∈ accts.map (·.fullName), InDateOrder (viewOf (fun n => (parseTags n).toTags) fin (txnsFrom 0 st.txns)).date
      ((viewOf (fun n => (parseTags n).toTags) fin (txnsFrom 0 st.txns)).postings a) := by
    intro a _
    obtain ⟨st', h1, h2, _⟩ := load_parts hres
    obtain ⟨_, hb, hs1, _⟩ := phase1 hp h1
    obtain ⟨g1, _, g3, _⟩ := phase2 hp hw h1 h2
    show InDateOrder (fun p => (fin.heap p).posted) (fin.books.postings a)
    rw [g1]
    have hd : ∀ p, (fin.heap p).posted = (heapOf st.txns p).posted := fun p => ((g3 p).1).trans (hs1 p).1
    unfold InDateOrder
    simp only [hd]
    exact hb.sorted a
  have hrun : fullRegister env compile (viewOf (fun n => (parseTags n).toTags) fin (txnsFrom 0 st.txns)) (siblingsOf (txnsFrom 0 st.txns)) L bound f recurse r = .ok rows := hrun
  obtain ⟨accs, k0, k1, k2, k3⟩ := register_ordered hA hpl env compile _ _ f hv bound recurse r hr hsort hfuel hbang rows hrun
  have hoth := fullRegister_other hrun
  set v := viewOf (fun n => (parseTags n).toTags) fin (txnsFrom 0 st.txns) with hvdef
  have hvd : v.date = fun p => (fin.heap p).posted := rfl
  -- the postings of the files selected for the accounts
  let refs := (txnsFrom 0 st.txns).flatMap (·.postings)
  let sel : Str → List PRef := fun a => (refs.filter (owned env (heapOf st.txns) a)).filter (fun p => decide (RegSelected compile v f p))
  have hPS : ∀ a, List.Forall₂ (PStands (heapOf st.txns) (txnsFrom 0 st.txns)) (sel a) (picked (accts.map (·.fullName)) compile f st.txns a) := by
    intro a
    show List.Forall₂ _ ((refs.filter (owned env (heapOf st.txns) a)).filter (fun p => decide (RegSelected compile v f p))) _
    rw [List.filter_filter]
    unfold picked
    refine forall2_filter (places_stand st.txns) ?_
    intro x p hx hst
    obtain ⟨s1, s2, s3, ⟨t', s4, s5, _⟩, _⟩ := loaded_shown hw hres hst.stands
    rw [Bool.eq_iff_iff, Bool.and_eq_true, decide_eq_true_iff, decide_eq_true_iff, owned_iff, and_comm]
    refine and_congr ?_ ?_
    · unfold accountOf
      rw [hst.1]
      rfl
    · unfold RegSelected RegPicks
      simp only [hvdef, viewOf, s4, Option.map_some, Option.getD_some, s1, s3, s5.2.1, s5.2.2.1, toTags_getD]
  have hdate : ∀ x p, PStands (heapOf st.txns) (txnsFrom 0 st.txns) x p → v.date x = p.txn.posted := by
    intro x p hst
    exact (loaded_shown hw hres hst.stands).1
  -- sorting them
  have hday : ∀ d, (accs.flatMap (regSelectedOf compile v f)).filter (fun x => decide (v.date x = d)) = (accs.flatMap sel).filter (fun x => decide (v.date x = d)) := by
    intro d
    refine flatMap_days accs ?_
    intro a _
    show ((fin.books.postings a).filter (fun p => decide (RegSelected compile v f p))).filter (fun x => decide ((fin.heap x).posted = d)) =
      ((refs.filter (owned env (heapOf st.txns) a)).filter (fun p => decide (RegSelected compile v f p))).filter (fun x => decide ((fin.heap x).posted = d))
    have hc : ∀ l : List PRef, (l.filter (fun p => decide (RegSelected compile v f p))).filter (fun x => decide ((fin.heap x).posted = d)) =
        (l.filter (fun x => decide ((fin.heap x).posted = d))).filter (fun p => decide (RegSelected compile v f p)) := by
      intro l
      rw [List.filter_filter, List.filter_filter]
      congr 1
      funext p
      rw [Bool.and_comm]
    rw [hc, hc, loaded_days hw hres a d]
  have hsd : ∀ l : List PRef, (stableSort (fun p q => decide (v.date p < v.date q)) l).Pairwise (fun p q => v.date p ≤ v.date q) := by
    intro l
    exact (stableSort_sorted _ (dateLt_strictWeak v.date) l).imp (by intro a b hab; simpa using hab)
  have hsf : ∀ (l : List PRef) d, (stableSort (fun p q => decide (v.date p < v.date q)) l).filter (fun x => decide (v.date x = d)) = l.filter (fun x => decide (v.date x = d)) := by
    intro l d
    refine stableSort_filter _ _ ?_ l
    intro a b ha hb
    simp only [decide_eq_true_eq] at ha hb
    simp only [decide_eq_false_iff_not]
    omega
  have e2 : rows.map (·.1) = stableSort (fun p q => decide (v.date p < v.date q)) (accs.flatMap sel) := by
    rw [k2]
    refine sorted_days_unique v.date _ _ _ rfl (hsd _) (hsd _) ?_
    intro d
    rw [hsf, hsf, hday]
  have hall : List.Forall₂ (PStands (heapOf st.txns) (txnsFrom 0 st.txns)) (accs.flatMap sel) (accs.flatMap (picked (accts.map (·.fullName)) compile f st.txns)) := by
    clear k0 k1 k2 hday e2
    induction accs with
    | nil => exact .nil
    | cons a as ih => rw [List.flatMap_cons, List.flatMap_cons]; exact List.rel_append (hPS a) ih
  have hplaces := stableSort_forall2 (lt := fun p q => decide (v.date p < v.date q)) (lt' := fun p q : Place => decide (p.txn.posted < q.txn.posted)) hall
    (by intro a _ a' ha b _ b' hb; rw [hdate a a' ha, hdate b b' hb])
  rw [← e2, List.forall₂_map_left_iff] at hplaces
  set places := stableSort (fun p q : Place => decide (p.txn.posted < q.txn.posted)) (accs.flatMap (picked (accts.map (·.fullName)) compile f st.txns)) with hpldef
  obtain ⟨entries, h5, h6⟩ := forall2_lift (S := fun row (x : Place × Entry) => EntryAt (accts.map (·.fullName)) (st.comOf accts) env.conv x.1 x.2 ∧
      RowShows st (accts.map (·.fullName)) (st.comOf accts) (ledgerView env compile L fin (txnsFrom 0 st.txns) bound location order) row x.2)
    (k := fun x : Place × Entry => x.1) hplaces (by
      rintro row hrow p _ hst
      obtain ⟨s1, s2, s3, ⟨t', s4, s5, s6, s7⟩, a, s8, s9⟩ := loaded_shown hw hres hst.stands
      have ho := hoth row hrow
      unfold siblingsOf at ho
      rw [s4] at ho
      have ho : other t'.postings row.1 = some row.2.1 := ho
      obtain ⟨x, e1, hst'⟩ := hst.other hp.nodup s4 ho
      obtain ⟨_, _, _, _, a', u8, u9⟩ := loaded_shown hw hres hst'
      have hnt : t'.postings.Nodup := (List.nodup_flatMap.mp hp.nodup).1 t' s6
      obtain ⟨before, after, p', f1, f2, f3, f4⟩ := other_first s5 hnt s7 hst.stands.1 ho
      have hst2 : Stands (heapOf st.txns) (txnsFrom 0 st.txns) row.2.1 (p.txn, p') := ⟨f3, t', s6, f4, s5⟩
      obtain ⟨_, _, _, _, a2, w8, w9⟩ := loaded_shown hw hres hst2
      have ea : a2 = a' := Option.some.inj (w8.symm.trans u8)
      subst ea
      have ham := loaded_amount hw hres (fun _ => rfl) hst.stands
      refine ⟨(p, ⟨p.txn, p.post, a, a2, v.qty row.1, row.2.2⟩), ⟨⟨rfl, rfl, s9, ⟨x, e1, u9⟩, ham⟩, ⟨⟨s9, ⟨before, after, p', f1, f2, w9⟩, ham⟩, s1, ?_, rfl, rfl, ?_, ?_, s2, s3, ?_⟩⟩, rfl⟩
      · show ((txnOf (txnsFrom 0 st.txns) row.1).map (·.description)).getD [] = p.txn.description
        rw [s4]; exact s5.2.1
      · show (fin.books.account row.1).getD [] = a
        rw [s8]; rfl
      · show (fin.books.account row.2.1).getD [] = a2
        rw [u8]; rfl
      · show ((txnOf (txnsFrom 0 st.txns) row.1).map (·.notes)).getD [] = p.txn.notes
        rw [s4]; exact s5.2.2.1)
  have hrs : List.Forall₂ (RowShows st (accts.map (·.fullName)) (st.comOf accts) (ledgerView env compile L fin (txnsFrom 0 st.txns) bound location order)) rows (entries.map (·.2)) := by
    rw [List.forall₂_map_right_iff]
    exact h5.imp (fun _ _ h => h.2)
  refine ⟨accs, places, entries.map (·.2), k0, k1, ⟨?_, ?_⟩, ?_, hrs, ?_⟩
  · have sw : StrictWeak (fun p q : Place => decide (p.txn.posted < q.txn.posted)) := intLt_strictWeak.comap (fun p : Place => p.txn.posted)
    exact (stableSort_sorted _ sw _).imp (by intro a b hab; simpa using hab)
  · intro d
    refine stableSort_filter _ _ ?_ _
    intro a b ha hb
    simp only [decide_eq_true_eq] at ha hb
    simp only [decide_eq_false_iff_not]
    omega
  · rw [← h6]
    clear h6 hrs
    have : ∀ x ∈ entries, EntryAt (accts.map (·.fullName)) (st.comOf accts) env.conv x.1 x.2 := by
      intro x hx
      obtain ⟨_, _, hh⟩ := forall2_mem_right h5 x hx
      exact hh.1
    rw [List.forall₂_map_left_iff, List.forall₂_map_right_iff, List.forall₂_same]
    exact this
  · generalize entries.map (·.2) = es at hrs
    intro i hi
    have hlen := hrs.length_eq
    have e1 : rows.map (fun row => v.qty row.1) = es.map (·.amount) := forall2_map hrs (fun _ _ h => h.qty)
    have e2 : rows.map (fun row => row.2.2) = es.map (·.total) := forall2_map hrs (fun _ _ h => h.total)
    obtain ⟨g1, g2⟩ := k3 i (by omega)
    have e3 : rows[i].2.2 = es[i].total := by
      have := List.getElem_of_eq e2 (i := i) (by simp; omega)
      simpa using this
    rw [List.map_take, e1, ← List.map_take, e3] at g2
    rw [e3] at g1
    exact ⟨g1, g2⟩

/-! ## The text -/

theorem printWidths_exact {st : LoadState} {names : List Str} {comOf : Str → Com} {g : LedgerView} (pre : Str) : ∀ {rows : List (PRef × PRef × Amount)} {entries : List Entry},
    List.Forall₂ (RowShows st names comOf g) rows entries → (∀ row ∈ rows, ∃ s, (g.view.qty row.1).string = .ok s) →
    ∀ {w : Int × Int × Int × Int}, printWidths g.view g.print comOf pre rows = .ok w →
    ∃ wqs, List.Forall₂ (fun e n => RoomFor (comOf e.acct) e.amount n) entries wqs ∧
      w = (largest (entries.map fun e => (blen e.txn.description : Int)), largest (entries.map fun e => (blen (trimPrefix e.acct pre) : Int)), largest wqs,
        largest (entries.map fun e => (blen e.other : Int))) := by
  intro rows entries h
  induction h with
  | nil => intro _ w hw; cases hw; exact ⟨[], .nil, rfl⟩
  | @cons row e rows entries hre _ ih =>
    intro hs w hw
    rw [printWidths] at hw
    obtain ⟨n, h1, hw⟩ := bind_ok.mp hw
    obtain ⟨x, h2, hw⟩ := bind_ok.mp hw
    injection hw with hw
    obtain ⟨wqs, h3, rfl⟩ := ih (fun r hr => hs r (by simp [hr])) h2
    obtain ⟨s, h4⟩ := hs row (by simp)
    refine ⟨n :: wqs, .cons ?_ h3, ?_⟩
    · rw [hre.acct] at h1
      rw [hre.qty] at h1 h4
      exact width_room h4 h1
    · rw [← hw, hre.payee, hre.acct, hre.other]
      rfl

/-- **C178** The register, to the character: whenever the command prints something, it prints the heading (unless `-o` asks for another format) and
exactly the lines of `ExactRegister` for the account asked for. -/
theorem C178_register_text (P : Install) (compile : Compile) (st : LoadState) (accts : List Acct) (g : LedgerView) (hO : Opened P compile st accts g)
    (hp : PlainNames (accts.map (·.fullName)))
    (fe : FlagEnv) (w : Str) (l : List (Str × Str)) (toks : List (List Str)) (tail args : List Str) (hw : commandOf w = some .register)
    (hl : List.Forall₂ (Written fe (flagsOf .register)) l toks) (ht : Remaining tail args) (hna : NotAggregated l)
    (hv : RegValid compile (filtersOf fe l)) (hbang : boolFlag l (str "r") = true → NoBang (filtersOf fe l).payee)
    (out : Str) (hout : coinMain fe g (w :: (toks.flatten ++ tail)) = .ok out) :
    ∃ conv a rest r lines, Rates st conv ∧ args = a :: rest ∧ Means (accts.map (·.fullName)) a r ∧
      ExactRegister (accts.map (·.fullName)) (st.comOf accts) conv compile (filtersOf fe l) st.txns r (boolFlag l (str "r")) (boolFlag l (str "f")) (boolFlag l (str "n"))
        (if fe.intFlag l (str "l") 12 = 0 then 15 else fe.intFlag l (str "l") 12) lines ∧
      out = textOf ((if textFlag l (str "o") (str "text") = str "text" then [r ++ ' ' :: (st.comOf accts r).id] else []) ++ lines) := by
  have hnames : g.names = accts.map (·.fullName) ∧ g.matcher = patternMatches ∧ (accts.map (·.fullName)).Nodup := by
    obtain ⟨_, _, _, _, _, _, _, _, _, _, _, _, _, _, _, _, hA, _, _, _, _, rfl⟩ := hO
    exact ⟨rfl, rfl, (resolved_spec _ _ _ _ hA).1⟩
  unfold coinMain at hout
  rw [dispatch_written hw hl ht] at hout
  have hout : registerMain fe g l args = .ok out := hout
  unfold registerMain at hout
  cases args with
  | nil => cases hout
  | cons a rest =>
    simp only at hout
    have hper : flagPeriod l = none := by
      unfold flagPeriod
      rw [hna _ (by simp), hna _ (by simp), hna _ (by simp), hna _ (by simp)]; rfl
    have hcat : categoryOf g l = none := by
      unfold categoryOf
      rw [hna (str "bp") (by simp), hna (str "bt") (by simp)]; rfl
    rw [hna (str "bp") (by simp)] at hout
    rw [if_neg (by simp), hper, hcat] at hout
    obtain ⟨r, hr, hout⟩ := bind_ok.mp hout
    have hm : Means (accts.map (·.fullName)) a r := by
      unfold LedgerView.find at hr
      rw [hnames.1, hnames.2.1] at hr
      exact hr
    obtain ⟨body, hb, hout⟩ := bind_ok.mp hout
    simp only [Option.isSome_none, Bool.or_self, Bool.false_eq_true, if_false] at hb
    obtain ⟨ls, hfm, hb⟩ := bind_ok.mp hb
    injection hb with hb
    injection hout with hout
    unfold fullMain at hfm
    obtain ⟨rows, hrows, hpt⟩ := bind_ok.mp hfm
    obtain ⟨c1, c2, accs, places, entries, h1, h2, h3, h4, h5, h6⟩ := opened_ordered hO hp (filtersOf fe l) hv (boolFlag l (str "r")) hbang (mustFind_mem hnames.2.2 hm) hrows
    rw [c2] at hpt
    refine ⟨g.env.conv, a, rest, r, ls, c1, rfl, hm, ⟨?_⟩, ?_⟩
    · unfold printText at hpt
      rcases hlast : rows.getLast? with _ | last
      · rw [hlast] at hpt
        injection hpt with hpt
        have hnil : rows = [] := List.getLast?_eq_none_iff.mp hlast
        subst hnil
        cases h5
        exact ⟨accs, places, [], [], 0, [], h1, h2, h3, h4, h6, .nil, by simp, .nil, hpt.symm⟩
      · rw [hlast] at hpt
        dsimp only at hpt
        obtain ⟨ws, hws, hpt⟩ := bind_ok.mp hpt
        obtain ⟨tw, htw, hpt⟩ := bind_ok.mp hpt
        obtain ⟨texts, k1, k2⟩ := printEntries_spec _ _ _ _ _ ws tw rows ls hpt
        have hstr : ∀ row ∈ rows, (∃ s, (g.view.qty row.1).string = .ok s) ∧ ∃ s, row.2.2.string = .ok s := by
          intro row hrow
          obtain ⟨line, _, hline⟩ := forall2_mem_left k1 row hrow
          obtain ⟨q, t, e1, e2, _⟩ := printLine_spec hline
          exact ⟨⟨q, e1⟩, t, e2⟩
        obtain ⟨wqs, k3, rfl⟩ := printWidths_exact r h5 (fun row hrow => (hstr row hrow).1) hws
        refine ⟨accs, places, entries, wqs, tw, texts, h1, h2, h3, h4, h6, k3, ?_, ?_, ?_⟩
        · intro e he
          have e1 : rows.map (fun row => row.2.2) = entries.map (·.total) := forall2_map h5 (fun _ _ h => h.total)
          have e2 := congrArg List.getLast? e1
          rw [List.getLast?_map, List.getLast?_map, hlast, he] at e2
          have e2 : last.2.2 = e.total := Option.some.inj e2
          obtain ⟨s, hs⟩ := (hstr last (List.mem_of_getLast? hlast)).2
          rw [e2] at htw hs
          exact width_room hs htw
        · refine (forall2_join h5 k1).imp ?_
          rintro e line ⟨row, hre, hline⟩
          unfold printLine at hline
          obtain ⟨qc, hq, hline⟩ := bind_ok.mp hline
          obtain ⟨tc, ht, hline⟩ := bind_ok.mp hline
          injection hline with hline
          obtain ⟨q, hq', rfl⟩ := amountStar_inv hq
          obtain ⟨t, ht', rfl⟩ := amountStar_inv ht
          rw [hre.qty] at hq'
          rw [hre.total] at ht'
          refine ⟨q, t, g.print.location row.1, hq', ht', ?_⟩
          rw [← hline, hre.date, hre.payee, hre.acct, hre.other, hre.asserted]
          rfl
        · rw [k2, zip_notes h5]
    · rw [← hout, ← hb]
      unfold registerHead
      rw [c2]
      have ha : ∀ x y : List Str, textOf x ++ textOf y = textOf (x ++ y) := by
        intro x y; unfold textOf; simp
      rw [ha]
      congr 2
      split <;> simp [str]

/-! ## There is only one such text -/

theorem means_unique {names : List Str} {x a b : Str} (h : Means names x a) (h' : Means names x b) : a = b := Except.ok.inj (h.symm.trans h')

theorem amountOf_unique {names : List Str} {comOf : Str → Com} {conv : Conv} {t : PTxn} {p : PPost} (hp : p ∈ t.postings) {a : Str} (ha : Means names p.account a) {x y : Amount}
    (hx : AmountOf names comOf conv t p x) (hy : AmountOf names comOf conv t p y) : x = y := by
  cases hx with
  | stated h1 =>
    cases hy with
    | stated h2 => exact Option.some.inj (h1.symm.trans h2)
    | missing h2 _ _ => rw [h1] at h2; cases h2
  | missing h1 h3 h4 =>
    cases hy with
    | stated h2 => rw [h1] at h2; cases h2
    | missing _ h5 h6 =>
      have e : x.com = y.com := (h3 p hp a ha).symm.trans (h5 p hp a ha)
      rw [e] at h4
      have := sumOf_unique h4 h6
      obtain ⟨xi, xc⟩ := x
      obtain ⟨yi, yc⟩ := y
      dsimp only at e this
      subst e
      have : xi = yi := by omega
      rw [this]

theorem placesIn_mem {t : PTxn} : ∀ (rest before : List PPost) (p : Place), p ∈ placesIn t before rest → p.txn = t ∧ before ++ rest = p.before ++ p.post :: p.after := by
  intro rest
  induction rest with
  | nil => intro _ _ h; cases h
  | cons x rest ih =>
    intro before p h
    rw [placesIn] at h
    rcases List.mem_cons.mp h with rfl | h
    · exact ⟨rfl, rfl⟩
    · obtain ⟨h1, h2⟩ := ih _ p h
      exact ⟨h1, by rw [← h2]; simp⟩

theorem placesOf_mem {ts : List PTxn} {p : Place} (h : p ∈ placesOf ts) : p.txn ∈ ts ∧ p.txn.postings = p.before ++ p.post :: p.after := by
  obtain ⟨t, h1, h2⟩ := List.mem_flatMap.mp h
  obtain ⟨rfl, h3⟩ := placesIn_mem _ _ _ h2
  exact ⟨h1, h3⟩

/-- Two lists of entries of the same places with running totals are the same. -/
theorem entries_unique {names : List Str} {comOf : Str → Com} {conv : Conv} {places : List Place} {es es' : List Entry} (hpl : ∀ p ∈ places, p.txn.postings = p.before ++ p.post :: p.after)
    (h : List.Forall₂ (EntryAt names comOf conv) places es) (h' : List.Forall₂ (EntryAt names comOf conv) places es') {c : Com}
    (hr : RunningTotals conv c es) (hr' : RunningTotals conv c es') : es = es' := by
  have hj := forall2_join (forall2_imp_mem h (fun p hp e he => (⟨he, hpl p hp⟩ : EntryAt names comOf conv p e ∧ p.txn.postings = p.before ++ p.post :: p.after))) h'
  have hsame : List.Forall₂ (fun e e' : Entry => e.txn = e'.txn ∧ e.post = e'.post ∧ e.acct = e'.acct ∧ e.other = e'.other ∧ e.amount = e'.amount) es es' := by
    refine hj.imp ?_
    rintro e e' ⟨p, ⟨he, hps⟩, he'⟩
    refine ⟨he.txn.trans he'.txn.symm, he.post.trans he'.post.symm, means_unique he.acct he'.acct, ?_, ?_⟩
    · obtain ⟨q, k1, k2⟩ := he.other
      obtain ⟨q', k3, k4⟩ := he'.other
      rw [k1] at k3
      cases k3
      exact means_unique k2 k4
    · exact amountOf_unique (by rw [hps]; simp) he.acct he.amount he'.amount
  have ha : es.map (·.amount) = es'.map (·.amount) := forall2_map hsame (fun _ _ h => h.2.2.2.2)
  have hlen := hsame.length_eq
  refine List.ext_getElem hlen ?_
  intro i hi hi'
  obtain ⟨t1, t2⟩ := hr i hi
  obtain ⟨t3, t4⟩ := hr' i hi'
  rw [List.map_take, ha, ← List.map_take] at t2
  have t5 := sumOf_unique t2 t4
  obtain ⟨x1, x2, x3, x4, x5⟩ := (List.forall₂_iff_get.mp hsame).2 i hi hi'
  simp only [List.get_eq_getElem] at x1 x2 x3 x4 x5
  generalize es[i] = e at *
  generalize es'[i] = e' at *
  obtain ⟨a1, a2, a3, a4, a5, ⟨a6, a7⟩⟩ := e
  obtain ⟨b1, b2, b3, b4, b5, ⟨b6, b7⟩⟩ := e'
  dsimp only at *
  subst x1 x2 x3 x4 x5 t5 t1
  rw [t3]

theorem forall2_functional {α β : Type} {R : α → β → Prop} (hR : ∀ a b b', R a b → R a b' → b = b') : ∀ {l : List α} {m m' : List β},
    List.Forall₂ R l m → List.Forall₂ R l m' → m = m' := by
  intro l m m' h
  induction h generalizing m' with
  | nil => intro h'; cases h'; rfl
  | cons hx _ ih =>
    intro h'
    cases h' with
    | cons hy hrest => rw [ih hrest, hR _ _ _ hx hy]

theorem exactLine_unique {comOf : Str → Com} {pre : Str} {width : Int} {long : Bool} {entries : List Entry} {wq wt : Int} {e : Entry} {s s' : Str}
    (h : ExactLine comOf pre width long false entries wq wt e s) (h' : ExactLine comOf pre width long false entries wq wt e s') : s = s' := by
  obtain ⟨q, t, _, a1, a2, e1⟩ := h
  obtain ⟨q', t', _, b1, b2, e2⟩ := h'
  have hq := Except.ok.inj (a1.symm.trans b1)
  have ht := Except.ok.inj (a2.symm.trans b2)
  rw [e1, e2, hq, ht]
  rfl

/-- **C178** The lines are determined by what was read, the conversion and the flags (unless `-f` adds the locations). -/
theorem C178_unique (names : List Str) (comOf : Str → Com) (conv : Conv) (compile : Compile) (f : Filters) (ts : List PTxn) (r : Str) (recurse notes : Bool) (width : Int)
    (lines lines' : List Str) (h : ExactRegister names comOf conv compile f ts r recurse false notes width lines)
    (h' : ExactRegister names comOf conv compile f ts r recurse false notes width lines') : lines = lines' := by
  obtain ⟨⟨accs, places, es, wqs, wt, texts, h1, h2, h3, h4, h5, h6, h7, h8, h9⟩⟩ := h
  obtain ⟨⟨accs', places', es', wqs', wt', texts', k1, k2, k3, k4, k5, k6, k7, k8, k9⟩⟩ := h'
  have hn : ∀ {l : List Str}, l.Pairwise NameBefore → l.Nodup := by
    intro l hl
    exact hl.imp (fun hab e => by subst e; exact nameBefore_asymm hab hab)
  have hperm : accs.Perm accs' := by
    rw [List.perm_ext_iff_of_nodup (hn h2) (hn k2)]
    intro a
    rw [h1, k1]
  have e : accs = accs' := List.Perm.eq_of_pairwise (fun a b _ _ hab hba => absurd hba (nameBefore_asymm hab)) h2 k2 hperm
  subst e
  have e : places = places' := sorted_days_unique (fun p : Place => p.txn.posted) _ _ _ rfl h3.1 k3.1 (fun d => by rw [h3.2, k3.2])
  subst e
  have hpl : ∀ p ∈ places, p.txn.postings = p.before ++ p.post :: p.after := by
    intro p hp
    have : p ∈ places.filter (fun q => decide (q.txn.posted = p.txn.posted)) := List.mem_filter.mpr ⟨hp, by simp⟩
    rw [h3.2] at this
    obtain ⟨a, _, ha⟩ := List.mem_flatMap.mp (List.mem_filter.mp this).1
    exact (placesOf_mem (List.mem_filter.mp ha).1).2
  have e := entries_unique hpl h4 k4 h5 k5
  subst e
  have e : wqs = wqs' := forall2_functional (R := fun (e : Entry) n => RoomFor (comOf e.acct) e.amount n) (fun _ _ _ => room_unique) h6 k6
  subst e
  have e : texts = texts' := by
    rcases hl : es.getLast? with _ | e
    · have : es = [] := List.getLast?_eq_none_iff.mp hl
      subst this
      cases h8
      cases k8
      rfl
    · have := room_unique (h7 e hl) (k7 e hl)
      subst this
      exact forall2_functional (R := ExactLine comOf r width recurse false es (largest wqs) wt) (fun _ _ _ => exactLine_unique) h8 k8
  subst e
  rw [h9, k9]

/-! ## Non-vacuity -/

/-- All hypotheses of `C178_register_text` hold of the register of `Cash` in the example ledger. -/
example := C178_register_text progInstall (fun _ => none) progState progAccts (progView fun _ => none) (prog_opens _).1 prog_plain
    cmdFlags (str "reg") [] [] [str "Cash"] [str "Cash"] (by decide) .nil (.plain (.inr (by decide))) (by unfold NotAggregated; decide)
    ⟨fun h => absurd (by decide +kernel) h, fun h => absurd (by decide +kernel) h⟩ (fun h => absurd h (by decide)) _ (ok_of_opt prog_registers)

end Verif
