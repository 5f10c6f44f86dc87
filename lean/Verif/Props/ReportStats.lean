import Verif.Props.ReportTags
import Verif.Props.Stats
import Verif.Props.Range
/-
C172: `coin stats` from the files of a ledger to its output.
-/
namespace Verif

/-! ## Specification -/

/-- The transaction `s` is what is booked for the transaction `t` of the files: the same, with full names of accounts and all amounts. -/
structure BookedAs (names : List Str) (comOf : Str → Com) (conv : Conv) (t s : PTxn) : Prop where
  posted : s.posted = t.posted
  code : s.code = t.code
  description : s.description = t.description
  notes : s.notes = t.notes
  posts : List.Forall₂ (fun p p' => Means names p.account p'.account ∧ (∃ q, p'.quantity = some q ∧ AmountOf names comOf conv t p q) ∧
    p'.balance = p.balance ∧ p'.notes = p.notes) t.postings s.postings

/-- Two entries that say the same: of the same day and code, the same numbers in the same accounts, in the same order. -/
def Repeats (t u : PTxn) : Prop :=
  t.posted = u.posted ∧ t.code = u.code ∧
  t.postings.map (fun p => (p.account, p.quantity.map (·.int))) = u.postings.map (fun p => (p.account, p.quantity.map (·.int)))

/-- Two postings with opposite numbers in different commodities. -/
def Misconverted (t : PTxn) (a b : Amount) : Prop :=
  ∃ p q, t.postings = [p, q] ∧ p.quantity = some a ∧ q.quantity = some b ∧ NumEq a ⟨-b.int, b.com⟩ ∧ a.com ≠ b.com

/-- The number of an amount with the decimals of its commodity. -/
def numText (a : Amount) : Str := floatString a.int (10 ^ a.com.decimals) a.com.decimals

/-- The line for a transaction that is misconverted. -/
def convLine (loc : Str) (t : PTxn) (a b : Amount) : Str :=
  str "BAD CONVERSION: " ++ formatDate t.posted ++ str " " ++ numText a ++ str " " ++ a.com.id ++ str " => " ++ numText b ++ str " " ++ b.com.id ++
    str " : " ++ loc ++ str "\n"

/-- There are `n` words with the property. -/
def Counts (W : Str → Prop) (n : Nat) : Prop := ∃ l : List Str, l.Nodup ∧ (∀ x, x ∈ l ↔ W x) ∧ l.length = n

/-- What is reported of a transaction: its place and its text. -/
def placed (text : PTxn → Str) (e : Str × PTxn) : Str := e.1 ++ str "\n" ++ text e.2 ++ str "\n"

/-- `text` gives the transactions as they are written, `dec` being the decimals of the accounts' commodities. -/
def WrittenAs (dec : Str → Nat) (text : PTxn → Str) (es : List (Str × PTxn)) : Prop := ∀ e ∈ es, ∃ ls, writeTxn dec e.2 = .ok ls ∧ text e.2 = textOf ls

/-- Amounts are written with the decimals of the commodity of their account. -/
def OwnScale (names : List Str) (comOf : Str → Com) (ts : List PTxn) : Prop :=
  ∀ t ∈ ts, ∀ p ∈ t.postings, ∀ q, p.quantity = some q → ∀ a, Means names p.account a → q.com.decimals = (comOf a).decimals

/-- Of the two amounts of a transaction, the second has not more decimals. -/
def Comparable (t : PTxn) : Prop := ∀ p q a b, t.postings = [p, q] → p.quantity = some a → q.quantity = some b → a.com.decimals ≤ 50 ∧ b.com.decimals ≤ a.com.decimals

/-! ## Every way of loading goes through storing items -/

theorem loadFiles_keeps {I : LoadState → Prop} {load : LoadState → Str → Except Fault LoadState} (hl : ∀ st fn r, load st fn = .ok r → I st → I r) (fn : Str) :
    ∀ (fs : List Str) (st r : LoadState), loadFiles load fn st fs = .ok r → I st → I r := by
  intro fs
  induction fs with
  | nil => intro st r h hi; cases h; exact hi
  | cons f fs ih =>
    intro st r h hi
    unfold loadFiles at h
    split at h
    · cases h
    · obtain ⟨st', h1, h2⟩ := bind_ok.mp h
      exact ih st' r h2 (hl _ _ _ h1 hi)

theorem loadReaderS_keeps {I : LoadState → Prop} (hs : ∀ st i r, storeItem st i = .ok r → I st → I r) {load : LoadState → Str → Except Fault LoadState}
    (hl : ∀ st fn r, load st fn = .ok r → I st → I r) (d : Disk) (today : Today) (fn : Str) (failed : Bool) :
    ∀ (n : Nat) (st : LoadState) (lines : List Str) (r : LoadState), loadReaderS d today load fn failed n st lines = .ok r → I st → I r := by
  intro n
  induction n with
  | zero => intro st lines r h hi; cases h; exact hi
  | succ n ih =>
    intro st lines r h hi
    unfold loadReaderS at h
    cases hx : next ⟨today, st.lookup, st.dflt⟩ lines with
    | error e => rw [hx] at h; cases e <;> cases h
    | ok x =>
      rw [hx] at h
      obtain ⟨i, rest⟩ := x
      cases i with
      | none =>
        dsimp only at h
        split at h
        · cases h
        · cases h; exact hi
      | some i =>
        dsimp only at h
        split at h
        · cases h
        · obtain ⟨st', h1, h2⟩ := bind_ok.mp h
          refine ih st' rest r h2 ?_
          unfold loadItem at h1
          split at h1
          · split at h1
            · cases h1
            · exact loadFiles_keeps hl fn _ st st' h1 hi
          · exact hs _ _ _ h1 hi

theorem loadFileS_keeps {I : LoadState → Prop} (hs : ∀ st i r, storeItem st i = .ok r → I st → I r) (d : Disk) (today : Today) :
    ∀ (limit : Nat) (st : LoadState) (fn : Str) (r : LoadState), loadFileS d today limit st fn = .ok r → I st → I r := by
  intro limit
  induction limit with
  | zero => intro st fn r h; cases h
  | succ limit ih =>
    intro st fn r h hi
    unfold loadFileS at h
    split at h
    · cases h
    · exact loadReaderS_keeps hs ih d today fn _ _ _ _ _ h hi

theorem loadEachS_keeps {I : LoadState → Prop} (hs : ∀ st i r, storeItem st i = .ok r → I st → I r) (d : Disk) (today : Today) (limit : Nat) :
    ∀ (fs : List Str) (st r : LoadState), loadEachS d today limit st fs = .ok r → I st → I r := by
  intro fs
  induction fs with
  | nil => intro st r h hi; cases h; exact hi
  | cons f fs ih =>
    intro st r h hi
    unfold loadEachS at h
    obtain ⟨st', h1, h2⟩ := bind_ok.mp h
    exact ih st' r h2 (loadFileS_keeps hs d today limit _ _ _ h1 hi)

theorem loadAllS_keeps {I : LoadState → Prop} (hs : ∀ st i r, storeItem st i = .ok r → I st → I r) (d : Disk) (today : Today) (limit : Nat) (n : Names)
    (st r : LoadState) (h : loadAllS d today limit n st = .ok r) (hi : I st) : I r := by
  unfold loadAllS at h
  obtain ⟨s1, h1, h⟩ := bind_ok.mp h
  obtain ⟨s2, h2, h⟩ := bind_ok.mp h
  obtain ⟨s3, h3, h⟩ := bind_ok.mp h
  exact loadEachS_keeps hs _ _ _ _ _ _ h (loadFileS_keeps hs _ _ _ _ _ _ h3 (loadEachS_keeps hs _ _ _ _ _ _ h2 (loadFileS_keeps hs _ _ _ _ _ _ h1 hi)))

theorem coms_step (st : LoadState) (i : ItemD) (r : LoadState) (h : storeItem st i = .ok r)
    (hi : st.coms.map (·.id) = ((st.items.filterMap itemCom).map (·.id)).reverse) : r.coms.map (·.id) = ((r.items.filterMap itemCom).map (·.id)).reverse := by
  unfold storeItem at h
  split at h
  · next c hc =>
    cases h
    simp [hi, hc, itemCom]
  · split at h
    · cases h
    · next a ha _ =>
      cases h
      simp [hi, ha, itemCom]
  · next h1 h2 =>
    cases h
    have : itemCom i.1 = none := by
      unfold itemCom
      split
      · next c hc => exact absurd hc (h1 c)
      · rfl
    simp [hi, this]

/-- The commodities known are those declared. -/
theorem loaded_coms {d : Disk} {today : Today} {limit : Nat} {n : Names} {dflt : Str} {st : LoadState} (h : loadAllS d today limit n ⟨[], dflt, []⟩ = .ok st) :
    st.coms.map (·.id) = ((st.items.filterMap itemCom).map (·.id)).reverse :=
  loadAllS_keeps coms_step d today limit n _ _ h rfl

/-! ## The booked transactions -/

theorem forall2_both {α β : Type} {R S : α → β → Prop} : ∀ {l : List α} {m : List β}, List.Forall₂ R l m → List.Forall₂ S l m →
    List.Forall₂ (fun a b => R a b ∧ S a b) l m := by
  intro l m h
  induction h with
  | nil => intro _; exact .nil
  | cons hab _ ih => intro h'; cases h' with | cons h1 h2 => exact .cons ⟨hab, h1⟩ (ih h2)

theorem txnsFrom_code : ∀ (n : Nat) (ts : List PTxn), List.Forall₂ (fun (t' : Txn) t => t'.code = t.code) (txnsFrom n ts) ts := by
  intro n ts
  induction ts generalizing n with
  | nil => exact .nil
  | cons t ts ih => exact .cons rfl (ih _)

/-- Transactions of a loaded ledger, in the order of the reports, and what they show. -/
theorem loaded_booked {P : Install} {st : LoadState} {accts : List Acct} {env : Env} {fin : Loaded} {sorted : List Txn} (h : LoadedAs P st accts env fin sorted) :
    ∃ ordered, ReportOrder st.txns ordered ∧
      List.Forall₂ (fun t t' => BookedAs (accts.map (·.fullName)) env.comOf env.conv t (txnShown fin t')) ordered sorted := by
  obtain ⟨_, items, db, ord, fuel, L, walk, _, _, _, _, hA, _, hw, he, hres⟩ := h
  have hn := (resolved_spec _ _ _ _ hA).1
  have hwn : walk.Nodup := hw.nodup_iff.mpr hn
  refine ⟨stableSort readLess st.txns, reportOrder_sort _, ?_⟩
  obtain ⟨s1, h1, h2, hs⟩ := load_parts hres
  rw [hs]
  have hfind : ∀ x, env.find x = mustFindAccount (accts.map (·.fullName)) (patternMatches x) x := by intro x; rw [he]; rfl
  have hp := heapOf_parsed st.txns
  have hbal0 := (phase1 hp h1).2.2.2.1
  have hbal1 := (phase2 hp hwn h1 h2).2.2.2.2.1
  have hall : List.Forall₂ (fun t' t => BookedAs (accts.map (·.fullName)) env.comOf env.conv t (txnShown fin t') ∧
      hasAssertions fin.heap t' = t.postings.any fun p => p.balance.isSome) (txnsFrom 0 st.txns) st.txns := by
    refine forall2_imp_mem (forall2_both (heapOf_laid st.txns) (txnsFrom_code 0 st.txns)) ?_
    intro t' ht' t hl
    obtain ⟨hl, hc⟩ := hl
    refine ⟨⟨hl.1, hc, hl.2.1, hl.2.2.1, ?_⟩, ?_⟩
    swap
    · have hps : List.Forall₂ (fun r p => (fin.heap r).asserted = p.balance.isSome) t'.postings t.postings := by
        refine forall2_imp_mem hl.2.2.2 ?_
        intro r hr p hpr
        exact (loaded_shown (e := (t, p)) hwn hres ⟨hpr, t', ht', hr, hl⟩).2.1
      unfold hasAssertions
      generalize t'.postings = rs at hps
      generalize t.postings = ps at hps
      induction hps with
      | nil => rfl
      | cons hab _ ih => rw [List.any_cons, List.any_cons, ih, hab]
    show List.Forall₂ _ t.postings (t'.postings.map (postShown fin))
    rw [List.forall₂_map_right_iff]
    refine List.Forall₂.flip (forall2_imp_mem hl.2.2.2 ?_)
    intro r hr p hpr
    have hst : Stands (heapOf st.txns) (txnsFrom 0 st.txns) r (t, p) := ⟨hpr, t', ht', hr, hl⟩
    obtain ⟨_, g2, g3, _, a, g4, g5⟩ := loaded_shown (e := (t, p)) hwn hres hst
    obtain ⟨q, g6, g7⟩ := loaded_quantity hwn hres hfind hst
    refine ⟨?_, ⟨q, g6, g7⟩, ?_, g3⟩
    · show Means _ p.account ((fin.books.account r).getD [])
      rw [g4]; exact (hfind _).symm.trans g5
    · show (if (fin.heap r).asserted then (fin.heap r).balance else none) = p.balance
      rw [g2]
      cases hb : p.balance with
      | none => rfl
      | some b =>
        exact hbal1 r b (by rw [hbal0, hpr]; exact hb)
  refine List.Forall₂.flip (forall2_imp_mem (stableSort_forall2 hall ?_) fun a _ b h => h.1)
  intro a ha a' haa b hb b' hbb
  unfold txnLess readLess
  rw [haa.2, hbb.2, ← haa.1.posted, ← hbb.1.posted]
  rfl

instance (t u : PTxn) : Decidable (Repeats t u) := by unfold Repeats; infer_instance

theorem allPairs_map {α β} (f : α → β) (l : List α) : allPairs (l.map f) = (allPairs l).map (fun p => (f p.1, f p.2)) := by
  have main : ∀ (ts pre : List α), pairsFrom (pre.map f) (ts.map f) = (pairsFrom pre ts).map (fun p => (f p.1, f p.2)) := by
    intro ts
    induction ts with
    | nil => intro pre; rfl
    | cons t ts ih =>
      intro pre
      rw [List.map_cons, pairsFrom, pairsFrom, List.map_append, ← ih (pre ++ [t])]
      simp
  exact main l []

/-- All amounts are there. -/
def Complete (t : PTxn) : Prop := ∀ p ∈ t.postings, ∃ q, p.quantity = some q

theorem BookedAs.complete {names : List Str} {comOf : Str → Com} {conv : Conv} {t s : PTxn} (h : BookedAs names comOf conv t s) : Complete s := by
  intro p hp
  obtain ⟨p0, _, _, ⟨q, hq, _⟩, _⟩ := forall2_mem_right h.posts p hp
  exact ⟨q, hq⟩

theorem same_repeats {fin : Loaded} {t u : Txn} (ht : Complete (txnShown fin t)) (hu : Complete (txnShown fin u)) :
    SameEntry (itxnOf fin t) (itxnOf fin u) ↔ Repeats (txnShown fin t) (txnShown fin u) := by
  unfold SameEntry Repeats
  have e1 : ((itxnOf fin t).posted.sec = (itxnOf fin u).posted.sec) ↔ (txnShown fin t).posted = (txnShown fin u).posted := by
    show (t.posted * 86400 + 43200 = u.posted * 86400 + 43200) ↔ t.posted = u.posted
    omega
  rw [e1]
  refine and_congr Iff.rfl (and_congr Iff.rfl ?_)
  have key : ∀ v : Txn, Complete (txnShown fin v) → (txnShown fin v).postings.map (fun p => (p.account, p.quantity.map (·.int))) =
      ((itxnOf fin v).postings.map (fun p => (p.account, p.quantity.int))).map (fun x => (x.1, some x.2)) := by
    intro v hv
    unfold txnShown itxnOf
    simp only [List.map_map]
    apply List.map_congr_left
    intro r hr
    obtain ⟨q, hq⟩ := hv (postShown fin r) (List.mem_map_of_mem hr)
    have hq : (fin.heap r).quantity = some q := hq
    simp [postShown, hq]
  rw [key t ht, key u hu]
  constructor
  · intro h; rw [h]
  · intro h
    refine (List.map_injective_iff.mpr ?_) h
    rintro ⟨a, b⟩ ⟨c, d⟩ h
    simpa using h

theorem booked_scale {names : List Str} {comOf : Str → Com} {conv : Conv} {ts : List PTxn} (hsc : OwnScale names comOf ts) {fin : Loaded} {t : PTxn} {t' : Txn}
    (ht : t ∈ ts) (h : BookedAs names comOf conv t (txnShown fin t')) : OneScale (fun a => (comOf a).decimals) (itxnOf fin t') := by
  intro p hp
  obtain ⟨r, hr, rfl⟩ := List.mem_map.mp hp
  obtain ⟨p0, hp0, hm, ⟨q, hq, ha⟩, _⟩ := forall2_mem_right h.posts (postShown fin r) (List.mem_map_of_mem hr)
  have hq : (fin.heap r).quantity = some q := hq
  show ((fin.heap r).quantity.getD default).com.decimals = (comOf ((fin.books.account r).getD [])).decimals
  rw [hq]
  cases ha with
  | stated h => exact hsc t ht p0 hp0 q h _ hm
  | missing _ h _ => exact congrArg _ (h p0 hp0 _ hm).symm

theorem printEach_ok {α} {f : α → Except Fault Str} {g : α → Str} {l : List α} (h : ∀ a ∈ l, f a = .ok (g a)) : printEach f l = .ok (l.flatMap g) := by
  unfold printEach
  rw [mapM_eq f g l h]
  show Except.ok (l.map g).flatten = _
  rw [List.flatMap_def]

theorem shown_order {ts ordered : List PTxn} {names : List Str} {comOf : Str → Com} {conv : Conv} {fin : Loaded} {sorted : List Txn}
    (ho : ReportOrder ts ordered) (hb : List.Forall₂ (fun t t' => BookedAs names comOf conv t (txnShown fin t')) ordered sorted) :
    InDateOrder (fun t : Txn => t.posted) sorted := by
  have hd := ho.dates
  clear ho
  unfold InDateOrder
  induction hb with
  | nil => exact .nil
  | cons hab hr ih =>
    rw [List.pairwise_cons] at hd ⊢
    refine ⟨?_, ih hd.2⟩
    intro u hu
    obtain ⟨v, hv, hvu⟩ := forall2_mem_right hr u hu
    have h1 := hd.1 v hv
    have h2 := hab.posted
    have h3 := hvu.posted
    show (txnShown fin _).posted ≤ (txnShown fin u).posted
    rw [h2, h3]; exact h1

/-- The selected transactions, as shown. -/
theorem shown_range {st : LoadState} {accts : List Acct} {env : Env} {fin : Loaded} {sorted : List Txn} {loc : Txn → Str} {ordered : List PTxn}
    (ho : ReportOrder st.txns ordered) (hb : List.Forall₂ (fun t t' => BookedAs (accts.map (·.fullName)) env.comOf env.conv t (txnShown fin t')) ordered sorted)
    (b e : Option Int) : inRange (fun x : Str × PTxn => x.2.posted) b e (sorted.map fun t => (loc t, txnShown fin t)) =
      (statsTransactions (fun t : Txn => t.posted) sorted b e).map fun t => (loc t, txnShown fin t) := by
  rw [C35_stats_range]
  · unfold inRange
    rw [List.filter_map]
    rfl
  · exact shown_order ho hb

theorem txnText_ok {env : Env} {fin : Loaded} {t : Txn} {text : PTxn → Str} (h : ∃ ls, writeTxn (fun a => (env.comOf a).decimals) (txnShown fin t) = .ok ls ∧ text (txnShown fin t) = textOf ls) :
    txnText env fin t = .ok (text (txnShown fin t)) := by
  obtain ⟨ls, h1, h2⟩ := h
  unfold txnText
  rw [h1, h2]; rfl

theorem mem_pairs {α} {l : List α} {a b : α} (h : (a, b) ∈ allPairs l) : a ∈ l ∧ b ∈ l := by
  obtain ⟨i, j, _, h1, h2⟩ := (allPairs_iff l a b).mp h
  exact ⟨List.mem_of_getElem? h1, List.mem_of_getElem? h2⟩

theorem written_text {env : Env} {fin : Loaded} {sorted : List Txn} (loc : Txn → Str)
    (hwr : ∀ t ∈ sorted, ∃ ls, writeTxn (fun a => (env.comOf a).decimals) (txnShown fin t) = .ok ls) :
    ∃ text, WrittenAs (fun a => (env.comOf a).decimals) text (sorted.map fun t => (loc t, txnShown fin t)) := by
  refine ⟨fun t => match writeTxn (fun a => (env.comOf a).decimals) t with | .ok ls => textOf ls | .error _ => [], ?_⟩
  intro e he
  obtain ⟨t, ht, rfl⟩ := List.mem_map.mp he
  obtain ⟨ls, hls⟩ := hwr t ht
  refine ⟨ls, hls, ?_⟩
  dsimp only
  rw [hls]

/-- **C172** From the files of a ledger that loads, `coin stats -d` prints every pair of entries in the range of dates that say the same,
each pair once, the earlier first with place and text of both, and nothing else. -/
theorem C172_duplicates (P : Install) (st : LoadState) (accts : List Acct) (env : Env) (fin : Loaded) (sorted : List Txn)
    (hO : LoadedAs P st accts env fin sorted) (hsc : OwnScale (accts.map (·.fullName)) env.comOf st.txns) (loc : Txn → Str)
    (hwr : ∀ t ∈ sorted, ∃ ls, writeTxn (fun a => (env.comOf a).decimals) (txnShown fin t) = .ok ls)
    (fe : FlagEnv) (w : Str) (l : List (Str × Str)) (toks : List (List Str)) (tail args : List Str) (hw : commandOf w = some .stats)
    (hl : List.Forall₂ (Written fe (flagsOf .stats)) l toks) (ht : Remaining tail args) (hd : boolFlag l (str "d") = true) :
    ∃ (ordered : List PTxn) (shown : List (Str × PTxn)) (text : PTxn → Str), ReportOrder st.txns ordered ∧ shown.map (·.1) = sorted.map loc ∧
      List.Forall₂ (fun t e => BookedAs (accts.map (·.fullName)) env.comOf env.conv t e.2) ordered shown ∧
      WrittenAs (fun a => (env.comOf a).decimals) text shown ∧
        statsMain fe st accts env fin sorted loc (w :: (toks.flatten ++ tail)) =
          .ok (((allPairs (inRange (fun e => e.2.posted) (fe.dateFlag l (str "b")) (fe.dateFlag l (str "e")) shown)).filter
            fun p => decide (Repeats p.1.2 p.2.2)).flatMap fun p => str "DUPLICATE TRANSACTION?\n" ++ placed text p.1 ++ placed text p.2) := by
  obtain ⟨ordered, ho, hb⟩ := loaded_booked hO
  obtain ⟨text, htext⟩ := written_text loc hwr
  refine ⟨ordered, sorted.map fun t => (loc t, txnShown fin t), text, ho, by simp, by rw [List.forall₂_map_right_iff]; exact hb, htext, ?_⟩
  rw [shown_range (accts := accts) ho hb]
  unfold statsMain
  rw [dispatch_written hw hl ht]
  show statsExecute _ _ _ _ _ (boolFlag l (str "d")) _ _ _ = _
  unfold statsExecute
  rw [hd, if_pos rfl]
  have hsub : (statsTransactions (fun t : Txn => t.posted) sorted (fe.dateFlag l (str "b")) (fe.dateFlag l (str "e"))).Sublist sorted ∧
      InDateOrder (fun t : Txn => t.posted) sorted := by
    have hod : InDateOrder (fun t : Txn => t.posted) sorted := by
      have := shown_order ho hb
      exact this
    rw [C35_stats_range _ _ _ _ hod]
    exact ⟨List.filter_sublist, hod⟩
  generalize hsel : statsTransactions (fun t : Txn => t.posted) sorted (fe.dateFlag l (str "b")) (fe.dateFlag l (str "e")) = sel at hsub
  have hmem : ∀ t ∈ sel, ∃ t0 ∈ ordered, BookedAs (accts.map (·.fullName)) env.comOf env.conv t0 (txnShown fin t) := by
    intro t h
    obtain ⟨t0, h0, h1⟩ := forall2_mem_right hb t (hsub.1.subset h)
    exact ⟨t0, h0, h1⟩
  rw [C71_dupes (itxnOf fin) (fun a => (env.comOf a).decimals) sel ?_ ?_]
  · show printEach _ _ = _
    rw [printEach_ok (g := fun p => str "DUPLICATE TRANSACTION?\n" ++ placed text (loc p.1, txnShown fin p.1) ++ placed text (loc p.2, txnShown fin p.2))]
    · rw [allPairs_map, List.filter_map, List.flatMap_map]
      congr 1
      congr 1
      apply List.filter_congr
      intro p hp
      obtain ⟨h1, h2⟩ := mem_pairs (a := p.1) (b := p.2) hp
      obtain ⟨_, _, k1⟩ := hmem _ h1
      obtain ⟨_, _, k2⟩ := hmem _ h2
      show decide _ = decide _
      rw [decide_eq_decide, ← same_repeats k1.complete k2.complete]
      exact ⟨fun h => h.symm, fun h => h.symm⟩
    · intro p hp
      obtain ⟨h1, h2⟩ := mem_pairs (a := p.1) (b := p.2) (List.mem_of_mem_filter hp)
      unfold dupText placed
      rw [txnText_ok (htext _ (List.mem_map_of_mem (hsub.1.subset h1))), txnText_ok (htext _ (List.mem_map_of_mem (hsub.1.subset h2)))]
      show Except.ok _ = Except.ok _
      simp only [List.append_assoc]
  · have := hsub.2.sublist hsub.1
    refine this.imp ?_
    intro a b h
    have h : a.posted ≤ b.posted := h
    show a.posted * 86400 + 43200 ≤ b.posted * 86400 + 43200
    omega
  · intro t h
    obtain ⟨t0, h0, h1⟩ := hmem t h
    exact booked_scale hsc (ho.same.mem_iff.mp h0) h1

theorem badConversion_ok {fin : Loaded} {t : Txn} (hc : Complete (txnShown fin t)) (hcmp : Comparable (txnShown fin t)) :
    ∃ b, badConversion (itxnOf fin t) = .ok b ∧ (b = true ↔ ∃ x y, Misconverted (txnShown fin t) x y) := by
  unfold badConversion
  rcases hps : t.postings with _ | ⟨r1, _ | ⟨r2, _ | ⟨r3, rest⟩⟩⟩
  · refine ⟨false, by unfold itxnOf; rw [hps]; rfl, ?_⟩
    simp only [Bool.false_eq_true, false_iff]
    rintro ⟨x, y, p, q, h, _⟩
    unfold txnShown at h; rw [hps] at h; cases h
  · refine ⟨false, by unfold itxnOf; rw [hps]; rfl, ?_⟩
    simp only [Bool.false_eq_true, false_iff]
    rintro ⟨x, y, p, q, h, _⟩
    unfold txnShown at h; rw [hps] at h; cases h
  · have hsh : (txnShown fin t).postings = [postShown fin r1, postShown fin r2] := by unfold txnShown; rw [hps]; rfl
    obtain ⟨a, ha⟩ := hc (postShown fin r1) (by rw [hsh]; simp)
    obtain ⟨b, hb⟩ := hc (postShown fin r2) (by rw [hsh]; simp)
    obtain ⟨h50, hle⟩ := hcmp _ _ _ _ hsh ha hb
    have key := (C06_compare_partial a b.negated h50 hle).2.1
    have hok : ∃ x, a.isEqual b.negated = .ok x := by
      unfold Amount.isEqual Amount.cmp
      rw [adjustedTo_fine a b.negated h50 hle]
      exact ⟨_, rfl⟩
    obtain ⟨x, hx⟩ := hok
    have hi : (itxnOf fin t).postings = [⟨(fin.books.account r1).getD [], a, (fin.heap r1).balance, (fin.heap r1).asserted⟩,
        ⟨(fin.books.account r2).getD [], b, (fin.heap r2).balance, (fin.heap r2).asserted⟩] := by
      have ha : (fin.heap r1).quantity = some a := ha
      have hb : (fin.heap r2).quantity = some b := hb
      unfold itxnOf; rw [hps]; simp [ha, hb]
    refine ⟨x && decide (a.com ≠ b.com), ?_, ?_⟩
    · rw [hi]; dsimp only; rw [hx]; rfl
    · rw [hx] at key
      simp only [Bool.and_eq_true, decide_eq_true_eq]
      constructor
      · rintro ⟨h1, h2⟩
        exact ⟨a, b, _, _, hsh, ha, hb, key.mp (by rw [h1]), h2⟩
      · rintro ⟨a', b', p, q, h, h1, h2, h3, h4⟩
        rw [hsh] at h
        cases h
        rw [ha] at h1; cases h1
        rw [hb] at h2; cases h2
        have := key.mpr h3
        injection this with this
        exact ⟨this, h4⟩
  · refine ⟨false, by unfold itxnOf; rw [hps]; rfl, ?_⟩
    simp only [Bool.false_eq_true, false_iff]
    rintro ⟨x, y, p, q, h, _⟩
    unfold txnShown at h; rw [hps] at h; cases h

theorem format_number {a : Amount} (h : a.com.decimals ≤ 50) : a.format none none = .ok (numText a) := by
  unfold Amount.format
  rw [bigPow10_ok h]; rfl

theorem badLine_ok {fin : Loaded} {t : Txn} {a b : Amount} (hcmp : Comparable (txnShown fin t)) (loc : Str) (h : Misconverted (txnShown fin t) a b) :
    badLine loc (itxnOf fin t) = .ok (convLine loc (txnShown fin t) a b) := by
  obtain ⟨p, q, h, h1, h2, _⟩ := h
  obtain ⟨h50, hle⟩ := hcmp _ _ _ _ h h1 h2
  have : ∃ r1 r2, t.postings = [r1, r2] ∧ postShown fin r1 = p ∧ postShown fin r2 = q := by
    have h : t.postings.map (postShown fin) = [p, q] := h
    rcases hps : t.postings with _ | ⟨r1, _ | ⟨r2, _ | ⟨r3, rest⟩⟩⟩ <;> rw [hps] at h <;> simp at h
    exact ⟨r1, r2, rfl, h.1, h.2⟩
  obtain ⟨r1, r2, hps, rfl, rfl⟩ := this
  have ha : (fin.heap r1).quantity = some a := h1
  have hb : (fin.heap r2).quantity = some b := h2
  have hi : (itxnOf fin t).postings = [⟨(fin.books.account r1).getD [], a, (fin.heap r1).balance, (fin.heap r1).asserted⟩,
      ⟨(fin.books.account r2).getD [], b, (fin.heap r2).balance, (fin.heap r2).asserted⟩] := by
    unfold itxnOf; rw [hps]; simp [ha, hb]
  have hday : (itxnOf fin t).posted.day = (txnShown fin t).posted := by
    show (t.posted * 86400 + 43200 + 0) / 86400 = t.posted
    omega
  unfold badLine
  rw [hi]
  dsimp only
  rw [format_number h50, format_number (Nat.le_trans hle h50), hday]
  rfl

theorem some_unbalanced (o : Option Str) : o = some unbalancedName ↔ o.getD [] = str "Unbalanced" := by
  cases o with
  | none => exact ⟨fun h => (by cases h), fun h => absurd h (by decide)⟩
  | some a => rw [Option.some.injEq]; exact Iff.rfl

/-- What is printed for misconverted transactions. -/
def SaysMisconverted (mis : Str × PTxn → Str) (es : List (Str × PTxn)) : Prop :=
  ∀ e ∈ es, (∀ a b, Misconverted e.2 a b → mis e = convLine e.1 e.2 a b) ∧ ((∀ a b, ¬ Misconverted e.2 a b) → mis e = [])

/-- **C172** Without `-d` it prints, for the transactions in the range of dates, in the order of the reports: with `-c` a line for each
whose two postings have opposite numbers in different commodities, with `-u` place and text for each posting to Unbalanced; then the
numbers of commodities, prices and accounts of the ledger and of the transactions in the range. -/
theorem C172_checks (P : Install) (st : LoadState) (accts : List Acct) (env : Env) (fin : Loaded) (sorted : List Txn)
    (hO : LoadedAs P st accts env fin sorted) (loc : Txn → Str)
    (hwr : ∀ t ∈ sorted, ∃ ls, writeTxn (fun a => (env.comOf a).decimals) (txnShown fin t) = .ok ls)
    (fe : FlagEnv) (w : Str) (l : List (Str × Str)) (toks : List (List Str)) (tail args : List Str) (hw : commandOf w = some .stats)
    (hl : List.Forall₂ (Written fe (flagsOf .stats)) l toks) (ht : Remaining tail args) (hd : boolFlag l (str "d") = false)
    (hcmp : boolFlag l (str "c") = true → ∀ t ∈ sorted, Comparable (txnShown fin t)) :
    ∃ (ordered : List PTxn) (shown : List (Str × PTxn)) (text : PTxn → Str) (ncom nacc : Nat) (mis : Str × PTxn → Str) (sel : List (Str × PTxn)),
      ReportOrder st.txns ordered ∧ shown.map (·.1) = sorted.map loc ∧
      List.Forall₂ (fun t e => BookedAs (accts.map (·.fullName)) env.comOf env.conv t e.2) ordered shown ∧
      Counts (fun x => ∃ c, Item.commodity c ∈ st.items ∧ c.id = x) ncom ∧ Counts (Exists170 st.decls) nacc ∧
      WrittenAs (fun a => (env.comOf a).decimals) text shown ∧
          sel = inRange (fun e => e.2.posted) (fe.dateFlag l (str "b")) (fe.dateFlag l (str "e")) shown ∧
          (boolFlag l (str "c") = true → SaysMisconverted mis shown) ∧
          statsMain fe st accts env fin sorted loc (w :: (toks.flatten ++ tail)) =
            .ok ((sel.flatMap fun e => (if boolFlag l (str "c") then mis e else []) ++
                (if boolFlag l (str "u") then
                  (e.2.postings.filter fun p => decide (p.account = str "Unbalanced")).flatMap fun _ => str "UNBALANCED TRANSACTION!\n" ++ placed text e
                else [])) ++
              (str "Commodities: " ++ natStr ncom ++ str "\nPrices: " ++ natStr (st.items.filterMap itemPrice).length ++
               str "\nAccounts: " ++ natStr nacc ++ str "\nTransactions: " ++ natStr sel.length ++ str "\n")) := by
  classical
  obtain ⟨ordered, ho, hb⟩ := loaded_booked hO
  obtain ⟨hload, _, _, _, _, _, _, _, _, _, _, hA, _⟩ := id hO
  have hcoms : Counts (fun x => ∃ c, Item.commodity c ∈ st.items ∧ c.id = x) (st.coms.map (·.id)).dedup.length := by
    refine ⟨_, List.nodup_dedup _, ?_, rfl⟩
    intro x
    rw [List.mem_dedup]
    rw [loaded_coms hload, List.mem_reverse, List.mem_map]
    constructor
    · rintro ⟨c, hc, rfl⟩
      obtain ⟨i, hi, hic⟩ := List.mem_filterMap.mp hc
      refine ⟨c, ?_, rfl⟩
      unfold itemCom at hic
      split at hic
      · cases hic; exact hi
      · cases hic
    · rintro ⟨c, hc, rfl⟩
      exact ⟨c, List.mem_filterMap.mpr ⟨_, hc, rfl⟩, rfl⟩
  have haccs : Counts (Exists170 st.decls) accts.length := by
    refine ⟨accts.map (·.fullName), (resolved_spec _ _ _ _ hA).1, ?_, by simp⟩
    intro n
    exact (C21_exactly_missing_ancestors _ _ _ _ hA).2 n
  obtain ⟨text, htext⟩ := written_text loc hwr
  let mis : Str × PTxn → Str := fun e => if h : ∃ ab : Amount × Amount, Misconverted e.2 ab.1 ab.2 then convLine e.1 e.2 h.choose.1 h.choose.2 else []
  have hmis : SaysMisconverted mis (sorted.map fun t => (loc t, txnShown fin t)) := by
    intro e _
    constructor
    · intro a b h
      have hex : ∃ ab : Amount × Amount, Misconverted e.2 ab.1 ab.2 := ⟨(a, b), h⟩
      show (if h : _ then _ else _) = _
      rw [dif_pos hex]
      obtain ⟨p, q, k, k1, k2, _⟩ := h
      obtain ⟨p', q', k', k1', k2', _⟩ := hex.choose_spec
      rw [k] at k'
      cases k'
      rw [k1] at k1'; rw [k2] at k2'
      injection k1' with k1'
      injection k2' with k2'
      rw [← k1', ← k2']
    · intro h
      show (if h : _ then _ else _) = _
      rw [dif_neg]
      rintro ⟨ab, hab⟩
      exact h _ _ hab
  refine ⟨ordered, sorted.map fun t => (loc t, txnShown fin t), text, _, _, mis, _, ho, by simp,
    by rw [List.forall₂_map_right_iff]; exact hb, hcoms, haccs, htext, rfl, fun _ => hmis, ?_⟩
  rw [shown_range (accts := accts) ho hb]
  unfold statsMain
  rw [dispatch_written hw hl ht]
  show statsExecute _ _ _ _ _ (boolFlag l (str "d")) _ _ _ = _
  unfold statsExecute
  rw [hd, if_neg (by decide), List.length_map]
  have hsub : (statsTransactions (fun t : Txn => t.posted) sorted (fe.dateFlag l (str "b")) (fe.dateFlag l (str "e"))).Sublist sorted := by
    rw [C35_stats_range _ _ _ _ (shown_order ho hb)]
    exact List.filter_sublist
  show (printEach (checkText env fin loc (boolFlag l (str "c")) (boolFlag l (str "u"))) _).bind _ = _
  generalize hsel : statsTransactions (fun t : Txn => t.posted) sorted (fe.dateFlag l (str "b")) (fe.dateFlag l (str "e")) = sel at hsub
  rw [List.flatMap_map]
  have hone : ∀ t ∈ sel, checkText env fin loc (boolFlag l (str "c")) (boolFlag l (str "u")) t =
      .ok ((if boolFlag l (str "c") then mis (loc t, txnShown fin t) else []) ++
        (if boolFlag l (str "u") then ((txnShown fin t).postings.filter fun p => decide (p.account = str "Unbalanced")).flatMap
          fun _ => str "UNBALANCED TRANSACTION!\n" ++ placed text (loc t, txnShown fin t) else [])) := by
    intro t hts
    have hts := hsub.subset hts
    obtain ⟨t0, h0, hbk⟩ := forall2_mem_right hb t hts
    have hm : (loc t, txnShown fin t) ∈ sorted.map fun t => (loc t, txnShown fin t) := List.mem_map_of_mem (f := fun t => (loc t, txnShown fin t)) hts
    unfold checkText
    have e1 : (if boolFlag l (str "c") then mismatchText fin loc t else .ok []) = .ok (if boolFlag l (str "c") then mis (loc t, txnShown fin t) else []) := by
      by_cases hc : boolFlag l (str "c") = true
      · rw [if_pos hc, if_pos hc]
        unfold mismatchText
        obtain ⟨b, g1, g2⟩ := badConversion_ok hbk.complete (hcmp hc _ hts)
        rw [g1]
        show (if b then _ else _) = _
        by_cases hbt : b = true
        · rw [if_pos hbt]
          obtain ⟨x, y, hxy⟩ := g2.mp hbt
          rw [badLine_ok (hcmp hc _ hts) (loc t) hxy, (hmis _ hm).1 x y hxy]
        · rw [if_neg hbt, (hmis _ hm).2]
          intro x y hxy
          exact hbt (g2.mpr ⟨x, y, hxy⟩)
      · rw [if_neg hc, if_neg hc]
    have e2 : (if boolFlag l (str "u") then unbalancedText env fin loc t else .ok []) =
        .ok (if boolFlag l (str "u") then ((txnShown fin t).postings.filter fun p => decide (p.account = str "Unbalanced")).flatMap
          fun _ => str "UNBALANCED TRANSACTION!\n" ++ placed text (loc t, txnShown fin t) else []) := by
      by_cases hu : boolFlag l (str "u") = true
      · rw [if_pos hu, if_pos hu]
        unfold unbalancedText
        rw [printEach_ok (g := fun _ => str "UNBALANCED TRANSACTION!\n" ++ placed text (loc t, txnShown fin t))]
        · congr 1
          show _ = ((t.postings.map (postShown fin)).filter _).flatMap _
          rw [List.filter_map, List.flatMap_map]
          congr 1
          apply List.filter_congr
          intro r hr
          show decide _ = decide _
          rw [decide_eq_decide]
          exact some_unbalanced (fin.books.account r)
        · intro r _
          rw [txnText_ok (htext _ hm)]
          show Except.ok _ = Except.ok _
          unfold placed
          simp only [List.append_assoc]
      · rw [if_neg hu, if_neg hu]
    rw [e1, e2]; rfl
  rw [printEach_ok hone]
  rfl

/-- **C172** Transactions can be written if amounts are below 10^50 and no commodity has more than 50 decimals. -/
theorem C172_writable (dec : Str → Nat) (t : PTxn) (h : ∀ p ∈ t.postings, (∃ q, p.quantity = some q ∧ q.int.natAbs < 10 ^ 50 ∧ q.com.decimals ≤ 50) ∧
    ∀ b, p.balance = some b → b.com.decimals ≤ 50) : ∃ ls, writeTxn dec t = .ok ls := by
  have h1 : ∃ w, maxWidths dec t.postings = .ok w := by
    generalize t.postings = ps at h
    induction ps with
    | nil => exact ⟨_, rfl⟩
    | cons p ps ih =>
      obtain ⟨w, hw⟩ := ih (fun p hp => h p (by simp [hp]))
      obtain ⟨⟨q, eq, hq, _⟩, _⟩ := h p (by simp)
      obtain ⟨v, hv⟩ := width_ok q hq (dec p.account)
      unfold maxWidths
      rw [eq]
      simp only [hv, Except.bind, hw]
      exact ⟨_, rfl⟩
  obtain ⟨w, hw⟩ := h1
  have h2 : ∀ a b, ∃ ls, writePostings a b t.postings = .ok ls := by
    intro a b
    generalize t.postings = ps at h
    clear hw
    induction ps with
    | nil => exact ⟨_, rfl⟩
    | cons p ps ih =>
      obtain ⟨r, hr⟩ := ih (fun p hp => h p (by simp [hp]))
      obtain ⟨⟨q, eq, _, hq⟩, hb⟩ := h p (by simp)
      have e1 : ∃ s, amountText (some b) q = .ok s := by
        unfold amountText Amount.format
        rw [bigPow10_ok hq]; exact ⟨_, rfl⟩
      have e2 : ∃ s, balanceText p.balance = .ok s := by
        cases hbl : p.balance with
        | none => exact ⟨_, rfl⟩
        | some x =>
          unfold balanceText amountText Amount.format
          dsimp only
          rw [bigPow10_ok (hb x hbl)]; exact ⟨_, rfl⟩
      obtain ⟨s1, e1⟩ := e1
      obtain ⟨s2, e2⟩ := e2
      have e3 : ∃ ls, writePosting a b p = .ok ls := by
        unfold writePosting
        rw [eq]
        dsimp only
        rw [e1, e2]
        exact ⟨_, rfl⟩
      obtain ⟨ls, e3⟩ := e3
      unfold writePostings
      rw [e3, hr]
      exact ⟨_, rfl⟩
  obtain ⟨ls, hls⟩ := h2 w.1 w.2
  unfold writeTxn
  dsimp only
  rw [hw]
  show ∃ r, (writePostings w.1 w.2 t.postings).bind _ = .ok r
  rw [hls]
  exact ⟨_, rfl⟩

/-! ### A ledger with a repeated entry and one that is unbalanced -/

def statDir : List (Str × Str) :=
  [(str "commodities.coin", str "commodity CAD\n  format 1.00 CAD\n\ncommodity USD\n  format 1.00 USD\n"), (str "prices.coin", []),
   (str "accounts.coin", str "account Assets:Cash\naccount Food\naccount Trip\n  commodity USD\n"),
   (str "transactions.coin", str "2020/01/05 Shop\n  Food  3.50 CAD\n  Cash\n\n2020/01/07 Ticket\n  Trip  5.00 USD\n  Cash  -5.00 CAD\n\n2020/01/05 Again\n  Food  3.50 CAD\n  Cash\n\n2020/01/06 Lost\n  Unbalanced  1.00 CAD\n  Cash\n")]

def statInstall : Install := ⟨dirDisk statDir, ⟨2020, 1, 1⟩, 5, ledgerNames⟩

def statUsd : Com := ⟨1, str "USD", 2⟩
def statTxns : List PTxn :=
  [⟨737428, [], str "Shop", [], [⟨str "Food", some ⟨350, tagCad⟩, none, []⟩, ⟨str "Cash", none, none, []⟩]⟩,
   ⟨737430, [], str "Ticket", [], [⟨str "Trip", some ⟨500, statUsd⟩, none, []⟩, ⟨str "Cash", some ⟨-500, tagCad⟩, none, []⟩]⟩,
   ⟨737428, [], str "Again", [], [⟨str "Food", some ⟨350, tagCad⟩, none, []⟩, ⟨str "Cash", none, none, []⟩]⟩,
   ⟨737429, [], str "Lost", [], [⟨str "Unbalanced", some ⟨100, tagCad⟩, none, []⟩, ⟨str "Cash", none, none, []⟩]⟩]
def statState : LoadState := ⟨[statUsd, tagCad], str "CAD",
  [.commodity ⟨str "CAD", [], 2, false, []⟩, .commodity ⟨str "USD", [], 2, false, []⟩, .account ⟨str "Assets:Cash", [], str "CAD", none, [], [], []⟩,
   .account ⟨str "Food", [], str "CAD", none, [], [], []⟩, .account ⟨str "Trip", [], str "USD", none, [], [], []⟩] ++ statTxns.map .transaction⟩

theorem stat_loads : loadAllS statInstall.disk statInstall.today statInstall.limit statInstall.files ⟨[], str "CAD", []⟩ = .ok statState :=
  load_eq (by decide +kernel)

def statLoc (t : Txn) : Str := str "file:" ++ natStr t.postings.length

def statOut (args : List Str) : Option Str :=
  (resolveTransactions (plainEnv statState) (heapOf statState.txns) (txnsFrom 0 statState.txns) ((plainAccts statState).map (·.fullName))).toOption.bind fun r =>
  (statsMain cmdFlags statState (plainAccts statState) (plainEnv statState) r.1 r.2 statLoc args).toOption

theorem stat_duplicates : statOut [str "stats", str "-d"] = some (str "DUPLICATE TRANSACTION?\nfile:2\n2020/01/05 Shop\n  Food          3.50 CAD\n  Assets:Cash  -3.50 CAD\n\nfile:2\n2020/01/05 Again\n  Food          3.50 CAD\n  Assets:Cash  -3.50 CAD\n\n") := by decide +kernel

theorem stat_checks : statOut [str "stats", str "-c", str "-u"] = some (str "UNBALANCED TRANSACTION!\nfile:2\n2020/01/06 Lost\n  Unbalanced    1.00 CAD\n  Assets:Cash  -1.00 CAD\n\nBAD CONVERSION: 2020/01/07 5.00 USD => -5.00 CAD : file:2\nCommodities: 2\nPrices: 0\nAccounts: 6\nTransactions: 4\n") := by decide +kernel

/-- Non-vacuity of C172: the ledger loads and meets the hypotheses; what the commands print is above. -/
example : ∃ fin sorted, LoadedAs statInstall statState (plainAccts statState) (plainEnv statState) fin sorted ∧
    OwnScale ((plainAccts statState).map (·.fullName)) (plainEnv statState).comOf statState.txns ∧
    (∀ t ∈ sorted, ∃ ls, writeTxn (fun a => ((plainEnv statState).comOf a).decimals) (txnShown fin t) = .ok ls) ∧
    ∀ t ∈ sorted, Comparable (txnShown fin t) := by
  have h : ((resolveTransactions (plainEnv statState) (heapOf statState.txns) (txnsFrom 0 statState.txns) ((plainAccts statState).map (·.fullName))).toOption.map fun r =>
      (r.2.all fun t => (writeTxn (fun a => ((plainEnv statState).comOf a).decimals) (txnShown r.1 t)).toOption.isSome) &&
      (r.2.all fun t => (txnShown r.1 t).postings.all fun p => p.quantity.all fun q => decide (q.com.decimals = 2))) = some true := by decide +kernel
  cases hx : resolveTransactions (plainEnv statState) (heapOf statState.txns) (txnsFrom 0 statState.txns) ((plainAccts statState).map (·.fullName)) with
  | error e => rw [hx] at h; cases h
  | ok r =>
    rw [hx] at h
    have h := Option.some.inj h
    rw [Bool.and_eq_true, List.all_eq_true, List.all_eq_true] at h
    refine ⟨r.1, r.2, loadedAs_plain stat_loads (by decide +kernel) (by decide +kernel) hx, ?_, ?_, ?_⟩
    · intro t ht p hp q hq a ha
      have h2 : ∀ t ∈ statState.txns, ∀ p ∈ t.postings, ∀ q, p.quantity = some q → q.com.decimals = 2 := by
        have : (statState.txns.all fun t => t.postings.all fun p => p.quantity.all fun q => decide (q.com.decimals = 2)) = true := by decide +kernel
        intro t ht p hp q hq
        have := List.all_eq_true.mp (List.all_eq_true.mp this t ht) p hp
        rw [hq] at this
        simpa using this
      rw [h2 t ht p hp q hq]
      have h3 : ∀ x ∈ (plainAccts statState).map (·.fullName), ((plainEnv statState).comOf x).decimals = 2 := by decide +kernel
      exact (h3 a (mustFind_mem (by decide +kernel) ha)).symm
    · intro t ht
      have := h.1 t ht
      cases hw : writeTxn (fun a => ((plainEnv statState).comOf a).decimals) (txnShown r.1 t) with
      | ok ls => exact ⟨ls, rfl⟩
      | error e => rw [hw] at this; cases this
    · intro t ht p q a b hpq ha hb
      have := List.all_eq_true.mp (h.2 t ht)
      have h1 := this p (by rw [hpq]; simp)
      have h2 := this q (by rw [hpq]; simp)
      rw [ha] at h1; rw [hb] at h2
      simp only [Option.all_some, decide_eq_true_eq] at h1 h2
      omega

end Verif
