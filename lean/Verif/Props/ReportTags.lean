import Verif.Props.Reports
import Verif.Props.ProgramAny
import Verif.Props.TagsCmd
/-
C171: the tags command from the files to its output.
-/
namespace Verif

/-! ## Specification -/

/-- A transaction states the balance of an account. -/
def StatesBalance (t : PTxn) : Prop := ∃ p ∈ t.postings, p.balance.isSome = true

/-- The transactions of the files in the order of the reports: by date, on one day those stating a balance last, otherwise as read. -/
structure ReportOrder (ts ordered : List PTxn) : Prop where
  same : ordered.Perm ts
  dates : ordered.Pairwise fun t u => t.posted ≤ u.posted
  balances : ordered.Pairwise fun t u => t.posted = u.posted → StatesBalance t → StatesBalance u
  asRead : ∀ (d : Int) (b : Bool), ordered.filter (fun t => decide (t.posted = d) && (t.postings.any (fun p => p.balance.isSome) == b)) =
    ts.filter (fun t => decide (t.posted = d) && (t.postings.any (fun p => p.balance.isSome) == b))

/-- The key has a value among the tags of the notes. -/
def HasTag (notes : List Str) (k v : Str) : Prop := (k, v) ∈ parseTags notes

/-- A transaction or one of its postings gives the key this value. -/
def GivesTag (t : PTxn) (k v : Str) : Prop := HasTag t.notes k v ∨ ∃ p ∈ t.postings, HasTag p.notes k v

open Classical in
/-- The postings where a key is used: those that carry it, and all postings of a transaction that carries it. -/
noncomputable def tagUses (ordered : List PTxn) (k : Str) : List PPost :=
  ordered.flatMap fun t => t.postings.filter (fun p => decide (∃ v, HasTag p.notes k v)) ++ (if ∃ v, HasTag t.notes k v then t.postings else [])

/-- The key is asked for: there is no expression, or it matches, in any case. -/
def KeyAsked (compile : Compile) (args : List Str) (k : Str) : Prop := ∀ a ∈ args.head?, ∃ m, compile (str "(?i)" ++ a) = some m ∧ m k = true

/-- The text for a key: its values if asked for, then, if asked for, the accounts. -/
def keyText (values accounts : Bool) (k : Str) (vals accs : List Str) : Str :=
  k ++ (if vals = [] then [] else if values then str ": \"" ++ joinWith (str "\", \"") vals ++ str "\"" else str ":") ++ str "\n" ++
  (if accounts then accs.flatMap (fun a => str "\t" ++ a ++ str "\n") else [])

/-! ## Lemmas -/

theorem insertBy_forall2 {α β : Type} {R : α → β → Prop} {lt : α → α → Bool} {lt' : β → β → Bool} {a : α} {a' : β} (ha : R a a') :
    ∀ {l : List α} {l' : List β}, List.Forall₂ R l l' → (∀ b ∈ l, ∀ b', R b b' → lt b a = lt' b' a') → List.Forall₂ R (insertBy lt a l) (insertBy lt' a' l') := by
  intro l l' h
  induction h with
  | nil => intro _; exact .cons ha .nil
  | @cons b b' l l' hb hl ih =>
    intro hlt
    rw [insertBy, insertBy, hlt b (by simp) b' hb]
    split
    · exact .cons hb (ih fun x hx => hlt x (by simp [hx]))
    · exact .cons ha (.cons hb hl)

/-- Sorting two lists that correspond by orders that correspond. -/
theorem stableSort_forall2 {α β : Type} {R : α → β → Prop} {lt : α → α → Bool} {lt' : β → β → Bool} :
    ∀ {l : List α} {l' : List β}, List.Forall₂ R l l' → (∀ a ∈ l, ∀ a', R a a' → ∀ b ∈ l, ∀ b', R b b' → lt a b = lt' a' b') →
    List.Forall₂ R (stableSort lt l) (stableSort lt' l') := by
  intro l l' h
  induction h with
  | nil => intro _; exact .nil
  | @cons a a' l l' ha hl ih =>
    intro hlt
    refine insertBy_forall2 ha (ih fun x hx x' hx' y hy => hlt x (by simp [hx]) x' hx' y (by simp [hy])) ?_
    intro b hb b' hb'
    exact hlt b (by rw [List.mem_cons]; exact .inr ((stableSort_perm _ _).mem_iff.mp hb)) b' hb' a (by simp) a' ha

/-- The order of the reports on transactions as read. -/
def readLess (t u : PTxn) : Bool :=
  decide (t.posted < u.posted) || (decide (t.posted = u.posted) && !(t.postings.any fun p => p.balance.isSome) && (u.postings.any fun p => p.balance.isSome))

theorem readLess_strictWeak : StrictWeak readLess := by
  constructor
  · intro a b h
    unfold readLess at h ⊢
    simp only [Bool.or_eq_true, Bool.and_eq_true, decide_eq_true_eq, Bool.not_eq_true', Bool.or_eq_false_iff, Bool.and_eq_false_imp, decide_eq_false_iff_not] at h ⊢
    rcases h with h | ⟨⟨h1, h2⟩, h3⟩
    · exact ⟨by omega, fun h' => by omega⟩
    · refine ⟨by omega, ?_⟩
      rintro ⟨h4, h5⟩
      rw [h3] at h5; cases h5
  · intro a b c h1 h2
    unfold readLess at h1 h2 ⊢
    simp only [Bool.or_eq_false_iff, Bool.and_eq_false_imp, decide_eq_false_iff_not, Bool.and_eq_true, decide_eq_true_eq, Bool.not_eq_true'] at h1 h2 ⊢
    refine ⟨by omega, ?_⟩
    rintro ⟨h3, h4⟩
    have e1 : a.posted = b.posted := by omega
    have e2 : b.posted = c.posted := by omega
    apply h2.2
    refine ⟨e2, h1.2 ⟨e1, h4⟩⟩

theorem reportOrder_sort (ts : List PTxn) : ReportOrder ts (stableSort readLess ts) := by
  have hs := stableSort_sorted readLess readLess_strictWeak ts
  refine ⟨stableSort_perm _ _, hs.imp ?_, hs.imp ?_, ?_⟩
  · intro t u h
    unfold readLess at h
    simp only [Bool.or_eq_false_iff, decide_eq_false_iff_not] at h
    omega
  · rintro t u h hd ⟨p, hp, hb⟩
    unfold readLess at h
    simp only [Bool.or_eq_false_iff, Bool.and_eq_false_imp, Bool.and_eq_true, decide_eq_true_eq, Bool.not_eq_true'] at h
    by_contra hc
    have : (u.postings.any fun p => p.balance.isSome) = false := by
      rw [List.any_eq_false]
      intro q hq hqb
      exact hc ⟨q, hq, hqb⟩
    have := h.2 ⟨hd.symm, this⟩
    rw [List.any_eq_false] at this
    exact this p hp hb
  · intro d b
    apply stableSort_filter readLess
    intro x y hx hy
    simp only [Bool.and_eq_true, decide_eq_true_eq, beq_iff_eq] at hx hy
    unfold readLess
    rw [hx.1, hy.1, hx.2, hy.2]
    cases b <;> simp

/-- What a loaded transaction shows of the one read. -/
structure TxnShows (names : List Str) (fin : Loaded) (t' : Txn) (t : PTxn) : Prop where
  posted : t'.posted = t.posted
  description : t'.description = t.description
  notes : t'.notes = t.notes
  posts : List.Forall₂ (fun r p => (fin.heap r).notes = p.notes ∧ (fin.heap r).asserted = p.balance.isSome ∧
    ∃ a, fin.books.account r = some a ∧ Means names p.account a) t'.postings t.postings

theorem loaded_order {P : Install} {st : LoadState} {accts : List Acct} {env : Env} {fin : Loaded} {sorted : List Txn} (h : LoadedAs P st accts env fin sorted) :
    ∃ ordered, ReportOrder st.txns ordered ∧ List.Forall₂ (TxnShows (accts.map (·.fullName)) fin) sorted ordered := by
  obtain ⟨_, items, db, ord, fuel, L, walk, _, _, _, _, hA, _, hw, he, hres⟩ := h
  have hn := (resolved_spec _ _ _ _ hA).1
  have hwn : walk.Nodup := hw.nodup_iff.mpr hn
  refine ⟨stableSort readLess st.txns, reportOrder_sort _, ?_⟩
  obtain ⟨s1, h1, h2, hs⟩ := load_parts hres
  rw [hs]
  have hall : List.Forall₂ (TxnShows (accts.map (·.fullName)) fin) (txnsFrom 0 st.txns) st.txns := by
    refine forall2_imp_mem (heapOf_laid st.txns) ?_
    intro t' ht' t hl
    refine ⟨hl.1, hl.2.1, hl.2.2.1, forall2_imp_mem hl.2.2.2 ?_⟩
    intro r hr p hp
    obtain ⟨_, g2, g3, _, a, g4, g5⟩ := loaded_shown (e := (t, p)) hwn hres ⟨hp, t', ht', hr, hl⟩
    refine ⟨g3, g2, a, g4, ?_⟩
    rw [he] at g5
    exact g5
  refine stableSort_forall2 hall ?_
  have hass : ∀ t' t, TxnShows (accts.map (·.fullName)) fin t' t → hasAssertions fin.heap t' = t.postings.any fun p => p.balance.isSome := by
    intro t' t ht
    have := ht.posts
    unfold hasAssertions
    generalize t'.postings = rs at this
    generalize t.postings = ps at this
    induction this with
    | nil => rfl
    | cons hab _ ih => rw [List.any_cons, List.any_cons, ih, hab.2.1]
  intro a _ a' ha b _ b' hb
  unfold txnLess readLess
  rw [hass a a' ha, hass b b' hb, ha.posted, hb.posted]

theorem Means.unique {names : List Str} {x a b : Str} (h : Means names x a) (h' : Means names x b) : a = b := by
  unfold Means at h h'
  rw [h] at h'
  injection h'

/-! ## C171 -/

theorem taggedTxns_ok (fin : Loaded) (sorted : List Txn) : ∀ t ∈ taggedTxns fin sorted, t.Ok := by
  intro t ht
  obtain ⟨u, _, rfl⟩ := List.mem_map.mp ht
  refine ⟨(parseTags_found _).1, ?_⟩
  intro p hp
  obtain ⟨r, _, rfl⟩ := List.mem_map.mp hp
  exact (parseTags_found _).1

theorem tagged_values {names : List Str} {fin : Loaded} {sorted : List Txn} {ordered : List PTxn} (h : List.Forall₂ (TxnShows names fin) sorted ordered) (k v : Str) :
    v ∈ valuesGiven (taggedTxns fin sorted) k ↔ ∃ t ∈ ordered, GivesTag t k v := by
  unfold valuesGiven taggedTxns
  induction h with
  | nil => simp
  | @cons t' t sorted ordered ht _ ih =>
    rw [List.map_cons, List.flatMap_cons, List.mem_append, ih]
    have hthis : v ∈ ((t'.postings.map fun p => (parseTags (fin.heap p).notes, (fin.books.account p).getD [])).filterMap (fun p => tagOf p.1 k) ++
        (tagOf (parseTags t'.notes) k).toList) ↔ GivesTag t k v := by
      rw [List.mem_append]
      unfold GivesTag HasTag
      have e1 : v ∈ (tagOf (parseTags t'.notes) k).toList ↔ (k, v) ∈ parseTags t.notes := by
        rw [ht.notes, ← tagOf_mem_iff (parseTags_found _).1]
        simp
      have e2 : v ∈ (t'.postings.map fun p => (parseTags (fin.heap p).notes, (fin.books.account p).getD [])).filterMap (fun p => tagOf p.1 k) ↔
          ∃ p ∈ t.postings, (k, v) ∈ parseTags p.notes := by
        have hp := ht.posts
        generalize t'.postings = rs at hp
        generalize t.postings = ps at hp
        induction hp with
        | nil => simp
        | @cons r p rs ps hab _ ih2 =>
          rw [List.map_cons, List.filterMap_cons, hab.1]
          have := @tagOf_mem_iff _ (parseTags_found p.notes).1 k v
          cases hx : tagOf (parseTags p.notes) k with
          | none =>
            rw [hx] at this
            simp only [ih2, List.mem_cons, exists_eq_or_imp]
            rw [← this]; simp
          | some w =>
            rw [hx] at this
            simp only [List.mem_cons, exists_eq_or_imp, ih2]
            rw [← this]
            simp only [Option.some.injEq]
            exact or_congr ⟨Eq.symm, Eq.symm⟩ Iff.rfl
      rw [e1, e2]
      exact or_comm
    dsimp only at hthis ⊢
    rw [hthis]
    simp only [List.mem_cons, exists_eq_or_imp]

theorem tagged_accounts {names : List Str} {fin : Loaded} {sorted : List Txn} {ordered : List PTxn} (h : List.Forall₂ (TxnShows names fin) sorted ordered) (k : Str) :
    List.Forall₂ (fun p a => Means names p.account a) (tagUses ordered k) (accountsUsing (taggedTxns fin sorted) k) := by
  classical
  unfold accountsUsing taggedTxns tagUses
  induction h with
  | nil => exact .nil
  | @cons t' t sorted ordered ht _ ih =>
    rw [List.map_cons, List.flatMap_cons, List.flatMap_cons]
    refine List.rel_append (List.rel_append ?_ ?_) ih
    · have hp := ht.posts
      generalize t'.postings = rs at hp
      generalize t.postings = ps at hp
      induction hp with
      | nil => exact .nil
      | @cons r p rs ps hab _ ih2 =>
        rw [List.map_cons, List.filter_cons, List.filter_cons, hab.1]
        have e : (tagOf (parseTags p.notes) k).isSome = decide (∃ v, HasTag p.notes k v) := by
          rw [Bool.eq_iff_iff, decide_eq_true_iff, Option.isSome_iff_exists]
          exact exists_congr fun v => tagOf_mem_iff (parseTags_found _).1 k v
        dsimp only
        rw [e]
        split
        · obtain ⟨a, h1, h2⟩ := hab.2.2
          refine .cons ?_ ih2
          dsimp only
          rw [h1]; exact h2
        · exact ih2
    · have e : (tagOf (parseTags t'.notes) k).isSome = true ↔ ∃ v, HasTag t.notes k v := by
        rw [Option.isSome_iff_exists, ht.notes]
        exact exists_congr fun v => tagOf_mem_iff (parseTags_found _).1 k v
      by_cases hk : ∃ v, HasTag t.notes k v
      · rw [if_pos hk, if_pos (e.mpr hk)]
        have hp := ht.posts
        generalize t'.postings = rs at hp
        generalize t.postings = ps at hp
        induction hp with
        | nil => exact .nil
        | @cons r p rs ps hab _ ih2 =>
          obtain ⟨a, h1, h2⟩ := hab.2.2
          refine .cons ?_ ih2
          dsimp only
          rw [h1]; exact h2
      · rw [if_neg hk, if_neg (fun h => hk (e.mp h))]
        exact .nil

/-- **C171** From the files of a ledger that loads, `coin tags` prints one entry for every key that some transaction or posting carries
and the expression, if any, matches, in increasing order; with -v its distinct non-empty values in increasing order; with -a the accounts
of the postings that carry it, or whose transaction does, in the order of the reports, each once. This for all spellings of the flags and
all orders in which maps are walked. -/
theorem C171_tags_of_files (P : Install) (st : LoadState) (accts : List Acct) (env : Env) (fin : Loaded) (sorted : List Txn)
    (hO : LoadedAs P st accts env fin sorted) (compile : Compile) (ord : List Str → List Str) (hord : ∀ l, (ord l).Perm l)
    (fe : FlagEnv) (w : Str) (l : List (Str × Str)) (toks : List (List Str)) (tail args : List Str) (hw : commandOf w = some .tags)
    (hl : List.Forall₂ (Written fe (flagsOf .tags)) l toks) (ht : Remaining tail args)
    (hv : ∀ a ∈ args.head?, ∃ m, compile (str "(?i)" ++ a) = some m) :
    ∃ (ordered : List PTxn) (keys : List Str) (vals accs : Str → List Str), ReportOrder st.txns ordered ∧
      tagsMain fe compile ord fin sorted (w :: (toks.flatten ++ tail)) =
        .ok (keys.flatMap fun k => keyText (boolFlag l (str "v")) (boolFlag l (str "a")) k (vals k) (accs k)) ∧
      Increasing keys ∧ (∀ k, k ∈ keys ↔ KeyAsked compile args k ∧ ∃ t ∈ st.txns, ∃ v, GivesTag t k v) ∧
      ∀ k ∈ keys, Increasing (vals k) ∧ (∀ v, v ∈ vals k ↔ v ≠ [] ∧ ∃ t ∈ st.txns, GivesTag t k v) ∧
        ∃ all, List.Forall₂ (fun p a => Means (accts.map (·.fullName)) p.account a) (tagUses ordered k) all ∧ accs k = firstOnce all := by
  obtain ⟨ordered, ho, hs⟩ := loaded_order hO
  have hmem : ∀ t, t ∈ ordered ↔ t ∈ st.txns := fun t => ho.same.mem_iff
  obtain ⟨nrex, hn, hsel⟩ : ∃ nrex, tagsRegex compile args = .ok nrex ∧ ∀ k, selects nrex k = true ↔ KeyAsked compile args k := by
    unfold KeyAsked
    cases args with
    | nil => exact ⟨none, rfl, fun k => by simp [selects]⟩
    | cons a rest =>
      obtain ⟨m, hm⟩ := hv a rfl
      refine ⟨some m, by unfold tagsRegex; dsimp only; rw [hm], fun k => ?_⟩
      unfold selects
      simp [hm]
  obtain ⟨keys, vals, h1, h2, h3, h4⟩ := C90_tags_listing nrex (boolFlag l (str "v")) (boolFlag l (str "a")) ord hord _ (taggedTxns_ok fin sorted)
  refine ⟨ordered, keys, vals, fun k => firstOnce (accountsUsing (taggedTxns fin sorted) k), ho, ?_, h1, ?_, ?_⟩
  · unfold tagsMain
    rw [dispatch_written hw hl ht]
    show (tagsRegex compile args).bind _ = _
    rw [hn]
    show tagsExecute nrex (boolFlag l (str "v")) (boolFlag l (str "a")) ord (taggedTxns fin sorted) = _
    rw [h4]
    congr 2
    funext k
    unfold tagEntry keyText
    cases vals k with
    | nil => simp [str]
    | cons v vs =>
      cases boolFlag l (str "v") <;> simp [str]
  · intro k
    rw [h2, hsel]
    refine and_congr Iff.rfl ?_
    rw [← List.isEmpty_eq_false_iff, List.isEmpty_eq_false_iff_exists_mem]
    simp only [tagged_values hs, hmem]
    constructor
    · rintro ⟨v, t, ht, hg⟩; exact ⟨t, ht, v, hg⟩
    · rintro ⟨t, ht, v, hg⟩; exact ⟨v, t, ht, hg⟩
  · intro k hk
    obtain ⟨g1, g2⟩ := h3 k hk
    refine ⟨g1, ?_, _, tagged_accounts hs k, rfl⟩
    intro v
    rw [g2, tagged_values hs]
    simp only [hmem]

/-- An expression that is not one ends the program. -/
theorem C171_bad_expression (compile : Compile) (ord : List Str → List Str) (fin : Loaded) (sorted : List Txn)
    (fe : FlagEnv) (w : Str) (l : List (Str × Str)) (toks : List (List Str)) (tail rest : List Str) (a : Str) (hw : commandOf w = some .tags)
    (hl : List.Forall₂ (Written fe (flagsOf .tags)) l toks) (ht : Remaining tail (a :: rest)) (hv : compile (str "(?i)" ++ a) = none) :
    tagsMain fe compile ord fin sorted (w :: (toks.flatten ++ tail)) = .error .panic := by
  unfold tagsMain
  rw [dispatch_written hw hl ht]
  show (tagsRegex compile (a :: rest)).bind _ = _
  unfold tagsRegex
  dsimp only
  rw [hv]
  rfl

/-! ### A ledger with tags -/

def tagDir : List (Str × Str) :=
  [(str "commodities.coin", str "commodity CAD\n  format 1.00 CAD\n"), (str "prices.coin", []),
   (str "accounts.coin", str "account Assets:Cash\naccount Food\n"),
   (str "transactions.coin", str "2020/01/05 Hotel ; #trip: rome\n  Food  3.50 CAD\n  Cash ; #card\n\n2020/01/02 Shop\n  Food  1.00 CAD ; #trip: oslo\n  Cash\n")]

def tagInstall : Install := ⟨dirDisk tagDir, ⟨2020, 1, 1⟩, 5, ledgerNames⟩

def tagCad : Com := ⟨0, str "CAD", 2⟩
def tagTxns : List PTxn :=
  [⟨737428, [], str "Hotel", [str "#trip: rome"], [⟨str "Food", some ⟨350, tagCad⟩, none, []⟩, ⟨str "Cash", none, none, [str "#card"]⟩]⟩,
   ⟨737425, [], str "Shop", [], [⟨str "Food", some ⟨100, tagCad⟩, none, [str "#trip: oslo"]⟩, ⟨str "Cash", none, none, []⟩]⟩]
def tagState : LoadState := ⟨[tagCad], str "CAD",
  [.commodity ⟨str "CAD", [], 2, false, []⟩, .account ⟨str "Assets:Cash", [], str "CAD", none, [], [], []⟩,
   .account ⟨str "Food", [], str "CAD", none, [], [], []⟩] ++ tagTxns.map .transaction⟩

theorem tag_loads : loadAllS tagInstall.disk tagInstall.today tagInstall.limit tagInstall.files ⟨[], str "CAD", []⟩ = .ok tagState :=
  load_eq (by decide +kernel)

/-- The accounts of a ledger, walked in the order of their declarations. -/
def plainAccts (st : LoadState) : List Acct := createParents st.dflt (baseAccounts st.dflt st.decls) (baseAccounts st.dflt st.decls)

/-- Their environment in a ledger without prices. -/
def plainEnv (st : LoadState) : Env := Env.ofAccounts (plainAccts st) (st.comOf (plainAccts st)) patternMatches (convWith (fun _ => []) (fun _ _ => []) 1)

/-- A ledger without prices that loads. -/
theorem loadedAs_plain {P : Install} {st : LoadState} (hl : loadAllS P.disk P.today P.limit P.files ⟨[], str "CAD", []⟩ = .ok st)
    (hp : st.items.filterMap itemPrice = []) (hc : ∀ a ∈ plainAccts st, (st.comFor a).isSome = true) {fin : Loaded} {sorted : List Txn}
    (hr : resolveTransactions (plainEnv st) (heapOf st.txns) (txnsFrom 0 st.txns) ((plainAccts st).map (·.fullName)) = .ok (fin, sorted)) :
    LoadedAs P st (plainAccts st) (plainEnv st) fin sorted := by
  obtain ⟨L0, h0⟩ := C20_linking_succeeds st.dflt st.decls (baseAccounts st.dflt st.decls) _ 0 (List.Perm.refl _) (List.Perm.refl _)
  refine ⟨hl, [], fun _ => [], fun _ _ => [], 1,
    ⟨L0.parent, fun p => stableSort (fun a b => strLt (parentAndName a).2 (parentAndName b).2) (L0.children p)⟩, _, ?_, fun _ => .nil, fun _ _ => .refl _, ?_,
    ⟨_, _, 0, L0, List.Perm.refl _, rfl, List.Perm.refl _, h0, rfl, fun p => ⟨stableSort_perm _ _, stableSort_sorted _ (strLt_strictWeak.comap _) _⟩⟩,
    hc, List.Perm.refl _, rfl, hr⟩
  · rw [hp]; rfl
  · intro c x; unfold convert; simp only [convertF]; split <;> rfl

theorem tag_resolves : ∃ r, resolveTransactions (plainEnv tagState) (heapOf tagState.txns) (txnsFrom 0 tagState.txns) ((plainAccts tagState).map (·.fullName)) = .ok r ∧
    (tagsMain cmdFlags (fun _ => some fun s => decide (s.head? = some 't')) id r.1 r.2 [str "tags", str "-v", str "-a", str "t"]).toOption =
      some (str "trip: \"oslo\", \"rome\"\n\tFood\n\tAssets:Cash\n") := by
  have h : ((resolveTransactions (plainEnv tagState) (heapOf tagState.txns) (txnsFrom 0 tagState.txns) ((plainAccts tagState).map (·.fullName))).toOption.map fun r =>
      (tagsMain cmdFlags (fun _ => some fun s => decide (s.head? = some 't')) id r.1 r.2 [str "tags", str "-v", str "-a", str "t"]).toOption) =
      some (some (str "trip: \"oslo\", \"rome\"\n\tFood\n\tAssets:Cash\n")) := by decide +kernel
  cases hx : resolveTransactions (plainEnv tagState) (heapOf tagState.txns) (txnsFrom 0 tagState.txns) ((plainAccts tagState).map (·.fullName)) with
  | error e => rw [hx] at h; cases h
  | ok r => rw [hx] at h; exact ⟨r, rfl, Option.some.inj h⟩

/-- Non-vacuity of C171: the ledger loads, and the theorem applies to a command line with all flags, whose output is above. -/
example : ∃ fin sorted, LoadedAs tagInstall tagState (plainAccts tagState) (plainEnv tagState) fin sorted ∧
    ∃ (keys : List Str) (vals accs : Str → List Str),
      str "trip: \"oslo\", \"rome\"\n\tFood\n\tAssets:Cash\n" = keys.flatMap (fun k => keyText true true k (vals k) (accs k)) ∧ Increasing keys := by
  obtain ⟨⟨fin, sorted⟩, hr, hout⟩ := tag_resolves
  have hO := loadedAs_plain tag_loads (by decide +kernel) (by decide +kernel) hr
  refine ⟨fin, sorted, hO, ?_⟩
  obtain ⟨_, keys, vals, accs, _, h2, h3, _⟩ := C171_tags_of_files _ _ _ _ _ _ hO (fun _ => some fun s => decide (s.head? = some 't')) id (fun _ => .refl _)
    cmdFlags (str "tags") [(str "v", str "true"), (str "a", str "true")] [[str "-v"], [str "-a"]] [str "t"] [str "t"] (by decide)
    (.cons (.bare (d := ['-']) (.inl rfl) (by decide)) (.cons (.bare (d := ['-']) (.inl rfl) (by decide)) .nil)) (.plain (by unfold PlainArg; decide)) (by simp)
  have h2 : tagsMain cmdFlags (fun _ => some fun s => decide (s.head? = some 't')) id fin sorted [str "tags", str "-v", str "-a", str "t"] = .ok _ := h2
  dsimp only at hout
  rw [h2] at hout
  exact ⟨keys, vals, accs, (Option.some.inj hout).symm, h3⟩

/-- The ledger views of `Opened` belong to such a ledger. -/
theorem loadedAs_of_opened {P : Install} {compile : Compile} {st : LoadState} {accts : List Acct} {g : LedgerView} (h : Opened P compile st accts g) :
    ∃ fin sorted, LoadedAs P st accts g.env fin sorted := by
  obtain ⟨hl, items, db, ord, fuel, L, walk, fin, sorted, bound, location, order, h1, h2, h3, h4, h5, h6, h7, h8, h9, rfl⟩ := h
  exact ⟨fin, sorted, hl, items, db, ord, fuel, L, walk, h1, h2, h3, h4, h5, h6, h7, rfl, h8⟩

end Verif
