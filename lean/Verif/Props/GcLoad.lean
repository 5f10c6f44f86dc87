import Verif.Props.GcTxns
import Verif.Props.Load
import Verif.Props.ReadBack
import Verif.Props.RoundTrip
import Verif.Props.TestFill
/-
C109: what gc2coin writes is loaded again.
-/
namespace Verif

/-! ## C109: loading a converted book -/

/-! ### Lines that load -/

/-- The lines bring the state of a load from one to the other, without includes. -/
inductive Loads (today : Today) : LoadState → List Str → LoadState → Prop
  | done {st} : Loads today st [] st
  | blank {st ls st'} : Loads today st ls st' → Loads today st ([] :: ls) st'
  | item {st st1 st' : LoadState} {ls rest : List Str} {i : ItemD} : next ⟨today, st.lookup, st.dflt⟩ ls = .ok (some i, rest) → (∀ p, i.1 ≠ .include_ p) →
      storeItem st i = .ok st1 → Loads today st1 rest st' → Loads today st ls st'

theorem loads_reader {d : Disk} {today : Today} {load : LoadState → Str → Except Fault LoadState} {fn : Str} {st st' : LoadState} {ls : List Str}
    (h : Loads today st ls st') : ∀ n, ls.length < n → loadReader d today load fn n st ls = .ok st' := by
  induction h with
  | done =>
    intro n hn
    obtain ⟨n, rfl⟩ := Nat.exists_eq_succ_of_ne_zero (show n ≠ 0 by omega)
    rfl
  | @blank st ls st' h ih =>
    intro n hn
    obtain ⟨n, rfl⟩ := Nat.exists_eq_succ_of_ne_zero (show n ≠ 0 by omega)
    have := ih (n + 1) (by simp at hn; omega)
    rw [loadReader] at this ⊢
    rw [next_empty]
    exact this
  | @item st st1 st' ls rest i hn hi hs h ih =>
    intro n hl
    obtain ⟨n, rfl⟩ := Nat.exists_eq_succ_of_ne_zero (show n ≠ 0 by omega)
    have hlen := (next_ok (known := fun _ => True) ls hn).2.1
    rw [loadReader]
    simp only [hn]
    have : loadItem d load fn st i = .ok st1 := by
      rw [← hs]
      unfold loadItem
      split
      · rename_i p e; exact absurd e (hi p)
      · rfl
    rw [this]
    exact ih n (by omega)

/-- The lines are read as the item, whatever follows. -/
def ReadsAs (today : Today) (coms : List Com) (dflt : Str) (x : Item) (L : List Str) : Prop :=
  (∀ l ∈ L, CleanLine l) ∧ ∀ its rest st', Loads today ⟨coms, dflt, its ++ [x]⟩ rest st' → Loads today ⟨coms, dflt, its⟩ (L ++ rest) st'

theorem reads_list {today : Today} {coms : List Com} {dflt : Str} {xs : List Item} {Ls : List (List Str)} (h : List.Forall₂ (ReadsAs today coms dflt) xs Ls) :
    ∀ its, Loads today ⟨coms, dflt, its⟩ Ls.flatten ⟨coms, dflt, its ++ xs⟩ := by
  induction h with
  | nil => intro its; rw [List.append_nil]; exact .done
  | @cons x _ _ _ h _ ih =>
    intro its
    rw [List.flatten_cons]
    refine h.2 _ _ _ ?_
    have := ih (its ++ [x])
    rwa [List.append_assoc] at this

theorem reads_clean {today : Today} {coms : List Com} {dflt : Str} {xs : List Item} {Ls : List (List Str)} (h : List.Forall₂ (ReadsAs today coms dflt) xs Ls) :
    ∀ l ∈ Ls.flatten, CleanLine l := by
  induction h with
  | nil => intro l hl; simp at hl
  | cons h _ ih =>
    intro l hl
    rw [List.flatten_cons, List.mem_append] at hl
    rcases hl with hl | hl
    · exact h.1 l hl
    · exact ih l hl

theorem clean_empty : CleanLine [] := by unfold CleanLine; decide

/-- A file of such lines. -/
theorem loads_file {d : Disk} {today : Today} {limit : Nat} {st st' : LoadState} {fn : Str} {lines : List Str} (hr : d.read fn = some (textOf lines))
    (hc : ∀ l ∈ lines, CleanLine l) (h : Loads today st lines st') : loadFile d today (limit + 1) st fn = .ok st' := by
  rw [loadFile, hr]
  simp only
  rw [scanLines_textOf hc]
  exact loads_reader h _ (by omega)

theorem reads_price {today : Today} {coms : List Com} {dflt : Str} {p : PPrice} (h : CanonPrice (LoadState.lookup ⟨coms, dflt, []⟩) p) :
    ∃ line, writePrice p = .ok [line] ∧ ReadsAs today coms dflt (.price p) [line] := by
  obtain ⟨line, e, c, _⟩ := C65_price ⟨today, LoadState.lookup ⟨coms, dflt, []⟩, dflt⟩ p h []
  refine ⟨line, e, by simpa using c, ?_⟩
  intro its rest st' hl
  obtain ⟨line', e', _, hn⟩ := C65_price ⟨today, LoadState.lookup ⟨coms, dflt, []⟩, dflt⟩ p h rest
  rw [e] at e'
  cases e'
  exact .item (i := (.price p, false)) hn (by intro q; simp) rfl hl

theorem reads_account {today : Today} {coms : List Com} {dflt : Str} {a : PAcct} (h : CanonAcct a) :
    ReadsAs today coms dflt (.account a) (writeAccount a ++ [[]]) := by
  refine ⟨?_, ?_⟩
  · intro l hl
    rw [List.mem_append, List.mem_singleton] at hl
    rcases hl with hl | rfl
    · exact writeAccount_clean h l hl
    · exact clean_empty
  · intro its rest st' hl
    rw [List.append_assoc]
    have hne : a.fullName ≠ [] := by
      obtain ⟨x, t, e, _⟩ := h.name.head
      rw [e]; simp
    exact .item (i := (.account a, false)) (C65_account _ a h ([[]] ++ rest) (.inr ⟨rest, rfl⟩)) (by intro q; simp) (by unfold storeItem; simp only; rw [if_neg hne]) (.blank hl)

theorem reads_txn {today : Today} {coms : List Com} {dflt : Str} {dec : Str → Nat} {t : PTxn} (h : CanonTxn (LoadState.lookup ⟨coms, dflt, []⟩) t) :
    ∃ lines, writeTxn dec t = .ok lines ∧ ReadsAs today coms dflt (.transaction t) (lines ++ [[]]) := by
  have stop : ∀ rest, Stops ([[]] ++ rest) := by intro rest l ls e; cases e; exact posting_empty
  obtain ⟨line, lines, e, _, _, cl⟩ := read_back_core ⟨today, LoadState.lookup ⟨coms, dflt, []⟩, dflt⟩ dec t h _ (stop [])
  refine ⟨line :: lines, e, ?_, ?_⟩
  · intro l hl
    rw [List.mem_append, List.mem_singleton] at hl
    rcases hl with hl | rfl
    · exact cl l hl
    · exact clean_empty
  · intro its rest st' hl
    obtain ⟨line', lines', e', hp, ⟨x, u, ex, hx⟩, _⟩ := read_back_core ⟨today, LoadState.lookup ⟨coms, dflt, []⟩, dflt⟩ dec t h _ (stop rest)
    rw [e] at e'
    cases e'
    rw [List.append_assoc]
    refine .item (i := (.transaction t, false)) (rest := [[]] ++ rest) ?_ (by intro q; simp) rfl (.blank hl)
    subst ex
    exact next_digit hx hp

/-- The state after the commodities were loaded. -/
def withComs (st : LoadState) : List PCom → LoadState
  | [] => st
  | c :: cs => withComs ⟨⟨st.coms.length, c.id, c.decimals⟩ :: st.coms, st.dflt, st.items ++ [.commodity c]⟩ cs

theorem reads_commodities {today : Today} {cs : List PCom} (h : ∀ c ∈ cs, CanonCom c ∧ c.symbol = []) : ∀ st, Loads today st (cs.flatMap fun c => writeCommodity c ++ [[]]) (withComs st cs) := by
  induction cs with
  | nil => intro st; exact .done
  | cons c cs ih =>
    intro st
    rw [List.flatMap_cons, List.append_assoc]
    obtain ⟨hc, hs⟩ := h c (by simp)
    have hn := C65_commodity_partial ⟨today, st.lookup, st.dflt⟩ c hc ([[]] ++ cs.flatMap fun c => writeCommodity c ++ [[]]) (.inr ⟨_, rfl⟩)
    have e : { c with symbol := [] } = c := by rw [← hs]
    rw [e] at hn
    exact .item (i := (.commodity c, false)) hn (by intro q; simp) rfl (.blank (ih (fun c hc => h c (by simp [hc])) _))

theorem commodities_clean {cs : List PCom} (h : ∀ c ∈ cs, CanonCom c ∧ c.symbol = []) : ∀ l ∈ cs.flatMap (fun c => writeCommodity c ++ [[]]), CleanLine l := by
  intro l hl
  rw [List.mem_flatMap] at hl
  obtain ⟨c, hc, hl⟩ := hl
  rw [List.mem_append, List.mem_singleton] at hl
  rcases hl with hl | rfl
  · exact writeCommodity_clean (h c hc).1 l hl
  · exact clean_empty

theorem withComs_items (cs : List PCom) : ∀ st, (withComs st cs).items = st.items ++ cs.map Item.commodity ∧ (withComs st cs).dflt = st.dflt := by
  induction cs with
  | nil => intro st; simp [withComs]
  | cons c cs ih => intro st; rw [withComs]; obtain ⟨h1, h2⟩ := ih ⟨⟨st.coms.length, c.id, c.decimals⟩ :: st.coms, st.dflt, st.items ++ [.commodity c]⟩; exact ⟨by rw [h1]; simp, h2⟩

/-! ### The directory -/

/-- The directory that was written, with the result of `filepath.Glob` for a pattern. -/
def diskOf (dir : Str → Option Str) (glob : Str → Option (List Str)) : Disk := ⟨dir, fun _ p => p, id, glob, fun f => (dir f).isSome⟩

def gcNames : Names := ⟨str "commodities.coin", str "prices.coin", str "accounts.coin", str "transactions.coin", str "*.prices", str "*.coin"⟩

/-- The book that is written: commodities, accounts by name, prices and transactions in order of time. -/
structure GcBook where
  coms : List PCom
  accounts : ByName
  prices : List GcPrice
  txns : List GcTxn
  names : NameOf

/-- The commodities that are written. -/
def GcBook.kept (b : GcBook) : List PCom := b.coms.filter (fun c => decide (c.name ≠ str "template"))

/-- The items of the book, in the order of loading. -/
def GcBook.items (b : GcBook) : List Item :=
  b.kept.map Item.commodity ++ b.prices.map (fun p => .price p.written) ++ b.accounts.map (fun e => .account (e.2.written e.1)) ++
  b.txns.map (fun t => .transaction (t.written b.names))

/-- What the items of a book say: accounts under their full names with description, commodity and bank ids; prices with date, commodity, currency
and value; transactions with date, code, description, notes and, for each split, the full name of its account and the amount. -/
theorem C109_items (b : GcBook) :
    (∀ c, c ∈ b.coms → c.name ≠ str "template" → Item.commodity c ∈ b.items) ∧
    (∀ full a, (full, a) ∈ b.accounts → ∃ p : PAcct, Item.account p ∈ b.items ∧ p.fullName = full ∧ p.description = a.description ∧
      p.commodityId = a.com.id ∧ p.closed = none ∧ p.ofxBankId = a.bank ∧ p.ofxAcctId = a.acct ∧ p.csvAcctId = []) ∧
    (∀ q ∈ b.prices, ∃ p : PPrice, Item.price p ∈ b.items ∧ p.time = q.time.day ∧ p.commodityId = q.com.id ∧ p.currencyId = q.cur.id ∧ p.value = q.value) ∧
    (∀ t ∈ b.txns, ∃ p : PTxn, Item.transaction p ∈ b.items ∧ p.posted = t.posted.day ∧ p.code = t.code ∧ p.description = t.description ∧ p.notes = t.notes ∧
      List.Forall₂ (fun (x : PPost) (y : GcPost) => x.account = b.names y.account ∧ x.quantity = some y.quantity ∧ x.balance = none ∧ x.notes = y.notes) p.postings t.postings) := by
  refine ⟨?_, ?_, ?_, ?_⟩
  · intro c hc hn
    unfold GcBook.items GcBook.kept
    simp only [List.mem_append]
    exact Or.inl (Or.inl (Or.inl (List.mem_map_of_mem (List.mem_filter.mpr ⟨hc, by simpa using hn⟩))))
  · intro full a h
    refine ⟨a.written full, ?_, rfl, rfl, rfl, rfl, rfl, rfl, rfl⟩
    unfold GcBook.items
    simp only [List.mem_append]
    exact Or.inl (Or.inr (List.mem_map.mpr ⟨(full, a), h, rfl⟩))
  · intro q h
    refine ⟨q.written, ?_, rfl, rfl, rfl, rfl⟩
    unfold GcBook.items
    simp only [List.mem_append]
    exact Or.inl (Or.inl (Or.inr (List.mem_map_of_mem h)))
  · intro t h
    refine ⟨t.written b.names, ?_, rfl, rfl, rfl, rfl, ?_⟩
    · unfold GcBook.items
      simp only [List.mem_append]
      exact Or.inr (List.mem_map_of_mem h)
    · show List.Forall₂ _ (t.postings.map _) t.postings
      rw [List.forall₂_map_left_iff]
      exact List.forall₂_same.mpr (fun y _ => ⟨rfl, rfl, rfl, rfl⟩)

/-- What coin knows of commodities after loading them. -/
def GcBook.state (b : GcBook) (dflt : Str) : LoadState := withComs ⟨[], dflt, []⟩ b.kept

/-- The parts of the book are in the canonical form that C53 and C65 are about. -/
structure GcBook.Canon (b : GcBook) (dflt : Str) : Prop where
  coms : ∀ c ∈ b.kept, CanonCom c ∧ c.symbol = []
  accounts : ∀ e ∈ b.accounts, CanonAcct (e.2.written e.1)
  prices : ∀ p ∈ b.prices, CanonPrice (b.state dflt).lookup p.written
  txns : ∀ t ∈ b.txns, CanonTxn (b.state dflt).lookup (t.written b.names)

/-- Converting the book into a directory. -/
def GcBook.write (b : GcBook) (dec : Str → Nat) (yearly : Bool) (dir : Str → Option Str) : Except Fault OutDir :=
  (b.prices.mapM priceEntry).bind fun ps => (b.txns.mapM (txnEntry dec b.names)).bind fun ts =>
  gcMain yearly dir (gcCommodities b.coms) (gcAccounts b.accounts) ps ts

/-- Full statement: a book that was written to a directory is loaded from it, with and without `-y`; the files of a pattern are listed in order. -/
def Globs (dir : Str → Option Str) (glob : Str → Option (List Str)) : Prop := ∀ ext : Str, ∃ l, glob ('*' :: ext) = some l ∧
  l.Pairwise (fun a b => strLt a b = true) ∧ ∀ x, x ∈ l ↔ (∃ s, x = s ++ ext) ∧ (dir x).isSome = true

def C109_Statement : Prop := ∀ (today : Today) (dec : Str → Nat) (limit : Nat) (dflt : Str) (yearly : Bool) (dir : Str → Option Str) (glob : Str → Option (List Str)) (b : GcBook) (o : OutDir),
  b.write dec yearly dir = .ok o → Globs o.dir glob → ∃ st, loadAll (diskOf o.dir glob) today (limit + 1) gcNames ⟨[], dflt, []⟩ = .ok st ∧ st.items = b.items

/-- The entries of prices, with their lines. -/
theorem price_entries {today : Today} {coms : List Com} {dflt : Str} : ∀ (ps : List GcPrice), (∀ p ∈ ps, CanonPrice (LoadState.lookup ⟨coms, dflt, []⟩) p.written) →
    ∃ Ls : List (List Str), ps.mapM priceEntry = .ok (List.zipWith (fun p L => (goYear p.time.day, textOf L)) ps Ls) ∧
      List.Forall₂ (fun p L => ReadsAs today coms dflt (.price p.written) L) ps Ls := by
  intro ps
  induction ps with
  | nil => intro _; exact ⟨[], rfl, .nil⟩
  | cons p ps ih =>
    intro h
    obtain ⟨Ls, h1, h2⟩ := ih (fun p hp => h p (by simp [hp]))
    obtain ⟨line, e, hr⟩ := reads_price (today := today) (h p (by simp))
    refine ⟨[line] :: Ls, ?_, .cons hr h2⟩
    rw [List.mapM_cons, h1]
    unfold priceEntry
    rw [e]
    rfl

theorem txn_entries {today : Today} {coms : List Com} {dflt : Str} {dec : Str → Nat} {f : NameOf} : ∀ (ts : List GcTxn), (∀ t ∈ ts, CanonTxn (LoadState.lookup ⟨coms, dflt, []⟩) (t.written f)) →
    ∃ Ls : List (List Str), ts.mapM (txnEntry dec f) = .ok (List.zipWith (fun t L => (goYear t.posted.day, textOf L)) ts Ls) ∧
      List.Forall₂ (fun t L => ReadsAs today coms dflt (.transaction (t.written f)) L) ts Ls := by
  intro ts
  induction ts with
  | nil => intro _; exact ⟨[], rfl, .nil⟩
  | cons t ts ih =>
    intro h
    obtain ⟨Ls, h1, h2⟩ := ih (fun p hp => h p (by simp [hp]))
    obtain ⟨lines, e, hr⟩ := reads_txn (today := today) (dec := dec) (h t (by simp))
    refine ⟨(lines ++ [[]]) :: Ls, ?_, .cons hr h2⟩
    rw [List.mapM_cons, h1]
    unfold txnEntry
    rw [e]
    rfl

theorem zip_texts {α} (g : α → Int) : ∀ (l : List α) (Ls : List (List Str)), l.length = Ls.length →
    (List.zipWith (fun p L => (g p, textOf L)) l Ls).flatMap (·.2) = textOf Ls.flatten := by
  intro l
  induction l with
  | nil => intro Ls h; cases Ls with
    | nil => rfl
    | cons => cases h
  | cons a l ih =>
    intro Ls h
    cases Ls with
    | nil => cases h
    | cons L Ls =>
      rw [List.zipWith_cons_cons, List.flatMap_cons, ih Ls (by simpa using h), List.flatten_cons, textOf_append]

/-- The files of the commodities and accounts load. -/
theorem load_commodities {b : GcBook} {dflt : Str} (h : b.Canon dflt) {d : Disk} {today : Today} {limit : Nat} (hr : d.read (str "commodities.coin") = some (gcCommodities b.coms)) :
    loadFile d today (limit + 1) ⟨[], dflt, []⟩ gcNames.commodities = .ok (b.state dflt) :=
  loads_file hr (commodities_clean h.coms) (reads_commodities h.coms _)

theorem load_accounts {b : GcBook} {dflt : Str} (h : b.Canon dflt) {d : Disk} {today : Today} {limit : Nat} {coms : List Com} (hr : d.read (str "accounts.coin") = some (gcAccounts b.accounts)) (its : List Item) :
    loadFile d today (limit + 1) ⟨coms, dflt, its⟩ gcNames.accounts = .ok ⟨coms, dflt, its ++ b.accounts.map (fun e => .account (e.2.written e.1))⟩ := by
  have hf : List.Forall₂ (ReadsAs today coms dflt) (b.accounts.map (fun e => Item.account (e.2.written e.1))) (b.accounts.map (fun e => writeAccount (e.2.written e.1) ++ [[]])) := by
    rw [List.forall₂_map_left_iff, List.forall₂_map_right_iff, List.forall₂_same]
    exact fun e he => reads_account (h.accounts e he)
  have e : gcAccounts b.accounts = textOf (b.accounts.map (fun e => writeAccount (e.2.written e.1) ++ [[]])).flatten := by
    unfold gcAccounts
    rw [List.flatMap_def]
  rw [e] at hr
  exact loads_file hr (reads_clean hf) (reads_list hf its)

theorem state_eq (b : GcBook) (dflt : Str) : b.state dflt = ⟨(b.state dflt).coms, dflt, b.kept.map Item.commodity⟩ := by
  obtain ⟨h1, h2⟩ := withComs_items b.kept ⟨[], dflt, []⟩
  unfold GcBook.state
  cases hw : withComs ⟨[], dflt, []⟩ b.kept with
  | mk c d i =>
    rw [hw] at h1 h2
    simp only [List.nil_append] at h1 h2
    rw [h1, h2]

theorem lookup_items (c : List Com) (d : Str) (i j : List Item) : LoadState.lookup ⟨c, d, i⟩ = LoadState.lookup ⟨c, d, j⟩ := rfl

theorem state_lookup (b : GcBook) (dflt : Str) : (b.state dflt).lookup = LoadState.lookup ⟨(b.state dflt).coms, dflt, []⟩ := by
  conv_lhs => rw [state_eq]
  rfl

/-- **C109 (partial)** Without `-y` a book in canonical form, written to any directory, is loaded as it was. Missing: books that are not in canonical form. -/
theorem C109_whole_partial (today : Today) (dec : Str → Nat) (limit : Nat) (dflt : Str) (dir : Str → Option Str) (glob : Str → Option (List Str)) (b : GcBook) (h : b.Canon dflt) :
    ∃ o, b.write dec false dir = .ok o ∧
      loadAll (diskOf o.dir glob) today (limit + 1) gcNames ⟨[], dflt, []⟩ = .ok ⟨(b.state dflt).coms, dflt, b.items⟩ := by
  obtain ⟨Lp, p1, p2⟩ := price_entries (today := today) b.prices (by rw [← state_lookup]; exact h.prices)
  obtain ⟨Lt, t1, t2⟩ := txn_entries (today := today) (dec := dec) (f := b.names) b.txns (by rw [← state_lookup]; exact h.txns)
  obtain ⟨o, g, g1, g2, g3, g4, _⟩ := C107_whole dir (gcCommodities b.coms) (gcAccounts b.accounts) (List.zipWith (fun p L => (goYear p.time.day, textOf L)) b.prices Lp)
    (List.zipWith (fun t L => (goYear t.posted.day, textOf L)) b.txns Lt)
  rw [zip_texts (fun p : GcPrice => goYear p.time.day) _ _ p2.length_eq] at g3
  rw [zip_texts (fun p : GcTxn => goYear p.posted.day) _ _ t2.length_eq] at g4
  refine ⟨o, ?_, ?_⟩
  · unfold GcBook.write
    rw [p1, t1]
    exact g
  · unfold loadAll loadPricesFile
    rw [load_commodities h (d := diskOf o.dir glob) g1]
    simp only [Except.bind]
    have hp : pricesFiles (diskOf o.dir glob) gcNames = [str "prices.coin"] := by
      unfold pricesFiles
      rw [if_pos (by show (o.dir (str "prices.coin")).isSome = true; rw [g3]; rfl)]
      rfl
    have ht : transactionFiles (diskOf o.dir glob) gcNames = [str "transactions.coin"] := by
      unfold transactionFiles
      rw [if_pos (by show (o.dir (str "transactions.coin")).isSome = true; rw [g4]; rfl)]
      rfl
    rw [hp, ht, state_eq]
    have p2' : List.Forall₂ (ReadsAs today (b.state dflt).coms dflt) (b.prices.map (fun p => Item.price p.written)) Lp := by
      rw [List.forall₂_map_left_iff]; exact p2
    have t2' : List.Forall₂ (ReadsAs today (b.state dflt).coms dflt) (b.txns.map (fun t => Item.transaction (t.written b.names))) Lt := by
      rw [List.forall₂_map_left_iff]; exact t2
    rw [loadEach, loads_file (d := diskOf o.dir glob) g3 (reads_clean p2') (reads_list p2' _)]
    simp only [Except.bind, loadEach]
    rw [load_accounts h (d := diskOf o.dir glob) g2]
    simp only
    rw [loads_file (d := diskOf o.dir glob) g4 (reads_clean t2') (reads_list t2' _)]
    rfl

/-! ### Files by year -/

theorem strLt_digits (e : Str) : ∀ (s t : Str), s.length = t.length → s.all isDigit = true → t.all isDigit = true → strLt (s ++ e) (t ++ e) = true → strNat s < strNat t := by
  intro s
  induction s with
  | nil =>
    intro t hl _ _ h
    cases t with
    | nil => rw [strLt_irrefl] at h; cases h
    | cons => cases hl
  | cons a s ih =>
    intro t hl hs ht h
    cases t with
    | nil => cases hl
    | cons b t =>
      rw [List.all_cons, Bool.and_eq_true] at hs ht
      rw [List.cons_append, List.cons_append, strLt, Bool.or_eq_true, Bool.and_eq_true] at h
      have hlen : s.length = t.length := by simpa using hl
      rw [strNat_cons, strNat_cons, hlen]
      have l1 := strNat_lt s hs.2
      rw [hlen] at l1
      rcases h with h | ⟨h1, h2⟩
      · have h := of_decide_eq_true h
        have ha := hs.1
        have hb := ht.1
        have hv : digitVal a + 1 ≤ digitVal b := by
          simp only [isDigit, Bool.and_eq_true, decide_eq_true_eq] at ha hb
          unfold digitVal
          omega
        have := Nat.mul_le_mul_right (10 ^ t.length) hv
        rw [Nat.add_mul] at this
        omega
      · have h1 := of_decide_eq_true h1
        subst h1
        have := ih t hlen hs.2 ht.2 h2
        omega

theorem itoa_year {y : Int} (h : 1000 ≤ y ∧ y ≤ 9999) : (itoa y).length = 4 ∧ (itoa y).all isDigit = true ∧ (strNat (itoa y) : Int) = y := by
  unfold itoa
  rw [if_neg (by omega)]
  refine ⟨natStr_length _ 3 (.inr (by omega)) (by omega), natStr_allDigits _, ?_⟩
  rw [strNat_natStr]
  omega

/-- File names of years of four digits sort as the years. -/
theorem year_order {a b : Int} (ha : 1000 ≤ a ∧ a ≤ 9999) (hb : 1000 ≤ b ∧ b ≤ 9999) (ext : Str) (h : strLt (itoa a ++ ext) (itoa b ++ ext) = true) : a < b := by
  obtain ⟨a1, a2, a3⟩ := itoa_year ha
  obtain ⟨b1, b2, b3⟩ := itoa_year hb
  have := strLt_digits ext _ _ (by rw [a1, b1]) a2 b2 h
  omega

/-- An item with its year and its lines. -/
abbrev Dated := Int × Item × List Str

theorem first_year {z : List Dated} (hs : z.Pairwise (fun a b => a.1 ≤ b.1)) {y : Int} (hy : ∀ q ∈ z, y ≤ q.1) :
    z = z.filter (fun q => decide (q.1 = y)) ++ z.filter (fun q => decide (q.1 ≠ y)) := by
  induction z with
  | nil => rfl
  | cons q z ih =>
    rw [List.pairwise_cons] at hs
    by_cases h : q.1 = y
    · rw [List.filter_cons, if_pos (by simpa using h), List.filter_cons, if_neg (by simpa using h), List.cons_append, ← ih hs.2 (fun q hq => hy q (by simp [hq]))]
    · have h0 := hy q (by simp)
      have : ∀ r ∈ q :: z, r.1 ≠ y := fun r hr => by
        rcases List.mem_cons.mp hr with rfl | hr
        · exact h
        · have := hs.1 r hr; omega
      rw [List.filter_eq_nil_iff.mpr (by intro r hr; simp [this r hr]), List.nil_append,
        List.filter_eq_self.mpr (by intro r hr; simp [this r hr])]

theorem by_years : ∀ (ys : List Int) (z : List Dated), z.Pairwise (fun a b => a.1 ≤ b.1) → ys.Pairwise (fun a b => a < b) → (∀ q ∈ z, q.1 ∈ ys) →
    ys.flatMap (fun y => z.filter (fun q => decide (q.1 = y))) = z := by
  intro ys
  induction ys with
  | nil =>
    intro z _ _ h
    cases z with
    | nil => rfl
    | cons q z => exact absurd (h q (by simp)) (by simp)
  | cons y ys ih =>
    intro z hs hy h
    rw [List.pairwise_cons] at hy
    rw [List.flatMap_cons]
    conv_rhs => rw [first_year hs (y := y) (fun q hq => (List.mem_cons.mp (h q hq)).elim (fun e => by omega) (fun e => by have := hy.1 _ e; omega))]
    congr 1
    rw [← ih (z.filter (fun q => decide (q.1 ≠ y))) (hs.filter _) hy.2 (by
      intro q hq
      rw [List.mem_filter] at hq
      rcases List.mem_cons.mp (h q hq.1) with e | e
      · simp [e] at hq
      · exact e)]
    apply List.flatMap_congr
    intro w hw
    rw [List.filter_filter]
    apply List.filter_congr
    intro q _
    have := hy.1 w hw
    by_cases e : q.1 = w
    · simp [e]; omega
    · simp [e]

theorem texts_lines (y : Int) (z : List Dated) : textsOf y (z.map (fun q => (q.1, textOf q.2.2))) = textOf ((z.filter (fun q => decide (q.1 = y))).map (·.2.2)).flatten := by
  induction z with
  | nil => rfl
  | cons q z ih =>
    rw [List.map_cons, textsOf_cons, ih, List.filter_cons]
    by_cases h : q.1 = y
    · rw [if_pos h, if_pos (by simpa using h), List.map_cons, List.flatten_cons, textOf_append]
    · rw [if_neg h, if_neg (by simpa using h), List.nil_append]

/-- Loading the files of years, one after the other. -/
theorem load_years {d : Disk} {today : Today} {limit : Nat} {coms : List Com} {dflt ext : Str} {z : List Dated} (hz : ∀ q ∈ z, ReadsAs today coms dflt q.2.1 q.2.2) :
    ∀ (ys : List Int), (∀ y ∈ ys, d.read (itoa y ++ ext) = some (textsOf y (z.map (fun q => (q.1, textOf q.2.2))))) → ∀ its,
    loadEach d today (limit + 1) ⟨coms, dflt, its⟩ (ys.map (fun y => itoa y ++ ext)) =
      .ok ⟨coms, dflt, its ++ (ys.flatMap (fun y => z.filter (fun q => decide (q.1 = y)))).map (·.2.1)⟩ := by
  intro ys
  induction ys with
  | nil => intro _ its; simp [loadEach]
  | cons y ys ih =>
    intro hr its
    rw [List.map_cons, loadEach]
    have hf : List.Forall₂ (ReadsAs today coms dflt) ((z.filter (fun q => decide (q.1 = y))).map (·.2.1)) ((z.filter (fun q => decide (q.1 = y))).map (·.2.2)) := by
      rw [List.forall₂_map_left_iff, List.forall₂_map_right_iff, List.forall₂_same]
      exact fun q hq => hz q (List.mem_filter.mp hq).1
    have h1 := hr y (by simp)
    rw [texts_lines] at h1
    rw [loads_file h1 (reads_clean hf) (reads_list hf its)]
    simp only [Except.bind]
    rw [ih (fun y hy => hr y (by simp [hy]))]
    rw [List.flatMap_cons, List.map_append, List.append_assoc]

theorem names_of {ext : Str} {P : Int → Prop} : ∀ (l : List Str), (∀ x ∈ l, ∃ y, P y ∧ x = itoa y ++ ext) → ∃ ys : List Int, l = ys.map (fun y => itoa y ++ ext) ∧ ∀ y ∈ ys, P y := by
  intro l
  induction l with
  | nil => intro _; exact ⟨[], rfl, by simp⟩
  | cons x l ih =>
    intro h
    obtain ⟨ys, e, hp⟩ := ih (fun x hx => h x (by simp [hx]))
    obtain ⟨y, py, ey⟩ := h x (by simp)
    exact ⟨y :: ys, by rw [e, ey]; rfl, by intro z hz; rcases List.mem_cons.mp hz with rfl | hz; exacts [py, hp z hz]⟩

/-- The files of years in a sorted list of names are the years in order. -/
theorem years_listed {ext : Str} {l : List Str} {z : List Dated} (hz : ∀ q ∈ z, 1000 ≤ q.1 ∧ q.1 ≤ 9999) (hs : l.Pairwise (fun a b => strLt a b = true))
    (hm : ∀ x, x ∈ l ↔ ∃ q ∈ z, x = itoa q.1 ++ ext) : ∃ ys : List Int, l = ys.map (fun y => itoa y ++ ext) ∧ ys.Pairwise (fun a b => a < b) ∧ ∀ y, y ∈ ys ↔ ∃ q ∈ z, q.1 = y := by
  obtain ⟨ys, e, hp⟩ := names_of (P := fun y => ∃ q ∈ z, q.1 = y) l (by
    intro x hx
    obtain ⟨q, hq, e⟩ := (hm x).mp hx
    exact ⟨q.1, ⟨q, hq, rfl⟩, e⟩)
  refine ⟨ys, e, ?_, fun y => ⟨hp y, ?_⟩⟩
  · rw [e, List.pairwise_map] at hs
    refine List.Pairwise.imp_of_mem ?_ hs
    intro a b ha hb h
    obtain ⟨q, hq, e1⟩ := hp a ha
    obtain ⟨r, hr, e2⟩ := hp b hb
    exact year_order (e1 ▸ hz q hq) (e2 ▸ hz r hr) ext h
  · rintro ⟨q, hq, rfl⟩
    have := (hm (itoa q.1 ++ ext)).mpr ⟨q, hq, rfl⟩
    rw [e, List.mem_map] at this
    obtain ⟨y, hy, e2⟩ := this
    rwa [itoa_inj (List.append_cancel_right e2)] at hy

theorem zip_dated {α} {year : α → Int} {item : α → Item} {R : Item → List Str → Prop} {l : List α} {Ls : List (List Str)} (h : List.Forall₂ (fun a L => R (item a) L) l Ls) :
    ∃ z : List Dated, List.zipWith (fun a L => (year a, textOf L)) l Ls = z.map (fun q => (q.1, textOf q.2.2)) ∧ (∀ q ∈ z, R q.2.1 q.2.2) ∧ z.map (·.2.1) = l.map item ∧ z.map (·.1) = l.map year := by
  induction h with
  | nil => exact ⟨[], rfl, by simp, rfl, rfl⟩
  | @cons a L _ _ h _ ih =>
    obtain ⟨z, h1, h2, h3, h4⟩ := ih
    refine ⟨(year a, item a, L) :: z, by simp [h1], ?_, by simp [h3], by simp [h4]⟩
    intro q hq
    rcases List.mem_cons.mp hq with rfl | hq
    · exact h
    · exact h2 q hq

theorem suffix_letter {a b : Str} {x y : Char} {s t : Str} (ha : a.getLast? = some x) (hb : b.getLast? = some y) (h : s ++ a = t ++ b) : x = y := by
  have := congrArg List.getLast? h
  rw [List.getLast?_append, List.getLast?_append, ha, hb] at this
  simpa using this

/-- **C109 (partial)** With `-y` a book in canonical form that has prices and transactions, whose years have four digits and do not go back, written
to a directory without files of coin, is loaded as it was. Missing: other books, and directories that have such files. -/
theorem C109_years_partial (today : Today) (dec : Str → Nat) (limit : Nat) (dflt : Str) (dir : Str → Option Str) (b : GcBook) (h : b.Canon dflt)
    (hdir : ∀ s, dir (s ++ str ".coin") = none ∧ dir (s ++ str ".prices") = none) (hp : b.prices ≠ []) (ht : b.txns ≠ [])
    (sp : b.prices.Pairwise (fun p q => goYear p.time.day ≤ goYear q.time.day)) (st : b.txns.Pairwise (fun p q => goYear p.posted.day ≤ goYear q.posted.day))
    (yp : ∀ p ∈ b.prices, 1000 ≤ goYear p.time.day) (yt : ∀ p ∈ b.txns, 1000 ≤ goYear p.posted.day) :
    ∃ o, b.write dec true dir = .ok o ∧ ∀ glob, Globs o.dir glob →
      loadAll (diskOf o.dir glob) today (limit + 1) gcNames ⟨[], dflt, []⟩ = .ok ⟨(b.state dflt).coms, dflt, b.items⟩ := by
  obtain ⟨Lp, p1, p2⟩ := price_entries (today := today) b.prices (by rw [← state_lookup]; exact h.prices)
  obtain ⟨Lt, t1, t2⟩ := txn_entries (today := today) (dec := dec) (f := b.names) b.txns (by rw [← state_lookup]; exact h.txns)
  obtain ⟨zp, zp1, zp2, zp3, zp4⟩ := zip_dated (year := fun p : GcPrice => goYear p.time.day) (item := fun p : GcPrice => Item.price p.written) (R := ReadsAs today (b.state dflt).coms dflt) p2
  obtain ⟨zt, zt1, zt2, zt3, zt4⟩ := zip_dated (year := fun p : GcTxn => goYear p.posted.day) (item := fun p : GcTxn => Item.transaction (p.written b.names)) (R := ReadsAs today (b.state dflt).coms dflt) t2
  have szp : zp.Pairwise (fun a b => a.1 ≤ b.1) := by
    have : (zp.map (·.1)).Pairwise (· ≤ ·) := by rw [zp4, List.pairwise_map]; exact sp
    rwa [List.pairwise_map] at this
  have szt : zt.Pairwise (fun a b => a.1 ≤ b.1) := by
    have : (zt.map (·.1)).Pairwise (· ≤ ·) := by rw [zt4, List.pairwise_map]; exact st
    rwa [List.pairwise_map] at this
  have nzp : zp ≠ [] := by rintro rfl; exact hp (List.map_eq_nil_iff.mp zp4.symm)
  have nzt : zt ≠ [] := by rintro rfl; exact ht (List.map_eq_nil_iff.mp zt4.symm)
  have yzp : ∀ q ∈ zp, 1000 ≤ q.1 ∧ q.1 ≤ 9999 := by
    intro q hq
    have : q.1 ∈ zp.map (·.1) := List.mem_map_of_mem hq
    rw [zp4, List.mem_map] at this
    obtain ⟨p, hpm, e⟩ := this
    rw [← e]
    exact ⟨yp p hpm, (h.prices p hpm).year.2⟩
  have yzt : ∀ q ∈ zt, 1000 ≤ q.1 ∧ q.1 ≤ 9999 := by
    intro q hq
    have : q.1 ∈ zt.map (·.1) := List.mem_map_of_mem hq
    rw [zt4, List.mem_map] at this
    obtain ⟨p, hpm, e⟩ := this
    rw [← e]
    exact ⟨yt p hpm, (h.txns p hpm).year.2⟩
  obtain ⟨o, g, g1, g2, g3, g4, g5⟩ := C107_years_partial dir (gcCommodities b.coms) (gcAccounts b.accounts) (zp.map (fun q => (q.1, textOf q.2.2))) (zt.map (fun q => (q.1, textOf q.2.2)))
    (by simpa using nzp) (by simpa using nzt) (by rw [List.pairwise_map]; exact szp) (by rw [List.pairwise_map]; exact szt)
  refine ⟨o, by unfold GcBook.write; rw [p1, t1, zp1, zt1]; exact g, ?_⟩
  intro glob hg
  -- the names of the files
  have lt_coin : (str ".coin").getLast? = some 'n' := rfl
  have lt_prices : (str ".prices").getLast? = some 's' := rfl
  have ncoin : ∀ s, (∀ q ∈ zt, s ++ str ".coin" ≠ itoa q.1 ++ str ".coin") → s ++ str ".coin" ≠ str "commodities.coin" → s ++ str ".coin" ≠ str "accounts.coin" → o.dir (s ++ str ".coin") = none := by
    intro s h1 h2 h3
    rw [g5 _ h2 h3 ?_ ?_]
    · exact (hdir s).1
    · intro i hi e
      exact absurd (suffix_letter lt_coin lt_prices e) (by decide)
    · intro i hi e
      obtain ⟨q, hq, e2⟩ := List.mem_map.mp hi
      rw [← e2] at e
      exact h1 q hq e
  have nprices : ∀ s, (∀ q ∈ zp, s ++ str ".prices" ≠ itoa q.1 ++ str ".prices") → o.dir (s ++ str ".prices") = none := by
    intro s h1
    rw [g5 _ ?_ ?_ ?_ ?_]
    · exact (hdir s).2
    · intro e
      exact absurd (suffix_letter (s := s) (t := []) (b := str "commodities.coin") (y := 'n') lt_prices rfl e) (by decide)
    · intro e
      exact absurd (suffix_letter (s := s) (t := []) (b := str "accounts.coin") (y := 'n') lt_prices rfl e) (by decide)
    · intro i hi e
      obtain ⟨q, hq, e2⟩ := List.mem_map.mp hi
      rw [← e2] at e
      exact h1 q hq e
    · intro i hi e
      exact absurd (suffix_letter lt_prices lt_coin e) (by decide)
  have cne : ∀ (n : Int) (t : Str), str "commodities.coin" ≠ itoa n ++ t := fun n t => letter_ne_itoa n t (by decide)
  have ane : ∀ (n : Int) (t : Str), str "accounts.coin" ≠ itoa n ++ t := fun n t => letter_ne_itoa n t (by decide)
  -- prices
  have g3' : ∀ q ∈ zp, o.dir (itoa q.1 ++ str ".prices") = some (textsOf q.1 (zp.map (fun q => (q.1, textOf q.2.2)))) :=
    fun q hq => g3 q.1 ⟨_, List.mem_map_of_mem hq, rfl⟩
  have g4' : ∀ q ∈ zt, o.dir (itoa q.1 ++ str ".coin") = some (textsOf q.1 (zt.map (fun q => (q.1, textOf q.2.2)))) :=
    fun q hq => g4 q.1 ⟨_, List.mem_map_of_mem hq, rfl⟩
  obtain ⟨lp, lp1, lp2, lp3⟩ := hg (str ".prices")
  obtain ⟨yps, ep, op, mp⟩ := years_listed (ext := str ".prices") yzp lp2 (by
    intro x
    rw [lp3]
    constructor
    · rintro ⟨⟨s, rfl⟩, hsome⟩
      by_contra hcon
      rw [nprices s (fun q hq e => hcon ⟨q, hq, e⟩)] at hsome
      cases hsome
    · rintro ⟨q, hq, rfl⟩
      exact ⟨⟨_, rfl⟩, by rw [g3' q hq]; rfl⟩)
  obtain ⟨lt, lt1, lt2, lt3⟩ := hg (str ".coin")
  obtain ⟨yts, et, ot, mt⟩ := years_listed (l := lt.filter (fun f => decide (f ≠ str "commodities.coin" ∧ f ≠ str "accounts.coin"))) (ext := str ".coin") yzt (lt2.filter _) (by
    intro x
    rw [List.mem_filter, lt3]
    constructor
    · rintro ⟨⟨⟨s, rfl⟩, hsome⟩, hne⟩
      have hne := of_decide_eq_true hne
      by_contra hcon
      rw [ncoin s (fun q hq e => hcon ⟨q, hq, e⟩) hne.1 hne.2] at hsome
      cases hsome
    · rintro ⟨q, hq, rfl⟩
      refine ⟨⟨⟨_, rfl⟩, by rw [g4' q hq]; rfl⟩, ?_⟩
      exact decide_eq_true ⟨(cne _ _).symm, (ane _ _).symm⟩)
  have fp : pricesFiles (diskOf o.dir glob) gcNames = yps.map (fun y => itoa y ++ str ".prices") := by
    unfold pricesFiles
    rw [if_neg (by
      show ¬ (o.dir (str "prices.coin")).isSome = true
      rw [show str "prices.coin" = str "prices" ++ str ".coin" from rfl, ncoin _ (fun q _ => letter_ne_itoa q.1 _ (by decide)) (by decide) (by decide)]
      decide)]
    unfold globOr
    rw [show (diskOf o.dir glob).glob gcNames.pricesGlob = some lp from lp1]
    exact ep
  have ft : transactionFiles (diskOf o.dir glob) gcNames = yts.map (fun y => itoa y ++ str ".coin") := by
    unfold transactionFiles
    rw [if_neg (by
      show ¬ (o.dir (str "transactions.coin")).isSome = true
      rw [show str "transactions.coin" = str "transactions" ++ str ".coin" from rfl, ncoin _ (fun q _ => letter_ne_itoa q.1 _ (by decide)) (by decide) (by decide)]
      decide)]
    unfold globOr
    rw [show (diskOf o.dir glob).glob gcNames.coinGlob = some lt from lt1]
    exact et
  unfold loadAll loadPricesFile
  rw [load_commodities h (d := diskOf o.dir glob) g1]
  simp only [Except.bind]
  rw [fp, ft, state_eq]
  rw [load_years (d := diskOf o.dir glob) zp2 yps (by
    intro y hy
    obtain ⟨q, hq, rfl⟩ := (mp y).mp hy
    exact g3' q hq)]
  simp only
  rw [by_years yps zp szp op (fun q hq => (mp q.1).mpr ⟨q, hq, rfl⟩), zp3]
  rw [load_accounts h (d := diskOf o.dir glob) g2]
  simp only
  rw [load_years (d := diskOf o.dir glob) zt2 yts (by
    intro y hy
    obtain ⟨q, hq, rfl⟩ := (mt y).mp hy
    exact g4' q hq)]
  rw [by_years yts zt szt ot (fun q hq => (mt q.1).mpr ⟨q, hq, rfl⟩), zt3]
  rfl

/-! ### An example, and what goes wrong -/

/-- Listing a directory whose names are known. -/
def globOf (names : List Str) : Str → Option (List Str)
  | '*' :: ext => some (names.filter (fun x => ext.isSuffixOf x))
  | _ => none

theorem globOf_spec {dir : Str → Option Str} {names : List Str} (hs : names.Pairwise (fun a b => strLt a b = true)) (hm : ∀ x, x ∈ names ↔ (dir x).isSome = true) : Globs dir (globOf names) := by
  intro ext
  refine ⟨_, rfl, hs.filter _, ?_⟩
  intro x
  rw [List.mem_filter, hm, List.isSuffixOf_iff_suffix, and_comm]
  constructor
  · rintro ⟨⟨s, e⟩, h⟩; exact ⟨⟨s, e.symm⟩, h⟩
  · rintro ⟨⟨s, e⟩, h⟩; exact ⟨⟨s, e.symm⟩, h⟩

def exBookCad : Com := ⟨0, str "CAD", 2⟩
/-- Two commodities, a price, two accounts and a transaction, converted. -/
def exBook : GcBook where
  coms := [⟨str "CAD", str "Canadian Dollar", 2, false, []⟩, ⟨str "XYZ", [], 4, false, []⟩, ⟨str "template", str "template", 0, false, []⟩]
  accounts := [(str "Expenses", ⟨str "b", str "Expenses", str "EXPENSE", str "r", exBookCad, [], [], []⟩),
    (str "MyBank", ⟨str "a", str "MyBank", str "BANK", str "r", exBookCad, str "joint account", str "001", str "12345"⟩)]
  prices := [⟨⟨1, str "XYZ", 4⟩, exBookCad, ⟨1234, exBookCad⟩, ⟨737425 * 86400, 0⟩⟩]
  txns := [⟨⟨737483 * 86400, 3600⟩, str "12", str "Market", [str "fruit - and more"], [⟨str "a", ⟨-1050, exBookCad⟩, [str "cash"]⟩, ⟨str "b", ⟨1050, exBookCad⟩, []⟩]⟩]
  names := fun g => if g = str "a" then str "MyBank" else str "Expenses"

theorem exBook_amount (n : Int) (h : -(2 ^ 63) ≤ n ∧ n < 2 ^ 63) : CanonAmount (exBook.state (str "CAD")).lookup ⟨n, exBookCad⟩ :=
  ⟨show (2 : Nat) ≤ 50 by decide, h.1, h.2, ⟨'C', str "AD", rfl, by decide, by decide⟩, show (exBook.state (str "CAD")).lookup (str "CAD") = some exBookCad by decide +kernel⟩

theorem exBook_canon : exBook.Canon (str "CAD") where
  coms := by
    have : exBook.kept = [⟨str "CAD", str "Canadian Dollar", 2, false, []⟩, ⟨str "XYZ", [], 4, false, []⟩] := by decide
    rw [this]
    intro c hc
    simp only [List.mem_cons, List.not_mem_nil, or_false] at hc
    rcases hc with rfl | rfl
    · exact ⟨⟨⟨'C', str "AD", rfl, by decide, by decide⟩, by decide, by rintro x t e; cases e; decide, by decide⟩, rfl⟩
    · exact ⟨⟨⟨'X', str "YZ", rfl, by decide, by decide⟩, by decide, (by rintro x t e; cases e), by decide⟩, rfl⟩
  accounts := by
    intro e he
    simp only [exBook, List.mem_cons, List.not_mem_nil, or_false] at he
    rcases he with rfl | rfl
    · exact ⟨.one (exSegment 'E' (str "xpenses") (by decide)), ⟨by decide, (by rintro x t e; cases e), by decide⟩, by decide, ⟨'C', str "AD", rfl, by decide, by decide⟩, by rintro d ⟨⟩, by decide, by decide, by decide⟩
    · exact ⟨.one (exSegment 'M' (str "yBank") (by decide)), ⟨by decide, by rintro x t e; cases e; decide, by decide⟩, by decide, ⟨'C', str "AD", rfl, by decide, by decide⟩, by rintro d ⟨⟩, by decide, by decide, by decide⟩
  prices := by
    intro p hp
    simp only [exBook, List.mem_cons, List.not_mem_nil, or_false] at hp
    subst hp
    exact ⟨by decide +kernel, ⟨'X', str "YZ", rfl, by decide, by decide⟩, exBook_amount _ (by decide), rfl⟩
  txns := by
    intro t ht
    simp only [exBook, List.mem_cons, List.not_mem_nil, or_false] at ht
    subst ht
    refine ⟨by decide +kernel, by decide, .inr ⟨by decide, by decide, ?_, ?_⟩, by intro h; exact absurd h (by decide), by intro h; exact absurd h (by decide), ?_, by decide, ?_⟩
    · intro x t e; cases e; decide
    · intro x e
      have : (str "Market").getLast? = some 't' := by decide
      rw [show (GcTxn.written _ _).description = str "Market" from rfl, this] at e; cases e; decide
    · intro n hn
      simp only [GcTxn.written, List.mem_cons, List.not_mem_nil, or_false] at hn
      subst hn
      exact exCanonNote _ (by decide)
    · intro p hp
      simp only [GcTxn.written, List.map_cons, List.map_nil, List.mem_cons, List.not_mem_nil, or_false] at hp
      rcases hp with rfl | rfl
      · refine ⟨.one (exSegment 'M' (str "yBank") (by decide)), ⟨_, rfl, exBook_amount _ (by decide)⟩, (by intro b e; cases e), ?_⟩
        intro n hn; simp at hn; subst hn; exact exCanonNote _ (by decide)
      · refine ⟨.one (exSegment 'E' (str "xpenses") (by decide)), ⟨_, rfl, exBook_amount _ (by decide)⟩, (by intro b e; cases e), ?_⟩
        intro n hn; cases hn

/-- The hypotheses of C109 are met. -/
example (today : Today) (dir : Str → Option Str) : ∃ o, exBook.write (fun _ => 2) false dir = .ok o ∧
    loadAll (diskOf o.dir (fun _ => none)) today 1 gcNames ⟨[], str "CAD", []⟩ = .ok ⟨(exBook.state (str "CAD")).coms, str "CAD", exBook.items⟩ :=
  C109_whole_partial today _ 0 _ dir _ exBook exBook_canon

example (today : Today) : ∃ o, exBook.write (fun _ => 2) true (fun _ => none) = .ok o ∧ ∀ glob, Globs o.dir glob →
    loadAll (diskOf o.dir glob) today 1 gcNames ⟨[], str "CAD", []⟩ = .ok ⟨(exBook.state (str "CAD")).coms, str "CAD", exBook.items⟩ :=
  C109_years_partial today _ 0 _ _ exBook exBook_canon (fun _ => ⟨rfl, rfl⟩) (by decide) (by decide) (by decide) (by decide) (by decide +kernel) (by decide +kernel)

example : exBook.items.length = 6 := by decide +kernel

/-- A name with another character: GnuCash allows any. -/
def exAmp : GcBook := { exBook with accounts := [(str "R&D", ⟨str "b", str "R&D", str "EXPENSE", str "r", exBookCad, [], [], []⟩)], prices := [], txns := [] }

theorem written_names {dir : Str → Option Str} (hd : ∀ x, dir x = none) {o : OutDir} {b : GcBook} {dec : Str → Nat} (h : b.write dec false dir = .ok o) (x : Str) :
    x ∈ [str "accounts.coin", str "commodities.coin", str "prices.coin", str "transactions.coin"] ↔ (o.dir x).isSome = true := by
  unfold GcBook.write at h
  obtain ⟨ps, _, h⟩ := bind_ok.mp h
  obtain ⟨ts, _, h⟩ := bind_ok.mp h
  obtain ⟨o', e, h1, h2, h3, h4, h5⟩ := C107_whole dir (gcCommodities b.coms) (gcAccounts b.accounts) ps ts
  rw [e] at h
  cases h
  constructor
  · intro hx
    simp only [List.mem_cons, List.not_mem_nil, or_false] at hx
    rcases hx with rfl | rfl | rfl | rfl
    · rw [h2]; rfl
    · rw [h1]; rfl
    · rw [h3]; rfl
    · rw [h4]; rfl
  · intro hx
    by_contra hn
    rw [h5 x (by simp only [List.mem_cons, List.not_mem_nil, or_false, not_or] at hn ⊢; exact ⟨hn.2.1, hn.1, hn.2.2.1, hn.2.2.2⟩), hd] at hx
    cases hx

/-- The account `R&D` is loaded as `R`. -/
theorem C109_names_violated : ¬ C109_Statement := by
  intro h
  obtain ⟨o, ho⟩ := ok_of_isOk (show (exAmp.write (fun _ => 2) false (fun _ => none)).isOk = true by decide +kernel)
  obtain ⟨st, h1, h2⟩ := h ⟨2020, 1, 1⟩ (fun _ => 2) 0 (str "CAD") false (fun _ => none) _ exAmp o ho (globOf_spec (by decide) (written_names (fun _ => rfl) ho))
  have h3 : ((exAmp.write (fun _ => 2) false (fun _ => none)).bind fun o => loadAll (diskOf o.dir (globOf [str "accounts.coin", str "commodities.coin", str "prices.coin", str "transactions.coin"])) ⟨2020, 1, 1⟩ 1 gcNames ⟨[], str "CAD", []⟩).map
      (fun st => decide (st.items = exAmp.items)) = .ok false := by decide +kernel
  rw [ho] at h3
  simp only [Except.bind] at h3
  rw [h1] at h3
  simp only [Except.map, Except.ok.injEq, decide_eq_false_iff_not] at h3
  exact h3 h2

/-- The same for books in canonical form, with prices and transactions, in one zone. -/
def C109_CanonStatement : Prop := ∀ (today : Today) (dec : Str → Nat) (limit : Nat) (dflt : Str) (yearly : Bool) (dir : Str → Option Str) (glob : Str → Option (List Str)) (b : GcBook) (o : OutDir),
  b.Canon dflt → b.write dec yearly dir = .ok o → Globs o.dir glob → ∃ st, loadAll (diskOf o.dir glob) today (limit + 1) gcNames ⟨[], dflt, []⟩ = .ok st ∧ st.items = b.items

/-- A directory with transactions of an earlier conversion, without `-y`. -/
def exStale : Str → Option Str := fun x => if x = str "transactions.coin" then some [] else none

def exStaleNames : List Str := [str "2020.coin", str "2020.prices", str "accounts.coin", str "commodities.coin", str "transactions.coin"]

/-- Files of years are ignored when there is a file of transactions. -/
theorem C109_stale_violated : ¬ C109_CanonStatement := by
  intro h
  obtain ⟨ps, hps⟩ := ok_of_isOk (show (exBook.prices.mapM priceEntry).isOk = true by decide +kernel)
  obtain ⟨ts, hts⟩ := ok_of_isOk (show (exBook.txns.mapM (txnEntry (fun _ => 2) exBook.names)).isOk = true by decide +kernel)
  have yps : ps.map (·.1) = [2020] := by
    have : (exBook.prices.mapM priceEntry).map (fun l => l.map (·.1)) = .ok [2020] := by decide +kernel
    rw [hps] at this
    simpa [Except.map] using this
  have yts : ts.map (·.1) = [2020] := by
    have : (exBook.txns.mapM (txnEntry (fun _ => 2) exBook.names)).map (fun l => l.map (·.1)) = .ok [2020] := by decide +kernel
    rw [hts] at this
    simpa [Except.map] using this
  have one : ∀ l : List (Int × Str), l.map (·.1) = [2020] → ∃ s, l = [(2020, s)] := by
    intro l hl
    match l, hl with
    | [(y, s)], hl => simp at hl; exact ⟨s, by rw [hl]⟩
  obtain ⟨s1, rfl⟩ := one ps yps
  obtain ⟨s2, rfl⟩ := one ts yts
  obtain ⟨o, g, g1, g2, g3, g4, g5⟩ := C107_years_partial exStale (gcCommodities exBook.coms) (gcAccounts exBook.accounts) [(2020, s1)] [(2020, s2)] (by simp) (by simp) (by simp) (by simp)
  have hw : exBook.write (fun _ => 2) true exStale = .ok o := by
    unfold GcBook.write
    rw [hps, hts]
    exact g
  have c1 : itoa 2020 ++ str ".coin" = str "2020.coin" := by decide +kernel
  have c2 : itoa 2020 ++ str ".prices" = str "2020.prices" := by decide +kernel
  have hg : Globs o.dir (globOf exStaleNames) := by
    refine globOf_spec (by decide +kernel) ?_
    intro x
    constructor
    · intro hx
      simp only [exStaleNames, List.mem_cons, List.not_mem_nil, or_false] at hx
      rcases hx with rfl | rfl | rfl | rfl | rfl
      · rw [← c1, g4 2020 ⟨_, List.mem_singleton.mpr rfl, rfl⟩]; rfl
      · rw [← c2, g3 2020 ⟨_, List.mem_singleton.mpr rfl, rfl⟩]; rfl
      · rw [g2]; rfl
      · rw [g1]; rfl
      · rw [g5 _ (by decide) (by decide) (by simp only [List.mem_singleton, forall_eq]; rw [c2]; decide) (by simp only [List.mem_singleton, forall_eq]; rw [c1]; decide)]; rfl
    · intro hx
      by_contra hn
      simp only [exStaleNames, List.mem_cons, List.not_mem_nil, or_false, not_or] at hn
      rw [g5 x hn.2.2.2.1 hn.2.2.1 (by simp only [List.mem_singleton, forall_eq]; rw [c2]; exact hn.2.1) (by simp only [List.mem_singleton, forall_eq]; rw [c1]; exact hn.1)] at hx
      unfold exStale at hx
      rw [if_neg hn.2.2.2.2] at hx
      cases hx
  obtain ⟨st, h1, h2⟩ := h ⟨2020, 1, 1⟩ (fun _ => 2) 0 (str "CAD") true exStale _ exBook o exBook_canon hw hg
  have h3 : ((exBook.write (fun _ => 2) true exStale).bind fun o => loadAll (diskOf o.dir (globOf exStaleNames)) ⟨2020, 1, 1⟩ 1 gcNames ⟨[], str "CAD", []⟩).map (fun st => st.items.length) = .ok 5 := by
    decide +kernel
  rw [hw] at h3
  simp only [Except.bind] at h3
  rw [h1] at h3
  simp only [Except.map, Except.ok.injEq] at h3
  rw [h2] at h3
  exact absurd h3 (by decide +kernel)

end Verif
