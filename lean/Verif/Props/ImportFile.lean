import Verif.Props.Import
import Verif.Props.RoundTrip
import Verif.Lemmas.Format
import Verif.Props.Rules
/-
C66 for whole statements, and C77: the balance of a bank statement.
-/
namespace Verif

/-- What one entry of a bank statement becomes, given the statement's balance if it is the last one. -/
def EntryBecomes (env : ImportEnv) (ars : AccountRules) (e : OfxEntry) (balance : Option (Int × Int)) (o : Option ITxn) : Prop :=
  newTransaction env ars e.date (trimWords (e.name ++ e.memo)) e.amount balance = .ok o

/-- **C66** A bank statement becomes one transaction for each entry, in order, except those that a rule drops; the balance goes to the
last entry only. -/
theorem C66_bank (env : ImportEnv) (ars : AccountRules) (b : Int × Int) (es : List OfxEntry) (ts : List ITxn)
    (h : bankEntries env ars b es = .ok ts) :
    ∃ os : List (Option ITxn), ts = os.flatMap Option.toList ∧ os.length = es.length ∧
      ∀ (i : Nat) (e : OfxEntry) (o : Option ITxn), es[i]? = some e → os[i]? = some o →
        EntryBecomes env ars e (if i + 1 = es.length then some b else none) o := by
  induction es generalizing ts with
  | nil => cases h; exact ⟨[], rfl, rfl, by simp⟩
  | cons e es ih =>
    unfold bankEntries at h
    obtain ⟨o, h1, h⟩ := bind_ok.mp h
    obtain ⟨us, h2, h⟩ := bind_ok.mp h
    cases h
    obtain ⟨os, rfl, hl, hall⟩ := ih us h2
    refine ⟨o :: os, by simp, by simp [hl], ?_⟩
    intro i x y hx hy
    cases i with
    | zero =>
      simp only [List.getElem?_cons_zero, Option.some.injEq] at hx hy
      subst hx; subst hy
      unfold EntryBecomes
      rw [← h1]
      congr 1
      cases es <;> simp
    | succ i =>
      simp only [List.getElem?_cons_succ] at hx hy
      have := hall i x y hx hy
      simpa using this

/-- **C66** A credit card statement becomes one transaction for each entry that no rule drops, in order, without balances. -/
theorem C66_card (env : ImportEnv) (ars : AccountRules) (es : List OfxEntry) (ts : List ITxn) (h : cardEntries env ars es = .ok ts) :
    ∃ os : List (Option ITxn), ts = os.flatMap Option.toList ∧
      List.Forall₂ (fun e o => newTransaction env ars e.date e.name e.amount none = .ok o) es os := by
  induction es generalizing ts with
  | nil => cases h; exact ⟨[], rfl, .nil⟩
  | cons e es ih =>
    unfold cardEntries at h
    obtain ⟨o, h1, h⟩ := bind_ok.mp h
    obtain ⟨us, h2, h⟩ := bind_ok.mp h
    cases h
    obtain ⟨os, rfl, hall⟩ := ih us h2
    exact ⟨o :: os, by simp, .cons h1 hall⟩

/-- **C66** An entry is dropped exactly when the rule that applies to its payee has no account. -/
theorem C66_dropped (env : ImportEnv) (ars : AccountRules) (date : Stamp) (payee : Str) (amount : Int × Int) (balance : Option (Int × Int))
    (o : Option ITxn) (h : newTransaction env ars date payee amount balance = .ok o) :
    o = none ↔ ∃ r, ruleFor env.matcher env.sets payee env.fuel ars.items = .ok (some r) ∧ r.account = none := by
  cases o with
  | some t =>
    obtain ⟨rule, hr, dest, notes, hd, _⟩ := newTransaction_spec h
    simp only [reduceCtorEq, false_iff]
    rintro ⟨r, hr2, ha⟩
    rw [hr2] at hr
    cases hr
    rcases hd with ⟨h1, _⟩ | ⟨r', h1, h2, _⟩
    · cases h1
    · cases h1; rw [ha] at h2; cases h2
  | none =>
    simp only [true_iff]
    unfold newTransaction at h
    obtain ⟨rule, h1, h⟩ := bind_ok.mp h
    cases rule with
    | none => simp only at h; obtain ⟨t', _, h⟩ := bind_ok.mp h; cases h
    | some r =>
      simp only at h
      split at h
      · next ha => exact ⟨r, h1, ha⟩
      · obtain ⟨t', _, h⟩ := bind_ok.mp h; cases h

/-- **C66** Importing an entry does not fail when its rule can be looked up. -/
theorem C66_total (env : ImportEnv) (ars : AccountRules) (date : Stamp) (payee : Str) (num den : Int) (balance : Option (Int × Int))
    (hd : (env.com ars.account).decimals ≤ 50) (hden : den ≠ 0) (hb : ∀ b ∈ balance, b.2 ≠ 0) (rule : Option Rule)
    (hr : ruleFor env.matcher env.sets payee env.fuel ars.items = .ok rule) :
    ∃ o, newTransaction env ars date payee (num, den) balance = .ok o := by
  have frac : ∀ n d : Int, d ≠ 0 → ∃ a, newAmountFrac n d (env.com ars.account) = .ok a := by
    intro n d hd0
    unfold newAmountFrac
    simp only [if_neg hd0]
    split
    · rw [bigPow10_ok hd]; exact ⟨_, rfl⟩
    · exact ⟨_, rfl⟩
  have create : ∀ dest notes, ∃ t, createTransaction env ars.account dest notes date payee (num, den) balance = .ok t := by
    intro dest notes
    unfold createTransaction
    obtain ⟨a, ha⟩ := frac num den hden
    rw [ha]
    simp only [Except.bind]
    cases balance with
    | none => exact ⟨_, rfl⟩
    | some b =>
      obtain ⟨x, hx⟩ := frac b.1 b.2 (hb b rfl)
      simp only [balanceFrac, hx, Except.bind]
      exact ⟨_, rfl⟩
  unfold newTransaction
  rw [hr]
  cases rule with
  | none =>
    obtain ⟨t, ht⟩ := create env.unbalanced []
    simp only [Except.bind, ht]; exact ⟨_, rfl⟩
  | some r =>
    simp only [Except.bind]
    cases r.account with
    | none => exact ⟨_, rfl⟩
    | some a =>
      obtain ⟨t, ht⟩ := create a r.notes
      simp only [ht, Except.bind]; exact ⟨_, rfl⟩

/-! ## C77: The statement's balance -/

/-- The transaction asserts a balance of account `a`. -/
def AssertsBalance (a : Str) (t : ITxn) : Prop := ∃ p ∈ t.postings, p.account = a ∧ p.asserted = true ∧ p.balance ≠ none

/-- Full statement of C77: the last transaction made from a bank statement asserts the statement's balance. -/
def C77_Statement : Prop := ∀ (env : ImportEnv) (ars : AccountRules) (b : Int × Int) (es : List OfxEntry) (ts : List ITxn) (t : ITxn),
  bankEntries env ars b es = .ok ts → ts.getLast? = some t → AssertsBalance ars.account t

/-- Two entries; a rule drops transfers. -/
def exEntries : List OfxEntry := [⟨.ofDay 737062, str "SHOP", [], (-15, 1)⟩, ⟨.ofDay 737063, str "TRANSFER", [], (100, 1)⟩]
def exImportEnv : ImportEnv := ⟨fun p s => decide (p = s), [], fun _ => exCom, str "Unbalanced", 3⟩
def exBankRules : AccountRules := ⟨str "Assets:Bank", [.rule ⟨some (str "Expenses"), str "SHOP", []⟩, .rule ⟨none, str "TRANSFER", []⟩]⟩

/-- **C77 is false** of the code: when a rule drops the last entry, the balance is dropped with it. -/
theorem C77_balance_violated : ¬ C77_Statement := by
  intro hst
  have h := hst exImportEnv exBankRules (985, 1) exEntries
    [ITxn.post ⟨.ofDay 737062, [], str "SHOP", [], []⟩ (str "Assets:Bank") (str "Expenses") ⟨-1500, exCom⟩ none] _ (by decide +kernel) rfl
  obtain ⟨p, hp, _, h2, h3⟩ := h
  revert hp h2 h3
  have : ∀ p ∈ (ITxn.post ⟨.ofDay 737062, [], str "SHOP", [], []⟩ (str "Assets:Bank") (str "Expenses") ⟨-1500, exCom⟩ none).postings, p.asserted = false := by
    decide
  intro hp h2 _
  rw [this p hp] at h2
  cases h2

/-- **C77 (partial)** True when no rule drops the last entry: the last transaction asserts, in the statement's account, the statement's
balance rounded down to the account's decimals, and no other one asserts anything. Missing: a last entry that is dropped. -/
theorem C77_balance_partial (env : ImportEnv) (ars : AccountRules) (num den : Int) (es : List OfxEntry) (e : OfxEntry) (ts : List ITxn)
    (hd : (env.com ars.account).decimals ≤ 50) (hden : 0 < den)
    (h : bankEntries env ars (num, den) (es ++ [e]) = .ok ts)
    (hkeep : ¬ ∃ r, ruleFor env.matcher env.sets (trimWords (e.name ++ e.memo)) env.fuel ars.items = .ok (some r) ∧ r.account = none) :
    ∃ init t n, ts = init ++ [t] ∧ n * den ≤ num * 10 ^ (env.com ars.account).decimals ∧
      num * 10 ^ (env.com ars.account).decimals < (n + 1) * den ∧
      (∃ p ∈ t.postings, p.account = ars.account ∧ p.asserted = true ∧ p.balance = some ⟨n, env.com ars.account⟩) ∧
      ∀ u ∈ init, ∀ p ∈ u.postings, p.asserted = false ∧ p.balance = none := by
  obtain ⟨os, rfl, hl, hall⟩ := C66_bank env ars _ _ ts h
  have hne : os ≠ [] := by intro h0; rw [h0] at hl; simp at hl
  obtain ⟨os', o, rfl⟩ : ∃ os' o, os = os' ++ [o] := ⟨os.dropLast, os.getLast hne, (List.dropLast_append_getLast hne).symm⟩
  have hl' : os'.length = es.length := by simpa using hl
  have hlast := hall es.length e o (by simp) (by rw [← hl']; simp)
  rw [if_pos (by simp)] at hlast
  unfold EntryBecomes at hlast
  cases o with
  | none => exact absurd ((C66_dropped _ _ _ _ _ _ _ hlast).mp rfl) hkeep
  | some t =>
    obtain ⟨_, _, dest, notes, _, amt, bal, _, hbal, rfl⟩ := newTransaction_spec hlast
    unfold balanceFrac at hbal
    obtain ⟨x, hx, hbal⟩ := bind_ok.mp hbal
    cases hbal
    have hfrac : x = ⟨num * 10 ^ (env.com ars.account).decimals / den, env.com ars.account⟩ := by
      unfold newAmountFrac at hx
      obtain ⟨b, hb, h1⟩ := bind_ok.mp hx
      rw [if_neg (by simp; omega)] at h1
      cases h1
      split at hb
      · rw [bigPow10_ok hd] at hb
        cases hb
        simp
      · next h0 =>
        cases hb
        have : (env.com ars.account).decimals = 0 := by omega
        simp [this]
    subst hfrac
    refine ⟨os'.flatMap Option.toList, _, num * 10 ^ (env.com ars.account).decimals / den, by rw [List.flatMap_append]; rfl, Int.ediv_mul_le _ (by omega),
      Int.lt_ediv_add_one_mul_self _ hden, ?_, ?_⟩
    · obtain ⟨p, q, he, hp, _⟩ := C66_post ⟨e.date, [], trimWords (e.name ++ e.memo), notes, []⟩ ars.account dest amt
        (some ⟨num * 10 ^ (env.com ars.account).decimals / den, env.com ars.account⟩)
      rw [he]
      exact ⟨_, List.mem_append_right _ (hp.symm.subset List.mem_cons_self), rfl, rfl, rfl⟩
    · intro u hu p hp
      rw [List.mem_flatMap] at hu
      obtain ⟨o, ho, hou⟩ := hu
      obtain ⟨i, hi⟩ := List.mem_iff_getElem?.mp ho
      have hil : i < os'.length := by
        rw [List.getElem?_eq_some_iff] at hi; exact hi.1
      have he : ∃ e', es[i]? = some e' := ⟨es[i]'(by omega), by rw [List.getElem?_eq_getElem]⟩
      obtain ⟨e', he'⟩ := he
      have h3 := hall i e' o (by rw [List.getElem?_append_left (by omega)]; exact he') (by rw [List.getElem?_append_left hil]; exact hi)
      rw [if_neg (by simp; omega)] at h3
      cases o with
      | none => simp at hou
      | some t' =>
        simp only [Option.toList_some, List.mem_singleton] at hou
        subst hou
        obtain ⟨_, _, dest', notes', _, amt', bal', _, hbal', rfl⟩ := newTransaction_spec h3
        cases hbal'
        obtain ⟨p', q', he2, hp2, _⟩ := C66_post ⟨e'.date, [], trimWords (e'.name ++ e'.memo), notes', []⟩ ars.account dest' amt' none
        rw [he2, List.nil_append, hp2.mem_iff] at hp
        simp only [List.mem_cons, List.not_mem_nil, or_false] at hp
        rcases hp with rfl | rfl <;> exact ⟨rfl, rfl⟩

/-- The last of two entries is not dropped. -/
example : (bankEntries exImportEnv exBankRules (985, 1) exEntries.reverse).toOption.map (·.map (fun t => t.postings.map (fun p => (p.account, p.balance)))) =
    some [[(str "Expenses", none), (str "Assets:Bank", some ⟨98500, exCom⟩)]] := by decide +kernel

/-- **C66** (account) The account of a statement is the one the rules give for its id; without such rules the account declared with that
OFX id, with no rules; without that the import ends. -/
theorem C66_account (ri : RuleIndex) (byOfx : Str → Option Str) (id : Str) :
    (∀ ars pre post, ri.accounts = pre ++ (id, ars) :: post → (∀ e ∈ pre, e.1 ≠ id) → accountRulesFor (some ri) byOfx id = .ok ars) ∧
    ((∀ e ∈ ri.accounts, e.1 ≠ id) → ∀ a, byOfx id = some a → accountRulesFor (some ri) byOfx id = .ok ⟨a, []⟩) ∧
    ((∀ e ∈ ri.accounts, e.1 ≠ id) → byOfx id = none → accountRulesFor (some ri) byOfx id = .error .exit) := by
  have hnone : (∀ e ∈ ri.accounts, e.1 ≠ id) → ri.accountRules id = none := by
    intro h
    unfold RuleIndex.accountRules
    rw [Option.map_eq_none_iff, List.find?_eq_none]
    intro e he; simpa using h e he
  refine ⟨?_, ?_, ?_⟩
  · intro ars pre post e hpre
    have : ri.accountRules id = some ars := by
      unfold RuleIndex.accountRules
      rw [e, List.find?_append, List.find?_eq_none.mpr (fun x hx => by simpa using hpre x hx)]
      simp
    unfold accountRulesFor
    simp only
    rw [this]
  · intro h a ha
    unfold accountRulesFor
    simp only
    rw [hnone h, ha]
  · intro h ha
    unfold accountRulesFor
    simp only
    rw [hnone h, ha]

/-! ## C91: what is written reads back -/

/-- `d` is the date shown by a calendar in the zone of the time. -/
def OnDate (s : Stamp) (d : Int) : Prop := ∃ clock, 0 ≤ clock ∧ clock < 86400 ∧ s.sec + s.off = d * 86400 + clock

theorem onDate_day (s : Stamp) : OnDate s s.day := by
  refine ⟨(s.sec + s.off) % 86400, Int.emod_nonneg _ (by decide), Int.emod_lt_of_pos _ (by decide), ?_⟩
  unfold Stamp.day
  omega

/-- A parsed transaction that says the same as an imported one. -/
def Records (t : ITxn) (u : PTxn) : Prop :=
  OnDate t.posted u.posted ∧ u.code = t.code ∧ u.description = t.description ∧ u.notes = t.notes ∧
  List.Forall₂ (fun (p : IPost) (q : PPost) => q.account = p.account ∧ q.quantity = some p.quantity ∧ q.balance = (if p.asserted then p.balance else none) ∧ q.notes = [])
    t.postings u.postings

theorem records_written (t : ITxn) : Records t t.written := by
  refine ⟨onDate_day _, rfl, rfl, rfl, ?_⟩
  unfold ITxn.written
  simp only []
  rw [List.forall₂_map_right_iff]
  exact List.forall₂_same.mpr (fun p _ => ⟨rfl, rfl, rfl, rfl⟩)

/-- The surroundings of an import: accounts with proper names, a known commodity, notes of one line. -/
structure ImportOk (env : ImportEnv) (ars : AccountRules) (coms : Str → Option Com) : Prop where
  account : AccountName ars.account
  unbalanced : AccountName env.unbalanced
  rules : ∀ payee r a, ruleFor env.matcher env.sets payee env.fuel ars.items = .ok (some r) → r.account = some a →
    AccountName a ∧ ∀ n ∈ r.notes, CanonNote n
  com : (env.com ars.account).decimals ≤ 50 ∧ CommodityName (env.com ars.account).id ∧ coms (env.com ars.account).id = some (env.com ars.account)

/-- The amounts of a transaction fit 64 bits and its year has three or four digits. -/
def Fits (t : ITxn) : Prop :=
  (∀ d, OnDate t.posted d → 100 ≤ goYear d ∧ goYear d ≤ 9999) ∧
  ∀ p ∈ t.postings, (-(2 ^ 63) < p.quantity.int ∧ p.quantity.int < 2 ^ 63) ∧ ∀ b, p.balance = some b → -(2 ^ 63) < b.int ∧ b.int < 2 ^ 63

/-- Full statement of C91: loading what the import of a bank statement writes gives its transactions, with the date, payee, notes,
accounts, amounts and balance that were imported. -/
def C91_Statement : Prop := ∀ (env : ImportEnv) (ars : AccountRules) (b : Int × Int) (es : List OfxEntry) (ts : List ITxn) (today : Today) (dec : Str → Nat)
  (st : LoadState), ImportOk env ars st.lookup → bankEntries env ars b es = .ok ts → (∀ t ∈ ts, Fits t) → 0 < b.2 → (∀ e ∈ es, 0 < e.amount.2) →
  (∀ e ∈ es, trimWords (e.name ++ e.memo) ≠ []) →
  ∃ text us, importText dec ts = .ok text ∧ loadText today st text = .ok { st with items := st.items ++ us.map Item.transaction } ∧ List.Forall₂ Records ts us

theorem words'_words : ∀ (s cur : Str), words' cur s = scanWords cur s := by
  intro s
  induction s with
  | nil => intro cur; rfl
  | cons x s ih => intro cur; rw [words', scanWords, ih, ih]

theorem isWs_isSpaceU {x : Char} (h : isWs x = true) : isSpaceU x = true := by
  unfold isWs at h
  simp only [Bool.or_eq_true, decide_eq_true_eq] at h
  rcases h with (((h | h) | h) | h) | h <;> subst h <;> decide

theorem getLast_join : ∀ {ws : List Str} {c : Char}, (∀ w ∈ ws, Word w) → (joinWith [' '] ws).getLast? = some c → isSpaceU c = false := by
  intro ws
  induction ws with
  | nil => intro c _ h; simp [joinWith] at h
  | cons w ws ih =>
    intro c hw h
    cases ws with
    | nil => rw [joinWith] at h; exact (hw w (by simp)).2 c (List.mem_of_mem_getLast? h)
    | cons v vs =>
      have e : joinWith [' '] (w :: v :: vs) = (w ++ [' ']) ++ joinWith [' '] (v :: vs) := by simp [joinWith]
      have hne : joinWith [' '] (v :: vs) ≠ [] := by
        have := (hw v (by simp)).1
        cases vs <;> simp [joinWith, this]
      rw [e, List.getLast?_append_of_ne_nil _ hne] at h
      exact ih (fun x hx => hw x (by simp [hx])) h

theorem join_mem : ∀ {ws : List Str} {c : Char}, c ∈ joinWith [' '] ws → c = ' ' ∨ ∃ w ∈ ws, c ∈ w := by
  intro ws
  induction ws with
  | nil => intro c h; simp [joinWith] at h
  | cons w ws ih =>
    intro c h
    cases ws with
    | nil => exact .inr ⟨w, by simp, h⟩
    | cons v vs =>
      have e : joinWith [' '] (w :: v :: vs) = w ++ ' ' :: joinWith [' '] (v :: vs) := by simp [joinWith]
      rw [e] at h
      rcases List.mem_append.mp h with h | h
      · exact .inr ⟨w, by simp, h⟩
      · rcases List.mem_cons.mp h with h | h
        · exact .inl h
        · rcases ih h with h | ⟨x, hx, hc⟩
          · exact .inl h
          · exact .inr ⟨x, by simp [hx], hc⟩

/-- A trimmed payee without semicolon is a description. -/
theorem trimWords_canon (s : Str) (h : ∀ x ∈ (trimWords s).tail, x ≠ ';') : CanonDescription (trimWords s) := by
  have hw : ∀ w ∈ words s, Word w := by unfold words; rw [words'_words]; exact scanWords_words s [] (by simp)
  by_cases hn : trimWords s = []
  · exact .inl hn
  · refine .inr ⟨?_, h, ?_, ?_⟩
    · rintro x hx rfl
      unfold trimWords at hx
      rcases join_mem hx with h | ⟨w, h1, h2⟩
      · exact absurd h (by decide)
      · have := (hw w h1).2 _ h2
        exact absurd this (by decide)
    · intro x t e
      unfold trimWords at e
      cases hws : words s with
      | nil => rw [hws] at e; simp [joinWith] at e
      | cons w ws =>
        rw [hws] at e
        have hword := hw w (by rw [hws]; simp)
        obtain ⟨c, u, rfl⟩ := List.exists_cons_of_ne_nil hword.1
        have : x = c := by cases ws <;> · simp [joinWith] at e; exact e.1.symm
        have hs := hword.2 c (by simp)
        cases hb : isWs x with
        | false => rfl
        | true => rw [this] at hb; rw [isWs_isSpaceU hb] at hs; cases hs
    · intro x hx
      unfold trimWords at hx
      have := getLast_join hw hx
      refine ⟨?_, ?_, ?_⟩ <;> rintro rfl <;> exact absurd this (by decide)

theorem newAmountFrac_com {n d : Int} {c : Com} {a : Amount} (h : newAmountFrac n d c = .ok a) : a.com = c := by
  unfold newAmountFrac at h
  obtain ⟨b, _, h⟩ := bind_ok.mp h
  split at h
  · cases h
  · cases h; rfl

/-- **C91 (partial)** True of every list of imported transactions whose payees can be written: no semicolon after the first character,
nothing that looks like a code. Missing: other payees, see below. -/
theorem C91_reads_back_partial (env : ImportEnv) (ars : AccountRules) (ts : List ITxn) (today : Today) (dec : Str → Nat) (st : LoadState)
    (hok : ImportOk env ars st.lookup)
    (hts : ∀ t ∈ ts, ∃ date payee amount balance, newTransaction env ars date payee amount balance = .ok (some t) ∧ CanonDescription payee ∧ payee ≠ [] ∧
      ∀ w u, payee = '(' :: w ++ ')' :: u → w = [] ∨ ∃ x ∈ w, isWord x = false)
    (hfit : ∀ t ∈ ts, Fits t) :
    ∃ text us, importText dec ts = .ok text ∧ loadText today st text = .ok { st with items := st.items ++ us.map Item.transaction } ∧ List.Forall₂ Records ts us := by
  have canon : ∀ u ∈ ts.map ITxn.written, CanonTxn st.lookup u := by
    intro u hu
    obtain ⟨t, ht, rfl⟩ := List.mem_map.mp hu
    obtain ⟨date, payee, amount, balance, h, hc, hne, hcode⟩ := hts t ht
    obtain ⟨rule, hr, dest, notes, hto, amt, bal, h1, h2, rfl⟩ := newTransaction_spec h
    obtain ⟨p, q, e, hp, hsum, hcom, hpos⟩ := C66_post ⟨date, [], payee, notes, []⟩ ars.account dest amt bal
    have hf := hfit _ ht
    have hdest : AccountName dest ∧ ∀ n ∈ notes, CanonNote n := by
      rcases hto with ⟨_, rfl, rfl⟩ | ⟨r, rfl, ha, rfl⟩
      · exact ⟨hok.unbalanced, by simp⟩
      · exact hok.rules _ _ _ hr ha
    have hposts : ∀ x ∈ (ITxn.post ⟨date, [], payee, notes, []⟩ ars.account dest amt bal).postings,
        AccountName x.account ∧ x.quantity.com = env.com ars.account ∧ ∀ y, x.balance = some y → y.com = env.com ars.account := by
      intro x hx
      rw [e, List.nil_append] at hx
      have hx := hp.mem_iff.mp hx
      have hamt := newAmountFrac_com h1
      simp only [List.mem_cons, List.not_mem_nil, or_false] at hx
      rcases hx with rfl | rfl
      · refine ⟨hok.account, hamt, fun y hy => ?_⟩
        simp only at hy
        subst hy
        cases balance with
        | none => cases h2
        | some bb =>
          unfold balanceFrac at h2
          obtain ⟨z, hz, h2⟩ := bind_ok.mp h2
          cases h2
          exact newAmountFrac_com hz
      · exact ⟨hdest.1, hamt, fun y hy => by cases hy⟩
    refine ⟨hf.1 _ (onDate_day _), ?_, hc, fun _ => hcode, fun h => absurd h hne, hdest.2, ?_, ?_⟩
    · intro x hx; cases hx
    · show List.map _ _ ≠ []
      rw [e]; simp
    · intro x hx
      obtain ⟨y, hy, rfl⟩ := List.mem_map.mp hx
      obtain ⟨g1, g2, g3⟩ := hposts y hy
      obtain ⟨f1, f2⟩ := hf.2 y hy
      have cm : ∀ a : Amount, a.com = env.com ars.account → (-(2 ^ 63) < a.int ∧ a.int < 2 ^ 63) → CanonAmount st.lookup a := by
        intro a ha hb
        refine ⟨by rw [ha]; exact hok.com.1, by omega, hb.2, by rw [ha]; exact hok.com.2.1, by rw [ha]; exact hok.com.2.2⟩
      refine ⟨g1, ⟨_, rfl, cm _ g2 f1⟩, ?_, by simp⟩
      intro b hb
      simp only at hb
      split at hb
      · exact cm b (g3 b hb) (f2 b hb)
      · cases hb
  obtain ⟨lines, hl, hload⟩ := C53_file_read_back today dec st (ts.map ITxn.written) canon
  refine ⟨textOf lines, ts.map ITxn.written, ?_, hload, ?_⟩
  · unfold importText; rw [hl]; rfl
  · rw [List.forall₂_map_right_iff]
    exact List.forall₂_same.mpr (fun t _ => records_written t)

/-- For the entries of a bank statement the payees are trimmed: only semicolons and codes matter. -/
theorem C91_bank_partial (env : ImportEnv) (ars : AccountRules) (b : Int × Int) (es : List OfxEntry) (ts : List ITxn) (today : Today) (dec : Str → Nat)
    (st : LoadState) (hok : ImportOk env ars st.lookup) (h : bankEntries env ars b es = .ok ts) (hfit : ∀ t ∈ ts, Fits t)
    (hne : ∀ e ∈ es, trimWords (e.name ++ e.memo) ≠ [])
    (hsemi : ∀ e ∈ es, ∀ x ∈ (trimWords (e.name ++ e.memo)).tail, x ≠ ';')
    (hcode : ∀ e ∈ es, ∀ u, trimWords (e.name ++ e.memo) ≠ '(' :: u) :
    ∃ text us, importText dec ts = .ok text ∧ loadText today st text = .ok { st with items := st.items ++ us.map Item.transaction } ∧ List.Forall₂ Records ts us := by
  refine C91_reads_back_partial env ars ts today dec st hok ?_ hfit
  obtain ⟨os, rfl, hl, hall⟩ := C66_bank env ars b es ts h
  intro t ht
  obtain ⟨o, ho, ht⟩ := List.mem_flatMap.mp ht
  have ho' : o = some t := by cases o <;> simp at ht; rw [ht]
  subst ho'
  obtain ⟨i, hi⟩ := List.getElem?_of_mem ho
  have hlt : i < es.length := by rw [← hl]; exact (List.getElem?_eq_some_iff.mp hi).1
  have := hall i es[i] (some t) (List.getElem?_eq_getElem hlt) hi
  have hm : es[i] ∈ es := List.getElem_mem hlt
  refine ⟨_, _, _, _, this, trimWords_canon _ (hsemi _ hm), hne _ hm, ?_⟩
  intro w u e
  exact absurd e (hcode _ hm _)

theorem exName1 : AccountName (str "Assets:Bank") := by
  have e : str "Assets:Bank" = str "Assets" ++ ':' :: str "Bank" := by decide
  rw [e]
  exact .cons (exSegment 'A' (str "ssets") (by decide)) (.one (exSegment 'B' (str "ank") (by decide)))
theorem exName2 : AccountName (str "Unbalanced") := by
  have e : str "Unbalanced" = 'U' :: str "nbalanced" := by decide
  rw [e]; exact .one (exSegment _ _ (by decide))
theorem exName3 : AccountName (str "Expenses") := by
  have e : str "Expenses" = 'E' :: str "xpenses" := by decide
  rw [e]; exact .one (exSegment _ _ (by decide))

theorem two_rules {m : Str → Str → Bool} {sets : List RuleSet} {payee : Str} {n : Nat} {r1 r2 r : Rule}
    (h : ruleFor m sets payee n [.rule r1, .rule r2] = .ok (some r)) : r = r1 ∨ r = r2 := by
  rw [ruleFor_unfold, ruleLoop, ruleLoop, ruleLoop] at h
  split at h
  · cases h; exact .inl rfl
  · split at h
    · cases h; exact .inr rfl
    · cases h

/-- The entries of an account with the rules of the example above. -/
theorem exImport_ok (st : LoadState) (h : st.lookup exCom.id = some exCom) : ImportOk exImportEnv exBankRules st.lookup where
  account := exName1
  unbalanced := exName2
  rules := by
    intro payee r a hr ha
    have : r = ⟨some (str "Expenses"), str "SHOP", []⟩ ∨ r = ⟨none, str "TRANSFER", []⟩ := by
      exact two_rules hr
    rcases this with rfl | rfl
    · cases ha
      exact ⟨exName3, by simp⟩
    · cases ha
  com := ⟨by decide, ⟨'C', str "AD", rfl, by decide, by decide⟩, h⟩

def exLoaded : LoadState := ⟨[exCom], exCom.id, []⟩

theorem exLoaded_com : exLoaded.lookup exCom.id = some exCom := by decide

def exShop (payee : String) : List OfxEntry := [⟨.ofDay 737062, str payee, [], (-15, 1)⟩]
def exShopTxn (payee to_ : String) : ITxn :=
  ITxn.post ⟨.ofDay 737062, [], str payee, [], []⟩ (str "Assets:Bank") (str to_) ⟨-1500, exCom⟩ (some ⟨98500, exCom⟩)

def itemDescription : Item → Str
  | .transaction t => t.description
  | _ => []

theorem exShop_text : importText (fun _ => 2) [exShopTxn "SHOP; NYC" "Unbalanced"] = .ok
    (str "2019/01/04 SHOP; NYC\n  Unbalanced    15.00 CAD\n  Assets:Bank  -15.00 CAD = 985.00 CAD\n\n") := by decide +kernel

theorem exShop_fits (p q : String) : Fits (exShopTxn p q) := by
  refine ⟨?_, ?_⟩
  · rintro d ⟨c, h1, h2, h3⟩
    have : d = 737062 := by
      have e : (exShopTxn p q).posted = .ofDay 737062 := rfl
      rw [e] at h3
      simp only [Stamp.ofDay] at h3
      omega
    subst this
    decide +kernel
  · intro x hx
    obtain ⟨y, z, e, hp, _⟩ := C66_post ⟨.ofDay 737062, [], str p, [], []⟩ (str "Assets:Bank") (str q) ⟨-1500, exCom⟩ (some ⟨98500, exCom⟩)
    unfold exShopTxn at hx
    rw [e, List.nil_append, hp.mem_iff] at hx
    simp only [List.mem_cons, List.not_mem_nil, or_false] at hx
    rcases hx with rfl | rfl
    · exact ⟨by decide, by rintro b h; cases h; decide⟩
    · exact ⟨by simp, by rintro b h; cases h⟩

example : bankEntries exImportEnv exBankRules (985, 1) (exShop "SHOP") = .ok [exShopTxn "SHOP" "Expenses"] := by decide +kernel
example : (∀ x ∈ (trimWords (str "SHOP")).tail, x ≠ ';') ∧ trimWords (str "SHOP") ≠ [] := by decide +kernel

/-- **C91 is false** of the code: the part of a payee after a semicolon is read back as a note. -/
theorem C91_payee_violated : ¬ C91_Statement := by
  intro hst
  obtain ⟨text, us, h1, h2, h3⟩ := hst exImportEnv exBankRules (985, 1) (exShop "SHOP; NYC") [exShopTxn "SHOP; NYC" "Unbalanced"] ⟨2020, 1, 1⟩ (fun _ => 2) exLoaded
    (exImport_ok _ exLoaded_com) (by decide +kernel) (by intro t ht; rw [List.mem_singleton.mp ht]; exact exShop_fits _ _) (by decide) (by decide) (by decide +kernel)
  rw [exShop_text] at h1
  cases h1
  have hd : ((loadText ⟨2020, 1, 1⟩ exLoaded (str "2019/01/04 SHOP; NYC\n  Unbalanced    15.00 CAD\n  Assets:Bank  -15.00 CAD = 985.00 CAD\n\n")).toOption.map
    (fun st => st.items.map itemDescription)) = some [str "SHOP"] := by decide +kernel
  rw [h2] at hd
  cases h3 with
  | cons h h' =>
    cases h'
    have e := h.2.2.1
    simp only [Except.toOption, Option.map_some, exLoaded, List.nil_append, List.map_cons, List.map_nil, itemDescription, Option.some.injEq, List.cons.injEq, and_true] at hd
    rw [hd] at e
    exact absurd e (by decide)

end Verif
