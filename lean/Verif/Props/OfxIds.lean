import Verif.Model.OfxIds
import Verif.Props.ImportFile
import Verif.Props.ListCmd
/-
C166, C167: the account of a statement; the listing of accounts with an OFX id.
-/
namespace Verif

/-! ## C166: The account of a statement -/

/-- Full statement of C166: importing the same file into the same ledger gives the same transactions, whatever the order in which the map
of accounts happens to be walked. -/
def C166_Statement : Prop := ∀ (env : ImportEnv) (ri : Option RuleIndex) (accts accts' : List PAcct) (bank cards : List OfxStatement),
  (accts.map (·.fullName)).Nodup → accts.Perm accts' →
  readTransactions env ri (findAccountOfxId accts) bank cards = readTransactions env ri (findAccountOfxId accts') bank cards

/-- The same with all OFX ids that are declared distinct. -/
def C166_StatementDistinct : Prop := ∀ (env : ImportEnv) (ri : Option RuleIndex) (accts accts' : List PAcct) (bank cards : List OfxStatement),
  (accts.map (·.fullName)).Nodup → accts.Perm accts' →
  (∀ a ∈ accts, ∀ b ∈ accts, a.ofxAcctId ≠ [] → a.ofxAcctId = b.ofxAcctId → a = b) →
  readTransactions env ri (findAccountOfxId accts) bank cards = readTransactions env ri (findAccountOfxId accts') bank cards

def ofxChequing : PAcct := ⟨str "Assets:Chequing", [], str "CAD", none, [], str "123", []⟩
def ofxSavings : PAcct := ⟨str "Assets:Savings", [], str "CAD", none, [], str "123", []⟩
def ofxFood : PAcct := ⟨str "Expenses:Food", [], str "CAD", none, [], [], []⟩
def ofxRent : PAcct := ⟨str "Expenses:Rent", [], str "CAD", none, [], [], []⟩
def ofxStatement (id : String) : OfxStatement := ⟨str id, [⟨.ofDay 737062, str "SHOP", [], (-15, 1)⟩], (85, 1)⟩
def ofxEnv : ImportEnv := ⟨fun _ _ => false, [], fun _ => exCom, str "Unbalanced", 3⟩

/-- Two accounts that carry the id: which of them the import posts to differs from run to run. -/
theorem C166_account_violated : ¬ C166_Statement := by
  intro h
  have := h ofxEnv (some ⟨[], []⟩) [ofxChequing, ofxSavings] [ofxSavings, ofxChequing] [ofxStatement "123"] [] (by decide) (List.Perm.swap _ _ _)
  have := congrArg (fun r => r.toOption.map (·.map fun t => t.postings.map (·.account))) this
  revert this
  decide +kernel

/-- A statement without an account id is posted to an arbitrary account that has no OFX id, whatever ids are declared. -/
theorem C166_empty_violated : ¬ C166_StatementDistinct := by
  intro h
  have := h ofxEnv (some ⟨[], []⟩) [ofxChequing, ofxFood, ofxRent] [ofxChequing, ofxRent, ofxFood] [ofxStatement ""] [] (by decide)
    ((List.Perm.swap _ _ _).cons _) (by decide)
  have := congrArg (fun r => r.toOption.map (·.map fun t => t.postings.map (·.account))) this
  revert this
  decide +kernel

/-- At most one account carries the id. -/
def AtMostOne (accts : List PAcct) (id : Str) : Prop := ∀ a ∈ accts, ∀ b ∈ accts, a.ofxAcctId = id → b.ofxAcctId = id → a = b

theorem findAccountOfxId_some {accts : List PAcct} {id n : Str} (h : findAccountOfxId accts id = some n) :
    ∃ a ∈ accts, a.ofxAcctId = id ∧ a.fullName = n := by
  unfold findAccountOfxId at h
  obtain ⟨a, ha, rfl⟩ := Option.map_eq_some_iff.mp h
  exact ⟨a, List.mem_of_find?_eq_some ha, by simpa using List.find?_some ha, rfl⟩

theorem findAccountOfxId_none {accts : List PAcct} {id : Str} : findAccountOfxId accts id = none ↔ ∀ a ∈ accts, a.ofxAcctId ≠ id := by
  unfold findAccountOfxId
  rw [Option.map_eq_none_iff, List.find?_eq_none]
  simp

/-- **C166** (lookup, partial) The account found by an id is the one that carries it, in any order of the map, when only one does. -/
theorem C166_lookup_partial (accts accts' : List PAcct) (hp : accts.Perm accts') (id : Str) (h1 : AtMostOne accts id) :
    (∀ a ∈ accts, a.ofxAcctId = id → findAccountOfxId accts' id = some a.fullName) ∧
    ((∀ a ∈ accts, a.ofxAcctId ≠ id) → findAccountOfxId accts' id = none) := by
  constructor
  · intro a ha hid
    cases hf : findAccountOfxId accts' id with
    | none => exact absurd hid (findAccountOfxId_none.mp hf a (hp.mem_iff.mp ha))
    | some n =>
      obtain ⟨b, hb, hbid, rfl⟩ := findAccountOfxId_some hf
      rw [h1 b (hp.mem_iff.mpr hb) a ha hbid hid]
  · intro h
    exact findAccountOfxId_none.mpr fun a ha => h a (hp.mem_iff.mpr ha)

theorem readBank_congr (env : ImportEnv) (ri : Option RuleIndex) (f g : Str → Option Str) (ss : List OfxStatement)
    (h : ∀ s ∈ ss, f s.account = g s.account) : readBank env ri f ss = readBank env ri g ss := by
  induction ss with
  | nil => rfl
  | cons s ss ih =>
    have e : accountRulesFor ri f s.account = accountRulesFor ri g s.account := by
      unfold accountRulesFor
      rw [h s (by simp)]
    unfold readBank
    rw [e, ih fun x hx => h x (by simp [hx])]

theorem readCards_congr (env : ImportEnv) (ri : Option RuleIndex) (f g : Str → Option Str) (ss : List OfxStatement)
    (h : ∀ s ∈ ss, f s.account = g s.account) : readCards env ri f ss = readCards env ri g ss := by
  induction ss with
  | nil => rfl
  | cons s ss ih =>
    have e : accountRulesFor ri f s.account = accountRulesFor ri g s.account := by
      unfold accountRulesFor
      rw [h s (by simp)]
    unfold readCards
    rw [e, ih fun x hx => h x (by simp [hx])]

/-- **C166** (partial) When at most one account carries the id of each statement, the import does not depend on the order of the map. -/
theorem C166_account_partial (env : ImportEnv) (ri : Option RuleIndex) (accts accts' : List PAcct) (bank cards : List OfxStatement)
    (hp : accts.Perm accts') (hone : ∀ s ∈ bank ++ cards, AtMostOne accts s.account) :
    readTransactions env ri (findAccountOfxId accts) bank cards = readTransactions env ri (findAccountOfxId accts') bank cards := by
  have key : ∀ s ∈ bank ++ cards, findAccountOfxId accts s.account = findAccountOfxId accts' s.account := by
    intro s hs
    by_cases h : ∃ a ∈ accts, a.ofxAcctId = s.account
    · obtain ⟨a, ha, e⟩ := h
      rw [(C166_lookup_partial accts accts (.refl _) _ (hone s hs)).1 a ha e, (C166_lookup_partial accts accts' hp _ (hone s hs)).1 a ha e]
    · have h : ∀ a ∈ accts, a.ofxAcctId ≠ s.account := fun a ha e => h ⟨a, ha, e⟩
      rw [(C166_lookup_partial accts accts (.refl _) _ (hone s hs)).2 h, (C166_lookup_partial accts accts' hp _ (hone s hs)).2 h]
  unfold readTransactions
  rw [readBank_congr env ri _ _ bank fun s hs => key s (by simp [hs]), readCards_congr env ri _ _ cards fun s hs => key s (by simp [hs])]

/-- The account of a statement and the rules for its entries: those given for the id in the rule file, else the account declared with
that id and no rules. -/
inductive StatementRules (ri : RuleIndex) (accts : List PAcct) (id : Str) : AccountRules → Prop
  | byRules (ars : AccountRules) (pre post : List (Str × AccountRules)) (h : ri.accounts = pre ++ (id, ars) :: post) (hpre : ∀ e ∈ pre, e.1 ≠ id) :
      StatementRules ri accts id ars
  | byAccount (a : PAcct) (hr : ∀ e ∈ ri.accounts, e.1 ≠ id) (ha : a ∈ accts) (hid : a.ofxAcctId = id) : StatementRules ri accts id ⟨a.fullName, []⟩

theorem accountRulesFor_spec {ri : RuleIndex} {accts : List PAcct} {id : Str} {ars : AccountRules}
    (h : accountRulesFor (some ri) (findAccountOfxId accts) id = .ok ars) : StatementRules ri accts id ars := by
  unfold accountRulesFor at h
  dsimp only at h
  cases e : ri.accountRules id with
  | some r =>
    rw [e] at h
    obtain rfl := Except.ok.inj h
    unfold RuleIndex.accountRules at e
    obtain ⟨⟨i, s⟩, hf, rfl⟩ := Option.map_eq_some_iff.mp e
    obtain ⟨hi, pre, post, h1, h2⟩ := List.find?_eq_some_iff_append.mp hf
    obtain rfl : i = id := by simpa using hi
    exact .byRules _ pre post h1 fun x hx => by simpa using h2 x hx
  | none =>
    rw [e] at h
    dsimp only at h
    have hr : ∀ x ∈ ri.accounts, x.1 ≠ id := by
      unfold RuleIndex.accountRules at e
      rw [Option.map_eq_none_iff, List.find?_eq_none] at e
      intro x hx; simpa using e x hx
    cases hf : findAccountOfxId accts id with
    | none => rw [hf] at h; cases h
    | some n =>
      rw [hf] at h
      obtain rfl := Except.ok.inj h
      obtain ⟨a, ha, hid, rfl⟩ := findAccountOfxId_some hf
      exact .byAccount a hr ha hid

/-- The transaction moves an amount between the account of the statement and the account of the rule for the payee, `Unbalanced` without
one. -/
def MovesBetween (env : ImportEnv) (ars : AccountRules) (t : ITxn) : Prop := ∃ (dest : Str) (n : Int) (bal : Option Amount),
  t.postings.Perm [⟨ars.account, ⟨n, env.com ars.account⟩, bal, bal.isSome⟩, ⟨dest, ⟨-n, env.com ars.account⟩, none, false⟩] ∧
  ((ruleFor env.matcher env.sets t.description env.fuel ars.items = .ok none ∧ dest = env.unbalanced) ∨
   ∃ r, ruleFor env.matcher env.sets t.description env.fuel ars.items = .ok (some r) ∧ r.account = some dest)

theorem newTransaction_moves {env : ImportEnv} {ars : AccountRules} {date : Stamp} {payee : Str} {amount : Int × Int}
    {balance : Option (Int × Int)} {t : ITxn} (h : newTransaction env ars date payee amount balance = .ok (some t)) : MovesBetween env ars t := by
  obtain ⟨rule, hr, dest, notes, hto, amt, bal, h1, h2, rfl⟩ := newTransaction_spec h
  obtain ⟨p, q, e, hp, -⟩ := C66_post ⟨date, [], payee, notes, []⟩ ars.account dest amt bal
  have hc : amt.com = env.com ars.account := by
    unfold newAmountFrac at h1
    obtain ⟨b, -, h1⟩ := bind_ok.mp h1
    split at h1
    · cases h1
    · cases h1; rfl
  refine ⟨dest, amt.int, bal, ?_, ?_⟩
  · rw [e, List.nil_append]
    rw [← hc]
    exact hp
  · rcases hto with ⟨rfl, rfl, -⟩ | ⟨r, rfl, ha, -⟩
    · exact .inl ⟨hr, rfl⟩
    · exact .inr ⟨r, hr, ha⟩

theorem bankEntries_moves {env : ImportEnv} {ars : AccountRules} {b : Int × Int} {es : List OfxEntry} {ts : List ITxn}
    (h : bankEntries env ars b es = .ok ts) : ∀ t ∈ ts, MovesBetween env ars t := by
  induction es generalizing ts with
  | nil => cases h; simp
  | cons e es ih =>
    unfold bankEntries at h
    obtain ⟨o, h1, h⟩ := bind_ok.mp h
    obtain ⟨us, h2, h⟩ := bind_ok.mp h
    cases h
    intro t ht
    rcases List.mem_append.mp ht with ht | ht
    · obtain rfl : o = some t := by simpa using ht
      exact newTransaction_moves h1
    · exact ih h2 t ht

theorem cardEntries_moves {env : ImportEnv} {ars : AccountRules} {es : List OfxEntry} {ts : List ITxn}
    (h : cardEntries env ars es = .ok ts) : ∀ t ∈ ts, MovesBetween env ars t := by
  induction es generalizing ts with
  | nil => cases h; simp
  | cons e es ih =>
    unfold cardEntries at h
    obtain ⟨o, h1, h⟩ := bind_ok.mp h
    obtain ⟨us, h2, h⟩ := bind_ok.mp h
    cases h
    intro t ht
    rcases List.mem_append.mp ht with ht | ht
    · obtain rfl : o = some t := by simpa using ht
      exact newTransaction_moves h1
    · exact ih h2 t ht

theorem readBank_moves {env : ImportEnv} {ri : RuleIndex} {accts : List PAcct} {ss : List OfxStatement} {ts : List ITxn}
    (h : readBank env (some ri) (findAccountOfxId accts) ss = .ok ts) :
    (∀ s ∈ ss, ∃ ars, StatementRules ri accts s.account ars) ∧
    ∀ t ∈ ts, ∃ s ∈ ss, ∃ ars, StatementRules ri accts s.account ars ∧ MovesBetween env ars t := by
  induction ss generalizing ts with
  | nil => cases h; simp
  | cons s ss ih =>
    unfold readBank at h
    obtain ⟨ars, h0, h⟩ := bind_ok.mp h
    obtain ⟨us, h1, h⟩ := bind_ok.mp h
    obtain ⟨vs, h2, h⟩ := bind_ok.mp h
    cases h
    obtain ⟨i1, i2⟩ := ih h2
    refine ⟨?_, ?_⟩
    · intro x hx
      rcases List.mem_cons.mp hx with rfl | hx
      · exact ⟨ars, accountRulesFor_spec h0⟩
      · exact i1 x hx
    · intro t ht
      rcases List.mem_append.mp ht with ht | ht
      · exact ⟨s, by simp, ars, accountRulesFor_spec h0, bankEntries_moves h1 t ht⟩
      · obtain ⟨x, hx, y⟩ := i2 t ht
        exact ⟨x, by simp [hx], y⟩

theorem readCards_moves {env : ImportEnv} {ri : RuleIndex} {accts : List PAcct} {ss : List OfxStatement} {ts : List ITxn}
    (h : readCards env (some ri) (findAccountOfxId accts) ss = .ok ts) :
    (∀ s ∈ ss, ∃ ars, StatementRules ri accts s.account ars) ∧
    ∀ t ∈ ts, ∃ s ∈ ss, ∃ ars, StatementRules ri accts s.account ars ∧ MovesBetween env ars t := by
  induction ss generalizing ts with
  | nil => cases h; simp
  | cons s ss ih =>
    unfold readCards at h
    obtain ⟨ars, h0, h⟩ := bind_ok.mp h
    obtain ⟨us, h1, h⟩ := bind_ok.mp h
    obtain ⟨vs, h2, h⟩ := bind_ok.mp h
    cases h
    obtain ⟨i1, i2⟩ := ih h2
    refine ⟨?_, ?_⟩
    · intro x hx
      rcases List.mem_cons.mp hx with rfl | hx
      · exact ⟨ars, accountRulesFor_spec h0⟩
      · exact i1 x hx
    · intro t ht
      rcases List.mem_append.mp ht with ht | ht
      · exact ⟨s, by simp, ars, accountRulesFor_spec h0, cardEntries_moves h1 t ht⟩
      · obtain ⟨x, hx, y⟩ := i2 t ht
        exact ⟨x, by simp [hx], y⟩

/-- **C166** (posts) When an import succeeds, every statement has an account, from the rules or declared with its id, and every
transaction moves an amount between the account of one of the statements and the account its rules say: never any other account. -/
theorem C166_posts (env : ImportEnv) (ri : RuleIndex) (accts : List PAcct) (bank cards : List OfxStatement) (ts : List ITxn)
    (h : readTransactions env (some ri) (findAccountOfxId accts) bank cards = .ok ts) :
    (∀ s ∈ bank ++ cards, ∃ ars, StatementRules ri accts s.account ars) ∧
    ∀ t ∈ ts, ∃ s ∈ bank ++ cards, ∃ ars, StatementRules ri accts s.account ars ∧ MovesBetween env ars t := by
  unfold readTransactions at h
  obtain ⟨us, h1, h⟩ := bind_ok.mp h
  obtain ⟨vs, h2, h⟩ := bind_ok.mp h
  cases h
  obtain ⟨a1, a2⟩ := readBank_moves h1
  obtain ⟨b1, b2⟩ := readCards_moves h2
  refine ⟨?_, ?_⟩
  · intro s hs
    rcases List.mem_append.mp hs with hs | hs
    · exact a1 s hs
    · exact b1 s hs
  · intro t ht
    rcases List.mem_append.mp ht with ht | ht
    · obtain ⟨s, hs, x⟩ := a2 t ht; exact ⟨s, by simp [hs], x⟩
    · obtain ⟨s, hs, x⟩ := b2 t ht; exact ⟨s, by simp [hs], x⟩

/-- One account per id: the import finds it, and without rules everything is moved against `Unbalanced`. -/
example : (readTransactions ofxEnv (some ⟨[], []⟩) (findAccountOfxId [ofxFood, ofxChequing]) [ofxStatement "123"] []).toOption.map
    (·.map fun t => t.postings.map fun p => (p.account, p.quantity.int)) =
    some [[(str "Unbalanced", 1500), (str "Assets:Chequing", -1500)]] := by decide +kernel
example : ∀ s ∈ [ofxStatement "123"] ++ [], AtMostOne [ofxFood, ofxChequing] s.account := by unfold AtMostOne; decide
example : findAccountOfxId [ofxFood, ofxChequing] (str "99") = none := by decide

/-! ## C167: The listing of accounts with an OFX id -/

/-- **C167** `ofx2coin -ids` prints one line for every account with an OFX id and none for another account, in the order of the names of
the accounts, whatever the order of the map. -/
theorem C167_ids (accts : List PAcct) (hn : (accts.map (·.fullName)).Nodup) :
    ∃ as : List PAcct, as.Nodup ∧ (∀ a, a ∈ as ↔ a ∈ accts ∧ a.ofxAcctId ≠ []) ∧ (as.map (·.fullName)).Pairwise (fun a b => strLt a b = true) ∧
      List.Forall₂ (fun a l => l = (if a.ofxBankId = [] then [] else a.ofxBankId ++ str "/") ++ a.ofxAcctId ++ str " " ++ a.fullName) as (ofxIdsCmd accts) := by
  obtain ⟨hp, hs⟩ := inOrder_spec (·.fullName) accts hn
  refine ⟨(inOrder (·.fullName) accts).filter fun a => decide (a.ofxAcctId ≠ []), ?_, ?_, ?_, ?_⟩
  · exact (hp.nodup_iff.mpr (List.Nodup.of_map _ hn)).filter _
  · intro a; rw [List.mem_filter, hp.mem_iff]; simp
  · exact hs.sublist (List.filter_sublist.map _)
  · unfold ofxIdsCmd
    generalize inOrder (·.fullName) accts = l
    induction l with
    | nil => exact .nil
    | cons a l ih =>
      by_cases h : a.ofxAcctId = []
      · rw [List.filter_cons_of_neg (by simp [h]), List.filterMap_cons_none (by simp [ofxIdLine, h])]
        exact ih
      · by_cases hb : a.ofxBankId = []
        · rw [List.filter_cons_of_pos (by simp [h]), List.filterMap_cons_some (b := a.ofxAcctId ++ str " " ++ a.fullName) (by simp [ofxIdLine, h, hb])]
          exact .cons (by simp [hb]) ih
        · rw [List.filter_cons_of_pos (by simp [h]),
            List.filterMap_cons_some (b := a.ofxBankId ++ str "/" ++ a.ofxAcctId ++ str " " ++ a.fullName) (by simp [ofxIdLine, h, hb])]
          exact .cons (by simp [hb]) ih

/-- The list does not depend on the order of the map. -/
theorem C167_ids_order (accts accts' : List PAcct) (hn : (accts.map (·.fullName)).Nodup) (hp : accts.Perm accts') :
    ofxIdsCmd accts = ofxIdsCmd accts' := by
  have hn' : (accts'.map (·.fullName)).Nodup := (hp.map _).nodup_iff.mp hn
  obtain ⟨p1, s1⟩ := inOrder_spec (·.fullName) accts hn
  obtain ⟨p2, s2⟩ := inOrder_spec (·.fullName) accts' hn'
  have : inOrder (·.fullName) accts = inOrder (·.fullName) accts' := by
    have hperm := (p1.trans hp).trans p2.symm
    rw [List.pairwise_map] at s1 s2
    refine hperm.eq_of_pairwise (le := fun a b => strLt a.fullName b.fullName = true) ?_ s1 s2
    intro a b _ _ h1 h2
    have := strLt_strictWeak
    exact absurd h2 (by simp [this.asymm _ _ h1])
  unfold ofxIdsCmd
  rw [this]

example : ofxIdsCmd [ofxRent, { ofxSavings with ofxBankId := str "7", ofxAcctId := str "45" }, ofxChequing] =
    [str "123 Assets:Chequing", str "7/45 Assets:Savings"] := by decide +kernel

end Verif
