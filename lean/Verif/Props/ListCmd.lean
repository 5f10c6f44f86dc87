import Verif.Model.ListCmd
import Verif.Props.Accounts
import Verif.Props.Convert
import Verif.Lemmas.Sort
import Verif.Lemmas.Ledger
/-
C103, C104: the listings of accounts, commodities and prices.
-/
namespace Verif

theorem find_key {α} {key : α → Str} {m : List α} (hn : (m.map key).Nodup) {a : α} (ha : a ∈ m) : m.find? (fun b => decide (key b = key a)) = some a := by
  induction m with
  | nil => cases ha
  | cons b m ih =>
    rw [List.map_cons, List.nodup_cons] at hn
    rcases List.mem_cons.mp ha with rfl | ha
    · rw [List.find?_cons_of_pos (by simp)]
    · rw [List.find?_cons_of_neg, ih hn.2 ha]
      simp only [decide_eq_true_eq]
      intro e
      exact hn.1 (e ▸ List.mem_map_of_mem ha)

/-- Walking over a map: every entry once, in increasing order of the keys. -/
theorem inOrder_spec {α} (key : α → Str) (m : List α) (hn : (m.map key).Nodup) :
    (inOrder key m).Perm m ∧ ((inOrder key m).map key).Pairwise (fun a b => strLt a b = true) := by
  have hp : (sortStrings (m.map key)).Perm (m.map key) := stableSort_perm _ _
  have hk : (inOrder key m).map key = sortStrings (m.map key) := by
    unfold inOrder
    have : ∀ l : List Str, (∀ n ∈ l, n ∈ m.map key) → (l.filterMap fun n => m.find? (fun a => decide (key a = n))).map key = l := by
      intro l
      induction l with
      | nil => intro _; rfl
      | cons n l ih =>
        intro h
        obtain ⟨a, ha, rfl⟩ := List.mem_map.mp (h n (by simp))
        rw [List.filterMap_cons, find_key hn ha]
        simp only [List.map_cons]
        rw [ih (fun n hn => h n (by simp [hn]))]
    exact this _ (fun n h => hp.mem_iff.mp h)
  constructor
  · have h1 : ((inOrder key m).map key).Perm (m.map key) := by rw [hk]; exact hp
    have hnd : (inOrder key m).Nodup := List.Nodup.of_map _ (h1.nodup_iff.mpr hn)
    rw [List.perm_ext_iff_of_nodup hnd (List.Nodup.of_map _ hn)]
    intro a
    unfold inOrder
    rw [List.mem_filterMap]
    constructor
    · rintro ⟨n, _, h⟩; exact List.mem_of_find?_eq_some h
    · intro ha
      exact ⟨key a, hp.mem_iff.mpr (List.mem_map_of_mem ha), find_key hn ha⟩
  · rw [hk]
    have hs := stableSort_sorted strLt strLt_strictWeak (m.map key)
    have hnd : (sortStrings (m.map key)).Nodup := hp.nodup_iff.mpr hn
    have := List.Pairwise.and hs hnd
    refine this.imp ?_
    rintro a b ⟨h1, h2⟩
    by_contra hc
    simp only [Bool.not_eq_true] at hc
    exact h2 (strLt_total a b hc h1)

/-! ## C103: accounts -/

theorem accountsWidth_le (sel : Str → Bool) (names : List Str) {n : Str} (h : n ∈ names) (hs : sel n = true) : n.length ≤ accountsWidth sel names := by
  have mono : ∀ (l : List Str) (w : Nat), w ≤ l.foldl (fun w n => if sel n && decide (w < n.length) then n.length else w) w := by
    intro l
    induction l with
    | nil => intro w; exact Nat.le_refl _
    | cons x l ih =>
      intro w
      refine Nat.le_trans ?_ (ih _)
      dsimp only
      split
      · rename_i h; simp at h; omega
      · exact Nat.le_refl _
  have gen : ∀ (l : List Str) (w : Nat), n ∈ l → n.length ≤ l.foldl (fun w n => if sel n && decide (w < n.length) then n.length else w) w := by
    intro l
    induction l with
    | nil => intro w h; cases h
    | cons x l ih =>
      intro w h
      rcases List.mem_cons.mp h with rfl | h
      · refine Nat.le_trans ?_ (mono l _)
        by_cases hw : w < n.length
        · simp [hs, hw]
        · simp [hs, hw]; omega
      · exact ih _ h
  exact gen names 0 h

theorem accountsPass_ok (closed : Bool) (isC : Str → Except Fault Bool) (sel : Str → Bool) (w : Nat) (as : List Acct)
    (h : ∀ a ∈ as, ∃ b, isC a.fullName = .ok b) :
    accountsPass closed isC sel w as = .ok ((as.filter (fun a => sel a.fullName && (closed || decide (isC a.fullName = .ok false)))).map (acctListLine w)) := by
  induction as with
  | nil => rfl
  | cons a as ih =>
    obtain ⟨b, hb⟩ := h a (by simp)
    rw [accountsPass, ih (fun a ha => h a (by simp [ha])), List.filter_cons]
    cases closed with
    | true =>
      simp only [if_true, Except.bind, Bool.true_or, Bool.and_true]
      cases hs : sel a.fullName <;> simp
    | false =>
      rw [hb]
      cases b
      · simp only [Except.bind]
        cases hs : sel a.fullName <;> simp
      · simp [Except.bind]

/-- **C103** For every set of declared accounts and every iteration order of the map (`accts` is any resulting map), the accounts command
lists, in increasing order of their names and each once, exactly the accounts that the pattern selects and that are not closed — neither
themselves, nor Root, nor an account whose name they extend has a closing date — or all selected ones with -c. The columns are aligned:
the name column is at least as wide as every name that is listed. -/
theorem C103_accounts (dflt : Str) (decls accts : List Acct) (L : Links) (h : ResolvedAccounts dflt decls accts L) (sel : Option (Str → Bool))
    (closed : Bool) (fuel : Nat) (hf : ∀ a ∈ accts, a.fullName.length + 3 ≤ fuel) :
    ∃ (w : Nat) (listed : List Acct), accountsCmd accts L.parent fuel closed sel = .ok (listed.map (acctListLine w)) ∧
      (listed.map (·.fullName)).Pairwise (fun a b => strLt a b = true) ∧
      (∀ a, a ∈ listed ↔ a ∈ accts ∧ (∀ p, sel = some p → p a.fullName = true) ∧
        (closed = true ∨ ¬ (HasClosingDate accts a.fullName ∨ HasClosingDate accts (str "Root") ∨
          ∃ x, ProperAncestorName x a.fullName ∧ HasClosingDate accts x))) ∧
      ∀ a ∈ listed, a.fullName.length ≤ w := by
  obtain ⟨hn, _⟩ := resolved_spec dflt decls accts L h
  obtain ⟨hp, ho⟩ := inOrder_spec (fun a : Acct => a.fullName) accts hn
  have hc : ∀ a ∈ accts, ∃ b, isClosed accts L.parent fuel (some a.fullName) = .ok b ∧
      (b = true ↔ HasClosingDate accts a.fullName ∨ HasClosingDate accts (str "Root") ∨ ∃ x, ProperAncestorName x a.fullName ∧ HasClosingDate accts x) :=
    fun a ha => C22_closed_iff dflt decls accts L h a.fullName (List.mem_map_of_mem ha) fuel (hf a ha)
  refine ⟨_, _, accountsPass_ok closed _ _ _ _ (fun a ha => by
    obtain ⟨b, hb, _⟩ := hc a (hp.mem_iff.mp ha)
    exact ⟨b, hb⟩), ?_, ?_, ?_⟩
  · exact ho.sublist (List.filter_sublist.map _)
  · intro a
    rw [List.mem_filter, hp.mem_iff]
    constructor
    · rintro ⟨ha, hs⟩
      simp only [Bool.and_eq_true, Bool.or_eq_true, decide_eq_true_eq] at hs
      refine ⟨ha, ?_, ?_⟩
      · rintro p rfl; exact hs.1
      · refine hs.2.imp id ?_
        intro hk hcl
        obtain ⟨b, hb, hiff⟩ := hc a ha
        rw [hb] at hk
        rw [hiff.mpr hcl] at hk
        cases hk
    · rintro ⟨ha, hs, hk⟩
      refine ⟨ha, ?_⟩
      simp only [Bool.and_eq_true, Bool.or_eq_true, decide_eq_true_eq]
      refine ⟨?_, hk.imp id ?_⟩
      · cases sel with
        | none => rfl
        | some p => exact hs p rfl
      · intro hk
        obtain ⟨b, hb, hiff⟩ := hc a ha
        rw [hb]
        cases b with
        | false => rfl
        | true => exact absurd (hiff.mp rfl) hk
  · intro a ha
    rw [List.mem_filter] at ha
    simp only [Bool.and_eq_true] at ha
    exact accountsWidth_le _ _ (List.mem_map_of_mem ha.1) ha.2.1

/-- The separators of the listed lines are in one column. -/
theorem C103_aligned (w : Nat) (a : Acct) (h : a.fullName.length ≤ w) : ∃ rest, acctListLine w a = (a.fullName ++ rep (w - a.fullName.length) ' ') ++ str " | " ++ rest ∧
    (a.fullName ++ rep (w - a.fullName.length) ' ').length = w := by
  refine ⟨padRight 10 a.commodityId ++ str " | " ++ a.description, by simp [acctListLine, padRight], ?_⟩
  have : (rep (w - a.fullName.length) ' ').length = w - a.fullName.length := by simp [rep]
  rw [List.length_append, this]
  omega

def exListDecls : List Acct := [⟨str "Assets:Bank", str "my bank", str "CAD", none⟩, ⟨str "Assets:Old", [], str "CAD", some 700000⟩, ⟨str "Assets:Old:Sub", [], str "USD", none⟩]

example : accountsCmd (createParents (str "CAD") (baseAccounts (str "CAD") exListDecls) (baseAccounts (str "CAD") exListDecls))
    (fun n => if n = str "Assets:Old:Sub" then some (str "Assets:Old") else if n = str "Root" then none else some (str "Root")) 40 false (some (fun n => n.length > 6)) =
    .ok [str "Assets:Bank    | CAD        | my bank", str "Unbalanced     | CAD        | "] := by decide +kernel

/-! ## C104: commodities and prices -/

/-- **C104** The commodities are listed each once in increasing order of their ids, whatever the iteration order of the map, with a
`Q` exactly for those with a symbol that are quoted on a market. -/
theorem C104_commodities (coms : List PCom) (hn : (coms.map (·.id)).Nodup) :
    ∃ listed : List PCom, listed.Perm coms ∧ (listed.map (·.id)).Pairwise (fun a b => strLt a b = true) ∧
      commoditiesCmd coms = listed.map fun c => padLeft 10 c.id ++ str " | " ++ padLeft 10 c.symbol ++
        (if c.symbol ≠ [] ∧ c.noMarket = false then str " | Q | " else str " |   | ") ++ c.name := by
  obtain ⟨hp, ho⟩ := inOrder_spec (fun c : PCom => c.id) coms hn
  refine ⟨_, hp, ho, ?_⟩
  unfold commoditiesCmd
  apply List.map_congr_left
  intro c _
  unfold comListLine
  split <;> simp [str]

/-- Strictly increasing sequences with the same elements are the same: the listing is determined by the set of commodities. -/
theorem C104_deterministic (coms coms' : List PCom) (hn : (coms.map (·.id)).Nodup) (hp : coms'.Perm coms) : commoditiesCmd coms' = commoditiesCmd coms := by
  have hn' : (coms'.map (·.id)).Nodup := (hp.map _).nodup_iff.mpr hn
  obtain ⟨h1, h2⟩ := inOrder_spec (fun c : PCom => c.id) coms hn
  obtain ⟨h3, h4⟩ := inOrder_spec (fun c : PCom => c.id) coms' hn'
  unfold commoditiesCmd
  congr 1
  refine List.Perm.eq_of_pairwise (le := fun a b : PCom => strLt a.id b.id = true) ?_ (List.pairwise_map.mp h4) (List.pairwise_map.mp h2) (h3.trans (hp.trans h1.symm))
  intro a b _ _ hab hba
  exact absurd hba (by rw [strLt_asymm _ _ hab]; decide)

/-- All prices of a commodity in the loaded files. -/
def priceHistory (items : List PriceItem) (c : Com) : List Price := (items.filter (fun i => decide (i.commodity = c))).map (·.price)

/-- Full statement for the list of prices: every price of the commodity once, latest first, whatever the iteration order of the map. -/
def C104_Statement : Prop := ∀ (items : List PriceItem) (db : PriceDB) (c : Com) (order : List (Com × List Price)) (lines : List Str),
  IsResolved items db → order.Perm (db c) → pricesCmd order = .ok lines →
  ∃ ps : List Price, ps.mapM priceLine = .ok lines ∧ ps.Perm (priceHistory items c) ∧ ps.Pairwise (fun p q => q.time ≤ p.time)

theorem addPrice_perm (m : List (Com × List Price)) (cur : Com) (p : Price) : ((addPrice m cur p).flatMap (·.2)).Perm (m.flatMap (·.2) ++ [p]) := by
  induction m with
  | nil => simp [addPrice]
  | cons e m ih =>
    obtain ⟨d, l⟩ := e
    rw [addPrice]
    split
    · simp only [List.flatMap_cons, List.append_assoc]
      exact List.Perm.append_left _ List.perm_append_comm
    · simp only [List.flatMap_cons, List.append_assoc]
      exact ih.append_left _

theorem loadPrices_perm (items : List PriceItem) (c : Com) : ((loadPrices items c).flatMap (·.2)).Perm (priceHistory items c) := by
  unfold loadPrices priceHistory
  generalize items.filter (fun i => decide (i.commodity = c)) = its
  have gen : ∀ (its : List PriceItem) (m : List (Com × List Price)),
      ((its.foldl (fun m i => addPrice m i.currency i.price) m).flatMap (·.2)).Perm (m.flatMap (·.2) ++ its.map (·.price)) := by
    intro its
    induction its with
    | nil => intro m; simp
    | cons i its ih =>
      intro m
      rw [List.foldl_cons]
      refine (ih _).trans ?_
      rw [List.map_cons]
      refine ((addPrice_perm m _ _).append_right _).trans ?_
      simp
  simpa using gen its []

theorem resolved_perm {items : List PriceItem} {db : PriceDB} (h : IsResolved items db) (c : Com) : ((db c).flatMap (·.2)).Perm (priceHistory items c) := by
  refine List.Perm.trans ?_ (loadPrices_perm items c)
  have := h c
  revert this
  generalize loadPrices items c = a
  generalize db c = b
  intro hf
  induction hf with
  | nil => exact List.Perm.refl _
  | cons h _ ih =>
    rw [List.flatMap_cons, List.flatMap_cons]
    exact h.2.1.append ih

theorem resolved_sorted {items : List PriceItem} {db : PriceDB} (h : IsResolved items db) (c : Com) :
    ∀ e ∈ db c, e.2.Pairwise (fun p q => q.time ≤ p.time) := by
  intro e he
  obtain ⟨a, _, ha⟩ := forall2_mem_right (h c) e he
  exact ha.2.2

/-- **C104 (partial)** Every price of the commodity is listed once; those in one currency follow each other, latest first, and if there is
only one currency the whole list is ordered. Missing: with several currencies the blocks come in the order of a map. -/
theorem C104_prices_partial (items : List PriceItem) (db : PriceDB) (c : Com) (order : List (Com × List Price)) (lines : List Str)
    (h : IsResolved items db) (ho : order.Perm (db c)) (hl : pricesCmd order = .ok lines) :
    ∃ blocks : List (List Price), blocks.flatten.mapM priceLine = .ok lines ∧ blocks.flatten.Perm (priceHistory items c) ∧
      (∀ b ∈ blocks, b.Pairwise (fun p q => q.time ≤ p.time)) ∧ ((db c).length ≤ 1 → blocks.flatten.Pairwise (fun p q => q.time ≤ p.time)) := by
  refine ⟨order.map (·.2), ?_, ?_, ?_, ?_⟩
  · rw [← List.flatMap_def]; exact hl
  · rw [← List.flatMap_def]
    exact (ho.flatMap_right _).trans (resolved_perm h c)
  · intro b hb
    obtain ⟨e, he, rfl⟩ := List.mem_map.mp hb
    exact resolved_sorted h c e (ho.mem_iff.mp he)
  · intro hlen
    rw [← ho.length_eq] at hlen
    match order, hlen, ho with
    | [], _, _ => exact List.Pairwise.nil
    | [e], _, ho =>
      simp only [List.map_cons, List.map_nil, List.flatten_cons, List.flatten_nil, List.append_nil]
      exact resolved_sorted h c e (ho.mem_iff.mp (by simp))
    | _ :: _ :: _, hlen, _ => simp at hlen

def exPriceCom : Com := ⟨1, str "XYZ", 2⟩
def exUsd : Com := ⟨2, str "USD", 2⟩
def exEur : Com := ⟨3, str "EUR", 2⟩
def exPriceItems : List PriceItem := [⟨exPriceCom, exUsd, ⟨⟨1000, exUsd⟩, 737000⟩⟩, ⟨exPriceCom, exEur, ⟨⟨900, exEur⟩, 737001⟩⟩]
def exPriceDb : PriceDB := loadPrices exPriceItems

theorem exPrice_resolved : IsResolved exPriceItems exPriceDb := by
  intro c
  unfold exPriceDb
  have hs : ∀ e ∈ loadPrices exPriceItems c, e.2.Pairwise (fun p q => q.time ≤ p.time) := by
    unfold loadPrices
    by_cases hc : exPriceCom = c
    · subst hc
      decide
    · have : exPriceItems.filter (fun i => decide (i.commodity = c)) = [] := by simp [exPriceItems, hc]
      rw [this]
      simp
  generalize loadPrices exPriceItems c = l at hs
  induction l with
  | nil => exact List.Forall₂.nil
  | cons e l ih => exact List.Forall₂.cons ⟨rfl, List.Perm.refl _, hs e (by simp)⟩ (ih (fun e he => hs e (by simp [he])))

/-- **C104 is false** of the code for prices: with prices in two currencies an earlier price may come before a later one. -/
theorem C104_prices_violated : ¬ C104_Statement := by
  intro h
  obtain ⟨ps, h1, h2, h3⟩ := h exPriceItems exPriceDb exPriceCom (exPriceDb exPriceCom) [str "2018/11/03 10.00 USD", str "2018/11/04 9.00 EUR"] exPrice_resolved
    (List.Perm.refl _) (by decide +kernel)
  have hps : ps = [⟨⟨1000, exUsd⟩, 737000⟩, ⟨⟨900, exEur⟩, 737001⟩] ∨ ps = [⟨⟨900, exEur⟩, 737001⟩, ⟨⟨1000, exUsd⟩, 737000⟩] := by
    have : priceHistory exPriceItems exPriceCom = [⟨⟨1000, exUsd⟩, 737000⟩, ⟨⟨900, exEur⟩, 737001⟩] := by decide
    rw [this] at h2
    have hlen := h2.length_eq
    match ps, hlen with
    | [a, b], _ =>
      have ha : a ∈ [(⟨⟨1000, exUsd⟩, 737000⟩ : Price), ⟨⟨900, exEur⟩, 737001⟩] := h2.mem_iff.mp (by simp)
      have hb : b ∈ [(⟨⟨1000, exUsd⟩, 737000⟩ : Price), ⟨⟨900, exEur⟩, 737001⟩] := h2.mem_iff.mp (by simp)
      have hn := h2.nodup_iff.mpr (by decide)
      simp only [List.mem_cons, List.not_mem_nil, or_false] at ha hb
      rcases ha with rfl | rfl <;> rcases hb with rfl | rfl
      · exact absurd hn (by decide)
      · exact Or.inl rfl
      · exact Or.inr rfl
      · exact absurd hn (by decide)
  rcases hps with rfl | rfl
  · revert h3; decide
  · revert h1; decide +kernel

end Verif
