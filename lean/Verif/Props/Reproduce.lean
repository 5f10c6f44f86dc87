import Verif.Props.ProgramAny
import Verif.Props.GenWrite
import Verif.Props.Parsed
import Verif.Lemmas.Convert
import Verif.Props.Convert
/-
C175: two runs on the same files print the same.
-/
namespace Verif

/-! ## The accounts -/

theorem addMissing_made (dflt : Str) (fns : List Str) (m : List Acct) :
    ∀ a ∈ fns.foldl (addMissing dflt) m, a ∈ m ∨ a = accountFromName dflt a.fullName := by
  induction fns generalizing m with
  | nil => intro a ha; exact .inl ha
  | cons f fns ih =>
    intro a ha
    rw [List.foldl_cons] at ha
    rcases ih _ a ha with h | h
    · unfold addMissing at h
      split at h
      · exact .inl h
      · rcases List.mem_append.mp h with h | h
        · exact .inl h
        · rw [List.mem_singleton.mp h]; exact .inr rfl
    · exact .inr h

/-- Created accounts are made from their names alone. -/
theorem createParents_from (dflt : Str) (known m : List Acct) :
    ∀ a ∈ createParents dflt known m, a ∈ m ∨ a = accountFromName dflt a.fullName := by
  unfold createParents
  induction known generalizing m with
  | nil => intro a ha; exact .inl ha
  | cons k known ih =>
    intro a ha
    rw [List.foldl_cons] at ha
    rcases ih _ a ha with h | h
    · exact addMissing_made dflt _ m a h
    · exact .inr h

theorem getAcct_append (m ext : List Acct) (x : Str) : getAcct (m ++ ext) x = (getAcct m x).or (getAcct ext x) := by
  unfold getAcct
  rw [List.find?_append]

/-- The map of accounts does not depend on the order in which it is visited. -/
theorem resolved_getAcct {dflt : Str} {decls accts accts' : List Acct} {L L' : Links} (h : ResolvedAccounts dflt decls accts L)
    (h' : ResolvedAccounts dflt decls accts' L') (x : Str) : getAcct accts x = getAcct accts' x := by
  have hm : ∀ y, y ∈ accts.map (·.fullName) ↔ y ∈ accts'.map (·.fullName) := fun y => by
    rw [(C21_exactly_missing_ancestors _ _ _ _ h).2, (C21_exactly_missing_ancestors _ _ _ _ h').2]
  have key : ∀ {accts : List Acct} {L : Links}, ResolvedAccounts dflt decls accts L →
      getAcct accts x = (getAcct (baseAccounts dflt decls) x).or (if x ∈ accts.map (·.fullName) then some (accountFromName dflt x) else none) := by
    intro accts L h
    obtain ⟨known, _, _, _, _, ha, _⟩ := h
    obtain ⟨⟨ext, e⟩, _, hn⟩ := createParents_spec dflt known (baseAccounts dflt decls)
    have hmade := createParents_from dflt known (baseAccounts dflt decls)
    rw [← ha] at e hmade hn
    have hn := hn (base_nodup dflt decls)
    cases hb : getAcct (baseAccounts dflt decls) x with
    | some b => rw [e, getAcct_append, hb]; rfl
    | none =>
      have hbx : x ∉ (baseAccounts dflt decls).map (·.fullName) := by
        intro hx
        obtain ⟨b, hb', rfl⟩ := List.mem_map.mp hx
        unfold getAcct at hb
        exact absurd (List.find?_eq_none.mp hb b hb') (by simp)
      by_cases hx : x ∈ accts.map (·.fullName)
      · rw [if_pos hx]
        obtain ⟨a, hax, rfl⟩ := List.mem_map.mp hx
        rw [getAcct_of_mem accts hn a hax]
        rcases hmade a hax with hb' | hb'
        · exact absurd (List.mem_map.mpr ⟨a, hb', rfl⟩) hbx
        · rw [← hb']; rfl
      · rw [if_neg hx]
        have : getAcct accts x = none := by
          unfold getAcct
          rw [List.find?_eq_none]
          intro a ha
          have : a.fullName ≠ x := fun h0 => hx (List.mem_map.mpr ⟨a, ha, h0⟩)
          simpa using this
        rw [this]; rfl
  rw [key h, key h']
  simp only [hm]

theorem resolved_names_perm {dflt : Str} {decls accts accts' : List Acct} {L L' : Links} (h : ResolvedAccounts dflt decls accts L)
    (h' : ResolvedAccounts dflt decls accts' L') : (accts.map (·.fullName)).Perm (accts'.map (·.fullName)) := by
  rw [List.perm_ext_iff_of_nodup (resolved_spec _ _ _ _ h).1 (resolved_spec _ _ _ _ h').1]
  intro y
  rw [(C21_exactly_missing_ancestors _ _ _ _ h).2, (C21_exactly_missing_ancestors _ _ _ _ h').2]

/-- Names as the parser accepts them, none of them below an account called `Root`. -/
def PlainNames (names : List Str) : Prop := ∀ a ∈ names, (∀ x, a ≠ ':' :: x) ∧ ¬ ProperAncestorName (str "Root") a

/-- With plain names a child is known by its parent and its own name. -/
theorem child_name {names : List Str} (hp : PlainNames names) {a b : Str} (ha : a ∈ names) (hb : b ∈ names) (hpar : parentOf a = parentOf b)
    (hn : (parentAndName a).2 = (parentAndName b).2) : a = b := by
  have shape : ∀ a ∈ names, a = (parentAndName a).2 ∧ (parentAndName a).1 = [] ∨
      (a = (parentAndName a).1 ++ ':' :: (parentAndName a).2 ∧ (parentAndName a).1 ≠ [] ∧ (parentAndName a).1 ≠ rootName) := by
    intro a ha
    by_cases hc : ':' ∈ a
    · obtain ⟨p, x, e, hx⟩ := exists_lastSplit ':' a hc
      have e' := parentAndName_some p x hx
      rw [← e] at e'
      right
      rw [e']
      refine ⟨e, ?_, ?_⟩
      · rintro rfl; exact (hp a ha).1 x e
      · rintro rfl; exact (hp a ha).2 ⟨by decide, x, e⟩
    · left
      rw [parentAndName_none a hc]
      exact ⟨rfl, rfl⟩
  unfold parentOf at hpar
  rcases shape a ha with ⟨e1, e2⟩ | ⟨e1, e2, e3⟩ <;> rcases shape b hb with ⟨f1, f2⟩ | ⟨f1, f2, f3⟩
  · rw [e1, f1, hn]
  · rw [if_pos e2, if_neg f2] at hpar; exact absurd hpar.symm f3
  · rw [if_neg e2, if_pos f2] at hpar; exact absurd hpar e3
  · rw [if_neg e2, if_neg f2] at hpar
    rw [e1, f1, hn, hpar]

/-- The tree does not depend on the orders in which maps are visited. -/
theorem resolved_links {dflt : Str} {decls accts accts' : List Acct} {L L' : Links} (h : ResolvedAccounts dflt decls accts L)
    (h' : ResolvedAccounts dflt decls accts' L') (hp : PlainNames (accts.map (·.fullName))) : L = L' := by
  obtain ⟨n1, p1, c1, _, _⟩ := resolved_spec _ _ _ _ h
  obtain ⟨n2, p2, c2, _, _⟩ := resolved_spec _ _ _ _ h'
  have hperm := resolved_names_perm h h'
  have e1 : L.parent = L'.parent := by
    funext a
    rw [p1, p2]
    simp only [hperm.mem_iff]
  have e2 : L.children = L'.children := by
    funext p
    obtain ⟨o1, ho1, hc1⟩ := c1 p
    obtain ⟨o2, ho2, hc2⟩ := c2 p
    have hs : (L.children p).Pairwise (fun a b => strLt (parentAndName b).2 (parentAndName a).2 = false) := by
      obtain ⟨_, _, _, _, _, _, _, _, _, hs⟩ := h; exact (hs p).2
    have hs' : (L'.children p).Pairwise (fun a b => strLt (parentAndName b).2 (parentAndName a).2 = false) := by
      obtain ⟨_, _, _, _, _, _, _, _, _, hs⟩ := h'; exact (hs p).2
    refine List.Perm.eq_of_pairwise ?_ hs hs' (hc1.trans (((ho1.trans hperm).trans ho2.symm).filter _ |>.trans hc2.symm))
    intro a b ha hb hab hba
    have ha := (resolved_children _ _ _ _ h p a).mp ha
    have hb := (resolved_children _ _ _ _ h' p b).mp hb
    exact child_name hp ha.1 (hperm.mem_iff.mpr hb.1) (ha.2.2.trans hb.2.2.symm) (strLt_total _ _ hba hab)
  obtain ⟨a, b⟩ := L
  obtain ⟨a', b'⟩ := L'
  simp only at e1 e2
  rw [e1, e2]

/-! ## Resolving transactions -/

section
variable {n n' : List Str} {c : Str → Com} {f : Str → Except Fault Str} {v : Com → Amount → Except Fault Amount}

theorem assign_names (h : Heap) (l : List PRef) (b : Books) : assignAccounts ⟨n, c, f, v⟩ h b l = assignAccounts ⟨n', c, f, v⟩ h b l := by
  induction l generalizing b with
  | nil => rfl
  | cons p ps ih => simp only [assignAccounts, ih]

theorem total_names (h : Heap) (l : List PRef) (t : Amount) (e : Option PRef) : totalLoop ⟨n, c, f, v⟩ h t e l = totalLoop ⟨n', c, f, v⟩ h t e l := by
  induction l generalizing t e with
  | nil => rfl
  | cons p ps ih => simp only [totalLoop, ih]

theorem resolveTxn_names (st : LState) (t : Txn) : resolveTxn ⟨n, c, f, v⟩ st t = resolveTxn ⟨n', c, f, v⟩ st t := by
  unfold resolveTxn
  rw [assign_names (n' := n')]
  simp only [total_names (n := n) (n' := n')]

theorem resolveTxns_names (ts : List Txn) (st : LState) : resolveTxns ⟨n, c, f, v⟩ st ts = resolveTxns ⟨n', c, f, v⟩ st ts := by
  induction ts generalizing st with
  | nil => rfl
  | cons t ts ih => simp only [resolveTxns, ih, resolveTxn_names (n := n) (n' := n')]

theorem ownTotals_names (compile : Compile) (w : View) (fl : Filters) (l : List Str) (m : AmtMap) :
    ownTotals ⟨n, c, f, v⟩ compile w fl m l = ownTotals ⟨n', c, f, v⟩ compile w fl m l := by
  induction l generalizing m with
  | nil => rfl
  | cons a l ih => simp only [ownTotals, ih]

theorem addUp_names (par : Str → Option Str) (l : List Str) (m : AmtMap) : addUp ⟨n, c, f, v⟩ par m l = addUp ⟨n', c, f, v⟩ par m l := by
  induction l generalizing m with
  | nil => rfl
  | cons a l ih => simp only [addUp, ih]

end

/-! ## What the commands see -/

theorem depth_stable {names : List Str} {L : Links} (t : TreeOK names L) (k k' : Nat) (a : Str) (ha : a ∈ names) (hk : rank a < k) (hk' : rank a < k') :
    depth L.parent k a = depth L.parent k' a := by
  induction k generalizing k' a with
  | zero => omega
  | succ k ih =>
    cases k' with
    | zero => omega
    | succ k' =>
      rw [depth, depth, t.parent]
      by_cases h : a ∈ names ∧ a ≠ rootName
      · rw [if_pos h]
        simp only
        have := rank_lt_of_anc (ancName_parentOf a h.2)
        rw [ih k' (parentOf a) (t.closed a ha) (by omega) (by omega)]
      · rw [if_neg h]

theorem balanceRows_fuel {names : List Str} {L : Links} (t : TreeOK names L) (k k' : Nat) (level : Int) (zero : Bool) (totals cum : AmtMap) (l : List Str)
    (hl : ∀ a ∈ l, a ∈ names) (hk : treeFuel names ≤ k) (hk' : treeFuel names ≤ k') :
    balanceRows L.parent k level zero totals cum l = balanceRows L.parent k' level zero totals cum l := by
  induction l with
  | nil => rfl
  | cons a l ih =>
    have h1 := rank_le (hl a (by simp))
    unfold treeFuel at hk hk'
    rw [balanceRows, balanceRows, ih (fun b hb => hl b (by simp [hb])), depth_stable t k k' a (hl a (by simp)) (by omega) (by omega)]

/-- Two views of a ledger that no report tells apart; the lists of names may be in different orders, and the bounds of the recursion over
the tree may differ. -/
structure SameView (names : List Str) (g g' : LedgerView) : Prop where
  comOf : g'.env.comOf = g.env.comOf
  find : g'.env.find = g.env.find
  conv : g'.env.conv = g.env.conv
  compile : g'.compile = g.compile
  view : g'.view = g.view
  print : g'.print = g.print
  siblings : g'.siblings = g.siblings
  tagKey : g'.tagKey = g.tagKey
  links : g'.links = g.links
  matcher : g'.matcher = g.matcher
  order : g'.order = g.order
  known : g.names = names
  perm : g.names.Perm g'.names
  nodup : names.Nodup
  root : rootName ∈ names
  tree : TreeOK names g.links
  fuel : treeFuel names ≤ g.fuel
  fuel' : treeFuel names ≤ g'.fuel

theorem SameView.found {names : List Str} {g g' : LedgerView} (h : SameView names g g') (a : Str) : g'.find a = g.find a := by
  unfold LedgerView.find
  rw [h.matcher, mustFind_perm h.perm]

theorem SameView.env {names : List Str} {g g' : LedgerView} (h : SameView names g g') :
    ∃ n n' c f v, g.env = ⟨n, c, f, v⟩ ∧ g'.env = ⟨n', c, f, v⟩ := by
  refine ⟨g.env.names, g'.env.names, g.env.comOf, g.env.find, g.env.conv, rfl, ?_⟩
  have h1 := h.comOf
  have h2 := h.find
  have h3 := h.conv
  rw [← h1, ← h2, ← h3]

theorem SameView.balance {names : List Str} {g g' : LedgerView} (h : SameView names g g') (f : Filters) (level : Int) (zero : Bool) {a : Str} (ha : a ∈ names) :
    balanceOut g'.env g'.compile g'.view g'.links g'.fuel f level zero a = balanceOut g.env g.compile g.view g.links g.fuel f level zero a := by
  obtain ⟨n, n', c, fd, v, e, e'⟩ := h.env
  unfold balanceOut
  rw [h.compile, h.view, h.links, e, e']
  simp only [h.tree.walk_fuel _ h.fuel a ha, h.tree.walk_fuel _ h.fuel' a ha, h.tree.walkPost_fuel _ h.fuel a ha, h.tree.walkPost_fuel _ h.fuel' a ha,
    ownTotals_names (n := n') (n' := n), addUp_names (n := n') (n' := n)]
  have hr : ∀ totals cum, balanceRows g.links.parent g'.fuel level zero totals cum (walkOf names g.links a) =
      balanceRows g.links.parent g.fuel level zero totals cum (walkOf names g.links a) := fun totals cum =>
    balanceRows_fuel h.tree _ _ _ _ _ _ _ (fun b hb => ((h.tree.mem_walk a ha b).mp hb).1) h.fuel' h.fuel
  simp only [hr]

theorem SameView.full {names : List Str} {g g' : LedgerView} (h : SameView names g g') (fe : FlagEnv) (l : List (Str × Str)) {a : Str} (ha : a ∈ names) :
    fullMain fe g' l a = fullMain fe g l a := by
  obtain ⟨n, n', c, fd, v, e, e'⟩ := h.env
  unfold fullMain fullRegister
  rw [h.compile, h.view, h.links, h.siblings, h.print, e, e', h.tree.walk_fuel _ h.fuel a ha, h.tree.walk_fuel _ h.fuel' a ha]

theorem SameView.aggregated {names : List Str} {g g' : LedgerView} (h : SameView names g g') (fe : FlagEnv) (l : List (Str × Str)) {a : Str} (ha : a ∈ names) :
    aggregatedMain fe g' l a = aggregatedMain fe g l a := by
  obtain ⟨n, n', c, fd, v, e, e'⟩ := h.env
  unfold aggregatedMain aggTotals aggColumns categoryOf
  rw [h.compile, h.view, h.links, h.tagKey, h.order, e, e']
  simp only [h.tree.walk_fuel _ h.fuel a ha, h.tree.walk_fuel _ h.fuel' a ha, h.tree.walkPost_fuel _ h.fuel a ha, h.tree.walkPost_fuel _ h.fuel' a ha]

/-- No report tells the two apart. -/
theorem SameView.main {names : List Str} {g g' : LedgerView} (h : SameView names g g') (fe : FlagEnv) (argv : List Str) : coinMain fe g' argv = coinMain fe g argv := by
  have hfind : ∀ a r, g.find a = .ok r → r ∈ names := by
    intro a r hr
    have hr : mustFindAccount g.names (g.matcher a) a = .ok r := hr
    rw [h.known] at hr
    exact mustFind_mem h.nodup hr
  unfold coinMain
  cases dispatch fe argv with
  | error e => rfl
  | ok r =>
    obtain ⟨cmd, l, args⟩ := r
    show (match cmd with | .balance => _ | .register => _ | _ => _) = (match cmd with | .balance => _ | .register => _ | _ => _)
    cases cmd <;> try rfl
    · show (balanceMain fe g' l args).bind _ = (balanceMain fe g l args).bind _
      congr 1
      unfold balanceMain
      have ha : g'.account args = g.account args := by
        cases args with
        | nil => rfl
        | cons a rest => exact h.found a
      rw [ha]
      cases hacc : g.account args with
      | error e => rfl
      | ok acc =>
        have hm : acc ∈ names := by
          cases args with
          | nil => cases hacc; exact h.root
          | cons a rest => exact hfind a acc hacc
        exact h.balance _ _ _ hm
    · show registerMain fe g' l args = registerMain fe g l args
      unfold registerMain
      cases args with
      | nil => rfl
      | cons a rest =>
        simp only
        rw [h.found]
        cases hacc : g.find a with
        | error e => rfl
        | ok acc =>
          have hm := hfind a acc hacc
          have hc : categoryOf g' l = categoryOf g l := by unfold categoryOf; rw [h.view, h.tagKey]
          have hh : registerHead g' l acc = registerHead g l acc := by unfold registerHead; rw [h.comOf]
          show (if boolFlag l (str "bp") && boolFlag l (str "bt") then _ else Except.bind _ _) = _
          simp only [Except.bind, hc, hh, h.full fe l hm, h.aggregated fe l hm]

/-! ## Two runs -/

/-- The files give the same ledger, whatever orders maps are visited in, if amounts are converted alike. -/
theorem opened_same {P : Install} {compile : Compile} {st st' : LoadState} {accts accts' : List Acct} {g g' : LedgerView}
    (hO : Opened P compile st accts g) (hO' : Opened P compile st' accts' g') (hp : PlainNames (accts.map (·.fullName)))
    (hconv : g'.env.conv = g.env.conv) (hloc : g'.print.location = g.print.location) (hord : g'.order = g.order) :
    SameView (accts.map (·.fullName)) g g' := by
  obtain ⟨hl, items, db, ord, fuel, L, walk, fin, sorted, bound, location, order, _, _, _, _, hA, hsome, hwalk, hres, hbound, rfl⟩ := hO
  obtain ⟨hl', items', db', ord', fuel', L', walk', fin', sorted', bound', location', order', _, _, _, _, hA', hsome', hwalk', hres', hbound', rfl⟩ := hO'
  have e := Except.ok.inj (hl.symm.trans hl')
  subst e
  have hperm := resolved_names_perm hA hA'
  obtain ⟨hn, _, _, _, hroot⟩ := resolved_spec _ _ _ _ hA
  have hn' := (resolved_spec _ _ _ _ hA').1
  have hw : walk.Nodup := hwalk.nodup_iff.mpr hn
  have hw' : walk'.Nodup := hwalk'.nodup_iff.mpr hn'
  have hL := resolved_links hA hA' hp
  subst hL
  have hcom : st.comOf accts' = st.comOf accts := by
    funext a
    unfold LoadState.comOf
    rw [resolved_getAcct hA hA' a]
  have hfind : (Env.ofAccounts accts' (st.comOf accts') patternMatches (convWith db' ord' fuel')).find =
      (Env.ofAccounts accts (st.comOf accts) patternMatches (convWith db ord fuel)).find := by
    funext x
    exact (mustFind_perm hperm _ _).symm
  have hcv : convWith db' ord' fuel' = convWith db ord fuel := hconv
  obtain ⟨s, h1, h2, _⟩ := load_parts hres
  obtain ⟨s', h1', h2', _⟩ := load_parts hres'
  have hs : s' = s := by
    have : (Env.ofAccounts accts' (st.comOf accts') patternMatches (convWith db' ord' fuel')) =
        ⟨accts'.map (·.fullName), st.comOf accts, (Env.ofAccounts accts (st.comOf accts) patternMatches (convWith db ord fuel)).find, convWith db ord fuel⟩ := by
      rw [← hfind, ← hcom, ← hcv]; rfl
    rw [this, resolveTxns_names (n' := accts.map (·.fullName))] at h1'
    exact Except.ok.inj (h1'.symm.trans h1)
  subst hs
  have hpz := heapOf_parsed st.txns
  obtain ⟨a1, a2, a3, a4, _⟩ := phase2 hpz hw h1 h2
  obtain ⟨b1, b2, b3, b4, _⟩ := phase2 hpz hw' h1' h2'
  have hq : ∀ p, (fin'.heap p).quantity = (fin.heap p).quantity := fun p => (b4 p).trans (a4 p).symm
  have hst : ∀ p, (fin'.heap p).posted = (fin.heap p).posted ∧ (fin'.heap p).notes = (fin.heap p).notes ∧ (fin'.heap p).asserted = (fin.heap p).asserted := by
    intro p
    obtain ⟨x1, x2, x3, x4⟩ := a3 p
    obtain ⟨y1, y2, y3, y4⟩ := b3 p
    exact ⟨y1.trans x1.symm, y4.trans x4.symm, y3.trans x3.symm⟩
  have t := TreeOK.of hA
  refine ⟨hcom, hfind, hcv, rfl, ?_, ?_, rfl, ?_, rfl, rfl, hord, rfl, hperm, hn, hroot, t, ?_, ?_⟩
  · unfold ledgerView viewOf
    dsimp only
    rw [a1, b1]
    simp only [hq, (hst _).1, (hst _).2.1]
  · have hloc : location' = location := hloc
    show PrintView.mk _ _ _ _ _ = PrintView.mk _ _ _ _ _
    rw [a2, b2, hloc]
    simp only [(hst _).2.1, (hst _).2.2]
  · unfold ledgerView
    simp only [(hst _).2.1]
  · exact treeFuel_le ⟨_, hroot⟩ (by intro x hx; obtain ⟨a, ha, rfl⟩ := List.mem_map.mp hx; exact hbound a ha)
  · refine treeFuel_le ⟨_, hroot⟩ ?_
    intro x hx
    obtain ⟨a, ha, rfl⟩ := List.mem_map.mp (hperm.mem_iff.mp hx)
    exact hbound' a ha

/-! ## Conversion -/

/-- The prices of the files. -/
def LoadState.prices (st : LoadState) : List PPrice := st.items.filterMap itemPrice

/-- Every commodity is priced in one currency only, and on no day twice with different values. -/
def OneRate (st : LoadState) : Prop :=
  ∀ p ∈ st.prices, ∀ q ∈ st.prices, p.commodityId = q.commodityId → p.currencyId = q.currencyId ∧ (p.time = q.time → p.value = q.value)

theorem price_item {st : LoadState} {p : PPrice} {i : PriceItem} (h : st.price p = .ok i) :
    st.lookup p.commodityId = some i.commodity ∧ st.lookup p.currencyId = some i.currency ∧ i.price = ⟨p.value, p.time⟩ := by
  unfold LoadState.price at h
  split at h
  · next a b h1 h2 => cases h; exact ⟨h1, h2, rfl⟩
  · cases h

/-- What is known of the prices of one commodity. -/
theorem oneRate_items {st : LoadState} (hr : OneRate st) {items : List PriceItem} (hi : st.prices.mapM st.price = .ok items) :
    ∀ i ∈ items, ∀ j ∈ items, i.commodity = j.commodity → i.currency = j.currency ∧ (i.price.time = j.price.time → i.price = j.price) := by
  intro i hi' j hj' hc
  obtain ⟨p, hp, h1⟩ := forall2_mem_right ((mapM_ok _ _ _).mp hi) i hi'
  obtain ⟨q, hq, h2⟩ := forall2_mem_right ((mapM_ok _ _ _).mp hi) j hj'
  obtain ⟨a1, a2, a3⟩ := price_item h1
  obtain ⟨b1, b2, b3⟩ := price_item h2
  have hid : p.commodityId = q.commodityId := by
    rw [← lookup_byId st _ _ a1, ← lookup_byId st _ _ b1, hc]
  obtain ⟨e1, e2⟩ := hr p hp q hq hid
  rw [e1, b2] at a2
  refine ⟨(Option.some.inj a2).symm, ?_⟩
  rw [a3, b3]
  intro ht
  simp only at ht
  rw [ht, e2 ht]

theorem addPrice_single (items : List PriceItem) (cur : Com) (h : ∀ i ∈ items, i.currency = cur) (ps : List Price) :
    items.foldl (fun m i => addPrice m i.currency i.price) [(cur, ps)] = [(cur, ps ++ items.map (·.price))] := by
  induction items generalizing ps with
  | nil => simp
  | cons i items ih =>
    rw [List.foldl_cons, h i (by simp)]
    have : addPrice [(cur, ps)] cur i.price = [(cur, ps ++ [i.price])] := by simp [addPrice]
    rw [this, ih (fun j hj => h j (by simp [hj]))]
    simp

theorem loadPrices_single {items : List PriceItem} (h : ∀ i ∈ items, ∀ j ∈ items, i.commodity = j.commodity → i.currency = j.currency) (c : Com) :
    loadPrices items c = [] ∨ ∃ cur, loadPrices items c = [(cur, (items.filter fun i => decide (i.commodity = c)).map (·.price))] := by
  unfold loadPrices
  have hf : ∀ i ∈ items.filter (fun i => decide (i.commodity = c)), i ∈ items ∧ i.commodity = c := by
    intro i hi
    obtain ⟨h1, h2⟩ := List.mem_filter.mp hi
    exact ⟨h1, by simpa using h2⟩
  cases hl : items.filter (fun i => decide (i.commodity = c)) with
  | nil => exact .inl rfl
  | cons i rest =>
    right
    rw [hl] at hf
    refine ⟨i.currency, ?_⟩
    rw [List.foldl_cons]
    have : addPrice [] i.currency i.price = [(i.currency, [i.price])] := rfl
    rw [this, addPrice_single rest i.currency]
    · simp
    · intro j hj
      have h1 := hf i (by simp)
      have h2 := hf j (by simp [hj])
      exact h j h2.1 i h1.1 (h2.2.trans h1.2.symm)

/-- With one rate for every commodity the sorted prices are determined, and there is one entry at most to choose from. -/
theorem oneRate_db {items : List PriceItem} (h : ∀ i ∈ items, ∀ j ∈ items, i.commodity = j.commodity → i.currency = j.currency ∧ (i.price.time = j.price.time → i.price = j.price))
    {db db' : PriceDB} (hd : IsResolved items db) (hd' : IsResolved items db') (c : Com) : db c = db' c ∧ (db c).length ≤ 1 := by
  have h1 := hd c
  have h2 := hd' c
  rcases loadPrices_single (fun i hi j hj hc => (h i hi j hj hc).1) c with e | ⟨cur, e⟩
  · rw [e] at h1 h2
    rw [List.forall₂_nil_left_iff.mp h1, List.forall₂_nil_left_iff.mp h2]
    exact ⟨rfl, by simp⟩
  · rw [e] at h1 h2
    obtain ⟨x, l1, hx, hl1, e1⟩ := List.forall₂_cons_left_iff.mp h1
    obtain ⟨y, l2, hy, hl2, e2⟩ := List.forall₂_cons_left_iff.mp h2
    rw [List.forall₂_nil_left_iff.mp hl1] at e1
    rw [List.forall₂_nil_left_iff.mp hl2] at e2
    have hxy : x = y := by
      refine Prod.ext (hx.1.trans hy.1.symm) ?_
      refine List.Perm.eq_of_pairwise ?_ hx.2.2 hy.2.2 (hx.2.1.trans hy.2.1.symm)
      intro p q hp hq h3 h4
      have hp := hx.2.1.mem_iff.mp hp
      have hq := hy.2.1.mem_iff.mp hq
      obtain ⟨i, hi, rfl⟩ := List.mem_map.mp hp
      obtain ⟨j, hj, rfl⟩ := List.mem_map.mp hq
      obtain ⟨hi, hi'⟩ := List.mem_filter.mp hi
      obtain ⟨hj, hj'⟩ := List.mem_filter.mp hj
      have hi' : i.commodity = c := by simpa using hi'
      have hj' : j.commodity = c := by simpa using hj'
      exact (h i hi j hj (hi'.trans hj'.symm)).2 (Int.le_antisymm h4 h3)
    rw [e1, e2, hxy]
    exact ⟨rfl, by simp⟩

/-- Where no commodity has a choice of currencies the order in which maps are visited does not matter, nor does the fuel. -/
theorem conv_one {db db' : PriceDB} (h : ∀ c, db c = db' c ∧ (db c).length ≤ 1) {ord ord' : MapOrder} (ho : ord.Valid db) (ho' : ord'.Valid db') {fuel fuel' : Nat}
    (hf : ∀ c (x : Amount), (convert db ord c x x.com fuel).isSome = true) (hf' : ∀ c (x : Amount), (convert db' ord' c x x.com fuel').isSome = true) :
    convWith db' ord' fuel' = convWith db ord fuel := by
  have e : db' = db := funext fun c => (h c).1.symm
  subst e
  have eo : ∀ {o : MapOrder}, o.Valid db' → o = fun _ => db' := by
    intro o hv
    funext prev c
    have h1 := hv prev c
    have h2 := (h c).2
    cases hc : db' c with
    | nil => rw [hc] at h1; exact List.perm_nil.mp h1
    | cons a l =>
      rw [hc] at h1 h2
      cases l with
      | nil => exact List.perm_singleton.mp h1
      | cons b l => simp at h2
  rw [eo ho] at hf ⊢
  rw [eo ho'] at hf' ⊢
  funext c x
  unfold convWith
  obtain ⟨r, hr⟩ := Option.isSome_iff_exists.mp (hf c x)
  obtain ⟨r', hr'⟩ := Option.isSome_iff_exists.mp (hf' c x)
  rw [hr, hr']
  have h1 : convertF db' (fun _ => db') c (max fuel fuel') x x.com [] = some r := convertF_mono' _ _ _ _ _ (Nat.le_max_left _ _) _ _ _ _ hr
  have h2 : convertF db' (fun _ => db') c (max fuel fuel') x x.com [] = some r' := convertF_mono' _ _ _ _ _ (Nat.le_max_right _ _) _ _ _ _ hr'
  rw [Option.some.inj (h1.symm.trans h2)]

/-- C175: the same files and the same command give the same report, whatever order Go visits its maps in and however
`sort.Slice` orders equal elements: two loads of one ledger print the same balance and register. -/
def C175_Statement : Prop :=
  ∀ (P : Install) (compile : Compile) (st st' : LoadState) (accts accts' : List Acct) (g g' : LedgerView) (fe : FlagEnv) (argv : List Str),
    Opened P compile st accts g → Opened P compile st' accts' g' → PlainNames (accts.map (·.fullName)) →
    g'.print.location = g.print.location → g'.order = g.order → coinMain fe g' argv = coinMain fe g argv

/-- C175, the part that holds: where every commodity is priced in one currency only. -/
theorem C175_reproducible_partial (P : Install) (compile : Compile) (st st' : LoadState) (accts accts' : List Acct) (g g' : LedgerView) (fe : FlagEnv) (argv : List Str)
    (hO : Opened P compile st accts g) (hO' : Opened P compile st' accts' g') (hp : PlainNames (accts.map (·.fullName))) (hr : OneRate st)
    (hloc : g'.print.location = g.print.location) (hord : g'.order = g.order) : coinMain fe g' argv = coinMain fe g argv := by
  refine (opened_same hO hO' hp ?_ hloc hord).main fe argv
  obtain ⟨hl, items, db, ord, fuel, L, walk, fin, sorted, bound, location, order, hi, hd, ho, hf, hA, hsome, hwalk, hres, hbound, rfl⟩ := hO
  obtain ⟨hl', items', db', ord', fuel', L', walk', fin', sorted', bound', location', order', hi', hd', ho', hf', hA', hsome', hwalk', hres', hbound', rfl⟩ := hO'
  have e := Except.ok.inj (hl.symm.trans hl')
  subst e
  have e := Except.ok.inj (hi.symm.trans hi')
  subst e
  show convWith db' ord' fuel' = convWith db ord fuel
  exact conv_one (oneRate_db (oneRate_items hr hi) hd hd') ho ho' hf hf'

/-! ### Two ways to a price -/

/-- A share priced in two currencies, both of which are priced in the third. -/
def dmDir : List (Str × Str) :=
  [(str "commodities.coin", str "commodity CAD\n  format 1.00 CAD\ncommodity AAA\n  format 1.00 AAA\ncommodity BBB\n  format 1.00 BBB\ncommodity CCC\n  format 1.00 CCC\n"),
   (str "prices.coin", str "P 2020/01/01 AAA 1.00 BBB\nP 2020/01/01 AAA 1.00 CCC\nP 2020/01/01 BBB 2.00 CAD\nP 2020/01/01 CCC 3.00 CAD\n"),
   (str "accounts.coin", str "account Assets\naccount Assets:Shares\n  commodity AAA\n"),
   (str "transactions.coin", str "2020/01/05 Buy\n  Shares  1.00 AAA\n  Unbalanced  -2.00 CAD\n")]

def dmInstall : Install := ⟨dirDisk dmDir, ⟨2020, 1, 1⟩, 5, ledgerNames⟩
def dmA : Com := ⟨1, str "AAA", 2⟩
def dmB : Com := ⟨2, str "BBB", 2⟩
def dmC : Com := ⟨3, str "CCC", 2⟩
def dmTxns : List PTxn :=
  [⟨737428, [], str "Buy", [], [⟨str "Shares", some ⟨100, dmA⟩, none, []⟩, ⟨str "Unbalanced", some ⟨-200, progCad⟩, none, []⟩]⟩]
def dmState : LoadState := ⟨[dmC, dmB, dmA, progCad], str "CAD",
  [.commodity ⟨str "CAD", [], 2, false, []⟩, .commodity ⟨str "AAA", [], 2, false, []⟩, .commodity ⟨str "BBB", [], 2, false, []⟩, .commodity ⟨str "CCC", [], 2, false, []⟩,
   .price ⟨737424, str "AAA", str "BBB", ⟨100, dmB⟩⟩, .price ⟨737424, str "AAA", str "CCC", ⟨100, dmC⟩⟩,
   .price ⟨737424, str "BBB", str "CAD", ⟨200, progCad⟩⟩, .price ⟨737424, str "CCC", str "CAD", ⟨300, progCad⟩⟩,
   .account ⟨str "Assets", [], str "CAD", none, [], [], []⟩, .account ⟨str "Assets:Shares", [], str "AAA", none, [], [], []⟩] ++ dmTxns.map .transaction⟩
def dmItems : List PriceItem := [⟨dmA, dmB, ⟨⟨100, dmB⟩, 737424⟩⟩, ⟨dmA, dmC, ⟨⟨100, dmC⟩, 737424⟩⟩, ⟨dmB, progCad, ⟨⟨200, progCad⟩, 737424⟩⟩, ⟨dmC, progCad, ⟨⟨300, progCad⟩, 737424⟩⟩]
def dmDb : PriceDB := loadPrices dmItems
def dmAccts : List Acct := createParents (str "CAD") (baseAccounts (str "CAD") dmState.decls) (baseAccounts (str "CAD") dmState.decls)
def dmEnv (ord : MapOrder) : Env := Env.ofAccounts dmAccts (dmState.comOf dmAccts) patternMatches (convWith dmDb ord 9)

theorem dm_loads : loadAllS dmInstall.disk dmInstall.today dmInstall.limit dmInstall.files ⟨[], str "CAD", []⟩ = .ok dmState :=
  load_eq (by decide +kernel)

def dmLinks : Links :=
  match linkAll 0 (dmAccts.map (·.fullName)) Links.empty (dmAccts.map (·.fullName)) with
  | .ok L => ⟨L.parent, fun p => stableSort (fun a b => strLt (parentAndName a).2 (parentAndName b).2) (L.children p)⟩
  | .error _ => Links.empty

def dmView (ord : MapOrder) (compile : Compile) : LedgerView :=
  match resolveTransactions (dmEnv ord) (heapOf dmState.txns) (txnsFrom 0 dmState.txns) (dmAccts.map (·.fullName)) with
  | .ok (fin, _) => ledgerView (dmEnv ord) compile dmLinks fin (txnsFrom 0 dmState.txns) 100 (fun _ => []) id
  | .error _ => cmdLedger

theorem dm_db (c : Com) : dmDb c = if c = dmA then [(dmB, [⟨⟨100, dmB⟩, 737424⟩]), (dmC, [⟨⟨100, dmC⟩, 737424⟩])] else
    if c = dmB then [(progCad, [⟨⟨200, progCad⟩, 737424⟩])] else if c = dmC then [(progCad, [⟨⟨300, progCad⟩, 737424⟩])] else [] := by
  by_cases h1 : c = dmA
  · subst h1; rfl
  · by_cases h2 : c = dmB
    · subst h2; rfl
    · by_cases h3 : c = dmC
      · subst h3; rfl
      · rw [if_neg h1, if_neg h2, if_neg h3]
        unfold dmDb loadPrices dmItems
        rw [List.filter_cons_of_neg (by simpa using fun h' => h1 h'.symm), List.filter_cons_of_neg (by simpa using fun h' => h1 h'.symm),
          List.filter_cons_of_neg (by simpa using fun h' => h2 h'.symm), List.filter_cons_of_neg (by simpa using fun h' => h3 h'.symm)]
        rfl

theorem dm_opens (ord : MapOrder) (ho : ord.Valid dmDb) (compile : Compile)
    (hr : (resolveTransactions (dmEnv ord) (heapOf dmState.txns) (txnsFrom 0 dmState.txns) (dmAccts.map (·.fullName))).isOk = true) :
    Opened dmInstall compile dmState dmAccts (dmView ord compile) := by
  obtain ⟨L0, h0⟩ := C20_linking_succeeds (str "CAD") dmState.decls (baseAccounts (str "CAD") dmState.decls) _ 0 (List.Perm.refl _) (List.Perm.refl _)
  obtain ⟨⟨fin, sorted⟩, hr⟩ : ∃ r, resolveTransactions (dmEnv ord) (heapOf dmState.txns) (txnsFrom 0 dmState.txns) (dmAccts.map (·.fullName)) = .ok r := by
    cases hx : resolveTransactions (dmEnv ord) (heapOf dmState.txns) (txnsFrom 0 dmState.txns) (dmAccts.map (·.fullName)) with
    | error e => rw [hx] at hr; cases hr
    | ok r => exact ⟨r, rfl⟩
  have hA : ResolvedAccounts (str "CAD") dmState.decls dmAccts dmLinks := by
    refine ⟨_, _, 0, L0, List.Perm.refl _, rfl, List.Perm.refl _, h0, ?_⟩
    have : dmLinks = ⟨L0.parent, fun p => stableSort (fun a b => strLt (parentAndName a).2 (parentAndName b).2) (L0.children p)⟩ := by
      unfold dmLinks
      rw [show linkAll 0 (dmAccts.map (·.fullName)) Links.empty (dmAccts.map (·.fullName)) = .ok L0 from h0]
    rw [this]
    exact ⟨rfl, fun p => ⟨stableSort_perm _ _, stableSort_sorted _ (strLt_strictWeak.comap _) _⟩⟩
  refine ⟨dm_loads, dmItems, dmDb, ord, 9, dmLinks, _, fin, sorted, 100, fun _ => [], id, rfl, ?_, ho, ?_, hA, ?_, List.Perm.refl _, hr, ?_, ?_⟩
  · intro c
    show List.Forall₂ _ (dmDb c) (dmDb c)
    rw [dm_db]
    split
    · exact .cons ⟨rfl, .refl _, by simp⟩ (.cons ⟨rfl, .refl _, by simp⟩ .nil)
    · split
      · exact .cons ⟨rfl, .refl _, by simp⟩ .nil
      · split
        · exact .cons ⟨rfl, .refl _, by simp⟩ .nil
        · exact .nil
  · intro c x
    have hU : Closed [dmA, dmB, dmC, progCad] dmDb := by unfold Closed; decide +kernel
    by_cases hx : x.com ∈ [dmA, dmB, dmC, progCad]
    · obtain ⟨r, hr⟩ := C12_convert_terminates _ dmDb ord hU ho c x x.com hx
      rw [hr 9 (by decide)]
      rfl
    · have hn : dmDb x.com = [] := by
        rw [dm_db, if_neg (fun e => hx (by rw [e]; simp)), if_neg (fun e => hx (by rw [e]; simp)), if_neg (fun e => hx (by rw [e]; simp))]
      have ho' : ord [] x.com = [] := by
        have := ho [] x.com
        rw [hn] at this
        exact List.perm_nil.mp this
      unfold convert
      simp only [convertF, hn, ho', lookupPrices, List.find?_nil, Option.map_none, convertLoop]
      split <;> rfl
  · decide +kernel
  · decide +kernel
  · unfold dmView; rw [hr]; rfl

theorem dm_first : (coinMain cmdFlags (dmView (fun _ => dmDb) fun _ => none) [str "balance"]).toOption =
    some (str " 0.00 |  2.00 CAD | Assets\n 1.00 |  1.00 AAA | Assets:Shares\n-2.00 | -2.00 CAD | Unbalanced\n") := by decide +kernel

theorem dm_second : (coinMain cmdFlags (dmView (fun _ c => (dmDb c).reverse) fun _ => none) [str "balance"]).toOption =
    some (str " 0.00 |  1.00 CAD | Root\n 0.00 |  3.00 CAD | Assets\n 1.00 |  1.00 AAA | Assets:Shares\n-2.00 | -2.00 CAD | Unbalanced\n") := by decide +kernel

theorem dm_plain : PlainNames (dmAccts.map (·.fullName)) := by
  intro a ha
  have h : ∀ a ∈ dmAccts.map (·.fullName), a.head? ≠ some ':' ∧ a.take 5 ≠ str "Root:" := by decide +kernel
  obtain ⟨h1, h2⟩ := h a ha
  refine ⟨?_, ?_⟩
  · rintro x rfl
    exact h1 rfl
  · rintro ⟨_, x, rfl⟩
    exact h2 rfl

/-- C175 is false: prices over two currencies give two results, and which one is printed changes from run to run. -/
theorem C175_reproducible_violated : ¬ C175_Statement := by
  intro h
  have h := h dmInstall (fun _ => none) dmState dmState dmAccts dmAccts (dmView (fun _ => dmDb) fun _ => none) (dmView (fun _ c => (dmDb c).reverse) fun _ => none)
    cmdFlags [str "balance"] (dm_opens _ (fun _ _ => .refl _) _ (by decide +kernel)) (dm_opens _ (fun _ c => (dmDb c).reverse_perm) _ (by decide +kernel)) dm_plain
    (by
      have : ∀ ord : MapOrder, (resolveTransactions (dmEnv ord) (heapOf dmState.txns) (txnsFrom 0 dmState.txns) (dmAccts.map (·.fullName))).isOk = true →
          (dmView ord fun _ => none).print.location = fun _ => [] := by
        intro ord hr
        unfold dmView
        cases hx : resolveTransactions (dmEnv ord) (heapOf dmState.txns) (txnsFrom 0 dmState.txns) (dmAccts.map (·.fullName)) with
        | error e => rw [hx] at hr; cases hr
        | ok r => rfl
      rw [this _ (by decide +kernel), this _ (by decide +kernel)])
    (by
      have : ∀ ord : MapOrder, (resolveTransactions (dmEnv ord) (heapOf dmState.txns) (txnsFrom 0 dmState.txns) (dmAccts.map (·.fullName))).isOk = true →
          (dmView ord fun _ => none).order = id := by
        intro ord hr
        unfold dmView
        cases hx : resolveTransactions (dmEnv ord) (heapOf dmState.txns) (txnsFrom 0 dmState.txns) (dmAccts.map (·.fullName)) with
        | error e => rw [hx] at hr; cases hr
        | ok r => rfl
      rw [this _ (by decide +kernel), this _ (by decide +kernel)])
  have e := congrArg Except.toOption h
  rw [dm_first, dm_second] at e
  exact absurd e (by decide +kernel)

/-- Non-vacuity of C175: the ledger with one price, loaded in two ways. -/
theorem fx_plain : PlainNames (fxAccts.map (·.fullName)) := by
  intro a ha
  have h : ∀ a ∈ fxAccts.map (·.fullName), a.head? ≠ some ':' ∧ a.take 5 ≠ str "Root:" := by decide +kernel
  obtain ⟨h1, h2⟩ := h a ha
  refine ⟨?_, ?_⟩
  · rintro x rfl
    exact h1 rfl
  · rintro ⟨_, x, rfl⟩
    exact h2 rfl

example (st' : LoadState) (accts' : List Acct) (g' : LedgerView) (hO : Opened fxInstall (fun _ => none) st' accts' g')
    (hl : g'.print.location = (fxView fun _ => none).print.location) (ho : g'.order = (fxView fun _ => none).order) :
    (coinMain cmdFlags g' [str "balance"]).toOption = (coinMain cmdFlags (fxView fun _ => none) [str "balance"]).toOption := by
  rw [C175_reproducible_partial fxInstall (fun _ => none) fxState st' fxAccts accts' _ g' cmdFlags _ (fx_opens _) hO fx_plain (by unfold OneRate LoadState.prices; decide +kernel) hl ho]

end Verif
