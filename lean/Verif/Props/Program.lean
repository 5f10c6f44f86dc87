import Verif.Model.Program
import Verif.Props.CommandLine
import Verif.Props.Multi
import Verif.Props.Register
import Verif.Props.Load
import Verif.Props.FormatOwn
/-
C156: the balance command from the files to its output.
-/
namespace Verif

/-! ## Specification -/

/-- The smallest units a posting stands for: the amount written, or, if none is written, what makes the transaction balance. -/
def unitsOf (t : PTxn) (p : PPost) : Int :=
  match p.quantity with
  | some q => q.int
  | none => -((t.postings.filterMap (·.quantity)).map (·.int)).sum

/-- A posting of a transaction in the files passes the filters: dated in `[begin, end)`, the description matching `-p`, and its own tags or
those of the transaction matching `-t`. -/
def Picks (compile : Compile) (f : Filters) (t : PTxn) (p : PPost) : Prop :=
  (∀ b ∈ f.begin_, b ≤ t.posted) ∧ (∀ e ∈ f.end_, t.posted < e) ∧
  (f.payee ≠ [] → ∃ m, compile f.payee = some m ∧ m t.description = true) ∧
  (f.tag ≠ [] → TagSelects compile f.tag (parseTags p.notes) ∨ TagSelects compile f.tag (parseTags t.notes))

/-- The postings of the transactions. -/
def allPostings (ts : List PTxn) : List (PTxn × PPost) := ts.flatMap fun t => t.postings.map fun p => (t, p)

open Classical in
/-- The postings whose account name means the account `a` and that pass the filters. -/
noncomputable def booked (names : List Str) (compile : Compile) (f : Filters) (ts : List PTxn) (a : Str) : List (PTxn × PPost) :=
  (allPostings ts).filter fun e => decide (mustFindAccount names (patternMatches e.2.account) e.2.account = .ok a ∧ Picks compile f e.1 e.2)

/-- The own total of an account in smallest units. -/
noncomputable def ownUnits (names : List Str) (compile : Compile) (f : Filters) (ts : List PTxn) (a : Str) : Int :=
  ((booked names compile f ts a).map fun e => unitsOf e.1 e.2).sum

/-- The cumulative total: over the account and all accounts below it by name. -/
noncomputable def cumUnits (names : List Str) (compile : Compile) (f : Filters) (ts : List PTxn) (a : Str) : Int :=
  ((familyOf names a).map (ownUnits names compile f ts)).sum

/-- The lines of the balance report for `r` and the accounts below it. -/
structure BalanceReport (names : List Str) (c : Com) (compile : Compile) (f : Filters) (level : Int) (zero : Bool) (ts : List PTxn) (r : Str)
    (accs lines : List Str) : Prop where
  rows : ∀ a, a ∈ accs ↔ a ∈ names ∧ InSub r a ∧ (level = 0 ∨ ((splitOn ':' a).length : Int) ≤ level) ∧
    (zero = true ∨ cumUnits names compile f ts a ≠ 0)
  once : accs.Nodup
  order : accs.Pairwise (fun x y => ¬ AncName y x)
  text : ∃ w cw cur, List.Forall₂ (fun a line => BalanceRow (fun _ => c) w cw cur
    (a, some ⟨ownUnits names compile f ts a, c⟩, some ⟨cumUnits names compile f ts a, c⟩) line) accs lines

/-- A ledger of one commodity `c`: every account and every amount of a transaction is in `c`. -/
structure OneCom (st : LoadState) (accts : List Acct) (c : Com) : Prop where
  accounts : ∀ a ∈ accts, st.comFor a = some c
  amounts : ∀ t ∈ st.txns, ∀ p ∈ t.postings, ∀ q, p.quantity = some q → q.com = c

/-! ## The layout of the postings -/

/-- A transaction of the heap stands for a transaction read. -/
def Laid (heap : Heap) (t' : Txn) (t : PTxn) : Prop :=
  t'.posted = t.posted ∧ t'.description = t.description ∧ t'.notes = t.notes ∧
  List.Forall₂ (fun r p => heap r = dataOf t.posted p) t'.postings t.postings

theorem range'_laid (d0 : PData) (pre post : List PData) (f : PPost → PData) (ps : List PPost) :
    List.Forall₂ (fun (r : Nat) p => ((pre ++ ps.map f ++ post)[r]?).getD d0 = f p) (List.range' pre.length ps.length) ps := by
  induction ps generalizing pre with
  | nil => exact .nil
  | cons p ps ih =>
    rw [List.length_cons, List.range'_succ]
    refine .cons (by simp) ?_
    have := ih (pre ++ [f p])
    simpa using this

theorem txnsFrom_laid (pre : List PData) (ts : List PTxn) (heap : Heap)
    (hh : heap = fun p => ((pre ++ ts.flatMap (fun t => t.postings.map (dataOf t.posted)))[p]?).getD ⟨0, [], none, none, false, []⟩) :
    List.Forall₂ (Laid heap) (txnsFrom pre.length ts) ts := by
  induction ts generalizing pre with
  | nil => exact .nil
  | cons t ts ih =>
    unfold txnsFrom
    refine .cons ⟨rfl, rfl, rfl, ?_⟩ ?_
    · have := range'_laid ⟨0, [], none, none, false, []⟩ pre (ts.flatMap (fun t => t.postings.map (dataOf t.posted))) (dataOf t.posted) t.postings
      subst hh
      simpa using this
    · have := ih (pre ++ t.postings.map (dataOf t.posted)) (by rw [hh]; simp)
      simpa using this

theorem heapOf_laid (ts : List PTxn) : List.Forall₂ (Laid (heapOf ts)) (txnsFrom 0 ts) ts := txnsFrom_laid [] ts (heapOf ts) rfl

theorem txnsFrom_refs (n : Nat) (ts : List PTxn) :
    (txnsFrom n ts).flatMap (·.postings) = List.range' n ((ts.map (·.postings.length)).sum) := by
  induction ts generalizing n with
  | nil => rfl
  | cons t ts ih =>
    unfold txnsFrom
    rw [List.flatMap_cons, ih, List.map_cons, List.sum_cons]
    simp only
    rw [List.range'_append_1]

/-- What the parser delivers. -/
theorem heapOf_parsed (ts : List PTxn) : Parsed (heapOf ts) (txnsFrom 0 ts) := by
  refine ⟨?_, ?_, ?_⟩
  · rw [txnsFrom_refs]; exact List.nodup_range'
  · intro t' ht' r hr
    obtain ⟨t, _, h1, _, _, h2⟩ := forall2_mem_left (heapOf_laid ts) t' ht'
    obtain ⟨p, _, h3⟩ := forall2_mem_left h2 r hr
    rw [h3, h1]; rfl
  · intro r
    unfold heapOf
    cases h : (ts.flatMap (fun t => t.postings.map (dataOf t.posted)))[r]? with
    | none => rfl
    | some d =>
      have := List.mem_of_getElem? h
      rw [List.mem_flatMap] at this
      obtain ⟨t, _, hd⟩ := this
      obtain ⟨p, _, rfl⟩ := List.mem_map.mp hd
      rfl

/-- The posting `r` of the heap is the posting `e.2` of the transaction `e.1`. -/
def Stands (heap : Heap) (txns : List Txn) (r : PRef) (e : PTxn × PPost) : Prop :=
  heap r = dataOf e.1.posted e.2 ∧ ∃ t', t' ∈ txns ∧ r ∈ t'.postings ∧ Laid heap t' e.1

theorem forall2_flatMap {α β γ δ : Type} {R : α → β → Prop} {S : γ → δ → Prop} {f : α → List γ} {g : β → List δ} :
    ∀ {l : List α} {m : List β}, List.Forall₂ R l m → (∀ a ∈ l, ∀ b, R a b → List.Forall₂ S (f a) (g b)) → List.Forall₂ S (l.flatMap f) (m.flatMap g) := by
  intro l m h
  induction h with
  | nil => intro _; exact .nil
  | cons hab _ ih =>
    intro hfg
    rw [List.flatMap_cons, List.flatMap_cons]
    exact List.rel_append (hfg _ (by simp) _ hab) (ih fun a ha => hfg a (by simp [ha]))

theorem stands_all (ts : List PTxn) :
    List.Forall₂ (Stands (heapOf ts) (txnsFrom 0 ts)) ((txnsFrom 0 ts).flatMap (·.postings)) (allPostings ts) := by
  unfold allPostings
  refine forall2_flatMap (heapOf_laid ts) ?_
  intro t' ht' t hl
  rw [List.forall₂_map_right_iff]
  exact forall2_imp_mem hl.2.2.2 (fun r hr p hp => ⟨hp, t', ht', hr, hl⟩)

theorem forall2_filter {α β : Type} {R : α → β → Prop} {p : α → Bool} {q : β → Bool} : ∀ {l : List α} {m : List β}, List.Forall₂ R l m →
    (∀ a b, a ∈ l → R a b → p a = q b) → List.Forall₂ R (l.filter p) (m.filter q) := by
  intro l m h
  induction h with
  | nil => intro _; exact .nil
  | @cons a b l m hab _ ih =>
    intro hpq
    have := hpq a b (by simp) hab
    rw [List.filter_cons, List.filter_cons, this]
    split
    · exact .cons hab (ih fun a b ha => hpq a b (by simp [ha]))
    · exact ih fun a b ha => hpq a b (by simp [ha])

/-! ## Selected postings -/

theorem txnOf_unique {txns : List Txn} (hn : (txns.flatMap (·.postings)).Nodup) {t : Txn} {r : PRef} (ht : t ∈ txns) (hr : r ∈ t.postings) : txnOf txns r = some t := by
  induction txns with
  | nil => cases ht
  | cons u us ih =>
    rw [List.flatMap_cons, List.nodup_append] at hn
    unfold txnOf
    rw [List.find?_cons]
    rcases List.mem_cons.mp ht with rfl | ht
    · rw [decide_eq_true hr]
    · have : r ∉ u.postings := fun hu => hn.2.2 r hu r (List.mem_flatMap.mpr ⟨t, ht, hr⟩) rfl
      rw [decide_eq_false this]
      exact ih hn.2.1 ht

/-- What a loaded ledger shows of the postings read. -/
theorem loaded_stands {env : Env} {ts : List PTxn} {walk : List Str} {fin : Loaded} {sorted : List Txn} (hw : walk.Nodup)
    (h : resolveTransactions env (heapOf ts) (txnsFrom 0 ts) walk = .ok (fin, sorted)) (compile : Compile) (f : Filters) (a : Str) :
    ∃ rs, (selectedOf compile (viewOf (fun n => (parseTags n).toTags) fin (txnsFrom 0 ts)) f a).Perm rs ∧
      List.Forall₂ (Stands (heapOf ts) (txnsFrom 0 ts)) rs
        (by classical exact (allPostings ts).filter fun e => decide (env.find e.2.account = .ok a ∧ Picks compile f e.1 e.2)) := by
  classical
  have hp := heapOf_parsed ts
  obtain ⟨st, h1, h2, _⟩ := load_parts h
  obtain ⟨_, hb, hs1, _⟩ := phase1 hp h1
  obtain ⟨g1, _, g3, _⟩ := phase2 hp hw h1 h2
  set v := viewOf (fun n => (parseTags n).toTags) fin (txnsFrom 0 ts) with hvdef
  have hpost : v.postings a = st.books.postings a := by rw [hvdef]; unfold viewOf; simp only; rw [g1]
  refine ⟨((txnsFrom 0 ts).flatMap (·.postings)).filter (fun r => decide (accountOf env (heapOf ts) r = .ok a ∧ Selected compile v f r)), ?_, ?_⟩
  · apply (List.perm_ext_iff_of_nodup ?_ ?_).mpr
    · intro r
      unfold selectedOf
      rw [List.mem_filter, List.mem_filter, hpost, hb.mem]
      simp only [List.nil_append, decide_eq_true_eq]
      tauto
    · unfold selectedOf; rw [hpost]; exact (hb.nodup a).filter _
    · exact hp.nodup.filter _
  · refine forall2_filter (stands_all ts) ?_
    rintro r ⟨t, p⟩ hr ⟨e1, t', ht', hrt, hl⟩
    have htx := txnOf_unique hp.nodup ht' hrt
    have st1 : (fin.heap r).posted = t.posted := by rw [(g3 r).1, (hs1 r).1, e1]; rfl
    have st2 : (fin.heap r).notes = p.notes := by rw [(g3 r).2.2.2, (hs1 r).2.2.2, e1]; rfl
    rw [decide_eq_decide]
    unfold accountOf Selected Picks
    rw [e1]
    simp only [hvdef, viewOf, htx, Option.map_some, Option.getD_some, st1, st2, hl.2.1, hl.2.2.1]
    rw [toTags_getD, toTags_getD]; rfl

/-- The amount of a posting in a ledger of one commodity. -/
theorem loaded_units {env : Env} {ts : List PTxn} {walk : List Str} {fin : Loaded} {sorted : List Txn} (hw : walk.Nodup)
    (h : resolveTransactions env (heapOf ts) (txnsFrom 0 ts) walk = .ok (fin, sorted)) {c : Com} (hc : ∀ x a, env.find x = .ok a → env.comOf a = c)
    (hq : ∀ t ∈ ts, ∀ p ∈ t.postings, ∀ q, p.quantity = some q → q.com = c) {r : PRef} {e : PTxn × PPost} (he : e.1 ∈ ts)
    (hr : Stands (heapOf ts) (txnsFrom 0 ts) r e) : (fin.heap r).quantity = some ⟨unitsOf e.1 e.2, c⟩ := by
  obtain ⟨t, p⟩ := e
  obtain ⟨e1, t', ht', hrt, hl⟩ := hr
  have hp := heapOf_parsed ts
  have hq' : ∀ r ∈ t'.postings, ∀ q, ((heapOf ts) r).quantity = some q → q.com = c := by
    intro r hr q hrq
    obtain ⟨p, hpm, h3⟩ := forall2_mem_left hl.2.2.2 r hr
    rw [h3] at hrq
    exact hq t he p hpm q hrq
  have hsum : quantitiesOf (heapOf ts) t'.postings = t.postings.filterMap (·.quantity) := by
    have h3 := hl.2.2.2
    unfold quantitiesOf
    generalize t'.postings = rs at h3
    generalize t.postings = ps at h3
    induction h3 with
    | nil => rfl
    | cons hab _ ih => rw [List.filterMap_cons, List.filterMap_cons, ih, hab]; rfl
  have hsh : SharesCommodity env (heapOf ts) t' c := fun r _ a ha => hc _ a ha
  obtain ⟨k1, k2⟩ := C28_elided_amount env (heapOf ts) (txnsFrom 0 ts) walk fin sorted hp hw h
  have eq : ((heapOf ts) r).quantity = p.quantity := by rw [e1]; rfl
  cases hpq : p.quantity with
  | some q =>
    rw [hpq] at eq
    rw [k1 r q eq]
    simp only [unitsOf, hpq]
    rw [← hq' r hrt q eq]
  | none =>
    rw [hpq] at eq
    obtain ⟨q, g1, g2, g3⟩ := k2 t' ht' c hsh hq' r hrt eq
    rw [g1]
    simp only [unitsOf, hpq]
    rw [hsum] at g3
    unfold total at g3
    have : q.int = -((t.postings.filterMap (·.quantity)).map (·.int)).sum := by omega
    rw [← this, ← g2]

theorem mustFind_mem {names : List Str} {m : Str → Bool} {pattern a : Str} (hn : names.Nodup) (h : mustFindAccount names m pattern = .ok a) : a ∈ names := by
  obtain ⟨h1, h2⟩ := C24_find_partial names m pattern hn
  by_cases hp : pattern ∈ names
  · rw [h1 hp] at h
    injection h with h
    exact h ▸ hp
  · exact ((h2 hp).2.2 a h).1

theorem treeFuel_le {l : List Str} {bound : Nat} (hne : ∃ x, x ∈ l) (h : ∀ x ∈ l, x.length + 3 ≤ bound) : treeFuel l ≤ bound := by
  unfold treeFuel maxLen
  have : ∀ l : List Str, (∀ x ∈ l, x.length + 3 ≤ bound) → (∃ x, x ∈ l) → (l.map List.length).foldr max 0 + 3 ≤ bound := by
    intro l
    induction l with
    | nil => rintro _ ⟨x, hx⟩; cases hx
    | cons y l ih =>
      intro hb _
      rw [List.map_cons, List.foldr_cons]
      have hy := hb y (by simp)
      by_cases hl : l = []
      · subst hl; simpa using hy
      · obtain ⟨z, hz⟩ := List.exists_mem_of_ne_nil l hl
        have := ih (fun x hx => hb x (by simp [hx])) ⟨z, hz⟩
        omega
  exact this _ h hne

/-- A ledger of one commodity as the balance command sees it. -/
theorem opened_balance {P : Install} {compile : Compile} {st : LoadState} {accts : List Acct} {g : LedgerView} (hO : Opened P compile st accts g)
    {c : Com} (hc : OneCom st accts c) (f : Filters) :
    g.compile = compile ∧ g.names = accts.map (·.fullName) ∧ g.matcher = patternMatches ∧
    (∀ a ∈ accts.map (·.fullName), g.env.comOf a = c) ∧ (∀ a, g.env.comOf a = c ∨ g.env.comOf a = ⟨0, [], 0⟩) ∧
    ResolvedAccounts st.dflt st.decls accts g.links ∧ treeFuel (accts.map (·.fullName)) ≤ g.fuel ∧
    (∀ a ∈ accts.map (·.fullName), a.length + 3 ≤ g.fuel) ∧
    (∀ r, OneCommodity g.env g.view (accts.map (·.fullName)) r c) ∧
    ∀ a, total ((selectedOf compile g.view f a).map g.view.qty) = ownUnits (accts.map (·.fullName)) compile f st.txns a := by
  classical
  obtain ⟨hl, items, db, ord, fuel, L, walk, fin, sorted, bound, location, order, _, _, _, _, hA, hsome, hwalk, hres, hbound, rfl⟩ := hO
  obtain ⟨hn, _, _, _, hroot⟩ := resolved_spec _ _ _ _ hA
  have hw : walk.Nodup := hwalk.nodup_iff.mpr hn
  have hcomOf : ∀ a ∈ accts.map (·.fullName), st.comOf accts a = c := by
    intro a ha
    obtain ⟨x, hx, rfl⟩ := List.mem_map.mp ha
    unfold LoadState.comOf
    rw [getAcct_of_mem accts hn x hx]
    simp [hc.accounts x hx]
  have hcf : ∀ x a, (Env.ofAccounts accts (st.comOf accts) patternMatches (convWith db ord fuel)).find x = .ok a →
      (Env.ofAccounts accts (st.comOf accts) patternMatches (convWith db ord fuel)).comOf a = c :=
    fun x a h => hcomOf a (mustFind_mem hn h)
  have hp := heapOf_parsed st.txns
  have units : ∀ {r e}, e.1 ∈ st.txns → Stands (heapOf st.txns) (txnsFrom 0 st.txns) r e → (fin.heap r).quantity = some ⟨unitsOf e.1 e.2, c⟩ :=
    fun he hr => loaded_units hw hres hcf hc.amounts he hr
  have inTs : ∀ e ∈ allPostings st.txns, e.1 ∈ st.txns := by
    intro e he
    unfold allPostings at he
    obtain ⟨t, ht, he⟩ := List.mem_flatMap.mp he
    obtain ⟨p, _, rfl⟩ := List.mem_map.mp he
    exact ht
  refine ⟨rfl, rfl, rfl, hcomOf, ?_, hA, ?_, ?_, ?_, ?_⟩
  · intro a
    show st.comOf accts a = c ∨ st.comOf accts a = ⟨0, [], 0⟩
    by_cases ha : a ∈ accts.map (·.fullName)
    · exact .inl (hcomOf a ha)
    · right
      unfold LoadState.comOf getAcct
      have : accts.find? (fun x => decide (x.fullName = a)) = none := by
        rw [List.find?_eq_none]
        intro x hx he
        exact ha (List.mem_map.mpr ⟨x, hx, by simpa using he⟩)
      rw [this]
      rfl
  · show treeFuel (accts.map (·.fullName)) ≤ bound
    have hne : ∃ x, x ∈ accts.map (·.fullName) := ⟨_, hroot⟩
    exact treeFuel_le hne (by intro x hx; obtain ⟨a, ha, rfl⟩ := List.mem_map.mp hx; exact hbound a ha)
  · intro x hx
    obtain ⟨a, ha, rfl⟩ := List.mem_map.mp hx
    exact hbound a ha
  · intro r
    obtain ⟨st', h1, h2, _⟩ := load_parts hres
    obtain ⟨_, hb, hs1, _⟩ := phase1 hp h1
    obtain ⟨g1, _, g3, _⟩ := phase2 hp hw h1 h2
    refine ⟨?_, fun a ha _ => hcomOf a ha, ?_⟩
    · intro a _
      show InDateOrder (fun p => (fin.heap p).posted) (fin.books.postings a)
      rw [g1]
      have hd : ∀ p, (fin.heap p).posted = (heapOf st.txns p).posted := fun p => ((g3 p).1).trans (hs1 p).1
      unfold InDateOrder
      simp only [hd]
      exact hb.sorted a
    · intro a _ _ p hpm
      have hpm : p ∈ fin.books.postings a := hpm
      rw [g1, hb.mem] at hpm
      obtain ⟨e, he, hst⟩ := forall2_mem_left (stands_all st.txns) p (by simpa using hpm.1)
      show ((fin.heap p).quantity.getD default).com = c
      rw [units (inTs e he) hst]
      rfl
  · intro a
    obtain ⟨rs, h1, h2⟩ := loaded_stands hw hres compile f a
    have e1 : total ((selectedOf compile (viewOf (fun n => (parseTags n).toTags) fin (txnsFrom 0 st.txns)) f a).map
        (viewOf (fun n => (parseTags n).toTags) fin (txnsFrom 0 st.txns)).qty) =
        (rs.map (fun r => ((fin.heap r).quantity.getD default).int)).sum := by
      unfold total
      rw [List.map_map]
      exact perm_sum_int (h1.map _)
    refine e1.trans ?_
    have : ∀ (rs : List PRef) (es : List (PTxn × PPost)), (∀ e ∈ es, e.1 ∈ st.txns) → List.Forall₂ (Stands (heapOf st.txns) (txnsFrom 0 st.txns)) rs es →
        (rs.map (fun r => ((fin.heap r).quantity.getD default).int)).sum = (es.map fun e => unitsOf e.1 e.2).sum := by
      intro rs es hes h
      induction h with
      | nil => rfl
      | cons hab _ ih =>
        rw [List.map_cons, List.map_cons, List.sum_cons, List.sum_cons, ih (fun e he => hes e (by simp [he])), units (hes _ (by simp)) hab]
        rfl
    exact this rs _ (fun e he => inTs e (List.mem_of_mem_filter he)) h2

theorem opened_rows {P : Install} {compile : Compile} {st : LoadState} {accts : List Acct} {g : LedgerView} (hO : Opened P compile st accts g)
    {c : Com} (hc : OneCom st accts c) (f : Filters) (hv : ValidFilters compile f) (level : Int) (zero : Bool) {r : Str} (hr : r ∈ accts.map (·.fullName))
    (hname : level ≠ 0 → ∀ a ∈ accts.map (·.fullName), (∀ x, a ≠ ':' :: x) ∧ ¬ ProperAncestorName (str "Root") a) :
    ∃ accs : List Str, (balanceCmd g.env g.compile g.view g.links g.fuel f level zero r =
        .ok (accs.map fun a => (a, some ⟨ownUnits (accts.map (·.fullName)) compile f st.txns a, c⟩,
          some ⟨cumUnits (accts.map (·.fullName)) compile f st.txns a, c⟩))) ∧
      (∀ a, a ∈ accs ↔ a ∈ accts.map (·.fullName) ∧ InSub r a ∧ (level = 0 ∨ ((splitOn ':' a).length : Int) ≤ level) ∧
        (zero = true ∨ cumUnits (accts.map (·.fullName)) compile f st.txns a ≠ 0)) ∧
      accs.Nodup ∧ accs.Pairwise (fun x y => ¬ AncName y x) := by
  obtain ⟨e1, _, _, _, _, hA, hf, hfl, hone, hown⟩ := opened_balance hO hc f
  rw [e1]
  obtain ⟨rows, h1, h2⟩ := C36_balance_own_totals hA g.env compile g.view f hv level g.fuel zero r c hr (hone r) hf
  obtain ⟨rows', h1', h3⟩ := C37_balance_cumulative_totals hA g.env compile g.view f hv level g.fuel zero r c hr (hone r) hf
  obtain ⟨rows'', h1'', h4, h5, h6⟩ := C38_balance_rows hA g.env compile g.view f hv level g.fuel zero r c hr (hone r) hf
  rw [h1] at h1' h1''
  injection h1' with h1'
  injection h1'' with h1''
  subst h1' h1''
  have hcum : ∀ a, ((familyOf (accts.map (·.fullName)) a).map (fun x => total ((selectedOf compile g.view f x).map g.view.qty))).sum =
      cumUnits (accts.map (·.fullName)) compile f st.txns a := by
    intro a
    unfold cumUnits
    congr 1
    exact List.map_congr_left fun x _ => hown x
  refine ⟨rows.map (·.1), ?_, ?_, h5, h6⟩
  · rw [h1]
    congr 1
    rw [List.map_map]
    symm
    conv_rhs => rw [← List.map_id rows]
    apply List.map_congr_left
    intro row hrow
    have a1 := h2 row hrow
    have a2 := h3 row hrow
    rw [hown] at a1
    rw [hcum] at a2
    obtain ⟨x, y, z⟩ := row
    simp only at a1 a2
    rw [a1, a2]
    rfl
  · intro a
    rw [h4, hcum]
    constructor
    · rintro ⟨g1, g2, g3, g4⟩
      refine ⟨g1, g2, ?_, g4⟩
      rcases g3 with g3 | ⟨d, g3, g5⟩
      · exact .inl g3
      · by_cases h0 : level = 0
        · exact .inl h0
        · right
          rw [C23_depth_partial _ _ _ _ hA a g1 (hname h0 a g1).1 (hname h0 a g1).2 g.fuel (by have := hfl a g1; omega)] at g3
          injection g3 with g3
          omega
    · rintro ⟨g1, g2, g3, g4⟩
      refine ⟨g1, g2, ?_, g4⟩
      rcases g3 with g3 | g3
      · exact .inl g3
      · by_cases h0 : level = 0
        · exact .inl h0
        · exact .inr ⟨_, C23_depth_partial _ _ _ _ hA a g1 (hname h0 a g1).1 (hname h0 a g1).2 g.fuel (by have := hfl a g1; omega), g3⟩

/-! ## C156 -/

/-- The account a command line asks for: the whole ledger, or the account meant by the first argument. -/
def Asked (names args : List Str) (r : Str) : Prop :=
  (args = [] ∧ r = str "Root") ∨ ∃ a rest, args = a :: rest ∧ mustFindAccount names (patternMatches a) a = .ok r

theorem asked_of {g : LedgerView} {names args : List Str} {r : Str} (h1 : g.names = names) (h2 : g.matcher = patternMatches) :
    g.account args = .ok r ↔ Asked names args r := by
  subst h1
  unfold LedgerView.account Asked LedgerView.find
  rw [h2]
  cases args with
  | nil => simp [rootName, eq_comm]
  | cons a rest => simp

/-- **C156** The balance command from the files to its output: whenever it prints something for a ledger of one commodity, it prints the
report of the account asked for, each own total being the sum of the amounts the files state or leave out for that account under the
filters, and each cumulative total the sum of those of the account and of the accounts below. -/
theorem C156_balance_of_files (P : Install) (compile : Compile) (st : LoadState) (accts : List Acct) (g : LedgerView) (hO : Opened P compile st accts g)
    (c : Com) (hc : OneCom st accts c) (hdec : c.decimals ≤ 50)
    (fe : FlagEnv) (w : Str) (l : List (Str × Str)) (toks : List (List Str)) (tail args : List Str) (hw : commandOf w = some .balance)
    (hl : List.Forall₂ (Written fe (flagsOf .balance)) l toks) (ht : Remaining tail args)
    (hv : ValidFilters compile (filtersOf fe l))
    (hname : fe.intFlag l (str "l") 0 ≠ 0 → ∀ a ∈ accts.map (·.fullName), (∀ x, a ≠ ':' :: x) ∧ ¬ ProperAncestorName (str "Root") a)
    (out : Str) (hout : coinMain fe g (w :: (toks.flatten ++ tail)) = .ok out) :
    ∃ r accs lines, Asked (accts.map (·.fullName)) args r ∧ out = textOf lines ∧
      BalanceReport (accts.map (·.fullName)) c compile (filtersOf fe l) (fe.intFlag l (str "l") 0) (boolFlag l (str "z")) st.txns r accs lines := by
  obtain ⟨e1, e2, e3, hcom, hcom', hA, _, _, _, _⟩ := opened_balance hO hc (filtersOf fe l)
  obtain ⟨hn, _, _, _, hroot⟩ := resolved_spec _ _ _ _ hA
  unfold coinMain at hout
  rw [dispatch_written hw hl ht] at hout
  have hout : (balanceMain fe g l args).bind (fun ls => .ok (textOf ls)) = .ok out := hout
  obtain ⟨lines, hb, ho⟩ := bind_ok.mp hout
  injection ho with ho
  unfold balanceMain at hb
  obtain ⟨r, hr, hb⟩ := bind_ok.mp hb
  have hask := (asked_of e2 e3).mp hr
  have hrm : r ∈ accts.map (·.fullName) := by
    rcases hask with ⟨_, rfl⟩ | ⟨a, rest, _, hf⟩
    · exact hroot
    · exact mustFind_mem hn hf
  obtain ⟨accs, h1, h2, h3, h4⟩ := opened_rows hO hc (filtersOf fe l) hv (fe.intFlag l (str "l") 0) (boolFlag l (str "z")) hrm hname
  obtain ⟨rows, w', cw, cur, h5, h6⟩ := C137_balance_aligned _ _ _ _ _ _ _ _ _ _ (by
    intro a
    rcases hcom' a with e | e
    · rw [e]; exact hdec
    · rw [e]; exact Nat.zero_le _) hb
  rw [h1] at h5
  injection h5 with h5
  subst h5
  refine ⟨r, accs, lines, hask, ho.symm, h2, h3, h4, w', cw, cur, ?_⟩
  rw [List.forall₂_map_left_iff] at h6
  refine forall2_imp_mem h6 ?_
  rintro a ha line ⟨own, cum, o, x, y, z, i, k1, k2, k3, k4, k5, k6, k7, k8, k9, k10⟩
  have := hcom a ((h2 a).mp ha).1
  simp only at k1 k2 k5 k6 k9 k10
  rw [this] at k5 k6 k9
  exact ⟨own, cum, o, x, y, z, i, k1, k2, k3, k4, k5, k6, k7, k8, k9, k10⟩

/-- **C156** The report is printed whenever the account asked for is found, the filters are valid and no total has more than 50 digits. -/
theorem C156_balance_printed (P : Install) (compile : Compile) (st : LoadState) (accts : List Acct) (g : LedgerView) (hO : Opened P compile st accts g)
    (c : Com) (hc : OneCom st accts c) (hdec : c.decimals ≤ 50)
    (fe : FlagEnv) (w : Str) (l : List (Str × Str)) (toks : List (List Str)) (tail args : List Str) (hw : commandOf w = some .balance)
    (hl : List.Forall₂ (Written fe (flagsOf .balance)) l toks) (ht : Remaining tail args)
    (hv : ValidFilters compile (filtersOf fe l))
    (hname : fe.intFlag l (str "l") 0 ≠ 0 → ∀ a ∈ accts.map (·.fullName), (∀ x, a ≠ ':' :: x) ∧ ¬ ProperAncestorName (str "Root") a)
    (r : Str) (hr : Asked (accts.map (·.fullName)) args r)
    (hsmall : ∀ a ∈ accts.map (·.fullName), (ownUnits (accts.map (·.fullName)) compile (filtersOf fe l) st.txns a).natAbs < 10 ^ 50 ∧
      (cumUnits (accts.map (·.fullName)) compile (filtersOf fe l) st.txns a).natAbs < 10 ^ 50) :
    ∃ out, coinMain fe g (w :: (toks.flatten ++ tail)) = .ok out := by
  obtain ⟨e1, e2, e3, hcom, hcom', hA, _, _, _, _⟩ := opened_balance hO hc (filtersOf fe l)
  obtain ⟨hn, _, _, _, hroot⟩ := resolved_spec _ _ _ _ hA
  have hrm : r ∈ accts.map (·.fullName) := by
    rcases hr with ⟨_, rfl⟩ | ⟨a, rest, _, hf⟩
    · exact hroot
    · exact mustFind_mem hn hf
  obtain ⟨accs, h1, h2, _⟩ := opened_rows hO hc (filtersOf fe l) hv (fe.intFlag l (str "l") 0) (boolFlag l (str "z")) hrm hname
  obtain ⟨all, a1, a2, _⟩ := opened_rows hO hc (filtersOf fe l) hv 0 true hrm (fun h => absurd rfl h)
  obtain ⟨lines, hlines⟩ := C137_balance_printed g.env g.compile g.view g.links g.fuel (filtersOf fe l) (fe.intFlag l (str "l") 0) (boolFlag l (str "z"))
    r _ _ (by
    intro a
    rcases hcom' a with e | e
    · rw [e]; exact hdec
    · rw [e]; exact Nat.zero_le _) h1 a1 (by
    intro row hrow
    obtain ⟨a, ha, rfl⟩ := List.mem_map.mp hrow
    have := hsmall a ((a2 a).mp ha).1
    exact ⟨⟨_, rfl, this.1⟩, _, rfl, this.2⟩)
  refine ⟨textOf lines, ?_⟩
  unfold coinMain
  rw [dispatch_written hw hl ht]
  show (balanceMain fe g l args).bind (fun ls => .ok (textOf ls)) = _
  unfold balanceMain
  rw [(asked_of e2 e3).mpr hr]
  show (balanceOut _ _ _ _ _ _ _ _ _).bind _ = _
  rw [hlines]
  rfl

/-! ## A ledger -/

/-- Four files: two transactions, in one of them an amount is left out. -/
def progDir : List (Str × Str) :=
  [(str "commodities.coin", str "commodity CAD\n  format 1.00 CAD\n"), (str "prices.coin", []),
   (str "accounts.coin", str "account Assets:Cash\naccount Food\n"),
   (str "transactions.coin", str "2020/01/02 Shop\n  Food  3.50 CAD\n  Cash\n\n2020/01/05 Pay\n  Cash  10.00 CAD\n  Unbalanced  -10.00 CAD\n")]

def progInstall : Install := ⟨dirDisk progDir, ⟨2020, 1, 1⟩, 5, ledgerNames⟩
def progCad : Com := ⟨0, str "CAD", 2⟩
def progTxns : List PTxn :=
  [⟨737425, [], str "Shop", [], [⟨str "Food", some ⟨350, progCad⟩, none, []⟩, ⟨str "Cash", none, none, []⟩]⟩,
   ⟨737428, [], str "Pay", [], [⟨str "Cash", some ⟨1000, progCad⟩, none, []⟩, ⟨str "Unbalanced", some ⟨-1000, progCad⟩, none, []⟩]⟩]
def progState : LoadState := ⟨[progCad], str "CAD",
  [.commodity ⟨str "CAD", [], 2, false, []⟩, .account ⟨str "Assets:Cash", [], str "CAD", none, [], [], []⟩,
   .account ⟨str "Food", [], str "CAD", none, [], [], []⟩] ++ progTxns.map .transaction⟩

theorem prog_loads : loadAllS progInstall.disk progInstall.today progInstall.limit progInstall.files ⟨[], str "CAD", []⟩ = .ok progState :=
  load_eq (by decide +kernel)

def progAccts : List Acct := createParents (str "CAD") (baseAccounts (str "CAD") progState.decls) (baseAccounts (str "CAD") progState.decls)

theorem prog_resolves : ∃ r, resolveTransactions (Env.ofAccounts progAccts (progState.comOf progAccts) patternMatches (convWith (fun _ => []) (fun _ _ => []) 1))
    (heapOf progState.txns) (txnsFrom 0 progState.txns) (progAccts.map (·.fullName)) = .ok r := by
  have h : (resolveTransactions (Env.ofAccounts progAccts (progState.comOf progAccts) patternMatches (convWith (fun _ => []) (fun _ _ => []) 1))
    (heapOf progState.txns) (txnsFrom 0 progState.txns) (progAccts.map (·.fullName))).isOk = true := by decide +kernel
  cases hx : resolveTransactions (Env.ofAccounts progAccts (progState.comOf progAccts) patternMatches (convWith (fun _ => []) (fun _ _ => []) 1))
    (heapOf progState.txns) (txnsFrom 0 progState.txns) (progAccts.map (·.fullName)) with
  | error e => rw [hx] at h; cases h
  | ok r => exact ⟨r, rfl⟩

/-- The tree of accounts. -/
def progLinks : Links :=
  match linkAll 0 (progAccts.map (·.fullName)) Links.empty (progAccts.map (·.fullName)) with
  | .ok L => ⟨L.parent, fun p => stableSort (fun a b => strLt (parentAndName a).2 (parentAndName b).2) (L.children p)⟩
  | .error _ => Links.empty

/-- The ledger loaded. -/
def progView (compile : Compile) : LedgerView :=
  match resolveTransactions (Env.ofAccounts progAccts (progState.comOf progAccts) patternMatches (convWith (fun _ => []) (fun _ _ => []) 1))
    (heapOf progState.txns) (txnsFrom 0 progState.txns) (progAccts.map (·.fullName)) with
  | .ok (fin, _) => ledgerView (Env.ofAccounts progAccts (progState.comOf progAccts) patternMatches (convWith (fun _ => []) (fun _ _ => []) 1)) compile progLinks fin
      (txnsFrom 0 progState.txns) 100 (fun _ => []) id
  | .error _ => cmdLedger

/-- Non-vacuity of C156: the ledger opens, -/
theorem prog_opens (compile : Compile) : Opened progInstall compile progState progAccts (progView compile) ∧ OneCom progState progAccts progCad := by
  obtain ⟨L0, h0⟩ := C20_linking_succeeds (str "CAD") progState.decls (baseAccounts (str "CAD") progState.decls) _ 0 (List.Perm.refl _) (List.Perm.refl _)
  obtain ⟨⟨fin, sorted⟩, hr⟩ := prog_resolves
  have hA : ResolvedAccounts (str "CAD") progState.decls progAccts progLinks := by
    refine ⟨_, _, 0, L0, List.Perm.refl _, rfl, List.Perm.refl _, h0, ?_⟩
    have : progLinks = ⟨L0.parent, fun p => stableSort (fun a b => strLt (parentAndName a).2 (parentAndName b).2) (L0.children p)⟩ := by
      unfold progLinks
      rw [show linkAll 0 (progAccts.map (·.fullName)) Links.empty (progAccts.map (·.fullName)) = .ok L0 from h0]
    rw [this]
    exact ⟨rfl, fun p => ⟨stableSort_perm _ _, stableSort_sorted _ (strLt_strictWeak.comap _) _⟩⟩
  refine ⟨⟨prog_loads, [], fun _ => [], fun _ _ => [], 1, progLinks, _, fin, sorted, 100, fun _ => [], id, rfl, fun _ => .nil, fun _ _ => .refl _, ?_, hA, ?_,
    List.Perm.refl _, hr, ?_, ?_⟩, ?_, ?_⟩
  · intro c x; unfold convert; simp only [convertF]; split <;> rfl
  · decide +kernel
  · decide +kernel
  · unfold progView; rw [hr]
  · decide +kernel
  · decide +kernel

/-- and the command prints: Cash gets the amount left out. -/
theorem prog_prints : (coinMain cmdFlags (progView fun _ => none) [str "balance", str "-z"]).toOption =
    some (str "  0.00 |   0.00 CAD | Root\n  0.00 |   6.50 CAD | Assets\n  6.50 |   6.50 CAD | Assets:Cash\n  3.50 |   3.50 CAD | Food\n-10.00 | -10.00 CAD | Unbalanced\n") := by
  decide +kernel

/-- All hypotheses of `C156_balance_of_files` hold of this run. -/
example : ∃ r accs lines, Asked (progAccts.map (·.fullName)) [] r ∧
    str "  0.00 |   0.00 CAD | Root\n  0.00 |   6.50 CAD | Assets\n  6.50 |   6.50 CAD | Assets:Cash\n  3.50 |   3.50 CAD | Food\n-10.00 | -10.00 CAD | Unbalanced\n" = textOf lines ∧
    BalanceReport (progAccts.map (·.fullName)) progCad (fun _ => none) (filtersOf cmdFlags [(str "z", str "true")]) (cmdFlags.intFlag [(str "z", str "true")] (str "l") 0)
      (boolFlag [(str "z", str "true")] (str "z")) progState.txns r accs lines :=
  C156_balance_of_files progInstall (fun _ => none) progState progAccts (progView fun _ => none) (prog_opens _).1 progCad (prog_opens fun _ => none).2 (by decide)
    cmdFlags (str "balance") [(str "z", str "true")] [[str "-z"]] [] [] (by decide) (.cons (.bare (d := ['-']) (.inl rfl) (by decide)) .nil)
    .nothing ⟨fun h => absurd (by decide +kernel) h, fun h => absurd (by decide +kernel) h⟩ (fun h => absurd (by decide +kernel) h) _ (ok_of_opt prog_prints)

end Verif
