import Verif.Props.Ranges
import Verif.Props.ViewBalance
import Verif.Props.WebMulti
/-
C193: the register on the page and the balance report show the same total.
-/
namespace Verif

/-! ## Specification -/

/-- coin2html (cmd/coin2html/main.go, `LoadAll`, coin.go:73-87) opened the files as `st` and the accounts `accts`, and `page` are the transactions on its page
(C118), for some orders in which its maps are enumerated and some outcomes of its sorts. -/
def PageOpened (P : Install) (st : LoadState) (accts : List Acct) (page : List WTxn) : Prop :=
  loadAllS P.disk P.today P.limit P.files ⟨[], str "CAD", []⟩ = .ok st ∧
  ∃ items db ord fuel L walk fin sorted location,
    (st.items.filterMap itemPrice).mapM st.price = .ok items ∧ IsResolved items db ∧ MapOrder.Valid ord db ∧
    (∀ c x, (convert db ord c x x.com fuel).isSome = true) ∧
    ResolvedAccounts st.dflt st.decls accts L ∧ (∀ a ∈ accts, (st.comFor a).isSome = true) ∧
    walk.Perm (accts.map (·.fullName)) ∧
    resolveTransactions (Env.ofAccounts accts (st.comOf accts) patternMatches (convWith db ord fuel)) (heapOf st.txns) (txnsFrom 0 st.txns) walk = .ok (fin, sorted) ∧
    page = pageTxns location fin sorted

/-- The filters select by date only, and of the transactions `ts` the same as the range of the page from `start` to `stop`. -/
structure SameRange (ts : List PTxn) (f : Filters) (start stop : Int) : Prop where
  days : ∀ t ∈ ts, (start ≤ 86400 * t.posted ∧ 86400 * t.posted ≤ stop) ↔ ((∀ b ∈ f.begin_, b ≤ t.posted) ∧ ∀ e ∈ f.end_, t.posted < e)
  all : f.payee = [] ∧ f.tag = []

/-- The total on the last row of the page's register; zero without rows. -/
def lastTotal (rows : List VRow) : Int := ((rows.getLast?).map (·.total.int)).getD 0

/-! ## Lemmas -/

theorem page_postings_perm {env : Env} {heap : Heap} {txns : List Txn} {order : List Str} {fin : Loaded} {sorted : List Txn} (loc : Txn → Str) (hp : Parsed heap txns)
    (hnd : order.Nodup) (h : resolveTransactions env heap txns order = .ok (fin, sorted)) (a : Str) :
    ((acctPosts (pageTxns loc fin sorted) a).map pageKey).Perm
      ((fin.books.postings a).map (fun p => (86400 * (fin.heap p).posted, wpostOf (outPost fin p)))) := by
  obtain ⟨st, h1, h2, _⟩ := load_parts h
  obtain ⟨c1, _⟩ := C32_transactions_sorted env heap txns order fin sorted hp hnd h
  have ph2 := phase2 hp hnd h1 h2
  have ph1 := phase1 hp h1
  have hstat : SameStatic heap fin.heap := ph1.2.2.1.trans ph2.2.2.1
  have g1 := ph2.1
  have g2 := ph2.2.1
  have hb := ph1.2.1
  have hmem : ∀ p ∈ sorted.flatMap (·.postings), p ∈ txns.flatMap (·.postings) := fun p hm => (c1.flatMap_right _).mem_iff.mp hm
  have hown : ∀ p ∈ sorted.flatMap (·.postings), decide ((wpostOf (outPost fin p)).account = a) = owned env heap a p := by
    intro p hm
    obtain ⟨x, hx1, hx2⟩ := hb.account p (by simpa using hmem p hm)
    have : (wpostOf (outPost fin p)).account = x := by
      show (fin.books.account p).getD [] = x
      rw [g2, hx2]; rfl
    rw [this]
    unfold owned
    rw [hx1]
  have hperm : ((sorted.flatMap (·.postings)).filter (owned env heap a)).Perm (fin.books.postings a) := by
    rw [List.perm_ext_iff_of_nodup]
    · intro p
      rw [List.mem_filter, g1, hb.mem, List.nil_append]
      unfold owned
      constructor
      · rintro ⟨hm, ho⟩
        refine ⟨hmem p hm, ?_⟩
        obtain ⟨x, hx1, _⟩ := hb.account p (by simpa using hmem p hm)
        rw [hx1] at ho ⊢
        simp only [decide_eq_true_eq] at ho
        rw [ho]
      · rintro ⟨hm, ho⟩
        refine ⟨(c1.flatMap_right _).mem_iff.mpr hm, ?_⟩
        rw [ho]
        simp
    · exact ((c1.flatMap_right _).nodup_iff.mpr hp.nodup).filter _
    · rw [g1]; exact hb.nodup a
  refine List.Perm.trans (List.Perm.of_eq ?_) (hperm.map _)
  rw [acctPosts_key]
  have e1 : (pageTxns loc fin sorted).flatMap (fun t => t.postings.map (fun p => (t.posted, p))) =
      (sorted.flatMap (·.postings)).map (fun p => (86400 * (fin.heap p).posted, wpostOf (outPost fin p))) := by
    unfold pageTxns
    rw [List.flatMap_map, List.map_flatMap]
    have : ∀ l : List Txn, (∀ t ∈ l, t ∈ txns) → l.flatMap (fun t => (wtxnOf (outTxn loc fin t)).postings.map (fun p => ((wtxnOf (outTxn loc fin t)).posted, p))) =
        l.flatMap (fun t => t.postings.map (fun p => (86400 * (fin.heap p).posted, wpostOf (outPost fin p)))) := by
      intro l
      induction l with
      | nil => intro _; rfl
      | cons t l ih =>
        intro hl
        rw [List.flatMap_cons, List.flatMap_cons, ih (fun u hu => hl u (List.mem_cons_of_mem _ hu))]
        congr 1
        show ((t.postings.map (outPost fin)).map wpostOf).map (fun p => (86400 * t.posted, p)) = _
        rw [List.map_map, List.map_map]
        apply List.map_congr_left
        intro p hpm
        rw [(hstat p).1, hp.date t (hl t List.mem_cons_self) p hpm]
        rfl
    exact this sorted (fun t ht => c1.mem_iff.mp ht)
  rw [e1, List.filter_map]
  congr 1
  apply List.filter_congr
  intro p hm
  exact hown p hm

/-- What the page's register of an account adds up. -/
theorem page_amounts {P : Install} {st : LoadState} {accts : List Acct} {page : List WTxn} (hP : PageOpened P st accts page) {c : Com} (hc : OneCom st accts c)
    (f : Filters) (start stop : Int) (hr : SameRange st.txns f start stop) (compile : Compile) (a : Str) :
    (((acctPosts page a).filter fun v => decide (start ≤ v.txn.posted ∧ v.txn.posted ≤ stop)).map fun v => v.post.quantity).Perm
      ((booked (accts.map (·.fullName)) compile f st.txns a).map fun e => ⟨unitsOf e.1 e.2, ⟨0, c.id, c.decimals⟩⟩) ∧ TxnsSorted page := by
  classical
  obtain ⟨hl, items, db, ord, fuel, L, walk, fin, sorted, location, h1, h2, h3, h4, hA, h6, hwalk, hres, rfl⟩ := hP
  obtain ⟨hn, _, _, _, hroot⟩ := resolved_spec _ _ _ _ hA
  have hw : walk.Nodup := hwalk.nodup_iff.mpr hn
  have hp := heapOf_parsed st.txns
  refine ⟨?_, pageTxns_sorted _ _ _ _ _ _ _ hp hw hres⟩
  set g := ledgerView (Env.ofAccounts accts (st.comOf accts) patternMatches (convWith db ord fuel)) compile L fin (txnsFrom 0 st.txns)
    (maxLen (accts.map (·.fullName)) + 3) (fun _ => []) id with hg
  have hO : Opened P compile st accts g := by
    refine ⟨hl, items, db, ord, fuel, L, walk, fin, sorted, _, _, _, h1, h2, h3, h4, hA, h6, hwalk, hres, ?_, hg⟩
    intro x hx
    have := le_maxLen (List.mem_map_of_mem (f := (·.fullName)) hx)
    omega
  obtain ⟨rs, r1, r2⟩ := opened_posts hO hc f [a]
  rw [List.flatMap_cons, List.flatMap_nil, List.append_nil] at r1 r2
  rw [regBooked_booked (by rw [hr.all.1]; rfl)] at r2
  obtain ⟨rs0, q1, q2⟩ := opened_posts hO hc ⟨none, none, [], []⟩ [a]
  rw [List.flatMap_cons, List.flatMap_nil, List.append_nil] at q1 q2
  rw [regBooked_booked (show NoBang [] from rfl)] at q2
  have hday : ∀ p ∈ fin.books.postings a, ∃ t ∈ st.txns, (fin.heap p).posted = t.posted := by
    intro p hm
    have hm' : p ∈ rs0 := by
      refine q1.mem_iff.mp ?_
      unfold regSelectedOf
      refine List.mem_filter.mpr ⟨hm, decide_eq_true ⟨fun b hb => (by cases hb), fun b hb => (by cases hb), fun h => absurd rfl h, fun h => absurd rfl h⟩⟩
    obtain ⟨e, he, hs⟩ := forall2_pick q2 hm'
    exact ⟨e.1, (booked_mem he).1, hs.date⟩
  have hsel : regSelectedOf compile g.view f a = (fin.books.postings a).filter fun p => decide (start ≤ 86400 * (fin.heap p).posted ∧ 86400 * (fin.heap p).posted ≤ stop) := by
    unfold regSelectedOf
    show (fin.books.postings a).filter _ = _
    refine List.filter_congr ?_
    intro p hm
    obtain ⟨t, ht, hd⟩ := hday p hm
    rw [decide_eq_decide, hd, hr.days t ht]
    unfold RegSelected
    rw [hr.all.1, hr.all.2]
    show ((∀ b ∈ f.begin_, b ≤ (fin.heap p).posted) ∧ (∀ e ∈ f.end_, (fin.heap p).posted < e) ∧ _) ↔ _
    rw [hd]
    simp
  have hkey := page_postings_perm location hp hw hres a
  have hkey2 := ((hkey.filter fun k => decide (start ≤ k.1 ∧ k.1 ≤ stop)).map fun k => k.2.quantity)
  rw [List.filter_map, List.filter_map, List.map_map, List.map_map] at hkey2
  have hL : (((acctPosts (pageTxns location fin sorted) a).filter fun v => decide (start ≤ v.txn.posted ∧ v.txn.posted ≤ stop)).map fun v => v.post.quantity) =
      List.map ((fun k : Int × WPost => k.2.quantity) ∘ pageKey) (List.filter ((fun k : Int × WPost => decide (start ≤ k.1 ∧ k.1 ≤ stop)) ∘ pageKey)
        (acctPosts (pageTxns location fin sorted) a)) := rfl
  rw [hL]
  refine hkey2.trans ?_
  have hR : (fin.books.postings a).filter ((fun k : Int × WPost => decide (start ≤ k.1 ∧ k.1 ≤ stop)) ∘ fun p => (86400 * (fin.heap p).posted, wpostOf (outPost fin p))) =
      regSelectedOf compile g.view f a := hsel.symm
  rw [hR]
  refine (r1.map _).trans (List.Perm.of_eq ?_)
  clear hR hkey2 hL hkey hsel r1
  generalize booked (accts.map (·.fullName)) compile f st.txns a = es at r2
  induction r2 with
  | nil => rfl
  | cons hab _ ih =>
    rename_i p e _ _ _
    rw [List.map_cons, List.map_cons, ih]
    congr 1
    have hq : (fin.heap p).quantity.getD default = ⟨unitsOf e.1 e.2, c⟩ := hab.qty
    show pageAmount ((fin.heap p).quantity.getD ⟨0, ⟨0, [], 0⟩⟩) = _
    have hd : (default : Amount) = ⟨0, ⟨0, [], 0⟩⟩ := rfl
    rw [hd] at hq
    rw [hq]
    rfl

theorem natAbs_sum : ∀ l : List Int, l.sum.natAbs ≤ (l.map (·.natAbs)).sum := by
  intro l
  induction l with
  | nil => exact Nat.le_refl _
  | cons x l ih => rw [List.sum_cons, List.map_cons, List.sum_cons]; omega

/-- **C193** For files in one commodity, whose amounts add up to at most 2^53 units: the page's register of an account over a range of dates, as coin2html
makes it, ends in the own total `coin balance -z` shows for the account and the range. -/
theorem C193_page_register (P : Install) (compile : Compile) (st : LoadState) (accts : List Acct) (g : LedgerView) (page : List WTxn)
    (hO : Opened P compile st accts g) (hP : PageOpened P st accts page) (hp : PlainNames (accts.map (·.fullName))) (c : Com) (hc : OneCom st accts c) (hdec : c.decimals ≤ 50)
    (hbig : ((allPostings st.txns).map fun e => (unitsOf e.1 e.2).natAbs).sum ≤ 2 ^ 53) (fe : FlagEnv)
    (w : Str) (l : List (Str × Str)) (toks : List (List Str)) (tail args : List Str)
    (hw : commandOf w = some .balance) (hl : List.Forall₂ (Written fe (flagsOf .balance)) l toks) (ht : Remaining tail args)
    (hz : boolFlag l (str "z") = true) (hlev : fe.intFlag l (str "l") 0 = 0)
    (start stop : Int) (hr : SameRange st.txns (filtersOf fe l) start stop) (out : Str) (hout : coinMain fe g (w :: (toks.flatten ++ tail)) = .ok out)
    (r : Str) (hask : Asked (accts.map (·.fullName)) args r) (a : WAcct) (ha : a.fullName ∈ accts.map (·.fullName)) (hs : InSub r a.fullName) (hcom : a.com = ⟨0, c.id, c.decimals⟩)
    (conv : Com → Amount → Int → Except Fault Amount) (off : Int) (rows : List VRow) (hrows : viewRegisterFull conv off page a start stop = .ok rows) :
    ∃ lines cum, out = textOf lines ∧ StandsWith c lines a.fullName (lastTotal rows) cum := by
  obtain ⟨hperm, hsorted⟩ := page_amounts hP hc (filtersOf fe l) start stop hr compile a.fullName
  obtain ⟨ns, n1, n2, n3⟩ := C149_register conv off page hsorted a start stop rows _ rfl hrows
  have hcoms : ∀ v ∈ (acctPosts page a.fullName).filter (fun v => decide (start ≤ v.txn.posted ∧ v.txn.posted ≤ stop)), v.post.quantity.com = a.com := by
    intro v hv
    obtain ⟨e, _, he⟩ := List.mem_map.mp (hperm.mem_iff.mp (List.mem_map_of_mem (f := fun v : VPost => v.post.quantity) hv))
    rw [← he, hcom]
  have hns : ns = ((acctPosts page a.fullName).filter (fun v => decide (start ≤ v.txn.posted ∧ v.txn.posted ≤ stop))).map fun v => v.post.quantity.int := by
    clear n2 n3 hperm
    generalize (acctPosts page a.fullName).filter (fun v => decide (start ≤ v.txn.posted ∧ v.txn.posted ≤ stop)) = shown at n1 hcoms
    induction n1 with
    | nil => rfl
    | cons hab _ ih =>
      rw [List.map_cons, ih fun v hv => hcoms v (by simp [hv])]
      rcases hab with ⟨_, h⟩ | ⟨h, _⟩
      · rw [h]
      · exact absurd (hcoms _ (by simp)) h
  have hbk : ns.Perm ((booked (accts.map (·.fullName)) compile (filtersOf fe l) st.txns a.fullName).map fun e => unitsOf e.1 e.2) := by
    rw [hns]
    have := hperm.map (·.int)
    rw [List.map_map, List.map_map] at this
    exact this
  have hsum : ns.sum = ownUnits (accts.map (·.fullName)) compile (filtersOf fe l) st.txns a.fullName := perm_sum_int hbk
  have habs : (ns.map (·.natAbs)).sum ≤ 2 ^ 53 := by
    refine le_trans ?_ hbig
    rw [(hbk.map _).sum_eq, List.map_map]
    classical
    exact sum_le_of_sublist (List.filter_sublist.map _)
  have hfit : RunsFit 0 ns := by
    intro k
    rw [zero_add]
    refine (natAbs_sum _).trans (le_trans ?_ habs)
    exact sum_le_of_sublist ((List.take_sublist k ns).map _)
  have hlast : lastTotal rows = ns.sum := by
    have hlen : ns.length = rows.length := by rw [n2]; exact n1.length_eq.symm
    unfold lastTotal
    rw [List.getLast?_eq_getElem?]
    rcases Nat.eq_zero_or_pos rows.length with h0 | h0
    · have : ns = [] := List.length_eq_zero_iff.mp (by omega)
      rw [List.length_eq_zero_iff.mp h0, this]
      rfl
    · obtain ⟨x, hx⟩ : ∃ x, rows[rows.length - 1]? = some x := ⟨_, List.getElem?_eq_getElem (by omega)⟩
      rw [hx]
      show x.total.int = _
      rw [n3 hfit _ _ hx, show rows.length - 1 + 1 = ns.length by omega, List.take_length]
  have hv : ValidFilters compile (filtersOf fe l) := ⟨fun h => absurd hr.all.1 h, fun h => absurd hr.all.2 h⟩
  obtain ⟨r', lines, hask', e, ⟨⟨accs, wd, cw, k1, _, _, _, k5⟩⟩⟩ := C177_balance_text P compile st accts g hO hp c hc hdec fe w l toks tail args hw hl ht hv out hout
  have hrr : r' = r := by
    rcases hask with ⟨ha, hb⟩ | ⟨a, rest, rfl, hm⟩
    · rcases hask' with ⟨_, h'⟩ | ⟨_, _, h, _⟩
      · rw [h', hb]
      · rw [ha] at h; cases h
    · rcases hask' with ⟨h, _⟩ | ⟨a', rest', h, hm'⟩
      · cases h
      · cases h; exact means_unique hm' hm
  subst hrr
  obtain ⟨line, hline, o, x, o1, o2, e'⟩ := forall2_pick k5 ((k1 a.fullName).mpr ⟨ha, hs, .inl hlev, .inl hz⟩)
  refine ⟨lines, _, e, line, hline, o, x, ⟨_, _, _, e'⟩, ?_, o2⟩
  rw [hlast, hsum]
  exact o1

/-- The transactions on the page of the ledger of C156. -/
def progPage : List WTxn :=
  match resolveTransactions (Env.ofAccounts progAccts (progState.comOf progAccts) patternMatches (convWith (fun _ => []) (fun _ _ => []) 1))
    (heapOf progState.txns) (txnsFrom 0 progState.txns) (progAccts.map (·.fullName)) with
  | .ok (fin, sorted) => pageTxns (fun _ => []) fin sorted
  | .error _ => []

theorem prog_page : PageOpened progInstall progState progAccts progPage := by
  obtain ⟨L0, h0⟩ := C20_linking_succeeds (str "CAD") progState.decls (baseAccounts (str "CAD") progState.decls) _ 0 (List.Perm.refl _) (List.Perm.refl _)
  obtain ⟨⟨fin, sorted⟩, hr⟩ := prog_resolves
  have hA : ResolvedAccounts (str "CAD") progState.decls progAccts progLinks := by
    refine ⟨_, _, 0, L0, List.Perm.refl _, rfl, List.Perm.refl _, h0, ?_⟩
    have : progLinks = ⟨L0.parent, fun p => stableSort (fun a b => strLt (parentAndName a).2 (parentAndName b).2) (L0.children p)⟩ := by
      unfold progLinks
      rw [show linkAll 0 (progAccts.map (·.fullName)) Links.empty (progAccts.map (·.fullName)) = .ok L0 from h0]
    rw [this]
    exact ⟨rfl, fun p => ⟨stableSort_perm _ _, stableSort_sorted _ (strLt_strictWeak.comap _) _⟩⟩
  refine ⟨prog_loads, [], fun _ => [], fun _ _ => [], 1, progLinks, _, fin, sorted, fun _ => [], rfl, fun _ => .nil, fun _ _ => .refl _, ?_, hA, ?_, List.Perm.refl _, hr, ?_⟩
  · intro c x; unfold convert; simp only [convertF]; split <;> rfl
  · decide +kernel
  · unfold progPage; rw [hr]

/-- The account Cash on the page. -/
def progCash : WAcct := ⟨str "Cash", str "Assets:Cash", ⟨0, str "CAD", 2⟩, some (str "Assets"), none⟩

/-- Non-vacuity: the register of `Assets:Cash` on the page from the fourth of January on has one row with the total 10.00, which is what
`coin balance -z -b=2020/01/04 Assets` shows. -/
example : ∃ rows, viewRegisterFull (fun _ _ _ => .error .err) 0 progPage progCash (86400 * 737427) (86400 * 737790) = .ok rows ∧ lastTotal rows = 1000 ∧
    ∃ lines cum, str " 0.00 | 10.00 CAD | Assets\n10.00 | 10.00 CAD | Assets:Cash\n" = textOf lines ∧ StandsWith progCad lines progCash.fullName (lastTotal rows) cum := by
  obtain ⟨rows, hrows, hl⟩ : ∃ rows, viewRegisterFull (fun _ _ _ => .error .err) 0 progPage progCash (86400 * 737427) (86400 * 737790) = .ok rows ∧ lastTotal rows = 1000 := by
    have h : ((viewRegisterFull (fun _ _ _ => .error .err) 0 progPage progCash (86400 * 737427) (86400 * 737790)).toOption.map lastTotal) = some 1000 := by decide +kernel
    cases e : viewRegisterFull (fun _ _ _ => .error .err) 0 progPage progCash (86400 * 737427) (86400 * 737790) with
    | error x => rw [e] at h; cases h
    | ok rows => rw [e] at h; exact ⟨rows, rfl, Option.some.inj h⟩
  refine ⟨rows, hrows, hl, ?_⟩
  refine C193_page_register progInstall (fun _ => none) progState progAccts (progView fun _ => none) progPage (prog_opens _).1 prog_page prog_plain progCad
    (prog_opens fun _ => none).2 (by decide) (by decide +kernel) rangeFlags (str "balance") [(str "z", str "true"), (str "b", str "2020/01/04")] [[str "-z"], [str "-b=2020/01/04"]]
    [str "Assets"] [str "Assets"] (by decide)
    (.cons (.bare (d := ['-']) (.inl rfl) (by decide)) (.cons (.equals (d := ['-']) (name := str "b") (v := str "2020/01/04") (k := .date) (.inl rfl) (by decide) (by decide)) .nil))
    (.plain (.inr (by decide))) (by decide) (by decide) _ _ ⟨by decide +kernel, by decide, by decide⟩ _ (ok_of_opt (by decide +kernel)) (str "Assets")
    (.inr ⟨_, _, rfl, ok_of_opt (by decide +kernel)⟩) progCash (by decide +kernel) (.inr ⟨by decide, .inr ⟨by decide, str "Cash", by decide⟩⟩) (by decide +kernel) _ 0 rows hrows

end Verif
