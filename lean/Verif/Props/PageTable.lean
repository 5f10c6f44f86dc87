import Verif.Props.PageFamily
/-
C196: the table of balances on the page and the balance report.
-/
namespace Verif

/-! ## Specification -/

/-- No posting asserts a balance. -/
def NoAssertions (ts : List PTxn) : Prop := ∀ t ∈ ts, ∀ p ∈ t.postings, p.balance = none

/-- The filters select by date only, and of the transactions `ts` those up to the day `d`. -/
structure UpTo (ts : List PTxn) (f : Filters) (d : Int) : Prop where
  days : ∀ t ∈ ts, t.posted ≤ d ↔ ((∀ b ∈ f.begin_, b ≤ t.posted) ∧ ∀ e ∈ f.end_, t.posted < e)
  all : f.payee = [] ∧ f.tag = []

/-! ## Lemmas -/

/-- The page's balance of an account at the end of a day, without assertions. -/
theorem page_balance {P : Install} {st : LoadState} {accts : List Acct} {page : List WTxn} (hP : PageOpened P st accts page) {c : Com} (hc : OneCom st accts c)
    (hno : NoAssertions st.txns) (a : WAcct) (ha : a.fullName ∈ accts.map (·.fullName)) (hcom : a.com = ⟨0, c.id, c.decimals⟩) (d : Int) :
    balanceAt page a (86400 * d) =
      ⟨(((acctPosts page a.fullName).filter fun v => decide (v.txn.posted ≤ 86400 * d)).map fun v : VPost => v.post.quantity.int).sum, ⟨0, c.id, c.decimals⟩⟩ := by
  classical
  obtain ⟨hl, items, db, ord, fuel, L, walk, fin, sorted, location, h1, h2, h3, h4, hA, h6, hwalk, hres, rfl⟩ := hP
  obtain ⟨hn, _, _, _, hroot⟩ := resolved_spec _ _ _ _ hA
  have hw : walk.Nodup := hwalk.nodup_iff.mpr hn
  have hp := heapOf_parsed st.txns
  have hO : Opened P (fun _ => none) st accts (ledgerView (Env.ofAccounts accts (st.comOf accts) patternMatches (convWith db ord fuel)) (fun _ => none) L fin (txnsFrom 0 st.txns)
      (maxLen (accts.map (·.fullName)) + 3) (fun _ => []) id) := by
    refine ⟨hl, items, db, ord, fuel, L, walk, fin, sorted, _, _, _, h1, h2, h3, h4, hA, h6, hwalk, hres, ?_, rfl⟩
    intro x hx
    have := le_maxLen (List.mem_map_of_mem (f := (·.fullName)) hx)
    omega
  have hcomOf : (Env.ofAccounts accts (st.comOf accts) patternMatches (convWith db ord fuel)).comOf a.fullName = c := by
    obtain ⟨x, hx, e⟩ := List.mem_map.mp ha
    show st.comOf accts a.fullName = c
    rw [← e]
    unfold LoadState.comOf
    rw [getAcct_of_mem accts hn x hx]
    simp [hc.accounts x hx]
  have hq : ∀ p ∈ fin.books.postings a.fullName, ∀ q, (fin.heap p).quantity = some q → q.com = c := by
    intro p hm q hq
    obtain ⟨rs0, q1, q2⟩ := opened_posts hO hc ⟨none, none, [], []⟩ [a.fullName]
    rw [List.flatMap_cons, List.flatMap_nil, List.append_nil] at q1 q2
    have hm' : p ∈ rs0 := by
      refine q1.mem_iff.mp ?_
      unfold regSelectedOf
      refine List.mem_filter.mpr ⟨hm, decide_eq_true ⟨fun b hb => (by cases hb), fun b hb => (by cases hb), fun h => absurd rfl h, fun h => absurd rfl h⟩⟩
    obtain ⟨e, _, hs⟩ := forall2_pick q2 hm'
    have hq' : (fin.heap p).quantity.getD default = ⟨unitsOf e.1 e.2, c⟩ := hs.qty
    rw [hq] at hq'
    exact congrArg Amount.com hq'
  have hnone : ∀ p, (heapOf st.txns p).balance = none ∧ (heapOf st.txns p).asserted = false := by
    intro p
    unfold heapOf
    cases hx : (st.txns.flatMap (fun t => t.postings.map (dataOf t.posted)))[p]? with
    | none => exact ⟨rfl, rfl⟩
    | some x =>
      obtain ⟨t, ht, hm⟩ := List.mem_flatMap.mp (List.mem_of_getElem? hx)
      obtain ⟨q, hqm, rfl⟩ := List.mem_map.mp hm
      have := hno t ht q hqm
      exact ⟨this, by show q.balance.isSome = false; rw [this]; rfl⟩
  have haw : a.fullName ∈ walk := hwalk.mem_iff.mpr ha
  obtain ⟨_, _, s3, _⟩ := C29_running_balances _ _ _ _ fin sorted hp hw hres a.fullName haw (by rw [hcomOf]; exact hq)
  obtain ⟨_, t2⟩ := C30_balance_assertions _ _ _ _ fin sorted hp hw hres
  obtain ⟨_, t3⟩ := t2 a.fullName haw (by rw [hcomOf]; exact hq)
  have hint := C122_balance_partial location _ _ _ _ fin sorted hp hw hres a d haw (fun p hm => t3 p hm (hnone p).2) (by rw [hcomOf]; exact hq)
    (fun p _ b hb => by rw [(hnone p).1] at hb; cases hb)
    (by
      unfold AssertsLast
      refine List.pairwise_of_forall fun t u => ?_
      rintro _ _ _ ⟨p, _, hh⟩
      rw [(hnone p).2] at hh; cases hh)
  have hcm : (balanceAt (pageTxns location fin sorted) a (86400 * d)).com = ⟨0, c.id, c.decimals⟩ := by
    unfold balanceAt
    cases hf : (acctPosts (pageTxns location fin sorted) a.fullName).reverse.find? (fun v => decide (v.txn.posted ≤ 86400 * d)) with
    | none => exact hcom
    | some v =>
      have hv : v ∈ acctPosts (pageTxns location fin sorted) a.fullName := List.mem_reverse.mp (List.mem_of_find?_eq_some hf)
      obtain ⟨p, hpm, e⟩ := List.mem_map.mp ((page_postings_perm location hp hw hres a.fullName).mem_iff.mp (List.mem_map_of_mem (f := pageKey) hv))
      have e : wpostOf (outPost fin p) = v.post := congrArg Prod.snd e
      obtain ⟨l1, l2, hsplit⟩ := List.append_of_mem hpm
      have hb := s3 l1 p l2 hsplit (hnone p).2
      show v.post.balance.com = _
      rw [← e]
      show (pageAmount ((fin.heap p).balance.getD ⟨0, ⟨0, [], 0⟩⟩)).com = _
      rw [hb, hcomOf]
      rfl
  rw [← hint, ← hcm]

theorem int_lower : ∀ l : List Int, ∃ m, ∀ x ∈ l, m ≤ x := by
  intro l
  induction l with
  | nil => exact ⟨0, by simp⟩
  | cons x l ih =>
    obtain ⟨m, hm⟩ := ih
    refine ⟨min x m, ?_⟩
    intro y hy
    rcases List.mem_cons.mp hy with rfl | hy
    · exact min_le_left _ _
    · exact le_trans (min_le_right _ _) (hm y hy)

theorem page_own {P : Install} {st : LoadState} {accts : List Acct} {page : List WTxn} (hP : PageOpened P st accts page) {c : Com} (hc : OneCom st accts c)
    (hno : NoAssertions st.txns) (a : WAcct) (ha : a.fullName ∈ accts.map (·.fullName)) (hcom : a.com = ⟨0, c.id, c.decimals⟩) (compile : Compile) (f : Filters) (d : Int)
    (hf : UpTo st.txns f d) : balanceAt page a (86400 * d) = ⟨ownUnits (accts.map (·.fullName)) compile f st.txns a.fullName, ⟨0, c.id, c.decimals⟩⟩ := by
  rw [page_balance hP hc hno a ha hcom d]
  obtain ⟨m, hm⟩ := int_lower (st.txns.map (fun t => 86400 * t.posted) ++ (acctPosts page a.fullName).map (·.txn.posted))
  have hr : SameRange st.txns f m (86400 * d) := by
    refine ⟨fun t ht => ?_, hf.all⟩
    rw [← hf.days t ht]
    have := hm _ (List.mem_append_left _ (List.mem_map_of_mem (f := fun t : PTxn => 86400 * t.posted) ht))
    omega
  obtain ⟨h, _⟩ := page_amounts hP hc f m (86400 * d) hr compile a.fullName
  have h := h.map (·.int)
  rw [List.map_map, List.map_map] at h
  have h := perm_sum_int h
  have e : (acctPosts page a.fullName).filter (fun v => decide (m ≤ v.txn.posted ∧ v.txn.posted ≤ 86400 * d)) =
      (acctPosts page a.fullName).filter (fun v => decide (v.txn.posted ≤ 86400 * d)) := by
    refine List.filter_congr ?_
    intro v hv
    have := hm _ (List.mem_append_right _ (List.mem_map_of_mem (f := fun v : VPost => v.txn.posted) hv))
    rw [decide_eq_decide]
    exact ⟨fun h => h.2, fun h => ⟨this, h⟩⟩
  rw [e] at h
  show Amount.mk _ _ = Amount.mk _ _
  congr 1

theorem page_family {cs : List Com} {accts : List Acct} {was : List WAcct} {L : Links} {dflt : Str} {decls : List Acct} (hA : ResolvedAccounts dflt decls accts L)
    (hs : SameAccounts cs accts was) (keep : WAcct → Bool) (hk : ∀ w ∈ was, keep w = true) (a : WAcct) (ha : a ∈ was) (fam : List WAcct) (hnd : fam.Nodup)
    (hm : ∀ v, v ∈ fam ↔ v = a ∨ Down was keep a.fullName v) : (fam.map (·.fullName)).Perm (familyOf (accts.map (·.fullName)) a.fullName) := by
  classical
  have htree := C123_loaded cs dflt decls accts L was hA hs
  have hin : ∀ v ∈ fam, v ∈ was := by
    intro v hv
    rcases (hm v).mp hv with rfl | h
    · exact ha
    · exact h.mem
  rw [List.perm_ext_iff_of_nodup]
  · intro x
    unfold familyOf
    rw [List.mem_map, List.mem_filter, decide_eq_true_iff]
    have hd := page_down hA hs keep hk a ha x
    constructor
    · rintro ⟨v, hv, e⟩
      rcases (hm v).mp hv with rfl | h
      · rw [← e]; exact ⟨(page_parent hs ha).2.1, .inl rfl⟩
      · have := hd.mp ⟨v, h, e⟩
        exact ⟨this.1, .inr this.2⟩
    · rintro ⟨hx, h | h⟩
      · exact ⟨a, (hm a).mpr (.inl rfl), h.symm⟩
      · obtain ⟨v, hv, e⟩ := hd.mpr ⟨hx, h⟩
        exact ⟨v, (hm v).mpr (.inr hv), e⟩
  · rw [List.nodup_map_iff_inj_on hnd]
    intro x hx y hy e
    exact htree.eq_of_name (hin x hx) (hin y hy) e
  · exact (resolved_spec _ _ _ _ hA).1.filter _

theorem inSub_trans {a b x : Str} (h1 : InSub a b) (h2 : InSub b x) : InSub a x := by
  rcases h2 with rfl | h2
  · exact h1
  · rcases h1 with rfl | h1
    · exact .inr h2
    · exact .inr (ancName_trans _ _ _ h1 h2)

/-- **C196** For files in one commodity without asserted balances, whose amounts add up to at most 2^53 units: every row of the page's table of balances at
the end of a day shows the own and the cumulative total that `coin balance -z` shows for the account up to that day. -/
theorem C196_page_table (P : Install) (compile : Compile) (st : LoadState) (accts : List Acct) (g : LedgerView) (page : List WTxn)
    (hO : Opened P compile st accts g) (hP : PageOpened P st accts page) (hp : PlainNames (accts.map (·.fullName))) (c : Com) (hc : OneCom st accts c) (hdec : c.decimals ≤ 50)
    (hno : NoAssertions st.txns)
    (hbig : ((allPostings st.txns).map fun e => (unitsOf e.1 e.2).natAbs).sum ≤ 2 ^ 53) (fe : FlagEnv)
    (w : Str) (l : List (Str × Str)) (toks : List (List Str)) (tail args : List Str)
    (hw : commandOf w = some .balance) (hl : List.Forall₂ (Written fe (flagsOf .balance)) l toks) (ht : Remaining tail args)
    (hz : boolFlag l (str "z") = true) (hlev : fe.intFlag l (str "l") 0 = 0)
    (d : Int) (hr : UpTo st.txns (filtersOf fe l) d) (out : Str) (hout : coinMain fe g (w :: (toks.flatten ++ tail)) = .ok out)
    (r : Str) (hask : Asked (accts.map (·.fullName)) args r) (cs : List Com) (was : List WAcct) (hwas : SameAccounts cs accts was)
    (hcom : ∀ w ∈ was, w.com = ⟨0, c.id, c.decimals⟩) (a : WAcct) (ha : a ∈ was) (hs : InSub r a.fullName)
    (showClosed : Bool) (hshow : AllShown showClosed (86400 * d) was) (depth k : Nat) (hk : ∀ w ∈ was, w.fullName.length < k)
    (conv : Com → Amount → Int → Except Fault Amount) (rows : List (Amount × Amount × Str))
    (hrows : viewBalances conv showClosed was page (86400 * d) depth k a = .ok rows) :
    ∃ lines, out = textOf lines ∧ ∃ shown : List WAcct, shown.Nodup ∧
      (∀ v, v ∈ shown ↔ v = a ∨ (v ∈ was ∧ AncName a.fullName v.fullName ∧ ∃ n, n ≤ depth ∧ Level was a.fullName n v)) ∧
      List.Forall₂ (fun v (row : Amount × Amount × Str) => row.2.2 = v.fullName.drop a.fullName.length ∧ StandsWith c lines v.fullName row.1.int row.2.1.int) shown rows := by
  classical
  obtain ⟨L, dflt, decls, hA⟩ : ∃ L dflt decls, ResolvedAccounts dflt decls accts L := by
    obtain ⟨_, _, _, _, _, L, _, _, _, _, _, _, _, _, hA, _⟩ := hP
    exact ⟨L, _, _, hA⟩
  have hn := (resolved_spec _ _ _ _ hA).1
  have htree := C123_loaded cs dflt decls accts L was hA hwas
  set names := accts.map (·.fullName) with hnames
  have hown : ∀ v ∈ was, balanceAt page v (86400 * d) = ⟨ownUnits names compile (filtersOf fe l) st.txns v.fullName, ⟨0, c.id, c.decimals⟩⟩ :=
    fun v hv => page_own hP hc hno v (page_parent hwas hv).2.1 (hcom v hv) compile (filtersOf fe l) d hr
  have hkeep : ∀ v ∈ was, (showClosed || !wIsClosed was (86400 * d) k v) = true := by
    intro v hv
    rcases hshow with rfl | h
    · simp
    · have : ¬ wIsClosed was (86400 * d) k v = true := by
        rw [C124_closed was htree (86400 * d) k v hv (hk v hv)]
        rintro ⟨u, hu, _, cd, h1, h2⟩
        have := h u hu cd h1
        omega
      simp [this]
  have hbound : (was.map (fun w => (balanceAt page w (86400 * d)).int.natAbs)).sum ≤ 2 ^ 53 := by
    refine le_trans ?_ hbig
    have e : was.map (fun w => (balanceAt page w (86400 * d)).int.natAbs) = (was.map (·.fullName)).map fun x => (ownUnits names compile (filtersOf fe l) st.txns x).natAbs := by
      rw [List.map_map]
      refine List.map_congr_left ?_
      intro v hv
      rw [hown v hv]
      rfl
    rw [e]
    refine le_trans (List.sum_le_sum (g := fun x => ((booked names compile (filtersOf fe l) st.txns x).map fun e => (unitsOf e.1 e.2).natAbs).sum) ?_) ?_
    · intro x _
      unfold ownUnits
      refine (natAbs_sum _).trans ?_
      rw [List.map_map]
      exact Nat.le_refl _
    · unfold booked
      refine parts_le (fun (x : Str) (e : PTxn × PPost) => decide (mustFindAccount names (patternMatches e.2.account) e.2.account = .ok x ∧ Picks compile (filtersOf fe l) e.1 e.2))
        _ ?_ _ htree.nodup _
      intro x y e hx hy
      exact means_unique (of_decide_eq_true hx).1 (of_decide_eq_true hy).1
  obtain ⟨shown, s1, s2, total, s3, s4⟩ := C125_table conv showClosed was htree page (86400 * d) ⟨0, c.id, c.decimals⟩ depth a ha k hk _ rfl
    (by
      rintro v (rfl | hv)
      · rw [hown v ha]
      · rw [hown v hv.mem]) hbound
  rw [s3] at hrows
  injection hrows with hrows
  subst hrows
  have hv : ValidFilters compile (filtersOf fe l) := ⟨fun h => absurd hr.all.1 h, fun h => absurd hr.all.2 h⟩
  obtain ⟨r', lines, hask', e, ⟨⟨accs, wd, cw, k1, _, _, _, k5⟩⟩⟩ := C177_balance_text P compile st accts g hO hp c hc hdec fe w l toks tail args hw hl ht hv out hout
  have hrr : r' = r := by
    rcases hask with ⟨ha, hb⟩ | ⟨a, rest, rfl, hm⟩
    · rcases hask' with ⟨_, h'⟩ | ⟨_, _, h, _⟩
      · rw [h', hb]
      · rw [ha] at h; cases h
    · rcases hask' with ⟨h, _⟩ | ⟨a', rest', h, hm'⟩
      · cases h
      · cases h; exact means_unique hm' hm
  subst hrr
  have hdown : ∀ v, Down was (fun w => showClosed || !wIsClosed was (86400 * d) k w) a.fullName v ↔ v ∈ was ∧ AncName a.fullName v.fullName := by
    intro v
    have := page_down hA hwas _ hkeep a ha v.fullName
    constructor
    · intro h
      exact ⟨h.mem, (this.mp ⟨v, h, rfl⟩).2⟩
    · rintro ⟨h1, h2⟩
      obtain ⟨u, hu, eu⟩ := this.mpr ⟨(page_parent hwas h1).2.1, h2⟩
      rw [← htree.eq_of_name hu.mem h1 eu]
      exact hu
  have hin : ∀ v ∈ shown, v ∈ was ∧ InSub a.fullName v.fullName := by
    intro v hv
    rcases (s2 v).mp hv with rfl | ⟨h, _⟩
    · exact ⟨ha, .inl rfl⟩
    · exact ⟨h.mem, .inr ((hdown v).mp h).2⟩
  refine ⟨lines, e, shown, s1, ?_, ?_⟩
  · intro v
    rw [s2 v, hdown v, and_assoc]
  · rw [List.forall₂_map_right_iff, List.forall₂_same]
    intro v hvs
    obtain ⟨hvw, hvsub⟩ := hin v hvs
    refine ⟨rfl, ?_⟩
    obtain ⟨line, hline, o, x, o1, o2, e'⟩ := forall2_pick k5 ((k1 v.fullName).mpr ⟨(page_parent hwas hvw).2.1, inSub_trans hs hvsub, .inl hlev, .inl hz⟩)
    refine ⟨line, hline, o, x, ⟨_, _, _, e'⟩, ?_, ?_⟩
    · rw [hown v hvw]
      exact o1
    · obtain ⟨sub, t1, t2, t3⟩ := s4 v hvs
      have hfam := page_family hA hwas _ hkeep v hvw sub t1 t2
      have : total v = cumUnits names compile (filtersOf fe l) st.txns v.fullName := by
        unfold cumUnits
        rw [← perm_sum_int (hfam.map _), List.map_map, t3]
        refine congrArg List.sum (List.map_congr_left ?_)
        intro u hu
        have hu' : u ∈ was := by
          rcases (t2 u).mp hu with rfl | h
          · exact hvw
          · exact h.mem
        rw [hown u hu']
        rfl
      show (Amount.mk (total v) c).string = _
      rw [this]
      exact o2

/-- Non-vacuity: the table for Assets at the end of the third of January. -/
example : ∃ rows, viewBalances (fun _ _ _ => .error .err) false progWas progPage (86400 * 737426) 1 100 progAssets = .ok rows ∧
    rows.map (fun x => (x.1.int, x.2.1.int, x.2.2)) = [(0, -350, []), (-350, -350, str ":Cash")] ∧
    ∃ lines, str " 0.00 | -3.50 CAD | Assets\n-3.50 | -3.50 CAD | Assets:Cash\n" = textOf lines ∧ ∃ shown : List WAcct, shown.Nodup ∧
      (∀ v, v ∈ shown ↔ v = progAssets ∨ (v ∈ progWas ∧ AncName progAssets.fullName v.fullName ∧ ∃ n, n ≤ 1 ∧ Level progWas progAssets.fullName n v)) ∧
      List.Forall₂ (fun v (row : Amount × Amount × Str) => row.2.2 = v.fullName.drop progAssets.fullName.length ∧ StandsWith progCad lines v.fullName row.1.int row.2.1.int)
        shown rows := by
  obtain ⟨rows, hrows, hl⟩ : ∃ rows, viewBalances (fun _ _ _ => .error .err) false progWas progPage (86400 * 737426) 1 100 progAssets = .ok rows ∧
      rows.map (fun x => (x.1.int, x.2.1.int, x.2.2)) = [(0, -350, []), (-350, -350, str ":Cash")] := by
    have h : ((viewBalances (fun _ _ _ => .error .err) false progWas progPage (86400 * 737426) 1 100 progAssets).toOption.map
        fun rows => rows.map (fun x => (x.1.int, x.2.1.int, x.2.2))) = some [(0, -350, []), (-350, -350, str ":Cash")] := by
      decide +kernel
    cases e : viewBalances (fun _ _ _ => .error .err) false progWas progPage (86400 * 737426) 1 100 progAssets with
    | error x => rw [e] at h; cases h
    | ok rows => rw [e] at h; exact ⟨rows, rfl, Option.some.inj h⟩
  refine ⟨rows, hrows, hl, ?_⟩
  exact C196_page_table progInstall (fun _ => none) progState progAccts (progView fun _ => none) progPage (prog_opens _).1 prog_page prog_plain progCad
    (prog_opens fun _ => none).2 (by decide) (by unfold NoAssertions; decide +kernel) (by decide +kernel) rangeFlags (str "balance") [(str "z", str "true"), (str "e", str "2020/01/04")]
    [[str "-z"], [str "-e=2020/01/04"]] [str "Assets"] [str "Assets"] (by decide)
    (.cons (.bare (d := ['-']) (.inl rfl) (by decide)) (.cons (.equals (d := ['-']) (name := str "e") (v := str "2020/01/04") (k := .date) (.inl rfl) (by decide) (by decide)) .nil))
    (.plain (.inr (by decide))) (by decide) (by decide) 737426 ⟨by decide +kernel, by decide⟩ _ (ok_of_opt (by decide +kernel)) (str "Assets")
    (.inr ⟨_, _, rfl, ok_of_opt (by decide +kernel)⟩) _ progWas prog_was (by decide) progAssets (by decide) (.inl rfl) false (.inr (by decide)) 1 100 (by decide) _ rows hrows

end Verif
