import Verif.Props.Ranges
/-
C194: the books balance.
-/
namespace Verif

/-! ## Lemmas -/

/-- In a ledger of one commodity that opens, the postings of every transaction add up to zero and their accounts are found. -/
theorem opened_balanced {P : Install} {compile : Compile} {st : LoadState} {accts : List Acct} {g : LedgerView} (hO : Opened P compile st accts g)
    {c : Com} (hc : OneCom st accts c) (t : PTxn) (ht : t ∈ st.txns) :
    (t.postings.map (unitsOf t)).sum = 0 ∧ ∀ p ∈ t.postings, ∃ a, Means (accts.map (·.fullName)) p.account a := by
  obtain ⟨hl, items, db, ord, fuel, L, walk, fin, sorted, bound, location, order, _, _, _, _, hA, hsome, hwalk, hres, hbound, rfl⟩ := hO
  obtain ⟨hn, _, _, _, hroot⟩ := resolved_spec _ _ _ _ hA
  have hw : walk.Nodup := hwalk.nodup_iff.mpr hn
  have hcomOf : ∀ a ∈ accts.map (·.fullName), st.comOf accts a = c := by
    intro a ha
    obtain ⟨x, hx, rfl⟩ := List.mem_map.mp ha
    unfold LoadState.comOf
    rw [getAcct_of_mem accts hn x hx]
    simp [hc.accounts x hx]
  have hcf : ∀ x a, (Env.ofAccounts accts (st.comOf accts) patternMatches (convWith db ord fuel)).find x = .ok a →
      (Env.ofAccounts accts (st.comOf accts) patternMatches (convWith db ord fuel)).comOf a = c :=
    fun x a h => hcomOf a (mustFind_mem hn h)
  have hp := heapOf_parsed st.txns
  obtain ⟨t', ht', hlaid⟩ := forall2_mem_right (heapOf_laid st.txns) t ht
  have hl4 := hlaid.2.2.2
  obtain ⟨st', h1, h2, _⟩ := load_parts hres
  have hacc := (phase1 hp h1).1 t' ht'
  have hq : ∀ r ∈ t'.postings, ∀ q, (heapOf st.txns r).quantity = some q → q.com = c := by
    intro r hr q hq
    obtain ⟨p, hpm, e⟩ := forall2_pick hl4 hr
    rw [e] at hq
    exact hc.amounts t ht p hpm q hq
  have hbal := (C26_loaded_balanced _ _ _ _ _ _ hp hw hres t' ht' c (fun r _ a ha => hcf _ _ ha) hq).2
  rw [quantitiesOf_sum] at hbal
  constructor
  · rw [← hbal]
    have hu : ∀ r ∈ t'.postings, ∀ p ∈ t.postings, heapOf st.txns r = dataOf t.posted p → (fin.heap r).quantity = some ⟨unitsOf t p, c⟩ := by
      intro r hr p hpm e
      exact loaded_units (e := (t, p)) hw hres hcf hc.amounts ht ⟨e, t', ht', hr, hlaid⟩
    clear hbal hq hacc
    generalize t'.postings = rs at hl4 hu
    generalize hps : t.postings = ps at hl4 hu
    clear hps
    induction hl4 with
    | nil => rfl
    | cons hab _ ih =>
      rw [List.map_cons, List.map_cons, List.sum_cons, List.sum_cons, ih fun r hr p hpm => hu r (by simp [hr]) p (by simp [hpm])]
      congr 1
      unfold qint
      rw [hu _ (by simp) _ (by simp) hab]
  · intro p hpm
    obtain ⟨r, hr, e⟩ := forall2_mem_right hl4 p hpm
    obtain ⟨a, ha⟩ := hacc.1 r hr
    unfold accountOf at ha
    rw [e] at ha
    exact ⟨a, ha⟩

theorem inSub_root (a : Str) : InSub (str "Root") a := by
  by_cases h : a = str "Root"
  · exact .inl h
  · exact .inr ⟨h, .inl rfl⟩

/-- Without an expression for tags whole transactions are selected. -/
theorem picked_balanced {compile : Compile} {f : Filters} (hf : f.tag = []) (ts : List PTxn) (h : ∀ t ∈ ts, (t.postings.map (unitsOf t)).sum = 0) [DecidablePred fun e : PTxn × PPost => Picks compile f e.1 e.2] :
    (((allPostings ts).filter fun e => decide (Picks compile f e.1 e.2)).map fun e => unitsOf e.1 e.2).sum = 0 := by
  unfold allPostings
  induction ts with
  | nil => rfl
  | cons t ts ih =>
    rw [List.flatMap_cons, List.filter_append, List.map_append, List.sum_append, ih fun u hu => h u (by simp [hu]), add_zero]
    by_cases hp : ∃ p, Picks compile f t p
    · have hall : ∀ p, Picks compile f t p := by
        obtain ⟨p, h1, h2, h3, _⟩ := hp
        exact fun q => ⟨h1, h2, h3, fun hh => absurd hf hh⟩
      rw [List.filter_eq_self.mpr, List.map_map]
      · exact h t (by simp)
      · intro e he
        obtain ⟨p, _, rfl⟩ := List.mem_map.mp he
        exact decide_eq_true (hall p)
    · rw [List.filter_eq_nil_iff.mpr]
      · rfl
      · intro e he
        obtain ⟨p, _, rfl⟩ := List.mem_map.mp he
        rw [decide_eq_true_eq]
        exact fun hh => hp ⟨p, hh⟩

theorem root_total {P : Install} {compile : Compile} {st : LoadState} {accts : List Acct} {g : LedgerView} (hO : Opened P compile st accts g)
    {c : Com} (hc : OneCom st accts c) {f : Filters} (hf : f.tag = []) : cumUnits (accts.map (·.fullName)) compile f st.txns (str "Root") = 0 := by
  classical
  have hn : (accts.map (·.fullName)).Nodup := by
    obtain ⟨_, _, _, _, _, _, _, _, _, _, _, _, _, _, _, _, hA, _, _, _, _, rfl⟩ := hO
    exact (resolved_spec _ _ _ _ hA).1
  have hbal := opened_balanced hO hc
  set names := accts.map (·.fullName) with hnames
  rw [← picked_balanced (compile := compile) hf st.txns fun t ht => (hbal t ht).1]
  have hfam : familyOf names (str "Root") = names := by
    unfold familyOf
    rw [List.filter_eq_self]
    intro a _
    exact decide_eq_true (inSub_root a)
  unfold cumUnits
  rw [hfam]
  set key : PTxn × PPost → Str := fun e => ((mustFindAccount names (patternMatches e.2.account) e.2.account).toOption).getD [] with hkey
  have hmeans : ∀ e ∈ (allPostings st.txns).filter (fun e => decide (Picks compile f e.1 e.2)), Means names e.2.account (key e) := by
    intro e he
    have he := (List.mem_filter.mp he).1
    unfold allPostings at he
    obtain ⟨t, ht, he⟩ := List.mem_flatMap.mp he
    obtain ⟨p, hp, rfl⟩ := List.mem_map.mp he
    obtain ⟨a, ha⟩ := (hbal t ht).2 p hp
    have : key (t, p) = a := by
      rw [hkey]
      show ((mustFindAccount names (patternMatches p.account) p.account).toOption).getD [] = a
      rw [show mustFindAccount names (patternMatches p.account) p.account = .ok a from ha]
      rfl
    rw [this]
    exact ha
  rw [← sum_over_rows key (fun e => unitsOf e.1 e.2) _ names hn fun e he => mustFind_mem hn (hmeans e he)]
  refine congrArg List.sum (List.map_congr_left ?_)
  intro a _
  unfold ownUnits booked
  congr 2
  rw [List.filter_filter]
  refine List.filter_congr ?_
  intro e he
  rw [← Bool.coe_iff_coe, Bool.and_eq_true, decide_eq_true_iff, decide_eq_true_iff, decide_eq_true_iff]
  constructor
  · rintro ⟨h1, h2⟩
    refine ⟨?_, h2⟩
    have := hmeans e (List.mem_filter.mpr ⟨he, decide_eq_true h2⟩)
    exact means_unique this h1
  · rintro ⟨h1, h2⟩
    refine ⟨?_, h2⟩
    have := hmeans e (List.mem_filter.mpr ⟨he, decide_eq_true h2⟩)
    rw [h1] at this
    exact this

/-- **C194** In a ledger of one commodity the books balance: whatever dates and payees are selected, `coin balance -z` of all accounts shows the cumulative
total zero on the line of Root. -/
theorem C194_books_balance (P : Install) (compile : Compile) (st : LoadState) (accts : List Acct) (g : LedgerView) (hO : Opened P compile st accts g)
    (hp : PlainNames (accts.map (·.fullName))) (c : Com) (hc : OneCom st accts c) (hdec : c.decimals ≤ 50)
    (fe : FlagEnv) (w : Str) (l : List (Str × Str)) (toks : List (List Str)) (tail args : List Str) (hw : commandOf w = some .balance)
    (hl : List.Forall₂ (Written fe (flagsOf .balance)) l toks) (ht : Remaining tail args) (hv : ValidFilters compile (filtersOf fe l))
    (htag : (filtersOf fe l).tag = []) (hroot : Asked (accts.map (·.fullName)) args (str "Root")) (hz : boolFlag l (str "z") = true) (hlev : 0 ≤ fe.intFlag l (str "l") 0)
    (out : Str) (hout : coinMain fe g (w :: (toks.flatten ++ tail)) = .ok out) :
    ∃ lines own, out = textOf lines ∧ StandsWith c lines (str "Root") own 0 := by
  obtain ⟨r, lines, hask, e, ⟨⟨accs, wd, cw, k1, _, _, _, k5⟩⟩⟩ := C177_balance_text P compile st accts g hO hp c hc hdec fe w l toks tail args hw hl ht hv out hout
  have hrr : r = str "Root" := by
    rcases hroot with ⟨ha, hb⟩ | ⟨a, rest, rfl, hm⟩
    · rcases hask with ⟨_, h'⟩ | ⟨_, _, h, _⟩
      · exact h'
      · rw [ha] at h; cases h
    · rcases hask with ⟨h, _⟩ | ⟨a', rest', h, hm'⟩
      · cases h
      · cases h; exact means_unique hm' hm
  subst hrr
  have hm : str "Root" ∈ accts.map (·.fullName) := by
    obtain ⟨_, _, _, _, _, _, _, _, _, _, _, _, _, _, _, _, hA, _, _, _, _, rfl⟩ := hO
    exact (resolved_spec _ _ _ _ hA).2.2.2.2
  have hlv : fe.intFlag l (str "l") 0 = 0 ∨ ((splitOn ':' (str "Root")).length : Int) ≤ fe.intFlag l (str "l") 0 := by
    have : ((splitOn ':' (str "Root")).length : Int) = 1 := by decide
    omega
  obtain ⟨line, hline, o, x, o1, o2, e'⟩ := forall2_pick k5 ((k1 (str "Root")).mpr ⟨hm, .inl rfl, hlv, .inl hz⟩)
  refine ⟨lines, _, e, line, hline, o, x, ⟨_, _, _, e'⟩, o1, ?_⟩
  rw [← root_total hO hc htag]
  exact o2

/-- Non-vacuity: all accounts up to the fourth of January. -/
example : ∃ lines own,
    str " 0.00 |  0.00 CAD | Root\n 0.00 | -3.50 CAD | Assets\n-3.50 | -3.50 CAD | Assets:Cash\n 3.50 |  3.50 CAD | Food\n 0.00 |  0.00 CAD | Unbalanced\n" = textOf lines ∧
    StandsWith progCad lines (str "Root") own 0 :=
  C194_books_balance progInstall (fun _ => none) progState progAccts (progView fun _ => none) (prog_opens _).1 prog_plain progCad (prog_opens fun _ => none).2 (by decide)
    rangeFlags (str "balance") [(str "z", str "true"), (str "e", str "2020/01/04")] [[str "-z"], [str "-e", str "2020/01/04"]] [] []
    (by decide) (.cons (.bare (d := ['-']) (.inl rfl) (by decide)) (.cons (.next (d := ['-']) (name := str "e") (k := .date) (.inl rfl) (by decide) (by decide) (by decide)) .nil)) .nothing
    ⟨fun h => absurd (by decide +kernel) h, fun h => absurd (by decide +kernel) h⟩ (by decide) (.inl ⟨rfl, rfl⟩) (by decide) (by decide) _ (ok_of_opt (by decide +kernel))

end Verif
