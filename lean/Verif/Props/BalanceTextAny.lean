import Verif.Props.BalanceText
import Verif.Props.RegisterText
/-
C188: the text of the balance report over any commodities, to the character.
-/
namespace Verif

/-! ## Specification -/

/-- The accounts of the report for `r`: those at or below it that `-l` and `-z` leave. -/
def ReportedAny (names : List Str) (cum : Str → Amount) (level : Int) (zero : Bool) (r a : Str) : Prop :=
  a ∈ names ∧ InSub r a ∧ (level = 0 ∨ ((splitOn ':' a).length : Int) ≤ level) ∧ (zero = true ∨ (cum a).int ≠ 0)

/-- `n` is the largest value of `s` for the accounts in `S`. -/
def Largest (S : Str → Prop) (s : Str → Nat) (n : Nat) : Prop := (∀ a, S a → s a ≤ n) ∧ ∃ a, S a ∧ s a = n

/-- The report, to the character: one line for each account, in the order of names; the two columns of totals are right-adjusted and as wide
as the longest total of all accounts at or below `r`, printed or not, each in the commodity of its account; the commodity of the account,
padded to the number of bytes of the longest one; the full name. -/
structure ExactAny (names : List Str) (comOf : Str → Com) (own cum : Str → Amount) (level : Int) (zero : Bool) (r : Str) (lines : List Str) : Prop where
  exact : ∃ accs w cw cur, (∀ a, a ∈ accs ↔ ReportedAny names cum level zero r a) ∧ accs.Pairwise NameBefore ∧
    Longest (fun a => a ∈ names ∧ InSub r a) (fun a => (own a).string) w ∧ Longest (fun a => a ∈ names ∧ InSub r a) (fun a => (cum a).string) cw ∧
    Largest (fun a => a ∈ names ∧ InSub r a) (fun a => blen (comOf a).id) cur ∧
    List.Forall₂ (fun a line => ∃ o x, (own a).string = .ok o ∧ (cum a).string = .ok x ∧
      line = rep (w - o.length) ' ' ++ o ++ str " | " ++ rep (cw - x.length) ' ' ++ x ++ str " " ++ (comOf a).id ++
        rep (cur - (comOf a).id.length) ' ' ++ str " | " ++ a) accs lines

/-- The totals: an account's own total adds up the amounts of its selected postings, each converted into its commodity; its cumulative
total adds to it those of the accounts directly below, converted. -/
structure TotalsAny (names : List Str) (comOf : Str → Com) (conv : Conv) (compile : Compile) (f : Filters) (ts : List PTxn)
    (r : Str) (own cum : Str → Amount) : Prop where
  ownTotal : ∀ a ∈ names, InSub r a → (own a).com = comOf a ∧ ∃ amounts,
    List.Forall₂ (fun e q => AmountOf names comOf conv e.1 e.2 q) (booked names compile f ts a) amounts ∧ SumOf conv (comOf a) amounts (own a).int
  cumTotal : ∀ a ∈ names, InSub r a → (cum a).com = comOf a ∧ ∃ n,
    SumOf conv (comOf a) ((childrenOf names a).map cum) n ∧ (cum a).int = (own a).int + n

/-! ## The widths -/

theorem balWidth_longest_any {comOf : Str → Com} {f : Str → Amount} : ∀ (l : List Str) (w : Int), l ≠ [] →
    (∀ a ∈ l, (f a).com = comOf a ∧ (comOf a).decimals ≤ 50) →
    balWidth comOf (fun a => some (f a)) l = .ok w → ∃ n : Nat, w = n ∧ Longest (· ∈ l) (fun a => (f a).string) n := by
  intro l
  induction l with
  | nil => intro _ h; exact absurd rfl h
  | cons a l ih =>
    intro w _ hc h
    rw [balWidth] at h
    simp only at h
    obtain ⟨v, h1, h⟩ := bind_ok.mp h
    obtain ⟨r, h2, h3⟩ := bind_ok.mp h
    obtain ⟨e, hd⟩ := hc a (by simp)
    obtain ⟨s, hs, hw⟩ := C08_width (f a) (by rw [e]; exact hd) (width_small h1)
    rw [e] at hw
    have hv : v = s.length := Except.ok.inj (h1.symm.trans hw)
    cases h3
    by_cases hl : l = []
    · subst hl
      cases h2
      refine ⟨s.length, ?_, ?_, a, s, by simp, hs, rfl⟩
      · rw [hv]; split <;> omega
      · intro b hb
        simp only [List.mem_singleton] at hb
        subst hb
        exact ⟨s, hs, Nat.le_refl _⟩
    · obtain ⟨n, rfl, k1, b, u, k2, k3, k4⟩ := ih r hl (fun b hb => hc b (by simp [hb])) h2
      by_cases hgt : v > n
      · rw [if_pos hgt]
        refine ⟨s.length, hv, ?_, a, s, by simp, hs, rfl⟩
        intro b hb
        rcases List.mem_cons.mp hb with rfl | hb
        · exact ⟨s, hs, Nat.le_refl _⟩
        · obtain ⟨t, e1, e2⟩ := k1 b hb
          exact ⟨t, e1, by omega⟩
      · rw [if_neg hgt]
        refine ⟨n, rfl, ?_, b, u, by simp [k2], k3, k4⟩
        intro b hb
        rcases List.mem_cons.mp hb with rfl | hb
        · exact ⟨s, hs, by omega⟩
        · exact k1 b hb

theorem curWidth_largest {comOf : Str → Com} {f : Str → Amount} : ∀ l : List Str, l ≠ [] → (∀ a ∈ l, (f a).com = comOf a) →
    Largest (· ∈ l) (fun a => blen (comOf a).id) (curWidth (fun a => some (f a)) l) := by
  intro l
  induction l with
  | nil => intro h; exact absurd rfl h
  | cons a l ih =>
    intro _ hc
    rw [curWidth]
    simp only
    rw [hc a (by simp)]
    by_cases hl : l = []
    · subst hl
      rw [curWidth]
      refine ⟨?_, a, by simp, by simp⟩
      intro b hb
      simp only [List.mem_singleton] at hb
      subst hb
      simp
    · obtain ⟨k1, b, k2, k3⟩ := ih hl (fun b hb => hc b (by simp [hb]))
      by_cases hgt : blen (comOf a).id ≥ curWidth (fun a => some (f a)) l
      · rw [Nat.max_eq_left hgt]
        refine ⟨?_, a, by simp, rfl⟩
        intro b hb
        rcases List.mem_cons.mp hb with rfl | hb
        · exact Nat.le_refl _
        · exact Nat.le_trans (k1 b hb) hgt
      · rw [Nat.max_eq_right (by omega)]
        refine ⟨?_, b, by simp [k2], k3⟩
        intro x hb
        rcases List.mem_cons.mp hb with rfl | hb
        · show blen _ ≤ _; omega
        · exact k1 x hb

/-! ## The text -/

/-- Whenever the command prints something, its totals are those of C145 and its text is exact for them. -/
theorem balanceOut_exact {dflt : Str} {decls accts : List Acct} {L : Links} (h : ResolvedAccounts dflt decls accts L) (hp : PlainNames (accts.map (·.fullName)))
    (env : Env) (compile : Compile) (v : View) (f : Filters) (hv : ValidFilters compile f) (level : Int) (fuel : Nat) (zero : Bool) (r : Str)
    (hr : r ∈ accts.map (·.fullName)) (hs : ∀ a ∈ accts.map (·.fullName), InDateOrder v.date (v.postings a))
    (hf : treeFuel (accts.map (·.fullName)) ≤ fuel) (hd : ∀ a ∈ accts.map (·.fullName), (env.comOf a).decimals ≤ 50) (lines : List Str)
    (hrun : balanceOut env compile v L fuel f level zero r = .ok lines) :
    ∃ own cum : Str → Amount, ExactAny (accts.map (·.fullName)) env.comOf own cum level zero r lines ∧
      ∀ a ∈ accts.map (·.fullName), InSub r a →
        (own a).com = env.comOf a ∧ SumOf env.conv (env.comOf a) ((selectedOf compile v f a).map v.qty) (own a).int ∧
        (cum a).com = env.comOf a ∧
        ∃ n, SumOf env.conv (env.comOf a) ((childrenOf (accts.map (·.fullName)) a).map cum) n ∧ (cum a).int = (own a).int + n := by
  have t := TreeOK.of h
  have hsort : ∀ p, (L.children p).Pairwise (fun a b => strLt (parentAndName b).2 (parentAndName a).2 = false) := by
    obtain ⟨_, _, _, _, _, _, _, _, _, hs⟩ := h; exact fun p => (hs p).2
  unfold balanceOut at hrun
  dsimp only at hrun
  obtain ⟨totals, h1, hrun⟩ := bind_ok.mp hrun
  obtain ⟨cumm, h2, hrun⟩ := bind_ok.mp hrun
  have hall : balanceCmd env compile v L fuel f 0 true r = .ok ((subtree L.children fuel r).map fun a => (a, totals a, cumm a)) := by
    unfold balanceCmd
    dsimp only
    rw [h1]
    show Except.bind (addUp env L.parent totals _) _ = _
    rw [h2]
    exact balanceRows_all _ _ _ _ _
  obtain ⟨own, cum, e, hsums⟩ := C145_balance_converts h env compile v f hv 0 fuel true r hr hs hf _ hall
  set names := accts.map (·.fullName) with hnames
  have hmem := t.mem_walk r hr
  have hne : walkOf names L r ≠ [] := List.ne_nil_of_mem ((hmem r).mpr ⟨hr, .inl rfl⟩)
  rw [t.walk_fuel fuel hf r hr] at hrun e
  have he : ∀ a ∈ walkOf names L r, totals a = some (own a) ∧ cumm a = some (cum a) := by
    have e1 := congrArg (List.map (·.1)) e
    rw [List.map_map, List.map_map] at e1
    have i : ∀ (g : Str → Str × Option Amount × Option Amount) (l : List Str), (∀ a, (g a).1 = a) → l.map ((·.1) ∘ g) = l := by
      intro g l hg
      conv_rhs => rw [← List.map_id l]
      exact List.map_congr_left (fun a _ => hg a)
    rw [i _ _ (fun _ => rfl), i _ _ (fun _ => rfl)] at e1
    rw [← e1] at e
    intro a ha
    have := List.map_inj_left.mp e a ha
    injection this with _ h2
    injection h2 with h2 h3
    exact ⟨h2, h3⟩
  have hcom : ∀ a ∈ walkOf names L r, (own a).com = env.comOf a ∧ (cum a).com = env.comOf a := by
    intro a ha
    obtain ⟨g1, _, g2, _⟩ := hsums a ((hmem a).mp ha).1 ((hmem a).mp ha).2
    exact ⟨g1, g2⟩
  rw [balWidth_congr (comOf' := env.comOf) (m' := fun a => some (own a)) _ (fun a ha => ⟨(he a ha).1, rfl⟩),
    balWidth_congr (comOf' := env.comOf) (m' := fun a => some (cum a)) _ (fun a ha => ⟨(he a ha).2, rfl⟩),
    curWidth_congr (m' := fun a => some (cum a)) _ (fun a ha => (he a ha).2),
    balanceRows_congr (t' := fun a => some (own a)) (k' := fun a => some (cum a)) _ he] at hrun
  obtain ⟨w, h3, hrun⟩ := bind_ok.mp hrun
  obtain ⟨cw, h4, hrun⟩ := bind_ok.mp hrun
  obtain ⟨rows, h5, ht⟩ := bind_ok.mp hrun
  obtain ⟨n, rfl, hw⟩ := balWidth_longest_any _ _ hne (fun a ha => ⟨(hcom a ha).1, hd a ((hmem a).mp ha).1⟩) h3
  obtain ⟨m, rfl, hcw⟩ := balWidth_longest_any _ _ hne (fun a ha => ⟨(hcom a ha).2, hd a ((hmem a).mp ha).1⟩) h4
  have hcur := curWidth_largest (comOf := env.comOf) (f := cum) _ hne (fun a ha => (hcom a ha).2)
  obtain ⟨r1, r2, r3⟩ := balanceRows_exact _ h5
  have hL : ∀ {s : Str → Except Fault Str} {w : Nat}, Longest (· ∈ walkOf names L r) s w → Longest (fun a => a ∈ names ∧ InSub r a) s w := by
    rintro s w ⟨k1, a, u, k2, k3⟩
    exact ⟨fun a ha => k1 a ((hmem a).mpr ha), a, u, (hmem a).mp k2, k3⟩
  have hdep : ∀ a ∈ names, depth L.parent fuel a = .ok (splitOn ':' a).length := fun a ha =>
    C23_depth_partial _ _ _ _ h a ha (hp a ha).1 (hp a ha).2 fuel (by have := le_maxLen ha; unfold treeFuel at hf; omega)
  refine ⟨own, cum, ⟨rows.map (·.1), n, m, curWidth (fun a => some (cum a)) (walkOf names L r), ?_, (t.walk_sorted hp hsort r hr).sublist r1, hL hw, hL hcw, ?_, ?_⟩, hsums⟩
  · intro a
    constructor
    · intro ha
      have hm := (hmem a).mp (r1.subset ha)
      rcases r3 a (r1.subset ha) with hx | hx
      · obtain ⟨g1, g2⟩ := hx.mp ha
        refine ⟨hm.1, hm.2, ?_, ?_⟩
        · rcases g1 with g1 | ⟨d, g1, g3⟩
          · exact .inl g1
          · right
            rw [hdep a hm.1] at g1
            cases g1
            exact g3
        · rcases g2 with g2 | g2
          · exact .inl g2
          · right
            simpa [entryNonZero] using g2
      · exact absurd (t.walk_nodup r hr) hx
    · rintro ⟨g1, g2, g3, g4⟩
      have hw := (hmem a).mpr ⟨g1, g2⟩
      rcases r3 a hw with hx | hx
      · refine hx.mpr ⟨?_, ?_⟩
        · rcases g3 with g3 | g3
          · exact .inl g3
          · exact .inr ⟨_, hdep a g1, g3⟩
        · rcases g4 with g4 | g4
          · exact .inl g4
          · right
            simpa [entryNonZero] using g4
      · exact absurd (t.walk_nodup r hr) hx
  · exact ⟨fun a ha => hcur.1 a ((hmem a).mpr ha), by
      obtain ⟨a, k1, k2⟩ := hcur.2
      exact ⟨a, (hmem a).mp k1, k2⟩⟩
  · rw [List.forall₂_map_left_iff]
    refine forall2_imp_mem (linesOf_rows ht) ?_
    intro x hx line hline
    rw [r2 x hx] at hline
    have hm := r1.subset (List.mem_map_of_mem (f := (·.1)) hx)
    unfold balanceLine at hline
    simp only at hline
    obtain ⟨o', h6, hline⟩ := bind_ok.mp hline
    obtain ⟨x', h7, hline⟩ := bind_ok.mp hline
    obtain ⟨o, e1, rfl⟩ := amountStar_inv h6
    obtain ⟨y, e2, rfl⟩ := amountStar_inv h7
    obtain ⟨o2, e3, l1⟩ := hw.1 x.1 hm
    obtain ⟨y2, e4, l2⟩ := hcw.1 x.1 hm
    cases e3.symm.trans e1
    cases e4.symm.trans e2
    injection hline with hline
    refine ⟨o, y, e1, e2, ?_⟩
    rw [← hline]
    have p1 : ∀ (n : Nat) (s : Str), s.length ≤ n → padStar n s = rep (n - s.length) ' ' ++ s := by
      intro n s _
      unfold padStar padLeft
      rw [if_neg (by omega)]
      rfl
    rw [p1 _ _ l1, p1 _ _ l2]
    unfold padRight
    simp only [List.append_assoc]

/-- **C188** The balance report over any commodities, to the character: whenever the command prints something, it prints exactly the lines of
`ExactAny` for the account asked for and totals that are as `TotalsAny` says. -/
theorem C188_balance_text (P : Install) (compile : Compile) (st : LoadState) (accts : List Acct) (g : LedgerView) (hO : Opened P compile st accts g)
    (hp : PlainNames (accts.map (·.fullName))) (hdec : ∀ a ∈ accts.map (·.fullName), (st.comOf accts a).decimals ≤ 50)
    (fe : FlagEnv) (w : Str) (l : List (Str × Str)) (toks : List (List Str)) (tail args : List Str) (hw : commandOf w = some .balance)
    (hl : List.Forall₂ (Written fe (flagsOf .balance)) l toks) (ht : Remaining tail args)
    (hv : ValidFilters compile (filtersOf fe l)) (out : Str) (hout : coinMain fe g (w :: (toks.flatten ++ tail)) = .ok out) :
    ∃ conv r own cum lines, Rates st conv ∧ Asked (accts.map (·.fullName)) args r ∧ out = textOf lines ∧
      TotalsAny (accts.map (·.fullName)) (st.comOf accts) conv compile (filtersOf fe l) st.txns r own cum ∧
      ExactAny (accts.map (·.fullName)) (st.comOf accts) own cum (fe.intFlag l (str "l") 0) (boolFlag l (str "z")) r lines := by
  classical
  have hnames : g.names = accts.map (·.fullName) ∧ g.matcher = patternMatches := by
    obtain ⟨_, _, _, _, _, _, _, _, _, _, _, _, _, _, _, _, _, _, _, _, _, rfl⟩ := hO
    exact ⟨rfl, rfl⟩
  obtain ⟨hld, items, db, ord, fuel, L, walk, fin, sorted, bound, location, order, hi1, hi2, hi3, hi4, hA, hsome, hwalk, hres, hbound, rfl⟩ := hO
  obtain ⟨hn, _, _, _, hroot⟩ := resolved_spec _ _ _ _ hA
  have hwn : walk.Nodup := hwalk.nodup_iff.mpr hn
  have hp' := heapOf_parsed st.txns
  unfold coinMain at hout
  rw [dispatch_written hw hl ht] at hout
  have hout : (balanceMain fe (ledgerView _ compile L fin (txnsFrom 0 st.txns) bound location order) l args).bind (fun ls => .ok (textOf ls)) = .ok out := hout
  obtain ⟨lines, hb, ho⟩ := bind_ok.mp hout
  injection ho with ho
  unfold balanceMain at hb
  obtain ⟨r, hr, hb⟩ := bind_ok.mp hb
  have hask := (asked_of hnames.1 hnames.2).mp hr
  have hrm : r ∈ accts.map (·.fullName) := by
    rcases hask with ⟨_, rfl⟩ | ⟨a, rest, _, hf⟩
    · exact hroot
    · exact mustFind_mem hn hf
  set env := Env.ofAccounts accts (st.comOf accts) patternMatches (convWith db ord fuel) with henv
  have hfuel : treeFuel (accts.map (·.fullName)) ≤ bound :=
    treeFuel_le ⟨_, hroot⟩ (by intro x hx; obtain ⟨a, ha, rfl⟩ := List.mem_map.mp hx; exact hbound a ha)
  set v := viewOf (fun n => (parseTags n).toTags) fin (txnsFrom 0 st.txns) with hvdef
  have hsort : ∀ a ∈ accts.map (·.fullName), InDateOrder v.date (v.postings a) := by
    intro a _
    obtain ⟨st', h1, h2, _⟩ := load_parts hres
    obtain ⟨_, hb, hs1, _⟩ := phase1 hp' h1
    obtain ⟨g1, _, g3, _⟩ := phase2 hp' hwn h1 h2
    show InDateOrder (fun p => (fin.heap p).posted) (fin.books.postings a)
    rw [g1]
    have hd : ∀ p, (fin.heap p).posted = (heapOf st.txns p).posted := fun p => ((g3 p).1).trans (hs1 p).1
    unfold InDateOrder
    simp only [hd]
    exact hb.sorted a
  have hb : balanceOut env compile v L bound (filtersOf fe l) (fe.intFlag l (str "l") 0) (boolFlag l (str "z")) r = .ok lines := hb
  obtain ⟨own, cum, k1, k2⟩ := balanceOut_exact hA hp env compile v (filtersOf fe l) hv _ bound _ r hrm hsort hfuel hdec lines hb
  refine ⟨env.conv, r, own, cum, lines, ⟨items, db, ord, fuel, hi1, hi2, hi3, hi4, rfl⟩, hask, ho.symm, ⟨?_, ?_⟩, k1⟩
  · intro a ha hs
    obtain ⟨g1, ⟨ns, g2, g3⟩, _⟩ := k2 a ha hs
    refine ⟨g1, ?_⟩
    obtain ⟨rs, h1, h2⟩ := loaded_posts hwn hres a (fun r => Selected compile v (filtersOf fe l) r) (fun e => Picks compile (filtersOf fe l) e.1 e.2) (by
      rintro r ⟨t, p⟩ hst
      obtain ⟨s1, s2, s3, ⟨t', s4, s5, _⟩, _⟩ := loaded_shown hwn hres hst
      unfold Selected Picks
      simp only [hvdef, viewOf, s4, Option.map_some, Option.getD_some, s1, s3, s5.2.1, s5.2.2.1, toTags_getD])
    have h1 : (selectedOf compile v (filtersOf fe l) a).Perm rs := by unfold selectedOf; exact h1
    obtain ⟨ns', q1, q2⟩ := forall2_perm_sum (h1.map v.qty) g2
    have h3 : List.Forall₂ (Stands (heapOf st.txns) (txnsFrom 0 st.txns)) rs (booked (accts.map (·.fullName)) compile (filtersOf fe l) st.txns a) := by
      unfold booked; convert h2; rfl
    refine ⟨rs.map v.qty, ?_, ns', q1, by rw [g3, q2]⟩
    rw [List.forall₂_map_right_iff]
    exact h3.flip.imp fun e r hre => loaded_amount hwn hres (fun _ => rfl) hre
  · intro a ha hs
    obtain ⟨_, _, g3, g4⟩ := k2 a ha hs
    exact ⟨g3, g4⟩

/-! ## There is only one such text -/

theorem largest_unique {S : Str → Prop} {s : Str → Nat} {n n' : Nat} (h : Largest S s n) (h' : Largest S s n') : n = n' := by
  obtain ⟨h1, a, h2, h3⟩ := h
  obtain ⟨k1, b, k2, k3⟩ := h'
  have := h1 b k2
  have := k1 a h2
  omega

/-- **C188** The report is determined by the accounts, their totals and the flags. -/
theorem C188_unique (names : List Str) (comOf : Str → Com) (own cum : Str → Amount) (level : Int) (zero : Bool) (r : Str) (lines lines' : List Str)
    (h : ExactAny names comOf own cum level zero r lines) (h' : ExactAny names comOf own cum level zero r lines') : lines = lines' := by
  obtain ⟨⟨accs, w, cw, cur, h1, h2, h3, h4, h6, h5⟩⟩ := h
  obtain ⟨⟨accs', w', cw', cur', k1, k2, k3, k4, k6, k5⟩⟩ := h'
  have hn : ∀ {l : List Str}, l.Pairwise NameBefore → l.Nodup := by
    intro l hl
    exact hl.imp (fun hab e => by subst e; exact nameBefore_asymm hab hab)
  have hperm : accs.Perm accs' := by
    rw [List.perm_ext_iff_of_nodup (hn h2) (hn k2)]
    intro a
    rw [h1, k1]
  have e : accs = accs' := List.Perm.eq_of_pairwise (fun a b _ _ hab hba => absurd hba (nameBefore_asymm hab)) h2 k2 hperm
  subst e
  cases longest_unique h3 k3
  cases longest_unique h4 k4
  cases largest_unique h6 k6
  clear h1 h2 h3 h4 h6 k1 k2 k3 k4 k6 hperm
  induction h5 generalizing lines' with
  | nil => cases k5; rfl
  | cons hx _ ih =>
    cases k5 with
    | cons hy hrest =>
      rw [ih _ hrest]
      obtain ⟨o, x, a1, a2, rfl⟩ := hx
      obtain ⟨o', x', b1, b2, rfl⟩ := hy
      cases a1.symm.trans b1
      cases a2.symm.trans b2
      rfl

/-- Totals as `TotalsAny` says are the same, account by account. -/
theorem totalsAny_unique {dflt : Str} {decls accts : List Acct} {L : Links} (h : ResolvedAccounts dflt decls accts L) {comOf : Str → Com} {conv : Conv} {compile : Compile}
    {f : Filters} {ts : List PTxn} {r : Str} {own cum own' cum' : Str → Amount} (k : TotalsAny (accts.map (·.fullName)) comOf conv compile f ts r own cum)
    (k' : TotalsAny (accts.map (·.fullName)) comOf conv compile f ts r own' cum') : ∀ a ∈ accts.map (·.fullName), InSub r a → own a = own' a ∧ cum a = cum' a := by
  classical
  have t := TreeOK.of h
  set names := accts.map (·.fullName) with hnames
  have ext : ∀ x y : Amount, x.com = y.com → x.int = y.int → x = y := by
    rintro ⟨xi, xc⟩ ⟨yi, yc⟩ h1 h2
    dsimp only at h1 h2
    rw [h1, h2]
  have hown : ∀ a ∈ names, InSub r a → own a = own' a := by
    intro a ha hs
    obtain ⟨c1, am, f1, s1⟩ := k.ownTotal a ha hs
    obtain ⟨c2, am', f2, s2⟩ := k'.ownTotal a ha hs
    have f1 : List.Forall₂ (fun e q => e ∈ booked names compile f ts a ∧ AmountOf names comOf conv e.1 e.2 q) (booked names compile f ts a) am :=
      forall2_imp_mem f1 (fun e he _ hq => ⟨he, hq⟩)
    have f2 : List.Forall₂ (fun e q => e ∈ booked names compile f ts a ∧ AmountOf names comOf conv e.1 e.2 q) (booked names compile f ts a) am' :=
      forall2_imp_mem f2 (fun e he _ hq => ⟨he, hq⟩)
    have : am = am' := by
      refine forall2_functional (R := fun (e : PTxn × PPost) q => e ∈ booked names compile f ts a ∧ AmountOf names comOf conv e.1 e.2 q) ?_ f1 f2
      rintro ⟨tx, p⟩ q q' ⟨he, hq⟩ ⟨_, hq'⟩
      unfold booked at he
      rw [List.mem_filter, decide_eq_true_eq] at he
      obtain ⟨h1, h2, _⟩ := he
      unfold allPostings at h1
      obtain ⟨tx', _, h1⟩ := List.mem_flatMap.mp h1
      obtain ⟨p', hp, e⟩ := List.mem_map.mp h1
      injection e with e1 e2
      subst e1 e2
      exact amountOf_unique hp h2 hq hq'
    subst this
    exact ext _ _ (c1.trans c2.symm) (sumOf_unique s1 s2)
  have hcum : ∀ a ∈ names, InSub r a → cum a = cum' a := by
    refine t.induction (Q := fun a => InSub r a → cum a = cum' a) ?_
    intro a ha ih hs
    obtain ⟨c1, n, s1, e1⟩ := k.cumTotal a ha hs
    obtain ⟨c2, n', s2, e2⟩ := k'.cumTotal a ha hs
    have : (childrenOf names a).map cum = (childrenOf names a).map cum' := by
      refine List.map_congr_left ?_
      intro b hb
      unfold childrenOf at hb
      rw [List.mem_filter, decide_eq_true_eq] at hb
      obtain ⟨h1, h2, h3⟩ := hb
      refine ih b ((t.mem a b).mpr ⟨h1, h2, h3⟩) ?_
      have hab : AncName a b := h3 ▸ ancName_parentOf b h2
      rcases hs with rfl | hra
      · exact .inr hab
      · exact .inr (ancName_trans _ _ _ hra hab)
    rw [this] at s1
    have := sumOf_unique s1 s2
    refine ext _ _ (c1.trans c2.symm) ?_
    rw [e1, e2, hown a ha hs, this]
  exact fun a ha hs => ⟨hown a ha hs, hcum a ha hs⟩

/-- **C188** For given prices there is only one text: two reports that are exact for totals as `TotalsAny` says are the same. -/
theorem C188_one_text (P : Install) (compile : Compile) (st : LoadState) (accts : List Acct) (g : LedgerView) (hO : Opened P compile st accts g)
    (conv : Conv) (f : Filters) (level : Int) (zero : Bool) (r : Str) (own cum own' cum' : Str → Amount) (lines lines' : List Str)
    (k : TotalsAny (accts.map (·.fullName)) (st.comOf accts) conv compile f st.txns r own cum)
    (k' : TotalsAny (accts.map (·.fullName)) (st.comOf accts) conv compile f st.txns r own' cum')
    (h : ExactAny (accts.map (·.fullName)) (st.comOf accts) own cum level zero r lines)
    (h' : ExactAny (accts.map (·.fullName)) (st.comOf accts) own' cum' level zero r lines') : lines = lines' := by
  obtain ⟨_, _, _, _, _, _, _, _, _, _, _, _, _, _, _, _, hA, _⟩ := hO
  have hu := totalsAny_unique hA k k'
  refine C188_unique _ _ own cum level zero r lines lines' h ?_
  obtain ⟨⟨accs, w, cw, cur, h1, h2, h3, h4, h6, h5⟩⟩ := h'
  have hl : ∀ {f f' : Str → Amount} {w : Nat}, (∀ a ∈ accts.map (·.fullName), InSub r a → f a = f' a) →
      Longest (fun a => a ∈ accts.map (·.fullName) ∧ InSub r a) (fun a => (f' a).string) w → Longest (fun a => a ∈ accts.map (·.fullName) ∧ InSub r a) (fun a => (f a).string) w := by
    rintro f f' w e ⟨k1, a, u, k2, k3, k4⟩
    refine ⟨?_, a, u, k2, ?_, k4⟩
    · intro b hb
      obtain ⟨u, g1, g2⟩ := k1 b hb
      exact ⟨u, by dsimp only; rw [e b hb.1 hb.2]; exact g1, g2⟩
    · dsimp only
      rw [e a k2.1 k2.2]
      exact k3
  refine ⟨accs, w, cw, cur, ?_, h2, hl (fun a ha hs => (hu a ha hs).1) h3, hl (fun a ha hs => (hu a ha hs).2) h4, h6, ?_⟩
  · intro a
    rw [h1]
    unfold ReportedAny
    constructor
    · rintro ⟨g1, g2, g3, g4⟩; exact ⟨g1, g2, g3, by rw [(hu a g1 g2).2]; exact g4⟩
    · rintro ⟨g1, g2, g3, g4⟩; exact ⟨g1, g2, g3, by rw [← (hu a g1 g2).2]; exact g4⟩
  · refine forall2_imp_mem h5 ?_
    intro a ha line hline
    obtain ⟨g1, g2, _⟩ := (h1 a).mp ha
    rw [(hu a g1 g2).1, (hu a g1 g2).2]
    exact hline

/-! ## Non-vacuity -/

/-- All hypotheses of `C188_balance_text` hold of a ledger in two commodities. -/
example : ∃ conv r own cum lines, Rates fxState conv ∧ Asked (fxAccts.map (·.fullName)) [] r ∧
    str "  0.00 |  12.16 CAD | Assets\n 12.05 |  12.05 USD | Assets:Bank\n -3.50 |  -3.50 CAD | Assets:Cash\n  3.50 |   3.50 CAD | Food\n-15.66 | -15.66 CAD | Unbalanced\n" = textOf lines ∧
    TotalsAny (fxAccts.map (·.fullName)) (fxState.comOf fxAccts) conv (fun _ => none) (filtersOf cmdFlags []) fxState.txns r own cum ∧
    ExactAny (fxAccts.map (·.fullName)) (fxState.comOf fxAccts) own cum (cmdFlags.intFlag [] (str "l") 0) (boolFlag [] (str "z")) r lines :=
  C188_balance_text fxInstall (fun _ => none) fxState fxAccts (fxView fun _ => none) (fx_opens _) fx_plain (fun a _ => fx_decimals a)
    cmdFlags (str "balance") [] [] [] [] (by decide) .nil
    .nothing ⟨fun h => absurd (by decide +kernel) h, fun h => absurd (by decide +kernel) h⟩ _ (ok_of_opt fx_prints)

end Verif
