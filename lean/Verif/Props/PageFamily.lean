import Verif.Props.PageAgree
/-
C195: the register with subaccounts on the page and the cumulative total of the balance report.
-/
namespace Verif

/-! ## Specification -/

/-- The total on the last row of the page's register with subaccounts; zero without rows. -/
def lastSubTotal (rows : List VSubRow) : Int := ((rows.getLast?).map (·.total.int)).getD 0

/-- The page shows all accounts: closed accounts are shown, or none is closed by the end of the range. -/
def AllShown (showClosed : Bool) (stop : Int) (was : List WAcct) : Prop :=
  showClosed = true ∨ ∀ w ∈ was, ∀ d, w.closed = some d → stop < d

/-! ## Lemmas -/

theorem parentName_unique {a p q : Str} : IsParentName a p → IsParentName a q → p = q := by
  rintro (⟨h1, rfl⟩ | ⟨pre, n, e, hn, h1⟩) (⟨h2, rfl⟩ | ⟨pre', n', e', hn', h2⟩)
  · rfl
  · rw [e'] at h1; simp at h1
  · rw [e] at h2; simp at h2
  · have : pre = pre' := by
      have := parentAndName_some pre n hn
      rw [← e, e', parentAndName_some pre' n' hn'] at this
      simpa using (congrArg Prod.fst this).symm
    subst this
    rcases h1 with ⟨a1, rfl⟩ | ⟨a1, rfl⟩ <;> rcases h2 with ⟨b1, rfl⟩ | ⟨b1, rfl⟩
    · rfl
    · exact absurd b1 a1
    · exact absurd a1 b1
    · rfl

theorem page_parent {cs : List Com} {accts : List Acct} {was : List WAcct} (hs : SameAccounts cs accts was) {w : WAcct} (hw : w ∈ was) :
    w.fullName ≠ rootName ∧ w.fullName ∈ accts.map (·.fullName) ∧ w.parent = if parentOf w.fullName = rootName then none else some (parentOf w.fullName) := by
  obtain ⟨h1, a, ha, e, _, _, _, q, hq, hpar⟩ := hs.2.2 w hw
  have hq' := parentName_unique hq (isParentName_parentOf a.fullName)
  subst hq'
  exact ⟨h1, List.mem_map.mpr ⟨a, ha, e.symm⟩, by rw [e]; exact hpar⟩

/-- On the page, what is reached going down the tree is what is below by name. -/
theorem page_down {cs : List Com} {accts : List Acct} {was : List WAcct} {L : Links} {dflt : Str} {decls : List Acct} (hA : ResolvedAccounts dflt decls accts L)
    (hs : SameAccounts cs accts was) (keep : WAcct → Bool) (hk : ∀ w ∈ was, keep w = true) (a : WAcct) (ha : a ∈ was) (x : Str) :
    (∃ w, Down was keep a.fullName w ∧ w.fullName = x) ↔ x ∈ accts.map (·.fullName) ∧ AncName a.fullName x := by
  have hroot := (page_parent hs ha).1
  constructor
  · rintro ⟨w, hd, rfl⟩
    refine ⟨(page_parent hs hd.mem).2.1, ?_⟩
    have step : ∀ w ∈ was, ∀ p, w.parent = some p → AncName p w.fullName := by
      intro w hw p hp
      obtain ⟨h1, _, h3⟩ := page_parent hs hw
      rw [hp] at h3
      split at h3
      · cases h3
      · injection h3 with h3
        rw [h3]
        exact ancName_parentOf _ h1
    induction hd with
    | child hw hp _ => exact step _ hw _ hp
    | step _ hw hp _ ih => exact ancName_trans _ _ _ ih (step _ hw _ hp)
  · rintro ⟨hx, hanc⟩
    have hclosed := (resolved_spec _ _ _ _ hA).2.2.2.1
    induction hn : x.length using Nat.strong_induction_on generalizing x with
    | _ n ih =>
      obtain ⟨b, hb, rfl⟩ := List.mem_map.mp hx
      obtain ⟨w, hw, ew⟩ := hs.2.1 b hb hanc.1
      obtain ⟨h1, _, h3⟩ := page_parent hs hw
      have hne : parentOf w.fullName ≠ rootName := by
        intro e
        rcases anc_parent_cases hanc with h | h
        · rw [ew] at e; exact hroot (h.trans e)
        · rw [ew] at e; exact h.1 e
      rw [if_neg hne] at h3
      rcases anc_parent_cases hanc with h | h
      · refine ⟨w, .child hw ?_ (hk w hw), ew⟩
        rw [h3, ew, h]
      · have hlt : (parentOf b.fullName).length < n := by
          have hw' : w.parent = some (parentOf w.fullName) := h3
          have := (C123_loaded cs dflt decls accts L was hA hs).shorter hw hw'
          rw [ew, hn] at this
          exact this
        obtain ⟨v, hv, ev⟩ := ih _ hlt _ (hclosed _ hx) h rfl
        refine ⟨w, .step hv hw ?_ (hk w hw), ew⟩
        rw [h3, ew, ev]

/-- Parts picked out by different keys do not overlap. -/
theorem parts_le {α κ : Type} (q : κ → α → Bool) (u : α → Nat) (hu : ∀ a b p, q a p = true → q b p = true → a = b) (K : List κ) (hK : K.Nodup) : ∀ ps : List α,
    (K.map fun k => ((ps.filter (q k)).map u).sum).sum ≤ (ps.map u).sum := by
  intro ps
  induction ps with
  | nil => simp
  | cons p ps ih =>
    have hsplit : ∀ k, (((p :: ps).filter (q k)).map u).sum = (if q k p = true then u p else 0) + ((ps.filter (q k)).map u).sum := by
      intro k
      by_cases h : q k p = true
      · rw [List.filter_cons_of_pos h, List.map_cons, List.sum_cons, if_pos h]
      · rw [List.filter_cons_of_neg h, if_neg h, zero_add]
    simp only [hsplit]
    rw [List.sum_map_add, List.map_cons, List.sum_cons]
    refine Nat.add_le_add ?_ ih
    clear ih hsplit
    induction K with
    | nil => simp
    | cons k K ihK =>
      obtain ⟨n1, n2⟩ := List.nodup_cons.mp hK
      rw [List.map_cons, List.sum_cons]
      by_cases h : q k p = true
      · have zero : (K.map fun k => if q k p = true then u p else 0).sum = 0 := by
          clear ihK hK n2
          induction K with
          | nil => rfl
          | cons k' K ih' =>
            simp only [List.mem_cons, not_or] at n1
            rw [List.map_cons, List.sum_cons, ih' n1.2, if_neg fun h' => n1.1 (hu _ _ _ h h')]
        rw [zero, if_pos h]
        omega
      · rw [if_neg h, zero_add]
        exact ihK n2

theorem perm_flatMap_pointwise {α β : Type} {f g : α → List β} : ∀ {l : List α}, (∀ x ∈ l, (f x).Perm (g x)) → (l.flatMap f).Perm (l.flatMap g) := by
  intro l
  induction l with
  | nil => intro _; exact .nil
  | cons x l ih =>
    intro h
    rw [List.flatMap_cons, List.flatMap_cons]
    exact (h x (by simp)).append (ih fun y hy => h y (by simp [hy]))

theorem sum_flatMap_int {α : Type} (f : α → List Int) : ∀ l : List α, (l.flatMap f).sum = (l.map fun x => (f x).sum).sum := by
  intro l
  induction l with
  | nil => rfl
  | cons x l ih => rw [List.flatMap_cons, List.sum_append, List.map_cons, List.sum_cons, ih]

theorem sum_flatMap_nat {α : Type} (f : α → List Nat) : ∀ l : List α, (l.flatMap f).sum = (l.map fun x => (f x).sum).sum := by
  intro l
  induction l with
  | nil => rfl
  | cons x l ih => rw [List.flatMap_cons, List.sum_append, List.map_cons, List.sum_cons, ih]

/-- **C195** For files in one commodity, whose amounts add up to at most 2^53 units: the page's register of an account together with the accounts below it
over a range of dates ends in the cumulative total `coin balance -z` shows for the account and the range. -/
theorem C195_page_family (P : Install) (compile : Compile) (st : LoadState) (accts : List Acct) (g : LedgerView) (page : List WTxn)
    (hO : Opened P compile st accts g) (hP : PageOpened P st accts page) (hp : PlainNames (accts.map (·.fullName))) (c : Com) (hc : OneCom st accts c) (hdec : c.decimals ≤ 50)
    (hbig : ((allPostings st.txns).map fun e => (unitsOf e.1 e.2).natAbs).sum ≤ 2 ^ 53) (fe : FlagEnv)
    (w : Str) (l : List (Str × Str)) (toks : List (List Str)) (tail args : List Str)
    (hw : commandOf w = some .balance) (hl : List.Forall₂ (Written fe (flagsOf .balance)) l toks) (ht : Remaining tail args)
    (hz : boolFlag l (str "z") = true) (hlev : fe.intFlag l (str "l") 0 = 0)
    (start stop : Int) (hr : SameRange st.txns (filtersOf fe l) start stop) (out : Str) (hout : coinMain fe g (w :: (toks.flatten ++ tail)) = .ok out)
    (r : Str) (hask : Asked (accts.map (·.fullName)) args r) (cs : List Com) (was : List WAcct) (hwas : SameAccounts cs accts was) (a : WAcct) (ha : a ∈ was)
    (hs : InSub r a.fullName) (hcom : a.com = ⟨0, c.id, c.decimals⟩)
    (showClosed : Bool) (hshow : AllShown showClosed stop was) (depth : Nat) (hdepth : ∀ w ∈ was, w.fullName.length ≤ depth)
    (conv : Com → Amount → Int → Except Fault Amount) (off : Int) (rows : List VSubRow)
    (hrows : viewRegisterWithSubAccounts conv off showClosed was page depth a start stop = .ok rows) :
    ∃ lines own, out = textOf lines ∧ StandsWith c lines a.fullName own (lastSubTotal rows) := by
  classical
  obtain ⟨L, dflt, decls, hA⟩ : ∃ L dflt decls, ResolvedAccounts dflt decls accts L := by
    obtain ⟨_, _, _, _, _, L, _, _, _, _, _, _, _, _, hA, _⟩ := hP
    exact ⟨L, _, _, hA⟩
  have hn := (resolved_spec _ _ _ _ hA).1
  have htree := C123_loaded cs dflt decls accts L was hA hwas
  have hsorted := (page_amounts hP hc (filtersOf fe l) start stop hr compile a.fullName).2
  have hvis : ∀ w ∈ was, visible showClosed stop [] w = true := by
    intro v hv
    unfold visible
    rcases hshow with rfl | h
    · simp
    · cases hd : v.closed with
      | none => simp
      | some d => simp [h v hv d hd]
  obtain ⟨m1, m2, _⟩ := C123_children was (visible showClosed stop []) htree depth hdepth a.fullName
  obtain ⟨shown, ns, p0, p1, p2, p3, p4⟩ := C149_sub_register conv off showClosed was page hsorted depth a start stop rows hrows
  set names := accts.map (·.fullName) with hnames
  set fam := a :: allChildren was (visible showClosed stop []) depth a.fullName with hfam
  have hin : ∀ v ∈ fam, v ∈ was := by
    intro v hv
    rcases List.mem_cons.mp hv with rfl | hv
    · exact ha
    · exact ((m1 v).mp hv).mem
  have hfn : (fam.map (·.fullName)).Perm (familyOf names a.fullName) := by
    rw [List.perm_ext_iff_of_nodup]
    · intro x
      unfold familyOf
      rw [hfam, List.map_cons, List.mem_cons, List.mem_map, List.mem_filter, decide_eq_true_iff]
      have hd := page_down hA hwas (visible showClosed stop []) hvis a ha x
      constructor
      · rintro (rfl | ⟨v, hv, e⟩)
        · exact ⟨(page_parent hwas ha).2.1, .inl rfl⟩
        · have := hd.mp ⟨v, (m1 v).mp hv, e⟩
          exact ⟨this.1, .inr this.2⟩
      · rintro ⟨hx, h | h⟩
        · exact .inl h
        · obtain ⟨v, hv, e⟩ := hd.mpr ⟨hx, h⟩
          exact .inr ⟨v, (m1 v).mpr hv, e⟩
    · have hnd : fam.Nodup := by
        rw [hfam, List.nodup_cons]
        refine ⟨fun h => ?_, m2⟩
        have := ((m1 a).mp h).longer htree
        omega
      rw [List.nodup_map_iff_inj_on hnd]
      intro x hx y hy e
      exact htree.eq_of_name (hin x hx) (hin y hy) e
    · exact hn.filter _
  have hq : (shown.map fun v => v.post.quantity).Perm
      (fam.flatMap fun w => (booked names compile (filtersOf fe l) st.txns w.fullName).map fun e => ⟨unitsOf e.1 e.2, ⟨0, c.id, c.decimals⟩⟩) := by
    refine (p1.map _).trans ?_
    rw [List.map_flatMap]
    exact perm_flatMap_pointwise fun v _ => (page_amounts hP hc (filtersOf fe l) start stop hr compile v.fullName).1
  have hcoms : ∀ v ∈ shown, v.post.quantity.com = a.com := by
    intro v hv
    obtain ⟨x, _, hx⟩ := List.mem_flatMap.mp (hq.mem_iff.mp (List.mem_map_of_mem (f := fun v : VPost => v.post.quantity) hv))
    obtain ⟨e, _, he⟩ := List.mem_map.mp hx
    rw [← he, hcom]
  have hns : ns = shown.map fun v => v.post.quantity.int := by
    clear p0 p1 p3 p4 hq
    induction p2 with
    | nil => rfl
    | cons hab _ ih =>
      rw [List.map_cons, ih fun v hv => hcoms v (by simp [hv])]
      rcases hab with ⟨_, h⟩ | ⟨h, _⟩
      · rw [h]
      · exact absurd (hcoms _ (by simp)) h
  have hbk : ns.Perm ((fam.map (·.fullName)).flatMap fun x => (booked names compile (filtersOf fe l) st.txns x).map fun e => unitsOf e.1 e.2) := by
    rw [hns, List.flatMap_map]
    have := hq.map (·.int)
    rw [List.map_map, List.map_flatMap] at this
    simp only [List.map_map] at this
    exact this
  have hbk := hbk.trans (hfn.flatMap_right _)
  have hsum : ns.sum = cumUnits names compile (filtersOf fe l) st.txns a.fullName := by
    rw [perm_sum_int hbk, sum_flatMap_int]
    rfl
  have habs : (ns.map (·.natAbs)).sum ≤ 2 ^ 53 := by
    refine le_trans ?_ hbig
    rw [(hbk.map _).sum_eq, List.map_flatMap, sum_flatMap_nat]
    simp only [List.map_map]
    unfold booked
    refine parts_le (fun (x : Str) (e : PTxn × PPost) => decide (mustFindAccount names (patternMatches e.2.account) e.2.account = .ok x ∧ Picks compile (filtersOf fe l) e.1 e.2))
      _ ?_ _ (hn.filter _) _
    intro x y e hx hy
    exact means_unique (of_decide_eq_true hx).1 (of_decide_eq_true hy).1
  have hfit : RunsFit 0 ns := by
    intro k
    rw [zero_add]
    refine (natAbs_sum _).trans (le_trans ?_ habs)
    exact sum_le_of_sublist ((List.take_sublist k ns).map _)
  have hlast : lastSubTotal rows = ns.sum := by
    have hlen : ns.length = rows.length := by rw [p3]; exact p2.length_eq.symm
    unfold lastSubTotal
    rw [List.getLast?_eq_getElem?]
    rcases Nat.eq_zero_or_pos rows.length with h0 | h0
    · have : ns = [] := List.length_eq_zero_iff.mp (by omega)
      rw [List.length_eq_zero_iff.mp h0, this]
      rfl
    · obtain ⟨x, hx⟩ : ∃ x, rows[rows.length - 1]? = some x := ⟨_, List.getElem?_eq_getElem (by omega)⟩
      rw [hx]
      show x.total.int = _
      rw [p4 hfit _ _ hx, show rows.length - 1 + 1 = ns.length by omega, List.take_length]
  have hv : ValidFilters compile (filtersOf fe l) := ⟨fun h => absurd hr.all.1 h, fun h => absurd hr.all.2 h⟩
  obtain ⟨r', lines, hask', e, ⟨⟨accs, wd, cw, k1, _, _, _, k5⟩⟩⟩ := C177_balance_text P compile st accts g hO hp c hc hdec fe w l toks tail args hw hl ht hv out hout
  have hrr : r' = r := by
    rcases hask with ⟨ha, hb⟩ | ⟨a, rest, rfl, hm⟩
    · rcases hask' with ⟨_, h'⟩ | ⟨_, _, h, _⟩
      · rw [h', hb]
      · rw [ha] at h; cases h
    · rcases hask' with ⟨h, _⟩ | ⟨a', rest', h, hm'⟩
      · cases h
      · cases h; exact means_unique hm' hm
  subst hrr
  obtain ⟨line, hline, o, x, o1, o2, e'⟩ := forall2_pick k5 ((k1 a.fullName).mpr ⟨(page_parent hwas ha).2.1, hs, .inl hlev, .inl hz⟩)
  refine ⟨lines, _, e, line, hline, o, x, ⟨_, _, _, e'⟩, o1, ?_⟩
  rw [hlast, hsum]
  exact o2

/-- The accounts of the ledger of C156 on its page. -/
def progWas : List WAcct :=
  [⟨str "Assets", str "Assets", ⟨0, str "CAD", 2⟩, none, none⟩, progCash, ⟨str "Food", str "Food", ⟨0, str "CAD", 2⟩, none, none⟩,
    ⟨str "Unbalanced", str "Unbalanced", ⟨0, str "CAD", 2⟩, none, none⟩]

theorem prog_was : SameAccounts [⟨0, str "CAD", 2⟩] progAccts progWas := by
  refine ⟨by decide +kernel, by decide +kernel, ?_⟩
  have top : ∀ n : Str, n ≠ str "Root" → ':' ∉ n → (∃ a ∈ progAccts, n = a.fullName ∧ str "CAD" = a.commodityId ∧ a.closed = none) →
      (n ≠ str "Root" ∧ ∃ a ∈ progAccts, n = a.fullName ∧ IsLastPart a.fullName n ∧
        findCom [⟨0, str "CAD", 2⟩] a.commodityId = some ⟨0, str "CAD", 2⟩ ∧ (none : Option Int) = a.closed.map (86400 * ·) ∧
        ∃ p, IsParentName a.fullName p ∧ none = if p = str "Root" then none else some p) := by
    rintro n h1 h2 ⟨a, ha, rfl, hc, hcl⟩
    refine ⟨h1, a, ha, rfl, ⟨h2, .inl rfl⟩, ?_, by rw [hcl]; rfl, str "Root", .inl ⟨h2, rfl⟩, rfl⟩
    rw [← hc]
    decide
  intro w hw
  simp only [progWas, List.mem_cons, List.not_mem_nil, or_false] at hw
  rcases hw with rfl | rfl | rfl | rfl
  · exact top (str "Assets") (by decide) (by decide) (by decide +kernel)
  · refine ⟨by decide, ?_⟩
    obtain ⟨a, ha, e, hc, hcl⟩ : ∃ a ∈ progAccts, str "Assets:Cash" = a.fullName ∧ str "CAD" = a.commodityId ∧ a.closed = none := by decide +kernel
    refine ⟨a, ha, e, ⟨by decide, .inr ⟨str "Assets", e.symm⟩⟩, ?_, by rw [hcl]; rfl, str "Assets", .inr ⟨str "Assets", str "Cash", e.symm, by decide, .inl ⟨by decide, rfl⟩⟩, ?_⟩
    · rw [← hc]; decide
    · decide
  · exact top (str "Food") (by decide) (by decide) (by decide +kernel)
  · exact top (str "Unbalanced") (by decide) (by decide) (by decide +kernel)

/-- The account Assets on the page. -/
def progAssets : WAcct := ⟨str "Assets", str "Assets", ⟨0, str "CAD", 2⟩, none, none⟩

/-- Non-vacuity: the register of `Assets` with its subaccounts from the fourth of January on ends in 10.00, the cumulative total of Assets. -/
example : ∃ rows, viewRegisterWithSubAccounts (fun _ _ _ => .error .err) 0 false progWas progPage 100 progAssets (86400 * 737427) (86400 * 737790) = .ok rows ∧
    lastSubTotal rows = 1000 ∧
    ∃ lines own, str " 0.00 | 10.00 CAD | Assets\n10.00 | 10.00 CAD | Assets:Cash\n" = textOf lines ∧ StandsWith progCad lines progAssets.fullName own (lastSubTotal rows) := by
  obtain ⟨rows, hrows, hl⟩ : ∃ rows, viewRegisterWithSubAccounts (fun _ _ _ => .error .err) 0 false progWas progPage 100 progAssets (86400 * 737427) (86400 * 737790) = .ok rows ∧
      lastSubTotal rows = 1000 := by
    have h : ((viewRegisterWithSubAccounts (fun _ _ _ => .error .err) 0 false progWas progPage 100 progAssets (86400 * 737427) (86400 * 737790)).toOption.map lastSubTotal) = some 1000 := by
      decide +kernel
    cases e : viewRegisterWithSubAccounts (fun _ _ _ => .error .err) 0 false progWas progPage 100 progAssets (86400 * 737427) (86400 * 737790) with
    | error x => rw [e] at h; cases h
    | ok rows => rw [e] at h; exact ⟨rows, rfl, Option.some.inj h⟩
  refine ⟨rows, hrows, hl, ?_⟩
  exact C195_page_family progInstall (fun _ => none) progState progAccts (progView fun _ => none) progPage (prog_opens _).1 prog_page prog_plain progCad
    (prog_opens fun _ => none).2 (by decide) (by decide +kernel) rangeFlags (str "balance") [(str "z", str "true"), (str "b", str "2020/01/04")] [[str "-z"], [str "-b=2020/01/04"]]
    [str "Assets"] [str "Assets"] (by decide)
    (.cons (.bare (d := ['-']) (.inl rfl) (by decide)) (.cons (.equals (d := ['-']) (name := str "b") (v := str "2020/01/04") (k := .date) (.inl rfl) (by decide) (by decide)) .nil))
    (.plain (.inr (by decide))) (by decide) (by decide) _ _ ⟨by decide +kernel, by decide, by decide⟩ _ (ok_of_opt (by decide +kernel)) (str "Assets")
    (.inr ⟨_, _, rfl, ok_of_opt (by decide +kernel)⟩) _ progWas prog_was progAssets (by decide) (.inl rfl) (by decide +kernel) false (.inr (by decide)) 100 (by decide) _ 0 rows hrows

end Verif
