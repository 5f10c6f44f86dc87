import Verif.Model.Reports
import Verif.Props.ListCmd
import Verif.Props.Program
import Verif.Props.Scanner
/-
C170: the accounts command from the files to its output.
-/
namespace Verif

/-! ## Specification -/

/-- `d` is the last declaration of the account named `n`. -/
def LastDeclared (decls : List Acct) (n : Str) (d : Acct) : Prop :=
  ∃ before after, decls = before ++ d :: after ∧ d.fullName = n ∧ ∀ a ∈ after, a.fullName ≠ n

/-- An account of the ledger: declared, the beginning of a declared one up to a colon, or one of the two that are always there. -/
def Exists170 (decls : List Acct) (n : Str) : Prop :=
  n = str "Root" ∨ n = str "Unbalanced" ∨ ∃ d ∈ decls, n = d.fullName ∨ ProperAncestorName n d.fullName

/-- What is shown of an account: commodity and description of its last declaration; the default commodity and no description if it is not
declared. A declaration of `Unbalanced` does not count. -/
def Presented (dflt : Str) (decls : List Acct) (n com desc : Str) : Prop :=
  (n ≠ str "Unbalanced" ∧ ∃ d, LastDeclared decls n d ∧ com = d.commodityId ∧ desc = d.description) ∨
  ((n = str "Unbalanced" ∨ ∀ d ∈ decls, d.fullName ≠ n) ∧ com = dflt ∧ desc = [])

/-- The account was closed by its last declaration. -/
def ClosedBy (decls : List Acct) (n : Str) : Prop := n ≠ str "Unbalanced" ∧ ∃ d, LastDeclared decls n d ∧ d.closed ≠ none

/-- The account, one above it, or Root was closed. -/
def ClosedOrUnder (decls : List Acct) (n : Str) : Prop :=
  ClosedBy decls n ∨ ClosedBy decls (str "Root") ∨ ∃ x, ProperAncestorName x n ∧ ClosedBy decls x

/-! ## Lemmas -/

theorem lastDeclared_unique {decls : List Acct} {n : Str} {d e : Acct} (hd : LastDeclared decls n d) (he : LastDeclared decls n e) : d = e := by
  obtain ⟨b1, a1, h1, n1, u1⟩ := hd
  obtain ⟨b2, a2, h2, n2, u2⟩ := he
  have key : ∀ (b1 b2 a1 a2 : List Acct), b1 ++ d :: a1 = b2 ++ e :: a2 → (∀ a ∈ a1, a.fullName ≠ n) → (∀ a ∈ a2, a.fullName ≠ n) → d = e := by
    intro b1
    induction b1 with
    | nil =>
      intro b2 a1 a2 h u1 _
      cases b2 with
      | nil => injection h
      | cons b b2 =>
        injection h with _ h
        exact absurd n2 (u1 e (by rw [h]; simp))
    | cons b b1 ih =>
      intro b2 a1 a2 h u1 u2
      cases b2 with
      | nil =>
        injection h with _ h
        exact absurd n1 (u2 d (by rw [← h]; simp))
      | cons c b2 =>
        injection h with _ h
        exact ih b2 a1 a2 h u1 u2
  exact key b1 b2 a1 a2 (h1.symm.trans h2) u1 u2

theorem lastDeclared_exists {decls : List Acct} {n : Str} (h : ∃ d ∈ decls, d.fullName = n) : ∃ d, LastDeclared decls n d := by
  induction decls with
  | nil => obtain ⟨_, h, _⟩ := h; cases h
  | cons a decls ih =>
    by_cases hr : ∃ d ∈ decls, d.fullName = n
    · obtain ⟨d, b, af, e, r⟩ := ih hr
      exact ⟨d, a :: b, af, by rw [e]; rfl, r⟩
    · obtain ⟨d, hd, hn⟩ := h
      rcases List.mem_cons.mp hd with rfl | hd
      · exact ⟨d, [], decls, rfl, hn, fun x hx hxn => hr ⟨x, hx, hxn⟩⟩
      · exact absurd ⟨d, hd, hn⟩ hr

/-- The accounts read are the last declarations. -/
theorem loaded_lastDeclared (decls : List Acct) : ∀ a ∈ decls.foldl putAcct [], LastDeclared decls a.fullName a := by
  have gen : ∀ (rest done m : List Acct), (∀ a ∈ m, LastDeclared done a.fullName a) → (m.map (·.fullName)).Nodup →
      ∀ a ∈ rest.foldl putAcct m, LastDeclared (done ++ rest) a.fullName a := by
    intro rest
    induction rest with
    | nil => intro done m h _ a ha; rw [List.append_nil]; exact h a ha
    | cons r rest ih =>
      intro done m h hn a ha
      rw [List.foldl_cons] at ha
      have := ih (done ++ [r]) (putAcct m r) ?_ (putAcct_nodup m r hn) a ha
      · rwa [List.append_assoc] at this
      · intro b hb
        rcases mem_putAcct m r b hb with rfl | hm
        · exact ⟨done, [], rfl, rfl, by simp⟩
        · by_cases hbr : b = r
          · subst hbr; exact ⟨done, [], rfl, rfl, by simp⟩
          · have hne : b.fullName ≠ r.fullName := by
              intro e
              have hn2 := putAcct_nodup m r hn
              exact hbr (List.inj_on_of_nodup_map hn2 hb (mem_putAcct_self m r) e)
            obtain ⟨b1, a1, e1, _, u1⟩ := h b hm
            refine ⟨b1, a1 ++ [r], by rw [e1]; simp, rfl, ?_⟩
            intro x hx
            rcases List.mem_append.mp hx with hx | hx
            · exact u1 x hx
            · rw [List.mem_singleton.mp hx]; exact fun e => hne e.symm
  have := gen decls [] [] (by simp) (by simp)
  simpa using this

theorem createParents_made (dflt : Str) (known : List Acct) : ∀ (m : List Acct), ∀ a ∈ createParents dflt known m, a ∈ m ∨ a = accountFromName dflt a.fullName := by
  have one : ∀ (l : List Str) (m : List Acct), ∀ a ∈ l.foldl (addMissing dflt) m, a ∈ m ∨ a = accountFromName dflt a.fullName := by
    intro l
    induction l with
    | nil => intro m a ha; exact .inl ha
    | cons n l ih =>
      intro m a ha
      rw [List.foldl_cons] at ha
      rcases ih _ a ha with h | h
      · unfold addMissing at h
        split at h
        · exact .inl h
        · rcases List.mem_append.mp h with h | h
          · exact .inl h
          · rw [List.mem_singleton.mp h]; exact .inr rfl
      · exact .inr h
  unfold createParents
  induction known with
  | nil => intro m a ha; exact .inl ha
  | cons k known ih =>
    intro m a ha
    rw [List.foldl_cons] at ha
    rcases ih _ a ha with h | h
    · exact one _ m a h
    · exact .inr h

/-- An account of the resolved ledger is its last declaration, or was made by the program. -/
theorem resolved_sources {dflt : Str} {decls accts : List Acct} {L : Links} (h : ResolvedAccounts dflt decls accts L) {a : Acct} (ha : a ∈ accts) :
    (a.fullName ≠ str "Unbalanced" ∧ LastDeclared decls a.fullName a) ∨
    ((a.fullName = str "Unbalanced" ∨ ∀ d ∈ decls, d.fullName ≠ a.fullName) ∧ a = accountFromName dflt a.fullName) := by
  have hn := (resolved_spec _ _ _ _ h).1
  by_cases hu : a.fullName = str "Unbalanced"
  · right
    refine ⟨.inl hu, ?_⟩
    obtain ⟨known, _, _, _, _, e, _⟩ := id h
    obtain ⟨⟨ext, e2⟩, _, _⟩ := createParents_spec dflt known (baseAccounts dflt decls)
    have hm : accountFromName dflt unbalancedName ∈ accts := by
      rw [e, e2]; apply List.mem_append_left; unfold baseAccounts; exact mem_putAcct_self _ _
    have := List.inj_on_of_nodup_map hn ha hm hu
    rw [this]; rfl
  · by_cases hd : ∃ d ∈ decls, d.fullName = a.fullName
    · left
      refine ⟨hu, ?_⟩
      obtain ⟨d, hl⟩ := lastDeclared_exists hd
      obtain ⟨b, af, e, nm, u⟩ := id hl
      have hm := C21_declared_kept_partial dflt decls accts L h b af d e (by rw [nm]; exact u) (by rw [nm]; exact hu)
      rw [← List.inj_on_of_nodup_map hn hm ha nm]
      rw [nm]; exact hl
    · right
      have hd' : ∀ d ∈ decls, d.fullName ≠ a.fullName := fun d hm e => hd ⟨d, hm, e⟩
      refine ⟨.inr hd', ?_⟩
      obtain ⟨known, _, _, _, _, e, _⟩ := id h
      rw [e] at ha
      rcases createParents_made dflt known _ a ha with hb | hb
      · unfold baseAccounts at hb
        dsimp only at hb
        rcases mem_putAcct _ _ _ hb with rfl | hb
        · exact absurd rfl hu
        · split at hb
          · obtain ⟨b, af, e, _⟩ := loaded_lastDeclared decls a hb
            exact absurd rfl (hd' a (by rw [e]; simp))
          · rcases List.mem_append.mp hb with hb | hb
            · obtain ⟨b, af, e, _⟩ := loaded_lastDeclared decls a hb
              exact absurd rfl (hd' a (by rw [e]; simp))
            · rw [List.mem_singleton.mp hb]; rfl
      · exact hb

theorem hasClosing_by {dflt : Str} {decls accts : List Acct} {L : Links} (h : ResolvedAccounts dflt decls accts L) (n : Str) :
    HasClosingDate accts n ↔ ClosedBy decls n := by
  constructor
  · rintro ⟨a, ha, rfl, hc⟩
    rcases resolved_sources h ha with ⟨hu, hl⟩ | ⟨_, e⟩
    · exact ⟨hu, a, hl, hc⟩
    · rw [e] at hc; exact absurd rfl hc
  · rintro ⟨hu, d, ⟨b, af, e, nm, u⟩, hc⟩
    exact ⟨d, C21_declared_kept_partial dflt decls accts L h b af d e (by rw [nm]; exact u) (by rw [nm]; exact hu), nm, hc⟩

/-! ## C170 -/

/-- **C170** Whatever the files of commodities and accounts say, `coin accounts` writes one line for every account — each declared one,
each ancestor of one, Root and Unbalanced — that the pattern selects and that is not closed (all that the pattern selects with -c), in
increasing order of the names; a line has the name, padded to a common width, the commodity and the description of the account's last
declaration. This for every spelling of the flags and every order in which the program walks its maps. -/
theorem C170_accounts_of_files (P : Install) (st : LoadState) (accts : List Acct) (L : Links) (hO : AccountsOpened P st accts L)
    (fe : FlagEnv) (w : Str) (l : List (Str × Str)) (toks : List (List Str)) (tail args : List Str) (hw : commandOf w = some .accounts)
    (hl : List.Forall₂ (Written fe (flagsOf .accounts)) l toks) (ht : Remaining tail args) (fuel : Nat) (hf : ∀ a ∈ accts, a.fullName.length + 3 ≤ fuel) :
    ∃ (width : Nat) (listed : List (Str × Str × Str)),
      accountsMain fe accts L fuel (w :: (toks.flatten ++ tail)) = .ok (textOf (listed.map fun e =>
        e.1 ++ rep (width - e.1.length) ' ' ++ str " | " ++ e.2.1 ++ rep (10 - e.2.1.length) ' ' ++ str " | " ++ e.2.2)) ∧
      (listed.map (·.1)).Pairwise (fun a b => strLt a b = true) ∧
      (∀ n, n ∈ listed.map (·.1) ↔ Exists170 st.decls n ∧ (∀ p ∈ args.head?, patternMatches p n = true) ∧
        (boolFlag l (str "c") = true ∨ ¬ ClosedOrUnder st.decls n)) ∧
      ∀ e ∈ listed, e.1.length ≤ width ∧ Presented st.dflt st.decls e.1 e.2.1 e.2.2 := by
  obtain ⟨_, hA, _⟩ := hO
  obtain ⟨wd, listed, h1, h2, h3, h4⟩ := C103_accounts _ _ _ _ hA (args.head?.map patternMatches) (boolFlag l (str "c")) fuel hf
  refine ⟨wd, listed.map fun a => (a.fullName, a.commodityId, a.description), ?_, ?_, ?_, ?_⟩
  · unfold accountsMain
    rw [dispatch_written hw hl ht]
    show (accountsCmd accts L.parent fuel (boolFlag l (str "c")) (args.head?.map patternMatches)).bind _ = _
    rw [h1, List.map_map]
    show Except.ok _ = Except.ok _
    congr 2
    apply List.map_congr_left
    intro a _
    simp [acctListLine, padRight, Function.comp]
  · rw [List.map_map]; exact h2
  · intro n
    rw [List.map_map, List.mem_map]
    have key : ∀ a : Acct, a ∈ accts → ((HasClosingDate accts a.fullName ∨ HasClosingDate accts (str "Root") ∨
          ∃ x, ProperAncestorName x a.fullName ∧ HasClosingDate accts x) ↔ ClosedOrUnder st.decls a.fullName) := by
      intro a _
      unfold ClosedOrUnder
      simp only [hasClosing_by hA]
    have hsel : ∀ n : Str, (∀ p, args.head?.map patternMatches = some p → p n = true) ↔ ∀ p ∈ args.head?, patternMatches p n = true := by
      intro n
      cases args.head? <;> simp
    constructor
    · rintro ⟨a, ha, rfl⟩
      obtain ⟨m, s, c⟩ := (h3 a).mp ha
      refine ⟨((C21_exactly_missing_ancestors _ _ _ _ hA).2 a.fullName).mp (List.mem_map_of_mem m), (hsel _).mp s, ?_⟩
      rw [key a m] at c
      exact c
    · rintro ⟨m, s, c⟩
      obtain ⟨a, ha, rfl⟩ := List.mem_map.mp (((C21_exactly_missing_ancestors _ _ _ _ hA).2 n).mpr m)
      refine ⟨a, (h3 a).mpr ⟨ha, (hsel _).mpr s, ?_⟩, rfl⟩
      rw [key a ha]
      exact c
  · intro e he
    obtain ⟨a, ha, rfl⟩ := List.mem_map.mp he
    refine ⟨h4 a ha, ?_⟩
    rcases resolved_sources hA ((h3 a).mp ha).1 with ⟨hu, hd⟩ | ⟨hu, hd⟩
    · exact .inl ⟨hu, a, hd, rfl, rfl⟩
    · refine .inr ⟨hu, ?_, ?_⟩
      · show a.commodityId = st.dflt
        rw [hd]; rfl
      · show a.description = []
        rw [hd]; rfl

/-- Full statement: `coin accounts -c` lists the accounts that the reports of the same ledger know. -/
def C170_Statement : Prop := ∀ (P : Install) (compile : Compile) (st st' : LoadState) (accts accts' : List Acct) (g : LedgerView) (L : Links),
  Opened P compile st accts g → AccountsOpened P st' accts' L → ∀ n, n ∈ accts'.map (·.fullName) ↔ n ∈ accts.map (·.fullName)

/-- **C170 (partial)** They are the same if the accounts declared in the files that the command reads are those declared in all files.
Missing: accounts declared in files of prices or transactions, which the command does not read. -/
theorem C170_same_accounts_partial (P : Install) (compile : Compile) (st st' : LoadState) (accts accts' : List Acct) (g : LedgerView) (L : Links)
    (hO : Opened P compile st accts g) (hO' : AccountsOpened P st' accts' L)
    (hd : ∀ n, (∃ d ∈ st'.decls, d.fullName = n) ↔ ∃ d ∈ st.decls, d.fullName = n) (n : Str) :
    n ∈ accts'.map (·.fullName) ↔ n ∈ accts.map (·.fullName) := by
  obtain ⟨_, _, _, _, _, L0, _, _, _, _, _, _, _, _, _, _, hA, _⟩ := hO
  obtain ⟨_, hA', _⟩ := hO'
  rw [(C21_exactly_missing_ancestors _ _ _ _ hA).2 n, (C21_exactly_missing_ancestors _ _ _ _ hA').2 n]
  refine or_congr Iff.rfl (or_congr Iff.rfl ?_)
  constructor
  · rintro ⟨d, m, e⟩
    obtain ⟨d', m', e'⟩ := (hd d.fullName).mp ⟨d, m, rfl⟩
    exact ⟨d', m', by rw [e']; exact e⟩
  · rintro ⟨d, m, e⟩
    obtain ⟨d', m', e'⟩ := (hd d.fullName).mpr ⟨d, m, rfl⟩
    exact ⟨d', m', by rw [e']; exact e⟩

/-! ### A ledger -/

/-- An account is declared twice, one is closed, one is declared beside the transactions. -/
def listDir : List (Str × Str) :=
  [(str "commodities.coin", str "commodity CAD\n  format 1.00 CAD\n"), (str "prices.coin", []),
   (str "accounts.coin", str "account A:Bank\n  note First\naccount A:Bank\n  note Mine\naccount A:Old\n  closed 2020/01/05\n"),
   (str "transactions.coin", str "account Savings\n")]

def listInstall : Install := ⟨dirDisk listDir, ⟨2020, 1, 1⟩, 5, ledgerNames⟩
def listItems : List Item :=
  [.commodity ⟨str "CAD", [], 2, false, []⟩, .account ⟨str "A:Bank", str "First", str "CAD", none, [], [], []⟩,
   .account ⟨str "A:Bank", str "Mine", str "CAD", none, [], [], []⟩, .account ⟨str "A:Old", [], str "CAD", some 737428, [], [], []⟩]
def listState : LoadState := ⟨[progCad], str "CAD", listItems⟩
def listFull : LoadState := ⟨[progCad], str "CAD", listItems ++ [.account ⟨str "Savings", [], str "CAD", none, [], [], []⟩]⟩

theorem list_loads : ((loadFileS listInstall.disk listInstall.today listInstall.limit ⟨[], str "CAD", []⟩ listInstall.files.commodities).bind fun st =>
    loadFileS listInstall.disk listInstall.today listInstall.limit st listInstall.files.accounts) = .ok listState := load_eq (by decide +kernel)

theorem list_loads_all : loadAllS listInstall.disk listInstall.today listInstall.limit listInstall.files ⟨[], str "CAD", []⟩ = .ok listFull :=
  load_eq (by decide +kernel)

/-- Non-vacuity: the command starts, -/
theorem list_opens : ∃ accts L, AccountsOpened listInstall listState accts L ∧ (∀ a ∈ accts, a.fullName.length + 3 ≤ 40) := by
  obtain ⟨L0, h0⟩ := C20_linking_succeeds (str "CAD") listState.decls (baseAccounts (str "CAD") listState.decls) _ 0 (List.Perm.refl _) (List.Perm.refl _)
  refine ⟨createParents (str "CAD") (baseAccounts (str "CAD") listState.decls) (baseAccounts (str "CAD") listState.decls),
    ⟨L0.parent, fun p => stableSort (fun a b => strLt (parentAndName a).2 (parentAndName b).2) (L0.children p)⟩, ⟨list_loads, ?_, ?_⟩, ?_⟩
  · exact ⟨_, _, 0, L0, List.Perm.refl _, rfl, List.Perm.refl _, h0, rfl, fun p => ⟨stableSort_perm _ _, stableSort_sorted _ (strLt_strictWeak.comap _) _⟩⟩
  · decide +kernel
  · decide +kernel

/-- the names it lists without flags and pattern are A, A:Bank, Root, Unbalanced, and A:Bank comes with its last note. -/
example (accts : List Acct) (L : Links) (hO : AccountsOpened listInstall listState accts L) (hf : ∀ a ∈ accts, a.fullName.length + 3 ≤ 40) :
    ∃ (width : Nat) (listed : List (Str × Str × Str)),
      accountsMain cmdFlags accts L 40 [str "accounts"] = .ok (textOf (listed.map fun e =>
        e.1 ++ rep (width - e.1.length) ' ' ++ str " | " ++ e.2.1 ++ rep (10 - e.2.1.length) ' ' ++ str " | " ++ e.2.2)) ∧
      str "A:Bank" ∈ listed.map (·.1) ∧ str "A:Old" ∉ listed.map (·.1) ∧ ∀ e ∈ listed, e.1 = str "A:Bank" → e.2.2 = str "Mine" := by
  have hbank : LastDeclared listState.decls (str "A:Bank") ⟨str "A:Bank", str "Mine", str "CAD", none⟩ :=
    ⟨[⟨str "A:Bank", str "First", str "CAD", none⟩], [⟨str "A:Old", [], str "CAD", some 737428⟩], by decide +kernel, by decide +kernel, by decide +kernel⟩
  have hold : LastDeclared listState.decls (str "A:Old") ⟨str "A:Old", [], str "CAD", some 737428⟩ :=
    ⟨[⟨str "A:Bank", str "First", str "CAD", none⟩, ⟨str "A:Bank", str "Mine", str "CAD", none⟩], [], by decide +kernel, by decide +kernel, by simp⟩
  have only : ∀ n d, LastDeclared listState.decls n d → d.closed ≠ none → n = str "A:Old" := by
    rintro n d ⟨b, a, e, rfl, _⟩ hc
    have hm : d ∈ listState.decls := by rw [e]; simp
    have all : ∀ d ∈ listState.decls, d.closed ≠ none → d.fullName = str "A:Old" := by decide +kernel
    exact all d hm hc
  obtain ⟨w, listed, h1, _, h3, h4⟩ := C170_accounts_of_files _ _ _ _ hO cmdFlags (str "accounts") [] [] [] [] (by decide) .nil .nothing 40 hf
  refine ⟨w, listed, h1, (h3 _).mpr ⟨?_, by simp, .inr ?_⟩, ?_, ?_⟩
  · exact .inr (.inr ⟨⟨str "A:Bank", str "Mine", str "CAD", none⟩, by decide +kernel, .inl rfl⟩)
  · rintro (⟨_, d, hd, hc⟩ | ⟨_, d, hd, hc⟩ | ⟨x, ⟨_, r, hx⟩, _, d, hd, hc⟩)
    · exact absurd (only _ _ hd hc) (by decide)
    · exact absurd (only _ _ hd hc) (by decide)
    · rw [only _ _ hd hc] at hx
      exact absurd (congrArg (List.take 3) hx) (by simp [str])
  · intro hm
    rcases ((h3 _).mp hm).2.2 with h | h
    · exact absurd h (by decide)
    · exact h (.inl ⟨by decide, _, hold, by simp⟩)
  · intro e he hn
    rcases (h4 e he).2 with ⟨_, d, hd, _, h⟩ | ⟨h, _⟩
    · rw [hn] at hd
      rw [h, lastDeclared_unique hd hbank]
    · rw [hn] at h
      rcases h with h | h
      · exact absurd h (by decide)
      · exact absurd rfl (h ⟨str "A:Bank", str "Mine", str "CAD", none⟩ (by decide +kernel))

theorem list_empty (env : Env) (h : Heap) (walk : List Str) : ∃ r, resolveTransactions env h (txnsFrom 0 []) walk = .ok r := by
  have gen : ∀ (walk : List Str) (st : Loaded), (∀ a, st.books.postings a = []) → ∃ r, checkAll env st walk = .ok r := by
    intro walk
    induction walk with
    | nil => intro st _; exact ⟨st, rfl⟩
    | cons a walk ih =>
      intro st hb
      rw [checkAll]
      simp only [hb a]
      refine ih _ ?_
      intro x
      simp only [Books.setPostings]
      split
      · rfl
      · exact hb x
  obtain ⟨r, hr⟩ := gen walk ⟨h, Books.empty, fun a => zeroAmount (env.comOf a), []⟩ (fun _ => rfl)
  refine ⟨(r, []), ?_⟩
  unfold resolveTransactions
  show (checkAll env _ walk).bind _ = _
  rw [hr]
  rfl

/-- **C170's full statement is false** of the code: the account declared beside the transactions is missing from the list. -/
theorem C170_same_accounts_violated : ¬ C170_Statement := by
  intro h
  obtain ⟨accts', L', hO', _⟩ := list_opens
  obtain ⟨accts, L, hA⟩ := resolved_exists (str "CAD") listFull.decls
  have hcom : ∀ a ∈ accts, (listFull.comFor a).isSome = true := by
    intro a ha
    have hid : a.commodityId = str "CAD" := by
      rcases resolved_sources hA ha with ⟨_, b, af, e, _⟩ | ⟨_, e⟩
      · have : ∀ d ∈ listFull.decls, d.commodityId = str "CAD" := by decide +kernel
        exact this a (by rw [e]; simp)
      · rw [e]; rfl
    unfold LoadState.comFor
    rw [hid]; decide +kernel
  obtain ⟨⟨fin, sorted⟩, hr⟩ : ∃ r, resolveTransactions (Env.ofAccounts accts (listFull.comOf accts) patternMatches (convWith (fun _ => []) (fun _ _ => []) 1))
    (heapOf listFull.txns) (txnsFrom 0 listFull.txns) (accts.map (·.fullName)) = .ok r := by
    rw [show listFull.txns = [] by decide +kernel]
    exact list_empty _ _ _
  have hO : Opened listInstall (fun _ => none) listFull accts (ledgerView (Env.ofAccounts accts (listFull.comOf accts) patternMatches
      (convWith (fun _ => []) (fun _ _ => []) 1)) (fun _ => none) L fin (txnsFrom 0 listFull.txns) (maxLen (accts.map (·.fullName)) + 3) (fun _ => []) id) := by
    refine ⟨list_loads_all, [], fun _ => [], fun _ _ => [], 1, L, _, fin, sorted, _, fun _ => [], id, rfl, fun _ => .nil, fun _ _ => .refl _, ?_, hA, hcom,
      List.Perm.refl _, hr, ?_, rfl⟩
    · intro c x; unfold convert; simp only [convertF]; split <;> rfl
    · intro a ha
      have := le_maxLen (List.mem_map_of_mem (f := fun x : Acct => x.fullName) ha)
      omega
  have hm : str "Savings" ∈ accts.map (·.fullName) := by
    rw [(C21_exactly_missing_ancestors _ _ _ _ hA).2]
    exact .inr (.inr ⟨⟨str "Savings", [], str "CAD", none⟩, by decide +kernel, .inl rfl⟩)
  have := (h _ _ _ _ _ _ _ _ hO hO' _).mpr hm
  rw [(C21_exactly_missing_ancestors _ _ _ _ hO'.2.1).2] at this
  rcases this with e | e | ⟨d, hd, e⟩
  · exact absurd e (by decide)
  · exact absurd e (by decide)
  · have : ∀ d ∈ listState.decls, d.fullName.head? = some 'A' := by decide +kernel
    have hh := this d hd
    rcases e with e | ⟨_, r, e⟩
    · rw [← e] at hh; exact absurd hh (by decide)
    · rw [e] at hh; exact absurd hh (by simp [str])

end Verif
