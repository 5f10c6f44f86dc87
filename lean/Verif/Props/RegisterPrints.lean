import Verif.Props.RegisterText
/-
C189: the register of a ledger of one commodity is printed.
-/
namespace Verif

/-- The absolute values of the amounts of all postings, added up, in smallest units. -/
def Volume (ts : List PTxn) : Nat := ((allPostings ts).map fun e => (unitsOf e.1 e.2).natAbs).sum

/-! ## Lemmas -/

theorem sum_le_of_sublist {l m : List Nat} (h : l.Sublist m) : l.sum ≤ m.sum := by
  induction h with
  | slnil => exact Nat.le_refl _
  | cons a _ ih => rw [List.sum_cons]; omega
  | cons_cons a _ ih => rw [List.sum_cons, List.sum_cons]; omega

theorem sum_le_of_subperm {l m : List Nat} (h : l.Subperm m) : l.sum ≤ m.sum := by
  obtain ⟨k, hp, hs⟩ := h
  rw [← hp.sum_eq]
  exact sum_le_of_sublist hs

theorem natAbs_total : ∀ l : List Amount, (total l).natAbs ≤ (l.map (·.int.natAbs)).sum := by
  intro l
  induction l with
  | nil => exact Nat.le_refl _
  | cons a l ih =>
    unfold total at ih ⊢
    simp only [List.map_cons, List.sum_cons]
    omega

theorem le_sum_of_mem {n : Nat} : ∀ {l : List Nat}, n ∈ l → n ≤ l.sum := by
  intro l
  induction l with
  | nil => intro h; cases h
  | cons a l ih =>
    intro h
    rw [List.sum_cons]
    rcases List.mem_cons.mp h with rfl | h
    · omega
    · have := ih h; omega

theorem printWidths_total (v : View) (pv : PrintView) (comOf : Str → Com) (pre : Str) : ∀ rows : List (PRef × PRef × Amount),
    (∀ r ∈ rows, (v.qty r.1).int.natAbs < 10 ^ 50) → ∃ w, printWidths v pv comOf pre rows = .ok w := by
  intro rows
  induction rows with
  | nil => intro _; exact ⟨_, rfl⟩
  | cons r l ih =>
    intro h
    obtain ⟨w, h1⟩ := width_ok (v.qty r.1) (h r (by simp)) (comOf (pv.account r.1)).decimals
    obtain ⟨x, h2⟩ := ih (fun q hq => h q (by simp [hq]))
    rw [printWidths, h1]
    show ∃ w, (printWidths v pv comOf pre l).bind _ = .ok w
    rw [h2]
    exact ⟨_, rfl⟩

theorem printEntries_total (v : View) (pv : PrintView) (comOf : Str → Com) (o : PrintOpts) (long : Bool) (w : Int × Int × Int × Int) (tw : Int) :
    ∀ rows : List (PRef × PRef × Amount), (∀ r ∈ rows, (v.qty r.1).com.decimals ≤ 50 ∧ r.2.2.com.decimals ≤ 50) →
    ∃ ls, printEntries v pv comOf o long w tw rows = .ok ls := by
  intro rows
  induction rows with
  | nil => intro _; exact ⟨_, rfl⟩
  | cons r l ih =>
    intro h
    obtain ⟨ls, h1⟩ := ih (fun q hq => h q (by simp [hq]))
    obtain ⟨g1, g2⟩ := h r (by simp)
    have h2 : ∃ e, printEntry v pv comOf o long w tw r = .ok e := by
      unfold printEntry printLine
      rw [amountStar_ok (string_ok _ g1), amountStar_ok (string_ok _ g2)]
      exact ⟨_, rfl⟩
    obtain ⟨e, h2⟩ := h2
    rw [printEntries, h2]
    show ∃ ls, (printEntries v pv comOf o long w tw l).bind _ = .ok ls
    rw [h1]
    exact ⟨_, rfl⟩

/-- The rows of the register exist and their amounts and totals are bounded. -/
theorem opened_registers {P : Install} {compile : Compile} {st : LoadState} {accts : List Acct} {g : LedgerView} (hO : Opened P compile st accts g)
    {c : Com} (hc : OneCom st accts c) (f : Filters) (hv : RegValid compile f) (recurse : Bool) (hbang : recurse = true → NoBang f.payee) {r : Str} (hr : r ∈ accts.map (·.fullName))
    (h2 : ∀ t ∈ st.txns, 2 ≤ t.postings.length) :
    ∃ rows, fullRegister g.env g.compile g.view g.siblings g.links g.fuel f recurse r = .ok rows ∧
      ∀ row ∈ rows, (g.view.qty row.1).com = c ∧ (g.view.qty row.1).int.natAbs ≤ Volume st.txns ∧ row.2.2.com = c ∧ row.2.2.int.natAbs ≤ Volume st.txns := by
  classical
  obtain ⟨_, _, _, hcom, _, _, hfuel, _, hone, _⟩ := opened_balance hO hc f
  obtain ⟨hl, items, db, ord, fuel, L, walk, fin, sorted, bound, location, order, _, _, _, _, hA, hsome, hwalk, hres, hbound, rfl⟩ := hO
  obtain ⟨hn, _, _, _, hroot⟩ := resolved_spec _ _ _ _ hA
  have hw : walk.Nodup := hwalk.nodup_iff.mpr hn
  have hp := heapOf_parsed st.txns
  obtain ⟨st', hh1, hh2, _⟩ := load_parts hres
  obtain ⟨_, hb, hs1, _⟩ := phase1 hp hh1
  obtain ⟨g1, _, g3, _⟩ := phase2 hp hw hh1 hh2
  set env := Env.ofAccounts accts (st.comOf accts) patternMatches (convWith db ord fuel) with henv
  set v := viewOf (fun n => (parseTags n).toTags) fin (txnsFrom 0 st.txns) with hvdef
  have hposts : ∀ a p, p ∈ v.postings a → p ∈ (txnsFrom 0 st.txns).flatMap (·.postings) ∧ accountOf env (heapOf st.txns) p = .ok a := by
    intro a p hpm
    have hpm : p ∈ fin.books.postings a := hpm
    rw [g1] at hpm
    exact (hb.mem a p).mp hpm
  have hnd : ∀ a, (v.postings a).Nodup := by
    intro a
    show (fin.books.postings a).Nodup
    rw [g1]
    exact hb.nodup a
  have hcf : ∀ x a, env.find x = .ok a → env.comOf a = c := fun x a h => hcom a (mustFind_mem hn h)
  have inTs : ∀ e ∈ allPostings st.txns, e.1 ∈ st.txns := by
    intro e he
    unfold allPostings at he
    obtain ⟨t, ht, he⟩ := List.mem_flatMap.mp he
    obtain ⟨p, _, rfl⟩ := List.mem_map.mp he
    exact ht
  have hunits : ∀ x e, e ∈ allPostings st.txns → Stands (heapOf st.txns) (txnsFrom 0 st.txns) x e → v.qty x = ⟨unitsOf e.1 e.2, c⟩ := by
    intro x e he hst
    show ((fin.heap x).quantity).getD _ = _
    rw [loaded_units hw hres hcf hc.amounts (inTs e he) hst]
    rfl
  have hvol : ((((txnsFrom 0 st.txns).flatMap (·.postings)).map v.qty).map (·.int.natAbs)).sum = Volume st.txns := by
    unfold Volume
    congr 1
    rw [List.map_map]
    have h := forall2_imp_mem (stands_all st.txns).flip (fun e he x hst => (⟨he, hst⟩ : e ∈ allPostings st.txns ∧ Stands (heapOf st.txns) (txnsFrom 0 st.txns) x e))
    have := forall2_map (f := fun e : PTxn × PPost => (unitsOf e.1 e.2).natAbs) (g := fun x : PRef => (v.qty x).int.natAbs) h (by
      rintro e x ⟨he, hst⟩
      rw [hunits x e he hst])
    exact this.symm
  obtain ⟨rows, k1, k2, _, k4, _⟩ := C39_register_rows hA env compile v (siblingsOf (txnsFrom 0 st.txns)) f hv bound recurse r c hr (hone r) hfuel hbang (by
    intro a _ _ p hpm
    obtain ⟨hpr, _⟩ := hposts a p hpm
    obtain ⟨e, he, hst⟩ := forall2_mem_left (stands_all st.txns) p hpr
    have hets := inTs e he
    obtain ⟨_, _, _, ⟨t', q1, q2, q3, q4⟩, _⟩ := loaded_shown hw hres hst
    have hsib : siblingsOf (txnsFrom 0 st.txns) p = t'.postings := by simp [siblingsOf, q1]
    rw [hsib]
    have hlen : 2 ≤ t'.postings.length := by rw [q2.2.2.2.length_eq]; exact h2 _ hets
    have hnt : t'.postings.Nodup := (List.nodup_flatMap.mp hp.nodup).1 t' q3
    by_contra hno
    push Not at hno
    have : t'.postings ⊆ [p] := fun q hq => by simp [hno q hq]
    have := List.Subperm.length_le (List.subperm_of_subset hnt this)
    simp at this; omega)
  have hfull : fullRegister env compile v (siblingsOf (txnsFrom 0 st.txns)) L bound f recurse r = .ok rows := k1
  have htc := fullRegister_com hfull
  -- the postings shown are among those of the files
  have hsub : (rows.map (·.1)).Subperm ((txnsFrom 0 st.txns).flatMap (·.postings)) := by
    refine (List.subperm_of_subset ?_ ?_).trans (List.Perm.refl _).subperm
    · rw [k2.nodup_iff, List.nodup_flatMap]
      constructor
      · intro a _
        exact (hnd a).filter _
      · have hfam : (if recurse then familyOf (accts.map (·.fullName)) r else [r]).Nodup := by
          cases recurse
          · simp
          · simp only [if_true]
            unfold familyOf
            exact hn.filter _
        refine List.Pairwise.imp ?_ hfam
        intro a b hab x hxa hxb
        obtain ⟨_, e1⟩ := hposts a x (List.mem_of_mem_filter hxa)
        obtain ⟨_, e2⟩ := hposts b x (List.mem_of_mem_filter hxb)
        exact hab (Except.ok.inj (e1.symm.trans e2))
    · intro x hx
      obtain ⟨a, _, hx⟩ := List.mem_flatMap.mp (k2.mem_iff.mp hx)
      exact (hposts a x (List.mem_of_mem_filter hx)).1
  have hbnd : ((rows.map (fun row => v.qty row.1)).map (·.int.natAbs)).sum ≤ Volume st.txns := by
    rw [← hvol]
    refine sum_le_of_subperm ?_
    have : rows.map (fun row => v.qty row.1) = (rows.map (·.1)).map v.qty := by rw [List.map_map]; rfl
    rw [this]
    obtain ⟨k, p1, p2⟩ := hsub
    exact ⟨(k.map v.qty).map _, (p1.map _).map _, (p2.map _).map _⟩
  refine ⟨rows, k1, ?_⟩
  intro row hrow
  have hq : (v.qty row.1).com = c := by
    have hx := hsub.subset (List.mem_map_of_mem (f := (·.1)) hrow)
    obtain ⟨e, he, hst⟩ := forall2_mem_left (stands_all st.txns) row.1 hx
    rw [hunits _ e he hst]
  refine ⟨hq, ?_, ?_, ?_⟩
  · refine Nat.le_trans (le_sum_of_mem ?_) hbnd
    rw [List.map_map]
    exact List.mem_map_of_mem (f := (fun x : Amount => x.int.natAbs) ∘ fun row => v.qty row.1) hrow
  · obtain ⟨i, hi, rfl⟩ := List.getElem_of_mem hrow
    rw [k4 i hi]
  · obtain ⟨i, hi, rfl⟩ := List.getElem_of_mem hrow
    rw [k4 i hi]
    dsimp only
    refine Nat.le_trans (natAbs_total _) (Nat.le_trans (sum_le_of_sublist ?_) hbnd)
    exact ((List.take_sublist _ _).map _).map _

/-- **C189** The register of an account is printed whenever the account is found, the filters are valid, every transaction has at least two
postings and the amounts in the files add up to less than fifty digits. -/
theorem C189_register_printed (P : Install) (compile : Compile) (st : LoadState) (accts : List Acct) (g : LedgerView) (hO : Opened P compile st accts g)
    (c : Com) (hc : OneCom st accts c) (hdec : c.decimals ≤ 50)
    (fe : FlagEnv) (w : Str) (l : List (Str × Str)) (toks : List (List Str)) (tail args : List Str) (hw : commandOf w = some .register)
    (hl : List.Forall₂ (Written fe (flagsOf .register)) l toks) (ht : Remaining tail args) (hna : NotAggregated l)
    (hv : RegValid compile (filtersOf fe l)) (hbang : boolFlag l (str "r") = true → NoBang (filtersOf fe l).payee)
    (a : Str) (rest : List Str) (hargs : args = a :: rest) (r : Str) (hr : Means (accts.map (·.fullName)) a r)
    (h2 : ∀ t ∈ st.txns, 2 ≤ t.postings.length) (hsmall : Volume st.txns < 10 ^ 50) :
    ∃ out, coinMain fe g (w :: (toks.flatten ++ tail)) = .ok out := by
  have hnames : g.names = accts.map (·.fullName) ∧ g.matcher = patternMatches ∧ (accts.map (·.fullName)).Nodup := by
    obtain ⟨_, _, _, _, _, _, _, _, _, _, _, _, _, _, _, _, hA, _, _, _, _, rfl⟩ := hO
    exact ⟨rfl, rfl, (resolved_spec _ _ _ _ hA).1⟩
  have hrm := mustFind_mem hnames.2.2 hr
  obtain ⟨rows, h1, hrows⟩ := opened_registers hO hc (filtersOf fe l) hv (boolFlag l (str "r")) hbang hrm h2
  have hper : flagPeriod l = none := by
    unfold flagPeriod
    rw [hna _ (by simp), hna _ (by simp), hna _ (by simp), hna _ (by simp)]; rfl
  have hcat : categoryOf g l = none := by
    unfold categoryOf
    rw [hna (str "bp") (by simp), hna (str "bt") (by simp)]; rfl
  have hfind : g.find a = .ok r := by
    unfold LedgerView.find
    rw [hnames.1, hnames.2.1]
    exact hr
  have hfull : ∃ ls, fullMain fe g l r = .ok ls := by
    unfold fullMain
    rw [h1]
    show ∃ ls, printText _ _ _ _ _ rows = .ok ls
    unfold printText
    rcases hlast : rows.getLast? with _ | last
    · exact ⟨[], rfl⟩
    · dsimp only
      obtain ⟨ws, hws⟩ := printWidths_total g.view g.print g.env.comOf r rows (fun row hrow => Nat.lt_of_le_of_lt (hrows row hrow).2.1 hsmall)
      rw [hws]
      obtain ⟨tw, htw⟩ := width_ok last.2.2 (Nat.lt_of_le_of_lt (hrows last (List.mem_of_getLast? hlast)).2.2.2 hsmall) (g.env.comOf r).decimals
      show ∃ ls, (last.2.2.width (g.env.comOf r).decimals).bind _ = .ok ls
      rw [htw]
      exact printEntries_total _ _ _ _ _ _ _ rows (fun row hrow => by
        obtain ⟨e1, _, e2, _⟩ := hrows row hrow
        rw [e1, e2]
        exact ⟨hdec, hdec⟩)
  obtain ⟨ls, hfull⟩ := hfull
  subst hargs
  unfold coinMain
  rw [dispatch_written hw hl ht]
  show ∃ out, registerMain fe g l (a :: rest) = .ok out
  unfold registerMain
  simp only
  rw [hna (str "bp") (by simp), if_neg (by simp), hper, hcat, hfind]
  simp only [Except.bind, Option.isSome_none, Bool.or_self, Bool.false_eq_true, if_false]
  rw [hfull]
  exact ⟨_, rfl⟩

/-! ## Non-vacuity -/

/-- The ledger of C156 meets the hypotheses. -/
example : ∃ out, coinMain cmdFlags (progView fun _ => none) [str "reg", str "Cash"] = .ok out :=
  C189_register_printed progInstall (fun _ => none) progState progAccts (progView fun _ => none) (prog_opens _).1 progCad (prog_opens fun _ => none).2 (by decide)
    cmdFlags (str "reg") [] [] [str "Cash"] [str "Cash"] (by decide) .nil (.plain (.inr (by decide))) (by unfold NotAggregated; decide)
    ⟨fun h => absurd (by decide +kernel) h, fun h => absurd (by decide +kernel) h⟩ (fun h => absurd h (by decide)) (str "Cash") [] rfl (str "Assets:Cash") (ok_of_opt (by decide +kernel))
    (by decide +kernel) (by unfold Volume; decide +kernel)

end Verif
