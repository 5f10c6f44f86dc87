import Verif.Props.Agree
import Verif.Props.ProgramAgg
/-
C191: the columns of the aggregated register add up to the totals of the balance report.
-/
namespace Verif

/-! ## Specification -/

/-- The line of the account `a` in the balance report. -/
def AccountLine (c : Com) (a own cum line : Str) : Prop :=
  ∃ n1 n2 n3, line = rep n1 ' ' ++ own ++ str " | " ++ rep n2 ' ' ++ cum ++ str " " ++ c.id ++ rep n3 ' ' ++ str " | " ++ a

/-- The fields of a row end in the amounts `row`. -/
def EndsIn (c : Com) (row : List Int) (fields : List Str) : Prop :=
  ∃ lead texts, fields = lead ++ texts ∧ List.Forall₂ (fun x t => (Amount.mk x c).string = .ok t) row texts

/-- The sum of the column `j`. -/
def sumOfColumn (table : List (List Int)) (j : Nat) : Int := (table.map fun row => row.getD j 0).sum

/-- `n` is the sum of the column of the account `a`, or zero when it has none. -/
def ColumnOf (accs : List Str) (table : List (List Int)) (a : Str) (n : Int) : Prop :=
  (∃ j, accs[j]? = some a ∧ n = sumOfColumn table j) ∨ (a ∉ accs ∧ n = 0)

/-! ## Lemmas -/

theorem sum_over_rows {α κ : Type} [DecidableEq κ] (key : α → κ) (u : α → Int) : ∀ (ps : List α) (K : List κ), K.Nodup → (∀ p ∈ ps, key p ∈ K) →
    (K.map fun k => ((ps.filter fun p => decide (key p = k)).map u).sum).sum = (ps.map u).sum := by
  intro ps
  induction ps with
  | nil => intro K _ _; simp
  | cons p ps ih =>
    intro K hK hall
    have ih := ih K hK fun q hq => hall q (by simp [hq])
    have hsplit : ∀ k, (((p :: ps).filter fun p => decide (key p = k)).map u).sum = (if key p = k then u p else 0) + ((ps.filter fun p => decide (key p = k)).map u).sum := by
      intro k
      by_cases h : key p = k
      · rw [List.filter_cons_of_pos (by simpa using h), List.map_cons, List.sum_cons, if_pos h]
      · rw [List.filter_cons_of_neg (by simpa using h), if_neg h, zero_add]
    simp only [hsplit]
    rw [List.sum_map_add, ih, List.map_cons, List.sum_cons]
    congr 1
    have hm := hall p (by simp)
    clear hall ih hsplit
    generalize key p = y at hm
    have zero : ∀ K' : List κ, y ∉ K' → (K'.map fun x => if y = x then u p else 0).sum = 0 := by
      intro K' h'
      induction K' with
      | nil => rfl
      | cons x K' ih' =>
        simp only [List.mem_cons, not_or] at h'
        simp [h'.1, ih' h'.2]
    induction K with
    | nil => simp at hm
    | cons x K ihK =>
      obtain ⟨n1, n2⟩ := List.nodup_cons.mp hK
      by_cases he : y = x
      · subst he
        rw [List.map_cons, List.sum_cons, zero K n1]; simp
      · have := ihK n2 (by simpa [he] using hm)
        simp [he, this]

theorem forall2_pick {α β : Type} {R : α → β → Prop} {l : List α} {m : List β} (h : List.Forall₂ R l m) {a : α} (ha : a ∈ l) : ∃ b ∈ m, R a b := by
  induction h with
  | nil => cases ha
  | cons hab _ ih =>
    rcases List.mem_cons.mp ha with rfl | ha
    · exact ⟨_, by simp, hab⟩
    · obtain ⟨b, hb, h⟩ := ih ha
      exact ⟨b, by simp [hb], h⟩

theorem rowLt_nodup {rows : List (Int × Str)} (h : rows.Pairwise RowLt) : rows.Nodup := by
  refine h.imp ?_
  intro a b hab he
  subst he
  rcases hab with h | ⟨_, h⟩
  · omega
  · rw [strLt_irrefl] at h; cases h

theorem colPosts_sub {names : List Str} {compile : Compile} {f : Filters} {ts : List PTxn} {r a : Str} (ha : a ∈ names) (hs : InSub r a) {recurse : Bool}
    {e : PTxn × PPost} (h : e ∈ colPosts names compile f ts recurse a) : e ∈ colPosts names compile f ts true r := by
  classical
  unfold colPosts at h ⊢
  obtain ⟨b, hb, h⟩ := List.mem_flatMap.mp h
  refine List.mem_flatMap.mpr ⟨b, ?_, h⟩
  rw [if_pos rfl]
  unfold familyOf
  rw [List.mem_filter, decide_eq_true_eq]
  have key : b ∈ names ∧ InSub a b := by
    cases recurse with
    | true =>
      rw [if_pos rfl] at hb
      unfold familyOf at hb
      rw [List.mem_filter, decide_eq_true_eq] at hb
      exact hb
    | false =>
      simp only [Bool.false_eq_true, if_false, List.mem_singleton] at hb
      subst hb
      exact ⟨ha, .inl rfl⟩
  refine ⟨key.1, ?_⟩
  rcases key.2 with rfl | h1
  · exact hs
  · rcases hs with rfl | h2
    · exact .inr h1
    · exact .inr (ancName_trans _ _ _ h2 h1)

theorem colPosts_units {names : List Str} {compile : Compile} {f : Filters} (hb : NoBang f.payee) (ts : List PTxn) (recurse : Bool) (a : Str) :
    ((colPosts names compile f ts recurse a).map fun e => unitsOf e.1 e.2).sum =
      if recurse then cumUnits names compile f ts a else ownUnits names compile f ts a := by
  unfold colPosts
  rw [sum_flatMap_units]
  simp only [regBooked_booked hb]
  cases recurse
  · simp [ownUnits]
  · rfl

theorem rowTexts_endsIn {names : List Str} {compile : Compile} {f : Filters} {ts : List PTxn} {per : Option Aggregate} {cat : Option CatBy} {recurse : Bool} {c : Com}
    {accs : List Str} {rows : List (Int × Str)} {fields : List (List Str)} (h : List.Forall₂ (RowTexts names compile f ts per cat recurse false c accs) rows fields) :
    List.Forall₂ (EndsIn c) (rows.map fun k => accs.map fun a => unitsAt per cat false (colPosts names compile f ts recurse a) k.1 k.2) fields := by
  rw [List.forall₂_map_left_iff]
  refine h.imp ?_
  rintro k fs ⟨texts, h1, rfl⟩
  refine ⟨_, texts, rfl, ?_⟩
  rw [List.forall₂_map_left_iff]
  exact h1

/-- **C191** In a ledger of one commodity the columns of the aggregated register add up to the balance report: for every account at or below the
one asked for, the balance report with `-z` shows a line whose own total (with `-r` for the register: whose cumulative total) is the sum of the amounts
in the account's column, and zero if it has none. -/
theorem C191_columns_add_up (P : Install) (compile : Compile) (st : LoadState) (accts : List Acct) (g : LedgerView) (hO : Opened P compile st accts g)
    (hp : PlainNames (accts.map (·.fullName))) (hord : SortsBySize g) (c : Com) (hc : OneCom st accts c) (hdec : c.decimals ≤ 50) (fe : FlagEnv)
    (wb wr : Str) (lb lr : List (Str × Str)) (toksb toksr : List (List Str)) (tailb tailr restb restr : List Str) (a r : Str)
    (hwb : commandOf wb = some .balance) (hlb : List.Forall₂ (Written fe (flagsOf .balance)) lb toksb) (htb : Remaining tailb (a :: restb))
    (hwr : commandOf wr = some .register) (hlr : List.Forall₂ (Written fe (flagsOf .register)) lr toksr) (htr : Remaining tailr (a :: restr))
    (hr : Means (accts.map (·.fullName)) a r)
    (hsame : filtersOf fe lr = filtersOf fe lb) (hv : ValidFilters compile (filtersOf fe lb)) (hbang : NoBang (filtersOf fe lb).payee)
    (hz : boolFlag lb (str "z") = true) (hlev : fe.intFlag lb (str "l") 0 = 0)
    (per : Option Aggregate) (hper : PeriodAsked lr per) (cat : Option CatBy) (hcat : CatAsked lr cat) (hreq : per.isSome = true ∨ cat.isSome = true)
    (hcum : boolFlag lr (str "c") = false)
    (htop : ∀ accs : List Str, accs.Nodup → (∀ a ∈ accs, Shown169 (accts.map (·.fullName)) compile (filtersOf fe lr) st.txns r a) →
      (accs.length : Int) ≤ fe.intFlag lr (str "g") 5)
    (hsome : colPosts (accts.map (·.fullName)) compile (filtersOf fe lr) st.txns true r ≠ [])
    (hempty : cat.isSome = true → ∀ e ∈ colPosts (accts.map (·.fullName)) compile (filtersOf fe lr) st.txns true r, catOf cat e ≠ [])
    (htable : textFlag lr (str "o") (str "text") ≠ str "csv" → textFlag lr (str "o") (str "text") ≠ str "json" →
      (∀ e ∈ colPosts (accts.map (·.fullName)) compile (filtersOf fe lr) st.txns true r,
        0 ≤ goYear (startOf per e.1.posted) ∧ goYear (startOf per e.1.posted) ≤ 9999) ∧
      ∀ a t s, Shown169 (accts.map (·.fullName)) compile (filtersOf fe lr) st.txns r a →
        (unitsAt per cat false (colPosts (accts.map (·.fullName)) compile (filtersOf fe lr) st.txns (boolFlag lr (str "r")) a) t s).natAbs < 10 ^ 50)
    (out1 : Str) (h1 : coinMain fe g (wb :: (toksb.flatten ++ tailb)) = .ok out1) :
    ∃ out2 lines accs table fields, coinMain fe g (wr :: (toksr.flatten ++ tailr)) = .ok out2 ∧ out1 = textOf lines ∧
      (accs : List Str).Nodup ∧ (∀ row ∈ table, row.length = accs.length) ∧ List.Forall₂ (EndsIn c) table fields ∧
      Presents (textFlag lr (str "o") (str "text")) (r ++ ' ' :: c.id) per.isSome cat.isSome (accs.map (colName r (fe.intFlag lr (str "l") 12))) fields out2 ∧
      ∀ b ∈ accts.map (·.fullName), InSub r b → ∃ line ∈ lines, ∃ own cum n, AccountLine c b own cum line ∧ ColumnOf accs table b n ∧
        (Amount.mk n c).string = .ok (if boolFlag lr (str "r") then cum else own) := by
  classical
  obtain ⟨r', lines, hask, e1, ⟨⟨accs1, w, cw, k1, _, _, _, k5⟩⟩⟩ := C177_balance_text P compile st accts g hO hp c hc hdec fe wb lb toksb tailb (a :: restb) hwb hlb htb hv out1 h1
  have hrr : r' = r := by
    rcases hask with ⟨h, _⟩ | ⟨a', rest', h, hm⟩
    · cases h
    · cases h; exact means_unique hm hr
  subst hrr
  have hv' : RegValid compile (filtersOf fe lr) := by
    rw [hsame]
    refine ⟨?_, hv.2⟩
    rw [noBang_rest hbang]
    exact hv.1
  obtain ⟨out2, accs, rows, fields, g1, g2, g3, g4⟩ := C169_aggregated_of_files P compile st accts g hO hord c hc hdec fe wr lr toksr tailr restr a r' hwr hlr htr hr per hper cat hcat hreq hv'
    (by rw [hsame]; exact hbang) (fun h => by rw [hcum] at h; cases h) htop hsome hempty (by rw [hcum]; exact htable)
  rw [hcum] at g3
  refine ⟨out2, lines, accs, _, fields, g1, e1, g2.once, ?_, rowTexts_endsIn g3, g4, ?_⟩
  · intro row hrow
    obtain ⟨k, _, rfl⟩ := List.mem_map.mp hrow
    rw [List.length_map]
  intro b hb hsub
  set names := accts.map (·.fullName) with hnames
  have hmem : b ∈ accs1 := (k1 b).mpr ⟨hb, hsub, .inl hlev, .inl hz⟩
  obtain ⟨line, hline, own, cum, o1, o2, e⟩ : ∃ line ∈ lines, ∃ o x, (Amount.mk (ownUnits names compile (filtersOf fe lb) st.txns b) c).string = .ok o ∧
      (Amount.mk (cumUnits names compile (filtersOf fe lb) st.txns b) c).string = .ok x ∧
      line = rep (w - o.length) ' ' ++ o ++ str " | " ++ rep (cw - x.length) ' ' ++ x ++ str " " ++ c.id ++ rep (blen c.id - c.id.length) ' ' ++ str " | " ++ b := by
    exact forall2_pick k5 hmem
  refine ⟨line, hline, own, cum, if boolFlag lr (str "r") then cumUnits names compile (filtersOf fe lb) st.txns b else ownUnits names compile (filtersOf fe lb) st.txns b,
    ⟨_, _, _, e⟩, ?_, ?_⟩
  · have hu := colPosts_units (names := names) (compile := compile) hbang st.txns (boolFlag lr (str "r")) b
    rw [← hsame] at hu
    rw [← hsame, ← hu]
    by_cases hmem : b ∈ accs
    · left
      obtain ⟨j, hj, rfl⟩ := List.mem_iff_getElem.mp hmem
      refine ⟨j, List.getElem?_eq_getElem hj, ?_⟩
      unfold sumOfColumn
      rw [List.map_map]
      have hcell : ∀ k : Int × Str, ((fun row : List Int => row.getD j 0) ∘ fun k : Int × Str => accs.map fun a => unitsAt per cat false
          (colPosts names compile (filtersOf fe lr) st.txns (boolFlag lr (str "r")) a) k.1 k.2) k =
          (((colPosts names compile (filtersOf fe lr) st.txns (boolFlag lr (str "r")) accs[j]).filter fun e => decide ((startOf per e.1.posted, catOf cat e) = k)).map
            fun e => unitsOf e.1 e.2).sum := by
        rintro ⟨t, s⟩
        simp only [Function.comp_apply, List.getD_eq_getElem?_getD, List.getElem?_map, List.getElem?_eq_getElem hj, Option.map_some, Option.getD_some]
        unfold unitsAt
        simp only [Bool.false_eq_true, if_false, Prod.mk.injEq]
      rw [List.map_congr_left fun k _ => hcell k]
      refine (sum_over_rows (fun e => (startOf per e.1.posted, catOf cat e)) (fun e => unitsOf e.1 e.2) _ rows (rowLt_nodup g2.order) ?_).symm
      intro p hp
      exact (g2.occur _ _).mpr ⟨p, colPosts_sub hb hsub hp, rfl, rfl⟩
    · right
      refine ⟨hmem, ?_⟩
      have hnil : colPosts names compile (filtersOf fe lr) st.txns true b = [] := by
        by_contra h
        exact hmem ((g2.cols b).mpr ⟨hb, hsub, h⟩)
      have : colPosts names compile (filtersOf fe lr) st.txns (boolFlag lr (str "r")) b = [] := by
        rw [List.eq_nil_iff_forall_not_mem]
        intro e he
        have := colPosts_sub hb (.inl rfl) he
        rw [hnil] at this
        cases this
      rw [this]
      rfl
  · cases boolFlag lr (str "r")
    · exact o1
    · exact o2

/-- Non-vacuity: all hypotheses hold of `coin balance -z Assets` and `coin reg -w -o=csv Assets`, which has one column, that of `Assets:Cash`, with the amounts
-3.50 and 10.00. -/
example : ∃ out2 lines accs table fields, coinMain cmdFlags aggLedger [str "reg", str "-w", str "-o=csv", str "Assets"] = .ok out2 ∧
    str "0.00 | 6.50 CAD | Assets\n6.50 | 6.50 CAD | Assets:Cash\n" = textOf lines ∧
    (accs : List Str).Nodup ∧ (∀ row ∈ table, row.length = accs.length) ∧ List.Forall₂ (EndsIn progCad) table fields ∧
    Presents (str "csv") (str "Assets CAD") true false (accs.map (colName (str "Assets") 12)) fields out2 ∧
    ∀ b ∈ progAccts.map (·.fullName), InSub (str "Assets") b → ∃ line ∈ lines, ∃ own cum n, AccountLine progCad b own cum line ∧ ColumnOf accs table b n ∧
      (Amount.mk n progCad).string = .ok own := by
  have hm : Means (progAccts.map (·.fullName)) (str "Assets") (str "Assets") := ok_of_opt (by decide +kernel)
  refine C191_columns_add_up progInstall (fun _ => none) progState progAccts aggLedger ((prog_opens _).1.withOrder _) prog_plain (sortBySize_sorts rfl) progCad
    (prog_opens fun _ => none).2 (by decide) cmdFlags (str "balance") (str "reg") [(str "z", str "true")] [(str "w", str "true"), (str "o", str "csv")] [[str "-z"]] [[str "-w"], [str "-o=csv"]] [str "Assets"] [str "Assets"] [] [] (str "Assets") (str "Assets")
    (by decide) (.cons (.bare (d := ['-']) (.inl rfl) (by decide)) .nil) (.plain (.inr (by decide)))
    (by decide) (.cons (.bare (d := ['-']) (.inl rfl) (by decide)) (.cons (.equals (d := ['-']) (name := str "o") (v := str "csv") (k := .text) (.inl rfl) (by decide) (by decide)) .nil))
    (.plain (.inr (by decide))) hm rfl
    ⟨fun h => absurd (by decide +kernel) h, fun h => absurd (by decide +kernel) h⟩ (by show NoBang []; unfold NoBang; decide +kernel)
    (by decide) (by decide) (some .weekly) (.week (by decide)) none (.none (by decide) (by decide)) (.inl rfl) (by decide) ?_ ?_
    (fun h => absurd h (by decide)) (fun h => absurd (by decide) h) _ (ok_of_opt (by decide +kernel))
  · intro accs hn hs
    have h5 : (progAccts.map (·.fullName)).length = 5 := by decide +kernel
    have : accs.length ≤ (progAccts.map (·.fullName)).length := (List.subperm_of_subset hn fun a ha => (hs a ha).1).length_le
    rw [h5] at this
    have hg : cmdFlags.intFlag [(str "w", str "true"), (str "o", str "csv")] (str "g") 5 = 5 := by decide +kernel
    rw [hg]
    exact_mod_cast this
  · have he : ∃ e ∈ allPostings progState.txns, mustFindAccount (progAccts.map (·.fullName)) (patternMatches e.2.account) e.2.account = .ok (str "Assets:Cash") := by
      refine ⟨(⟨737428, [], str "Pay", [], [⟨str "Cash", some ⟨1000, progCad⟩, none, []⟩, ⟨str "Unbalanced", some ⟨-1000, progCad⟩, none, []⟩]⟩,
        ⟨str "Cash", some ⟨1000, progCad⟩, none, []⟩), by decide +kernel, ok_of_opt (by decide +kernel)⟩
    obtain ⟨e, he, hme⟩ := he
    refine List.ne_nil_of_mem (a := e) ?_
    classical
    unfold colPosts
    refine List.mem_flatMap.mpr ⟨str "Assets:Cash", ?_, ?_⟩
    · rw [if_pos rfl]
      unfold familyOf
      refine List.mem_filter.mpr ⟨by decide +kernel, (decide_eq_true_iff (p := InSub _ _)).mpr (Or.inr ⟨by decide, .inr ⟨by decide, str "Cash", by decide⟩⟩)⟩
    · unfold regBooked
      refine List.mem_filter.mpr ⟨he, (decide_eq_true_iff (p := _ ∧ _)).mpr ⟨hme, ?_, ?_, ?_, ?_⟩⟩
      · intro b hb; cases hb
      · intro b hb; cases hb
      · intro h; exact absurd (by decide +kernel) h
      · intro h; exact absurd (by decide +kernel) h

end Verif
