import Verif.Props.RegisterPrints
/-
C190: the register and the balance report show the same total.
-/
namespace Verif

/-! ## Specification -/

/-- The first line of the balance report is that of `r` with the own total `own` and the cumulative total `cum`. -/
def FirstLine (c : Com) (r own cum out : Str) : Prop :=
  ∃ n1 n2 n3 more, out = textOf ((rep n1 ' ' ++ own ++ str " | " ++ rep n2 ' ' ++ cum ++ str " " ++ c.id ++ rep n3 ' ' ++ str " | " ++ r) :: more)

/-- The last line of the register, below the heading, ends in the running total `tot`; without any line it is the text of zero. -/
def LastTotal (head : List Str) (c : Com) (tot out : Str) : Prop :=
  (out = textOf head ∧ (Amount.mk 0 c).string = .ok tot) ∨
  ∃ before cells cell mark, Padded tot cell ∧ out = textOf (head ++ before ++ [cells ++ str " | " ++ cell ++ str " " ++ c.id ++ [mark]])

/-! ## Lemmas -/

theorem sumOf_units {conv : Conv} {c : Com} {l : List Amount} {n : Int} (hl : ∀ x ∈ l, x.com = c) (h : SumOf conv c l n) : n = (l.map (·.int)).sum := by
  refine sumOf_unique h ⟨l.map (·.int), ?_, rfl⟩
  rw [List.forall₂_map_right_iff, List.forall₂_same]
  exact fun x hx => .inl ⟨hl x hx, rfl⟩

/-- In a ledger of one commodity a posting is booked with its units. -/
theorem booked_units {st : LoadState} {accts : List Acct} {c : Com} (hc : OneCom st accts c) {names : List Str} {comOf : Str → Com} (hcom : ∀ x a, Means names x a → comOf a = c)
    {conv : Conv} {t : PTxn} {p : PPost} {q : Amount} (ht : t ∈ st.txns) (hp : p ∈ t.postings) {a : Str} (ha : Means names p.account a) (h : AmountOf names comOf conv t p q) :
    q = ⟨unitsOf t p, c⟩ := by
  obtain ⟨qi, qc⟩ := q
  cases h with
  | stated h =>
    have := hc.amounts t ht p hp _ h
    dsimp only at this
    subst this
    unfold unitsOf
    rw [h]
  | missing h1 h2 h3 =>
    have e : c = qc := by
      rw [← hcom _ _ ha]
      exact h2 p hp a ha
    subst e
    have := sumOf_units (by
      intro x hx
      obtain ⟨p', hp', hq⟩ := List.mem_filterMap.mp hx
      exact hc.amounts t ht p' hp' x hq) h3
    unfold unitsOf
    rw [h1]
    simp only at this ⊢
    rw [← this]
    simp

theorem forall2_snoc {α β : Type _} {R : α → β → Prop} {a : α} : ∀ {l : List α} {m : List β}, List.Forall₂ R (l ++ [a]) m →
    ∃ m' b, m = m' ++ [b] ∧ List.Forall₂ R l m' ∧ R a b := by
  intro l
  induction l with
  | nil =>
    intro m h
    cases h with
    | cons h1 h2 => cases h2; exact ⟨[], _, rfl, .nil, h1⟩
  | cons x l ih =>
    intro m h
    cases h with
    | cons h1 h2 =>
      obtain ⟨m', b, rfl, h3, h4⟩ := ih h2
      exact ⟨_ :: m', b, rfl, .cons h1 h3, h4⟩

theorem regBooked_booked {names : List Str} {compile : Compile} {f : Filters} (h : NoBang f.payee) (ts : List PTxn) (a : Str) :
    regBooked names compile f ts a = booked names compile f ts a := by
  classical
  unfold regBooked booked
  refine List.filter_congr ?_
  intro e _
  rw [decide_eq_decide]
  unfold Means
  refine and_congr Iff.rfl ?_
  unfold RegPicks Picks
  have : PayeeMatch compile f.payee e.1.description ↔ ∃ m, compile f.payee = some m ∧ m e.1.description = true := by
    unfold PayeeMatch
    rw [noBang_rest h]
    have h : (stripBang f.payee).1 = false := h
    rw [h]
    simp
  rw [this]

theorem booked_mem {names : List Str} {compile : Compile} {f : Filters} {ts : List PTxn} {a : Str} {e : PTxn × PPost} (h : e ∈ booked names compile f ts a) :
    e.1 ∈ ts ∧ e.2 ∈ e.1.postings ∧ Means names e.2.account a := by
  classical
  unfold booked at h
  rw [List.mem_filter, decide_eq_true_eq] at h
  obtain ⟨h1, h2, _⟩ := h
  unfold allPostings at h1
  obtain ⟨t, ht, h1⟩ := List.mem_flatMap.mp h1
  obtain ⟨p, hp, rfl⟩ := List.mem_map.mp h1
  exact ⟨ht, hp, h2⟩

theorem sum_flatMap_units (own : Str → List (PTxn × PPost)) : ∀ accs : List Str,
    ((accs.flatMap own).map fun e => unitsOf e.1 e.2).sum = (accs.map fun a => ((own a).map fun e => unitsOf e.1 e.2).sum).sum := by
  intro accs
  induction accs with
  | nil => rfl
  | cons a l ih => rw [List.flatMap_cons, List.map_append, List.sum_append, ih, List.map_cons, List.sum_cons]

theorem lastTotal_of {head ls : List Str} {line cells cell out tot : Str} {c : Com} {mark : Char} (hp : Padded tot cell)
    (hl : line = cells ++ str " | " ++ cell ++ str " " ++ c.id ++ [mark]) (ho : out = textOf (head ++ (ls ++ [line]))) : LastTotal head c tot out := by
  right
  refine ⟨ls, cells, cell, mark, hp, ?_⟩
  rw [ho, hl, ← List.append_assoc head]

/-- **C190** In a ledger of one commodity `coin register` ends in the total that `coin balance -z` with the same filters shows for the same
account: in its own total, and with `-r` in its cumulative total. -/
theorem C190_same_total (P : Install) (compile : Compile) (st : LoadState) (accts : List Acct) (g : LedgerView) (hO : Opened P compile st accts g)
    (hp : PlainNames (accts.map (·.fullName))) (c : Com) (hc : OneCom st accts c) (hdec : c.decimals ≤ 50) (fe : FlagEnv)
    (wb wr : Str) (lb lr : List (Str × Str)) (toksb toksr : List (List Str)) (tailb tailr restb restr : List Str) (a : Str)
    (hwb : commandOf wb = some .balance) (hlb : List.Forall₂ (Written fe (flagsOf .balance)) lb toksb) (htb : Remaining tailb (a :: restb))
    (hwr : commandOf wr = some .register) (hlr : List.Forall₂ (Written fe (flagsOf .register)) lr toksr) (htr : Remaining tailr (a :: restr))
    (hsame : filtersOf fe lr = filtersOf fe lb) (hv : ValidFilters compile (filtersOf fe lb)) (hbang : NoBang (filtersOf fe lb).payee)
    (hz : boolFlag lb (str "z") = true) (hlev : fe.intFlag lb (str "l") 0 = 0)
    (hna : NotAggregated lr) (hnotes : boolFlag lr (str "n") = false) (hloc : boolFlag lr (str "f") = false)
    (out1 out2 : Str) (h1 : coinMain fe g (wb :: (toksb.flatten ++ tailb)) = .ok out1) (h2 : coinMain fe g (wr :: (toksr.flatten ++ tailr)) = .ok out2) :
    ∃ r own cum, Means (accts.map (·.fullName)) a r ∧ FirstLine c r own cum out1 ∧
      LastTotal (if textFlag lr (str "o") (str "text") = str "text" then [r ++ ' ' :: c.id] else []) c (if boolFlag lr (str "r") then cum else own) out2 := by
  classical
  obtain ⟨r, lines1, hask, e1, ⟨⟨accs1, w, cw, k1, k2, _, _, k5⟩⟩⟩ := C177_balance_text P compile st accts g hO hp c hc hdec fe wb lb toksb tailb (a :: restb) hwb hlb htb hv out1 h1
  have hr : Means (accts.map (·.fullName)) a r := by
    rcases hask with ⟨h, _⟩ | ⟨a', rest', h, hm⟩
    · cases h
    · cases h; exact hm
  have hv' : RegValid compile (filtersOf fe lr) := by
    rw [hsame]
    refine ⟨?_, hv.2⟩
    rw [noBang_rest hbang]
    exact hv.1
  obtain ⟨conv, a', rest', r', entries, lines2, _, hargs, hr', m1, _, m3, m4, m5, e2⟩ := C157_register_of_files P compile st accts g hO fe wr lr toksr tailr (a :: restr) hwr hlr htr hna hv'
    (fun _ => by rw [hsame]; exact hbang) out2 h2
  cases hargs
  cases means_unique hr hr'
  have hn : (accts.map (·.fullName)).Nodup := by
    obtain ⟨_, _, _, _, _, _, _, _, _, _, _, _, _, _, _, _, hA, _, _, _, _, rfl⟩ := hO
    exact (resolved_spec _ _ _ _ hA).1
  have hcomOf : ∀ b ∈ accts.map (·.fullName), st.comOf accts b = c := by
    intro b hb
    obtain ⟨x, hx, rfl⟩ := List.mem_map.mp hb
    unfold LoadState.comOf
    rw [getAcct_of_mem accts hn x hx]
    simp [hc.accounts x hx]
  have hcomM : ∀ x b, Means (accts.map (·.fullName)) x b → st.comOf accts b = c := fun x b h => hcomOf b (mustFind_mem hn h)
  have hrm := mustFind_mem hn hr
  rw [hcomOf r hrm] at m4 e2
  set names := accts.map (·.fullName) with hnames
  set f := filtersOf fe lb with hf
  -- the line of the account in the balance report
  obtain ⟨x, accs', rfl⟩ : ∃ x l, accs1 = x :: l := by
    have : r ∈ accs1 := (k1 r).mpr ⟨hrm, .inl rfl, .inl hlev, .inl hz⟩
    cases accs1 with
    | nil => cases this
    | cons x l => exact ⟨x, l, rfl⟩
  have hx : x = r := by
    have hrx : r ∈ x :: accs' := (k1 r).mpr ⟨hrm, .inl rfl, .inl hlev, .inl hz⟩
    rcases List.mem_cons.mp hrx with h | h
    · exact h.symm
    · have hb := (List.pairwise_cons.mp k2).1 r h
      rcases ((k1 x).mp (by simp)).2.1 with h' | h'
      · exact h'
      · exact absurd hb (nameBefore_asymm (nameBefore_below h'))
  subst hx
  cases k5 with
  | cons hline hrest =>
    rename_i line1 lines1
    obtain ⟨own, cum, o1, o2, rfl⟩ := hline
    refine ⟨x, own, cum, hr, ⟨_, _, _, lines1, e1⟩, ?_⟩
    -- the entries of the register add up to the total
    have hbk : ∀ e ∈ entries, ∃ b, (e.txn, e.post) ∈ booked names compile f st.txns b ∧ e.amount = ⟨unitsOf e.txn e.post, c⟩ := by
      intro e he
      have hm := m1.mem_iff.mp (List.mem_map_of_mem (f := fun e : Entry => (e.txn, e.post)) he)
      obtain ⟨b, _, hb⟩ := List.mem_flatMap.mp hm
      rw [hsame, regBooked_booked hbang] at hb
      obtain ⟨g1, g2, g3⟩ := booked_mem hb
      exact ⟨b, hb, booked_units hc hcomM g1 g2 g3 (m3 e he).amount⟩
    have hsum : (entries.map fun e => e.amount.int).sum =
        if boolFlag lr (str "r") then cumUnits names compile f st.txns x else ownUnits names compile f st.txns x := by
      have s1 : entries.map (fun e => e.amount.int) = (entries.map fun e => (e.txn, e.post)).map fun e => unitsOf e.1 e.2 := by
        rw [List.map_map]
        refine List.map_congr_left ?_
        intro e he
        obtain ⟨_, _, hq⟩ := hbk e he
        rw [hq]; rfl
      rw [s1, perm_sum_int (m1.map _), sum_flatMap_units]
      rw [hsame]
      simp only [regBooked_booked hbang]
      cases boolFlag lr (str "r")
      · simp [ownUnits]
      · rfl
    have htot : (Amount.mk (entries.map fun e => e.amount.int).sum c).string = .ok (if boolFlag lr (str "r") then cum else own) := by
      rw [hsum]
      cases boolFlag lr (str "r")
      · exact o1
      · exact o2
    have hz0 : ∀ (es : List Entry) (ls : List Str), es.length = ls.length → (es.zip ls).flatMap (fun e => e.2 :: entryNotes (boolFlag lr (str "n")) e.1) = ls := by
      intro es ls
      rw [hnotes]
      induction es generalizing ls with
      | nil => intro h; cases ls with | nil => rfl | cons => cases h
      | cons e es ih =>
        intro h
        cases ls with
        | nil => cases h
        | cons y ls =>
          rw [List.zip_cons_cons, List.flatMap_cons, ih ls (by simpa using h)]
          rfl
    rw [hz0 entries lines2 m5.length_eq] at e2
    rcases List.eq_nil_or_concat entries with rfl | ⟨es, last, rfl⟩
    · cases m5
      left
      refine ⟨by rw [e2, List.append_nil], ?_⟩
      exact htot
    · rw [List.concat_eq_append] at *
      obtain ⟨ls, line, rfl, _, hl⟩ := forall2_snoc m5
      obtain ⟨q, t, desc, acct, oacct, qty, tot, loc, _, ht', _, _, _, _, hpad, hline⟩ := hl
      rw [hcomM _ _ (m3 last (by simp)).acct, hloc] at hline
      have hlast := m4 es.length (by simp)
      rw [List.take_of_length_le (by simp)] at hlast
      simp only [List.getElem_concat_length] at hlast
      have hone := sumOf_units (by
        intro q hq
        obtain ⟨e, he, rfl⟩ := List.mem_map.mp hq
        obtain ⟨_, _, h⟩ := hbk e he
        rw [h]) hlast.2
      have htt : last.total = ⟨((es ++ [last]).map fun e => e.amount.int).sum, c⟩ := by
        rw [show last.total = ⟨last.total.int, last.total.com⟩ from rfl, hone, hlast.1, List.map_map]
        rfl
      rw [htt, htot] at ht'
      cases ht'
      simp only [Bool.false_eq_true, if_false, List.append_nil] at hline
      exact lastTotal_of hpad hline e2

/-- The register and the balance report of the example: `coin reg -r Assets` ends in 6.50, the cumulative total that `coin balance -z Assets` shows. -/
example : ∃ r own cum, Means (progAccts.map (·.fullName)) (str "Assets") r ∧
    FirstLine progCad r own cum (str "0.00 | 6.50 CAD | Assets\n6.50 | 6.50 CAD | Assets:Cash\n") ∧
    LastTotal (if textFlag [(str "r", str "true")] (str "o") (str "text") = str "text" then [r ++ ' ' :: progCad.id] else []) progCad
      (if boolFlag [(str "r", str "true")] (str "r") then cum else own)
      (str "Assets CAD\n2020/01/02 | Shop | :Cash |       Food | -3.50 | -3.50 CAD \n2020/01/05 |  Pay | :Cash | Unbalanced | 10.00 | 6.50 CAD \n") :=
  C190_same_total progInstall (fun _ => none) progState progAccts (progView fun _ => none) (prog_opens _).1 prog_plain progCad (prog_opens fun _ => none).2 (by decide)
    cmdFlags (str "balance") (str "reg") [(str "z", str "true")] [(str "r", str "true")] [[str "-z"]] [[str "-r"]] [str "Assets"] [str "Assets"] [] [] (str "Assets")
    (by decide) (.cons (.bare (d := ['-']) (.inl rfl) (by decide)) .nil) (.plain (.inr (by decide)))
    (by decide) (.cons (.bare (d := ['-']) (.inl rfl) (by decide)) .nil) (.plain (.inr (by decide)))
    rfl ⟨fun h => absurd (by decide +kernel) h, fun h => absurd (by decide +kernel) h⟩ (by unfold NoBang; decide +kernel)
    (by decide) (by decide) (by unfold NotAggregated; decide) (by decide) (by decide) _ _ (ok_of_opt (by decide +kernel)) (ok_of_opt (by decide +kernel))

end Verif
