import Verif.Props.Csv
import Verif.Props.ImportFile
import Verif.Props.Date
import Mathlib.Data.List.Forall2
/-
C99–C101: csv2coin on whole files: which rows become transactions, in what order, and whether what is written reads back.
-/
namespace Verif

/-! ## C99: rows and files -/

/-- Numerals of the same length with the same value are the same. -/
theorem strNat_inj : ∀ {s t : Str}, s.all isDigit = true → t.all isDigit = true → s.length = t.length → strNat s = strNat t → s = t := by
  intro s
  induction s with
  | nil => intro t _ _ hl _; exact (List.length_eq_zero_iff.mp hl.symm).symm
  | cons x s ih =>
    intro t hs ht hl hv
    cases t with
    | nil => simp at hl
    | cons y t =>
      simp only [List.all_cons, Bool.and_eq_true] at hs ht
      simp only [List.length_cons, Nat.add_right_cancel_iff] at hl
      rw [strNat_cons, strNat_cons, hl] at hv
      have h1 := strNat_lt s hs.2
      have h2 := strNat_lt t ht.2
      rw [hl] at h1
      have hd : digitVal x = digitVal y := by
        rcases Nat.lt_trichotomy (digitVal x) (digitVal y) with h | h | h
        · have := Nat.mul_le_mul_right (10 ^ t.length) (Nat.succ_le_of_lt h)
          rw [Nat.succ_mul] at this; omega
        · exact h
        · have := Nat.mul_le_mul_right (10 ^ t.length) (Nat.succ_le_of_lt h)
          rw [Nat.succ_mul] at this; omega
      have hxy : x = y := by
        have hx := hs.1
        have hy := ht.1
        unfold isDigit at hx hy
        unfold digitVal at hd
        simp only [Bool.and_eq_true, decide_eq_true_eq] at hx hy
        exact Char.toNat_inj.mp (by omega)
      subst hxy
      rw [ih hs.2 ht.2 hl (by omega)]

theorem digits_all {s : Str} (h : Digits s) : s.all isDigit = true := List.all_eq_true.mpr h

/-- The date of a row is read as it is written: the day is the one that is written with that text. -/
theorem parseDay_format {s : Str} {d : Int} (h : parseDay s = .ok d) : formatDate d = s ∧ 0 ≤ goYear d ∧ goYear d ≤ 9999 := by
  unfold parseDay at h
  split at h
  · next y1 y2 y3 y4 s1 m1 m2 s2 d1 d2 =>
    split at h
    · next hc =>
      obtain ⟨hall, rfl, rfl⟩ := hc
      simp only [List.all_cons, List.all_nil, Bool.and_eq_true, and_true] at hall
      obtain ⟨a1, a2, a3, a4, a5, a6, a7, a8⟩ := hall
      simp only at h
      split at h
      · next hr =>
        cases h
        obtain ⟨v1, v2, v3⟩ := goDate_valid (strNat [y1, y2, y3, y4] : Nat) (two m1 m2) (two d1 d2) ⟨hr.1, hr.2.1⟩ ⟨hr.2.2.1, hr.2.2.2⟩
        have hy := strNat_lt [y1, y2, y3, y4] (by simp [a1, a2, a3, a4])
        have hm := strNat_lt [m1, m2] (by simp [a5, a6])
        have hd := strNat_lt [d1, d2] (by simp [a7, a8])
        simp only [List.length_cons, List.length_nil] at hy hm hd
        refine ⟨?_, by rw [v1]; omega, by rw [v1]; omega⟩
        unfold formatDate
        rw [v1, v2, v3]
        have p1 := padInt_spec (x := (strNat [y1, y2, y3, y4] : Nat)) (w := 4) (by omega) (by decide) (by omega)
        have p2 := padInt_spec (x := two m1 m2) (w := 2) (by unfold two; omega) (by decide) (by unfold two; omega)
        have p3 := padInt_spec (x := two d1 d2) (w := 2) (by unfold two; omega) (by decide) (by unfold two; omega)
        have e1 : padInt (strNat [y1, y2, y3, y4] : Nat) 4 = [y1, y2, y3, y4] :=
          strNat_inj (digits_all p1.1) (by simp [a1, a2, a3, a4]) (by rw [p1.2.1]; rfl) (by have := p1.2.2; omega)
        have e2 : padInt (two m1 m2) 2 = [m1, m2] :=
          strNat_inj (digits_all p2.1) (by simp [a5, a6]) (by rw [p2.2.1]; rfl) (by have := p2.2.2; unfold two at *; omega)
        have e3 : padInt (two d1 d2) 2 = [d1, d2] :=
          strNat_inj (digits_all p3.1) (by simp [a7, a8]) (by rw [p3.2.1]; rfl) (by have := p3.2.2; unfold two at *; omega)
        rw [e1, e2, e3]
        rfl
      · cases h
    · cases h
  · cases h

/-- Every day of the years 0 to 9999 is read from what is written for it. -/
theorem parseDay_complete (d : Int) (h0 : 0 ≤ goYear d) (h1 : goYear d ≤ 9999) : parseDay (formatDate d) = .ok d := by
  obtain ⟨y, m, dd, e, ⟨hy, hyl⟩, ⟨hm, hml⟩, ⟨hd, hdl⟩, vy, vm, vd⟩ := formatDate_digits d h0 h1
  have r := goParts_range d
  obtain ⟨y1, y2, y3, y4, rfl⟩ : ∃ a b c d, y = [a, b, c, d] := by
    match y, hyl with | [a, b, c, d], _ => exact ⟨a, b, c, d, rfl⟩
  obtain ⟨m1, m2, rfl⟩ : ∃ a b, m = [a, b] := by
    match m, hml with | [a, b], _ => exact ⟨a, b, rfl⟩
  obtain ⟨d1, d2, rfl⟩ : ∃ a b, dd = [a, b] := by
    match dd, hdl with | [a, b], _ => exact ⟨a, b, rfl⟩
  rw [e]
  simp only [List.cons_append, List.nil_append, parseDay]
  rw [if_pos]
  · unfold two
    rw [vy, vm, vd, if_pos ⟨r.1, r.2.1, r.2.2.1, r.2.2.2⟩, goDate_parts]
  · refine ⟨?_, trivial, trivial⟩
    have := digits_all hy
    have := digits_all hm
    have := digits_all hd
    simp_all

/-- **C99** (the head of a transaction) The transaction of a row is dated with the row's date, as it is written; its description is the
row's description with the white space between words reduced to single blanks; its note is the row's note, reduced likewise, or else the
notes of the rule; it has no code. -/
theorem C99_head (env : CsvEnv) (fs : SrcFields) (row : List Str) (t : ITxn) (h : transactionFrom env fs row = .ok (some t)) :
    ∃ account dest notes desc date note d, RowAccounts env fs row account dest notes ∧
      nameValue env.rx fs row env.fuel (str "description") = .ok desc ∧ nameValue env.rx fs row env.fuel (str "date") = .ok date ∧
      nameValue env.rx fs row env.fuel (str "note") = .ok note ∧
      OnDate t.posted d ∧ formatDate d = date ∧ t.posted.off = 0 ∧ t.posted.sec % 86400 = 0 ∧
      t.description = trimWords desc ∧ t.code = [] ∧ t.notes = (if trimWords note = [] then notes else [trimWords note]) := by
  obtain ⟨account, dest, notes, desc, hacc, hdesc, h⟩ := transactionFrom_some h
  unfold rowTransaction at h
  obtain ⟨t0, h0, h⟩ := bind_ok.mp h
  obtain ⟨a, ha, h⟩ := bind_ok.mp h
  obtain ⟨q, hq, h⟩ := bind_ok.mp h
  cases h
  unfold rowHead at h0
  obtain ⟨date, g1, h0⟩ := bind_ok.mp h0
  obtain ⟨d, g2, h0⟩ := bind_ok.mp h0
  obtain ⟨note, g3, h0⟩ := bind_ok.mp h0
  cases h0
  have hrest : ∀ (t : ITxn), (rowPostings env account (findAccountForCommodity env a.com dest) a q t).posted = t.posted ∧
      (rowPostings env account (findAccountForCommodity env a.com dest) a q t).description = t.description ∧
      (rowPostings env account (findAccountForCommodity env a.com dest) a q t).code = t.code ∧
      (rowPostings env account (findAccountForCommodity env a.com dest) a q t).notes = t.notes := by
    intro t; cases q <;> exact ⟨rfl, rfl, rfl, rfl⟩
  obtain ⟨r1, r2, r3, r4⟩ := hrest ⟨⟨d * 86400, 0⟩, [], trimWords desc, if trimWords note ≠ [] then [trimWords note] else notes, []⟩
  refine ⟨account, dest, notes, desc, date, note, d, hacc, hdesc, g1, g3, ?_, (parseDay_format g2).1, by rw [r1], by rw [r1]; simp, r2, r3, ?_⟩
  · rw [r1]; exact ⟨0, by decide, by decide, by simp⟩
  · rw [r4]; simp only; by_cases hn : trimWords note = [] <;> simp [hn]

/-- **C99** (dropped rows) A row is dropped exactly when the rule that applies to its description has no account. -/
theorem C99_dropped (env : CsvEnv) (fs : SrcFields) (row : List Str) (o : Option ITxn) (h : transactionFrom env fs row = .ok o) :
    o = none ↔ ∃ id desc ars r, nameValue env.rx fs row env.fuel (str "account") = .ok id ∧
      nameValue env.rx fs row env.fuel (str "description") = .ok desc ∧ accountRulesFor env.rules env.byOfx id = .ok ars ∧
      ruleFor env.matcher (ruleSets env.rules) (trimWords desc) env.fuel ars.items = .ok (some r) ∧ r.account = none := by
  cases o with
  | some t =>
    simp only [reduceCtorEq, false_iff]
    rintro ⟨id, desc, ars, r, h1, h2, h3, h4, h5⟩
    unfold transactionFrom at h
    simp only [] at h
    rw [h1, h2] at h
    simp only [Except.bind] at h
    rw [h3] at h
    simp only [Except.bind] at h
    rw [h4] at h
    simp only [Except.bind, h5] at h
    cases h
  | none =>
    simp only [true_iff]
    unfold transactionFrom at h
    obtain ⟨id, h1, h⟩ := bind_ok.mp h
    obtain ⟨desc, h2, h⟩ := bind_ok.mp h
    obtain ⟨ars, h3, h⟩ := bind_ok.mp h
    obtain ⟨rule, h4, h⟩ := bind_ok.mp h
    cases rule with
    | none => simp only at h; obtain ⟨_, _, h⟩ := bind_ok.mp h; cases h
    | some r =>
      simp only at h
      split at h
      · next hr => exact ⟨id, desc, ars, r, h1, h2, h3, h4, hr⟩
      · obtain ⟨_, _, h⟩ := bind_ok.mp h; cases h

theorem skipHeader_ok {k : Nat} {n : Option Nat} {rows : List (List Str)} {m : Option Nat} {rest : List (List Str)} :
    skipHeader k n rows = .ok (m, rest) ↔
      ∃ header, rows = header ++ rest ∧ header.length = k ∧ m = (match header.getLast? with | some r => some r.length | none => n) := by
  induction k generalizing n rows with
  | zero =>
    rw [skipHeader]
    constructor
    · intro h; cases h; exact ⟨[], rfl, rfl, rfl⟩
    · rintro ⟨header, h1, h2, h3⟩
      have := List.length_eq_zero_iff.mp h2
      subst this
      simp only [List.nil_append, List.getLast?_nil] at h1 h3
      rw [h1, h3]
  | succ k ih =>
    cases rows with
    | nil =>
      rw [skipHeader]
      constructor
      · intro h; cases h
      · rintro ⟨header, h1, h2, _⟩
        cases header with
        | nil => simp at h2
        | cons r header => simp at h1
    | cons row rows =>
      rw [skipHeader, ih]
      constructor
      · rintro ⟨header, h1, h2, h3⟩
        refine ⟨row :: header, by rw [h1]; rfl, by simp [h2], ?_⟩
        rw [h3]
        cases header with
        | nil => rfl
        | cons r header => rw [List.getLast?_cons_cons]; cases h : (r :: header).getLast? with
          | none => simp at h
          | some x => rfl
      · rintro ⟨header, h1, h2, h3⟩
        cases header with
        | nil => simp at h2
        | cons r header =>
          simp only [List.cons_append, List.cons.injEq] at h1
          obtain ⟨rfl, h1⟩ := h1
          refine ⟨header, h1, by simpa using h2, ?_⟩
          rw [h3]
          cases header with
          | nil => rfl
          | cons r header => rw [List.getLast?_cons_cons]; cases h : (r :: header).getLast? with
            | none => simp at h
            | some x => rfl

/-- All rows have `n` columns; with `none`, as many as the first of them. -/
def SameWidth (n : Option Nat) (rows : List (List Str)) : Prop := ∃ w, (n = none ∨ n = some w) ∧ ∀ r ∈ rows, r.length = w

theorem readRows_ok {one : List Str → Except Fault (Option ITxn)} {n : Option Nat} {rows : List (List Str)} {ts : List ITxn} :
    readRows one n rows = .ok ts ↔ SameWidth n rows ∧ ∃ os, ts = os.flatMap Option.toList ∧ List.Forall₂ (fun r o => one r = .ok o) rows os := by
  induction rows generalizing n ts with
  | nil =>
    rw [readRows]
    constructor
    · intro h
      cases h
      refine ⟨?_, [], rfl, .nil⟩
      cases n with
      | none => exact ⟨0, .inl rfl, by simp⟩
      | some w => exact ⟨w, .inr rfl, by simp⟩
    · rintro ⟨_, os, rfl, h⟩; cases h; rfl
  | cons row rows ih =>
    rw [readRows]
    constructor
    · intro h
      split at h
      · next hn =>
        obtain ⟨o, h1, h⟩ := bind_ok.mp h
        obtain ⟨us, h2, h⟩ := bind_ok.mp h
        cases h
        obtain ⟨⟨w, hw, hall⟩, os, rfl, hos⟩ := ih.mp h2
        have hw : row.length = w := by rcases hw with hw | hw <;> simp at hw; exact hw
        refine ⟨⟨w, ?_, by simpa [hw] using hall⟩, o :: os, by simp, .cons h1 hos⟩
        cases n with
        | none => exact .inl rfl
        | some m => right; simp at hn; rw [hn, hw]
      · cases h
    · rintro ⟨⟨w, hw, hall⟩, os, rfl, hos⟩
      cases hos with
      | cons h1 hos =>
        have hr := hall row (by simp)
        rw [if_pos (by rcases hw with rfl | rfl <;> simp [hr]), h1]
        simp only [Except.bind]
        have : readRows one (some row.length) rows = .ok _ := ih.mpr ⟨⟨w, .inr (by rw [hr]), fun r h => hall r (by simp [h])⟩, _, rfl, hos⟩
        rw [this]
        simp

/-- **C99** (rows) A file is read exactly when it has the header rows, every further row has as many columns as the last header row (or,
without header, as the first row) and can be converted; the result is one transaction for each further row that is not dropped, in order. -/
theorem C99_rows (env : CsvEnv) (src : Source) (rows : List (List Str)) (ts : List ITxn) :
    readCsv env src rows = .ok ts ↔
      ∃ header data os, rows = header ++ data ∧ header.length = src.skip ∧ SameWidth (header.getLast?.map List.length) data ∧
        ts = os.flatMap Option.toList ∧ List.Forall₂ (fun r o => transactionFrom env src.fields r = .ok o) data os := by
  unfold readCsv
  rw [bind_ok]
  constructor
  · rintro ⟨⟨m, data⟩, h1, h2⟩
    obtain ⟨header, e1, e2, e3⟩ := skipHeader_ok.mp h1
    obtain ⟨hw, os, e4, e5⟩ := readRows_ok.mp h2
    refine ⟨header, data, os, e1, e2, ?_, e4, e5⟩
    have : header.getLast?.map List.length = m := by rw [e3]; cases header.getLast? <;> rfl
    rw [this]; exact hw
  · rintro ⟨header, data, os, e1, e2, hw, e4, e5⟩
    refine ⟨(header.getLast?.map List.length, data), skipHeader_ok.mpr ⟨header, e1, e2, ?_⟩, readRows_ok.mpr ⟨hw, os, e4, e5⟩⟩
    cases header.getLast? <;> rfl

/-- **C99** (files) The transactions of all files are written in order of their dates, those of one day in the order of the files and
rows. -/
theorem C99_files (env : CsvEnv) (src : Source) (files : List (List (List Str))) (out : List ITxn) (h : csvTransactions env src files = .ok out) :
    ∃ batches, List.Forall₂ (fun f ts => readCsv env src f = .ok ts) files batches ∧ out.Perm batches.flatten ∧
      out.Pairwise (fun t u => t.posted.sec ≤ u.posted.sec) ∧
      ∀ d, out.filter (fun t => decide (t.posted.sec = d)) = batches.flatten.filter (fun t => decide (t.posted.sec = d)) := by
  unfold csvTransactions at h
  obtain ⟨ts, h1, h⟩ := bind_ok.mp h
  cases h
  have key : ∀ (files : List (List (List Str))) (ts : List ITxn), readFiles env src files = .ok ts →
      ∃ batches, List.Forall₂ (fun f ts => readCsv env src f = .ok ts) files batches ∧ ts = batches.flatten := by
    intro files
    induction files with
    | nil => intro ts h; cases h; exact ⟨[], .nil, rfl⟩
    | cons f files ih =>
      intro ts h
      rw [readFiles] at h
      obtain ⟨us, h1, h⟩ := bind_ok.mp h
      obtain ⟨vs, h2, h⟩ := bind_ok.mp h
      cases h
      obtain ⟨b, hb, rfl⟩ := ih vs h2
      exact ⟨us :: b, .cons h1 hb, rfl⟩
  obtain ⟨batches, hb, rfl⟩ := key files ts h1
  have hassert : ∀ t ∈ batches.flatten, t.hasAssertions = false := by
    intro t ht
    obtain ⟨b, hbm, ht⟩ := List.mem_flatten.mp ht
    obtain ⟨f, _, hf⟩ := forall2_mem_right hb _ hbm
    obtain ⟨header, data, os, _, _, _, rfl, hall⟩ := (C99_rows env src f b).mp hf
    obtain ⟨o, ho, hto⟩ := List.mem_flatMap.mp ht
    have ho' : o = some t := by cases o <;> simp at hto; rw [hto]
    subst ho'
    obtain ⟨r, _, hr⟩ := forall2_mem_right hall _ ho
    obtain ⟨_, _, _, _, _, _, x, y, hp, _, _, ⟨_, _, hx, hy⟩, _⟩ := C97_row env src.fields r t hr
    unfold ITxn.hasAssertions
    rw [hp]
    split <;> simp [hx, hy]
  refine ⟨batches, hb, stableSort_perm _ _, ?_, ?_⟩
  · refine (stableSort_sorted _ less_strictWeak _).imp ?_
    intro a b hl
    unfold ITxn.less at hl
    simp only [Bool.or_eq_false_iff, decide_eq_false_iff_not] at hl
    omega
  · intro d
    have e : ∀ l : List ITxn, (∀ t ∈ l, t.hasAssertions = false) →
        l.filter (fun t => decide (t.posted.sec = d)) = l.filter (fun t => decide (t.posted.sec = d ∧ t.hasAssertions = false)) := by
      intro l hl
      refine List.filter_congr ?_
      intro t ht
      simp [hl t ht]
    rw [e _ hassert, e _ (fun t ht => hassert t ((stableSort_perm _ _).subset ht))]
    refine stableSort_filter _ _ ?_ _
    intro x y hx hy
    simp only [decide_eq_true_eq] at hx hy
    unfold ITxn.less
    rw [hx.1, hy.1, hx.2, hy.2]
    simp

/-- Two files: a header, rows of two days, one dropped. -/
def exFile1 : List (List Str) :=
  [[str "Id", str "Text"], [str "X", str "Fee", str "2019/10/30", str "-12.40", [], []], [str "X", str "TRANSFER", [], [], [], []],
   [str "X", str "DRIP", str "2019/09/10", str "-1630.59", str "VXF", str "123.999"]]
def exFile2 : List (List Str) := [[str "h", [], [], [], [], []], [str "X", str "More", str "2019/09/10", str "1", [], []]]

/-- Full statement of C99 about the header: header rows are skipped, whatever they contain. -/
def C99_Statement : Prop := ∀ (env : CsvEnv) (fs : SrcFields) (name : Str) (header data : List (List Str)) (ts : List ITxn),
  readCsv env ⟨name, 0, fs⟩ data = .ok ts → readCsv env ⟨name, header.length, fs⟩ (header ++ data) = .ok ts

/-- **C99 is false** of the code: the last header row must have as many columns as the rows that follow. -/
theorem C99_header_violated : ¬ C99_Statement := by
  intro h
  have h1 : readCsv exCsvEnv ⟨str "s", 0, exColumns⟩ exFile2.tail = .ok (((readCsv exCsvEnv ⟨str "s", 0, exColumns⟩ exFile2.tail).toOption).getD []) := by
    decide +kernel
  have := h exCsvEnv exColumns (str "s") [[str "title"]] exFile2.tail _ h1
  have h2 : readCsv exCsvEnv ⟨str "s", 1, exColumns⟩ ([[str "title"]] ++ exFile2.tail) = .error .exit := by decide +kernel
  rw [show [[str "title"]].length = 1 from rfl, h2] at this
  cases this

/-- **C99 (partial)** Header rows are skipped when the last of them has as many columns as the rows that follow. Missing: other headers,
which end the command. -/
theorem C99_header_partial (env : CsvEnv) (fs : SrcFields) (name : Str) (header data : List (List Str)) (ts : List ITxn)
    (h : readCsv env ⟨name, 0, fs⟩ data = .ok ts) (hw : ∀ l, header.getLast? = some l → ∀ r ∈ data, r.length = l.length) :
    readCsv env ⟨name, header.length, fs⟩ (header ++ data) = .ok ts := by
  obtain ⟨hd, data', os, e1, e2, hs, e3, e4⟩ := (C99_rows env _ data ts).mp h
  have := List.length_eq_zero_iff.mp e2
  subst this
  simp only [List.nil_append] at e1
  subst e1
  refine (C99_rows env _ _ ts).mpr ⟨header, data, os, rfl, rfl, ?_, e3, e4⟩
  cases hl : header.getLast? with
  | none => simpa using hs
  | some l => exact ⟨l.length, .inr rfl, hw l hl⟩
example : (csvTransactions exCsvEnv ⟨str "s", 1, exColumns⟩ [exFile1.tail, exFile2]).toOption.map (·.map (fun t => (t.description, t.posted.sec / 86400))) =
    some [(str "DRIP", 737311), (str "More", 737311)] := by decide +kernel
example : (csvTransactions exCsvEnv ⟨str "s", 0, exColumns⟩ [exFile1.tail, exFile2.tail]).toOption.map (·.map (fun t => (t.description, t.posted.sec / 86400))) =
    some [(str "DRIP", 737311), (str "More", 737311), (str "Fee", 737361)] := by decide +kernel
example : parseDay (str "2019/02/29") = .error .exit ∧ parseDay (str "2020/02/29") = .ok (goDate 2020 2 29) ∧ parseDay (str "2019/2/1") = .error .exit := by decide +kernel

/-! ## C101: what is written reads back -/

theorem trimWords_note (s : Str) (h : trimWords s ≠ []) : CanonNote (trimWords s) := by
  have hw : ∀ w ∈ words s, Word w := by unfold words; rw [words'_words]; exact scanWords_words s [] (by simp)
  refine ⟨h, ?_, ?_, ?_⟩
  · rintro x hx rfl
    unfold trimWords at hx
    rcases join_mem hx with h | ⟨w, h1, h2⟩
    · exact absurd h (by decide)
    · exact absurd ((hw w h1).2 _ h2) (by decide)
  · intro x t e
    unfold trimWords at e
    cases hws : words s with
    | nil => rw [hws] at e; simp [joinWith] at e
    | cons w ws =>
      rw [hws] at e
      have hword := hw w (by rw [hws]; simp)
      obtain ⟨c, u, rfl⟩ := List.exists_cons_of_ne_nil hword.1
      have hxc : x = c := by cases ws <;> · simp [joinWith] at e; exact e.1.symm
      have hs := hword.2 c (by simp)
      subst hxc
      constructor <;> rintro rfl <;> exact absurd hs (by decide)
  · intro hx
    unfold trimWords at hx
    exact absurd (getLast_join hw hx) (by decide)

/-- A commodity that can be written and is known where the text is read. -/
def RowCom (coms : Str → Option Com) (c : Com) : Prop := c.decimals ≤ 50 ∧ CommodityName c.id ∧ coms c.id = some c

/-- The surroundings of an import: accounts with proper names, commodities that are known when the text is read, notes of one line.
`known` are the accounts. -/
structure CsvOk (env : CsvEnv) (coms : Str → Option Com) (known : Str → Prop) : Prop where
  names : ∀ a, known a → AccountName a
  children : ∀ a, known a → ∀ c ∈ env.children a, known c
  unbalanced : known env.unbalanced
  account : ∀ id ars, accountRulesFor env.rules env.byOfx id = .ok ars → known ars.account
  rules : ∀ id ars payee r a, accountRulesFor env.rules env.byOfx id = .ok ars →
    ruleFor env.matcher (ruleSets env.rules) payee env.fuel ars.items = .ok (some r) → r.account = some a → known a ∧ ∀ n ∈ r.notes, CanonNote n
  own : ∀ a, known a → RowCom coms (env.com a)
  named : ∀ s c, RefNames env s c → RowCom coms c

theorem known_walk {env : CsvEnv} {known : Str → Prop} (h : ∀ a, known a → ∀ c ∈ env.children a, known c) :
    ∀ (n : Nat) (a : Str), known a → ∀ b ∈ subtreePost env.children n a, known b := by
  intro n
  induction n with
  | zero => intro a _ b hb; simp [subtreePost] at hb
  | succ n ih =>
    intro a ha b hb
    rw [subtreePost] at hb
    rcases List.mem_append.mp hb with hb | hb
    · obtain ⟨c, hc, hb⟩ := List.mem_flatMap.mp hb
      exact ih c (h a ha c hc) b hb
    · rw [List.mem_singleton.mp hb]; exact ha

theorem parseAmount_com {s : Str} {c : Com} {a : Amount} (h : parseAmount s c = .ok a) : a.com = c := by
  unfold parseAmount at h
  split at h
  · obtain ⟨v, _, h⟩ := bind_ok.mp h
    split at h
    · obtain ⟨p, _, h⟩ := bind_ok.mp h; cases h; rfl
    · cases h; rfl
  · obtain ⟨v, _, h⟩ := bind_ok.mp h
    split at h
    · obtain ⟨p, _, h⟩ := bind_ok.mp h
      obtain ⟨q, _, h⟩ := bind_ok.mp h
      cases h; rfl
    · cases h; rfl
  · cases h

/-- Full statement of C101: loading what the command writes gives its transactions, with the date, description, notes, accounts and
amounts that were imported. -/
def C101_Statement : Prop := ∀ (env : CsvEnv) (src : Source) (files : List (List (List Str))) (ts : List ITxn) (today : Today) (dec : Str → Nat)
  (st : LoadState) (known : Str → Prop), CsvOk env st.lookup known → csvTransactions env src files = .ok ts → (∀ t ∈ ts, Fits t) →
  (∀ t ∈ ts, t.description ≠ []) →
  ∃ text us, importText dec ts = .ok text ∧ loadText today st text = .ok { st with items := st.items ++ us.map Item.transaction } ∧ List.Forall₂ Records ts us

/-- **C101 (partial)** True when no description has a semicolon after its first character or begins with a parenthesis. Missing: such
descriptions, see below. -/
theorem C101_reads_back_partial (env : CsvEnv) (src : Source) (files : List (List (List Str))) (ts : List ITxn) (today : Today) (dec : Str → Nat)
    (st : LoadState) (known : Str → Prop) (hok : CsvOk env st.lookup known) (h : csvTransactions env src files = .ok ts) (hfit : ∀ t ∈ ts, Fits t)
    (hne : ∀ t ∈ ts, t.description ≠ []) (hsemi : ∀ t ∈ ts, ∀ x ∈ t.description.tail, x ≠ ';') (hcode : ∀ t ∈ ts, ∀ u, t.description ≠ '(' :: u) :
    ∃ text us, importText dec ts = .ok text ∧ loadText today st text = .ok { st with items := st.items ++ us.map Item.transaction } ∧
      List.Forall₂ Records ts us := by
  have hrow : ∀ t ∈ ts, ∃ row, transactionFrom env src.fields row = .ok (some t) := by
    intro t ht
    obtain ⟨batches, hb, hperm, _⟩ := C99_files env src files ts h
    obtain ⟨b, hbm, ht⟩ := List.mem_flatten.mp (hperm.subset ht)
    obtain ⟨f, _, hf⟩ := forall2_mem_right hb _ hbm
    obtain ⟨header, data, os, _, _, _, rfl, hall⟩ := (C99_rows env src f b).mp hf
    obtain ⟨o, ho, hto⟩ := List.mem_flatMap.mp ht
    have ho' : o = some t := by cases o <;> simp at hto; rw [hto]
    subst ho'
    obtain ⟨r, _, hr⟩ := forall2_mem_right hall _ ho
    exact ⟨r, hr⟩
  have canon : ∀ u ∈ ts.map ITxn.written, CanonTxn st.lookup u := by
    intro u hu
    obtain ⟨t, ht, rfl⟩ := List.mem_map.mp hu
    obtain ⟨row, hr⟩ := hrow t ht
    have hf := hfit t ht
    obtain ⟨account, dest, notes, a, hacc, ⟨atext, cur, ac, _, _, _, hac, hpa⟩, x, y, hp, hx, hy, ⟨bx, bY, _, _⟩, hcase⟩ := C97_row env _ row t hr
    obtain ⟨account2, dest2, notes2, desc, date, note, d, hacc2, _, _, _, _, _, _, _, hdesc, hcd, hnotes⟩ := C99_head env _ row t hr
    have kn : ∀ account dest notes, RowAccounts env src.fields row account dest notes → known account ∧ known dest ∧ ∀ n ∈ notes, CanonNote n := by
      rintro account dest notes ⟨id, desc, ars, _, _, h3, rfl, h4⟩
      rcases h4 with ⟨_, rfl, rfl⟩ | ⟨r, h4, h5, rfl⟩
      · exact ⟨hok.account _ _ h3, hok.unbalanced, by simp⟩
      · exact ⟨hok.account _ _ h3, hok.rules _ _ _ _ _ h3 h4 h5⟩
    obtain ⟨ka, kd, _⟩ := kn _ _ _ hacc
    have place : ∀ c root, known root → known (findAccountForCommodity env c root) := by
      intro c root hk
      rcases chosen env c root with ⟨e, _⟩ | ⟨pre, post, e, _⟩
      · rw [e]; exact hok.unbalanced
      · exact known_walk hok.children _ _ hk _ (by rw [e]; simp)
    have hcom : RowCom st.lookup ac := by
      split at hac
      · rw [hac]; exact hok.own _ kd
      · exact hok.named _ _ hac
    have hcx : RowCom st.lookup x.quantity.com ∧ RowCom st.lookup y.quantity.com := by
      rcases hcase with ⟨_, e1, e2⟩ | ⟨q, ⟨sym, c, text, _, _, hn, _, _, hq⟩, e1, e2, _⟩
      · rw [e1, e2]
        simp only [Amount.negated]
        rw [parseAmount_com hpa]
        exact ⟨hcom, hcom⟩
      · rw [e1, e2, parseAmount_com hpa, parseAmount_com hq]
        exact ⟨hok.named _ _ hn, hcom⟩
    have hposts : ∀ z ∈ t.postings, AccountName z.account ∧ RowCom st.lookup z.quantity.com ∧ z.balance = none := by
      have hxx : AccountName x.account ∧ RowCom st.lookup x.quantity.com ∧ x.balance = none :=
        ⟨by rw [hx]; exact hok.names _ (place _ _ ka), hcx.1, bx⟩
      have hyy : AccountName y.account ∧ RowCom st.lookup y.quantity.com ∧ y.balance = none :=
        ⟨by rw [hy]; exact hok.names _ (place _ _ kd), hcx.2, bY⟩
      intro z hz
      rw [hp] at hz
      split at hz <;> (simp only [List.mem_cons, List.not_mem_nil, or_false] at hz; rcases hz with rfl | rfl) <;> assumption
    refine ⟨hf.1 _ (onDate_day _), ?_, ?_, ?_, fun h => absurd h (hne t ht), ?_, ?_, ?_⟩
    · show ∀ x ∈ t.code, _
      rw [hcd]; simp
    · show CanonDescription t.description
      rw [hdesc]
      exact trimWords_canon _ (by rw [← hdesc]; exact hsemi t ht)
    · intro _ w u e
      exact absurd e (hcode t ht _)
    · show ∀ n ∈ t.notes, _
      rw [hnotes]
      intro n hn
      split at hn
      · exact (kn _ _ _ hacc2).2.2 n hn
      · next hw => rw [List.mem_singleton.mp hn]; exact trimWords_note _ hw
    · show List.map _ _ ≠ []
      rw [hp]; split <;> simp
    · intro z hz
      obtain ⟨w, hw, rfl⟩ := List.mem_map.mp hz
      obtain ⟨g1, g2, g3⟩ := hposts w hw
      obtain ⟨f1, _⟩ := hf.2 w hw
      refine ⟨g1, ⟨_, rfl, g2.1, by omega, f1.2, g2.2.1, g2.2.2⟩, ?_, by simp⟩
      intro b hb
      simp only [g3, ite_self] at hb
      cases hb
  obtain ⟨lines, hl, hload⟩ := C53_file_read_back today dec st (ts.map ITxn.written) canon
  refine ⟨textOf lines, ts.map ITxn.written, ?_, hload, ?_⟩
  · unfold importText; rw [hl]; rfl
  · rw [List.forall₂_map_right_iff]
    exact List.forall₂_same.mpr (fun t _ => records_written t)

def exKnown (a : Str) : Prop := a ∈ [str "Assets:X", str "Assets:X:VXF", str "Income", str "Unbalanced"]

def exCsvLoaded : LoadState := ⟨[exCom, exShare], exCom.id, []⟩

theorem exCsv_com (c : Com) (h : c = exCom ∨ c = exShare) : RowCom exCsvLoaded.lookup c := by
  rcases h with rfl | rfl
  · exact ⟨by decide, ⟨'C', str "AD", rfl, by decide, by decide⟩, by decide⟩
  · exact ⟨by decide, ⟨'V', str "XF", rfl, by decide, by decide⟩, by decide⟩

theorem exName4 : AccountName (str "Assets:X") := by
  have e : str "Assets:X" = str "Assets" ++ ':' :: str "X" := by decide
  rw [e]
  exact .cons (exSegment 'A' (str "ssets") (by decide)) (.one (exSegment 'X' [] (by decide)))
theorem exName5 : AccountName (str "Assets:X:VXF") := by
  have e : str "Assets:X:VXF" = str "Assets" ++ ':' :: (str "X" ++ ':' :: str "VXF") := by decide
  rw [e]
  exact .cons (exSegment 'A' (str "ssets") (by decide)) (.cons (exSegment 'X' [] (by decide)) (.one (exSegment 'V' (str "XF") (by decide))))
theorem exName6 : AccountName (str "Income") := by
  have e : str "Income" = 'I' :: str "ncome" := by decide
  rw [e]; exact .one (exSegment _ _ (by decide))

theorem exCsv_account {id : Str} {ars : AccountRules} (h : accountRulesFor exCsvEnv.rules exCsvEnv.byOfx id = .ok ars) :
    ars = ⟨str "Assets:X", [.rule ⟨some (str "Income"), str "DRIP", [str "n"]⟩, .rule ⟨none, str "TRANSFER", []⟩]⟩ := by
  unfold accountRulesFor exCsvEnv RuleIndex.accountRules at h
  simp only [List.find?_cons, List.find?_nil] at h
  by_cases hid : str "X" = id
  · simp only [hid, decide_true, Option.map_some] at h
    cases h; rfl
  · simp only [hid, decide_false, Option.map_none] at h
    cases h

/-- The surroundings of the example. -/
theorem exCsvOk : CsvOk exCsvEnv exCsvLoaded.lookup exKnown where
  names := by
    intro a ha
    unfold exKnown at ha
    simp only [List.mem_cons, List.not_mem_nil, or_false] at ha
    rcases ha with rfl | rfl | rfl | rfl
    · exact exName4
    · exact exName5
    · exact exName6
    · exact exName2
  children := by
    intro a _ c hc
    unfold exCsvEnv at hc
    simp only at hc
    split at hc
    · rw [List.mem_singleton.mp hc]; unfold exKnown; decide
    · simp at hc
  unbalanced := by unfold exKnown exCsvEnv; decide
  account := by intro id ars h; rw [exCsv_account h]; unfold exKnown; decide
  rules := by
    intro id ars payee r a h hr ha
    rw [exCsv_account h] at hr
    rcases two_rules hr with rfl | rfl
    · cases ha
      refine ⟨by unfold exKnown; decide, ?_⟩
      intro n hn
      rw [List.mem_singleton.mp hn]
      refine ⟨by decide, by unfold noNl; decide, ?_, by decide⟩
      rintro x t e; cases e; decide
    · cases ha
  own := by
    intro a _
    apply exCsv_com
    unfold exCsvEnv
    simp only
    split
    · exact .inr rfl
    · exact .inl rfl
  named := by
    intro s c h
    apply exCsv_com
    rcases h with h | ⟨_, h⟩
    · unfold exCsvEnv at h
      simp only at h
      split at h
      · cases h; exact .inl rfl
      · split at h
        · cases h; exact .inr rfl
        · cases h
    · cases h

/-- A file with one row. -/
def exCsvFile (desc : String) : List (List Str) := [[str "X", str desc, str "2019/09/10", str "1.00", [], []]]
def exCsvTxn (desc : String) : ITxn :=
  ⟨⟨737311 * 86400, 0⟩, [], str desc, [], [plainPost (str "Assets:X") ⟨100, exCom⟩, plainPost (str "Unbalanced") ⟨-100, exCom⟩]⟩

theorem exCsv_fits (p : String) : Fits (exCsvTxn p) := by
  refine ⟨?_, ?_⟩
  · rintro d ⟨c, h1, h2, h3⟩
    have : d = 737311 := by
      simp only [exCsvTxn] at h3
      omega
    subst this
    decide +kernel
  · intro x hx
    unfold exCsvTxn at hx
    simp only [List.mem_cons, List.not_mem_nil, or_false] at hx
    rcases hx with rfl | rfl <;> exact ⟨by decide, by rintro b h; cases h⟩

example : csvTransactions exCsvEnv ⟨str "s", 0, exColumns⟩ [exCsvFile "SHOP"] = .ok [exCsvTxn "SHOP"] := by decide +kernel

theorem exCsv_text : importText (fun _ => 2) [exCsvTxn "SHOP; NYC"] = .ok
    (str "2019/09/10 SHOP; NYC\n  Assets:X     1.00 CAD\n  Unbalanced  -1.00 CAD\n\n") := by decide +kernel

/-- **C101 is false** of the code: the part of a description after a semicolon is read back as a note. -/
theorem C101_description_violated : ¬ C101_Statement := by
  intro hst
  obtain ⟨text, us, h1, h2, h3⟩ := hst exCsvEnv ⟨str "s", 0, exColumns⟩ [exCsvFile "SHOP; NYC"] [exCsvTxn "SHOP; NYC"] ⟨2020, 1, 1⟩ (fun _ => 2) exCsvLoaded
    exKnown exCsvOk (by decide +kernel) (by intro t ht; rw [List.mem_singleton.mp ht]; exact exCsv_fits _) (by decide +kernel)
  rw [exCsv_text] at h1
  cases h1
  have hd : ((loadText ⟨2020, 1, 1⟩ exCsvLoaded (str "2019/09/10 SHOP; NYC\n  Assets:X     1.00 CAD\n  Unbalanced  -1.00 CAD\n\n")).toOption.map
    (fun st => st.items.map itemDescription)) = some [str "SHOP"] := by decide +kernel
  rw [h2] at hd
  cases h3 with
  | cons h h' =>
    cases h'
    have e := h.2.2.1
    simp only [Except.toOption, Option.map_some, exCsvLoaded, List.nil_append, List.map_cons, List.map_nil, itemDescription, Option.some.injEq, List.cons.injEq, and_true] at hd
    rw [hd] at e
    exact absurd e (by decide)

end Verif
