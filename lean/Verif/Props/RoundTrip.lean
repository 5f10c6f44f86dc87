import Verif.Lemmas.Parser
/-
C53, C54: writing transactions and reading them back.
-/
namespace Verif

/-! ## Specification -/

/-- A note that survives: not empty, on one line, not starting with a blank, not ending in a carriage return. -/
def CanonNote (n : Str) : Prop :=
  n ≠ [] ∧ noNl n ∧ (∀ x t, n = x :: t → x ≠ ' ' ∧ x ≠ '\t') ∧ n.getLast? ≠ some '\r'

/-- An amount of a known commodity whose digits fit 64 bits. -/
def CanonAmount (coms : Str → Option Com) (a : Amount) : Prop :=
  a.com.decimals ≤ 50 ∧ -(2 ^ 63) ≤ a.int ∧ a.int < 2 ^ 63 ∧ CommodityName a.com.id ∧ coms a.com.id = some a.com

/-- A description: empty, or on one line, without semicolon after its first character, not starting with white space and not ending
with a blank, tab or carriage return. -/
def CanonDescription (d : Str) : Prop :=
  d = [] ∨ ((∀ x ∈ d, x ≠ '\n') ∧ (∀ x ∈ d.tail, x ≠ ';') ∧ (∀ x t, d = x :: t → isWs x = false) ∧
    (∀ x, d.getLast? = some x → x ≠ ' ' ∧ x ≠ '\t' ∧ x ≠ '\r'))

structure CanonPost (coms : Str → Option Com) (p : PPost) : Prop where
  account : AccountName p.account
  quantity : ∃ q, p.quantity = some q ∧ CanonAmount coms q
  balance : ∀ b, p.balance = some b → CanonAmount coms b
  notes : ∀ n ∈ p.notes, CanonNote n

/-- A transaction in canonical form. -/
structure CanonTxn (coms : Str → Option Com) (t : PTxn) : Prop where
  year : 100 ≤ goYear t.posted ∧ goYear t.posted ≤ 9999
  code : ∀ x ∈ t.code, isWord x = true
  description : CanonDescription t.description
  /-- a description that looks like a code is one -/
  noCode : t.code = [] → ∀ w u, t.description = '(' :: w ++ ')' :: u → w = [] ∨ ∃ x ∈ w, isWord x = false
  noNotes : t.description = [] → t.notes = []
  notes : ∀ n ∈ t.notes, CanonNote n
  some_posting : t.postings ≠ []
  postings : ∀ p ∈ t.postings, CanonPost coms p

/-- The lines after a transaction do not continue it. -/
def Stops (rest : List Str) : Prop := ∀ l ls, rest = l :: ls → postingRe.matches l = none

/-! ## Proofs -/

theorem trimRight_id {s : Str} (h : ∀ x, s.getLast? = some x → x ≠ ' ' ∧ x ≠ '\t') : trimRight s = s := by
  unfold trimRight
  have : s.reverse.dropWhile (fun c => decide (c = ' ') || decide (c = '\t')) = s.reverse := by
    cases hr : s.reverse with
    | nil => rfl
    | cons x t =>
      have hl : s.getLast? = some x := by
        have : s = (x :: t).reverse := by rw [← hr]; simp
        rw [this]; simp
      have := h x hl
      simp [this.1, this.2]
  rw [this]; simp

theorem trimRight_blank {s : Str} : trimRight (s ++ [' ']) = trimRight s := by
  unfold trimRight; simp

theorem trimLeft_id {s : Str} (h : ∀ x t, s = x :: t → x ≠ ' ' ∧ x ≠ '\t') : trimLeft s = s := by
  unfold trimLeft
  cases s with
  | nil => rfl
  | cons x t => have := h x t rfl; simp [this.1, this.2]

theorem shortNotes_canon {n : Option Str} (h : ∀ x ∈ n, CanonNote x) : shortNotes (n.getD []) = n.toList := by
  unfold shortNotes
  cases n with
  | none => rfl
  | some n =>
    obtain ⟨h1, _, h2, _⟩ := h n rfl
    simp only [Option.getD_some, trimLeft_id h2, if_neg h1, Option.toList_some]

/-- The groups of a date. -/
def dateCaps (n : Int) (y m d : Str) : Caps := [(str "date", formatDate n), (str "ymd", formatDate n), (str "ymdd", d), (str "ymdm", m), (str "ymdy", y)]

/-- Caps of the date of a written transaction. -/
theorem written_date {n : Int} (h : 100 ≤ goYear n ∧ goYear n ≤ 9999) : ∃ y m d : Str, formatDate n = y ++ '/' :: (m ++ '/' :: d) ∧
    (∀ rest, RunsTo dateRe (formatDate n) (' ' :: rest) [] (dateCaps n y m d)) ∧
    ∀ (today : Today) (c : Caps), c.get (str "ymd") = formatDate n → c.get (str "ymdy") = y → c.get (str "ymdm") = m → c.get (str "ymdd") = d →
      c.get (str "offset") = [] → mustParseDate today c = .ok n := by
  obtain ⟨y, m, d, e, hy, hm, hd, ey, em, ed⟩ := formatDate_digits n (by omega) h.2
  refine ⟨y, m, d, e, ?_, ?_⟩
  · intro rest
    unfold dateCaps
    rw [e]
    have hr : DateEnd (' ' :: rest) := by intro x t e; cases e; exact ⟨by decide, by decide⟩
    have h1 := ymd_run (rest := [] ++ (' ' :: rest)) ⟨hy.1, .inr hy.2⟩ ⟨hm.1, .inr hm.2⟩ ⟨hd.1, .inr hd.2⟩ (by simpa using hr) []
    have h2 := noOffset_run (rest := ' ' :: rest) (by intro x t e; cases e; exact ⟨by decide, by decide⟩)
      ((str "ymd", y ++ '/' :: (m ++ '/' :: d)) :: (str "ymdd", d) :: (str "ymdm", m) :: (str "ymdy", y) :: [])
    have := date_run h1 h2
    simpa using this
  · intro today c c1 c2 c3 c4 c5
    unfold mustParseDate parseDate
    rw [base_ymd today (by rw [c1, e]; simp) c2 (by rintro rfl; have := hy.2; simp at this) c3 c4]
    simp only [c5]
    rw [ey, em, ed, if_neg (by omega), goDate_parts]
    rfl

/-- The part of the first line between date and description. -/
def codeText (code : Str) : Str := if code = [] then [] else ' ' :: '(' :: (code ++ [')'])
def codeCaps (code : Str) (c : Caps) : Caps := if code = [] then c else (str "code", code) :: c

theorem code_run {code rest : Str} (h : ∀ x ∈ code, isWord x = true) (hn : code = [] → NoMatch codeRe rest) (c : Caps) :
    RunsTo (.opt codeRe) (codeText code) rest c (codeCaps code c) := by
  unfold codeText codeCaps
  by_cases h0 : code = []
  · rw [if_pos h0, if_pos h0]; exact RunsTo.optNone (hn h0)
  · rw [if_neg h0, if_neg h0]
    have h1 : RunsTo (.plus .ws) [' '] ((['('] ++ (code ++ [')'])) ++ rest) c c :=
      RunsTo.plus (by simp) (by intro x hx; simp at hx; subst hx; decide) (NoHead.cons (by decide)) c
    have h2 : RunsTo (.grp (str "code") (.plus .word)) code ([')'] ++ rest) c ((str "code", code) :: c) :=
      RunsTo.grp (RunsTo.plus h0 h (NoHead.cons (by decide)) c)
    have := RunsTo.opt (RunsTo.seq h1 (RunsTo.seq (RunsTo.ch '(' _ c) (RunsTo.seq h2 (RunsTo.ch ')' rest _))))
    exact RunsTo.nil_left (r := .opt codeRe) this (by simp)

theorem codeRe_no {d tail : Str} (hd : ∀ x t, d = x :: t → isWs x = false) (htail : d = [] → tail = [])
    (htp : ∀ x t, tail = x :: t → isWord x = false ∧ x ≠ ')')
    (h : ∀ w u, d = '(' :: w ++ ')' :: u → w = [] ∨ ∃ x ∈ w, isWord x = false) : NoMatch codeRe (' ' :: (d ++ tail)) := by
  refine NoMatch.plusThen (w := [' ']) ?_ ?_
  · intro x t e
    cases d with
    | nil => rw [htail rfl] at e; cases e
    | cons y d => simp at e; rw [← e.1]; exact hd y d rfl
  · intro w1 w2 e
    have hw2 : w2 = [] ∨ w2 = [' '] := by
      rcases w1 with _ | ⟨x, w1⟩
      · exact .inr (by simpa using e.symm)
      · simp at e; exact .inl e.2.2
    rcases hw2 with rfl | rfl
    · simp only [List.nil_append]
      intro s1 s2 c c' e hm
      have hm : Re.Match (.seq (.ch '(') (.seq (.grp (str "code") (.plus .word)) (.ch ')'))) s1 s2 c c' := hm
      rw [seq_match_iff] at hm
      obtain ⟨t1, t2, c1, rfl, h1, h2⟩ := hm
      rw [seq_match_iff] at h2
      obtain ⟨t3, t4, c2, rfl, h3, h4⟩ := h2
      rw [ch_match_iff] at h1 h4
      rw [grp_match_iff] at h3
      obtain ⟨c3, h3, _⟩ := h3
      unfold Re.word at h3
      rw [plus_cls_match_iff] at h3
      obtain ⟨rfl, _⟩ := h1
      obtain ⟨rfl, _⟩ := h4
      obtain ⟨hne, hw, _⟩ := h3
      have e : d ++ tail = ('(' :: (t3 ++ [')'])) ++ s2 := e
      rcases List.append_eq_append_iff.mp e with ⟨u, e1, e2⟩ | ⟨u, e1, e2⟩
      · -- the code would reach into the tail
        cases d with
        | nil => rw [htail rfl] at e; simp at e
        | cons y d =>
          simp only [List.cons_append, List.cons.injEq] at e1
          cases u with
          | nil =>
            simp only [List.append_nil] at e1
            obtain ⟨rfl, rfl⟩ := e1
            rcases h t3 [] (by simp) with r | ⟨x, hx, hx2⟩
            · exact hne r
            · have := hw x hx; rw [this] at hx2; exact absurd hx2 (by decide)
          | cons z u =>
            have hz := htp z (u ++ s2) e2
            have : z ∈ t3 ++ [')'] := by rw [e1.2]; simp
            rcases List.mem_append.mp this with hz2 | hz2
            · have := hw z hz2; rw [hz.1] at this; exact absurd this (by decide)
            · exact hz.2 (by simpa using hz2)
      · rcases h t3 u (by rw [e1]; simp) with r | ⟨x, hx, hx2⟩
        · exact hne r
        · have := hw x hx; rw [this] at hx2; exact absurd hx2 (by decide)
    · exact NoMatch.seqL (NoMatch.ch (by intro x t e; cases e; decide))

/-- Description and note of the first line. -/
theorem description_run {d : Str} {n : Option Str} (hne : d ≠ []) (hd : CanonDescription d) (hn : ∀ x ∈ n, noNl x) (c : Caps) :
    RunsTo (.seq (.opt descriptionRe) (.opt (noteRe (str "shortNote")))) (' ' :: (d ++ noteTail n)) [] c
      (noteCaps (str "shortNote") n ((str "description", d ++ (if n = none then [] else [' '])) :: c)) := by
  rcases hd with rfl | ⟨h0, h1, h2, h3⟩
  · exact absurd rfl hne
  obtain ⟨x, t, rfl⟩ := List.exists_cons_of_ne_nil hne
  have hx : (fun c => !isWs c) x = true := by simp [h2 x t rfl]
  have ht : ∀ y ∈ t, decide (y ≠ ';') = true := by intro y hy; simpa using h1 y hy
  have hw : ∀ rest, NoHead isWs ((x :: t) ++ rest) := fun rest => NoHead.cons (h2 x t rfl)
  cases n with
  | none =>
    have a1 : RunsTo (.plus .ws) [' '] (([x] ++ t) ++ []) c c :=
      RunsTo.plus (by simp) (by intro x hx; simp at hx; subst hx; decide) (hw []) c
    have a2 : RunsTo (.grp (str "description") (.seq .notWs (.star (.cls (fun c => decide (c ≠ ';')))))) ([x] ++ t) [] c ((str "description", [x] ++ t) :: c) :=
      RunsTo.grp (RunsTo.seq (RunsTo.cls hx (t ++ []) c) (RunsTo.star ht NoHead.nil c))
    have a3 : RunsTo (.opt (noteRe (str "shortNote"))) [] [] ((str "description", [x] ++ t) :: c) ((str "description", [x] ++ t) :: c) :=
      RunsTo.optNone (noteRe_no _ (by intro x t e; cases e))
    have h := RunsTo.seq (RunsTo.opt (RunsTo.seq (a1 : RunsTo (.plus .ws) [' '] (([x] ++ t) ++ ([] ++ [])) c c) a2)) a3
    have h := RunsTo.nil_left (r := .seq (.opt descriptionRe) (.opt (noteRe (str "shortNote")))) (x' := ' ' :: ((x :: t) ++ noteTail none)) h (by simp [noteTail])
    simpa [noteCaps] using h
  | some n =>
    have a1 : RunsTo (.plus .ws) [' '] (([x] ++ (t ++ [' '])) ++ ((';' :: ' ' :: n) ++ [])) c c :=
      RunsTo.plus (by simp) (by intro x hx; simp at hx; subst hx; decide) (NoHead.cons (h2 x t rfl)) c
    have a2 : RunsTo (.grp (str "description") (.seq .notWs (.star (.cls (fun c => decide (c ≠ ';')))))) ([x] ++ (t ++ [' '])) ((';' :: ' ' :: n) ++ []) c
        ((str "description", [x] ++ (t ++ [' '])) :: c) := by
      refine RunsTo.grp (RunsTo.seq (RunsTo.cls hx _ c) (RunsTo.star ?_ (NoHead.cons (by decide)) c))
      intro y hy
      rcases List.mem_append.mp hy with hy | hy
      · exact ht y hy
      · simp at hy; subst hy; decide
    have a3 := RunsTo.opt (note_run (str "shortNote") (hn n rfl) ((str "description", [x] ++ (t ++ [' '])) :: c))
    have h := RunsTo.seq (RunsTo.opt (RunsTo.seq a1 a2)) a3
    have h := RunsTo.nil_left (r := .seq (.opt descriptionRe) (.opt (noteRe (str "shortNote")))) (x' := ' ' :: ((x :: t) ++ noteTail (some n))) h
      (by simp [noteTail, str])
    simpa [noteCaps] using h

/-- The first line of a written transaction. -/
theorem head_matches {posted : Int} {code d : Str} {n : Option Str} (hy : 100 ≤ goYear posted ∧ goYear posted ≤ 9999)
    (hc : ∀ x ∈ code, isWord x = true) (hd : CanonDescription d)
    (hnc : code = [] → ∀ w u, d = '(' :: w ++ ')' :: u → w = [] ∨ ∃ x ∈ w, isWord x = false)
    (hdn : d = [] → n = none) (hn : ∀ x ∈ n, noNl x) :
    ∃ c, transactionRe.matches (formatDate posted ++ (codeText code ++ (' ' :: (d ++ noteTail n)))) = some c ∧
      (∀ today, mustParseDate today c = .ok posted) ∧ c.get (str "code") = code ∧ trimRight (c.get (str "description")) = d ∧
      c.get (str "shortNote") = n.getD [] := by
  obtain ⟨y, m, dd, e, hrun, hdate⟩ := written_date hy
  have hd0 : ∀ x t, d = x :: t → isWs x = false := by
    rcases hd with rfl | h
    · intro x t e; cases e
    · exact h.2.2.1
  have hcode : ∀ c, RunsTo (.opt codeRe) (codeText code) (' ' :: (d ++ noteTail n)) c (codeCaps code c) := by
    intro c
    refine code_run hc (fun h0 => codeRe_no hd0 (fun h => by rw [hdn h]; rfl) ?_ (hnc h0)) c
    intro x t e
    cases n with
    | none => cases e
    | some n => cases e; exact ⟨by decide, by decide⟩
  have hdate0 : ∀ rest, RunsTo dateRe (formatDate posted) (codeText code ++ ' ' :: rest) [] (dateCaps posted y m dd) := by
    intro rest
    unfold codeText
    by_cases h0 : code = []
    · rw [if_pos h0]; exact hrun _
    · rw [if_neg h0]; exact hrun _
  have facts : ∀ nc dc : Caps, (∀ e ∈ nc ++ dc, e.1 = str "shortNote" ∨ e.1 = str "description") →
      (nc ++ dc).get (str "shortNote") = n.getD [] → trimRight ((nc ++ dc).get (str "description")) = d →
      (∀ today, mustParseDate today (nc ++ dc ++ codeCaps code (dateCaps posted y m dd)) = .ok posted) ∧
      (nc ++ dc ++ codeCaps code (dateCaps posted y m dd)).get (str "code") = code ∧
      trimRight ((nc ++ dc ++ codeCaps code (dateCaps posted y m dd)).get (str "description")) = d ∧
      (nc ++ dc ++ codeCaps code (dateCaps posted y m dd)).get (str "shortNote") = n.getD [] := by
    intro nc dc hk hs hdd
    have skip : ∀ (l : Caps) (r : Caps) (k : Str), (∀ e ∈ l, e.1 ≠ k) → (l ++ r).get k = r.get k := by
      intro l r k h
      induction l with
      | nil => rfl
      | cons e l ih =>
        rw [List.cons_append, get_cons_ne (h e (by simp)), ih (fun e he => h e (by simp [he]))]
    have keep : ∀ (l : Caps) (r : Caps) (k : Str), r.get k = [] → (l ++ r).get k = l.get k := by
      intro l r k h
      induction l with
      | nil => exact h
      | cons e l ih =>
        by_cases he : e.1 = k
        · obtain ⟨e1, e2⟩ := e
          simp only at he
          subst he
          rw [List.cons_append, get_cons_eq, get_cons_eq]
        · rw [List.cons_append, get_cons_ne he, get_cons_ne he, ih]
    have sk : ∀ k, k ≠ str "shortNote" → k ≠ str "description" → ∀ e ∈ nc ++ dc, e.1 ≠ k := by
      intro k k1 k2 e he h
      rcases hk e he with h1 | h1
      · exact k1 (by rw [← h, h1])
      · exact k2 (by rw [← h, h1])
    have base : ∀ k, k ≠ str "code" → (codeCaps code (dateCaps posted y m dd)).get k = (dateCaps posted y m dd).get k := by
      intro k h
      unfold codeCaps
      split
      · rfl
      · rw [get_cons_ne (Ne.symm h)]
    refine ⟨fun today => hdate today _ ?_ ?_ ?_ ?_ ?_, ?_, ?_, ?_⟩
    · rw [skip _ _ _ (sk _ (by decide) (by decide)), base _ (by decide)]; simp [dateCaps, Caps.get, str]
    · rw [skip _ _ _ (sk _ (by decide) (by decide)), base _ (by decide)]; simp [dateCaps, Caps.get, str]
    · rw [skip _ _ _ (sk _ (by decide) (by decide)), base _ (by decide)]; simp [dateCaps, Caps.get, str]
    · rw [skip _ _ _ (sk _ (by decide) (by decide)), base _ (by decide)]; simp [dateCaps, Caps.get, str]
    · rw [skip _ _ _ (sk _ (by decide) (by decide)), base _ (by decide)]; simp [dateCaps, Caps.get, str]
    · rw [skip _ _ _ (sk _ (by decide) (by decide))]
      unfold codeCaps
      split
      · rename_i h; rw [h]; simp [dateCaps, Caps.get, str]
      · rw [get_cons_eq]
    · rw [keep _ _ _ (by rw [base _ (by decide)]; simp [dateCaps, Caps.get, str])]; exact hdd
    · rw [keep _ _ _ (by rw [base _ (by decide)]; simp [dateCaps, Caps.get, str])]; exact hs
  by_cases h0 : d = []
  · have hn0 := hdn h0
    subst h0 hn0
    have a1 := fun c => RunsTo.optNone (c := c) (a := descriptionRe) (rest := [' ']) (NoMatch.plusThenCls (w := [' ']) (rest := []) (q := fun c => !isWs c) NoHead.nil
      (by decide) NoHead.nil (fun s hs => NoMatch.grp (NoMatch.seqL (NoMatch.cls hs))))
    have a2 := fun c => RunsTo.optNone (c := c) (a := noteRe (str "shortNote")) (rest := [' ']) (noteRe_no _ (by intro x t e; cases e; decide))
    have h : RunsTo transactionRe (formatDate posted ++ (codeText code ++ ([] ++ []))) [' '] [] (codeCaps code (dateCaps posted y m dd)) :=
      RunsTo.seq (by simpa using hdate0 []) (RunsTo.seq (hcode _) (RunsTo.seq (a1 _) (a2 _)))
    refine ⟨_, ?_, facts [] [] (by simp) (by simp [Caps.get]) (by simp [Caps.get, trimRight])⟩
    simpa [noteTail] using h.matches
  · have h : RunsTo transactionRe (formatDate posted ++ (codeText code ++ (' ' :: (d ++ noteTail n)))) [] []
        (noteCaps (str "shortNote") n ((str "description", d ++ (if n = none then [] else [' '])) :: codeCaps code (dateCaps posted y m dd))) :=
      RunsTo.seq (by simpa using hdate0 (d ++ noteTail n)) (RunsTo.seq (by simpa using hcode _) (description_run h0 hd hn _))
    have hlast : trimRight d = d := trimRight_id (by
      intro x hx
      rcases hd with rfl | hd
      · exact absurd rfl h0
      · have := hd.2.2.2 x hx
        exact ⟨this.1, this.2.1⟩)
    cases n with
    | none =>
      have := facts [] [(str "description", d)] (by simp) (by simp [Caps.get, str]) (by simpa [Caps.get] using hlast)
      exact ⟨_, by simpa using h.matches, by simpa [noteCaps] using this⟩
    | some n =>
      have := facts [(str "shortNote", n)] [(str "description", d ++ [' '])] (by simp) (by simp [Caps.get, str])
        (by simpa [Caps.get, str, trimRight_blank] using hlast)
      exact ⟨_, by simpa using h.matches, by simpa [noteCaps] using this⟩

/-! ### Writing postings -/

theorem optAmount_canon {env : PEnv} {a : Amount} {s : Str} (h : CanonAmount env.coms a) (hs : a.string = .ok s) (hne : s ≠ []) :
    optAmount env s a.com.id = .ok (some a) := by
  obtain ⟨h1, h2, h3, _, h5⟩ := h
  obtain ⟨s', e1, e2⟩ := C01_print_parse a h1 h2 h3
  rw [hs] at e1
  cases e1
  unfold optAmount mustFindCommodity
  rw [if_neg hne, h5]
  simp only [Except.bind, e2]

theorem format_some {a : Amount} {s : Str} (w : Nat) (hd : a.com.decimals ≤ 50) (h : a.string = .ok s) :
    a.format (some w) (some a.com.decimals) = .ok (padLeft w s) := by
  rw [string_ok a hd] at h
  cases h
  unfold Amount.format
  rw [bigPow10_ok hd]; rfl

theorem format_none {a : Amount} {s : Str} (h : a.string = .ok s) : a.format none (some a.com.decimals) = .ok s := by
  rw [C01_write_is_string]; exact h

theorem rep_blank (n : Nat) : ∀ x ∈ rep n ' ', x = ' ' := by intro x hx; unfold rep at hx; exact (List.mem_replicate.mp hx).2

theorem withNote_split (line : Str) (notes : List Str) : ∃ n long, withNote line notes = (line ++ noteTail n, long) ∧ notes = n.toList ++ long ∧
    (notes = [] → n = none) := by
  cases notes with
  | nil => exact ⟨none, [], by simp [withNote, noteTail], rfl, fun _ => rfl⟩
  | cons a l =>
    simp only [withNote]
    split
    · exact ⟨some a, l, by simp [noteTail], rfl, by simp⟩
    · exact ⟨none, a :: l, by simp [noteTail], rfl, by simp⟩

/-- A line that scanning gives back unchanged. -/
def CleanLine (l : Str) : Prop := noNl l ∧ l.getLast? ≠ some '\r'

theorem noNl_append {a b : Str} (ha : noNl a) (hb : noNl b) : noNl (a ++ b) := by
  intro x hx
  rcases List.mem_append.mp hx with h | h
  · exact ha x h
  · exact hb x h

theorem CleanLine.append {a b : Str} (ha : noNl a) (hb : CleanLine b) (hne : b ≠ []) : CleanLine (a ++ b) := by
  refine ⟨noNl_append ha hb.1, ?_⟩
  rw [List.getLast?_append_of_ne_nil _ hne]
  exact hb.2

theorem clean_of_pred {p : Char → Bool} {s : Str} (h : ∀ x ∈ s, p x = true) (hn : p '\n' = false) (hr : p '\r' = false) : CleanLine s := by
  constructor
  · intro x hx e; subst e; have := h _ hx; rw [hn] at this; exact absurd this (by decide)
  · intro e
    have := h _ (List.mem_of_getLast? e)
    rw [hr] at this; exact absurd this (by decide)

theorem noNl_of_pred {p : Char → Bool} {s : Str} (h : ∀ x ∈ s, p x = true) (hn : p '\n' = false) : noNl s := by
  intro x hx e; subst e; have := h _ hx; rw [hn] at this; exact absurd this (by decide)

theorem CanonNote.clean {n : Str} (h : CanonNote n) : CleanLine n := ⟨h.2.1, h.2.2.2⟩

theorem noteTail_clean {a : Str} {n : Option Str} (ha : CleanLine a) (hn : ∀ x ∈ n, CanonNote x) : CleanLine (a ++ noteTail n) := by
  cases n with
  | none => simpa [noteTail] using ha
  | some n =>
    have h := hn n rfl
    rw [noteTail, ← List.append_assoc]
    exact CleanLine.append (noNl_append ha.1 (by decide)) h.clean h.1

theorem longs_clean {ind : Str} {long : List Str} (hi : noNl ind) (h : ∀ n ∈ long, CanonNote n) : ∀ l ∈ long.map (fun n => ind ++ n), CleanLine l := by
  intro l hl
  obtain ⟨n, hn, rfl⟩ := List.mem_map.mp hl
  exact CleanLine.append hi (h n hn).clean (h n hn).1

theorem blanks_noNl {s : Str} (h : ∀ x ∈ s, x = ' ') : noNl s := by intro x hx; rw [h x hx]; decide

theorem lit_noNl {l : Lit} (h : l.WF) : noNl l.text := by
  obtain ⟨_, h1, h2⟩ := h.digits
  unfold Lit.text
  refine noNl_append (noNl_append ?_ (noNl_of_pred h1 (by decide))) ?_
  · split <;> decide
  · split
    · decide
    · exact noNl_append (a := ['.']) (by decide) (noNl_of_pred h2 (by decide))

theorem posting_clean {acct sp : Str} {l : Lit} {com : Str} {b : Option (Lit × Str)} {n : Option Str} (ha : AccountName acct)
    (hsp : ∀ x ∈ sp, x = ' ') (hl : l.WF) (hc : CommodityName com) (hb : ∀ x ∈ b, x.1.WF ∧ CommodityName x.2) (hn : ∀ x ∈ n, CanonNote x) :
    CleanLine (postingText acct sp l com b n) := by
  have e : postingText acct sp l com b n = (str "  " ++ (acct ++ (sp ++ ((l.text ++ ([' '] ++ com)) ++ balTail b)))) ++ noteTail n := by
    unfold postingText; simp
  rw [e]
  refine noteTail_clean ?_ hn
  have hacct : noNl acct := by
    intro x hx h; subst h
    rcases ha.chars _ hx with h | h
    · exact absurd h (by decide)
    · exact absurd h (by decide)
  have hword : ∀ {s}, CommodityName s → CleanLine s := fun h => clean_of_pred h.word.2 (by decide) (by decide)
  refine CleanLine.append (by decide) (CleanLine.append hacct (CleanLine.append (blanks_noNl hsp) ?_ ?_) ?_) ?_
  · cases b with
    | none =>
      rw [balTail, List.append_nil]
      exact CleanLine.append (lit_noNl hl) (CleanLine.append (by decide) (hword hc) hc.word.1) (by simp)
    | some x =>
      obtain ⟨l2, com2⟩ := x
      have h2 := hb _ rfl
      refine CleanLine.append (noNl_append (lit_noNl hl) (noNl_append (by decide) (hword hc).1)) (CleanLine.append (by decide)
        (CleanLine.append (lit_noNl h2.1) (CleanLine.append (by decide) (hword h2.2) h2.2.word.1) (by simp)) (by simp)) (by simp [balTail])
  · simp
  · simp
  · simp

/-- The lines of a written posting, and what parsing them needs. -/
structure PostLines (env : PEnv) (p : PPost) (lines : List Str) : Prop where
  ex : ∃ (sp : Str) (l : Lit) (com : Str) (b : Option (Lit × Str)) (n : Option Str) (long : List Str) (q : Amount),
    sp ≠ [] ∧ (∀ x ∈ sp, x = ' ') ∧ l.WF ∧ CommodityName com ∧ (∀ x ∈ b, x.1.WF ∧ CommodityName x.2) ∧
    lines = postingText p.account sp l com b n :: long.map (fun n => str "    ; " ++ n) ∧ p.notes = n.toList ++ long ∧
    p.quantity = some q ∧ optAmount env l.text com = .ok (some q) ∧
    optAmount env (balAmt b) (balCom b) = .ok p.balance

theorem Lit.text_ne {l : Lit} (h : l.WF) : l.text ≠ [] := by
  obtain ⟨x, t, e, _⟩ := l.text_head h
  rw [e]; simp

theorem writePosting_canon {env : PEnv} {p : PPost} (h : CanonPost env.coms p) (maxn maxa : Nat) :
    ∃ lines, writePosting maxn maxa p = .ok lines ∧ PostLines env p lines ∧ ∀ l ∈ lines, CleanLine l := by
  obtain ⟨q, eq, hq⟩ := h.quantity
  obtain ⟨l, hl, es⟩ := string_lit q hq.1
  have hb : ∃ b : Option (Lit × Str), balanceText p.balance = .ok (balTail b) ∧ (∀ x ∈ b, x.1.WF ∧ CommodityName x.2) ∧
      optAmount env (balAmt b) (balCom b) = .ok p.balance := by
    cases eb : p.balance with
    | none => exact ⟨none, rfl, by simp, rfl⟩
    | some b =>
      have hb := h.balance b eb
      obtain ⟨l2, hl2, es2⟩ := string_lit b hb.1
      refine ⟨some (l2, b.com.id), ?_, ?_, optAmount_canon hb es2 (l2.text_ne hl2)⟩
      · unfold balanceText amountText
        simp only [format_none es2, Except.bind]
        rfl
      · intro x hx; cases hx; exact ⟨hl2, hb.2.2.2.1⟩
  obtain ⟨b, eb, hbw, hbo⟩ := hb
  unfold writePosting amountText
  rw [eq]
  simp only [format_some maxa hq.1 es, eb, Except.bind]
  obtain ⟨n, long, ew, en, _⟩ := withNote_split (str "  " ++ padRight maxn p.account ++ str "  " ++ (padLeft maxa l.text ++ ' ' :: q.com.id) ++ balTail b) p.notes
  have hsp : ∀ x ∈ rep (maxn - p.account.length) ' ' ++ (str "  " ++ rep (maxa - l.text.length) ' '), x = ' ' := by
    intro x hx
    rcases List.mem_append.mp hx with hx | hx
    · exact rep_blank _ x hx
    · rcases List.mem_append.mp hx with hx | hx
      · exact (by decide : ∀ x ∈ str "  ", x = ' ') x hx
      · exact rep_blank _ x hx
  have hline : str "  " ++ padRight maxn p.account ++ str "  " ++ (padLeft maxa l.text ++ ' ' :: q.com.id) ++ balTail b ++ noteTail n =
      postingText p.account (rep (maxn - p.account.length) ' ' ++ (str "  " ++ rep (maxa - l.text.length) ' ')) l q.com.id b n := by
    unfold postingText padRight padLeft
    simp
  refine ⟨_, rfl, ⟨rep (maxn - p.account.length) ' ' ++ (str "  " ++ rep (maxa - l.text.length) ' '), l, q.com.id, b, n, long, q, ?_, hsp, hl, hq.2.2.2.1, hbw, ?_, en, eq,
    optAmount_canon hq es (l.text_ne hl), hbo⟩, ?_⟩
  · simp
  · rw [ew, hline]
  · rw [ew, hline]
    intro x hx
    rcases List.mem_cons.mp hx with rfl | hx
    · exact posting_clean h.account hsp hl hq.2.2.2.1 hbw (fun x hx => h.notes x (by rw [en]; simp [Option.mem_def.mp hx]))
    · exact longs_clean (by decide) (fun x hx => h.notes x (by rw [en]; simp [hx])) x hx

/-! ### Reading postings -/

theorem attachLast_concat (xs : List PPost) (p : PPost) (notes : List Str) :
    attachLast (xs ++ [p]) notes = xs ++ [{ p with notes := p.notes ++ notes }] := by
  induction xs with
  | nil => rfl
  | cons x xs ih =>
    cases xs with
    | nil => rfl
    | cons y ys =>
      simp only [List.cons_append] at ih ⊢
      rw [attachLast, ih]
      simp

theorem notes_step {env : PEnv} {ind : Str} (hne : ind ≠ []) (hi : ∀ x ∈ ind, x = ' ') (tn : List Str) (ps : List PPost) (rest : List Str) :
    ∀ (long pending : List Str), (∀ n ∈ long, CanonNote n) →
    postingLoop env tn ps pending (long.map (fun n => (ind ++ str "; ") ++ n) ++ rest) = postingLoop env tn ps (pending ++ long) rest := by
  intro long
  induction long with
  | nil => intro pending _; simp
  | cons n long ih =>
    intro pending h
    obtain ⟨hn, hl, _, _⟩ := h n (by simp)
    have hm : postingRe.matches ((ind ++ str "; ") ++ n) = some [(str "note", n)] := by
      have := (noteLine_run hne hi hl).matches
      simpa [str] using this
    rw [List.map_cons, List.cons_append, postingLoop]
    simp only [hm]
    rw [get_cons_eq, if_pos hn, ih _ (fun x hx => h x (by simp [hx]))]
    simp

theorem posting_step {env : PEnv} {p : PPost} {lines : List Str} (h : PostLines env p lines) (hc : CanonPost env.coms p) (tn : List Str) (ps : List PPost)
    (pending rest : List Str) : ∃ short long, p.notes = short ++ long ∧
    postingLoop env tn ps pending (lines ++ rest) =
      postingLoop env (attach tn ps pending).1 ((attach tn ps pending).2 ++ [{ p with notes := short }]) long rest := by
  obtain ⟨sp, l, com, b, n, long, q, h1, h2, h3, h4, h5, rfl, h7, h8, h9, h10⟩ := h
  have hn : ∀ x ∈ n, CanonNote x := fun x hx => hc.notes x (by rw [h7]; simp [Option.mem_def.mp hx])
  have hm := (posting_run hc.account h1 h2 h3 h4 h5 (fun x hx => (hn x hx).2.1)).matches
  rw [List.append_nil] at hm
  obtain ⟨g1, g2, g3, g4, g5, g6, g7⟩ := postingCaps_get p.account l com b n
  refine ⟨n.toList, long, h7, ?_⟩
  rw [List.cons_append, postingLoop]
  simp only [hm, g1, g2, g3, g4, g5, g6, g7]
  rw [if_neg (by simp), h9]
  simp only [Except.bind]
  rw [h10]
  simp only []
  rw [shortNotes_canon hn]
  have := notes_step (env := env) (ind := str "    ") (by decide) (by decide) (attach tn ps pending).1
    ((attach tn ps pending).2 ++ [⟨p.account, some q, p.balance, n.toList⟩]) rest long [] (fun x hx => hc.notes x (by rw [h7]; simp [hx]))
  rw [← h8] at this
  have e : (str "    " ++ str "; ") = str "    ; " := by decide
  rw [e] at this
  exact (by rw [h8] at this ⊢; exact this)

/-- The remaining postings. -/
theorem postings_loop {env : PEnv} (maxn maxa : Nat) (tn : List Str) (rest : List Str) (hr : Stops rest) :
    ∀ (ps : List PPost), (∀ p ∈ ps, CanonPost env.coms p) → ∃ lines, writePostings maxn maxa ps = .ok lines ∧ (∀ l ∈ lines, CleanLine l) ∧
      ∀ (done : List PPost) (p : PPost) (short long : List Str), p.notes = short ++ long →
        postingLoop env tn (done ++ [{ p with notes := short }]) long (lines ++ rest) = .ok ((tn, done ++ [p] ++ ps), rest) := by
  intro ps
  induction ps with
  | nil =>
    intro _
    refine ⟨[], rfl, by simp, ?_⟩
    intro done p short long hn
    have fin : finishPostings tn (done ++ [{ p with notes := short }]) long = .ok (tn, done ++ [p]) := by
      unfold finishPostings
      split
      · rename_i h
        subst h
        simp only [List.append_nil] at hn
        rw [← hn]
      · rw [if_neg (by simp), attachLast_concat]
        simp only [← hn]
    rw [List.nil_append]
    cases rest with
    | nil => rw [postingLoop, fin]; simp [Except.bind]
    | cons l ls =>
      rw [postingLoop]
      simp only [hr l ls rfl, fin, Except.bind, List.append_nil]
  | cons p' ps ih =>
    intro h
    obtain ⟨l1, e1, hl1, cl1⟩ := writePosting_canon (h p' (by simp)) maxn maxa
    obtain ⟨l2, e2, cl2, hl2⟩ := ih (fun p hp => h p (by simp [hp]))
    refine ⟨l1 ++ l2, by rw [writePostings, e1]; simp only [Except.bind, e2], ?_, ?_⟩
    · intro l hl
      rcases List.mem_append.mp hl with h | h
      · exact cl1 l h
      · exact cl2 l h
    intro done p short long hn
    rw [List.append_assoc]
    obtain ⟨sh, lo, hn', e3⟩ := posting_step hl1 (h p' (by simp)) tn (done ++ [{ p with notes := short }]) long (l2 ++ rest)
    rw [e3]
    have ha : attach tn (done ++ [{ p with notes := short }]) long = (tn, done ++ [p]) := by
      unfold attach
      rw [if_neg (by simp), attachLast_concat]
      simp only [← hn]
    rw [ha]
    simp only
    rw [hl2 (done ++ [p]) p' sh lo hn']
    simp

theorem width_ok (a : Amount) (h : a.int.natAbs < 10 ^ 50) (d : Nat) : ∃ w, a.width d = .ok w := by
  obtain ⟨k, hk, _⟩ := (C09_bigLog10 a.int).1 h
  unfold Amount.width
  rw [hk]
  exact ⟨_, rfl⟩

theorem canon_small {coms : Str → Option Com} {a : Amount} (h : CanonAmount coms a) : a.int.natAbs < 10 ^ 50 := by
  obtain ⟨_, h2, h3, _⟩ := h
  have : (2 : Int) ^ 63 < 10 ^ 50 := by norm_num
  have : (a.int.natAbs : Int) < 10 ^ 50 := by omega
  exact_mod_cast this

theorem maxWidths_ok {coms : Str → Option Com} (dec : Str → Nat) (ps : List PPost) (h : ∀ p ∈ ps, CanonPost coms p) : ∃ w, maxWidths dec ps = .ok w := by
  induction ps with
  | nil => exact ⟨_, rfl⟩
  | cons p ps ih =>
    obtain ⟨w, hw⟩ := ih (fun p hp => h p (by simp [hp]))
    obtain ⟨q, eq, hq⟩ := (h p (by simp)).quantity
    obtain ⟨v, hv⟩ := width_ok q (canon_small hq) (dec p.account)
    unfold maxWidths
    rw [eq]
    simp only [hv, Except.bind, hw]
    exact ⟨_, rfl⟩

theorem headLine_eq (t : PTxn) : headLine t = formatDate t.posted ++ (codeText t.code ++ (' ' :: t.description)) := by
  unfold headLine codeText
  by_cases h : t.code = []
  · simp [h, str]
  · simp [h, str]

theorem formatDate_head {n : Int} (h : 100 ≤ goYear n ∧ goYear n ≤ 9999) : noNl (formatDate n) ∧ ∃ x t, formatDate n = x :: t ∧ isDigit x = true := by
  obtain ⟨y, m, d, e, hy, hm, hd, _⟩ := formatDate_digits n (by omega) h.2
  constructor
  · rw [e]
    refine noNl_append (noNl_of_pred hy.1 (by decide)) (noNl_append (a := ['/']) (by decide)
      (noNl_append (noNl_of_pred hm.1 (by decide)) (noNl_append (a := ['/']) (by decide) (noNl_of_pred hd.1 (by decide)))))
  · rcases y with _ | ⟨x, y⟩
    · have := hy.2; simp at this
    · exact ⟨x, _, e, hy.1 x (by simp)⟩

theorem headLine_clean {coms : Str → Option Com} {t : PTxn} (h : CanonTxn coms t) : CleanLine (headLine t) := by
  rw [headLine_eq]
  refine CleanLine.append (formatDate_head h.year).1 (CleanLine.append ?_ ?_ (by simp)) (by simp)
  · unfold codeText
    split
    · decide
    · exact noNl_append (a := [' ', '(']) (by decide) (noNl_append (noNl_of_pred h.code (by decide)) (by decide))
  · rcases h.description with h0 | ⟨h1, _, h2, h3⟩
    · rw [h0]; unfold CleanLine; decide
    · by_cases h0 : t.description = []
      · rw [h0]; unfold CleanLine; decide
      · refine CleanLine.append (a := [' ']) (by decide) ⟨fun x hx => h1 x hx, ?_⟩ h0
        intro e; exact (h3 _ e).2.2 rfl

/-- A transaction in canonical form that is written and parsed again gives the same transaction (date, code, description, notes,
accounts, quantities and balance assertions), and parsing stops right after it. -/
theorem read_back_core (env : PEnv) (dec : Str → Nat) (t : PTxn) (h : CanonTxn env.coms t) (rest : List Str) (hr : Stops rest) :
    ∃ line lines, writeTxn dec t = .ok (line :: lines) ∧ parseTransaction env line (lines ++ rest) = .ok (t, rest) ∧
      (∃ x u, line = x :: u ∧ isDigit x = true) ∧ ∀ l ∈ line :: lines, CleanLine l := by
  obtain ⟨w, hw⟩ := maxWidths_ok dec t.postings h.postings
  obtain ⟨n, long, ew, en, en0⟩ := withNote_split (headLine t) t.notes
  obtain ⟨p, ps, ep⟩ := List.exists_cons_of_ne_nil h.some_posting
  have hp : CanonPost env.coms p := h.postings p (by rw [ep]; simp)
  obtain ⟨l1, e1, hl1, cl1⟩ := writePosting_canon hp w.1 w.2
  obtain ⟨l2, e2, cl2, hl2⟩ := postings_loop w.1 w.2 t.notes rest hr ps (fun q hq => h.postings q (by rw [ep]; simp [hq]))
  have hn : ∀ x ∈ n, CanonNote x := fun x hx => h.notes x (by rw [en]; simp [Option.mem_def.mp hx])
  have hlong : ∀ x ∈ long, CanonNote x := fun x hx => h.notes x (by rw [en]; simp [hx])
  refine ⟨headLine t ++ noteTail n, long.map (fun n => str "  ; " ++ n) ++ (l1 ++ l2), ?_, ?_, ?_, ?_⟩
  · unfold writeTxn
    simp only [hw, Except.bind, ew]
    rw [ep, writePostings, e1]
    simp only [Except.bind, e2]
    rfl
  · obtain ⟨c, hm, hdate, hcode, hdesc, hshort⟩ := head_matches (n := n) h.year h.code h.description h.noCode (fun h0 => en0 (h.noNotes h0))
      (fun x hx => (hn x hx).2.1)
    have hline : headLine t ++ noteTail n = formatDate t.posted ++ (codeText t.code ++ (' ' :: (t.description ++ noteTail n))) := by
      rw [headLine_eq]; simp
    unfold parseTransaction
    rw [hline, hm]
    simp only [hdate, Except.bind, hcode, hdesc, hshort]
    rw [shortNotes_canon hn, List.append_assoc, List.append_assoc]
    have := notes_step (env := env) (ind := str "  ") (by decide) (by decide) n.toList [] (l1 ++ (l2 ++ rest)) long [] hlong
    have e : (str "  " ++ str "; ") = str "  ; " := by decide
    rw [e] at this
    rw [this]
    obtain ⟨sh, lo, hn', e3⟩ := posting_step hl1 hp n.toList [] ([] ++ long) (l2 ++ rest)
    rw [e3]
    have ha : attach n.toList [] ([] ++ long) = (t.notes, []) := by
      unfold attach
      rw [if_pos rfl, en]; simp
    rw [ha]
    simp only [List.nil_append]
    have := hl2 [] p sh lo hn'
    rw [List.nil_append] at this
    rw [this]
    simp [← ep]
  · obtain ⟨_, x, u, e, hx⟩ := formatDate_head h.year
    exact ⟨x, _, by rw [headLine_eq, e]; rfl, hx⟩
  · intro l hl
    rcases List.mem_cons.mp hl with rfl | hl
    · exact noteTail_clean (headLine_clean h) hn
    · rcases List.mem_append.mp hl with hl | hl
      · exact longs_clean (by decide) hlong l hl
      · rcases List.mem_append.mp hl with hl | hl
        · exact cl1 l hl
        · exact cl2 l hl

/-- **C53** A transaction in canonical form that is written and parsed again gives the same transaction (date, code, description, notes,
accounts, quantities and balance assertions), and parsing stops right after it. -/
theorem C53_read_back (env : PEnv) (dec : Str → Nat) (t : PTxn) (h : CanonTxn env.coms t) (rest : List Str) (hr : Stops rest) :
    ∃ line lines, writeTxn dec t = .ok (line :: lines) ∧ parseTransaction env line (lines ++ rest) = .ok (t, rest) := by
  obtain ⟨line, lines, h1, h2, _⟩ := read_back_core env dec t h rest hr
  exact ⟨line, lines, h1, h2⟩

/-! ### Files -/

theorem scanLines_textOf {lines : List Str} (h : ∀ l ∈ lines, CleanLine l) : scanLines (textOf lines) = lines := by
  have hs : splitOn '\n' (textOf lines) = lines ++ [[]] := by
    unfold textOf
    induction lines with
    | nil => rfl
    | cons l ls ih =>
      rw [List.flatMap_cons, List.append_assoc, List.singleton_append,
        splitOn_append_sep _ _ _ (fun hm => (h l (by simp)).1 _ hm rfl), ih (fun l hl => h l (by simp [hl]))]
      rfl
  unfold scanLines
  simp only [hs]
  rw [List.getLast?_concat, if_pos rfl, List.dropLast_concat]
  conv_rhs => rw [← List.map_id lines]
  refine List.map_congr_left ?_
  intro l hl
  unfold dropCR
  rw [if_neg (h l hl).2]; rfl

theorem digit_notSpace {x : Char} (h : isDigit x = true) : isSpaceU x = false := by
  rw [isDigit_iff] at h
  by_contra hc
  simp only [Bool.not_eq_false] at hc
  unfold isSpaceU at hc
  simp only [Bool.or_eq_true, Bool.and_eq_true, decide_eq_true_eq, List.mem_cons, List.not_mem_nil, or_false] at hc
  rcases hc with hc | hc
  · rcases hc with rfl | rfl | rfl | rfl | rfl | rfl | rfl | rfl | rfl | rfl | rfl | rfl | rfl | rfl <;> exact absurd h (by decide)
  · omega

/-- A line starting with a digit is dispatched to the transaction parser. -/
theorem next_digit {env : PEnv} {x : Char} {u : Str} {rest rest' : List Str} {t : PTxn} (hx : isDigit x = true)
    (h : parseTransaction env (x :: u) rest = .ok (t, rest')) : next env ((x :: u) :: rest) = .ok (some (.transaction t, false), rest') := by
  have hd : ∀ d, isDigit d = false → x ≠ d := fun d hd => isDigit_ne hx hd
  have hsw : ∀ p, (∃ a q, p = a :: q ∧ isDigit a = false) → ¬ startsWith p (x :: u) = true := by
    rintro p ⟨a, q, rfl, ha⟩
    unfold startsWith
    have := hd a ha
    simp [this]
  unfold next
  rw [if_neg (by simp [isBlank, digit_notSpace hx])]
  rw [if_neg (by
    unfold isComment
    simp only [decide_eq_true_eq, List.mem_cons, List.not_mem_nil, or_false, not_or]
    exact ⟨hd _ (by decide), hd _ (by decide), hd _ (by decide), hd _ (by decide), hd _ (by decide)⟩)]
  unfold parseItem
  rw [if_neg (hsw (str "include") ⟨_, _, rfl, by decide⟩), if_neg (hsw (str "account") ⟨_, _, rfl, by decide⟩), if_neg (hsw (str "commodity ") ⟨_, _, rfl, by decide⟩),
    if_neg (hsw (str "test ") ⟨_, _, rfl, by decide⟩), if_neg (hsw (str "P ") ⟨_, _, rfl, by decide⟩), if_pos (by simpa [startsDigit] using hx)]
  rw [h]
  rfl

theorem next_empty (env : PEnv) (rest : List Str) : next env ([] :: rest) = next env rest := by
  rw [next]; simp [isBlank]

/-- **C53** The output of `format` for transactions in canonical form, scanned and loaded again, yields exactly those transactions in that order. -/
theorem C53_file_read_back (today : Today) (dec : Str → Nat) (st : LoadState) (ts : List PTxn) (h : ∀ t ∈ ts, CanonTxn st.lookup t) :
    ∃ lines, writeTxns dec ts = .ok lines ∧
      loadText today st (textOf lines) = .ok { st with items := st.items ++ ts.map Item.transaction } := by
  have core : ∀ (ts : List PTxn), (∀ t ∈ ts, CanonTxn st.lookup t) → ∃ lines, writeTxns dec ts = .ok lines ∧ (∀ l ∈ lines, CleanLine l) ∧
      ts.length ≤ lines.length ∧
      ∀ (n : Nat) (its : List Item), ts.length < n → ∀ pre, (pre = [] ∨ pre = [[]]) →
        loadLines today n { st with items := its } (pre ++ lines) = .ok { st with items := its ++ ts.map Item.transaction } := by
    intro ts
    induction ts with
    | nil =>
      intro _
      refine ⟨[], rfl, by simp, by simp, ?_⟩
      intro n its hn pre hp
      obtain ⟨n, rfl⟩ := Nat.exists_eq_succ_of_ne_zero (show n ≠ 0 by simp at hn; omega)
      rcases hp with rfl | rfl <;> simp [loadLines, next, isBlank]
    | cons t ts ih =>
      intro h
      obtain ⟨l2, e2, cl2, len2, hl2⟩ := ih (fun t ht => h t (by simp [ht]))
      have hstop : Stops ([[]] ++ l2) := by intro l ls e; cases e; exact posting_empty
      obtain ⟨line, l1, e1, hp, ⟨x, u, ex, hx⟩, cl1⟩ := read_back_core ⟨today, st.lookup, st.dflt⟩ dec t (h t (by simp)) ([[]] ++ l2) hstop
      refine ⟨(line :: l1) ++ [[]] ++ l2, by rw [writeTxns, e1]; simp only [Except.bind, e2], ?_, ?_, ?_⟩
      · intro l hl
        simp only [List.mem_append] at hl
        rcases hl with (hl | hl) | hl
        · exact cl1 l hl
        · simp at hl; subst hl; unfold CleanLine; decide
        · exact cl2 l hl
      · simp; omega
      · intro n its hn pre hp'
        obtain ⟨n, rfl⟩ := Nat.exists_eq_succ_of_ne_zero (show n ≠ 0 by simp at hn; omega)
        have hnext : next ⟨today, LoadState.lookup { st with items := its }, st.dflt⟩ (pre ++ ((line :: l1) ++ [[]] ++ l2)) =
            .ok (some (.transaction t, false), [[]] ++ l2) := by
          have hh : next ⟨today, st.lookup, st.dflt⟩ ((line :: l1) ++ [[]] ++ l2) = .ok (some (.transaction t, false), [[]] ++ l2) := by
            rw [List.append_assoc, List.cons_append]
            subst ex
            exact next_digit hx hp
          rcases hp' with rfl | rfl
          · exact hh
          · rw [List.singleton_append, next_empty]; exact hh
        rw [loadLines]
        simp only [hnext, storeItem, Except.bind]
        rw [hl2 n _ (by simp at hn; omega) [[]] (.inr rfl)]
        simp
  obtain ⟨lines, e, cl, len, hl⟩ := core ts h
  refine ⟨lines, e, ?_⟩
  unfold loadText
  rw [scanLines_textOf cl]
  exact hl _ st.items (by omega) [] (.inl rfl)

/-! ### A concrete canonical transaction: a code, two notes, a balance assertion, a negative amount and a note of a posting -/

def exCad : Com := ⟨0, str "CAD", 2⟩
def exTxn : PTxn := ⟨737000, str "A12", str "Corner store", [str "weekly #food", str "second"],
  [⟨str "Expenses:Food-1", some ⟨1050, exCad⟩, none, [str "with note"]⟩,
   ⟨str "Assets:Cash", some ⟨-1050, exCad⟩, some ⟨-5, exCad⟩, []⟩]⟩
def exComs : Str → Option Com := fun id => if id = str "CAD" then some exCad else none

theorem exSegment (a : Char) (t : Str) (h : (isAlpha a && t.all isNameChar) = true) : Segment (a :: t) := by
  rw [Bool.and_eq_true, List.all_eq_true] at h
  exact ⟨a, t, rfl, h.1, h.2⟩

theorem exCanonNote (n : Str) (h : n ≠ [] ∧ noNl n ∧ (n.head? ≠ some ' ' ∧ n.head? ≠ some '\t') ∧ n.getLast? ≠ some '\r') : CanonNote n := by
  refine ⟨h.1, h.2.1, ?_, h.2.2.2⟩
  rintro x t rfl
  have := h.2.2.1
  simpa using this

theorem exAmount (i : Int) (h : -(2 ^ 63) ≤ i ∧ i < 2 ^ 63) : CanonAmount exComs ⟨i, exCad⟩ :=
  ⟨show (2:Nat) ≤ 50 by decide, h.1, h.2, ⟨'C', str "AD", rfl, by decide, by decide⟩, show exComs (str "CAD") = some exCad by decide⟩

theorem exTxn_canon : CanonTxn exComs exTxn where
  year := by decide +kernel
  code := by decide
  description := by
    refine .inr ⟨by decide, by decide, ?_, ?_⟩
    · intro x t e; cases e; decide
    · intro x e
      have : (exTxn.description).getLast? = some 'e' := by decide
      rw [this] at e; cases e; decide
  noCode := by intro h; exact absurd h (by decide)
  noNotes := by intro h; exact absurd h (by decide)
  notes := by
    intro n hn
    simp only [exTxn, List.mem_cons, List.not_mem_nil, or_false] at hn
    rcases hn with rfl | rfl <;> exact exCanonNote _ (by decide)
  some_posting := by decide
  postings := by
    intro p hp
    simp only [exTxn, List.mem_cons, List.not_mem_nil, or_false] at hp
    rcases hp with rfl | rfl
    · refine ⟨AccountName.cons (s := str "Expenses") (t := str "Food-1") (exSegment _ _ (by decide)) (.one (exSegment _ _ (by decide))), ⟨_, rfl, exAmount _ (by decide)⟩, ?_, ?_⟩
      · intro b e; cases e
      · intro n hn; simp at hn; subst hn; exact exCanonNote _ (by decide)
    · refine ⟨AccountName.cons (s := str "Assets") (t := str "Cash") (exSegment _ _ (by decide)) (.one (exSegment _ _ (by decide))), ⟨_, rfl, exAmount _ (by decide)⟩, ?_, ?_⟩
      · intro b e; cases e; exact exAmount _ (by decide)
      · intro n hn; cases hn

theorem exState_lookup : (LoadState.lookup ⟨[exCad], str "CAD", []⟩) = exComs := by
  funext id
  unfold LoadState.lookup exComs
  by_cases h : id = str "CAD"
  · subst h; rfl
  · rw [if_neg h]
    simp only [List.find?_cons, List.find?_nil]
    rw [decide_eq_false (show ¬ exCad.id = id from fun e => h e.symm)]

/-- The hypotheses of C53 are met, and this is the text. -/
example : ∃ lines, writeTxns (fun _ => 2) [exTxn] = .ok lines ∧ loadText ⟨2020, 1, 1⟩ ⟨[exCad], str "CAD", []⟩ (textOf lines) = .ok ⟨[exCad], str "CAD", [.transaction exTxn]⟩ := by
  refine C53_file_read_back _ _ _ _ ?_
  intro t ht
  simp only [List.mem_singleton] at ht
  subst ht
  rw [exState_lookup]
  exact exTxn_canon

end Verif
