import Verif.Props.Syntax
import Verif.Props.Load
/-
C161, C162: what a price and a transaction mean, in any layout.
-/
namespace Verif

/-- An amount as written: a number of at most the commodity's decimals, a gap, and the name of a known commodity; `a` has that value. -/
def WrittenAmount (coms : Str → Option Com) (t : Str) (a : Amount) : Prop :=
  ∃ (l : Lit) (sp id : Str), t = l.text ++ (sp ++ id) ∧ l.WF ∧ l.fits ∧ Gap sp ∧ CommodityName id ∧ coms id = some a.com ∧
    a.com.decimals ≤ 50 ∧ l.scale ≤ a.com.decimals ∧ a.int * 10 ^ l.scale = l.num * 10 ^ a.com.decimals

theorem parse_unique {l : Lit} {a : Amount} (h : l.WF) (hf : l.fits) (hc : a.com.decimals ≤ 50) (hs : l.scale ≤ a.com.decimals)
    (e : a.int * 10 ^ l.scale = l.num * 10 ^ a.com.decimals) : parseAmount l.text a.com = .ok a := by
  obtain ⟨b, hb, ec, ev⟩ := (C02_parse_exact l a.com h hc hs).1 hf
  rw [hb]
  have : b.int = a.int := by
    have h0 : (10 : Int) ^ l.scale ≠ 0 := by positivity
    exact mul_right_cancel₀ h0 (ev.trans e.symm)
  congr 1
  obtain ⟨bi, bc⟩ := b
  obtain ⟨ai, ac⟩ := a
  simp only at ec this
  rw [ec, this]

/-! ## C161: prices -/

/-- **C161** A price in any layout: `P` and one blank, a date, a commodity, and what one unit of it cost, with any gaps between them and
any room behind. It is the price of that commodity in the amount's commodity on that day. -/
theorem C161_price (env : PEnv) (t : Str) (n : Int) (ht : WrittenDate t n) (g1 g2 com amt room : Str) (h1 : Gap g1) (h2 : Gap g2)
    (hcom : CommodityName com) (a : Amount) (ha : WrittenAmount env.coms amt a) (hid : ∀ id, env.coms id = some a.com → id = a.com.id)
    (hr : Room room) (rest : List Str) :
    next env ((str "P " ++ (t ++ (g1 ++ (com ++ (g2 ++ amt)))) ++ room) :: rest) = .ok (some (.price ⟨n, com, a.com.id, a⟩, false), rest) := by
  obtain ⟨l, sp, id, rfl, hl, hf, hsp, hname, hk, h50, hsc, hv⟩ := ha
  have hidn := hid id hk
  obtain ⟨y, m, d, hrun, hdate⟩ := writtenDate_run ht
  obtain ⟨x, u, ex, hx⟩ := com_head hcom
  obtain ⟨z, v, ez, hz⟩ := l.text_head hl
  have hroom : ∀ {p : Char → Bool}, p ' ' = false → p '\t' = false → NoHead p room := fun h1 h2 => hr.endsWord.head h1 h2
  have r : RunsTo priceRe (str "P " ++ (t ++ (g1 ++ (com ++ (g2 ++ (l.text ++ (sp ++ id))))))) room []
      (amtCaps [] (str "2") l id ((str "commodity" ++ str "1", com) :: dateCaps' t y m d)) := by
    refine RunsTo.seq (RunsTo.lit _ _ []) (RunsTo.seq (hrun _ ?_) (RunsTo.seq (RunsTo.plus h1.1 h1.2.ws ?_ _) (RunsTo.seq (commodity_run _ hcom ?_ _)
      (RunsTo.seq (RunsTo.plus h2.1 h2.2.ws ?_ _) (amount_gap _ _ hl hname hsp (hroom (by decide) (by decide)) _)))))
    · rw [List.append_assoc]; exact h1.endsWord
    · rw [ex]; exact NoHead.cons hx
    · rw [List.append_assoc]; exact h2.head (by decide) (by decide)
    · rw [ez]; exact NoHead.cons (notWs_num hz)
  have hline : str "P " ++ (t ++ (g1 ++ (com ++ (g2 ++ (l.text ++ (sp ++ id)))))) ++ room =
      'P' :: (' ' :: (t ++ (g1 ++ (com ++ (g2 ++ (l.text ++ (sp ++ id))))) ++ room)) := by simp [str]
  unfold next
  rw [if_neg (by rw [hline, isBlank_cons (by decide)]; decide), if_neg (by rw [hline]; simp [isComment])]
  unfold parseItem
  rw [if_neg (by simp [startsWith, str]), if_neg (by simp [startsWith, str]), if_neg (by simp [startsWith, str]), if_neg (by simp [startsWith, str]),
    if_pos (by rw [List.append_assoc]; exact startsWith_append _ _)]
  unfold parsePrice
  rw [r.matches]
  have g : ∀ k, k ∈ [str "ymd", str "ymdy", str "ymdm", str "ymdd", str "offset"] →
      (amtCaps [] (str "2") l id ((str "commodity" ++ str "1", com) :: dateCaps' t y m d)).get k = (dateCaps' t y m d).get k := by
    intro k hk
    simp only [List.mem_cons, List.not_mem_nil, or_false] at hk
    rcases hk with rfl | rfl | rfl | rfl | rfl <;> by_cases h0 : l.fp = [] <;> simp [amtCaps, numCaps, Caps.get, str, h0]
  have hd := hdate env.today _ ((g _ (by simp)).trans (by simp [dateCaps', Caps.get, str])) ((g _ (by simp)).trans (by simp [dateCaps', Caps.get, str]))
    ((g _ (by simp)).trans (by simp [dateCaps', Caps.get, str])) ((g _ (by simp)).trans (by simp [dateCaps', Caps.get, str]))
    ((g _ (by simp)).trans (by simp [dateCaps', Caps.get, str]))
  have e1 : (amtCaps [] (str "2") l id ((str "commodity" ++ str "1", com) :: dateCaps' t y m d)).get (str "commodity2") = id := by
    by_cases h0 : l.fp = [] <;> simp [amtCaps, numCaps, Caps.get, str, h0]
  have e2 : (amtCaps [] (str "2") l id ((str "commodity" ++ str "1", com) :: dateCaps' t y m d)).get (str "amount") = l.text := by
    by_cases h0 : l.fp = [] <;> simp [amtCaps, numCaps, Caps.get, str, h0]
  have e3 : (amtCaps [] (str "2") l id ((str "commodity" ++ str "1", com) :: dateCaps' t y m d)).get (str "commodity1") = com := by
    by_cases h0 : l.fp = [] <;> simp [amtCaps, numCaps, Caps.get, str, h0]
  simp only [hd, Except.bind, mustFindCommodity, e1, e2, e3, hk, parse_unique hl hf h50 hsc hv]
  rw [hidn]

/-! ## C162: transactions -/

/-- What may close a line: room, or a note behind a semicolon. Blanks and tabs around the semicolon are not part of the note. -/
inductive LineEnd : Str → List Str → Prop
  | bare {room} : Room room → LineEnd room []
  | note {room gap s} : Room room → Room gap → noNl s → (∃ x t, s = x :: t ∧ x ≠ ' ' ∧ x ≠ '\t') → LineEnd (room ++ ';' :: (gap ++ s)) [s]
  | empty {room gap} : Room room → Room gap → LineEnd (room ++ ';' :: gap) []

/-- A description: no semicolon or line break, neither beginning nor ending in white space. -/
def Description (d : Str) : Prop := noNl d ∧ (∀ x ∈ d, x ≠ ';') ∧ (∃ x t, d = x :: t ∧ isWs x = false) ∧ ∀ x, d.getLast? = some x → x ≠ ' ' ∧ x ≠ '\t'

/-- It does not begin with a word in parentheses. -/
def NoCode (d : Str) : Prop := ∀ w u, d = '(' :: w ++ ')' :: u → w = [] ∨ ∃ x ∈ w, isWord x = false

/-- The first line of a transaction: its date, optionally a code in parentheses, optionally a description, optionally a note. A note
without a description follows without a gap: with one it would be taken for a description. -/
inductive TxnHead : Str → Int → Str → Str → List Str → Prop
  | plain {t n g d e notes} : WrittenDate t n → Gap g → Description d → NoCode d → LineEnd e notes → TxnHead (t ++ (g ++ (d ++ e))) n [] d notes
  | coded {t n g1 code g d e notes} : WrittenDate t n → Gap g1 → code ≠ [] → (∀ x ∈ code, isWord x = true) → Gap g → Description d → LineEnd e notes →
      TxnHead (t ++ (g1 ++ '(' :: (code ++ ')' :: (g ++ (d ++ e))))) n code d notes
  | bare {t n room} : WrittenDate t n → Room room → TxnHead (t ++ room) n [] [] []
  | bareCode {t n g1 code room} : WrittenDate t n → Gap g1 → code ≠ [] → (∀ x ∈ code, isWord x = true) → Room room →
      TxnHead (t ++ (g1 ++ '(' :: (code ++ ')' :: room))) n code [] []

/-- The amounts of a posting line: none, a quantity, or a quantity and the balance it leads to. -/
inductive Amounts (coms : Str → Option Com) : Str → Option Amount → Option Amount → Prop
  | none : Amounts coms [] none none
  | quantity {g t q} : Gap g → WrittenAmount coms t q → Amounts coms (g ++ t) (some q) none
  | balance {g t q g1 g2 u b} : Gap g → WrittenAmount coms t q → Gap g1 → Gap g2 → WrittenAmount coms u b →
      Amounts coms (g ++ (t ++ (g1 ++ '=' :: (g2 ++ u)))) (some q) (some b)

/-- What follows the first line: postings, and notes on lines of their own. -/
inductive BodyItem
  | posting (account : Str) (quantity balance : Option Amount) (notes : List Str)
  | note (s : Str)

/-- An indented line: a posting, or a note behind a semicolon (of which one blank behind the semicolon is no part). -/
inductive BodyLine (coms : Str → Option Com) : Str → BodyItem → Prop
  | posting {ind acct a q b e notes} : Gap ind → AccountName acct → Amounts coms a q b → LineEnd e notes →
      BodyLine coms (ind ++ (acct ++ (a ++ e))) (.posting acct q b notes)
  | note {ind s} : Gap ind → noNl s → s ≠ [] → BodyLine coms (ind ++ ';' :: ' ' :: s) (.note s)

/-- The notes at the beginning. -/
def leadNotes : List BodyItem → List Str
  | .note s :: is => s :: leadNotes is
  | _ => []

/-- The postings, each with its own note and those on the lines below it. -/
def postsOf : List BodyItem → List PPost
  | [] => []
  | .note _ :: is => postsOf is
  | .posting a q b notes :: is => ⟨a, q, b, notes ++ leadNotes is⟩ :: postsOf is

/-- No letter and no semicolon directly behind white space. -/
def Separates (l : Str) : Prop := ∀ pre a b t, l = pre ++ a :: b :: t → isWs a = true → isAlpha b = false ∧ b ≠ ';'
/-- The lines that follow: none, or one that does not look like a posting or note anywhere. -/
def TxnEnds (rest : List Str) : Prop := ∀ l ∈ rest.head?, Separates l

theorem room_trimLeft {gap s : Str} (hg : Room gap) (hs : ∀ x t, s = x :: t → x ≠ ' ' ∧ x ≠ '\t') : trimLeft (gap ++ s) = s := by
  induction gap with
  | nil => exact trimLeft_id hs
  | cons x gap ih =>
    have hx := hg x (by simp)
    have ih := ih (fun y hy => hg y (by simp [hy]))
    unfold trimLeft at ih ⊢
    rw [List.cons_append, List.dropWhile_cons, if_pos (by simpa using hx)]
    exact ih

theorem room_trimRight {d room : Str} (hr : Room room) (hd : ∀ x, d.getLast? = some x → x ≠ ' ' ∧ x ≠ '\t') : trimRight (d ++ room) = d := by
  have h2 := trimRight_id hd
  unfold trimRight at h2 ⊢
  rw [List.reverse_append]
  have : ∀ (r s : Str), Room r → (r ++ s).dropWhile (fun c => decide (c = ' ') || decide (c = '\t')) = s.dropWhile (fun c => decide (c = ' ') || decide (c = '\t')) := by
    intro r s h
    induction r with
    | nil => rfl
    | cons x r ih =>
      rw [List.cons_append, List.dropWhile_cons, if_pos (by simpa using h x (by simp))]
      exact ih (fun y hy => h y (by simp [hy]))
  rw [this _ _ (fun x hx => hr x (by simpa using hx)), h2]

theorem noNl_room {r : Str} (h : Room r) : noNl r := by
  intro x hx; rcases h x hx with rfl | rfl <;> decide

/-- Without one blank at the beginning. -/
def dropBlank (v : Str) : Str := if v.head? = some ' ' then v.tail else v

theorem dropBlank_trim (v : Str) : trimLeft (dropBlank v) = trimLeft v := by
  cases v with
  | nil => rfl
  | cons x v =>
    unfold dropBlank
    split
    · rename_i h
      simp only [List.head?_cons, Option.some.injEq] at h
      subst h
      simp [trimLeft]
    · rfl

theorem noteAny_run {v : Str} (name : Str) (h : noNl v) (c : Caps) : RunsTo (noteRe name) (';' :: v) [] c ((name, dropBlank v) :: c) := by
  have star : ∀ u : Str, noNl u → RunsTo (.grp name (.star .any)) u [] c ((name, u) :: c) := fun u hu =>
    RunsTo.grp (RunsTo.star (by intro x hx; simpa using hu x hx) NoHead.nil c)
  unfold dropBlank
  split
  · rename_i hv
    cases v with
    | nil => cases hv
    | cons x v =>
      simp only [List.head?_cons, Option.some.injEq] at hv
      subst hv
      exact RunsTo.seq (RunsTo.ch ';' ((([' '] ++ v)) ++ []) c) (RunsTo.seq (RunsTo.opt (RunsTo.ch ' ' (v ++ []) c)) (star v (fun x hx => h x (by simp [hx]))))
  · rename_i hv
    have h1 : RunsTo (.opt (.ch ' ')) [] (v ++ []) c c := RunsTo.optNone (NoMatch.ch (by
      intro x t e e2
      rw [List.append_nil] at e
      exact hv (by rw [e, e2]; rfl)))
    have := RunsTo.seq (RunsTo.ch ';' (([] ++ v) ++ []) c) (RunsTo.seq h1 (star v h))
    exact this

/-- The parts of the end of a line. -/
theorem LineEnd.parts {e : Str} {notes : List Str} (h : LineEnd e notes) : ∃ room tail, Room room ∧ e = room ++ tail ∧
    (tail = [] ∧ notes = [] ∨ ∃ v, tail = ';' :: v ∧ noNl v ∧ shortNotes (dropBlank v) = notes) := by
  cases h with
  | bare hr => exact ⟨e, [], hr, by simp, .inl ⟨rfl, rfl⟩⟩
  | @note room gap s hr hg hs hx =>
    obtain ⟨x, t, rfl, h1, h2⟩ := hx
    refine ⟨room, _, hr, rfl, .inr ⟨_, rfl, noNl_append (noNl_room hg) hs, ?_⟩⟩
    unfold shortNotes
    rw [dropBlank_trim, room_trimLeft hg (by intro y u e; cases e; exact ⟨h1, h2⟩), if_neg (by simp)]
  | @empty room gap hr hg =>
    refine ⟨room, _, hr, rfl, .inr ⟨_, rfl, noNl_room hg, ?_⟩⟩
    unfold shortNotes
    have := room_trimLeft (s := []) hg (by intro y u e; cases e)
    rw [List.append_nil] at this
    rw [dropBlank_trim, this, if_pos rfl]

theorem LineEnd.head {e : Str} {notes : List Str} (h : LineEnd e notes) {p : Char → Bool} (h1 : p ' ' = false) (h2 : p '\t' = false) (h3 : p ';' = false) : NoHead p e := by
  obtain ⟨room, tail, hr, rfl, ht⟩ := h.parts
  refine hr.head h1 h2 ?_
  rcases ht with ⟨rfl, _⟩ | ⟨v, rfl, _⟩
  · exact NoHead.nil
  · exact NoHead.cons h3

/-- The optional note of a posting line. -/
theorem LineEnd.run {e : Str} {notes : List Str} (h : LineEnd e notes) (name : Str) : ∃ x rest extra, e = x ++ rest ∧
    (∀ c, RunsTo (.opt (.seq (.star .ws) (noteRe name))) x rest c (extra ++ c)) ∧
    (extra = [] ∧ notes = [] ∨ ∃ u, extra = [(name, u)] ∧ shortNotes u = notes) := by
  obtain ⟨room, tail, hr, rfl, ht⟩ := h.parts
  rcases ht with ⟨rfl, rfl⟩ | ⟨v, rfl, hv, hs⟩
  · refine ⟨[], room, [], by simp, fun c => RunsTo.optNone ?_, .inl ⟨rfl, rfl⟩⟩
    have := NoMatch.starThen (p := isWs) (r := noteRe name) (w := room) (rest := []) NoHead.nil (by
      intro w1 w2 e
      refine noteRe_no name ?_
      intro x t e2 e3
      rw [List.append_nil] at e2
      rcases hr x (by rw [e, e2]; simp) with h | h <;> rw [h] at e3 <;> cases e3)
    rw [List.append_nil] at this
    exact this
  · refine ⟨room ++ ';' :: v, [], [(name, dropBlank v)], by simp, fun c => ?_, .inr ⟨_, rfl, hs⟩⟩
    exact RunsTo.opt (RunsTo.seq (RunsTo.star hr.ws (NoHead.cons (by decide)) c) (noteAny_run name hv c))

/-! ### Posting lines -/

theorem noBalance {e : Str} {notes : List Str} (h : LineEnd e notes) : NoMatch balanceRe e := by
  obtain ⟨room, tail, hr, rfl, ht⟩ := h.parts
  refine NoMatch.plusThenCls (q := fun x => decide (x = '=')) ?_ ?_ ?_ (fun s hs => NoMatch.seqL (NoMatch.cls hs))
  · rcases ht with ⟨rfl, _⟩ | ⟨v, rfl, _⟩
    · exact NoHead.nil
    · exact NoHead.cons (by decide)
  · intro x hx; rcases hr x hx with rfl | rfl <;> decide
  · rcases ht with ⟨rfl, _⟩ | ⟨v, rfl, _⟩
    · exact NoHead.nil
    · exact NoHead.cons (by decide)

theorem noAmount {e : Str} {notes : List Str} (h : LineEnd e notes) (r : Re) : NoMatch (.seq (.plus .ws) (.seq (amountRe (str "1") (str "1")) r)) e := by
  obtain ⟨room, tail, hr, rfl, ht⟩ := h.parts
  refine NoMatch.plusThenCls (q := fun x => isDigit x || decide (x = '-')) ?_ ?_ ?_ ?_
  · rcases ht with ⟨rfl, _⟩ | ⟨v, rfl, _⟩
    · exact NoHead.nil
    · exact NoHead.cons (by decide)
  · intro x hx; rcases hr x hx with rfl | rfl <;> decide
  · rcases ht with ⟨rfl, _⟩ | ⟨v, rfl, _⟩
    · exact NoHead.nil
    · exact NoHead.cons (by decide)
  · intro s hs
    refine NoMatch.seqL (NoMatch.seqL (NoMatch.grp (NoMatch.seqR ?_)))
    intro s1 s2 c c' e hm
    rw [opt_match_iff] at hm
    rcases hm with hm | ⟨rfl, _⟩
    · rw [ch_match_iff] at hm
      have := hs '-' s2 (by rw [e, hm.1]; rfl)
      exact absurd this (by decide)
    · refine NoMatch.seqL (NoMatch.plus ?_)
      intro x t e2
      have := hs x t (by rw [e]; exact e2)
      simp only [Bool.or_eq_false_iff] at this
      exact this.1

theorem get_skip (l r : Caps) (k : Str) (h : ∀ e ∈ l, e.1 ≠ k) : (l ++ r).get k = r.get k := by
  induction l with
  | nil => rfl
  | cons e l ih => rw [List.cons_append, get_cons_ne (h e (by simp)), ih (fun e he => h e (by simp [he]))]

theorem get_keep (l r : Caps) (k : Str) (h : r.get k = []) : (l ++ r).get k = l.get k := by
  induction l with
  | nil => exact h
  | cons e l ih =>
    by_cases he : e.1 = k
    · obtain ⟨e1, e2⟩ := e
      simp only at he
      subst he
      rw [List.cons_append, get_cons_eq, get_cons_eq]
    · rw [List.cons_append, get_cons_ne he, get_cons_ne he, ih]

theorem amtCaps_append (n m : Str) (l : Lit) (com : Str) (c : Caps) : amtCaps n m l com c = amtCaps n m l com [] ++ c := by
  by_cases h0 : l.fp = [] <;> simp [amtCaps, numCaps, h0]

/-- The names of the groups of amounts. -/
def amountKeys : List Str := [str "amount1", str "commodity1", str "decimals1", str "amount2", str "commodity2", str "decimals2"]

theorem amounts_run {env : PEnv} {a : Str} {q b : Option Amount} (h : Amounts env.coms a q b) {e : Str} {notes : List Str} (he : LineEnd e notes) :
    ∃ extra : Caps, (∀ c, RunsTo (.opt (.cat [.plus .ws, amountRe (str "1") (str "1"), .opt balanceRe])) a e c (extra ++ c)) ∧
      (∀ x ∈ extra, x.1 ∈ amountKeys) ∧ optAmount env (extra.get (str "amount1")) (extra.get (str "commodity1")) = .ok q ∧
      optAmount env (extra.get (str "amount2")) (extra.get (str "commodity2")) = .ok b := by
  have num : ∀ {l : Lit} {id : Str} {x : Amount}, l.WF → l.fits → env.coms id = some x.com → x.com.decimals ≤ 50 → l.scale ≤ x.com.decimals →
      x.int * 10 ^ l.scale = l.num * 10 ^ x.com.decimals → optAmount env l.text id = .ok (some x) := by
    intro l id x h1 h2 h3 h4 h5 h6
    unfold optAmount mustFindCommodity
    rw [if_neg (l.text_ne h1), h3]
    simp only [Except.bind, parse_unique h1 h2 h4 h5 h6]
  cases h with
  | none => exact ⟨[], fun c => RunsTo.optNone (noAmount he _), by simp, rfl, rfl⟩
  | @quantity g t q hg ht =>
    obtain ⟨l, sp, id, rfl, hl, hf, hsp, hname, hk, h50, hsc, hv⟩ := ht
    obtain ⟨z, v, ez, hz⟩ := l.text_head hl
    refine ⟨amtCaps (str "1") (str "1") l id [], fun c => ?_, ?_, ?_, ?_⟩
    · rw [← amtCaps_append]
      have h1 := amount_gap (rest := [] ++ e) (str "1") (str "1") hl hname hsp (he.head (by decide) (by decide) (by decide)) c
      have := RunsTo.opt (RunsTo.seq (RunsTo.plus (p := isWs) hg.1 hg.2.ws (by rw [ez]; exact NoHead.cons (notWs_num hz)) c) (RunsTo.seq h1 (RunsTo.optNone (noBalance he))))
      rw [List.append_nil] at this
      exact this
    · intro x hx
      by_cases h0 : l.fp = []
      · simp [amtCaps, numCaps, h0] at hx
        rcases hx with rfl | rfl <;> (dsimp only; decide)
      · simp [amtCaps, numCaps, h0] at hx
        rcases hx with rfl | rfl | rfl <;> (dsimp only; decide)
    · have e1 : (amtCaps (str "1") (str "1") l id []).get (str "amount1") = l.text := by by_cases h0 : l.fp = [] <;> simp [amtCaps, numCaps, Caps.get, str, h0]
      have e2 : (amtCaps (str "1") (str "1") l id []).get (str "commodity1") = id := by by_cases h0 : l.fp = [] <;> simp [amtCaps, numCaps, Caps.get, str, h0]
      rw [e1, e2]; exact num hl hf hk h50 hsc hv
    · have e1 : (amtCaps (str "1") (str "1") l id []).get (str "amount2") = [] := by by_cases h0 : l.fp = [] <;> simp [amtCaps, numCaps, Caps.get, str, h0]
      rw [e1]; rfl
  | @balance g t q g1 g2 u b hg ht hg1 hg2 hu =>
    obtain ⟨l, sp, id, rfl, hl, hf, hsp, hname, hk, h50, hsc, hv⟩ := ht
    obtain ⟨l2, sp2, id2, rfl, hl2, hf2, hsp2, hname2, hk2, h502, hsc2, hv2⟩ := hu
    obtain ⟨z, v, ez, hz⟩ := l.text_head hl
    obtain ⟨z2, v2, ez2, hz2⟩ := l2.text_head hl2
    refine ⟨amtCaps (str "2") (str "2") l2 id2 (amtCaps (str "1") (str "1") l id []), fun c => ?_, ?_, ?_, ?_⟩
    · have ec : amtCaps (str "2") (str "2") l2 id2 (amtCaps (str "1") (str "1") l id []) ++ c = amtCaps (str "2") (str "2") l2 id2 (amtCaps (str "1") (str "1") l id c) := by
        rw [amtCaps_append _ _ l2, amtCaps_append _ _ l2 _ (amtCaps _ _ l id c), amtCaps_append _ _ l id c, List.append_assoc]
      rw [ec]
      have h1 := amount_gap (rest := (g1 ++ ['='] ++ (g2 ++ (l2.text ++ (sp2 ++ id2)))) ++ e) (str "1") (str "1") hl hname hsp
        (by rw [List.append_assoc, List.append_assoc]; exact hg1.head (by decide) (by decide)) c
      have h2 := amount_gap (rest := e) (str "2") (str "2") hl2 hname2 hsp2 (he.head (by decide) (by decide) (by decide)) (amtCaps (str "1") (str "1") l id c)
      have h3 := RunsTo.opt (RunsTo.seq (RunsTo.plus (p := isWs) hg1.1 hg1.2.ws (NoHead.cons (by decide)) (amtCaps (str "1") (str "1") l id c))
        (RunsTo.seq (RunsTo.ch '=' ((g2 ++ (l2.text ++ (sp2 ++ id2))) ++ e) _)
          (RunsTo.seq (RunsTo.plus (p := isWs) hg2.1 hg2.2.ws (by rw [ez2]; exact NoHead.cons (notWs_num hz2)) _) h2)))
      have e1 : g1 ++ ['='] ++ (g2 ++ (l2.text ++ (sp2 ++ id2))) = g1 ++ (['='] ++ (g2 ++ (l2.text ++ (sp2 ++ id2)))) := by simp
      rw [e1] at h1
      have := RunsTo.opt (RunsTo.seq (RunsTo.plus (p := isWs) hg.1 hg.2.ws (by rw [ez]; exact NoHead.cons (notWs_num hz)) c) (RunsTo.seq h1 h3))
      exact this
    · intro x hx
      by_cases h0 : l.fp = [] <;> by_cases h02 : l2.fp = []
      · simp [amtCaps, numCaps, h0, h02] at hx
        rcases hx with rfl | rfl | rfl | rfl <;> (dsimp only; decide)
      · simp [amtCaps, numCaps, h0, h02] at hx
        rcases hx with rfl | rfl | rfl | rfl | rfl <;> (dsimp only; decide)
      · simp [amtCaps, numCaps, h0, h02] at hx
        rcases hx with rfl | rfl | rfl | rfl | rfl <;> (dsimp only; decide)
      · simp [amtCaps, numCaps, h0, h02] at hx
        rcases hx with rfl | rfl | rfl | rfl | rfl | rfl <;> (dsimp only; decide)
    · have e1 : (amtCaps (str "2") (str "2") l2 id2 (amtCaps (str "1") (str "1") l id [])).get (str "amount1") = l.text := by
        by_cases h0 : l.fp = [] <;> by_cases h02 : l2.fp = [] <;> simp [amtCaps, numCaps, Caps.get, str, h0, h02]
      have e2 : (amtCaps (str "2") (str "2") l2 id2 (amtCaps (str "1") (str "1") l id [])).get (str "commodity1") = id := by
        by_cases h0 : l.fp = [] <;> by_cases h02 : l2.fp = [] <;> simp [amtCaps, numCaps, Caps.get, str, h0, h02]
      rw [e1, e2]; exact num hl hf hk h50 hsc hv
    · have e1 : (amtCaps (str "2") (str "2") l2 id2 (amtCaps (str "1") (str "1") l id [])).get (str "amount2") = l2.text := by
        by_cases h0 : l.fp = [] <;> by_cases h02 : l2.fp = [] <;> simp [amtCaps, numCaps, Caps.get, str, h0, h02]
      have e2 : (amtCaps (str "2") (str "2") l2 id2 (amtCaps (str "1") (str "1") l id [])).get (str "commodity2") = id2 := by
        by_cases h0 : l.fp = [] <;> by_cases h02 : l2.fp = [] <;> simp [amtCaps, numCaps, Caps.get, str, h0, h02]
      rw [e1, e2]; exact num hl2 hf2 hk2 h502 hsc2 hv2

theorem amounts_head {coms : Str → Option Com} {a : Str} {q b : Option Amount} (h : Amounts coms a q b) {e : Str} {notes : List Str} (he : LineEnd e notes) :
    NameEnd (a ++ e) := by
  cases h with
  | none => exact he.head (by decide) (by decide) (by decide)
  | quantity hg _ => rw [List.append_assoc]; exact hg.head (by decide) (by decide)
  | balance hg _ _ _ _ => rw [List.append_assoc]; exact hg.head (by decide) (by decide)

/-- A posting line in the loop. -/
theorem postingLine_step {env : PEnv} {ind acct a e : Str} {q b : Option Amount} {notes : List Str} (hi : Gap ind) (hacct : AccountName acct)
    (ha : Amounts env.coms a q b) (he : LineEnd e notes) (tn : List Str) (ps : List PPost) (pending : List Str) (rest : List Str) :
    postingLoop env tn ps pending ((ind ++ (acct ++ (a ++ e))) :: rest) =
      postingLoop env (attach tn ps pending).1 ((attach tn ps pending).2 ++ [⟨acct, q, b, notes⟩]) [] rest := by
  obtain ⟨x1, u1, ex, hx⟩ := hacct.head
  obtain ⟨x, r, extra2, rfl, hrun, hnotes⟩ := he.run (str "shortNote")
  obtain ⟨extra, arun, hkeys, hq, hb⟩ := amounts_run ha he
  have hrun0 : RunsTo postingRe (ind ++ (acct ++ (a ++ x))) r [] (extra2 ++ (extra ++ [(str "account", acct)])) := by
    refine RunsTo.altL (RunsTo.seq (RunsTo.plus hi.1 hi.2.ws ?_ []) (RunsTo.seq (account_run hacct ?_ []) (RunsTo.seq (arun _) (hrun _))))
    · rw [ex]; exact NoHead.cons (alpha_props hx).1
    · rw [List.append_assoc]; exact amounts_head ha he
  have hm := hrun0.matches
  have e0 : ind ++ (acct ++ (a ++ x)) ++ r = ind ++ (acct ++ (a ++ (x ++ r))) := by simp
  rw [e0] at hm
  have k2 : ∀ y ∈ extra2, y.1 = str "shortNote" := by
    rcases hnotes with ⟨rfl, _⟩ | ⟨u, rfl, _⟩
    · simp
    · simp
  have g : ∀ k, k ≠ str "shortNote" → (extra2 ++ (extra ++ [(str "account", acct)])).get k = (extra ++ [(str "account", acct)]).get k := by
    intro k hk
    exact get_skip _ _ _ (fun y hy e => hk (by rw [← e, k2 y hy]))
  have skip : ∀ k, k ∉ amountKeys → (extra ++ [(str "account", acct)]).get k = Caps.get [(str "account", acct)] k :=
    fun k hk => get_skip _ _ _ (fun y hy e => hk (by rw [← e]; exact hkeys y hy))
  have keep : ∀ k, k ≠ str "account" → (extra ++ [(str "account", acct)]).get k = extra.get k :=
    fun k hk => get_keep _ _ _ (by simp [Caps.get, Ne.symm hk])
  have g1 : (extra2 ++ (extra ++ [(str "account", acct)])).get (str "note") = [] := by
    rw [g _ (by decide), skip _ (by decide)]; simp [Caps.get, str]
  have g2 : (extra2 ++ (extra ++ [(str "account", acct)])).get (str "account") = acct := by
    rw [g _ (by decide), skip _ (by decide)]; simp [Caps.get]
  have g3 : shortNotes ((extra2 ++ (extra ++ [(str "account", acct)])).get (str "shortNote")) = notes := by
    have h0 : (extra ++ [(str "account", acct)]).get (str "shortNote") = [] := by rw [skip _ (by decide)]; simp [Caps.get, str]
    rw [get_keep _ _ _ h0]
    rcases hnotes with ⟨rfl, rfl⟩ | ⟨u, rfl, hu⟩
    · rfl
    · rw [get_cons_eq]; exact hu
  rw [postingLoop]
  simp only [hm, g1, g2, g3]
  rw [if_neg (by simp), g _ (by decide), g _ (by decide), g _ (by decide), g _ (by decide), keep _ (by decide), keep _ (by decide), keep _ (by decide), keep _ (by decide), hq]
  simp only [Except.bind]
  rw [hb]

theorem ownNote_step {env : PEnv} {ind s : Str} (hi : Gap ind) (hn : noNl s) (hne : s ≠ []) (tn : List Str) (ps : List PPost) (pending : List Str) (rest : List Str) :
    postingLoop env tn ps pending ((ind ++ ';' :: ' ' :: s) :: rest) = postingLoop env tn ps (pending ++ [s]) rest := by
  have r : RunsTo postingRe (ind ++ (';' :: ' ' :: s)) [] [] [(str "note", s)] := by
    refine RunsTo.altR ?_ (RunsTo.seq (RunsTo.plus hi.1 hi.2.ws (NoHead.cons (by decide)) []) (note_run (str "note") hn []))
    rw [List.append_assoc]
    refine NoMatch.plusThenCls (q := isAlpha) (NoHead.cons (by decide)) ?_ (NoHead.cons (by decide)) ?_
    · intro x hx; rcases hi.2 x hx with rfl | rfl <;> decide
    · intro s hs
      exact NoMatch.seqL (NoMatch.grp (NoMatch.seqL (NoMatch.seqL (NoMatch.cls hs))))
  have hm := r.matches
  rw [List.append_nil] at hm
  rw [postingLoop]
  simp only [hm]
  rw [get_cons_eq, if_pos hne]

theorem separates_stops {l : Str} (h : Separates l) : postingRe.matches l = none := by
  refine NoMatch.noMatches ?_
  rintro pre t rfl
  have key : ∀ r : Re, (∀ s : Str, (∀ x u, s = x :: u → isAlpha x = false ∧ x ≠ ';') → NoMatch r s) → NoMatch (.seq (.plus .ws) r) t := by
    intro r hr
    refine NoMatch.seqR (fun s1 s2 c c' e hm => hr _ ?_)
    unfold Re.ws at hm
    rw [plus_cls_match_iff] at hm
    obtain ⟨hne, hp, _⟩ := hm
    intro x u e2
    obtain ⟨w, y, rfl⟩ := List.eq_nil_or_concat s1 |>.resolve_left hne
    refine h (pre ++ w) y x u ?_ (hp y (by simp))
    rw [e, e2]; simp
  refine NoMatch.alt (key _ ?_) (key _ ?_)
  · intro s hs
    exact NoMatch.seqL (NoMatch.grp (NoMatch.seqL (NoMatch.seqL (NoMatch.cls (fun x u e => (hs x u e).1)))))
  · intro s hs
    exact noteRe_no _ (fun x u e => (hs x u e).2)

theorem loop_ends {env : PEnv} {rest : List Str} (hr : TxnEnds rest) (tn : List Str) (ps : List PPost) (pending : List Str) :
    postingLoop env tn ps pending rest = (finishPostings tn ps pending).bind fun r => .ok (r, rest) := by
  cases rest with
  | nil => rw [postingLoop]
  | cons l ls => rw [postingLoop]; simp only [separates_stops (hr l (by simp))]

/-- Once there is a posting. -/
theorem body_after {env : PEnv} {lines : List Str} {is : List BodyItem} (h : List.Forall₂ (BodyLine env.coms) lines is) {rest : List Str} (hr : TxnEnds rest)
    (tn : List Str) (done : List PPost) (p : PPost) (pending : List Str) :
    postingLoop env tn (done ++ [p]) pending (lines ++ rest) =
      .ok ((tn, done ++ [{ p with notes := p.notes ++ pending ++ leadNotes is }] ++ postsOf is), rest) := by
  induction h generalizing done p pending with
  | nil =>
    rw [List.nil_append, loop_ends hr]
    unfold finishPostings
    by_cases h0 : pending = []
    · rw [if_pos h0, h0]; simp [leadNotes, postsOf, Except.bind]
    · rw [if_neg h0, if_neg (by simp), attachLast_concat]; simp [leadNotes, postsOf, Except.bind]
  | @cons line i lines is hl _ ih =>
    rw [List.cons_append]
    cases hl with
    | posting hi hacct ha he =>
      rw [postingLine_step hi hacct ha he]
      have e1 : (attach tn (done ++ [p]) pending) = (tn, done ++ [{ p with notes := p.notes ++ pending }]) := by
        unfold attach; rw [if_neg (by simp), attachLast_concat]
      rw [e1]
      simp only
      rw [ih]
      simp [leadNotes, postsOf]
    | note hi hn hne =>
      rw [ownNote_step hi hn hne, ih]
      simp [leadNotes, postsOf]

/-- Before the first posting. -/
theorem body_before {env : PEnv} {lines : List Str} {is : List BodyItem} (h : List.Forall₂ (BodyLine env.coms) lines is) {rest : List Str} (hr : TxnEnds rest)
    (tn pending : List Str) (hp : postsOf is ≠ [] ∨ (pending = [] ∧ leadNotes is = [])) :
    postingLoop env tn [] pending (lines ++ rest) = .ok ((tn ++ pending ++ leadNotes is, postsOf is), rest) := by
  induction h generalizing pending with
  | nil =>
    rw [List.nil_append, loop_ends hr]
    have h0 : pending = [] := by rcases hp with h | h; exact absurd rfl h; exact h.1
    unfold finishPostings
    rw [if_pos h0, h0]; simp [leadNotes, postsOf, Except.bind]
  | @cons line i lines is hl hf ih =>
    rw [List.cons_append]
    cases hl with
    | @posting ind acct a q b e notes hi hacct ha he =>
      rw [postingLine_step hi hacct ha he]
      have e1 : (attach tn [] pending) = (tn ++ pending, []) := by unfold attach; rw [if_pos rfl]
      rw [e1]
      simp only
      rw [body_after hf hr]
      simp [leadNotes, postsOf]
    | note hi hn hne =>
      have h1 : postsOf is ≠ [] := by
        rcases hp with h | h
        · exact h
        · cases h.2
      rw [ownNote_step hi hn hne, ih _ (.inl h1)]
      simp [leadNotes, postsOf]

/-! ### The first line -/

theorem noCode_gap {g d e : Str} {notes : List Str} (hg : Gap g) (hd : Description d) (he : LineEnd e notes) (h : NoCode d) : NoMatch codeRe (g ++ (d ++ e)) := by
  obtain ⟨y, d', ed, hy⟩ := hd.2.2.1
  refine NoMatch.plusThen (p := isWs) (by rw [ed]; exact NoHead.cons hy) ?_
  intro w1 w2 ew
  cases w2 with
  | cons x w2 =>
    refine NoMatch.seqL (NoMatch.ch ?_)
    intro z t e2 e3
    rw [List.cons_append, List.cons.injEq] at e2
    rcases hg.2 x (by rw [ew]; simp) with h | h <;> rw [← e2.1, h] at e3 <;> cases e3
  | nil =>
    simp only [List.nil_append]
    intro s1 s2 c c' e1 hm
    have hm : Re.Match (.seq (.ch '(') (.seq (.grp (str "code") (.plus .word)) (.ch ')'))) s1 s2 c c' := hm
    rw [seq_match_iff] at hm
    obtain ⟨t1, t2, c1, rfl, h1, h2⟩ := hm
    rw [seq_match_iff] at h2
    obtain ⟨t3, t4, c2, rfl, h3, h4⟩ := h2
    rw [ch_match_iff] at h1 h4
    rw [grp_match_iff] at h3
    obtain ⟨c3, h3, _⟩ := h3
    unfold Re.word at h3
    rw [plus_cls_match_iff] at h3
    obtain ⟨rfl, _⟩ := h1
    obtain ⟨rfl, _⟩ := h4
    obtain ⟨hne, hw, _⟩ := h3
    have e1 : d ++ e = ('(' :: (t3 ++ [')'])) ++ s2 := e1
    have bad : ∀ u, d = '(' :: t3 ++ ')' :: u → False := by
      intro u eu
      rcases h t3 u eu with r | ⟨x, hx, hx2⟩
      · exact hne r
      · have := hw x hx; rw [this] at hx2; exact absurd hx2 (by decide)
    rcases List.append_eq_append_iff.mp e1 with ⟨u, e2, e3⟩ | ⟨u, e2, e3⟩
    · rw [ed] at e2
      simp only [List.cons_append, List.cons.injEq] at e2
      cases u with
      | nil =>
        simp only [List.append_nil] at e2
        exact bad [] (by rw [ed, ← e2.1, ← e2.2]; simp)
      | cons z u =>
        have hz : (isWord z || decide (z = ')')) = false := he.head (p := fun z => isWord z || decide (z = ')')) (by decide) (by decide) (by decide) z (u ++ s2) e3
        simp only [Bool.or_eq_false_iff, decide_eq_false_iff_not] at hz
        have : z ∈ t3 ++ [')'] := by rw [e2.2]; simp
        rcases List.mem_append.mp this with hz2 | hz2
        · have := hw z hz2; rw [hz.1] at this; exact absurd this (by decide)
        · exact hz.2 (by simpa using hz2)
    · exact bad u (by rw [e2]; simp)

theorem code_gap {g1 code rest : Str} (hg : Gap g1) (hne : code ≠ []) (hw : ∀ x ∈ code, isWord x = true) (c : Caps) :
    RunsTo (.opt codeRe) (g1 ++ '(' :: (code ++ [')'])) rest c ((str "code", code) :: c) := by
  have h2 : RunsTo (.grp (str "code") (.plus .word)) code ([')'] ++ rest) c ((str "code", code) :: c) :=
    RunsTo.grp (RunsTo.plus hne hw (NoHead.cons (by decide)) c)
  have h1 : RunsTo (.plus .ws) g1 ((['('] ++ (code ++ [')'])) ++ rest) c c := RunsTo.plus hg.1 hg.2.ws (NoHead.cons (by decide)) c
  have := RunsTo.opt (RunsTo.seq h1 (RunsTo.seq (RunsTo.ch '(' _ c) (RunsTo.seq h2 (RunsTo.ch ')' rest _))))
  exact RunsTo.nil_left (r := .opt codeRe) this (by simp)

/-- The groups of the description and the note. -/
structure DescFacts (extra : Caps) (d : Str) (notes : List Str) : Prop where
  keys : ∀ x ∈ extra, x.1 = str "shortNote" ∨ x.1 = str "description"
  description : trimRight (extra.get (str "description")) = d
  note : shortNotes (extra.get (str "shortNote")) = notes

theorem desc_gap {g d e : Str} {notes : List Str} (hg : Gap g) (hd : Description d) (he : LineEnd e notes) :
    ∃ extra, (∀ c, RunsTo (.seq (.opt descriptionRe) (.opt (noteRe (str "shortNote")))) (g ++ (d ++ e)) [] c (extra ++ c)) ∧ DescFacts extra d notes := by
  obtain ⟨room, tail, hr, rfl, ht⟩ := he.parts
  obtain ⟨h0, h1, ⟨x, t, rfl, hx⟩, h3⟩ := hd
  have hxp : (fun c => !isWs c) x = true := by simp [hx]
  have hall : ∀ y ∈ t ++ room, decide (y ≠ ';') = true := by
    intro y hy
    rcases List.mem_append.mp hy with hy | hy
    · simpa using h1 y (by simp [hy])
    · rcases hr y hy with rfl | rfl <;> decide
  have a2 : ∀ (rest : Str) (c : Caps), NoHead (fun c => decide (c ≠ ';')) rest →
      RunsTo (.opt descriptionRe) (g ++ ([x] ++ (t ++ room))) rest c ((str "description", [x] ++ (t ++ room)) :: c) := by
    intro rest c hrest
    exact RunsTo.opt (RunsTo.seq (RunsTo.plus (p := isWs) hg.1 hg.2.ws (NoHead.cons hx) c)
      (RunsTo.grp (RunsTo.seq (RunsTo.cls hxp _ c) (RunsTo.star hall hrest c))))
  have etrim : trimRight ([x] ++ (t ++ room)) = x :: t := room_trimRight (d := x :: t) hr h3
  rcases ht with ⟨rfl, rfl⟩ | ⟨v, rfl, hv, hs⟩
  · refine ⟨[(str "description", [x] ++ (t ++ room))], fun c => ?_, ⟨by simp, by rw [get_cons_eq]; exact etrim, by simp [Caps.get, str, shortNotes, trimLeft]⟩⟩
    have h := RunsTo.seq (a2 ([] ++ []) c NoHead.nil) (RunsTo.optNone (a := noteRe (str "shortNote")) (noteRe_no _ (by intro x t e; cases e)))
    exact RunsTo.nil_left h (by simp)
  · refine ⟨[(str "shortNote", dropBlank v), (str "description", [x] ++ (t ++ room))], fun c => ?_, ⟨by simp, ?_, by rw [get_cons_eq]; exact hs⟩⟩
    · have h := RunsTo.seq (a2 ((';' :: v) ++ []) c (NoHead.cons (by decide))) (RunsTo.opt (noteAny_run (str "shortNote") hv _))
      exact RunsTo.nil_left h (by simp)
    · rw [get_cons_ne (by decide), get_cons_eq]; exact etrim

theorem noDesc_room {room : Str} (hr : Room room) (c : Caps) : RunsTo (.seq (.opt descriptionRe) (.opt (noteRe (str "shortNote")))) [] room c c := by
  have n1 : NoMatch descriptionRe room := by
    have := NoMatch.plusThenCls (p := isWs) (q := fun c => !isWs c) (w := room) (rest := []) (r := .grp (str "description") (.seq .notWs (.star (.cls (fun c => decide (c ≠ ';'))))))
      NoHead.nil (by intro x hx; simp [hr.ws x hx]) NoHead.nil (fun s hs => NoMatch.grp (NoMatch.seqL (NoMatch.cls hs)))
    rw [List.append_nil] at this
    exact this
  have n2 : NoMatch (noteRe (str "shortNote")) room := noteRe_no _ (by
    rintro x t rfl e
    rcases hr x (by simp) with h | h <;> rw [h] at e <;> cases e)
  exact RunsTo.seq (x := []) (y := []) (RunsTo.optNone n1) (RunsTo.optNone n2)

theorem noCode_room {room : Str} (hr : Room room) : NoMatch codeRe room := by
  have := NoMatch.plusThenCls (p := isWs) (q := fun c => decide (c = '(')) (w := room) (rest := []) (r := .cat [.ch '(', .grp (str "code") (.plus .word), .ch ')'])
    NoHead.nil (by intro x hx; rcases hr x hx with rfl | rfl <;> decide) NoHead.nil (fun s hs => NoMatch.seqL (NoMatch.cls hs))
  rw [List.append_nil] at this
  exact this

theorem txnHead_matches {line code d : Str} {n : Int} {notes : List Str} (h : TxnHead line n code d notes) :
    ∃ c, transactionRe.matches line = some c ∧ (∀ today, mustParseDate today c = .ok n) ∧ c.get (str "code") = code ∧
      trimRight (c.get (str "description")) = d ∧ shortNotes (c.get (str "shortNote")) = notes := by
  have facts : ∀ (extra cc : Caps) (t y m dd : Str), DescFacts extra d notes → (cc = [] ∧ code = [] ∨ cc = [(str "code", code)]) →
      (∀ (today : Today) (c : Caps), c.get (str "ymd") = t → c.get (str "ymdy") = y → c.get (str "ymdm") = m → c.get (str "ymdd") = dd →
        c.get (str "offset") = [] → mustParseDate today c = .ok n) →
      (∀ today, mustParseDate today (extra ++ (cc ++ dateCaps' t y m dd)) = .ok n) ∧ (extra ++ (cc ++ dateCaps' t y m dd)).get (str "code") = code ∧
      trimRight ((extra ++ (cc ++ dateCaps' t y m dd)).get (str "description")) = d ∧ shortNotes ((extra ++ (cc ++ dateCaps' t y m dd)).get (str "shortNote")) = notes := by
    intro extra cc t y m dd hf hcc hdate
    have sk : ∀ k, k ≠ str "shortNote" → k ≠ str "description" → (extra ++ (cc ++ dateCaps' t y m dd)).get k = (cc ++ dateCaps' t y m dd).get k := by
      intro k k1 k2
      refine get_skip _ _ _ (fun e he h => ?_)
      rcases hf.keys e he with h1 | h1
      · exact k1 (by rw [← h, h1])
      · exact k2 (by rw [← h, h1])
    have base : ∀ k, k ≠ str "code" → (cc ++ dateCaps' t y m dd).get k = (dateCaps' t y m dd).get k := by
      intro k hk
      rcases hcc with ⟨rfl, _⟩ | rfl
      · rfl
      · exact get_cons_ne (Ne.symm hk)
    refine ⟨fun today => hdate today _ ?_ ?_ ?_ ?_ ?_, ?_, ?_, ?_⟩
    · rw [sk _ (by decide) (by decide), base _ (by decide)]; simp [dateCaps', Caps.get, str]
    · rw [sk _ (by decide) (by decide), base _ (by decide)]; simp [dateCaps', Caps.get, str]
    · rw [sk _ (by decide) (by decide), base _ (by decide)]; simp [dateCaps', Caps.get, str]
    · rw [sk _ (by decide) (by decide), base _ (by decide)]; simp [dateCaps', Caps.get, str]
    · rw [sk _ (by decide) (by decide), base _ (by decide)]; simp [dateCaps', Caps.get, str]
    · rw [sk _ (by decide) (by decide)]
      rcases hcc with ⟨rfl, hc⟩ | rfl
      · rw [hc]; simp [dateCaps', Caps.get, str]
      · exact get_cons_eq
    · rw [get_keep _ _ _ (by rw [base _ (by decide)]; simp [dateCaps', Caps.get, str])]; exact hf.description
    · rw [get_keep _ _ _ (by rw [base _ (by decide)]; simp [dateCaps', Caps.get, str])]; exact hf.note
  have nilFacts : d = [] → notes = [] → DescFacts [] d notes := by
    rintro rfl rfl
    exact ⟨by simp, rfl, rfl⟩
  cases h with
  | @plain t n g d e notes ht hg hd hc he =>
    obtain ⟨y, m, dd, hrun, hdate⟩ := writtenDate_run ht
    obtain ⟨extra, hx, hf⟩ := desc_gap hg hd he
    have r : RunsTo transactionRe (t ++ ([] ++ (g ++ (d ++ e)))) [] [] (extra ++ ([] ++ dateCaps' t y m dd)) :=
      RunsTo.seq (hrun _ (by rw [List.append_nil]; exact hg.endsWord)) (RunsTo.seq (RunsTo.optNone (by rw [List.append_nil]; exact noCode_gap hg hd he hc)) (hx _))
    have hm := r.matches
    rw [List.append_nil, List.nil_append] at hm
    exact ⟨_, hm, facts extra [] t y m dd hf (.inl ⟨rfl, rfl⟩) hdate⟩
  | @coded t n g1 code g d e notes ht hg1 hne hw hg hd he =>
    obtain ⟨y, m, dd, hrun, hdate⟩ := writtenDate_run ht
    obtain ⟨extra, hx, hf⟩ := desc_gap hg hd he
    have r : RunsTo transactionRe (t ++ ((g1 ++ '(' :: (code ++ [')'])) ++ (g ++ (d ++ e)))) [] [] (extra ++ ([(str "code", code)] ++ dateCaps' t y m dd)) :=
      RunsTo.seq (hrun _ (by rw [List.append_nil, List.append_assoc]; exact hg1.endsWord)) (RunsTo.seq (code_gap hg1 hne hw _) (hx _))
    have hm := r.matches
    have el : (t ++ ((g1 ++ '(' :: (code ++ [')'])) ++ (g ++ (d ++ e)))) ++ [] = t ++ (g1 ++ '(' :: (code ++ ')' :: (g ++ (d ++ e)))) := by simp
    rw [el] at hm
    exact ⟨_, hm, facts extra _ t y m dd hf (.inr rfl) hdate⟩
  | @bare t n room ht hr =>
    obtain ⟨y, m, dd, hrun, hdate⟩ := writtenDate_run ht
    have r : RunsTo transactionRe (t ++ ([] ++ [])) room [] ([] ++ ([] ++ dateCaps' t y m dd)) :=
      RunsTo.seq (hrun _ hr.endsWord) (RunsTo.seq (RunsTo.optNone (noCode_room hr)) (noDesc_room hr _))
    have hm := r.matches
    have el : (t ++ ([] ++ [])) ++ room = t ++ room := by simp
    rw [el] at hm
    exact ⟨_, hm, facts [] [] t y m dd (nilFacts rfl rfl) (.inl ⟨rfl, rfl⟩) hdate⟩
  | @bareCode t n g1 code room ht hg1 hne hw hr =>
    obtain ⟨y, m, dd, hrun, hdate⟩ := writtenDate_run ht
    have r : RunsTo transactionRe (t ++ ((g1 ++ '(' :: (code ++ [')'])) ++ [])) room [] ([] ++ ([(str "code", code)] ++ dateCaps' t y m dd)) :=
      RunsTo.seq (hrun _ (by rw [List.append_nil, List.append_assoc]; exact hg1.endsWord)) (RunsTo.seq (code_gap hg1 hne hw _) (noDesc_room hr _))
    have hm := r.matches
    have el : (t ++ ((g1 ++ '(' :: (code ++ [')'])) ++ [])) ++ room = t ++ (g1 ++ '(' :: (code ++ ')' :: room)) := by simp
    rw [el] at hm
    exact ⟨_, hm, facts [] _ t y m dd (nilFacts rfl rfl) (.inr rfl) hdate⟩

theorem txnHead_digit {line code d : Str} {n : Int} {notes : List Str} (h : TxnHead line n code d notes) : ∃ x u, line = x :: u ∧ isDigit x = true := by
  cases h with
  | plain ht => obtain ⟨x, u, e, hx⟩ := writtenDate_head ht; exact ⟨x, _, by rw [e]; rfl, hx⟩
  | coded ht => obtain ⟨x, u, e, hx⟩ := writtenDate_head ht; exact ⟨x, _, by rw [e]; rfl, hx⟩
  | bare ht => obtain ⟨x, u, e, hx⟩ := writtenDate_head ht; exact ⟨x, _, by rw [e]; rfl, hx⟩
  | bareCode ht => obtain ⟨x, u, e, hx⟩ := writtenDate_head ht; exact ⟨x, _, by rw [e]; rfl, hx⟩

/-- **C162 (part)** A transaction in any layout: date, code, description and note on the first line, postings and notes on indented lines
below. It is read as the transaction with these: a note on a line of its own belongs to the posting above it, and before the
first posting to the transaction. The lines that follow must not look like a posting. -/
theorem C162_transaction_partial (env : PEnv) (line code d : Str) (n : Int) (notes : List Str) (h : TxnHead line n code d notes)
    (lines : List Str) (is : List BodyItem) (hb : List.Forall₂ (BodyLine env.coms) lines is) (hp : postsOf is ≠ [] ∨ is = [])
    (rest : List Str) (hr : TxnEnds rest) :
    next env (line :: (lines ++ rest)) = .ok (some (.transaction ⟨n, code, d, notes ++ leadNotes is, postsOf is⟩, false), rest) := by
  obtain ⟨x, u, ex, hx⟩ := txnHead_digit h
  obtain ⟨c, hm, hdate, hcode, hdesc, hnote⟩ := txnHead_matches h
  have hsp : isSpaceU x = false := by
    have : ∀ y, isSpaceU y = true → isDigit y = true → False := by
      intro y h1 h2
      unfold isSpaceU at h1
      unfold isDigit at h2
      simp only [Bool.or_eq_true, decide_eq_true_iff, Bool.and_eq_true] at h1 h2
      rcases h1 with h1 | h1
      · simp only [List.mem_cons, List.not_mem_nil, or_false] at h1
        rcases h1 with h | h | h | h | h | h | h | h | h | h | h | h | h | h <;> (rw [h] at h2; revert h2; decide)
      · omega
    rcases h0 : isSpaceU x with _ | _
    · rfl
    · exact (this x h0 hx).elim
  have hnot : ∀ y, isDigit y = false → x ≠ y := by rintro y h rfl; rw [h] at hx; cases hx
  unfold next
  rw [if_neg (by rw [ex, isBlank_cons hsp]; decide), if_neg ?_]
  · unfold parseItem
    have sw : ∀ (p : Str) (a : Char) (q : Str), p = a :: q → isDigit a = false → ¬ startsWith p line = true := by
      rintro p a q rfl ha h
      unfold startsWith at h
      rw [ex] at h
      simp only [List.length_cons, List.take_succ_cons, decide_eq_true_iff, List.cons.injEq] at h
      exact hnot a ha h.1
    rw [if_neg (sw (str "include") 'i' (str "nclude") rfl (by decide)), if_neg (sw (str "account") 'a' (str "ccount") rfl (by decide)), if_neg (sw (str "commodity ") 'c' (str "ommodity ") rfl (by decide)),
      if_neg (sw (str "test ") 't' (str "est ") rfl (by decide)), if_neg (sw (str "P ") 'P' (str " ") rfl (by decide)), if_pos (by rw [ex]; exact hx)]
    unfold parseTransaction
    rw [hm]
    have hb := body_before hb hr notes [] (by rcases hp with h | rfl; exact .inl h; exact .inr ⟨rfl, rfl⟩)
    simp only [hdate, Except.bind, hnote, hb, hcode, hdesc]
    simp
  · rw [ex]
    simp only [isComment, decide_eq_true_iff, List.mem_cons, List.not_mem_nil, or_false]
    rintro (h | h | h | h | h)
    · exact hnot _ (by decide) h
    · exact hnot _ (by decide) h
    · exact hnot _ (by decide) h
    · exact hnot _ (by decide) h
    · exact hnot _ (by decide) h

/-- The transaction ends where a line starts at the margin. -/
def C162_Statement : Prop := ∀ (env : PEnv) (line code d : Str) (n : Int) (notes : List Str), TxnHead line n code d notes →
  ∀ (lines : List Str) (is : List BodyItem), List.Forall₂ (BodyLine env.coms) lines is → postsOf is ≠ [] → ∀ rest : List Str, NotBody rest →
    next env (line :: (lines ++ rest)) = .ok (some (.transaction ⟨n, code, d, notes ++ leadNotes is, postsOf is⟩, false), rest)

/-! ### A transaction to check the hypotheses with -/

def synCad : Com := ⟨0, str "CAD", 2⟩
def synEnv : PEnv := ⟨⟨2020, 1, 1⟩, fun id => if id = str "CAD" then some synCad else none, str "CAD"⟩

theorem syn_date : WrittenDate (str "2020/1/02") 737425 := by
  refine ⟨str "2020", str "1", str "02", rfl, by unfold Digits; decide, rfl, by unfold Digits; decide, .inl rfl, by unfold Digits; decide, .inr rfl, ?_⟩
  decide +kernel

theorem syn_amount (l : Lit) (sp : Str) (i : Int) (h : l.WF) (hf : l.fits) (hsp : Gap sp) (hs : l.scale ≤ 2) (hv : i * 10 ^ l.scale = l.num * 10 ^ 2) :
    WrittenAmount synEnv.coms (l.text ++ (sp ++ str "CAD")) ⟨i, synCad⟩ :=
  ⟨l, sp, str "CAD", rfl, h, hf, hsp, ⟨'C', str "AD", rfl, by decide, by decide⟩, rfl, by show 2 ≤ 50; decide, hs, hv⟩

/-- Day, description and postings of a transaction laid out with tabs, notes and a balance. -/
theorem syn_read : next synEnv [str "2020/1/02 \t(42)\tCorner  shop \t;\t paid late", str "\t; first", str "\tExpenses:Food \t 12.5 \tCAD ;", str "  ;  second", str " Assets",
      str "    Assets:Cash -1 CAD\t=  0.25 CAD\t"] =
    .ok (some (.transaction ⟨737425, str "42", str "Corner  shop", [str "paid late", str "first"],
      [⟨str "Expenses:Food", some ⟨1250, synCad⟩, none, [str " second"]⟩, ⟨str "Assets", none, none, []⟩,
        ⟨str "Assets:Cash", some ⟨-100, synCad⟩, some ⟨25, synCad⟩, []⟩]⟩, false), []) := by
  have acct : ∀ a : Str, (∃ x t, a = x :: t ∧ isAlpha x = true ∧ ∀ y ∈ t, isNameChar y = true) → Segment a := fun a h => h
  have f1 : AccountName (str "Expenses:Food") := .cons (s := str "Expenses") (t := str "Food") (acct _ ⟨'E', str "xpenses", rfl, by decide, by decide⟩)
    (.one (acct _ ⟨'F', str "ood", rfl, by decide, by decide⟩))
  have f2 : AccountName (str "Assets") := .one (acct _ ⟨'A', str "ssets", rfl, by decide, by decide⟩)
  have f3 : AccountName (str "Assets:Cash") := .cons (s := str "Assets") (t := str "Cash") (acct _ ⟨'A', str "ssets", rfl, by decide, by decide⟩)
    (.one (acct _ ⟨'C', str "ash", rfl, by decide, by decide⟩))
  have hh : TxnHead (str "2020/1/02 \t(42)\tCorner  shop \t;\t paid late") 737425 (str "42") (str "Corner  shop") [str "paid late"] :=
    TxnHead.coded (t := str "2020/1/02") (g1 := str " \t") (code := str "42") (g := str "\t") (d := str "Corner  shop") (e := str " \t;\t paid late") syn_date
      ⟨by decide, by unfold Room; decide⟩ (by decide) (by decide) ⟨by decide, by unfold Room; decide⟩
      ⟨by decide, by decide, ⟨'C', str "orner  shop", rfl, by decide⟩, by decide⟩
      (LineEnd.note (room := str " \t") (gap := str "\t ") (s := str "paid late") (by unfold Room; decide) (by unfold Room; decide) (by decide) ⟨'p', _, rfl, by decide, by decide⟩)
  have b1 : BodyLine synEnv.coms (str "\t; first") (.note (str "first")) := BodyLine.note (ind := str "\t") ⟨by decide, by unfold Room; decide⟩ (by decide) (by decide)
  have b2 : BodyLine synEnv.coms (str "\tExpenses:Food \t 12.5 \tCAD ;") (.posting (str "Expenses:Food") (some ⟨1250, synCad⟩) none []) :=
    BodyLine.posting (ind := str "\t") (acct := str "Expenses:Food") (a := str " \t 12.5 \tCAD") (e := str " ;") ⟨by decide, by unfold Room; decide⟩ f1
      (Amounts.quantity (g := str " \t ") (t := str "12.5 \tCAD") ⟨by decide, by unfold Room; decide⟩
        (syn_amount ⟨false, str "12", str "5"⟩ (str " \t") 1250 ⟨by decide, by decide, by decide⟩ ⟨by decide +kernel, by decide +kernel⟩ ⟨by decide, by unfold Room; decide⟩ (by decide) (by decide +kernel)))
      (LineEnd.empty (room := str " ") (gap := []) (by unfold Room; decide) (by unfold Room; decide))
  have b3 : BodyLine synEnv.coms (str "  ;  second") (.note (str " second")) := BodyLine.note (ind := str "  ") ⟨by decide, by unfold Room; decide⟩ (by decide) (by decide)
  have b4 : BodyLine synEnv.coms (str " Assets") (.posting (str "Assets") none none []) :=
    BodyLine.posting (ind := str " ") (acct := str "Assets") (a := []) (e := []) ⟨by decide, by unfold Room; decide⟩ f2 Amounts.none (LineEnd.bare (by unfold Room; decide))
  have b5 : BodyLine synEnv.coms (str "    Assets:Cash -1 CAD\t=  0.25 CAD\t") (.posting (str "Assets:Cash") (some ⟨-100, synCad⟩) (some ⟨25, synCad⟩) []) :=
    BodyLine.posting (ind := str "    ") (acct := str "Assets:Cash") (a := str " -1 CAD\t=  0.25 CAD") (e := str "\t") ⟨by decide, by unfold Room; decide⟩ f3
      (Amounts.balance (g := str " ") (t := str "-1 CAD") (g1 := str "\t") (g2 := str "  ") (u := str "0.25 CAD") ⟨by decide, by unfold Room; decide⟩
        (syn_amount ⟨true, str "1", []⟩ (str " ") (-100) ⟨by decide, by decide, by decide⟩ ⟨by decide +kernel, by decide +kernel⟩ ⟨by decide, by unfold Room; decide⟩ (by decide) (by decide +kernel))
        ⟨by decide, by unfold Room; decide⟩ ⟨by decide, by unfold Room; decide⟩
        (syn_amount ⟨false, str "0", str "25"⟩ (str " ") 25 ⟨by decide, by decide, by decide⟩ ⟨by decide +kernel, by decide +kernel⟩ ⟨by decide, by unfold Room; decide⟩ (by decide) (by decide +kernel)))
      (LineEnd.bare (by unfold Room; decide))
  exact C162_transaction_partial synEnv _ _ _ _ _ hh _ _ (.cons b1 (.cons b2 (.cons b3 (.cons b4 (.cons b5 .nil))))) (.inl (by simp [postsOf])) [] (by intro l hl; cases hl)

/-- A price right below a transaction is taken for one of its postings: here the line `P 2020/1/03 USD 2 CAD` becomes a posting of
2 CAD to an account `USD`. -/
theorem C162_margin_violated : ¬ C162_Statement := by
  intro h
  have a : Segment (str "A") := ⟨'A', [], rfl, by decide, by decide⟩
  have hh : TxnHead (str "2020/1/02") 737425 [] [] [] := TxnHead.bare (t := str "2020/1/02") (room := []) syn_date (by unfold Room; decide)
  have b : BodyLine synEnv.coms (str " A") (.posting (str "A") none none []) :=
    BodyLine.posting (ind := str " ") (acct := str "A") (a := []) (e := []) ⟨by decide, by unfold Room; decide⟩ (.one a) Amounts.none (LineEnd.bare (by unfold Room; decide))
  have h1 := h synEnv _ _ _ _ _ hh _ _ (.cons b .nil) (by simp [postsOf]) [str "P 2020/1/03 USD 2 CAD"] (by
    intro l hl
    simp only [List.head?_cons, Option.mem_def, Option.some.injEq] at hl
    subst hl
    exact .inr ⟨'P', str " 2020/1/03 USD 2 CAD", rfl, by decide⟩)
  have hu : Segment (str "USD") := ⟨'U', str "SD", rfl, by decide, by decide⟩
  have swallowed : (next synEnv [str "2020/1/02", str " A", str "P 2020/1/03 USD 2 CAD"]).toOption =
      some (some (.transaction ⟨737425, [], [], [], [⟨str "A", none, none, []⟩, ⟨str "USD", some ⟨200, synCad⟩, none, []⟩]⟩, false), []) := by decide +kernel
  have h1 : next synEnv [str "2020/1/02", str " A", str "P 2020/1/03 USD 2 CAD"] =
      .ok (some (.transaction ⟨737425, [], [], [], [⟨str "A", none, none, []⟩]⟩, false), [str "P 2020/1/03 USD 2 CAD"]) := h1
  rw [h1] at swallowed
  simp [Except.toOption] at swallowed

/-- A semicolon alone on a line of a transaction is an empty note: it changes nothing. -/
def C162_Empty_Statement : Prop := ∀ (env : PEnv) (line code d : Str) (n : Int) (notes : List Str), TxnHead line n code d notes →
  ∀ (lines : List Str) (is : List BodyItem), List.Forall₂ (BodyLine env.coms) lines is → postsOf is ≠ [] → ∀ ind : Str, Gap ind →
    next env (line :: (lines ++ [ind ++ [';']])) = .ok (some (.transaction ⟨n, code, d, notes ++ leadNotes is, postsOf is⟩, false), [])

/-- It becomes a posting to an account without a name (which then ends the program: there is none). -/
theorem C162_empty_note_violated : ¬ C162_Empty_Statement := by
  intro h
  have hh : TxnHead (str "2020/1/02") 737425 [] [] [] := TxnHead.bare (t := str "2020/1/02") (room := []) syn_date (by unfold Room; decide)
  have b : BodyLine synEnv.coms (str " A") (.posting (str "A") none none []) :=
    BodyLine.posting (ind := str " ") (acct := str "A") (a := []) (e := []) ⟨by decide, by unfold Room; decide⟩ (.one ⟨'A', [], rfl, by decide, by decide⟩) Amounts.none
      (LineEnd.bare (by unfold Room; decide))
  have h1 := h synEnv _ _ _ _ _ hh _ _ (.cons b .nil) (by simp [postsOf]) (str " ") ⟨by decide, by unfold Room; decide⟩
  have swallowed : (next synEnv [str "2020/1/02", str " A", str " ;"]).toOption =
      some (some (.transaction ⟨737425, [], [], [], [⟨str "A", none, none, []⟩, ⟨[], none, none, []⟩]⟩, false), []) := by decide +kernel
  have h1 : next synEnv [str "2020/1/02", str " A", str " ;"] = .ok (some (.transaction ⟨737425, [], [], [], [⟨str "A", none, none, []⟩]⟩, false), []) := h1
  rw [h1] at swallowed
  simp [Except.toOption] at swallowed

/-- A note on the first line is a note, whether or not there is a description. -/
def C162_Note_Statement : Prop := ∀ (env : PEnv) (t : Str) (n : Int) (e : Str) (notes : List Str), WrittenDate t n → LineEnd e notes →
  next env [t ++ e] = .ok (some (.transaction ⟨n, [], [], notes, []⟩, false), [])

/-- Behind the date, with a gap, it becomes the description. -/
theorem C162_head_note_violated : ¬ C162_Note_Statement := by
  intro h
  have h1 := h synEnv _ _ (str " ; late") [str "late"] syn_date
    (LineEnd.note (room := str " ") (gap := str " ") (s := str "late") (by unfold Room; decide) (by unfold Room; decide) (by decide) ⟨'l', _, rfl, by decide, by decide⟩)
  have swallowed : (next synEnv [str "2020/1/02 ; late"]).toOption = some (some (.transaction ⟨737425, [], str "; late", [], []⟩, false), []) := by decide +kernel
  have h1 : next synEnv [str "2020/1/02 ; late"] = .ok (some (.transaction ⟨737425, [], [], [str "late"], []⟩, false), []) := h1
  rw [h1] at swallowed
  revert swallowed
  decide

/-! ## C163: whole files -/

/-- The lines of a test, none of which says `end test`. -/
def TestBody (lines : List Str) : Prop := ∀ l ∈ lines, trimSpace l ≠ str "end test"

theorem testLoop_body {lines : List Str} (h : TestBody lines) {stop : Str} (hs : trimSpace stop = str "end test") (rest : List Str) (acc : Str) :
    testLoop acc (lines ++ stop :: rest) = (acc ++ (lines.map (fun l => l ++ ['\n'])).flatten, rest) := by
  induction lines generalizing acc with
  | nil => rw [List.nil_append, testLoop, if_pos hs]; simp
  | cons l lines ih =>
    rw [List.cons_append, testLoop, if_neg (h l (by simp)), ih (fun x hx => h x (by simp [hx]))]
    simp

/-- What a ledger's lines, in any layout, make of the state of loading: `inc p` says what including `p` does. -/
inductive Grammar (today : Today) (inc : Str → LoadState → LoadState → Prop) : LoadState → List Str → LoadState → Prop
  | done {st} : Grammar today inc st [] st
  /-- blank lines -/
  | blank {st l ls st'} : l.all isSpaceU = true → Grammar today inc st ls st' → Grammar today inc st (l :: ls) st'
  /-- comments -/
  | comment {st x t ls st'} : x ∈ [';', '#', '%', '|', '*'] → Grammar today inc st ls st' → Grammar today inc st ((x :: t) :: ls) st'
  | commodity {st gap id room lines ss rest st'} : Gap (' ' :: gap) → CommodityName id → Room room → List.Forall₂ ComLine lines ss → NotBody rest →
      Grammar today inc ⟨⟨st.coms.length, id, (declared id ss).decimals⟩ :: st.coms, if .default ∈ ss then id else st.dflt, st.items ++ [.commodity (declared id ss)]⟩ rest st' →
      Grammar today inc st ((str "commodity " ++ (gap ++ id) ++ room) :: (lines ++ rest)) st'
  | account {st gap name room lines ss rest st'} : Gap gap → AccountName name → Room room → List.Forall₂ AcctLine lines ss → NotBody rest →
      Grammar today inc { st with items := st.items ++ [.account (declaredAcct st.dflt name ss)] } rest st' →
      Grammar today inc st ((str "account" ++ (gap ++ name) ++ room) :: (lines ++ rest)) st'
  | price {st t n g1 com g2 amt a room rest st'} : WrittenDate t n → Gap g1 → CommodityName com → Gap g2 → WrittenAmount st.lookup amt a → Room room →
      Grammar today inc { st with items := st.items ++ [.price ⟨n, com, a.com.id, a⟩] } rest st' →
      Grammar today inc st ((str "P " ++ (t ++ (g1 ++ (com ++ (g2 ++ amt)))) ++ room) :: rest) st'
  | transaction {st line n code d notes lines is rest st'} : TxnHead line n code d notes → List.Forall₂ (BodyLine st.lookup) lines is →
      (postsOf is ≠ [] ∨ is = []) → TxnEnds rest →
      Grammar today inc { st with items := st.items ++ [.transaction ⟨n, code, d, notes ++ leadNotes is, postsOf is⟩] } rest st' →
      Grammar today inc st (line :: (lines ++ rest)) st'
  | test {st gap cmd lines stop rest st'} : Gap (' ' :: gap) → noNl cmd → (∃ x t, cmd = x :: t ∧ isWs x = false) → TestBody lines → trimSpace stop = str "end test" →
      Grammar today inc { st with items := st.items ++ [.test cmd (lines.map (fun l => l ++ ['\n'])).flatten] } rest st' →
      Grammar today inc st ((str "test " ++ (gap ++ cmd)) :: (lines ++ stop :: rest)) st'
  | include_ {st gap path st1 rest st'} : Gap gap → noNl path → (∃ x t, path = x :: t ∧ isWs x = false) → inc path st st1 →
      Grammar today inc st1 rest st' → Grammar today inc st ((str "include" ++ (gap ++ path)) :: rest) st'

/-- One file after the other. -/
inductive Through (R : LoadState → Str → LoadState → Prop) : LoadState → List Str → LoadState → Prop
  | done {st} : Through R st [] st
  | next {st f fs st1 st2} : R st f st1 → Through R st1 fs st2 → Through R st (f :: fs) st2

/-- What a file of such lines, and the files it includes (none of them itself), make of the state of loading. -/
def GrammarFile (d : Disk) (today : Today) : Nat → LoadState → Str → LoadState → Prop
  | 0, _, _, _ => False
  | limit + 1, st, fn, st' => ∃ text, d.read fn = some text ∧
      Grammar today (fun path st st' => ∃ fs, includeFiles d fn path = some fs ∧ fn ∉ fs ∧ Through (GrammarFile d today limit) st fs st') st (scanLines text) st'

theorem next_test (env : PEnv) {gap cmd stop : Str} {lines rest : List Str} (hg : Gap (' ' :: gap)) (hn : noNl cmd) (hc : ∃ x t, cmd = x :: t ∧ isWs x = false)
    (hb : TestBody lines) (hs : trimSpace stop = str "end test") :
    next env ((str "test " ++ (gap ++ cmd)) :: (lines ++ stop :: rest)) = .ok (some (.test cmd (lines.map (fun l => l ++ ['\n'])).flatten, false), rest) := by
  obtain ⟨x, t, ex, hx⟩ := hc
  have r : RunsTo testRe (str "test" ++ ((' ' :: gap) ++ cmd)) [] [] [(str "1", cmd)] :=
    RunsTo.seq (RunsTo.lit _ _ []) (RunsTo.seq (RunsTo.plus hg.1 hg.2.ws (by rw [ex]; exact NoHead.cons hx) [])
      (RunsTo.grp (RunsTo.plus (by rw [ex]; simp) (by intro y hy; simpa using hn y hy) NoHead.nil [])))
  have hm := r.matches
  have e : str "test" ++ ((' ' :: gap) ++ cmd) ++ [] = str "test " ++ (gap ++ cmd) := by simp [str]
  rw [e] at hm
  have hline : str "test " ++ (gap ++ cmd) = 't' :: (str "est " ++ (gap ++ cmd)) := by simp [str]
  unfold next
  rw [if_neg (by rw [hline, isBlank_cons (by decide)]; decide), if_neg (by rw [hline]; simp [isComment])]
  unfold parseItem
  rw [if_neg (by simp [startsWith, str]), if_neg (by simp [startsWith, str]), if_neg (by simp [startsWith, str]), if_pos (startsWith_append _ _)]
  unfold parseTest
  rw [hm]
  simp only [get_cons_eq, testLoop_body hb hs, Except.bind, List.nil_append]

theorem next_include (env : PEnv) {gap path : Str} {rest : List Str} (hg : Gap gap) (hn : noNl path) (hp : ∃ x t, path = x :: t ∧ isWs x = false) :
    next env ((str "include" ++ (gap ++ path)) :: rest) = .ok (some (.include_ path, false), rest) := by
  obtain ⟨x, t, ex, hx⟩ := hp
  have r : RunsTo includeRe (str "include" ++ (gap ++ path)) [] [] [(str "1", path)] :=
    RunsTo.seq (RunsTo.lit _ _ []) (RunsTo.seq (RunsTo.plus hg.1 hg.2.ws (by rw [ex]; exact NoHead.cons hx) [])
      (RunsTo.grp (RunsTo.plus (by rw [ex]; simp) (by intro y hy; simpa using hn y hy) NoHead.nil [])))
  have hm := r.matches
  rw [List.append_nil] at hm
  have hline : str "include" ++ (gap ++ path) = 'i' :: (str "nclude" ++ (gap ++ path)) := by simp [str]
  unfold next
  rw [if_neg (by rw [hline, isBlank_cons (by decide)]; decide), if_neg (by rw [hline]; simp [isComment])]
  unfold parseItem
  rw [if_pos (startsWith_append _ _)]
  unfold parseInclude
  rw [hm]
  simp only [get_cons_eq, Except.bind]

theorem AccountName.ne {s : Str} (h : AccountName s) : s ≠ [] := by
  obtain ⟨x, t, e, _⟩ := h.head
  rw [e]; simp

theorem grammar_reads {d : Disk} {today : Today} {load : LoadState → Str → Except Fault LoadState} {fn : Str} {inc : Str → LoadState → LoadState → Prop}
    (hinc : ∀ path st st', inc path st st' → ∃ fs, includeFiles d fn path = some fs ∧ loadFiles load fn st fs = .ok st')
    {st st' : LoadState} {lines : List Str} (h : Grammar today inc st lines st') : ∀ n, lines.length < n → loadReader d today load fn n st lines = .ok st' := by
  have skip : ∀ (n : Nat) (st : LoadState) (l : Str) (ls : List Str), (isBlank l = true ∨ isComment l = true) →
      loadReader d today load fn (n + 1) st (l :: ls) = loadReader d today load fn (n + 1) st ls := by
    intro n st l ls h
    have : next ⟨today, st.lookup, st.dflt⟩ (l :: ls) = next ⟨today, st.lookup, st.dflt⟩ ls := by
      conv_lhs => unfold next
      by_cases h0 : isBlank l = true
      · rw [if_pos h0]
      · rw [if_neg h0, if_pos (h.resolve_left h0)]
    rw [loadReader, loadReader, this]
  have item : ∀ (n : Nat) (st st1 : LoadState) (i : ItemD) (ls rest : List Str), next ⟨today, st.lookup, st.dflt⟩ ls = .ok (some i, rest) →
      loadItem d load fn st i = .ok st1 → loadReader d today load fn (n + 1) st ls = loadReader d today load fn n st1 rest := by
    intro n st st1 i ls rest h1 h2
    conv_lhs => unfold loadReader
    rw [h1]
    simp only [h2, Except.bind]
  induction h with
  | @done st =>
    intro n hn
    cases n with
    | zero => omega
    | succ n => rw [loadReader]; rfl
  | @blank st l ls st' hl _ ih =>
    intro n hn
    simp only [List.length_cons] at hn
    cases n with
    | zero => omega
    | succ n => rw [skip n st l ls (.inl hl)]; exact ih _ (by omega)
  | @comment st x t ls st' hx _ ih =>
    intro n hn
    simp only [List.length_cons] at hn
    cases n with
    | zero => omega
    | succ n => rw [skip n st _ ls (.inr (by simpa [isComment] using hx))]; exact ih _ (by omega)
  | @commodity st gap id room lines ss rest st' hg hid hr hl hnb _ ih =>
    intro n hn
    simp only [List.length_cons, List.length_append] at hn
    cases n with
    | zero => omega
    | succ n =>
      rw [item n st _ _ _ rest (C159_commodity _ gap id room hg hid hr lines ss hl rest hnb) rfl]
      simp only [decide_eq_true_eq]
      exact ih _ (by omega)
  | @account st gap name room lines ss rest st' hg hn0 hr hl hnb _ ih =>
    intro n hn
    simp only [List.length_cons, List.length_append] at hn
    cases n with
    | zero => omega
    | succ n =>
      rw [item n st { st with items := st.items ++ [.account (declaredAcct st.dflt name ss)] } _ _ rest (C160_account_partial _ gap name room hg hn0 hr lines ss hl rest hnb)
        (by unfold loadItem storeItem; exact if_neg hn0.ne)]
      exact ih _ (by omega)
  | @price st t m g1 com g2 amt a room rest st' ht h1 hc h2 ha hr _ ih =>
    intro n hn
    simp only [List.length_cons] at hn
    cases n with
    | zero => omega
    | succ n =>
      have hid : ∀ id, st.lookup id = some a.com → id = a.com.id := by
        intro id hk
        have := List.find?_some hk
        simpa using (of_decide_eq_true this).symm
      rw [item n st _ _ _ rest (C161_price ⟨today, st.lookup, st.dflt⟩ t m ht g1 g2 com amt room h1 h2 hc a ha hid hr rest) rfl]
      exact ih _ (by omega)
  | @transaction st line m code dd notes lines is rest st' hh hb hp hr _ ih =>
    intro n hn
    simp only [List.length_cons, List.length_append] at hn
    cases n with
    | zero => omega
    | succ n =>
      rw [item n st _ _ _ rest (C162_transaction_partial ⟨today, st.lookup, st.dflt⟩ line code dd m notes hh lines is hb hp rest hr) rfl]
      exact ih _ (by omega)
  | @test st gap cmd lines stop rest st' hg hn0 hc hb hs _ ih =>
    intro n hn
    simp only [List.length_cons, List.length_append] at hn
    cases n with
    | zero => omega
    | succ n =>
      rw [item n st _ _ _ rest (next_test _ hg hn0 hc hb hs) rfl]
      exact ih _ (by omega)
  | @include_ st gap path st1 rest st' hg hn0 hp hi _ ih =>
    intro n hn
    simp only [List.length_cons] at hn
    cases n with
    | zero => omega
    | succ n =>
      obtain ⟨fs, h1, h2⟩ := hinc _ _ _ hi
      rw [item n st st1 _ _ rest (next_include _ hg hn0 hp) (by simp only [loadItem, h1]; exact h2)]
      exact ih _ (by omega)

/-- **C163** A file of blank lines, comments, and declarations of commodities, accounts, prices, transactions, tests and includes, each in
any layout, is loaded as what these declare, in their order, the included files in the places of the includes. -/
theorem C163_file (d : Disk) (today : Today) (limit : Nat) (st st' : LoadState) (fn : Str) (h : GrammarFile d today limit st fn st') :
    loadFile d today limit st fn = .ok st' := by
  induction limit generalizing st st' fn with
  | zero => exact h.elim
  | succ limit ih =>
    obtain ⟨text, ht, hg⟩ := h
    rw [loadFile, ht]
    simp only
    refine grammar_reads ?_ hg _ (by omega)
    rintro path st st' ⟨fs, h1, h2, h3⟩
    refine ⟨fs, h1, ?_⟩
    clear h1 hg
    induction h3 with
    | done => rfl
    | @next st f fs st1 st2 hf _ ih2 =>
      rw [loadFiles, if_neg (by rintro rfl; exact h2 (by simp)), ih st st1 f hf]
      exact ih2 (fun h => h2 (by simp [h]))

/-! ### Two files to check the hypotheses with -/

def synDisk : Disk where
  read := fun f => if f = str "main.coin" then some (str "commodity \tCAD\n\tdefault \n  note Dollar\n  format  1.00\tCAD\n\n; comment\ninclude  more.coin\n")
    else if f = str "more.coin" then some (str "account\tAssets:Cash \n\tofx_acctid 12\n  note Wallet\n  closed 2020/1/02\nP 2020/1/02\tUSD  1.5 CAD\n2020/1/02 Shop;\n\tAssets:Cash  1 CAD\n")
    else none
  beside := fun _ p => p
  expand := id
  glob := fun p => some [p]
  stat := fun _ => true

def synState : LoadState :=
  ⟨[synCad], str "CAD", [.commodity ⟨str "CAD", str "Dollar", 2, false, []⟩, .account ⟨str "Assets:Cash", str "Wallet", str "CAD", some 737425, [], str "12", []⟩,
    .price ⟨737425, str "USD", str "CAD", ⟨150, synCad⟩⟩,
    .transaction ⟨737425, [], str "Shop", [], [⟨str "Assets:Cash", some ⟨100, synCad⟩, none, []⟩]⟩]⟩

theorem gap_of {s : Str} (h : s ≠ [] ∧ ∀ x ∈ s, x = ' ' ∨ x = '\t') : Gap s := h

example : loadFile synDisk ⟨2020, 1, 1⟩ 2 ⟨[], [], []⟩ (str "main.coin") = .ok synState := by
  refine C163_file synDisk _ 2 _ _ _ ⟨_, rfl, ?_⟩
  have cad : CommodityName (str "CAD") := ⟨'C', str "AD", rfl, by decide, by decide⟩
  have cash : AccountName (str "Assets:Cash") := .cons (s := str "Assets") (t := str "Cash") ⟨'A', str "ssets", rfl, by decide, by decide⟩
    (.one ⟨'C', str "ash", rfl, by decide, by decide⟩)
  have e1 : scanLines (str "commodity \tCAD\n\tdefault \n  note Dollar\n  format  1.00\tCAD\n\n; comment\ninclude  more.coin\n") =
      (str "commodity " ++ (str "\t" ++ str "CAD") ++ []) :: ([str "\tdefault ", str "  note Dollar", str "  format  1.00\tCAD"] ++
        [[], ';' :: str " comment", str "include" ++ (str "  " ++ str "more.coin")]) := by decide +kernel
  have e2 : scanLines (str "account\tAssets:Cash \n\tofx_acctid 12\n  note Wallet\n  closed 2020/1/02\nP 2020/1/02\tUSD  1.5 CAD\n2020/1/02 Shop;\n\tAssets:Cash  1 CAD\n") =
      (str "account" ++ (str "\t" ++ str "Assets:Cash") ++ str " ") :: ([str "\tofx_acctid 12", str "  note Wallet", str "  closed 2020/1/02"] ++
        [str "P " ++ (str "2020/1/02" ++ (str "\t" ++ (str "USD" ++ (str "  " ++ str "1.5 CAD")))) ++ [], str "2020/1/02 Shop;", str "\tAssets:Cash  1 CAD"]) := by decide +kernel
  rw [e1]
  refine Grammar.commodity (gap_of (by decide)) cad (by unfold Room; decide) (ss := [.default, .note (str "Dollar"), .format 2])
    (.cons (ComLine.default (ind := str "\t") (room := str " ") (gap_of (by decide)) (by unfold Room; decide))
      (.cons (ComLine.note (ind := str "  ") (gap := str " ") (s := str "Dollar") (gap_of (by decide)) (gap_of (by decide)) (by decide) ⟨'D', _, rfl, by decide⟩)
        (.cons (ComLine.format (ind := str "  ") (gap := str "  ") (l := ⟨false, str "1", str "00"⟩) (sp := str "\t") (com := str "CAD") (room := []) (gap_of (by decide))
          (gap_of (by decide)) ⟨by decide, by decide, by decide⟩ (gap_of (by decide)) cad (by unfold Room; decide)) .nil))) ?_ ?_
  · intro l hl
    cases hl
    exact .inl rfl
  refine Grammar.blank rfl (Grammar.comment (by decide) (Grammar.include_ (st1 := synState) (gap_of (by decide)) (by decide) ⟨'m', _, rfl, by decide⟩ ?_ Grammar.done))
  refine ⟨[str "more.coin"], rfl, by decide, Through.next (st1 := synState) ⟨_, rfl, ?_⟩ Through.done⟩
  rw [e2]
  have a1 : WrittenAmount (LoadState.lookup ⟨[synCad], str "CAD", [.commodity ⟨str "CAD", str "Dollar", 2, false, []⟩,
      .account ⟨str "Assets:Cash", str "Wallet", str "CAD", some 737425, [], str "12", []⟩]⟩) (str "1.5 CAD") ⟨150, synCad⟩ :=
    ⟨⟨false, str "1", str "5"⟩, str " ", str "CAD", rfl, ⟨by decide, by decide, by decide⟩, ⟨by decide +kernel, by decide +kernel⟩, gap_of (by decide), cad, by decide, by decide, by decide, by decide +kernel⟩
  have a2 : WrittenAmount (LoadState.lookup ⟨[synCad], str "CAD", [.commodity ⟨str "CAD", str "Dollar", 2, false, []⟩,
      .account ⟨str "Assets:Cash", str "Wallet", str "CAD", some 737425, [], str "12", []⟩, .price ⟨737425, str "USD", str "CAD", ⟨150, synCad⟩⟩]⟩) (str "1 CAD") ⟨100, synCad⟩ :=
    ⟨⟨false, str "1", []⟩, str " ", str "CAD", rfl, ⟨by decide, by decide, by decide⟩, ⟨by decide +kernel, by decide +kernel⟩, gap_of (by decide), cad, by decide, by decide, by decide, by decide +kernel⟩
  refine Grammar.account (gap_of (by decide)) cash (by unfold Room; decide) (ss := [.acctId (str "12"), .note (str "Wallet"), .closed 737425])
    (.cons (AcctLine.acctId (ind := str "\t") (gap := str " ") (s := str "12") (room := []) (gap_of (by decide)) (gap_of (by decide)) (by decide) (by decide) (by unfold Room; decide))
      (.cons (AcctLine.note (ind := str "  ") (gap := str " ") (s := str "Wallet") (gap_of (by decide)) (gap_of (by decide)) (by decide) ⟨'W', 'a', _, rfl, by decide⟩)
        (.cons (AcctLine.closed (ind := str "  ") (gap := str " ") (t := str "2020/1/02") (room := []) (gap_of (by decide)) (gap_of (by decide)) syn_date (by unfold Room; decide)) .nil))) ?_ ?_
  · intro l hl
    cases hl
    exact .inr ⟨'P', _, rfl, by decide⟩
  refine Grammar.price syn_date (gap_of (by decide)) ⟨'U', str "SD", rfl, by decide, by decide⟩ (gap_of (by decide)) a1 (by unfold Room; decide) ?_
  exact Grammar.transaction (lines := [str "\tAssets:Cash  1 CAD"]) (rest := [])
    (TxnHead.plain (t := str "2020/1/02") (g := str " ") (d := str "Shop") (e := str ";") syn_date (gap_of (by decide)) ⟨by decide, by decide, ⟨'S', _, rfl, by decide⟩, by decide⟩
      (by intro w u e; cases e) (LineEnd.empty (room := []) (gap := []) (by unfold Room; decide) (by unfold Room; decide)))
    (.cons (BodyLine.posting (ind := str "\t") (acct := str "Assets:Cash") (a := str "  " ++ str "1 CAD") (e := []) (gap_of (by decide)) cash (Amounts.quantity (gap_of (by decide)) a2)
      (LineEnd.bare (by unfold Room; decide))) .nil) (.inl (by simp [postsOf])) (by intro l hl; cases hl) Grammar.done

end Verif
