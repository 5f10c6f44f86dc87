import Verif.Props.Csv
import Verif.Props.ReadBack
import Verif.Props.Rules
/-
C100: the file csv.rules and the option -fields of csv2coin.
-/
namespace Verif

/-! ## C100: the rules file -/

/-! ### What the README describes -/

/-- A rule of a source mapping: a field index; an index, a template and an expression; a template; a template, the name of a value and
an expression. -/
inductive DocRule
  | whole (index : Nat)
  | extract (index : Nat) (template regex : Str)
  | derive (template : Str)
  | deriveIf (template name regex : Str)
  deriving DecidableEq, Repr

/-- A line of a source mapping with the blanks between its parts. -/
structure DocLine where
  indent : Str
  name : Str
  gap : Str
  rule : DocRule
  gap1 : Str
  gap2 : Str

/-- How the rule is written, templates in double quotes. -/
def DocRule.text (r : DocRule) (gap1 gap2 : Str) : Str :=
  match r with
  | .whole i => natStr i
  | .extract i t re => natStr i ++ (gap1 ++ ('"' :: (t ++ ('"' :: (gap2 ++ re)))))
  | .derive t => '"' :: (t ++ ['"'])
  | .deriveIf t n re => '"' :: (t ++ ('"' :: (gap1 ++ (n ++ (gap2 ++ re)))))

def DocLine.text (l : DocLine) : Str := l.indent ++ (l.name ++ (l.gap ++ l.rule.text l.gap1 l.gap2))

/-- What the rule means (C95 is about the value it gives). -/
def DocRule.field : DocRule → CField
  | .whole i => ⟨some i, [], [], none⟩
  | .extract i t re => ⟨some i, t, [], some re⟩
  | .derive t => ⟨none, t, [], none⟩
  | .deriveIf t n re => ⟨none, t, n, some re⟩

/-- A source: its name, the number of lines to skip, and its mapping. -/
structure DocSource where
  name : Str
  gap : Str
  skip : Nat
  mapping : List DocLine

def DocSource.header (s : DocSource) : Str := s.name ++ (s.gap ++ natStr s.skip)
def DocSource.lines (s : DocSource) : List Str := s.header :: s.mapping.map DocLine.text
def DocSource.meaning (s : DocSource) : Source := ⟨s.name, s.skip, s.mapping.map fun l => (l.name, l.rule.field)⟩

/-- Blanks: at least one, spaces or tabs. -/
def Blanks (g : Str) : Prop := g ≠ [] ∧ ∀ x ∈ g, x = ' ' ∨ x = '\t'
def AName (n : Str) : Prop := n ≠ [] ∧ ∀ x ∈ n, isWord x = true
/-- A text on one line that does not begin or end with white space. -/
def TightText (s : Str) : Prop :=
  s ≠ [] ∧ noNl s ∧ (∀ x t, s = x :: t → isSpaceU x = false) ∧ ∀ x t, s = t ++ [x] → isSpaceU x = false

/-- An expression that compiles, without double quotes. -/
def DocRegex (compiles : Str → Bool) (re : Str) : Prop := TightText re ∧ '"' ∉ re ∧ compiles re = true

def DocRule.Ok (compiles : Str → Bool) : DocRule → Prop
  | .whole i => i < 2 ^ 63
  | .extract i t re => i < 2 ^ 63 ∧ TightText t ∧ DocRegex compiles re
  | .derive t => t ≠ [] ∧ noNl t
  | .deriveIf t n re => t ≠ [] ∧ noNl t ∧ AName n ∧ DocRegex compiles re

structure DocLine.Ok (compiles : Str → Bool) (l : DocLine) : Prop where
  indent : Blanks l.indent
  name : AName l.name
  gap : Blanks l.gap
  gap1 : Blanks l.gap1
  gap2 : Blanks l.gap2
  rule : l.rule.Ok compiles

structure DocSource.Ok (compiles : Str → Bool) (s : DocSource) : Prop where
  name : AName s.name
  gap : Blanks s.gap
  skip : s.skip < 2 ^ 63
  mapping : ∀ l ∈ s.mapping, l.Ok compiles

/-! ### Greedy matching that backs up -/

theorem RunsTo.starBackup {p : Char → Bool} {R : Re} {n t y rest : Str} {c c' : Caps} (hp : ∀ x ∈ t, p x = true)
    (hR : RunsTo R y rest ((n, t) :: c) c') (hl : ∀ b1 b2, b1 ≠ [] → y ++ rest = b1 ++ b2 → NoMatch R b2) :
    RunsTo (.seq (.grp n (.star (.cls p))) R) (t ++ y) rest c c' := by
  intro k res hk
  rw [run_seq, run_grp, List.append_assoc]
  refine star_backup hp ?_ ?_
  · simp only [take_sub]
    exact hR k res hk
  · intro b1 b2 h1 e
    exact (hl b1 b2 h1 e).run _ _

theorem RunsTo.plusBackup {p : Char → Bool} {R : Re} {n t y rest : Str} {c c' : Caps} (hne : t ≠ []) (hp : ∀ x ∈ t, p x = true)
    (hR : RunsTo R y rest ((n, t) :: c) c') (hl : ∀ b1 b2, b1 ≠ [] → y ++ rest = b1 ++ b2 → NoMatch R b2) :
    RunsTo (.seq (.grp n (.plus (.cls p))) R) (t ++ y) rest c c' := by
  intro k res hk
  rw [run_seq, run_grp, List.append_assoc]
  obtain ⟨x, t, rfl⟩ := List.exists_cons_of_ne_nil hne
  unfold Re.plus
  rw [run_seq]
  simp only [List.cons_append, Re.run, hp x (by simp), if_true]
  refine star_backup (p := p) (fun z hz => hp z (by simp [hz])) ?_ ?_
  · have := take_sub (x :: t) (y ++ rest)
    simp only [List.cons_append] at this
    simp only [this]
    exact hR k res hk
  · intro b1 b2 h1 e
    exact (hl b1 b2 h1 e).run _ _

/-! ### Characters -/

theorem Blanks.ws {g : Str} (h : Blanks g) : ∀ x ∈ g, isWs x = true := by
  intro x hx
  rcases h.2 x hx with rfl | rfl <;> decide

theorem Blanks.noQuote {g : Str} (h : Blanks g) : '"' ∉ g := by
  intro hx
  rcases h.2 _ hx with h | h <;> exact absurd h (by decide)

theorem Blanks.noNl {g : Str} (h : Blanks g) : Verif.noNl g := by
  intro x hx
  rcases h.2 x hx with rfl | rfl <;> decide

theorem Blanks.cons {g : Str} (h : Blanks g) : ∃ x t, g = x :: t ∧ isWs x = true := by
  obtain ⟨x, t, rfl⟩ := List.exists_cons_of_ne_nil h.1
  exact ⟨x, t, rfl, h.ws x (by simp)⟩

theorem Blanks.head {g s : Str} (h : Blanks g) {p : Char → Bool} (h1 : p ' ' = false) (h2 : p '\t' = false) : NoHead p (g ++ s) := by
  obtain ⟨hne, hb⟩ := h
  obtain ⟨x, t, rfl⟩ := List.exists_cons_of_ne_nil hne
  rw [List.cons_append]
  refine NoHead.cons ?_
  rcases hb x (by simp) with rfl | rfl <;> assumption

theorem AName.head {n s : Str} (h : AName n) : NoHead isWs (n ++ s) := by
  obtain ⟨x, t, rfl, hx⟩ := word_head h.1 h.2
  exact NoHead.cons hx

theorem AName.noQuote {n : Str} (h : AName n) : '"' ∉ n := by
  intro hx
  exact absurd (h.2 _ hx) (by decide)

theorem ws_space {x : Char} (h : isSpaceU x = false) : isWs x = false := by
  by_contra hc
  simp only [Bool.not_eq_false] at hc
  unfold isWs at hc
  simp only [Bool.or_eq_true, decide_eq_true_eq] at hc
  rcases hc with (((rfl | rfl) | rfl) | rfl) | rfl <;> exact absurd h (by decide)

theorem TightText.head {s t : Str} (h : TightText s) : NoHead isWs (s ++ t) := by
  obtain ⟨hne, _, h1, _⟩ := h
  obtain ⟨x, u, rfl⟩ := List.exists_cons_of_ne_nil hne
  exact NoHead.cons (ws_space (h1 x u rfl))

theorem TightText.trim {s : Str} (h : TightText s) : trimSpace s = s := by
  obtain ⟨hne, _, h1, h2⟩ := h
  unfold trimSpace
  have e1 : s.dropWhile isSpaceU = s := by
    obtain ⟨x, u, rfl⟩ := List.exists_cons_of_ne_nil hne
    rw [List.dropWhile_cons, h1 x u rfl]
    rfl
  rw [e1]
  have hr : s.reverse ≠ [] := by simpa using hne
  obtain ⟨x, u, e⟩ := List.exists_cons_of_ne_nil hr
  have hs : s = u.reverse ++ [x] := by rw [← List.reverse_reverse s, e]; simp
  rw [e, List.dropWhile_cons, h2 x _ hs]
  simp [hs]

theorem TightText.clean {s : Str} (h : TightText s) : CleanLine s := by
  refine ⟨h.2.1, ?_⟩
  intro e
  obtain ⟨t, et⟩ := List.getLast?_eq_some_iff.mp e
  exact absurd (h.2.2.2 _ _ et) (by decide)

theorem natStr_digits (n : Nat) : ∀ x ∈ natStr n, isDigit x = true := List.all_eq_true.mp (natStr_allDigits n)

theorem natStr_head (n : Nat) (s : Str) : NoHead isWs (natStr n ++ s) := by
  obtain ⟨x, t, e, hx⟩ := word_head (natStr_ne_nil n) (fun x hx => digit_word (natStr_digits n x hx))
  rw [e]
  exact NoHead.cons hx

theorem any_of {s : Str} (h : noNl s) : ∀ x ∈ s, decide (x ≠ '\n') = true := by
  intro x hx
  simpa using h x hx

/-- After a quote nothing matches that needs another one. -/
theorem noQuote_suffix {R : Re} {y : Str} (h : '"' ∉ y) : ∀ b1 b2, b1 ≠ [] → ('"' :: y) ++ [] = b1 ++ b2 → NoMatch (.seq (.ch '"') R) b2 := by
  intro b1 b2 h1 e
  cases b1 with
  | nil => exact absurd rfl h1
  | cons z b1 =>
    simp only [List.append_nil, List.cons_append, List.cons.injEq] at e
    refine NoMatch.seqL (NoMatch.ch ?_)
    rintro x t rfl rfl
    exact h (by rw [e.2]; simp)

/-! ### Reading a line -/

theorem direct_whole (i : Nat) (c : Caps) : RunsTo directFieldRe (natStr i) [] c ((str "rowIdx", natStr i) :: c) := by
  have := RunsTo.seq (y := []) (RunsTo.grp (n := str "rowIdx") (RunsTo.plus (natStr_ne_nil i) (natStr_digits i) (rest := [] ++ []) (by intro y t e; cases e) c))
    (RunsTo.optNone (a := .cat [.plus .ws, .ch '"', .grp (str "out") (.plus .any), .ch '"', .plus .ws, .grp (str "rex") (.plus .any)])
      (rest := []) (c := (str "rowIdx", natStr i) :: c) (NoMatch.seqL (NoMatch.plus (by intro y t e; cases e))))
  rw [List.append_nil] at this
  exact this

theorem direct_extract (i : Nat) {g1 t g2 re : Str} (h1 : Blanks g1) (h2 : TightText t) (h3 : Blanks g2) (h4 : TightText re) (h5 : '"' ∉ re) (c : Caps) :
    RunsTo directFieldRe (natStr i ++ (g1 ++ ('"' :: (t ++ ('"' :: (g2 ++ re)))))) [] c
      ((str "rex", re) :: (str "out", t) :: (str "rowIdx", natStr i) :: c) := by
  refine RunsTo.seq (RunsTo.grp (RunsTo.plus (natStr_ne_nil i) (natStr_digits i) ?_ c)) (RunsTo.opt ?_)
  · rw [List.append_nil]
    exact h1.head (by decide) (by decide)
  · refine RunsTo.seq (RunsTo.plus h1.1 h1.ws ?_ _) ?_
    · exact NoHead.cons (by decide)
    refine RunsTo.seq (x := ['"']) (RunsTo.ch '"' _ _) ?_
    refine RunsTo.plusBackup h2.1 (any_of h2.2.1) ?_ (noQuote_suffix ?_)
    · refine RunsTo.seq (x := ['"']) (RunsTo.ch '"' _ _) (RunsTo.seq (RunsTo.plus h3.1 h3.ws ?_ _) (RunsTo.grp (RunsTo.plus h4.1 (any_of h4.2.1) ?_ _)))
      · exact h4.head
      · intro y t e; cases e
    · rw [List.mem_append]
      exact fun h => h.elim h3.noQuote h5

theorem direct_none (s : Str) : NoMatch directFieldRe ('"' :: s) :=
  NoMatch.seqL (NoMatch.grp (NoMatch.plus (by intro x t e; rw [List.cons.injEq] at e; rw [← e.1]; decide)))

theorem derived_plain {t : Str} (h : noNl t) (c : Caps) : RunsTo derivedFieldRe ('"' :: (t ++ ['"'])) [] c ((str "code", t) :: c) := by
  refine RunsTo.seq (x := ['"']) (RunsTo.ch '"' _ _) (RunsTo.starBackup (any_of h) ?_ (noQuote_suffix (by simp)))
  refine RunsTo.seq (x := ['"']) (y := []) (RunsTo.ch '"' _ _) (RunsTo.optNone ?_)
  exact NoMatch.seqL (NoMatch.plus (by intro y t e; cases e))

theorem derived_cond {g1 t g2 n re : Str} (h1 : Blanks g1) (h2 : noNl t) (h3 : Blanks g2) (h4 : TightText re) (h5 : '"' ∉ re) (h6 : AName n) (c : Caps) :
    RunsTo derivedFieldRe ('"' :: (t ++ ('"' :: (g1 ++ (n ++ (g2 ++ re)))))) [] c
      ((str "condRex", re) :: (str "condField", n) :: (str "code", t) :: c) := by
  refine RunsTo.seq (x := ['"']) (RunsTo.ch '"' _ _) (RunsTo.starBackup (any_of h2) ?_ (noQuote_suffix ?_))
  · refine RunsTo.seq (x := ['"']) (RunsTo.ch '"' _ _) (RunsTo.opt (RunsTo.seq (RunsTo.plus h1.1 h1.ws ?_ _)
      (RunsTo.seq (RunsTo.grp (RunsTo.plus h6.1 h6.2 ?_ _)) (RunsTo.seq (RunsTo.plus h3.1 h3.ws ?_ _) (RunsTo.grp (RunsTo.plus h4.1 (any_of h4.2.1) ?_ _))))))
    · rw [List.append_nil]; exact h6.head
    · rw [List.append_nil]; exact h3.head (by decide) (by decide)
    · exact h4.head
    · intro y t e; cases e
  · simp only [List.mem_append, not_or]
    exact ⟨h1.noQuote, h6.noQuote, h3.noQuote, h5⟩

/-- The groups of a line's rule, latest first. -/
def DocRule.caps : DocRule → Caps
  | .whole i => [(str "rowIdx", natStr i)]
  | .extract i t re => [(str "rex", re), (str "out", t), (str "rowIdx", natStr i)]
  | .derive t => [(str "code", t)]
  | .deriveIf t n re => [(str "condRex", re), (str "condField", n), (str "code", t)]

theorem rule_run {compiles : Str → Bool} {r : DocRule} {g1 g2 : Str} (h : r.Ok compiles) (h1 : Blanks g1) (h2 : Blanks g2) (c : Caps) :
    RunsTo (.alt directFieldRe derivedFieldRe) (r.text g1 g2) [] c (r.caps ++ c) := by
  cases r with
  | whole i => exact RunsTo.altL (direct_whole i c)
  | extract i t re => exact RunsTo.altL (direct_extract i h1 h.2.1 h2 h.2.2.1 h.2.2.2.1 c)
  | derive t =>
    refine RunsTo.altR ?_ (derived_plain h.2 c)
    rw [List.append_nil]
    exact direct_none _
  | deriveIf t n re =>
    refine RunsTo.altR ?_ (derived_cond h1 h.2.1 h2 h.2.2.2.1 h.2.2.2.2.1 h.2.2.1 c)
    rw [List.append_nil]
    exact direct_none _

theorem rule_head (r : DocRule) (g1 g2 s : Str) : NoHead isWs (r.text g1 g2 ++ s) := by
  cases r with
  | whole i => exact natStr_head i s
  | extract i t re => unfold DocRule.text; rw [List.append_assoc]; exact natStr_head i _
  | derive t => exact NoHead.cons (by decide)
  | deriveIf t n re => exact NoHead.cons (by decide)

theorem line_match {compiles : Str → Bool} {l : DocLine} (h : l.Ok compiles) :
    fieldRe.matchAt l.text = some (l.rule.caps ++ [(str "field", l.name)], []) := by
  have run : RunsTo fieldRe (l.indent ++ (l.name ++ (l.gap ++ (l.rule.text l.gap1 l.gap2 ++ [])))) [] [] (l.rule.caps ++ [(str "field", l.name)]) := by
    refine RunsTo.seq (RunsTo.plus h.indent.1 h.indent.ws ?_ _) (RunsTo.seq (RunsTo.grp (RunsTo.plus h.name.1 h.name.2 ?_ _))
      (RunsTo.seq (RunsTo.plus h.gap.1 h.gap.ws ?_ _) (RunsTo.seq (rule_run h.rule h.gap1 h.gap2 _) (RunsTo.eot _))))
    · rw [List.append_nil]; exact h.name.head
    · rw [List.append_nil]; exact h.gap.head (by decide) (by decide)
    · rw [List.append_nil]; exact rule_head _ _ _ _
  have := run.matchAt
  simp only [List.append_nil] at this
  exact this

theorem index_read {i : Nat} (h : i < 2 ^ 63) : checkNoError (parseInt64 (natStr i)) = .ok (i : Int) := by
  rw [parseInt64_digits _ (natStr_allDigits i) (natStr_ne_nil i), strNat_natStr, if_pos h]
  rfl

theorem line_field {compiles : Str → Bool} {r : DocRule} (h : r.Ok compiles) (n : Str) :
    fieldLine compiles (r.caps ++ [(str "field", n)]) = .ok r.field := by
  have e1 : ∀ (a b : String) (v : Str) (c : Caps), str a ≠ str b → Caps.get ((str a, v) :: c) (str b) = c.get (str b) := fun a b v c hne => get_cons_ne hne
  have e0 : ∀ s : Str, Caps.get [] s = [] := fun _ => rfl
  cases r with
  | whole i =>
    have g1 : Caps.get (DocRule.caps (.whole i) ++ [(str "field", n)]) (str "code") = [] := by
      rw [DocRule.caps, List.cons_append, List.nil_append, e1 _ _ _ _ (by decide), e1 _ _ _ _ (by decide), e0]
    have g2 : Caps.get (DocRule.caps (.whole i) ++ [(str "field", n)]) (str "rowIdx") = natStr i := by
      rw [DocRule.caps, List.cons_append, List.nil_append, get_cons_eq]
    have g3 : Caps.get (DocRule.caps (.whole i) ++ [(str "field", n)]) (str "rex") = [] := by
      rw [DocRule.caps, List.cons_append, List.nil_append, e1 _ _ _ _ (by decide), e1 _ _ _ _ (by decide), e0]
    have g4 : Caps.get (DocRule.caps (.whole i) ++ [(str "field", n)]) (str "out") = [] := by
      rw [DocRule.caps, List.cons_append, List.nil_append, e1 _ _ _ _ (by decide), e1 _ _ _ _ (by decide), e0]
    unfold fieldLine
    rw [g1, g2, g3, g4, index_read h]
    rfl
  | extract i t re =>
    have g1 : Caps.get (DocRule.caps (.extract i t re) ++ [(str "field", n)]) (str "code") = [] := by
      rw [DocRule.caps, List.cons_append, List.cons_append, List.cons_append, List.nil_append, e1 _ _ _ _ (by decide), e1 _ _ _ _ (by decide), e1 _ _ _ _ (by decide), e1 _ _ _ _ (by decide), e0]
    have g2 : Caps.get (DocRule.caps (.extract i t re) ++ [(str "field", n)]) (str "rowIdx") = natStr i := by
      rw [DocRule.caps, List.cons_append, List.cons_append, List.cons_append, List.nil_append, e1 _ _ _ _ (by decide), e1 _ _ _ _ (by decide), get_cons_eq]
    have g3 : Caps.get (DocRule.caps (.extract i t re) ++ [(str "field", n)]) (str "rex") = re := by
      rw [DocRule.caps, List.cons_append, get_cons_eq]
    have g4 : Caps.get (DocRule.caps (.extract i t re) ++ [(str "field", n)]) (str "out") = t := by
      rw [DocRule.caps, List.cons_append, List.cons_append, e1 _ _ _ _ (by decide), get_cons_eq]
    unfold fieldLine
    rw [g1, g2, g3, g4, index_read h.1, if_neg (by simp)]
    simp only [Except.bind]
    rw [if_pos h.2.2.1.1]
    unfold mustCompile
    rw [h.2.2.1.trim, h.2.1.trim, if_pos h.2.2.2.2]
    rfl
  | derive t =>
    have g1 : Caps.get (DocRule.caps (.derive t) ++ [(str "field", n)]) (str "code") = t := by
      rw [DocRule.caps, List.cons_append, get_cons_eq]
    have g2 : Caps.get (DocRule.caps (.derive t) ++ [(str "field", n)]) (str "condField") = [] := by
      rw [DocRule.caps, List.cons_append, List.nil_append, e1 _ _ _ _ (by decide), e1 _ _ _ _ (by decide), e0]
    unfold fieldLine
    rw [g1, g2, if_pos h.1]
    rfl
  | deriveIf t nm re =>
    have g1 : Caps.get (DocRule.caps (.deriveIf t nm re) ++ [(str "field", n)]) (str "code") = t := by
      rw [DocRule.caps, List.cons_append, List.cons_append, List.cons_append, List.nil_append, e1 _ _ _ _ (by decide), e1 _ _ _ _ (by decide), get_cons_eq]
    have g2 : Caps.get (DocRule.caps (.deriveIf t nm re) ++ [(str "field", n)]) (str "condField") = nm := by
      rw [DocRule.caps, List.cons_append, List.cons_append, e1 _ _ _ _ (by decide), get_cons_eq]
    have g3 : Caps.get (DocRule.caps (.deriveIf t nm re) ++ [(str "field", n)]) (str "condRex") = re := by
      rw [DocRule.caps, List.cons_append, get_cons_eq]
    unfold fieldLine
    rw [g1, g2, g3, if_pos h.1, if_pos h.2.2.1.1]
    unfold mustCompile
    rw [h.2.2.2.1.trim, if_pos h.2.2.2.2.2]
    rfl

theorem line_name (r : DocRule) (n : Str) : Caps.get (r.caps ++ [(str "field", n)]) (str "field") = n := by
  have e1 : ∀ (a b : String) (v : Str) (c : Caps), str a ≠ str b → Caps.get ((str a, v) :: c) (str b) = c.get (str b) := fun a b v c hne => get_cons_ne hne
  cases r <;> simp only [DocRule.caps, List.cons_append, List.nil_append] <;>
    repeat (first | rw [get_cons_eq] | rw [e1 _ _ _ _ (by decide)])

/-- A line that does not begin with a blank is not part of a mapping. -/
theorem field_none {s : Str} (h : NoHead isWs s) : fieldRe.matchAt s = none :=
  (NoMatch.seqL (NoMatch.plus h)).run _ _

theorem mapping_read {compiles : Str → Bool} {ls : List DocLine} (h : ∀ l ∈ ls, l.Ok compiles) {rest : List Str}
    (hr : ∀ l t, rest = l :: t → NoHead isWs l) :
    fieldLoop compiles (ls.map DocLine.text ++ rest) = .ok (ls.map (fun l => (l.name, l.rule.field)), rest) := by
  induction ls with
  | nil =>
    cases rest with
    | nil => rfl
    | cons l t =>
      rw [List.map_nil, List.nil_append, fieldLoop, field_none (hr l t rfl)]
      rfl
  | cons l ls ih =>
    rw [List.map_cons, List.cons_append, fieldLoop, line_match (h l (by simp))]
    simp only []
    rw [line_field (h l (by simp)).rule]
    simp only [Except.bind]
    rw [ih (fun l hl => h l (by simp [hl]))]
    simp only [Except.bind, line_name, List.map_cons]

theorem header_match {compiles : Str → Bool} {s : DocSource} (h : s.Ok compiles) :
    sourceRe.matchAt s.header = some ([(str "skip", natStr s.skip), (str "source", s.name)], []) := by
  have run : RunsTo sourceRe (s.name ++ ((s.gap ++ natStr s.skip) ++ ([] ++ []))) [] [] [(str "skip", natStr s.skip), (str "source", s.name)] := by
    refine RunsTo.seq (RunsTo.grp (RunsTo.plus h.name.1 h.name.2 ?_ _)) (RunsTo.seq (RunsTo.opt (RunsTo.seq (RunsTo.plus h.gap.1 h.gap.ws ?_ _)
      (RunsTo.grp (RunsTo.plus (natStr_ne_nil _) (natStr_digits _) ?_ _)))) (RunsTo.seq (RunsTo.star (by simp) ?_ _) (RunsTo.eot _)))
    · simp only [List.append_assoc]; exact h.gap.head (by decide) (by decide)
    · exact natStr_head _ _
    · intro y t e; cases e
    · intro y t e; cases e
  have := run.matchAt
  simp only [List.append_nil] at this
  exact this

theorem source_read {compiles : Str → Bool} {s : DocSource} (h : s.Ok compiles) {rest : List Str} (hne : s.mapping ≠ [] ∨ rest ≠ [])
    (hr : ∀ l t, rest = l :: t → NoHead isWs l) :
    scanSource compiles s.header (s.mapping.map DocLine.text ++ rest) = .ok (s.meaning, rest) := by
  have e1 : ∀ (a b : String) (v : Str) (c : Caps), str a ≠ str b → Caps.get ((str a, v) :: c) (str b) = c.get (str b) := fun a b v c hne => get_cons_ne hne
  unfold scanSource
  rw [header_match h]
  simp only []
  rw [get_cons_eq, index_read h.skip]
  simp only [Except.bind]
  rw [if_neg (by
    rcases hne with hne | hne
    · simp [hne]
    · simp [hne])]
  rw [mapping_read h.mapping hr]
  simp only [Except.bind]
  rw [e1 _ _ _ _ (by decide), get_cons_eq]
  rfl

theorem header_head {compiles : Str → Bool} {s : DocSource} (h : s.Ok compiles) : NoHead isWs s.header := h.name.head
theorem header_ne {compiles : Str → Bool} {s : DocSource} (h : s.Ok compiles) : s.header ≠ str "---" := by
  intro e
  obtain ⟨x, t, e', hx⟩ := word_head h.name.1 h.name.2
  unfold DocSource.header at e
  have hw := h.name.2 x (by rw [e']; simp)
  rw [e', List.cons_append] at e
  rw [show str "---" = ['-', '-', '-'] from rfl, List.cons.injEq] at e
  rw [e.1] at hw
  exact absurd hw (by decide)

theorem readSources_source {env : RuleEnv} {n : Nat} {srcs : List Source} {line : Str} {rest : List Str} (h : line ≠ str "---") :
    readSources env (n + 1) srcs (line :: rest) = (scanSource env.compiles line rest).bind fun r => readSources env n (r.1 :: srcs) r.2 := by
  cases rest <;> simp only [readSources, if_neg h]

theorem readSources_end {env : RuleEnv} {n : Nat} {srcs : List Source} {rest : List Str} (h : rest ≠ []) :
    readSources env (n + 1) srcs (str "---" :: rest) = (scanRules env rest.length ⟨[], []⟩ rest).bind fun ri => .ok ⟨srcs, some ri⟩ := by
  cases rest with
  | nil => exact absurd rfl h
  | cons l rest => simp only [readSources, if_true]

/-- The sections before the separator. -/
theorem sources_read {env : RuleEnv} : ∀ (ss : List DocSource) (acc : List Source) (n : Nat) (rest : List Str), (∀ s ∈ ss, s.Ok env.compiles) → rest ≠ [] →
    (∀ l t, rest = l :: t → NoHead isWs l) → readSources env (n + ss.length) acc (ss.flatMap DocSource.lines ++ rest) =
      readSources env n ((ss.map DocSource.meaning).reverse ++ acc) rest := by
  intro ss
  induction ss with
  | nil => intro acc n rest _ _ _; rfl
  | cons s ss ih =>
    intro acc n rest h hne hr
    have hs := h s (by simp)
    rw [List.flatMap_cons, DocSource.lines, List.cons_append, List.cons_append, List.append_assoc]
    rw [show n + (s :: ss).length = (n + ss.length) + 1 by simp; omega, readSources_source (header_ne hs)]
    have hr' : ∀ l t, ss.flatMap DocSource.lines ++ rest = l :: t → NoHead isWs l := by
      intro l t e
      cases ss with
      | nil => exact hr l t e
      | cons s2 ss =>
        rw [List.flatMap_cons, DocSource.lines, List.cons_append, List.cons_append, List.cons.injEq] at e
        rw [← e.1]
        exact header_head (h s2 (by simp))
    rw [source_read hs (.inr (by simp [hne])) hr']
    simp only [Except.bind]
    rw [ih _ _ _ (fun s hs => h s (by simp [hs])) hne hr]
    simp

/-! ### The file -/

/-- A file as documented: sources, and rules for the target accounts (of the form of ofx.rules) after a separating line. -/
def docFile (ss : List DocSource) (rules : Option (List Str)) : List Str :=
  ss.flatMap DocSource.lines ++ match rules with | some ls => str "---" :: ls | none => []

/-- The source of a name: the last one of that name. -/
def docSource (ss : List DocSource) (name : Str) : Option Source := (ss.reverse.find? (fun s => decide (s.name = name))).map DocSource.meaning

/-- Full statement of C100: every documented file — either section may be missing — is read as what is written in it: a source by
its name, the rules as the same lines in ofx.rules. -/
def C100_Statement : Prop := ∀ (env : RuleEnv) (ss : List DocSource) (rules : Option (List Str)) (ri : RuleIndex),
  (∀ s ∈ ss, s.Ok env.compiles) → (∀ ls, rules = some ls → (∀ l ∈ ls, CleanLine l) ∧ readRules env (textOf ls) = .ok (some ri)) →
  ∃ r, readCsvRules env (textOf (docFile ss rules)) = .ok r ∧ (∀ name, r.source name = docSource ss name) ∧
    ∀ ls, rules = some ls → r.index = some ri

theorem blanks_clean {s : Str} (h : noNl s) (x : Char) (hx : x ≠ '\n') (hr : x ≠ '\r') : CleanLine (s ++ [x]) := by
  refine ⟨?_, by simpa using hr⟩
  intro y hy
  rcases List.mem_append.mp hy with hy | hy
  · exact h y hy
  · rw [List.mem_singleton.mp hy]; exact hx

theorem AName.noNl {n : Str} (h : AName n) : Verif.noNl n := (clean_word h.2).1
theorem natStr_clean (n : Nat) : CleanLine (natStr n) := clean_word (fun x hx => digit_word (natStr_digits n x hx))

theorem noNl_cons {x : Char} {s : Str} (hx : x ≠ '\n') (h : noNl s) : noNl (x :: s) := noNl_append (a := [x]) (by intro y hy; rw [List.mem_singleton.mp hy]; exact hx) h

theorem rule_clean {compiles : Str → Bool} {r : DocRule} {g1 g2 : Str} (h : r.Ok compiles) (h1 : Blanks g1) (h2 : Blanks g2) :
    CleanLine (r.text g1 g2) ∧ r.text g1 g2 ≠ [] := by
  cases r with
  | whole i => exact ⟨natStr_clean i, natStr_ne_nil i⟩
  | extract i t re =>
    refine ⟨?_, by simp [DocRule.text]⟩
    have e : DocRule.text (.extract i t re) g1 g2 = (natStr i ++ (g1 ++ ('"' :: (t ++ ('"' :: g2))))) ++ re := by simp [DocRule.text]
    rw [e]
    exact CleanLine.append (noNl_append (natStr_clean i).1 (noNl_append h1.noNl (noNl_cons (by decide) (noNl_append h.2.1.2.1 (noNl_cons (by decide) h2.noNl)))))
      h.2.2.1.clean h.2.2.1.1
  | derive t =>
    refine ⟨?_, by simp [DocRule.text]⟩
    have e : DocRule.text (.derive t) g1 g2 = ('"' :: t) ++ ['"'] := by simp [DocRule.text]
    rw [e]
    exact blanks_clean (noNl_cons (by decide) h.2) _ (by decide) (by decide)
  | deriveIf t n re =>
    refine ⟨?_, by simp [DocRule.text]⟩
    have e : DocRule.text (.deriveIf t n re) g1 g2 = ('"' :: (t ++ ('"' :: (g1 ++ (n ++ g2))))) ++ re := by simp [DocRule.text]
    rw [e]
    exact CleanLine.append (noNl_cons (by decide) (noNl_append h.2.1 (noNl_cons (by decide) (noNl_append h1.noNl (noNl_append h.2.2.1.noNl h2.noNl)))))
      h.2.2.2.1.clean h.2.2.2.1.1

theorem line_clean {compiles : Str → Bool} {l : DocLine} (h : l.Ok compiles) : CleanLine l.text := by
  have hc := rule_clean (g1 := l.gap1) (g2 := l.gap2) h.rule h.gap1 h.gap2
  have e : l.text = (l.indent ++ (l.name ++ l.gap)) ++ l.rule.text l.gap1 l.gap2 := by simp [DocLine.text]
  rw [e]
  exact CleanLine.append (noNl_append h.indent.noNl (noNl_append h.name.noNl h.gap.noNl)) hc.1 hc.2

theorem source_clean {compiles : Str → Bool} {s : DocSource} (h : s.Ok compiles) : ∀ l ∈ s.lines, CleanLine l := by
  intro l hl
  rcases List.mem_cons.mp hl with rfl | hl
  · have e : s.header = (s.name ++ s.gap) ++ natStr s.skip := by simp [DocSource.header]
    rw [e]
    exact CleanLine.append (noNl_append h.name.noNl h.gap.noNl) (natStr_clean _) (natStr_ne_nil _)
  · obtain ⟨m, hm, rfl⟩ := List.mem_map.mp hl
    exact line_clean (h.mapping m hm)

theorem docFile_clean {compiles : Str → Bool} {ss : List DocSource} {rules : Option (List Str)} (h : ∀ s ∈ ss, s.Ok compiles)
    (hr : ∀ ls, rules = some ls → ∀ l ∈ ls, CleanLine l) : ∀ l ∈ docFile ss rules, CleanLine l := by
  intro l hl
  unfold docFile at hl
  rcases List.mem_append.mp hl with hl | hl
  · obtain ⟨s, hs, hm⟩ := List.mem_flatMap.mp hl
    exact source_clean (h s hs) l hm
  · cases rules with
    | none => cases hl
    | some ls =>
      rcases List.mem_cons.mp hl with rfl | hl
      · exact ⟨by unfold noNl; decide, by decide⟩
      · exact hr ls rfl l hl

theorem lines_length (ss : List DocSource) : ss.length ≤ (ss.flatMap DocSource.lines).length := by
  induction ss with
  | nil => simp
  | cons s ss ih =>
    rw [List.flatMap_cons, List.length_append]
    simp only [List.length_cons, DocSource.lines]
    omega

theorem find_meaning (l : List DocSource) (name : Str) :
    (l.map DocSource.meaning).find? (fun s => decide (s.name = name)) = (l.find? (fun s => decide (s.name = name))).map DocSource.meaning := by
  rw [List.find?_map]
  rfl

/-- **C100 (partial)** A file with both sections is read as what is written in it. Missing: files without the separator (see below),
double quotes in expressions, and templates of extraction rules that begin or end with a blank. -/
theorem C100_file_partial (env : RuleEnv) (ss : List DocSource) (ls : List Str) (ri : RuleIndex) (h : ∀ s ∈ ss, s.Ok env.compiles)
    (hc : ∀ l ∈ ls, CleanLine l) (hr : readRules env (textOf ls) = .ok (some ri)) :
    ∃ r, readCsvRules env (textOf (docFile ss (some ls))) = .ok r ∧ (∀ name, r.source name = docSource ss name) ∧ r.index = some ri := by
  refine ⟨⟨(ss.map DocSource.meaning).reverse, some ri⟩, ?_, ?_, rfl⟩
  · unfold readCsvRules
    rw [scanLines_textOf (docFile_clean h (by rintro _ ⟨⟩; exact hc))]
    have hl := lines_length ss
    have e : ∃ n, (docFile ss (some ls)).length + 1 = (n + 1) + ss.length := by
      refine ⟨(docFile ss (some ls)).length - ss.length, ?_⟩
      unfold docFile
      rw [List.length_append]
      simp only [List.length_cons]
      omega
    obtain ⟨n, e⟩ := e
    rw [e]
    unfold docFile
    simp only []
    rw [sources_read ss [] (n + 1) _ h (by simp) (by rintro l t e; rw [List.cons.injEq] at e; rw [← e.1]; exact NoHead.cons (by decide))]
    unfold readRules at hr
    rw [scanLines_textOf hc] at hr
    cases ls with
    | nil => cases hr
    | cons l ls =>
      rw [readSources_end (by simp)]
      simp only [] at hr ⊢
      obtain ⟨ri', h1, h2⟩ := bind_ok.mp hr
      cases h2
      rw [h1]
      simp [Except.bind]
  · intro name
    unfold CsvRules.source docSource
    simp only []
    rw [← List.map_reverse, find_meaning]

/-- A separator with nothing after it: the sources are read. -/
theorem C100_sources (env : RuleEnv) (ss : List DocSource) (h : ∀ s ∈ ss, s.Ok env.compiles) :
    ∃ r, readCsvRules env (textOf (docFile ss (some []))) = .ok r ∧ (∀ name, r.source name = docSource ss name) ∧ r.index = none := by
  refine ⟨⟨(ss.map DocSource.meaning).reverse, none⟩, ?_, ?_, rfl⟩
  · unfold readCsvRules
    rw [scanLines_textOf (docFile_clean h (by rintro _ ⟨⟩; simp))]
    have hl := lines_length ss
    have e : ∃ n, (docFile ss (some [])).length + 1 = (n + 1) + ss.length := by
      refine ⟨(docFile ss (some [])).length - ss.length, ?_⟩
      unfold docFile
      rw [List.length_append]
      simp only [List.length_cons]
      omega
    obtain ⟨n, e⟩ := e
    rw [e]
    unfold docFile
    simp only []
    rw [sources_read ss [] (n + 1) _ h (by simp) (by rintro l t e; rw [List.cons.injEq] at e; rw [← e.1]; exact NoHead.cons (by decide))]
    rw [readSources, if_pos rfl]
    simp
  · intro name
    unfold CsvRules.source docSource
    simp only []
    rw [← List.map_reverse, find_meaning]

/-- … but then no row can be converted: the command fails on the first one. -/
theorem C100_sources_useless (env : CsvEnv) (h : env.rules = none) (fs : SrcFields) (row : List Str) : ∀ o, transactionFrom env fs row ≠ .ok o := by
  intro o ho
  unfold transactionFrom at ho
  simp only [] at ho
  obtain ⟨id, _, ho⟩ := bind_ok.mp ho
  obtain ⟨d, _, ho⟩ := bind_ok.mp ho
  rw [h] at ho
  cases ho

theorem sources_none {env : RuleEnv} : ∀ (ss : List DocSource) (acc : List Source) (n : Nat), (∀ s ∈ ss, s.Ok env.compiles) →
    readSources env n acc (ss.flatMap DocSource.lines) = .error .exit := by
  intro ss
  induction ss with
  | nil => intro acc n _; cases n <;> rfl
  | cons s ss ih =>
    intro acc n h
    have hs := h s (by simp)
    cases n with
    | zero => rfl
    | succ n =>
      rw [List.flatMap_cons, DocSource.lines, List.cons_append, readSources_source (header_ne hs)]
      by_cases hne : s.mapping ≠ [] ∨ ss.flatMap DocSource.lines ≠ []
      · rw [source_read hs hne]
        · simp only [Except.bind]
          exact ih _ _ (fun s hs => h s (by simp [hs]))
        · intro l t e
          cases ss with
          | nil => cases e
          | cons s2 ss =>
            rw [List.flatMap_cons, DocSource.lines, List.cons_append, List.cons.injEq] at e
            rw [← e.1]
            exact header_head (h s2 (by simp))
      · simp only [ne_eq, not_or, not_not] at hne
        unfold scanSource
        rw [header_match hs]
        simp only []
        rw [get_cons_eq, index_read hs.skip, hne.1, hne.2]
        rfl

/-- No file without the separator can be read, although both sections are said to be optional. -/
theorem C100_no_separator (env : RuleEnv) (ss : List DocSource) (h : ∀ s ∈ ss, s.Ok env.compiles) :
    readCsvRules env (textOf (docFile ss none)) = .error .exit := by
  unfold readCsvRules
  rw [scanLines_textOf (docFile_clean h (by rintro _ ⟨⟩))]
  unfold docFile
  simp only [List.append_nil]
  exact sources_none ss [] _ h

/-- A source from the README. -/
def exDocLine (name : String) (r : DocRule) : DocLine := ⟨str "  ", str name, str " ", r, str " ", str " "⟩
def exDocSource : DocSource := ⟨str "source", str " ", 2,
  [exDocLine "account" (.derive (str "123")), exDocLine "description" (.whole 3), exDocLine "amount" (.extract 2 (str "$1") (str "VALUE = (\\d+)")),
   exDocLine "note" (.derive (str "${note2} => ${note1}")), exDocLine "symbol" (.deriveIf (str "USD") (str "description") (str "Interest|Dividend"))]⟩

theorem tight_of {s : Str} (h1 : s ≠ []) (h2 : noNl s) (h3 : s.head?.all (fun x => !isSpaceU x) = true) (h4 : s.getLast?.all (fun x => !isSpaceU x) = true) : TightText s := by
  refine ⟨h1, h2, ?_, ?_⟩
  · rintro x t rfl; simpa using h3
  · rintro x t rfl; simpa using h4

theorem exDocSource_ok : exDocSource.Ok (fun _ => true) := by
  have hb : Blanks (str " ") := ⟨by decide, by decide⟩
  have hb2 : Blanks (str "  ") := ⟨by decide, by decide⟩
  have hn : ∀ s : String, (str s ≠ [] ∧ (str s).all isWord = true) → AName (str s) := fun s h => ⟨h.1, List.all_eq_true.mp h.2⟩
  refine ⟨hn _ (by decide), hb, by decide, ?_⟩
  intro l hl
  simp only [exDocSource, List.mem_cons, List.not_mem_nil, or_false] at hl
  rcases hl with rfl | rfl | rfl | rfl | rfl
  · exact ⟨hb2, hn _ (by decide), hb, hb, hb, by decide, by unfold noNl; decide⟩
  · exact ⟨hb2, hn _ (by decide), hb, hb, hb, (by decide : 3 < 2 ^ 63)⟩
  · exact ⟨hb2, hn _ (by decide), hb, hb, hb, by decide, tight_of (by decide) (by unfold noNl; decide) (by decide) (by decide),
      tight_of (by decide) (by unfold noNl; decide) (by decide) (by decide), by decide, rfl⟩
  · exact ⟨hb2, hn _ (by decide), hb, hb, hb, by decide, by unfold noNl; decide⟩
  · exact ⟨hb2, hn _ (by decide), hb, hb, hb, by decide, by unfold noNl; decide, hn _ (by decide),
      tight_of (by decide) (by unfold noNl; decide) (by decide) (by decide), by decide, rfl⟩

example : exDocSource.lines = [str "source 2", str "  account \"123\"", str "  description 3", str "  amount 2 \"$1\" VALUE = (\\d+)",
    str "  note \"${note2} => ${note1}\"", str "  symbol \"USD\" description Interest|Dividend"] := by decide +kernel

/-- **C100 is false** of the code: a file with one documented source and no second section ends the program. -/
theorem C100_optional_violated : ¬ C100_Statement := by
  intro h
  obtain ⟨r, h1, _⟩ := h exRuleEnv [exDocSource] none ⟨[], []⟩ (by intro s hs; rw [List.mem_singleton.mp hs]; exact exDocSource_ok) (by rintro _ ⟨⟩)
  rw [C100_no_separator exRuleEnv [exDocSource] (by intro s hs; rw [List.mem_singleton.mp hs]; exact exDocSource_ok)] at h1
  cases h1

/-- Non-vacuity of `C100_file_partial`: the README's source with one rule. -/
example : ∃ r, readCsvRules exRuleEnv (textOf (docFile [exDocSource] (some [str "123 Assets:Bank", str "  Expenses  SHOP"]))) = .ok r ∧
    r.source (str "source") = some exDocSource.meaning ∧ r.index = some ⟨[(str "123", ⟨str "Assets:Bank", [.rule ⟨some (str "Expenses"), str "SHOP", []⟩]⟩)], []⟩ := by
  obtain ⟨r, h1, h2, h3⟩ := C100_file_partial exRuleEnv [exDocSource] [str "123 Assets:Bank", str "  Expenses  SHOP"]
    ⟨[(str "123", ⟨str "Assets:Bank", [.rule ⟨some (str "Expenses"), str "SHOP", []⟩]⟩)], []⟩ (by intro s hs; rw [List.mem_singleton.mp hs]; exact exDocSource_ok) (by unfold CleanLine noNl; decide) (by decide +kernel)
  exact ⟨r, h1, by rw [h2]; rfl, h3⟩

/-! ### The dump of the rules -/

/-- A source name without a number is a header, but it cannot be read. -/
theorem source_unskipped {compiles : Str → Bool} {n : Str} (h : AName n) (rest : List Str) : scanSource compiles n rest = .error .exit := by
  have run : RunsTo sourceRe (n ++ ([] ++ ([] ++ []))) [] [] [(str "source", n)] := by
    refine RunsTo.seq (RunsTo.grp (RunsTo.plus h.1 h.2 ?_ _)) (RunsTo.seq (RunsTo.optNone (NoMatch.seqL (NoMatch.plus ?_)))
      (RunsTo.seq (RunsTo.star (by simp) ?_ _) (RunsTo.eot _)))
    · intro y t e; cases e
    · intro y t e; cases e
    · intro y t e; cases e
  have hm := run.matchAt
  simp only [List.append_nil] at hm
  unfold scanSource
  rw [hm]
  simp only []
  rw [get_cons_ne (by decide)]
  rfl

/-- What is printed with `-rules` cannot be used as a rules file as soon as there is a source, whatever the order of the sources and the
addresses printed for the indexes. -/
theorem C100_dump (env : RuleEnv) (addr : CField → Nat) (s : Source) (more : List Source) (index : List Str) (h : AName s.name)
    (hc : ∀ l ∈ writeCsvRules addr (s :: more) index, CleanLine l) :
    readCsvRules env (textOf (writeCsvRules addr (s :: more) index)) = .error .exit := by
  unfold readCsvRules
  rw [scanLines_textOf hc]
  have e : writeCsvRules addr (s :: more) index = s.name :: ((csvLabels.flatMap fun n => (s.fields.get n).map (writeField addr n)) ++
      (more.flatMap (writeSource addr) ++ str "---" :: index)) := by
    unfold writeCsvRules
    rw [List.flatMap_cons, writeSource]
    simp
  rw [e, readSources_source, source_unskipped h]
  · rfl
  · intro hn
    exact absurd (h.2 '-' (by rw [hn]; decide)) (by decide)

example : readCsvRules exRuleEnv (textOf (writeCsvRules (fun _ => 824634) [exDocSource.meaning] [str "123 Assets:Bank"])) = .error .exit := by decide +kernel

/-! ### -fields -/

theorem splitOn_join (sep : Char) (l : List Str) (h : l ≠ []) (hc : ∀ p ∈ l, sep ∉ p) : splitOn sep (joinWith [sep] l) = l := by
  induction l with
  | nil => exact absurd rfl h
  | cons a l ih =>
    by_cases hl : l = []
    · subst hl
      exact splitOn_noSep _ _ (hc a (by simp))
    · rw [joinWith_cons _ _ _ hl, List.append_assoc]
      show splitOn sep (a ++ (sep :: joinWith [sep] l)) = _
      rw [splitOn_append_sep _ _ _ (hc a (by simp)), ih hl (fun p hp => hc p (by simp [hp]))]

theorem parseIndexes_ok {ls : List Str} : ∀ {ns : List Nat}, ls.length = ns.length → (∀ n ∈ ns, n < 2 ^ 63) →
    parseIndexes ls (ns.map natStr) = .ok (List.zipWith (fun l (n : Nat) => (l, ⟨some (n : Int), [], [], none⟩)) ls ns) := by
  induction ls with
  | nil =>
    intro ns h _
    cases ns with
    | nil => rfl
    | cons n ns => cases h
  | cons l ls ih =>
    intro ns h hb
    cases ns with
    | nil => cases h
    | cons n ns =>
      rw [List.map_cons, parseIndexes, index_read (hb n (by simp))]
      simp only [Except.bind]
      rw [ih (by simpa using h) (fun n hn => hb n (by simp [hn]))]
      rfl

/-- The values of a transaction in the order in which the README lists them. -/
def documentedValues : List Str :=
  [str "account", str "description", str "date", str "amount", str "currency", str "symbol", str "quantity", str "note"]

/-- The option `-fields` with eight indexes maps the values to those fields, in the order in which the README lists them. -/
theorem C100_fields (ns : List Nat) (h : ns.length = 8) (hb : ∀ n ∈ ns, n < 2 ^ 63) :
    parseFields (joinWith [','] (ns.map natStr)) = .ok (List.zipWith (fun l (n : Nat) => (l, ⟨some (n : Int), [], [], none⟩)) documentedValues ns) := by
  have hne : ns.map natStr ≠ [] := by
    intro e
    rw [List.map_eq_nil_iff.mp e] at h
    cases h
  have hs : splitOn ',' (joinWith [','] (ns.map natStr)) = ns.map natStr := by
    refine splitOn_join ',' _ hne ?_
    intro s hs
    obtain ⟨n, _, rfl⟩ := List.mem_map.mp hs
    exact not_mem_of_digits (natStr_allDigits n) (by decide)
  unfold parseFields
  rw [hs, List.length_map, h, if_pos (by decide)]
  exact parseIndexes_ok (by rw [h]; decide) hb

/-- Any other number of indexes ends the program, also the seven of the example in the README. -/
theorem C100_fields_count (s : Str) (h : (splitOn ',' s).length ≠ 8) : parseFields s = .error .exit := by
  unfold parseFields
  rw [if_neg (by rw [show csvLabels.length = 8 from rfl]; exact h)]

example : parseFields (str "3,0,2,6,1,7,8") = .error .exit := C100_fields_count _ (by decide)
example : parseFields (str "3,0,2,6,1,7,8,4") = .ok (List.zipWith (fun l (n : Nat) => (l, ⟨some (n : Int), [], [], none⟩)) documentedValues [3, 0, 2, 6, 1, 7, 8, 4]) := by
  decide +kernel

end Verif
