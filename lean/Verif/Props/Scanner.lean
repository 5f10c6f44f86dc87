import Verif.Model.Scanner
import Verif.Props.Load
import Verif.Props.Writer
import Verif.Props.Rules
/-
C151, C152: long lines. The lines of a text are the pieces between line feeds; `Long` says that one of them has 64 KiB or more.
-/
namespace Verif

/-- Some line of the text has at least 65536 bytes. -/
def Long (text : Str) : Prop := ∃ l ∈ splitOn '\n' text, 65536 ≤ blen l

theorem rawLines_mem {text l : Str} (h : l ∈ rawLines text) : l ∈ splitOn '\n' text := by
  unfold rawLines at h
  simp only [] at h
  split at h
  · exact List.mem_of_mem_dropLast h
  · exact h

theorem mem_rawLines {text l : Str} (h : l ∈ splitOn '\n' text) (hl : l ≠ []) : l ∈ rawLines text := by
  unfold rawLines
  simp only []
  split
  · rename_i e
    obtain ⟨p, hp⟩ := List.getLast?_eq_some_iff.mp e
    rw [hp] at h ⊢
    rw [List.dropLast_concat]
    rcases List.mem_append.mp h with h | h
    · exact h
    · exact absurd (by simpa using h) hl
  · exact h

theorem scanFailed_iff (text : Str) : scanFailed text = true ↔ Long text := by
  unfold scanFailed Long
  rw [List.any_eq_true]
  constructor
  · rintro ⟨l, hl, h⟩
    exact ⟨l, rawLines_mem hl, of_decide_eq_true h⟩
  · rintro ⟨l, hl, h⟩
    refine ⟨l, mem_rawLines hl ?_, decide_eq_true h⟩
    rintro rfl
    exact absurd h (by decide)

theorem scannedLines_short {text : Str} (h : ¬ Long text) : scannedLines text = scanLines text ∧ scanFailed text = false := by
  have hf : scanFailed text = false := by
    rw [Bool.eq_false_iff]
    exact fun hs => h ((scanFailed_iff text).mp hs)
  refine ⟨?_, hf⟩
  unfold scannedLines scanLines
  have : (rawLines text).takeWhile (fun l => !tooLong l) = rawLines text := by
    unfold scanFailed at hf
    rw [List.any_eq_false] at hf
    generalize rawLines text = ls at hf
    induction ls with
    | nil => rfl
    | cons l ls ih =>
      rw [List.takeWhile_cons, if_pos (by simpa using hf l (by simp)), ih (fun x hx => hf x (by simp [hx]))]
  rw [this]
  rfl

/-! ## C151 -/

/-- A failed scan is always noticed. -/
theorem loadReaderS_failed (d : Disk) (today : Today) (load : LoadState → Str → Except Fault LoadState) (fn : Str) :
    ∀ (n : Nat) (st : LoadState) (lines : List Str), lines.length < n → ∀ r, loadReaderS d today load fn true n st lines ≠ .ok r := by
  intro n
  induction n with
  | zero => intro st lines h; omega
  | succ n ih =>
    intro st lines hn r h
    unfold loadReaderS at h
    cases hx : next ⟨today, st.lookup, st.dflt⟩ lines with
    | error f => rw [hx] at h; cases f <;> cases h
    | ok r =>
      rw [hx] at h
      obtain ⟨i, rest⟩ := r
      cases i with
      | none => simp at h
      | some i =>
        have hlt := (next_ok (known := fun _ => True) lines hx).2.1
        simp only [true_and] at h
        split at h
        · cases h
        · obtain ⟨st', _, h2⟩ := bind_ok.mp h
          exact ih st' rest (by omega) _ h2

/-- Without failure it is the function of `Model/Load.lean`. -/
theorem loadReaderS_fine (d : Disk) (today : Today) (load : LoadState → Str → Except Fault LoadState) (fn : Str) :
    ∀ (n : Nat) (st : LoadState) (lines : List Str), loadReaderS d today load fn false n st lines = loadReader d today load fn n st lines := by
  intro n
  induction n with
  | zero => intro st lines; rfl
  | succ n ih =>
    intro st lines
    unfold loadReaderS loadReader
    cases next ⟨today, st.lookup, st.dflt⟩ lines with
    | error f => cases f <;> rfl
    | ok r =>
      obtain ⟨i, rest⟩ := r
      cases i with
      | none => rfl
      | some i =>
        simp only [Bool.false_eq_true, false_and, if_false]
        exact bind_congr' _ fun st => ih st rest

/-- **C151** A file with a line of 64 KiB or more is refused: loading it never succeeds, whatever was loaded before. -/
theorem C151_refused (d : Disk) (today : Today) (limit : Nat) (st : LoadState) (fn text : Str) (hread : d.read fn = some text) (h : Long text) :
    ∀ r, loadFileS d today limit st fn ≠ .ok r := by
  intro r
  cases limit with
  | zero => intro h; cases h
  | succ n =>
    unfold loadFileS
    rw [hread]
    simp only []
    rw [(scanFailed_iff text).mpr h]
    exact loadReaderS_failed d today _ fn _ st _ (by omega) r

theorem loadFiles_transfer {f g : LoadState → Str → Except Fault LoadState} (hfg : ∀ st fn r, f st fn = .ok r → g st fn = .ok r) (fn : Str) :
    ∀ (fs : List Str) (st r : LoadState), loadFiles f fn st fs = .ok r → loadFiles g fn st fs = .ok r := by
  intro fs
  induction fs with
  | nil => intro st r h; exact h
  | cons a fs ih =>
    intro st r h
    unfold loadFiles at h ⊢
    split at h
    · cases h
    · rename_i hne
      rw [if_neg hne]
      obtain ⟨st', h1, h2⟩ := bind_ok.mp h
      rw [hfg _ _ _ h1]
      exact ih st' r h2

theorem loadReader_transfer {f g : LoadState → Str → Except Fault LoadState} (hfg : ∀ st fn r, f st fn = .ok r → g st fn = .ok r)
    (d : Disk) (today : Today) (fn : Str) :
    ∀ (n : Nat) (st : LoadState) (lines : List Str) (r : LoadState), loadReader d today f fn n st lines = .ok r → loadReader d today g fn n st lines = .ok r := by
  intro n
  induction n with
  | zero => intro st lines r h; exact h
  | succ n ih =>
    intro st lines r h
    unfold loadReader at h ⊢
    cases hx : next ⟨today, st.lookup, st.dflt⟩ lines with
    | error e => rw [hx] at h; cases e <;> cases h
    | ok x =>
      rw [hx] at h
      obtain ⟨i, rest⟩ := x
      cases i with
      | none => exact h
      | some i =>
        simp only [] at h ⊢
        obtain ⟨st', h1, h2⟩ := bind_ok.mp h
        have : loadItem d g fn st i = .ok st' := by
          unfold loadItem at h1 ⊢
          split at h1
          · split at h1
            · cases h1
            · exact loadFiles_transfer hfg fn _ st st' h1
          · exact h1
        rw [this]
        exact ih st' rest r h2

/-- **C151** A file that loads is loaded whole: with every line of it and of the files it includes, as if lines had no limit. -/
theorem C151_whole (d : Disk) (today : Today) : ∀ (limit : Nat) (st : LoadState) (fn : Str) (r : LoadState),
    loadFileS d today limit st fn = .ok r → loadFile d today limit st fn = .ok r ∧ ∃ text, d.read fn = some text ∧ ¬ Long text := by
  intro limit
  induction limit with
  | zero => intro st fn r h; cases h
  | succ n ih =>
    intro st fn r h
    have hno : ∀ text, d.read fn = some text → ¬ Long text := fun text ht hl => C151_refused d today (n + 1) st fn text ht hl r h
    unfold loadFileS at h
    unfold loadFile
    cases hr : d.read fn with
    | none => rw [hr] at h; cases h
    | some text =>
      rw [hr] at h
      obtain ⟨e1, e2⟩ := scannedLines_short (hno text hr)
      simp only [] at h ⊢
      rw [e1, e2, loadReaderS_fine] at h
      exact ⟨loadReader_transfer (fun st fn r h => (ih st fn r h).1) d today fn _ st _ r h, text, rfl, hno text hr⟩

theorem loadEachS_whole (d : Disk) (today : Today) (limit : Nat) : ∀ (fs : List Str) (st r : LoadState), loadEachS d today limit st fs = .ok r →
    loadEach d today limit st fs = .ok r ∧ ∀ f ∈ fs, ∃ text, d.read f = some text ∧ ¬ Long text := by
  intro fs
  induction fs with
  | nil => intro st r h; exact ⟨h, by simp⟩
  | cons f fs ih =>
    intro st r h
    unfold loadEachS at h
    unfold loadEach
    obtain ⟨st', h1, h2⟩ := bind_ok.mp h
    obtain ⟨a1, a2⟩ := C151_whole d today limit st f st' h1
    obtain ⟨b1, b2⟩ := ih st' r h2
    rw [a1]
    refine ⟨b1, fun g hg => ?_⟩
    rcases List.mem_cons.mp hg with rfl | hg
    · exact a2
    · exact b2 g hg

/-- **C151** A ledger that loads is loaded whole. -/
theorem C151_ledger (d : Disk) (today : Today) (limit : Nat) (n : Names) (st r : LoadState) (h : loadAllS d today limit n st = .ok r) :
    loadAll d today limit n st = .ok r ∧
      ∀ f, f = n.commodities ∨ f ∈ pricesFiles d n ∨ f = n.accounts ∨ f ∈ transactionFiles d n → ∃ text, d.read f = some text ∧ ¬ Long text := by
  unfold loadAllS at h
  obtain ⟨s1, h1, h⟩ := bind_ok.mp h
  obtain ⟨s2, h2, h⟩ := bind_ok.mp h
  obtain ⟨s3, h3, h4⟩ := bind_ok.mp h
  obtain ⟨a1, b1⟩ := C151_whole d today limit st _ s1 h1
  obtain ⟨a2, b2⟩ := loadEachS_whole d today limit _ s1 s2 h2
  obtain ⟨a3, b3⟩ := C151_whole d today limit s2 _ s3 h3
  obtain ⟨a4, b4⟩ := loadEachS_whole d today limit _ s3 r h4
  constructor
  · unfold loadAll loadPricesFile
    rw [a1]
    show ((loadEach d today limit s1 (pricesFiles d n)).bind fun st => _) = _
    rw [a2]
    show ((loadFile d today limit s2 n.accounts).bind fun st => _) = _
    rw [a3]
    exact a4
  · rintro f (rfl | hf | rfl | hf)
    · exact b1
    · exact b2 f hf
    · exact b3
    · exact b4 f hf

/-- **C151** Lines below the limit are all that is needed: without longer ones, in any file that can be read, loading is what
`Model/Load.lean` says. -/
theorem C151_short (d : Disk) (today : Today) (hd : ∀ fn text, d.read fn = some text → ¬ Long text) : ∀ (limit : Nat) (st : LoadState) (fn : Str),
    loadFileS d today limit st fn = loadFile d today limit st fn := by
  intro limit
  induction limit with
  | zero => intro st fn; rfl
  | succ n ih =>
    intro st fn
    unfold loadFileS loadFile
    cases hr : d.read fn with
    | none => rfl
    | some text =>
      obtain ⟨e1, e2⟩ := scannedLines_short (hd fn text hr)
      simp only []
      rw [e1, e2, loadReaderS_fine]
      have : loadFileS d today n = loadFile d today n := by funext st fn; exact ih st fn
      rw [this]

/-- A text with a long line. -/
def longLine (n : Nat) : Str := List.replicate n 'x'

theorem longLine_blen (n : Nat) : blen (longLine n) = n := by
  unfold longLine
  rw [blen_ascii _ (fun c hc => by rw [List.eq_of_mem_replicate hc]; decide), List.length_replicate]

theorem longLine_noNl (n : Nat) : '\n' ∉ longLine n := fun h => absurd (List.eq_of_mem_replicate h) (by decide)

/-- A comment of 64 KiB is too long; one byte less is not. -/
example : Long (str "; a\n" ++ (longLine 65536 ++ '\n' :: str "2000/01/01 x\n")) ∧ ¬ Long (str "; a\n" ++ (longLine 65535 ++ '\n' :: str "2000/01/01 x\n")) := by
  have e : ∀ n, splitOn '\n' (str "; a\n" ++ (longLine n ++ '\n' :: str "2000/01/01 x\n")) = [str "; a", longLine n, str "2000/01/01 x", []] := by
    intro n
    show splitOn '\n' (str "; a" ++ '\n' :: (longLine n ++ '\n' :: str "2000/01/01 x\n")) = _
    rw [splitOn_append_sep _ _ _ (by decide), splitOn_append_sep _ _ _ (longLine_noNl n)]
    rfl
  constructor
  · exact ⟨longLine 65536, by rw [e]; simp, by rw [longLine_blen]⟩
  · rintro ⟨l, hl, h⟩
    rw [e] at hl
    simp only [List.mem_cons, List.not_mem_nil, or_false] at hl
    rcases hl with rfl | rfl | rfl | rfl
    · exact absurd h (by decide)
    · rw [longLine_blen] at h; omega
    · exact absurd h (by decide)
    · exact absurd h (by decide)

/-- A ledger with includes that loads. -/
example : ∃ st, loadFileS (dirDisk exInclude) ⟨2020, 1, 1⟩ 5 ⟨[], str "CAD", []⟩ (str "main.coin") = .ok st := by
  have h : (loadFileS (dirDisk exInclude) ⟨2020, 1, 1⟩ 5 ⟨[], str "CAD", []⟩ (str "main.coin")).isOk = true := by decide +kernel
  cases hl : loadFileS (dirDisk exInclude) ⟨2020, 1, 1⟩ 5 ⟨[], str "CAD", []⟩ (str "main.coin") with
  | error f => rw [hl] at h; cases h
  | ok st => exact ⟨st, rfl⟩

/-! ## C152 -/

/-- **C152** ofx.rules: rules that are accepted were read whole, and long lines are never skipped. -/
theorem C152_ofx_rules (env : RuleEnv) (text : Str) (r : Option RuleIndex) (h : readRulesS env text = .ok r) :
    readRules env text = .ok r ∧ ¬ Long text := by
  unfold readRulesS at h
  obtain ⟨x, h1, h2⟩ := bind_ok.mp h
  have hl : ¬ Long text := by
    intro hl
    rw [(scanFailed_iff text).mpr hl] at h2
    cases h2
  refine ⟨?_, hl⟩
  obtain ⟨e1, e2⟩ := scannedLines_short hl
  rw [e2] at h2
  cases h2
  rw [e1] at h1
  exact h1

/-- **C152**, full statement: csv.rules that are accepted were read whole. -/
def C152_Statement : Prop := ∀ (env : RuleEnv) (text : Str) (r : CsvRules), readCsvRulesS env text = .ok r → readCsvRules env text = .ok r

/-- **C152** (what does hold) csv.rules accepted with rules for accounts were read whole; otherwise a long line follows the separator, and
none of the rules after it are there. Missing: that case must not occur. -/
theorem C152_csv_rules_partial (env : RuleEnv) (text : Str) (r : CsvRules) (h : readCsvRulesS env text = .ok r) :
    (readCsvRules env text = .ok r ∧ ¬ Long text) ∨ (Long text ∧ r.index = none) := by
  unfold readCsvRulesS at h
  simp only [] at h
  obtain ⟨x, h1, h2⟩ := bind_ok.mp h
  by_cases hl : Long text
  · right
    rw [(scanFailed_iff text).mpr hl] at h2
    simp only [true_and] at h2
    split at h2
    · cases h2
    · cases h2
      refine ⟨hl, ?_⟩
      rename_i hn
      simpa using hn
  · left
    refine ⟨?_, hl⟩
    obtain ⟨e1, e2⟩ := scannedLines_short hl
    rw [e2] at h2
    simp only [Bool.false_eq_true, false_and, if_false] at h2
    cases h2
    rw [e1] at h1
    exact h1

/-- The field line of the example. -/
def shortField : CField := ⟨some 0, [], [], none⟩

theorem example_source (rest : List Str) : scanSource (fun _ => true) (str "bank 1") (str "  account 0" :: str "---" :: rest) =
    .ok (⟨str "bank", 1, [(str "account", shortField)]⟩, str "---" :: rest) := by
  have h1 : (sourceRe.matchAt (str "bank 1")).map (fun m => (m.1.get (str "skip"), m.1.get (str "source"))) = some (str "1", str "bank") := by
    decide +kernel
  have h2 : (fieldRe.matchAt (str "  account 0")).map (fun m => ((fieldLine (fun _ => true) m.1).toOption, m.1.get (str "field"))) =
      some (some shortField, str "account") := by decide +kernel
  have h3 : (fieldRe.matchAt (str "---")).isNone = true := by decide +kernel
  unfold scanSource
  rcases e1 : sourceRe.matchAt (str "bank 1") with _ | m
  · rw [e1] at h1; cases h1
  · rw [e1] at h1
    simp only [Option.map_some, Option.some.injEq, Prod.mk.injEq] at h1
    simp only []
    rw [h1.1, h1.2]
    have : checkNoError (parseInt64 (str "1")) = .ok 1 := by decide +kernel
    refine bind_ok.mpr ⟨1, this, ?_⟩
    rw [if_neg (by simp)]
    have hloop : fieldLoop (fun _ => true) (str "  account 0" :: str "---" :: rest) = .ok ([(str "account", shortField)], str "---" :: rest) := by
      rw [fieldLoop]
      rcases e2 : fieldRe.matchAt (str "  account 0") with _ | k
      · rw [e2] at h2; cases h2
      · rw [e2] at h2
        simp only [Option.map_some, Option.some.injEq, Prod.mk.injEq] at h2
        simp only []
        rw [h2.2]
        have hf : fieldLine (fun _ => true) k.1 = .ok shortField := by
          cases hx : fieldLine (fun _ => true) k.1 with
          | error f => rw [hx] at h2; cases h2.1
          | ok f => rw [hx] at h2; simp only [Except.toOption, Option.some.injEq] at h2; rw [h2.1]
        rw [hf]
        have : fieldLoop (fun _ => true) (str "---" :: rest) = .ok ([], str "---" :: rest) := by
          rw [fieldLoop]
          rw [Option.isNone_iff_eq_none.mp h3]
        show ((fieldLoop (fun _ => true) (str "---" :: rest)).bind fun r => _) = _
        rw [this]
        rfl
    exact bind_ok.mpr ⟨_, hloop, rfl⟩

theorem readSources_step (env : RuleEnv) (n : Nat) (srcs : List Source) (line : Str) (rest : List Str) (h : line ≠ str "---") :
    readSources env (n + 1) srcs (line :: rest) = (scanSource env.compiles line rest).bind fun r => readSources env n (r.1 :: srcs) r.2 := by
  conv_lhs => unfold readSources
  rw [if_neg h]

/-- A rule of 64 KiB right after the separator: all rules for accounts are dropped, without a message. -/
theorem C152_csv_rules_violated : ¬ C152_Statement := by
  intro h
  let env : RuleEnv := ⟨fun n => .ok n, fun _ => true⟩
  obtain ⟨text, htext⟩ : ∃ t, t = str "bank 1\n  account 0\n---\n" ++ (longLine 65536 ++ '\n' :: str "1 Cash\n  Food x\n") := ⟨_, rfl⟩
  have e : splitOn '\n' text = [str "bank 1", str "  account 0", str "---", longLine 65536, str "1 Cash", str "  Food x", []] := by
    rw [htext]
    show splitOn '\n' (str "bank 1" ++ '\n' :: (str "  account 0" ++ '\n' :: (str "---" ++ '\n' :: (longLine 65536 ++ '\n' :: str "1 Cash\n  Food x\n")))) = _
    rw [splitOn_append_sep _ _ _ (by decide), splitOn_append_sep _ _ _ (by decide), splitOn_append_sep _ _ _ (by decide),
      splitOn_append_sep _ _ _ (longLine_noNl _)]
    rfl
  have er : rawLines text = [str "bank 1", str "  account 0", str "---", longLine 65536, str "1 Cash", str "  Food x"] := by
    unfold rawLines
    rw [e]
    rfl
  have ht : tooLong (longLine 65536) = true := by unfold tooLong; rw [longLine_blen]; decide
  have es : scannedLines text = [str "bank 1", str "  account 0", str "---"] := by
    unfold scannedLines
    rw [er]
    have t1 : tooLong (str "bank 1") = false := by decide
    have t2 : tooLong (str "  account 0") = false := by decide
    have t3 : tooLong (str "---") = false := by decide
    simp only [List.takeWhile_cons, t1, t2, t3, ht, Bool.not_true, Bool.not_false, if_true, Bool.false_eq_true, if_false]
    decide
  have h1 : readCsvRulesS env text = .ok ⟨[⟨str "bank", 1, [(str "account", shortField)]⟩], none⟩ := by
    unfold readCsvRulesS
    rw [es]
    have : readSources env ([str "bank 1", str "  account 0", str "---"].length + 1) [] [str "bank 1", str "  account 0", str "---"] =
        .ok ⟨[⟨str "bank", 1, [(str "account", shortField)]⟩], none⟩ := by
      show readSources env 4 [] _ = _
      rw [readSources_step env 3 _ _ _ (by decide), example_source]
      rfl
    simp only []
    rw [this]
    show (if scanFailed text = true ∧ false = true then _ else _) = _
    rw [if_neg (by simp)]
  have h2 := h env text _ h1
  have el : ∃ l, scanLines text = [str "bank 1", str "  account 0", str "---", l, str "1 Cash", str "  Food x"] := by
    refine ⟨dropCR (longLine 65536), ?_⟩
    have : scanLines text = (rawLines text).map dropCR := rfl
    rw [this, er]
    have d1 : dropCR (str "bank 1") = str "bank 1" := by decide
    have d2 : dropCR (str "  account 0") = str "  account 0" := by decide
    have d3 : dropCR (str "---") = str "---" := by decide
    have d4 : dropCR (str "1 Cash") = str "1 Cash" := by decide
    have d5 : dropCR (str "  Food x") = str "  Food x" := by decide
    simp only [List.map_cons, List.map_nil, d1, d2, d3, d4, d5]
  obtain ⟨l, el⟩ := el
  unfold readCsvRules at h2
  rw [el] at h2
  have h3 : readSources env 7 [] [str "bank 1", str "  account 0", str "---", l, str "1 Cash", str "  Food x"] = .ok ⟨[⟨str "bank", 1, [(str "account", shortField)]⟩], none⟩ := h2
  rw [readSources_step env 6 _ _ _ (by decide), example_source] at h3
  have h4 : readSources env 6 [⟨str "bank", 1, [(str "account", shortField)]⟩] [str "---", l, str "1 Cash", str "  Food x"] =
    .ok ⟨[⟨str "bank", 1, [(str "account", shortField)]⟩], none⟩ := h3
  unfold readSources at h4
  rw [if_pos rfl] at h4
  obtain ⟨ri, _, h5⟩ := bind_ok.mp h4
  cases h5

example : ∃ r, readRulesS exRuleEnv exFile = .ok (some r) := by
  have h : (readRulesS exRuleEnv exFile).toOption.isSome = true := by decide +kernel
  have h' : (readRulesS exRuleEnv exFile).toOption.map (·.isSome) = some true := by decide +kernel
  cases hl : readRulesS exRuleEnv exFile with
  | error f => rw [hl] at h; cases h
  | ok st =>
    rw [hl] at h'
    cases st with
    | none => cases h'
    | some r => exact ⟨r, rfl⟩

end Verif
