import Verif.Props.TableOut
import Verif.Lemmas.Json
/-!
# Properties C140, C141: `register -o csv` and `-o json` can be read back
-/
namespace Verif

/-! ## Specification: reading comma separated values (RFC 4180, lines ended by a newline)

A reader of one character at a time. Between quotes everything is part of the field and `""` is a quote; outside, a comma ends the field
and a newline the record; a quote or a carriage return in an unquoted field is an error; empty lines are skipped. -/

inductive CsvMode
  | start    -- at the start of a field
  | bare     -- in an unquoted field
  | quoted   -- between quotes
  | closing  -- after a quote between quotes
  deriving DecidableEq

structure CsvState where
  mode : CsvMode
  field : Str
  row : List Str
  rows : List (List Str)
  deriving DecidableEq

def CsvState.endField (s : CsvState) : CsvState := ⟨.start, [], s.row ++ [s.field], s.rows⟩
def CsvState.endRow (s : CsvState) : CsvState := ⟨.start, [], [], s.rows ++ [s.row ++ [s.field]]⟩
def CsvState.put (s : CsvState) (m : CsvMode) (c : Char) : CsvState := ⟨m, s.field ++ [c], s.row, s.rows⟩

def csvStep (s : CsvState) (c : Char) : Option CsvState :=
  match s.mode with
  | .start =>
    if c = '"' then some ⟨.quoted, [], s.row, s.rows⟩
    else if c = ',' then some s.endField
    else if c = '\n' then (if s.row = [] then some s else some s.endRow)
    else if c = '\r' then none
    else some (s.put .bare c)
  | .bare =>
    if c = '"' ∨ c = '\r' then none
    else if c = ',' then some s.endField
    else if c = '\n' then some s.endRow
    else some (s.put .bare c)
  | .quoted => if c = '"' then some ⟨.closing, s.field, s.row, s.rows⟩ else some (s.put .quoted c)
  | .closing =>
    if c = '"' then some (s.put .quoted c)
    else if c = ',' then some s.endField
    else if c = '\n' then some s.endRow
    else none

def csvSteps : CsvState → Str → Option CsvState
  | s, [] => some s
  | s, c :: t => (csvStep s c).bind fun s => csvSteps s t

/-- The records of a text; the last one must be ended too. -/
def csvRead (s : Str) : Option (List (List Str)) :=
  (csvSteps ⟨.start, [], [], []⟩ s).bind fun r => if r.mode = .start ∧ r.row = [] then some r.rows else none

/-! ## C140 -/

theorem csvSteps_append : ∀ (a b : Str) (s : CsvState), csvSteps s (a ++ b) = (csvSteps s a).bind fun s => csvSteps s b
  | [], b, s => rfl
  | c :: a, b, s => by
    rw [List.cons_append]
    simp only [csvSteps]
    cases csvStep s c with
    | none => rfl
    | some s' => simp only [Option.bind_some]; exact csvSteps_append a b s'

theorem csvSteps_quoted (row : List Str) (rows : List (List Str)) : ∀ (s : Str) (f : Str),
    csvSteps ⟨.quoted, f, row, rows⟩ (s.flatMap (fun c => if c = '"' then ['"', '"'] else [c])) = some ⟨.quoted, f ++ s, row, rows⟩
  | [], f => by simp [csvSteps]
  | c :: s, f => by
    rw [List.flatMap_cons, csvSteps_append]
    by_cases h : c = '"'
    · subst h
      simp only [if_pos, csvSteps, csvStep, CsvState.put, Option.bind_some]
      rw [csvSteps_quoted row rows s]
      simp
    · simp only [if_neg h, csvSteps, csvStep, CsvState.put, Option.bind_some]
      rw [csvSteps_quoted row rows s]
      simp

theorem csvSteps_bare (row : List Str) (rows : List (List Str)) : ∀ (s : Str) (f : Str),
    (∀ c ∈ s, c ≠ ',' ∧ c ≠ '"' ∧ c ≠ '\r' ∧ c ≠ '\n') → csvSteps ⟨.bare, f, row, rows⟩ s = some ⟨.bare, f ++ s, row, rows⟩
  | [], f, _ => by simp [csvSteps]
  | c :: s, f, h => by
    obtain ⟨h1, h2, h3, h4⟩ := h c (by simp)
    simp only [csvSteps, csvStep, CsvState.put, h1, h2, h3, h4, or_self, if_false, Option.bind_some]
    rw [csvSteps_bare row rows s _ (fun c hc => h c (by simp [hc]))]
    simp

/-- The state after the text of a field. -/
theorem csvSteps_field (row : List Str) (rows : List (List Str)) (s : Str) :
    ∃ m, csvSteps ⟨.start, [], row, rows⟩ (csvField s) = some ⟨m, s, row, rows⟩ ∧ m ≠ .quoted ∧ (m = .start → s = []) := by
  unfold csvField
  by_cases hq : needsQuotes s = true
  · rw [if_pos hq]
    refine ⟨.closing, ?_, by decide, by intro h; cases h⟩
    simp only [csvSteps, csvStep, if_pos, Option.bind_some]
    rw [csvSteps_append, csvSteps_quoted row rows s []]
    simp [csvSteps, csvStep]
  · rw [if_neg hq]
    cases s with
    | nil => exact ⟨.start, rfl, by decide, fun _ => rfl⟩
    | cons c s =>
      have hs : ∀ x ∈ c :: s, x ≠ ',' ∧ x ≠ '"' ∧ x ≠ '\r' ∧ x ≠ '\n' := by
        intro x hx
        simp only [needsQuotes, Bool.or_eq_true, not_or, Bool.not_eq_true, List.any_eq_false, decide_eq_true_eq] at hq
        have := hq.1.2 x hx
        exact ⟨this.1.1.1, this.1.1.2, this.1.2, this.2⟩
      obtain ⟨h1, h2, h3, h4⟩ := hs c (by simp)
      refine ⟨.bare, ?_, by decide, by intro h; cases h⟩
      simp only [csvSteps, csvStep, CsvState.put, h1, h2, h3, h4, if_false, Option.bind_some, List.nil_append]
      rw [csvSteps_bare row rows s _ (fun x hx => hs x (by simp [hx]))]
      simp

/-- What follows a field: a comma or a newline. -/
theorem csvStep_comma {m : CsvMode} (hm : m ≠ .quoted) (f : Str) (row : List Str) (rows : List (List Str)) :
    csvStep ⟨m, f, row, rows⟩ ',' = some ⟨.start, [], row ++ [f], rows⟩ := by
  cases m with
  | quoted => exact absurd rfl hm
  | start => rfl
  | bare => rfl
  | closing => rfl

theorem csvStep_newline {m : CsvMode} (hm : m ≠ .quoted) (f : Str) (row : List Str) (rows : List (List Str)) (h : m = .start → row ≠ []) :
    csvStep ⟨m, f, row, rows⟩ '\n' = some ⟨.start, [], [], rows ++ [row ++ [f]]⟩ := by
  cases m with
  | quoted => exact absurd rfl hm
  | start => simp [csvStep, h rfl, CsvState.endRow]
  | bare => rfl
  | closing => rfl

theorem csvSteps_row (rows : List (List Str)) : ∀ (r row : List Str), r ≠ [] → row ++ r ≠ [[]] →
    csvSteps ⟨.start, [], row, rows⟩ (joinWith [','] (r.map csvField) ++ ['\n']) = some ⟨.start, [], [], rows ++ [row ++ r]⟩
  | [], _, h, _ => absurd rfl h
  | [f], row, _, h => by
    obtain ⟨m, hm, hq, hs⟩ := csvSteps_field row rows f
    simp only [List.map_cons, List.map_nil, joinWith]
    rw [csvSteps_append, hm, Option.bind_some]
    simp only [csvSteps]
    rw [csvStep_newline hq]
    · rfl
    · intro hms hr
      rw [hr, hs hms] at h
      exact h rfl
  | f :: g :: r, row, _, _ => by
    obtain ⟨m, hm, hq, hs⟩ := csvSteps_field row rows f
    have ih := csvSteps_row rows (g :: r) (row ++ [f]) (by simp) (by
      intro e
      have := congrArg List.length e
      simp only [List.length_append, List.length_cons, List.length_nil] at this
      omega)
    simp only [List.map_cons, joinWith] at ih ⊢
    rw [List.append_assoc, List.append_assoc, csvSteps_append, hm, Option.bind_some, csvSteps_append]
    simp only [csvSteps, csvStep_comma hq, Option.bind_some]
    rw [ih]
    simp

/-- **C140** Whatever is in the fields (commas, quotes, line ends), the csv text reads back as the same records, provided every record
has a field and none is a single empty field (a blank line). -/
theorem C140_csv_reads_back (rs : List (List Str)) (h : ∀ r ∈ rs, r ≠ [] ∧ r ≠ [[]]) : csvRead (csvText rs) = some rs := by
  have key : ∀ (rs rows : List (List Str)), (∀ r ∈ rs, r ≠ [] ∧ r ≠ [[]]) →
      csvSteps ⟨.start, [], [], rows⟩ (csvText rs) = some ⟨.start, [], [], rows ++ rs⟩ := by
    intro rs
    induction rs with
    | nil => intro rows _; simp [csvText, csvSteps]
    | cons r rs ih =>
      intro rows h
      obtain ⟨h1, h2⟩ := h r (by simp)
      have : csvText (r :: rs) = (joinWith [','] (r.map csvField) ++ ['\n']) ++ csvText rs := by simp [csvText]
      rw [this, csvSteps_append, csvSteps_row rows r [] h1 (by simpa using h2), Option.bind_some, ih _ (fun r hr => h r (by simp [hr]))]
      simp
  unfold csvRead
  rw [key rs [] h]
  simp

/-- A description with a comma, quotes and a blank in front. -/
example : csvText [[str "Date", str "Category"], [str "2024/05", str " the \"Shop\", Ltd"]] =
    str "Date,Category\n2024/05,\" the \"\"Shop\"\", Ltd\"\n" := by decide

/-! ### the rows -/

theorem rowStrings_spec : ∀ (l : List (Option Amount)) (ss : List Str), rowStrings l = .ok ss →
    List.Forall₂ (fun o s => ∃ a : Amount, o = some a ∧ a.string = .ok s) l ss := by
  intro l
  induction l with
  | nil => intro ss h; injection h with h; subst h; exact .nil
  | cons o l ih =>
    intro ss h
    cases o with
    | none => simp [rowStrings] at h
    | some a =>
      simp only [rowStrings] at h
      obtain ⟨s, hs, h⟩ := bind_ok.mp h
      obtain ⟨r, hr, h⟩ := bind_ok.mp h
      injection h with h; subst h
      exact .cons ⟨a, rfl, hs⟩ (ih r hr)

theorem rowStrings_total : ∀ (l : List (Option Amount)), (∀ o ∈ l, ∃ (a : Amount) (s : Str), o = some a ∧ a.string = .ok s) → ∃ ss, rowStrings l = .ok ss := by
  intro l
  induction l with
  | nil => intro _; exact ⟨[], rfl⟩
  | cons o l ih =>
    intro h
    obtain ⟨ss, hss⟩ := ih (fun o ho => h o (by simp [ho]))
    obtain ⟨a, s, rfl, hs⟩ := h o (by simp)
    exact ⟨s :: ss, by simp only [rowStrings, hs, hss, Except.bind]⟩

/-- A record: date if there are periods, category if there are categories, the printed amounts. -/
def PlainRow (fmtT : Option (Int → Str)) (cat : Bool) (row : Int × Str × List (Option Amount)) (fields : List Str) : Prop :=
  ∃ amounts, List.Forall₂ (fun o s => ∃ a : Amount, o = some a ∧ a.string = .ok s) row.2.2 amounts ∧
    fields = leadTexts fmtT.isSome cat (periodText fmtT row.1) row.2.1 ++ amounts

theorem plainRow_spec {fmtT : Option (Int → Str)} {cat : Bool} {row : Int × Str × List (Option Amount)} {fields : List Str}
    (h : plainRow fmtT cat row = .ok fields) : PlainRow fmtT cat row fields := by
  unfold plainRow at h
  obtain ⟨ss, hss, h⟩ := bind_ok.mp h
  injection h with h
  refine ⟨ss, rowStrings_spec _ _ hss, ?_⟩
  rw [← h]
  unfold leadTexts periodText
  cases fmtT <;> cases cat <;> rfl

theorem plainRowsOf_spec (fmtT : Option (Int → Str)) (cat : Bool) : ∀ (l : List (Int × Str × List (Option Amount))) (rs : List (List Str)),
    plainRowsOf fmtT cat l = .ok rs → List.Forall₂ (PlainRow fmtT cat) l rs := by
  intro l
  induction l with
  | nil => intro rs h; injection h with h; subst h; exact .nil
  | cons r l ih =>
    intro rs h
    simp only [plainRowsOf] at h
    obtain ⟨x, hx, h⟩ := bind_ok.mp h
    obtain ⟨xs, hxs, h⟩ := bind_ok.mp h
    injection h with h; subst h
    exact .cons (plainRow_spec hx) (ih xs hxs)

theorem plainRowsOf_total (fmtT : Option (Int → Str)) (cat : Bool) : ∀ (l : List (Int × Str × List (Option Amount))),
    (∀ row ∈ l, ∀ o ∈ row.2.2, ∃ (a : Amount) (s : Str), o = some a ∧ a.string = .ok s) → ∃ rs, plainRowsOf fmtT cat l = .ok rs := by
  intro l
  induction l with
  | nil => intro _; exact ⟨[], rfl⟩
  | cons r l ih =>
    intro h
    obtain ⟨rs, hrs⟩ := ih (fun r hr => h r (by simp [hr]))
    obtain ⟨ss, hss⟩ := rowStrings_total r.2.2 (h r (by simp))
    simp only [plainRowsOf, plainRow, hss, hrs, Except.bind]
    exact ⟨_, rfl⟩

/-- The lines of the json output, each a JSON value. -/
def jsonLinesRead (s : Str) : Option (List JVal) :=
  match (splitOn '\n' s).reverse with
  | [] :: ls => ls.reverse.mapM jsonParse
  | _ => none

/-! ## C141 -/

theorem jsonRow_noNewline (r : List Str) : '\n' ∉ jsonRow r := by
  have hchar : ∀ c : Char, '\n' ∉ jsonChar c := by
    intro c
    unfold jsonChar
    split
    · decide
    split
    · decide
    split
    · decide
    split
    · decide
    split
    · decide
    split
    · decide
    split
    · decide
    split
    · have hx : ∀ d : Fin 16, hexChar d ≠ '\n' := by decide
      have hx' : ∀ n : Nat, hexChar (n % 16) ≠ '\n' := fun n => hx ⟨n % 16, by omega⟩
      unfold uEscape
      simp only [List.mem_cons, List.not_mem_nil, or_false, not_or]
      exact ⟨by decide, by decide, (hx' _).symm, (hx' _).symm, (hx' _).symm, (hx' _).symm⟩
    · rename_i h _ _ _ _ _
      simp only [List.mem_cons, List.not_mem_nil, or_false]
      exact fun e => h e.symm
  have hstr : ∀ s : Str, '\n' ∉ jsonStr s := by
    intro s
    unfold jsonStr
    simp only [List.mem_cons, List.mem_append, List.mem_flatMap, List.not_mem_nil, or_false, not_or, not_exists, not_and]
    exact ⟨by decide, fun c _ => hchar c, by decide⟩
  unfold jsonRow
  have hj : ∀ l : List Str, (∀ x ∈ l, '\n' ∉ x) → '\n' ∉ joinWith [','] l := by
    intro l
    induction l with
    | nil => intro _; simp [joinWith]
    | cons x l ih =>
      intro h
      cases l with
      | nil => simpa [joinWith] using h x (by simp)
      | cons y l =>
        have := ih (fun x hx => h x (by simp [hx]))
        simp only [joinWith, List.mem_append, not_or]
        exact ⟨⟨h x (by simp), by decide⟩, this⟩
  simp only [List.mem_cons, List.mem_append, List.not_mem_nil, or_false, not_or]
  refine ⟨by decide, hj _ ?_, by decide⟩
  intro x hx
  obtain ⟨s, _, rfl⟩ := List.mem_map.mp hx
  exact hstr s

theorem jsVal_string (n : Nat) (s rest : Str) : jsVal (n + 1) (jsonStr s ++ rest) = some (.str s, rest) := by
  unfold jsonStr
  simp only [List.cons_append, List.append_assoc, List.nil_append]
  rw [(jsVal_lit n _ _).2.2.2 (jsWs_cons _ (by decide)), jsChars_str]; rfl

theorem jsElems_strings : ∀ (l : List Str) (n : Nat), l.length + 2 ≤ n →
    jsElems n ((l.flatMap fun s => ',' :: jsonStr s) ++ [']']) = some (l.map JVal.str, [])
  | [], n, hn => by
    obtain ⟨m, rfl⟩ : ∃ m, n = m + 1 := ⟨n - 1, by simp only [List.length_nil] at hn; omega⟩
    exact (jsElems_step m _ []).1 (jsWs_cons _ (by decide))
  | s :: l, n, hn => by
    simp only [List.length_cons] at hn
    obtain ⟨m, rfl⟩ : ∃ m, n = m + 2 := ⟨n - 2, by omega⟩
    rw [List.flatMap_cons, List.cons_append, List.cons_append, List.append_assoc]
    rw [(jsElems_step (m + 1) _ _).2 (jsWs_cons _ (by decide)), jsVal_string, Option.bind_some, jsElems_strings l (m + 1) (by omega)]
    rfl

theorem jsonRow_cons (s : Str) (l : List Str) : jsonRow (s :: l) = '[' :: (jsonStr s ++ ((l.flatMap fun s => ',' :: jsonStr s) ++ [']'])) := by
  have : ∀ (l : List Str) (s : Str), joinWith [','] ((s :: l).map jsonStr) = jsonStr s ++ (l.flatMap fun s => ',' :: jsonStr s) := by
    intro l
    induction l with
    | nil => intro s; simp [joinWith]
    | cons t l ih =>
      intro s
      have := ih t
      simp only [List.map_cons] at this
      simp only [List.map_cons, joinWith, this, List.flatMap_cons]
      simp
  unfold jsonRow
  rw [this]
  simp

/-- A row reads back as the array of its strings. -/
theorem jsonRow_parse (r : List Str) : jsonParse (jsonRow r) = some (.arr (r.map JVal.str)) := by
  cases r with
  | nil => rfl
  | cons s l =>
    have hlen : (jsonRow (s :: l)).length ≥ l.length + 3 := by
      rw [jsonRow_cons]
      simp only [List.length_cons, List.length_append, List.length_nil, List.length_flatMap]
      have h1 : ∀ l : List Str, l.length ≤ (l.map fun s => (jsonStr s).length + 1).sum := by
        intro l
        induction l with
        | nil => simp
        | cons x l ih => simp only [List.map_cons, List.sum_cons, List.length_cons]; omega
      have := h1 l
      have h2 : 2 ≤ (jsonStr s).length := by unfold jsonStr; simp
      omega
    unfold jsonParse
    generalize hn : 3 * (jsonRow (s :: l)).length + 3 = n
    obtain ⟨m, rfl⟩ : ∃ m, n = m + 2 := ⟨n - 2, by omega⟩
    rw [jsonRow_cons]
    have hj : jsonStr s ++ ((l.flatMap fun s => ',' :: jsonStr s) ++ [']']) =
        '"' :: ((s.flatMap jsonChar ++ ['"']) ++ ((l.flatMap fun s => ',' :: jsonStr s) ++ [']'])) := by
      unfold jsonStr; rfl
    rw [jsVal_arr (m + 1) _ _ _ '"' (jsWs_cons _ (by decide)) (by rw [hj]; exact jsWs_cons _ (by decide)) (by decide), ← hj, jsVal_string,
      Option.bind_some, jsElems_strings l (m + 1) (by omega)]
    rfl

/-- **C141** Every line of the json output is a JSON array of the strings of the row, whatever is in them. -/
theorem C141_json_reads_back (rs : List (List Str)) : jsonLinesRead (jsonLines rs) = some (rs.map fun r => .arr (r.map JVal.str)) := by
  have hs : splitOn '\n' (jsonLines rs) = rs.map jsonRow ++ [[]] := by
    induction rs with
    | nil => rfl
    | cons r rs ih =>
      have : jsonLines (r :: rs) = jsonRow r ++ '\n' :: jsonLines rs := by simp [jsonLines]
      rw [this, splitOn_append_sep _ _ _ (jsonRow_noNewline r), ih]
      rfl
  unfold jsonLinesRead
  rw [hs]
  simp only [List.reverse_append, List.reverse_cons, List.reverse_nil, List.nil_append, List.cons_append, List.reverse_reverse]
  have : ∀ rs : List (List Str), (rs.map jsonRow).mapM jsonParse = some (rs.map fun r => .arr (r.map JVal.str)) := by
    intro rs
    induction rs with
    | nil => rfl
    | cons r rs ih => simp [List.mapM_cons, jsonRow_parse, ih]
  exact this rs

/-! ## The whole command -/

/-- **C140, C141** for the whole command: with `-g` large enough, something selected and no empty category, `register -o csv` (and
`-o json`) writes a text that reads back as the header (`Date` with periods, `Category` with categories, the labels of the columns) and one
record for every period and category in which a selected posting falls: its date, its category and, in the column of an account, the exact
sum of that account's postings (including those below it with `-r`, and up to the period with `-c`). -/
theorem C140_register_csv {dflt : Str} {decls accts : List Acct} {L : Links} {env : Env} {compile : Compile} {v : View} {f : Filters}
    {red : Reducers} {r : Str} {c : Com} {fuel : Nat} (x : AggCtx dflt decls accts L env compile v f red r c fuel) (recurse cumulative : Bool)
    (l sorted : List (Str × TS)) (hl : aggTotals env compile v L fuel f red recurse r = .ok l) (hsort : BySize env.conv l sorted)
    (n : Nat) (hn : l.length ≤ n) (hcum : cumulative = true → red.category = none)
    (hsome : columnPostings compile v f (accts.map (·.fullName)) true r ≠ [])
    (hempty : ∀ p ∈ columnPostings compile v f (accts.map (·.fullName)) true r, keyOf red p ≠ some [])
    (fmtT : Option (Int → Str)) (hft : fmtT.isSome = red.time.isSome) (label : Option Str → Str) (hd : c.decimals ≤ 50) :
    ∃ cols rows, aggColumns env red n cumulative r sorted = .ok cols ∧ outputRows true cols = .ok rows ∧
      (rows.map (fun row => (row.1, row.2.1))).Pairwise RowLt ∧
      (∀ t s, (t, s) ∈ rows.map (fun row => (row.1, row.2.1)) ↔
        occursAt red v (columnPostings compile v f (accts.map (·.fullName)) true r) t (keyFor red.category.isSome s) ∧
        (red.category.isSome = false → s = [])) ∧
      (∀ row ∈ rows, row.2.2 = cols.map (fun e => some
        ⟨cellSum red v cumulative (columnPostings compile v f (accts.map (·.fullName)) recurse (e.1.getD [])) row.1
          (keyFor red.category.isSome row.2.1), c⟩)) ∧
      ∃ rs fields, plainRows fmtT red.category.isSome label cols = .ok rs ∧
        rs = (leadTexts fmtT.isSome red.category.isSome (str "Date") (str "Category") ++ cols.map (fun e => label e.1)) :: fields ∧
        List.Forall₂ (PlainRow fmtT red.category.isSome) rows fields ∧
        csvRead (csvText rs) = some rs ∧ jsonLinesRead (jsonLines rs) = some (rs.map fun r => .arr (r.map JVal.str)) := by
  obtain ⟨cols, rows, h1, h2, h3, h4, h5, h6, h7, h8⟩ := C72_aggregated_values x recurse cumulative true l sorted hl hsort n hn hcum hsome hempty
  refine ⟨cols, rows, h1, h2, h6, h7, h8, ?_⟩
  obtain ⟨fields, hf⟩ := plainRowsOf_total fmtT red.category.isSome rows (by
    intro row hrow o ho
    rw [h8 row hrow] at ho
    obtain ⟨e, _, rfl⟩ := List.mem_map.mp ho
    have hs := string_ok ⟨cellSum red v cumulative (columnPostings compile v f (accts.map (·.fullName)) recurse (e.1.getD [])) row.1
          (keyFor red.category.isSome row.2.1), c⟩ hd
    exact ⟨_, _, rfl, hs⟩)
  have hspec := plainRowsOf_spec _ _ _ _ hf
  have hlead : fmtT.isSome = true ∨ red.category.isSome = true := by rw [hft]; exact x.reduces
  have hcols : cols ≠ [] := by
    rintro rfl
    simp [outputRows] at h2
  obtain ⟨e, es, hes⟩ := List.exists_cons_of_ne_nil hcols
  have two' : ∀ (p s : Str) (l : List Str), l ≠ [] → leadTexts fmtT.isSome red.category.isSome p s ++ l ≠ [] ∧
      leadTexts fmtT.isSome red.category.isSome p s ++ l ≠ [[]] := by
    intro p s l hl
    obtain ⟨y, ys, rfl⟩ := List.exists_cons_of_ne_nil hl
    have hlen : 1 ≤ (leadTexts fmtT.isSome red.category.isSome p s).length := by
      unfold leadTexts
      rcases hlead with h | h <;> simp [h]
    refine ⟨by simp, fun e => ?_⟩
    have := congrArg List.length e
    simp only [List.length_append, List.length_cons, List.length_nil] at this
    omega
  have hhead : plainHeader fmtT red.category.isSome label cols =
      leadTexts fmtT.isSome red.category.isSome (str "Date") (str "Category") ++ cols.map (fun e => label e.1) := rfl
  refine ⟨_, fields, by unfold plainRows; rw [h2]; simp only [Except.bind]; rw [hf], by rw [hhead], hspec, C140_csv_reads_back _ ?_, C141_json_reads_back _⟩
  intro row hrow
  rcases List.mem_cons.mp hrow with rfl | hrow
  · rw [hhead]
    exact two' _ _ _ (by rw [hes]; simp)
  · obtain ⟨row', hr', amounts, ha, rfl⟩ := forall2_mem_right hspec row hrow
    refine two' _ _ _ ?_
    rintro rfl
    rw [h8 row' hr', hes] at ha
    cases ha

/-- The full statement: `-o csv` works for every register. -/
def C140_Statement : Prop :=
  ∀ (fmtT : Option (Int → Str)) (label : Option Str → Str) (cols : Columns), PeriodFormat fmtT → TableOk cols → fmtT.isSome = true → cols ≠ [] →
    (∀ e ∈ cols, e.2.map (·.time) = (cols.head?.map (fun e => e.2.map (·.time))).getD []) → (∀ e ∈ cols, e.2 ≠ []) →
    ∃ rs, plainRows fmtT true label cols = .ok rs ∧ csvRead (csvText rs) = some rs

/-- **C140** fails on a transaction without a description (`register -bp -m -o csv`): the command panics. -/
theorem C140_csv_violated : ¬ C140_Statement := by
  intro h
  obtain ⟨rs, hr, _⟩ := h (some formatMonth) (fun _ => str "A") nilCols (.inr (.inr (.inl rfl))) (by
    have hy : goYear 730000 = 1999 := by decide +kernel
    refine ⟨?_, ?_⟩
    · intro e he
      simp only [nilCols, List.mem_singleton] at he
      subst he
      refine ⟨sampleCom, by decide, ?_⟩
      intro x hx
      simp only [List.mem_singleton] at hx
      subst hx
      exact ⟨by decide, by decide⟩
    · intro e he x hx
      simp only [nilCols, List.mem_singleton] at he
      subst he
      simp only [List.mem_singleton] at hx
      subst hx
      rw [hy]; decide) rfl (by decide) (by decide) (by decide)
  have hp : (plainRows (some formatMonth) true (fun _ => str "A") nilCols).toOption = none := by decide +kernel
  rw [hr] at hp
  cases hp

end Verif
