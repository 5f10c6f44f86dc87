import Verif.Model.Csv
import Verif.Lemmas.Basic
import Verif.Lemmas.Ledger
import Verif.Props.Import
/-
C95–C98: the values csv2coin extracts from a row, and the transaction it makes from them.
-/
namespace Verif

/-! ## C95: the value of a field -/

/-- A template in pieces: text and references. -/
inductive Piece
  | text (s : Str)
  | ref (name : Str)
  deriving DecidableEq

/-- How a piece is written in the template of a derivation rule: `${name}`. -/
def Piece.derived : Piece → Str
  | .text s => s
  | .ref n => str "${" ++ n ++ str "}"

/-- How a piece is written in the template of an extraction rule: `$1`. -/
def Piece.extracted : Piece → Str
  | .text s => s
  | .ref n => str "$" ++ n

/-- The text with each reference replaced by its value, from left to right. -/
def fill (value : Str → Except Fault Str) : List Piece → Except Fault Str
  | [] => .ok []
  | .text s :: ps => (fill value ps).bind fun r => .ok (s ++ r)
  | .ref n :: ps => (value n).bind fun v => (fill value ps).bind fun r => .ok (v ++ r)

theorem joinWith_nil : ∀ l : List Str, joinWith [] l = l.flatten
  | [] => rfl
  | [a] => by simp [joinWith]
  | a :: b :: t => by
    have := joinWith_nil (b :: t)
    simp only [joinWith, List.append_nil, this]
    simp

theorem expand_eq {one : Str → Except Fault Str} {out h : Str} {t : List Str} (e : splitOn '$' out = h :: t) :
    expand one out = (expandParts one t).bind fun ss => .ok (h ++ ss.flatten) := by
  have ho : out = joinWith ['$'] (h :: t) := by rw [← e, joinWith_splitOn]
  unfold expand
  rw [e]
  cases t with
  | nil => simp only [expandParts, Except.bind, List.flatten_nil, List.append_nil]; rw [ho]; rfl
  | cons p ps =>
    simp only []
    congr 1
    funext ss
    rw [joinWith_nil]; rfl

theorem splitOn_text {c : Char} {s r h : Str} {t : List Str} (hs : c ∉ s) (e : splitOn c r = h :: t) : splitOn c (s ++ r) = (s ++ h) :: t := by
  induction s with
  | nil => exact e
  | cons x s ih =>
    have hx : x ≠ c := fun h => hs (by simp [h])
    rw [List.cons_append, splitOn, if_neg hx, ih (fun h => hs (by simp [h]))]
    rfl

/-- The parts of a template given in pieces. -/
theorem fill_parts (one value : Str → Except Fault Str) (mark : Str → Str) (ps : List Piece)
    (ht : ∀ s, .text s ∈ ps → '$' ∉ s)
    (hr : ∀ n, .ref n ∈ ps → '$' ∉ mark n ∧ ∀ h, one (mark n ++ h) = (value n).bind fun v => .ok (v ++ h)) :
    ∃ h t, splitOn '$' (ps.flatMap (fun p => match p with | .text s => s | .ref n => '$' :: mark n)) = h :: t ∧
      fill value ps = (expandParts one t).bind fun ss => .ok (h ++ ss.flatten) := by
  induction ps with
  | nil => exact ⟨[], [], rfl, rfl⟩
  | cons p ps ih =>
    obtain ⟨h, t, e, f⟩ := ih (fun s hs => ht s (by simp [hs])) (fun n hn => hr n (by simp [hn]))
    cases p with
    | text s =>
      refine ⟨s ++ h, t, ?_, ?_⟩
      · rw [List.flatMap_cons]
        exact splitOn_text (ht s (by simp)) e
      · rw [fill, f]
        cases expandParts one t with
        | error e => rfl
        | ok ss => simp [Except.bind]
    | ref n =>
      obtain ⟨hm, ho⟩ := hr n (by simp)
      refine ⟨[], (mark n ++ h) :: t, ?_, ?_⟩
      · rw [List.flatMap_cons]
        simp only [List.cons_append]
        rw [splitOn, if_pos rfl, splitOn_text hm e]
      · rw [fill, f, expandParts, ho]
        cases value n with
        | error e => rfl
        | ok v =>
          simp only [Except.bind]
          cases expandParts one t with
          | error e => rfl
          | ok ss => simp

theorem cutBrace_append {n h : Str} (hn : '}' ∉ n) : cutBrace (n ++ '}' :: h) = some (n, h) := by
  induction n with
  | nil => simp [cutBrace]
  | cons c n ih =>
    have hc : c ≠ '}' := fun e => hn (by simp [e])
    rw [List.cons_append, cutBrace, if_neg hc, ih (fun e => hn (by simp [e]))]
    rfl

/-- Text of a template that can be told from references. -/
def PlainText (ps : List Piece) : Prop := ∀ s, .text s ∈ ps → '$' ∉ s

theorem expand_derived (value : Str → Except Fault Str) (ps : List Piece) (ht : PlainText ps)
    (hr : ∀ n, .ref n ∈ ps → '$' ∉ n ∧ '}' ∉ n) : expand (derivedPart value) (ps.flatMap Piece.derived) = fill value ps := by
  obtain ⟨h, t, e, f⟩ := fill_parts (derivedPart value) value (fun n => '{' :: n ++ str "}") ps ht (by
    intro n hn
    obtain ⟨h1, h2⟩ := hr n hn
    refine ⟨by simp [h1, show str "}" = ['}'] from rfl], fun h => ?_⟩
    have e2 : '{' :: n ++ str "}" ++ h = '{' :: (n ++ '}' :: h) := by simp [show str "}" = ['}'] from rfl]
    rw [e2, derivedPart, if_pos rfl, cutBrace_append h2])
  rw [f, ← expand_eq e]
  rfl

theorem expand_extracted (groups : Str → Str) (ps : List Piece) (ht : PlainText ps)
    (hr : ∀ n, .ref n ∈ ps → ∃ c, n = [c] ∧ isDigit c = true) :
    expand (directPart groups) (ps.flatMap Piece.extracted) = fill (fun n => .ok (groups n)) ps := by
  obtain ⟨h, t, e, f⟩ := fill_parts (directPart groups) (fun n => .ok (groups n)) id ps ht (by
    intro n hn
    obtain ⟨c, rfl, hc⟩ := hr n hn
    refine ⟨?_, fun h => ?_⟩
    · intro h
      simp only [id, List.mem_singleton] at h
      subst h
      exact absurd hc (by decide)
    · simp only [id, List.cons_append, List.nil_append, directPart, if_pos hc, Except.bind])
  rw [f, ← expand_eq e]
  rfl

theorem firstValue_ok {one : CField → Except Fault Str} (fs : List CField) (v : Str) (hv : v ≠ []) :
    firstValue one fs = .ok v ↔ ∃ pre f post, fs = pre ++ f :: post ∧ (∀ g ∈ pre, one g = .ok []) ∧ one f = .ok v := by
  induction fs with
  | nil =>
    constructor
    · intro h; cases h; exact absurd rfl hv
    · rintro ⟨pre, f, post, e, _⟩; simp at e
  | cons g fs ih =>
    rw [firstValue]
    constructor
    · intro h
      obtain ⟨w, hw, h⟩ := bind_ok.mp h
      by_cases h0 : w = []
      · subst h0
        simp only [ne_eq, not_true_eq_false, if_false] at h
        obtain ⟨pre, f, post, rfl, hp, hf⟩ := ih.mp h
        exact ⟨g :: pre, f, post, rfl, by simpa using ⟨hw, hp⟩, hf⟩
      · rw [if_pos h0] at h
        cases h
        exact ⟨[], g, fs, rfl, by simp, hw⟩
    · rintro ⟨pre, f, post, e, hp, hf⟩
      cases pre with
      | nil =>
        simp only [List.nil_append, List.cons.injEq] at e
        obtain ⟨rfl, rfl⟩ := e
        rw [hf]; simp only [Except.bind, ne_eq, hv, not_false_eq_true, if_true]
      | cons p pre =>
        simp only [List.cons_append, List.cons.injEq] at e
        obtain ⟨rfl, rfl⟩ := e
        rw [hp g (by simp)]
        simp only [Except.bind, ne_eq, not_true_eq_false, if_false]
        exact ih.mpr ⟨pre, f, post, rfl, fun x hx => hp x (by simp [hx]), hf⟩

theorem firstValue_nil {one : CField → Except Fault Str} (fs : List CField) : firstValue one fs = .ok [] ↔ ∀ g ∈ fs, one g = .ok [] := by
  induction fs with
  | nil => simp [firstValue]
  | cons g fs ih =>
    rw [firstValue]
    constructor
    · intro h
      obtain ⟨w, hw, h⟩ := bind_ok.mp h
      by_cases h0 : w = []
      · subst h0
        simp only [ne_eq, not_true_eq_false, if_false] at h
        simpa using ⟨hw, ih.mp h⟩
      · rw [if_pos h0] at h
        cases h
        exact absurd rfl h0
    · intro h
      rw [h g (by simp)]
      simp only [Except.bind, ne_eq, not_true_eq_false, if_false]
      exact ih.mpr (fun x hx => h x (by simp [hx]))

/-- The rules a source has for a name, in the order of the file. -/
def RulesFor (fs : SrcFields) (name : Str) (l : List CField) : Prop := (fs.filter (fun e => decide (e.1 = name))) = l.map (fun f => (name, f))

theorem rulesFor_get {fs : SrcFields} {name : Str} {l : List CField} (h : RulesFor fs name l) : fs.get name = l := by
  unfold SrcFields.get
  rw [h, List.map_map]
  simp

/-- **C95** (first) With several rules for a name its value is the first one that is not empty: it is `v` exactly when some rule gives
`v` and all rules before it give nothing, and it is empty exactly when all rules give nothing. -/
theorem C95_first (rx : RxMatch) (fs : SrcFields) (row : List Str) (fuel : Nat) (name : Str) (l : List CField) (hl : RulesFor fs name l) :
    (∀ v, v ≠ [] → (nameValue rx fs row fuel name = .ok v ↔
      ∃ pre f post, l = pre ++ f :: post ∧ (∀ g ∈ pre, fieldValue rx fs row fuel g = .ok []) ∧ fieldValue rx fs row fuel f = .ok v)) ∧
    (nameValue rx fs row fuel name = .ok [] ↔ ∀ g ∈ l, fieldValue rx fs row fuel g = .ok []) := by
  unfold nameValue
  rw [rulesFor_get hl]
  exact ⟨fun v hv => firstValue_ok _ v hv, firstValue_nil _⟩

/-- **C95** (extraction) A rule that is a column number gives that column of the row; one with an expression gives nothing when the column
does not match, and otherwise its template with each `$d` replaced by that group. -/
theorem C95_extraction (rx : RxMatch) (fs : SrcFields) (row : List Str) (fuel : Nat) (i : Nat) (s : Str) (hi : row[i]? = some s) :
    (∀ out, fieldValue rx fs row (fuel + 1) ⟨some i, out, [], none⟩ = .ok s) ∧
    (∀ re out, rx re s = none → fieldValue rx fs row (fuel + 1) ⟨some i, out, [], some re⟩ = .ok []) ∧
    (∀ re groups ps, rx re s = some groups → PlainText ps → (∀ n, .ref n ∈ ps → ∃ c, n = [c] ∧ isDigit c = true) →
      fieldValue rx fs row (fuel + 1) ⟨some i, ps.flatMap Piece.extracted, [], some re⟩ = fill (fun n => .ok (groups n)) ps) := by
  have h : indexRow row i = .ok s := by
    unfold indexRow
    rw [if_neg (by omega)]
    simp [hi]
  refine ⟨fun out => ?_, fun re out hre => ?_, fun re groups ps hre ht hr => ?_⟩
  · simp only [fieldValue, h, Except.bind]
  · simp only [fieldValue, h, Except.bind, directField, hre]
  · simp only [fieldValue, h, Except.bind, directField, hre]
    exact expand_extracted groups ps ht hr

/-- The rules of a name give exactly one value. -/
def HasValue (rx : RxMatch) (fs : SrcFields) (row : List Str) (name : Str) (v : Str) : Prop := ∃ fuel, nameValue rx fs row fuel name = .ok v

/-- Full statement of C95: the value of a derivation rule is its template, with each reference to a name replaced by the value of that
name; a template without references is its own value. -/
def C95_Statement : Prop := ∀ (rx : RxMatch) (fs : SrcFields) (row : List Str) (name out : Str),
  RulesFor fs name [⟨none, out, [], none⟩] → (∀ a b, out ≠ a ++ str "${" ++ b) → HasValue rx fs row name out

/-- **C95 is false** of the code: a dollar sign that begins no reference disappears. -/
theorem C95_template_violated : ¬ C95_Statement := by
  intro h
  obtain ⟨fuel, h⟩ := h (fun _ _ => none) [(str "note", ⟨none, str "US$ 5", [], none⟩)] [] (str "note") (str "US$ 5") rfl (by
    intro a b e
    have : (str "${").Sublist (str "US$ 5") := by rw [e]; exact (List.sublist_append_right a _).trans (List.sublist_append_left _ b)
    exact absurd (this.subset (show '{' ∈ str "${" by decide)) (by decide))
  cases fuel with
  | zero => exact absurd h (by decide)
  | succ n =>
    have e : nameValue (fun _ _ => none) [(str "note", (⟨none, str "US$ 5", [], none⟩ : CField))] [] (n + 1) (str "note") = .ok (str "US 5") := rfl
    rw [e] at h
    exact absurd h (by decide)

/-- **C95** A template that ends in a dollar sign, or has two in a row, panics (when nothing before it fails). -/
theorem C95_dollar_panics (rx : RxMatch) (fs : SrcFields) (row : List Str) (fuel : Nat) (ps : List Piece) (rest : Str) (v : Str)
    (ht : PlainText ps) (hr : ∀ n, .ref n ∈ ps → '$' ∉ n ∧ '}' ∉ n) (hrest : rest = [] ∨ ∃ t, rest = '$' :: t)
    (hv : fill (nameValue rx fs row fuel) ps = .ok v) :
    fieldValue rx fs row (fuel + 1) ⟨none, ps.flatMap Piece.derived ++ '$' :: rest, [], none⟩ = .error .panic := by
  have hsplit : ∀ (a : Str) (h : Str) (t : List Str), splitOn '$' a = h :: t → splitOn '$' (a ++ '$' :: rest) = h :: (t ++ splitOn '$' rest) := by
    intro a
    induction a with
    | nil =>
      intro h t e
      simp only [splitOn, List.cons.injEq] at e
      obtain ⟨rfl, rfl⟩ := e
      simp [splitOn]
    | cons x a ih =>
      intro h t e
      rw [splitOn] at e
      obtain ⟨h', t', e'⟩ : ∃ h' t', splitOn '$' a = h' :: t' := by
        cases e'' : splitOn '$' a with
        | nil => exact absurd e'' (splitOn_ne_nil _ _)
        | cons h' t' => exact ⟨h', t', rfl⟩
      rw [List.cons_append, splitOn, ih h' t' e']
      rw [e'] at e
      split at e
      · next hx =>
        cases e
        rw [if_pos hx]
        rfl
      · next hx =>
        cases e
        rw [if_neg hx]
  have hr0 : ∃ l, splitOn '$' rest = [] :: l := by
    rcases hrest with rfl | ⟨t, rfl⟩
    · exact ⟨[], rfl⟩
    · exact ⟨_, by rw [splitOn, if_pos rfl]⟩
  obtain ⟨l, hl⟩ := hr0
  obtain ⟨h, t, e⟩ : ∃ h t, splitOn '$' (ps.flatMap Piece.derived) = h :: t := by
    cases e'' : splitOn '$' (ps.flatMap Piece.derived) with
    | nil => exact absurd e'' (splitOn_ne_nil _ _)
    | cons h' t' => exact ⟨h', t', rfl⟩
  have hpart : ∀ (t : List Str) (ss : List Str), expandParts (derivedPart (nameValue rx fs row fuel)) t = .ok ss →
      expandParts (derivedPart (nameValue rx fs row fuel)) (t ++ [] :: l) = .error .panic := by
    intro t
    induction t with
    | nil => intro ss _; rfl
    | cons p t ih =>
      intro ss hs
      rw [expandParts] at hs
      obtain ⟨s, h1, hs⟩ := bind_ok.mp hs
      obtain ⟨ss', h2, hs⟩ := bind_ok.mp hs
      rw [List.cons_append, expandParts, h1]
      simp only [Except.bind]
      rw [ih ss' h2]
  rw [← expand_derived _ ps ht hr, expand_eq e] at hv
  obtain ⟨ss, h1, _⟩ := bind_ok.mp hv
  show derivedField rx _ _ = _
  unfold derivedField condHolds
  simp only [if_true, Except.bind]
  rw [expand_eq (hsplit _ h t e), hl]
  change (expandParts (derivedPart (nameValue rx fs row fuel)) (t ++ [] :: l)).bind _ = _
  rw [hpart t ss h1]
  rfl

/-- **C95 (partial)** True of templates in which every dollar sign begins a reference: the value is the text with the references replaced
from left to right. Missing: other dollar signs. -/
theorem C95_template_partial (rx : RxMatch) (fs : SrcFields) (row : List Str) (fuel : Nat) (ps : List Piece)
    (ht : PlainText ps) (hr : ∀ n, .ref n ∈ ps → '$' ∉ n ∧ '}' ∉ n) :
    fieldValue rx fs row (fuel + 1) ⟨none, ps.flatMap Piece.derived, [], none⟩ = fill (nameValue rx fs row fuel) ps := by
  show derivedField rx _ _ = _
  unfold derivedField condHolds
  simp only [if_true, Except.bind]
  exact expand_derived _ ps ht hr

/-- **C95** (condition) A conditional derivation rule gives nothing when the value of the named field does not match, and otherwise what
the rule gives without the condition. -/
theorem C95_condition (rx : RxMatch) (fs : SrcFields) (row : List Str) (fuel : Nat) (out cond re v : Str) (hc : cond ≠ [])
    (hv : nameValue rx fs row fuel cond = .ok v) :
    fieldValue rx fs row (fuel + 1) ⟨none, out, cond, some re⟩ =
      if (rx re v).isSome then fieldValue rx fs row (fuel + 1) ⟨none, out, [], none⟩ else .ok [] := by
  show derivedField rx _ _ = _
  unfold derivedField condHolds
  rw [if_neg hc]
  change ((nameValue rx fs row fuel cond).bind _).bind _ = _
  rw [hv]
  simp only [Except.bind]
  cases h : (rx re v).isSome with
  | false => rfl
  | true => rfl

/-- The source of the README: a note composed of two columns, and a symbol that depends on the description. -/
def exRx : RxMatch := fun re s => if re = s then some (fun _ => s) else none
def exSource : SrcFields :=
  [(str "account", ⟨none, str "123", [], none⟩), (str "description", ⟨some 3, [], [], none⟩), (str "note1", ⟨some 1, [], [], none⟩),
   (str "note2", ⟨some 0, [], [], none⟩), (str "note", ⟨none, str "${note2} => ${note1}", [], none⟩),
   (str "symbol", ⟨none, str "USD", str "description", some (str "Interest")⟩)]

example : nameValue exRx exSource [str "a", str "b", str "c", str "Interest"] 3 (str "note") = .ok (str "a => b") := by decide +kernel
example : nameValue exRx exSource [str "a", str "b", str "c", str "Interest"] 3 (str "symbol") = .ok (str "USD") := by decide +kernel
example : nameValue exRx exSource [str "a", str "b", str "c", str "Fee"] 3 (str "symbol") = .ok [] := by decide +kernel
example : str "${note2} => ${note1}" = [Piece.ref (str "note2"), .text (str " => "), .ref (str "note1")].flatMap Piece.derived := by decide
example : fieldValue exRx exSource [str "a"] 2 ⟨none, str "${note2}$", [], none⟩ = .error .panic := by decide +kernel

/-! ## C96: evaluation ends -/

/-- A rule refers to a name: in its condition or in its template. -/
def RefersTo (f : CField) (name : Str) : Prop :=
  f.idx = none ∧ ((f.cond = name ∧ f.cond ≠ []) ∨ ('}' ∉ name ∧ ∃ a b, f.out = a ++ str "${" ++ name ++ str "}" ++ b))

/-- Full statement of C96: the values of a row are found: the calls of any source's rules end. -/
def C96_Statement : Prop := ∀ (rx : RxMatch) (fs : SrcFields) (row : List Str) (name : Str),
  ∃ fuel, nameValue rx fs row fuel name ≠ .error .loop

/-- **C96 is false** of the code: a rule that refers to its own name calls itself without end. -/
theorem C96_ends_violated : ¬ C96_Statement := by
  intro h
  obtain ⟨fuel, h⟩ := h (fun _ _ => none) [(str "note", ⟨none, str "see ${note}", [], none⟩)] [] (str "note")
  apply h
  clear h
  induction fuel with
  | zero => decide
  | succ n ih =>
    have e : nameValue (fun _ _ => none) [(str "note", (⟨none, str "see ${note}", [], none⟩ : CField))] [] (n + 1) (str "note") =
      ((((nameValue (fun _ _ => none) [(str "note", (⟨none, str "see ${note}", [], none⟩ : CField))] [] n (str "note")).bind
        fun v => .ok (v ++ [])).bind fun s => .ok [s]).bind fun ss => .ok (joinWith [] (str "see " :: ss))).bind
        fun v => if v ≠ [] then .ok v else .ok [] := rfl
    rw [e, ih]
    rfl

theorem cutBrace_spec : ∀ {p : Str} {r : Str × Str}, cutBrace p = some r → p = r.1 ++ '}' :: r.2 ∧ '}' ∉ r.1 := by
  intro p
  induction p with
  | nil => intro r h; cases h
  | cons c p ih =>
    intro r h
    rw [cutBrace] at h
    split at h
    · next hc => cases h; simp [hc]
    · next hc =>
      rw [Option.map_eq_some_iff] at h
      obtain ⟨q, hq, rfl⟩ := h
      obtain ⟨h1, h2⟩ := ih hq
      refine ⟨by rw [h1]; rfl, ?_⟩
      simp only [List.mem_cons, not_or]
      exact ⟨fun e => hc e.symm, h2⟩

theorem mem_splitOn {c : Char} {s h : Str} {t : List Str} {p : Str} (e : splitOn c s = h :: t) (hp : p ∈ t) : ∃ a b, s = a ++ c :: p ++ b := by
  have hs : s = joinWith [c] (h :: t) := by rw [← e, joinWith_splitOn]
  clear e
  induction t generalizing s h with
  | nil => simp at hp
  | cons q t ih =>
    have e2 : s = h ++ c :: joinWith [c] (q :: t) := by rw [hs]; simp [joinWith]
    rcases List.mem_cons.mp hp with rfl | hp
    · cases t with
      | nil => exact ⟨h, [], by rw [e2]; simp [joinWith]⟩
      | cons r t => exact ⟨h, c :: joinWith [c] (r :: t), by rw [e2]; simp [joinWith]⟩
    · obtain ⟨a, b, hab⟩ := ih (s := joinWith [c] (q :: t)) hp rfl
      exact ⟨h ++ c :: a, b, by rw [e2, hab]; simp⟩

theorem bind_loop {α β : Type} {x : Except Fault α} {f : α → Except Fault β} (h : x.bind f = .error .loop) :
    x = .error .loop ∨ ∃ a, x = .ok a ∧ f a = .error .loop := by
  cases x with
  | error e => left; simpa [Except.bind] using h
  | ok a => right; exact ⟨a, rfl, h⟩

theorem firstValue_loop {one : CField → Except Fault Str} {l : List CField} (h : firstValue one l = .error .loop) : ∃ f ∈ l, one f = .error .loop := by
  induction l with
  | nil => cases h
  | cons f l ih =>
    rw [firstValue] at h
    rcases bind_loop h with h | ⟨v, _, h⟩
    · exact ⟨f, by simp, h⟩
    · split at h
      · cases h
      · obtain ⟨g, hg, h⟩ := ih h; exact ⟨g, by simp [hg], h⟩

theorem expandParts_loop {one : Str → Except Fault Str} {l : List Str} (h : expandParts one l = .error .loop) : ∃ p ∈ l, one p = .error .loop := by
  induction l with
  | nil => cases h
  | cons p l ih =>
    rw [expandParts] at h
    rcases bind_loop h with h | ⟨v, _, h⟩
    · exact ⟨p, by simp, h⟩
    · rcases bind_loop h with h | ⟨v, _, h⟩
      · obtain ⟨g, hg, h⟩ := ih h; exact ⟨g, by simp [hg], h⟩
      · cases h

/-- A field that does not end refers to a name that does not end. -/
theorem derivedField_loop {rx : RxMatch} {value : Str → Except Fault Str} {f : CField} (hi : f.idx = none) (h : derivedField rx value f = .error .loop) :
    ∃ name, RefersTo f name ∧ value name = .error .loop := by
  unfold derivedField at h
  rcases bind_loop h with h | ⟨b, _, h⟩
  · unfold condHolds at h
    split at h
    · cases h
    · next hc =>
      rcases bind_loop h with h | ⟨v, _, h⟩
      · exact ⟨f.cond, ⟨hi, .inl ⟨rfl, hc⟩⟩, h⟩
      · split at h <;> cases h
  · split at h
    · obtain ⟨hd, t, e⟩ : ∃ hd t, splitOn '$' f.out = hd :: t := by
        cases e : splitOn '$' f.out with
        | nil => exact absurd e (splitOn_ne_nil _ _)
        | cons hd t => exact ⟨hd, t, rfl⟩
      rw [expand_eq e] at h
      rcases bind_loop h with h | ⟨v, _, h⟩
      · obtain ⟨p, hp, h⟩ := expandParts_loop h
        cases p with
        | nil => cases h
        | cons c p =>
          rw [derivedPart] at h
          split at h
          · next hc =>
            split at h
            · next r hr =>
              rcases bind_loop h with h | ⟨v, _, h⟩
              · refine ⟨r.1, ⟨hi, .inr ?_⟩, h⟩
                obtain ⟨a, b, hab⟩ := mem_splitOn e hp
                refine ⟨(cutBrace_spec hr).2, a, r.2 ++ b, ?_⟩
                rw [hab, hc, (cutBrace_spec hr).1]
                simp [show str "}" = ['}'] from rfl, show str "${" = ['$', '{'] from rfl]
              · cases h
            · cases h
          · cases h
      · cases h
    · cases h

/-- **C96 (partial)** The values of a row are found when no chain of references comes back to a name: here given by a number for each
name, smaller for the names a rule refers to. Missing: sources with circular references. -/
theorem C96_ends_partial (rx : RxMatch) (fs : SrcFields) (row : List Str) (rank : Str → Nat)
    (hrank : ∀ e ∈ fs, ∀ n, RefersTo e.2 n → rank n < rank e.1) (name : Str) (fuel : Nat) (hf : rank name < fuel) :
    nameValue rx fs row fuel name ≠ .error .loop := by
  induction fuel generalizing name with
  | zero => omega
  | succ k ih =>
    intro h
    obtain ⟨f, hfm, h⟩ := firstValue_loop h
    have hmem : (name, f) ∈ fs := by
      unfold SrcFields.get at hfm
      rw [List.mem_map] at hfm
      obtain ⟨e, he, rfl⟩ := hfm
      rw [List.mem_filter] at he
      obtain ⟨he, hn⟩ := he
      have hn : e.1 = name := by simpa using hn
      subst hn
      exact he
    rw [fieldValue.eq_def] at h
    simp only at h
    split at h
    · rcases bind_loop h with h | ⟨s, _, h⟩
      · unfold indexRow at h
        split at h
        · cases h
        · split at h <;> cases h
      · split at h
        · cases h
        · next re _ =>
          unfold directField at h
          split at h
          · cases h
          · obtain ⟨hd, t, e⟩ : ∃ hd t, splitOn '$' f.out = hd :: t := by
              cases e : splitOn '$' f.out with
              | nil => exact absurd e (splitOn_ne_nil _ _)
              | cons hd t => exact ⟨hd, t, rfl⟩
            rw [expand_eq e] at h
            rcases bind_loop h with h | ⟨v, _, h⟩
            · obtain ⟨p, _, h⟩ := expandParts_loop h
              cases p with
              | nil => cases h
              | cons c p => rw [directPart] at h; split at h <;> cases h
            · cases h
    · next hi =>
      obtain ⟨n, hn, h⟩ := derivedField_loop hi h
      have := hrank _ hmem n hn
      exact ih n (by simp only at this; omega) h

theorem prefix_noDollar {s rest a x : Str} (hs : '$' ∉ s) (h : s ++ rest = a ++ '$' :: x) : ∃ a', a = s ++ a' ∧ rest = a' ++ '$' :: x := by
  rw [List.append_eq_append_iff] at h
  rcases h with ⟨a', rfl, h⟩ | ⟨c, rfl, h⟩
  · exact ⟨a', rfl, h⟩
  · cases c with
    | nil => exact ⟨[], by simp, by simpa using h.symm⟩
    | cons y c =>
      simp only [List.cons_append, List.cons.injEq] at h
      obtain ⟨rfl, _⟩ := h
      exact absurd (by simp) hs

/-- A template given in pieces refers to its references only. -/
theorem refers_pieces {ps : List Piece} (ht : PlainText ps) (hr : ∀ n, .ref n ∈ ps → '$' ∉ n ∧ '}' ∉ n) {n a b : Str} (hn : '}' ∉ n)
    (h : ps.flatMap Piece.derived = a ++ str "${" ++ n ++ str "}" ++ b) : .ref n ∈ ps := by
  have h2 : ps.flatMap Piece.derived = a ++ '$' :: ('{' :: (n ++ '}' :: b)) := by
    rw [h]; simp [show str "}" = ['}'] from rfl, show str "${" = ['$', '{'] from rfl]
  clear h
  induction ps generalizing a with
  | nil => simp at h2
  | cons p ps ih =>
    have ih := fun a => ih (a := a) (fun s hs => ht s (by simp [hs])) (fun n hn => hr n (by simp [hn]))
    rw [List.flatMap_cons] at h2
    cases p with
    | text s =>
      obtain ⟨a', rfl, h⟩ := prefix_noDollar (ht s (by simp)) h2
      exact List.mem_cons_of_mem _ (ih a' h)
    | ref m =>
      obtain ⟨hm1, hm2⟩ := hr m (by simp)
      have e : Piece.derived (.ref m) ++ ps.flatMap Piece.derived = '$' :: (('{' :: m ++ ['}']) ++ ps.flatMap Piece.derived) := by
        simp [Piece.derived, show str "}" = ['}'] from rfl, show str "${" = ['$', '{'] from rfl]
      rw [e] at h2
      cases a with
      | nil =>
        simp only [List.nil_append, List.cons.injEq, true_and, List.cons_append] at h2
        have h3 : m ++ '}' :: ps.flatMap Piece.derived = n ++ '}' :: b := by simpa using h2
        have h4 := congrArg cutBrace h3
        rw [cutBrace_append hm2, cutBrace_append hn] at h4
        cases h4
        simp
      | cons x a =>
        simp only [List.cons_append, List.cons.injEq] at h2
        obtain ⟨_, h2⟩ := h2
        obtain ⟨a', rfl, h⟩ := prefix_noDollar (s := '{' :: m ++ ['}']) (by simp [hm1]) (by simpa using h2)
        exact List.mem_cons_of_mem _ (ih a' h)

/-- A source with a note composed of two columns. -/
example : ∀ row fuel, 2 ≤ fuel → nameValue exRx (exSource.take 5) row fuel (str "note") ≠ .error .loop := by
  intro row fuel hf
  refine C96_ends_partial exRx (exSource.take 5) row (fun n => if n = str "note" then 1 else 0) ?_ _ fuel (by simp; omega)
  intro e he n hn
  obtain ⟨h1, h2⟩ := hn
  have hmem : e ∈ [exSource[0], exSource[1], exSource[2], exSource[3], exSource[4]] := he
  have name (ps : List Piece) (ht : PlainText ps) (hr : ∀ n, .ref n ∈ ps → '$' ∉ n ∧ '}' ∉ n) (he : e.2.out = ps.flatMap Piece.derived)
      (hc : e.2.cond = []) : .ref n ∈ ps := by
    rcases h2 with ⟨_, h2⟩ | ⟨h2, a, b, h3⟩
    · exact absurd hc h2
    · exact refers_pieces ht hr h2 (by rw [← he]; exact h3)
  simp only [List.mem_cons, List.not_mem_nil, or_false] at hmem
  rcases hmem with rfl | rfl | rfl | rfl | rfl
  · have := name [.text (str "123")] (by unfold PlainText; intro s hs; simp at hs; subst hs; decide) (by simp) (by decide) (by decide)
    simp at this
  · cases h1
  · cases h1
  · cases h1
  · have := name [.ref (str "note2"), .text (str " => "), .ref (str "note1")]
      (by unfold PlainText; intro s hs; simp at hs; subst hs; decide)
      (by intro m hm; simp at hm; rcases hm with rfl | rfl <;> decide) (by decide) (by decide)
    simp only [List.mem_cons, Piece.ref.injEq, reduceCtorEq, List.not_mem_nil, or_false, false_or] at this
    rcases this with rfl | rfl <;> decide

/-! ## C97: the postings of a row -/

/-- The text names the commodity: by its id, or else by its symbol. -/
def RefNames (env : CsvEnv) (s : Str) (c : Com) : Prop := env.comById s = some c ∨ (env.comById s = none ∧ env.comBySymbol s = some c)

theorem findCommodity_ok {env : CsvEnv} {s : Str} {c : Com} (h : findCommodity env s = .ok c) : RefNames env s c := by
  unfold findCommodity at h
  split at h
  · next h1 => cases h; exact .inl h1
  · next h1 =>
    split at h
    · next h2 => cases h; exact .inr ⟨h1, h2⟩
    · cases h

theorem mustParseAmount_ok {s : Str} {c : Com} {a : Amount} (h : mustParseAmount s c = .ok a) : parseAmount s c = .ok a := by
  unfold mustParseAmount at h
  split at h
  · next h1 => cases h; exact h1
  · cases h

/-- The account of the row and the account on the other side, with the notes of the rule: what the rules say about the row's account id
and description. -/
def RowAccounts (env : CsvEnv) (fs : SrcFields) (row : List Str) (account dest : Str) (notes : List Str) : Prop :=
  ∃ id desc ars, nameValue env.rx fs row env.fuel (str "account") = .ok id ∧
    nameValue env.rx fs row env.fuel (str "description") = .ok desc ∧
    accountRulesFor env.rules env.byOfx id = .ok ars ∧ ars.account = account ∧
    ((ruleFor env.matcher (ruleSets env.rules) (trimWords desc) env.fuel ars.items = .ok none ∧ dest = env.unbalanced ∧ notes = []) ∨
      ∃ r, ruleFor env.matcher (ruleSets env.rules) (trimWords desc) env.fuel ars.items = .ok (some r) ∧ r.account = some dest ∧ notes = r.notes)

theorem transactionFrom_some {env : CsvEnv} {fs : SrcFields} {row : List Str} {t : ITxn} (h : transactionFrom env fs row = .ok (some t)) :
    ∃ account dest notes desc, RowAccounts env fs row account dest notes ∧ nameValue env.rx fs row env.fuel (str "description") = .ok desc ∧
      rowTransaction env (nameValue env.rx fs row env.fuel) account dest (trimWords desc) notes = .ok t := by
  unfold transactionFrom at h
  obtain ⟨id, h1, h⟩ := bind_ok.mp h
  obtain ⟨desc, h2, h⟩ := bind_ok.mp h
  obtain ⟨ars, h3, h⟩ := bind_ok.mp h
  obtain ⟨rule, h4, h⟩ := bind_ok.mp h
  cases rule with
  | none =>
    simp only at h
    obtain ⟨t', h5, h⟩ := bind_ok.mp h
    cases h
    exact ⟨_, _, _, desc, ⟨id, desc, ars, h1, h2, h3, rfl, .inl ⟨h4, rfl, rfl⟩⟩, h2, h5⟩
  | some r =>
    simp only at h
    split at h
    · cases h
    · next a ha =>
      obtain ⟨t', h5, h⟩ := bind_ok.mp h
      cases h
      exact ⟨_, _, _, desc, ⟨id, desc, ars, h1, h2, h3, rfl, .inr ⟨r, h4, ha, rfl⟩⟩, h2, h5⟩

/-- The amount of the row: its text in the currency of the row, else in the commodity of the other account. -/
def RowAmount (env : CsvEnv) (fs : SrcFields) (row : List Str) (dest : Str) (a : Amount) : Prop :=
  ∃ text cur c, nameValue env.rx fs row env.fuel (str "amount") = .ok text ∧ text ≠ [] ∧
    nameValue env.rx fs row env.fuel (str "currency") = .ok cur ∧ (if cur = [] then c = env.com dest else RefNames env cur c) ∧
    parseAmount text c = .ok a

/-- The row trades a quantity of another commodity. -/
def RowTrades (env : CsvEnv) (fs : SrcFields) (row : List Str) (q : Amount) : Prop :=
  ∃ sym c text, nameValue env.rx fs row env.fuel (str "symbol") = .ok sym ∧ sym ≠ [] ∧ RefNames env sym c ∧
    nameValue env.rx fs row env.fuel (str "quantity") = .ok text ∧ text ≠ [] ∧ parseAmount text c = .ok q

/-- The row trades nothing: it has no symbol or no quantity. -/
def RowPlain (env : CsvEnv) (fs : SrcFields) (row : List Str) : Prop :=
  nameValue env.rx fs row env.fuel (str "symbol") = .ok [] ∨ nameValue env.rx fs row env.fuel (str "quantity") = .ok []

theorem rowAmount_ok {env : CsvEnv} {fs : SrcFields} {row : List Str} {dest : Str} {a : Amount}
    (h : rowAmount env (nameValue env.rx fs row env.fuel) dest = .ok a) : RowAmount env fs row dest a := by
  unfold rowAmount at h
  obtain ⟨text, h1, h⟩ := bind_ok.mp h
  split at h
  · next ht =>
    obtain ⟨c, h2, h⟩ := bind_ok.mp h
    unfold rowCommodity at h2
    obtain ⟨cur, h3, h2⟩ := bind_ok.mp h2
    refine ⟨text, cur, c, h1, ht, h3, ?_, mustParseAmount_ok h⟩
    by_cases hc : cur = []
    · subst hc; simp only [ne_eq, not_true_eq_false, if_false] at h2; cases h2; simp
    · rw [if_pos hc] at h2; rw [if_neg hc]; exact findCommodity_ok h2
  · cases h

theorem rowQuantity_ok {env : CsvEnv} {fs : SrcFields} {row : List Str} {q : Option Amount}
    (h : rowQuantity env (nameValue env.rx fs row env.fuel) = .ok q) :
    (q = none ∧ RowPlain env fs row) ∨ ∃ x, q = some x ∧ RowTrades env fs row x := by
  unfold rowQuantity at h
  obtain ⟨sym, h1, h⟩ := bind_ok.mp h
  split at h
  · next hs => cases h; subst hs; exact .inl ⟨rfl, .inl h1⟩
  · next hs =>
    obtain ⟨c, h2, h⟩ := bind_ok.mp h
    obtain ⟨text, h3, h⟩ := bind_ok.mp h
    split at h
    · next ht =>
      obtain ⟨x, h4, h⟩ := bind_ok.mp h
      cases h
      exact .inr ⟨x, rfl, sym, c, text, h1, hs, findCommodity_ok h2, h3, ht, mustParseAmount_ok h4⟩
    · next ht => cases h; simp only [ne_eq, Decidable.not_not] at ht; subst ht; exact .inl ⟨rfl, .inr h3⟩

/-- A posting without a balance. -/
def plainPost (account : Str) (a : Amount) : IPost := ⟨account, a, none, false⟩

theorem postConversion_perm (t : ITxn) (a b : Str) (x y : Amount) :
    ∃ l, (t.postConversion a x none b y none).postings = t.postings ++ l ∧ l.Perm [plainPost a x, plainPost b y] ∧
      l = (if x.int < 0 then [plainPost b y, plainPost a x] else [plainPost a x, plainPost b y]) := by
  unfold ITxn.postConversion Amount.negative plainPost
  simp only [decide_eq_true_eq, Option.isSome_none]
  refine ⟨_, rfl, ?_, rfl⟩
  split
  · exact List.Perm.swap _ _ _
  · exact List.Perm.refl _

/-- **C97** What a row that is not dropped becomes. Its amount `a` is read in the currency of the row, or else in the commodity of the
account its rule names. Without a traded quantity the account of the row gets `a` and the other one `-a`; with one, the account of the row
gets the quantity, with the sign opposite to that of `a`, and the other one gets `a`. The posting of the row's account comes first unless
its amount is negative. -/
theorem C97_row (env : CsvEnv) (fs : SrcFields) (row : List Str) (t : ITxn) (h : transactionFrom env fs row = .ok (some t)) :
    ∃ account dest notes a, RowAccounts env fs row account dest notes ∧ RowAmount env fs row dest a ∧
      ∃ x y : IPost, t.postings = (if x.quantity.int < 0 then [y, x] else [x, y]) ∧
        x.account = findAccountForCommodity env x.quantity.com account ∧ y.account = findAccountForCommodity env y.quantity.com dest ∧
        (x.balance = none ∧ y.balance = none ∧ x.asserted = false ∧ y.asserted = false) ∧
        ((RowPlain env fs row ∧ x.quantity = a ∧ y.quantity = a.negated) ∨
          ∃ q, RowTrades env fs row q ∧ y.quantity = a ∧ x.quantity.com = q.com ∧ x.quantity.int.natAbs = q.int.natAbs ∧
            ¬ (0 < x.quantity.int ∧ 0 < a.int) ∧ ¬ (x.quantity.int < 0 ∧ a.int < 0)) := by
  obtain ⟨account, dest, notes, desc, hacc, _, h⟩ := transactionFrom_some h
  unfold rowTransaction at h
  obtain ⟨t0, h0, h⟩ := bind_ok.mp h
  obtain ⟨a, ha, h⟩ := bind_ok.mp h
  obtain ⟨q, hq, h⟩ := bind_ok.mp h
  cases h
  have hp0 : t0.postings = [] := by
    unfold rowHead at h0
    obtain ⟨_, _, h0⟩ := bind_ok.mp h0
    obtain ⟨_, _, h0⟩ := bind_ok.mp h0
    obtain ⟨_, _, h0⟩ := bind_ok.mp h0
    cases h0; rfl
  refine ⟨account, dest, notes, a, hacc, rowAmount_ok ha, ?_⟩
  rcases rowQuantity_ok hq with ⟨rfl, hpl⟩ | ⟨q, rfl, htr⟩
  · refine ⟨plainPost (findAccountForCommodity env a.com account) a, plainPost (findAccountForCommodity env a.com dest) a.negated, ?_, rfl, rfl,
      ⟨rfl, rfl, rfl, rfl⟩, .inl ⟨hpl, rfl, rfl⟩⟩
    obtain ⟨l, h1, _, h2⟩ := postConversion_perm t0 (findAccountForCommodity env a.com account) (findAccountForCommodity env a.com dest) a a.negated
    unfold rowPostings ITxn.post
    simp only
    rw [h1, hp0, h2]
    rfl
  · refine ⟨plainPost (findAccountForCommodity env (flipQuantity q a).com account) (flipQuantity q a), plainPost (findAccountForCommodity env a.com dest) a,
      ?_, rfl, rfl, ⟨rfl, rfl, rfl, rfl⟩, .inr ⟨q, htr, rfl, ?_, ?_, ?_⟩⟩
    · obtain ⟨l, h1, _, h2⟩ := postConversion_perm t0 (findAccountForCommodity env (flipQuantity q a).com account) (findAccountForCommodity env a.com dest)
        (flipQuantity q a) a
      unfold rowPostings
      simp only
      rw [h1, hp0, h2]
      rfl
    · unfold flipQuantity plainPost Amount.negated; simp only; split <;> rfl
    · unfold flipQuantity plainPost Amount.negated; simp only; split <;> simp
    · have hs : ∀ x y : Int, 0 < x.sign * y.sign ↔ (0 < x ∧ 0 < y) ∨ (x < 0 ∧ y < 0) := by
        intro x y
        rcases Int.lt_trichotomy x 0 with hx | hx | hx <;> rcases Int.lt_trichotomy y 0 with hy | hy | hy <;>
          simp [Int.sign_eq_neg_one_of_neg, Int.sign_eq_one_of_pos, hx, hy] <;> omega
      unfold flipQuantity plainPost Amount.negated
      simp only
      by_cases h1 : 0 < q.int.sign * a.int.sign
      · rw [if_pos h1]
        simp only
        have := (hs _ _).mp h1
        omega
      · rw [if_neg h1]
        have h2 : ¬ ((0 < q.int ∧ 0 < a.int) ∨ (q.int < 0 ∧ a.int < 0)) := fun h => h1 ((hs _ _).mpr h)
        exact ⟨fun h => h2 (.inl h), fun h => h2 (.inr h)⟩

/-- Two postings that balance: opposite amounts of one commodity, or amounts of two commodities that do not have the same sign. -/
def Balanced2 (p q : IPost) : Prop :=
  (p.quantity.com = q.quantity.com → p.quantity.int + q.quantity.int = 0) ∧
  ¬ (0 < p.quantity.int ∧ 0 < q.quantity.int) ∧ ¬ (p.quantity.int < 0 ∧ q.quantity.int < 0)

/-- Full statement of C97: a row becomes a balanced transaction. -/
def C97_Statement : Prop := ∀ (env : CsvEnv) (fs : SrcFields) (row : List Str) (t : ITxn), transactionFrom env fs row = .ok (some t) →
  ∃ p q, t.postings = [p, q] ∧ Balanced2 p q

/-- Rows of account, description, date, amount, symbol, quantity. -/
def exColumns : SrcFields :=
  [(str "account", ⟨some 0, [], [], none⟩), (str "description", ⟨some 1, [], [], none⟩), (str "date", ⟨some 2, [], [], none⟩),
   (str "amount", ⟨some 3, [], [], none⟩), (str "symbol", ⟨some 4, [], [], none⟩), (str "quantity", ⟨some 5, [], [], none⟩)]
def exShare : Com := ⟨1, str "VXF", 3⟩
/-- Accounts `Assets:X` with a sub-account `Assets:X:VXF` for shares, and `Income`. -/
def exCsvEnv : CsvEnv where
  rx := exRx
  matcher := fun p s => decide (p = s)
  rules := some ⟨[(str "X", ⟨str "Assets:X", [.rule ⟨some (str "Income"), str "DRIP", [str "n"]⟩, .rule ⟨none, str "TRANSFER", []⟩]⟩)], []⟩
  byOfx := fun _ => none
  comById := fun s => if s = str "CAD" then some exCom else if s = str "VXF" then some exShare else none
  comBySymbol := fun _ => none
  com := fun a => if a = str "Assets:X:VXF" then exShare else exCom
  children := fun a => if a = str "Assets:X" then [str "Assets:X:VXF"] else []
  unbalanced := str "Unbalanced"
  fuel := 5

def exRow (amount symbol quantity : String) : List Str := [str "X", str "DRIP", str "2019/09/10", str amount, str symbol, str quantity]

/-- **C97 is false** of the code: a row that trades the commodity it is paid in is not balanced. -/
theorem C97_balanced_violated : ¬ C97_Statement := by
  intro h
  obtain ⟨p, q, h1, h2, _⟩ := h exCsvEnv exColumns (exRow "-7.00" "CAD" "5.00")
    ⟨⟨737311 * 86400, 0⟩, [], str "DRIP", [str "n"], [plainPost (str "Assets:X") ⟨500, exCom⟩, plainPost (str "Income") ⟨-700, exCom⟩]⟩ (by decide +kernel)
  simp only [List.cons.injEq, and_true] at h1
  obtain ⟨rfl, rfl⟩ := h1
  exact absurd (h2 rfl) (by decide)

/-- **C97 (partial)** A row becomes a transaction of two balanced postings when it trades nothing, or when what it trades is not the
commodity of the amount. Missing: a traded quantity of the commodity the amount is in. -/
theorem C97_balanced_partial (env : CsvEnv) (fs : SrcFields) (row : List Str) (t : ITxn) (h : transactionFrom env fs row = .ok (some t))
    (hq : ∀ q dest a, RowTrades env fs row q → RowAmount env fs row dest a → q.com ≠ a.com) :
    ∃ p q, t.postings = [p, q] ∧ Balanced2 p q := by
  obtain ⟨account, dest, notes, a, _, ha, x, y, hp, _, _, _, hc⟩ := C97_row env fs row t h
  have hb : Balanced2 x y := by
    rcases hc with ⟨_, hx, hy⟩ | ⟨q, htr, hy, hxc, hxi, h1, h2⟩
    · unfold Balanced2
      rw [hx, hy]
      unfold Amount.negated
      simp only
      refine ⟨fun _ => by omega, by omega, by omega⟩
    · unfold Balanced2
      rw [hy, hxc]
      exact ⟨fun e => absurd e (hq q dest a htr ha), h1, h2⟩
  have hb' : Balanced2 y x := ⟨fun e => by have := hb.1 e.symm; omega, fun e => hb.2.1 ⟨e.2, e.1⟩, fun e => hb.2.2 ⟨e.2, e.1⟩⟩
  split at hp
  · exact ⟨y, x, hp, hb'⟩
  · exact ⟨x, y, hp, hb⟩

/-- The first row of the repository's test: shares bought for a dividend. -/
example : transactionFrom exCsvEnv exColumns (exRow "-1630.59" "VXF" "123.999") =
    .ok (some ⟨⟨737311 * 86400, 0⟩, [], str "DRIP", [str "n"],
      [plainPost (str "Assets:X:VXF") ⟨123999, exShare⟩, plainPost (str "Income") ⟨-163059, exCom⟩]⟩) := by decide +kernel
/-- A quantity with the sign of the amount is turned around; a fee without quantity; a dropped row. -/
example : (transactionFrom exCsvEnv exColumns (exRow "1630.59" "VXF" "123.999")).toOption.map (·.map (·.postings)) =
    some (some [plainPost (str "Income") ⟨163059, exCom⟩, plainPost (str "Assets:X:VXF") ⟨-123999, exShare⟩]) := by decide +kernel
example : (transactionFrom exCsvEnv exColumns (exRow "-12.40" "" "0.00")).toOption.map (·.map (·.postings)) =
    some (some [plainPost (str "Income") ⟨1240, exCom⟩, plainPost (str "Assets:X") ⟨-1240, exCom⟩]) := by decide +kernel
example : transactionFrom exCsvEnv exColumns [str "X", str "TRANSFER", [], [], [], []] = .ok none := by decide +kernel

/-! ## C98: the accounts of the postings -/

theorem pickAccount_spec (env : CsvEnv) (c : Com) : ∀ (l : List Str) (account : Str),
    (account ≠ env.unbalanced → pickAccount env c account l = account) ∧
    (account = env.unbalanced →
      (pickAccount env c account l = env.unbalanced ∧ ∀ a ∈ l, env.com a = c → a = env.unbalanced) ∨
      ∃ pre post, l = pre ++ pickAccount env c account l :: post ∧ env.com (pickAccount env c account l) = c ∧
        pickAccount env c account l ≠ env.unbalanced ∧ ∀ a ∈ pre, env.com a = c → a = env.unbalanced) := by
  intro l
  induction l with
  | nil => intro account; exact ⟨fun _ => rfl, fun h => .inl ⟨h, by simp⟩⟩
  | cons a l ih =>
    intro account
    constructor
    · intro h
      rw [pickAccount, if_neg (fun e => h e.2)]
      exact (ih account).1 h
    · intro h
      rw [pickAccount]
      by_cases hc : env.com a = c
      · rw [if_pos ⟨hc, h⟩]
        by_cases ha : a = env.unbalanced
        · rcases (ih a).2 ha with ⟨h1, h2⟩ | ⟨pre, post, h1, h2, h3, h4⟩
          · refine .inl ⟨h1, ?_⟩
            intro b hb; rcases List.mem_cons.mp hb with rfl | hb
            · exact fun _ => ha
            · exact h2 b hb
          · refine .inr ⟨a :: pre, post, by rw [List.cons_append, ← h1], h2, h3, ?_⟩
            intro b hb; rcases List.mem_cons.mp hb with rfl | hb
            · exact fun _ => ha
            · exact h4 b hb
        · rw [(ih a).1 ha]
          exact .inr ⟨[], l, rfl, hc, ha, by simp⟩
      · rw [if_neg (fun e => hc e.1)]
        rcases (ih account).2 h with ⟨h1, h2⟩ | ⟨pre, post, h1, h2, h3, h4⟩
        · refine .inl ⟨h1, ?_⟩
          intro b hb; rcases List.mem_cons.mp hb with rfl | hb
          · exact fun e => absurd e hc
          · exact h2 b hb
        · refine .inr ⟨a :: pre, post, by rw [List.cons_append, ← h1], h2, h3, ?_⟩
          intro b hb; rcases List.mem_cons.mp hb with rfl | hb
          · exact fun e => absurd e hc
          · exact h4 b hb

/-- The account chosen for a commodity below `root`: the first one of that commodity in the walk that visits children before their
parent, or `Unbalanced` if there is none. -/
def Chosen (env : CsvEnv) (c : Com) (root a : Str) : Prop :=
  (a = env.unbalanced ∧ ∀ b ∈ subtreePost env.children env.fuel root, env.com b = c → b = env.unbalanced) ∨
  (∃ pre post, subtreePost env.children env.fuel root = pre ++ a :: post ∧ env.com a = c ∧ ∀ b ∈ pre, env.com b = c → b = env.unbalanced)

theorem chosen (env : CsvEnv) (c : Com) (root : Str) : Chosen env c root (findAccountForCommodity env c root) := by
  rcases (pickAccount_spec env c (subtreePost env.children env.fuel root) env.unbalanced).2 rfl with h | ⟨pre, post, h1, h2, _, h4⟩
  · exact .inl h
  · exact .inr ⟨pre, post, h1, h2, h4⟩

/-- **C98** Each of the two postings of a row is in an account whose commodity is that of the posting, found below the account the rules
name (children first, in order), or else in `Unbalanced`. -/
theorem C98_accounts (env : CsvEnv) (fs : SrcFields) (row : List Str) (t : ITxn) (h : transactionFrom env fs row = .ok (some t)) :
    ∃ account dest notes, RowAccounts env fs row account dest notes ∧
      ∃ x y : IPost, t.postings.Perm [x, y] ∧ Chosen env x.quantity.com account x.account ∧ Chosen env y.quantity.com dest y.account ∧
        ∀ p ∈ t.postings, env.com p.account = p.quantity.com ∨ p.account = env.unbalanced := by
  obtain ⟨account, dest, notes, a, hacc, _, x, y, hp, hx, hy, _, _⟩ := C97_row env fs row t h
  have hcx := chosen env x.quantity.com account
  have hcy := chosen env y.quantity.com dest
  rw [← hx] at hcx
  rw [← hy] at hcy
  have hperm : t.postings.Perm [x, y] := by
    rw [hp]
    split
    · exact List.Perm.swap _ _ _
    · exact List.Perm.refl _
  refine ⟨account, dest, notes, hacc, x, y, hperm, hcx, hcy, ?_⟩
  intro p hpm
  have := hperm.subset hpm
  simp only [List.mem_cons, List.not_mem_nil, or_false] at this
  rcases this with rfl | rfl
  · rcases hcx with h | ⟨_, _, _, h, _⟩
    · exact .inr h.1
    · exact .inl h
  · rcases hcy with h | ⟨_, _, _, h, _⟩
    · exact .inr h.1
    · exact .inl h

/-- Full statement of C98: a posting of a row is in the account the rules name if that account is in the posting's commodity, else in the
first one below it that is, else in `Unbalanced`. -/
def C98_Statement : Prop := ∀ (env : CsvEnv) (fs : SrcFields) (row : List Str) (t : ITxn), transactionFrom env fs row = .ok (some t) →
  ∃ account dest notes, RowAccounts env fs row account dest notes ∧
    ∃ x y : IPost, t.postings.Perm [x, y] ∧
      (if env.com account = x.quantity.com then x.account = account else Chosen env x.quantity.com account x.account) ∧
      (if env.com dest = y.quantity.com then y.account = dest else Chosen env y.quantity.com dest y.account)

/-- `Assets:X` with a sub-account `Assets:X:Savings` in the same commodity. -/
def exSavingsEnv : CsvEnv := { exCsvEnv with com := fun _ => exCom, children := fun a => if a = str "Assets:X" then [str "Assets:X:Savings"] else [] }

/-- **C98 is false** of the code: sub-accounts come before the account itself, so the statement of a bank account is booked on its savings
account. -/
theorem C98_account_violated : ¬ C98_Statement := by
  intro h
  obtain ⟨account, dest, notes, ⟨id, desc, ars, h1, _, h3, h4, _⟩, x, y, hp, hx, hy⟩ := h exSavingsEnv exColumns (exRow "-12.40" "" "")
    ⟨⟨737311 * 86400, 0⟩, [], str "DRIP", [str "n"], [plainPost (str "Income") ⟨1240, exCom⟩, plainPost (str "Assets:X:Savings") ⟨-1240, exCom⟩]⟩ (by decide +kernel)
  have hid : nameValue exSavingsEnv.rx exColumns (exRow "-12.40" "" "") exSavingsEnv.fuel (str "account") = .ok (str "X") := by decide +kernel
  have hid := Except.ok.inj (h1.symm.trans hid)
  subst hid
  have hars : accountRulesFor exSavingsEnv.rules exSavingsEnv.byOfx (str "X") = .ok ⟨str "Assets:X", [.rule ⟨some (str "Income"), str "DRIP", [str "n"]⟩, .rule ⟨none, str "TRANSFER", []⟩]⟩ := rfl
  have hars := Except.ok.inj (h3.symm.trans hars)
  subst hars
  subst h4
  have hm := hp.mem_iff (a := x)
  simp only [List.mem_cons, List.not_mem_nil, or_false, true_or, iff_true] at hm
  rcases hm with rfl | rfl
  · rw [if_pos (by decide)] at hx
    exact absurd hx (by decide)
  · rw [if_pos (by decide)] at hx
    exact absurd hx (by decide)

/-- **C98 (partial)** The account itself is chosen when it is in the posting's commodity and no account below it is. Missing: accounts with
sub-accounts in their own commodity (which get the posting, see `C98_accounts`). -/
theorem C98_account_partial (env : CsvEnv) (fs : SrcFields) (row : List Str) (t : ITxn) (h : transactionFrom env fs row = .ok (some t)) (hf : 0 < env.fuel)
    (hown : ∀ a, ∀ b ∈ subtreePost env.children env.fuel a, env.com b = env.com a → b = a) :
    ∃ account dest notes, RowAccounts env fs row account dest notes ∧
      ∃ x y : IPost, t.postings.Perm [x, y] ∧
        (if env.com account = x.quantity.com then x.account = account else Chosen env x.quantity.com account x.account) ∧
        (if env.com dest = y.quantity.com then y.account = dest else Chosen env y.quantity.com dest y.account) := by
  obtain ⟨account, dest, notes, h1, x, y, h2, h3, h4, _⟩ := C98_accounts env fs row t h
  have own : ∀ (c : Com) (root a : Str), Chosen env c root a → (if env.com root = c then a = root else Chosen env c root a) := by
    intro c root a hc
    split
    · next e =>
      have hr : root ∈ subtreePost env.children env.fuel root := by
        obtain ⟨k, hk⟩ := Nat.exists_eq_succ_of_ne_zero (Nat.ne_of_gt hf)
        rw [hk, subtreePost]; simp
      rcases hc with ⟨ha, hb⟩ | ⟨pre, post, h1, h2, _⟩
      · rw [ha, hb root hr e]
      · exact hown root a (by rw [h1]; simp) (h2.trans e.symm)
    · exact hc
  exact ⟨account, dest, notes, h1, x, y, h2, own _ _ _ h3, own _ _ _ h4⟩

/-- Non-vacuity of C98: the accounts of `exCsvEnv` have no sub-accounts in their own commodity. -/
example : 0 < exCsvEnv.fuel ∧ ∀ a, ∀ b ∈ subtreePost exCsvEnv.children exCsvEnv.fuel a, exCsvEnv.com b = exCsvEnv.com a → b = a := by
  refine ⟨by decide, ?_⟩
  intro a b hb he
  by_cases ha : a = str "Assets:X"
  · subst ha
    have : subtreePost exCsvEnv.children exCsvEnv.fuel (str "Assets:X") = [str "Assets:X:VXF", str "Assets:X"] := by decide +kernel
    rw [this] at hb
    simp only [List.mem_cons, List.not_mem_nil, or_false] at hb
    rcases hb with rfl | rfl
    · exact absurd he (by decide)
    · rfl
  · have : subtreePost exCsvEnv.children exCsvEnv.fuel a = [a] := by
      show (exCsvEnv.children a).flatMap _ ++ [a] = [a]
      have : exCsvEnv.children a = [] := by show (if a = str "Assets:X" then _ else _) = _; rw [if_neg ha]
      rw [this]; rfl
    rw [this] at hb
    simpa using hb

end Verif
