import Verif.Props.ReadBack
import Verif.Props.Parsed
/-
C159–C162: what the declarations of a ledger mean, in any layout.
-/
namespace Verif

/-! ## Layout -/

/-- Blanks and tabs, possibly none. -/
def Room (s : Str) : Prop := ∀ x ∈ s, x = ' ' ∨ x = '\t'
/-- Blanks and tabs, at least one. -/
def Gap (s : Str) : Prop := s ≠ [] ∧ Room s

theorem Room.ws {s : Str} (h : Room s) : ∀ x ∈ s, isWs x = true := by
  intro x hx
  rcases h x hx with rfl | rfl <;> decide

theorem Room.head {s rest : Str} {p : Char → Bool} (h : Room s) (h1 : p ' ' = false) (h2 : p '\t' = false) (hr : NoHead p rest) : NoHead p (s ++ rest) := by
  cases s with
  | nil => exact hr
  | cons x t => rcases h x (by simp) with rfl | rfl <;> exact NoHead.cons (by assumption)

theorem Gap.head {s rest : Str} {p : Char → Bool} (h : Gap s) (h1 : p ' ' = false) (h2 : p '\t' = false) : NoHead p (s ++ rest) := by
  obtain ⟨hne, h⟩ := h
  cases s with
  | nil => exact absurd rfl hne
  | cons x t => rcases h x (by simp) with rfl | rfl <;> exact NoHead.cons (by assumption)

/-- A body line does not end the body. -/
theorem gap_body {ind u : Str} (hi : Gap ind) (hu : ∃ x t, u = x :: t ∧ isSpaceU x = false) : endsBody (ind ++ u) = false := by
  obtain ⟨x, t, rfl, hx⟩ := hu
  obtain ⟨hne, hi⟩ := hi
  unfold endsBody
  have : isBlank (ind ++ x :: t) = false := by simp [isBlank, hx]
  rw [this]
  cases ind with
  | nil => exact absurd rfl hne
  | cons y s => rcases hi y (by simp) with rfl | rfl <;> rfl

/-- No match of an expression for another key. -/
theorem otherKey {ind key u : Str} {r X : Re} (hi : Room ind) (hr : ∀ s, (∀ t, s ≠ key ++ t) → NoMatch r s) (hu : NoHead isWs u)
    (hk : ∃ a t, key = a :: t ∧ isWs a = false) (hp : ∀ t, u ≠ key ++ t) : NoMatch (.seq (.plus .ws) (.seq r X)) (ind ++ u) := by
  obtain ⟨a, s, rfl, ha⟩ := hk
  refine NoMatch.plusThen hu (fun w1 w2 e => NoMatch.seqL (hr _ ?_))
  intro t e2
  cases w2 with
  | nil => exact hp t e2
  | cons x w2 =>
    have : isWs x = true := hi.ws x (by rw [e]; simp)
    simp only [List.cons_append] at e2
    injection e2 with e3 _
    rw [e3, ha] at this
    cases this

theorem otherLit {ind key u : Str} {X : Re} (hi : Room ind) (hu : NoHead isWs u) (hk : ∃ a t, key = a :: t ∧ isWs a = false) (hp : ∀ t, u ≠ key ++ t) :
    NoMatch (.seq (.plus .ws) (.seq (.lit key) X)) (ind ++ u) := otherKey hi (fun _ h => NoMatch.lit h) hu hk hp

theorem otherGrp {ind key u n : Str} {X : Re} (hi : Room ind) (hu : NoHead isWs u) (hk : ∃ a t, key = a :: t ∧ isWs a = false) (hp : ∀ t, u ≠ key ++ t) :
    NoMatch (.seq (.plus .ws) (.seq (.grp n (.lit key)) X)) (ind ++ u) := otherKey hi (fun _ h => NoMatch.grp (NoMatch.lit h)) hu hk hp

/-- A line with this key and an argument. -/
theorem argRun {ind key gap arg rest : Str} {X : Re} {c' : Caps} (hi : Gap ind) (hg : Gap gap) (hk : ∃ a t, key = a :: t ∧ isWs a = false)
    (ha : ∃ x t, arg = x :: t ∧ isWs x = false) (hX : RunsTo X arg rest [] c') :
    RunsTo (.cat [.plus .ws, .lit key, .plus .ws, X]) (ind ++ (key ++ (gap ++ arg))) rest [] c' := by
  obtain ⟨a, t, rfl, hak⟩ := hk
  obtain ⟨x, u, rfl, hxa⟩ := ha
  exact RunsTo.seq (RunsTo.plus hi.1 hi.2.ws (NoHead.cons hak) [])
    (RunsTo.seq (RunsTo.lit _ _ []) (RunsTo.seq (RunsTo.plus hg.1 hg.2.ws (NoHead.cons hxa) []) hX))

/-- A line with a key alone. -/
theorem keyAlone {ind key room n : Str} (hi : Gap ind) (hr : Room room) (hk : ∃ a t, key = a :: t ∧ isWs a = false) :
    RunsTo (.cat [.plus .ws, .grp n (.lit key), .star .ws]) (ind ++ (key ++ room)) [] [] [(n, key)] := by
  obtain ⟨a, t, rfl, hak⟩ := hk
  exact RunsTo.seq (RunsTo.plus hi.1 hi.2.ws (NoHead.cons hak) []) (RunsTo.seq (RunsTo.grp (RunsTo.lit _ _ [])) (RunsTo.star hr.ws NoHead.nil _))

theorem amount_gap {l : Lit} {com sp rest : Str} (n m : Str) (h : l.WF) (hc : CommodityName com) (hsp : Gap sp)
    (hr : NoHead isWord rest) (c : Caps) : RunsTo (amountRe n m) (l.text ++ (sp ++ com)) rest c (amtCaps n m l com c) := by
  unfold amountRe amtCaps
  refine RunsTo.seq (number_run n h (by rw [List.append_assoc]; exact hsp.head (by decide) (by decide)) c)
    (RunsTo.seq (RunsTo.plus hsp.1 hsp.2.ws ?_ _) (commodity_run m hc hr _))
  obtain ⟨a, t, rfl, ha, _⟩ := hc
  exact NoHead.cons (alpha_props ha).1

/-! ## C159: commodities -/

/-- What a line of a commodity's declaration sets. -/
inductive ComSetting
  | note (s : Str)
  | format (decimals : Nat)
  | nomarket
  | symbol (s : Str)
  | default
  deriving DecidableEq

/-- A line of a commodity's declaration and what it sets. -/
inductive ComLine : Str → ComSetting → Prop
  | note {ind gap s} : Gap ind → Gap gap → noNl s → (∃ x t, s = x :: t ∧ isWs x = false) → ComLine (ind ++ (str "note" ++ (gap ++ s))) (.note s)
  | format {ind gap l sp com room} : Gap ind → Gap gap → Lit.WF l → Gap sp → CommodityName com → Room room →
      ComLine (ind ++ (str "format" ++ (gap ++ (l.text ++ (sp ++ com)))) ++ room) (.format l.fp.length)
  | nomarket {ind room} : Gap ind → Room room → ComLine (ind ++ (str "nomarket" ++ room)) .nomarket
  | symbol {ind gap s room} : Gap ind → Gap gap → s ≠ [] → (∀ x ∈ s, isWord x = true ∨ x = '.') → Room room →
      ComLine (ind ++ (str "symbol" ++ (gap ++ s)) ++ room) (.symbol s)
  | default {ind room} : Gap ind → Room room → ComLine (ind ++ (str "default" ++ room)) .default

def ComSetting.note? : ComSetting → Option Str | .note s => some s | _ => none
def ComSetting.format? : ComSetting → Option Nat | .format n => some n | _ => none
def ComSetting.symbol? : ComSetting → Option Str | .symbol s => some s | _ => none

/-- The commodity declared by a name and settings: of several settings of a kind the last counts, in any order; two decimals unless set. -/
def declared (id : Str) (ss : List ComSetting) : PCom :=
  ⟨id, ((ss.filterMap ComSetting.note?).getLast?).getD [], ((ss.filterMap ComSetting.format?).getLast?).getD 2, decide (.nomarket ∈ ss),
    ((ss.filterMap ComSetting.symbol?).getLast?).getD []⟩

/-- One setting. -/
def ComSetting.set (x : PCom) : ComSetting → PCom
  | .note s => { x with name := s }
  | .format n => { x with decimals := n }
  | .nomarket => { x with noMarket := true }
  | .symbol s => { x with symbol := s }
  | .default => x

theorem declared_concat (id : Str) (ss : List ComSetting) (s : ComSetting) : declared id (ss ++ [s]) = s.set (declared id ss) := by
  cases s <;> simp [declared, ComSetting.set, ComSetting.note?, ComSetting.format?, ComSetting.symbol?, List.filterMap_append]

theorem comLine_step {line : Str} {s : ComSetting} (h : ComLine line s) (x : PCom) (d : Bool) (rest : List Str) :
    commodityBody x d (line :: rest) = commodityBody (s.set x) (d || decide (s = .default)) rest := by
  have step : ∀ c r, endsBody line = false → commodityBodyRe.matches line = some c → commodityLine x c = .ok r →
      commodityBody x d (line :: rest) = commodityBody r.1 (d || r.2) rest := by
    intro c r h1 h2 h3
    rw [commodityBody, if_neg (by rw [h1]; decide), h2]
    simp only [h3, Except.bind]
  cases h with
  | @note ind gap s hi hg hn hs =>
    obtain ⟨y, t, ey, hy⟩ := hs
    have hne : s ≠ [] := by rw [ey]; simp
    have h1 : RunsTo (.grp (str "note") (.plus .any)) s [] [] [(str "note", s)] :=
      RunsTo.grp (RunsTo.plus hne (by intro y hy; simpa using hn y hy) NoHead.nil [])
    have h2 : RunsTo commodityBodyRe (ind ++ (str "note" ++ (gap ++ s))) [] [] [(str "note", s)] :=
      RunsTo.altL (argRun hi hg ⟨'n', str "ote", rfl, by decide⟩ ⟨y, t, ey, hy⟩ h1)
    have hm := h2.matches
    rw [List.append_nil] at hm
    exact step _ _ (gap_body hi ⟨'n', _, rfl, by decide⟩) hm (by simp only [commodityLine, get_cons_eq]; rw [if_pos hne])
  | @format ind gap l sp com room hi hg hl hsp hc hr =>
    obtain ⟨y, u, ey, hy⟩ := l.text_head hl
    have h1 := RunsTo.grp (n := str "format") (amount_gap (rest := room) [] [] hl hc hsp (by simpa using hr.head (rest := []) (by decide) (by decide) NoHead.nil) [])
    have h2 : RunsTo commodityBodyRe (ind ++ (str "format" ++ (gap ++ (l.text ++ (sp ++ com))))) room [] _ :=
      RunsTo.altR (by rw [List.append_assoc]; exact otherLit hi.2 (NoHead.cons (by decide)) ⟨'n', str "ote", rfl, by decide⟩ (by intro t e; simp [str] at e))
        (RunsTo.altL (argRun hi hg ⟨'f', str "ormat", rfl, by decide⟩ ⟨y, _, by rw [ey]; rfl, notWs_num hy⟩ h1))
    have hm := h2.matches
    have g1 : Caps.get ((str "format", l.text ++ (sp ++ com)) :: amtCaps [] [] l com []) (str "note") = [] := by
      by_cases h0 : l.fp = [] <;> simp [amtCaps, numCaps, Caps.get, str, h0]
    have g2 : Caps.get ((str "format", l.text ++ (sp ++ com)) :: amtCaps [] [] l com []) (str "amount") = l.text := by
      by_cases h0 : l.fp = [] <;> simp [amtCaps, numCaps, Caps.get, str, h0]
    have g3 : (Caps.get ((str "format", l.text ++ (sp ++ com)) :: amtCaps [] [] l com []) (str "decimals")).length - 1 = l.fp.length := by
      by_cases h0 : l.fp = [] <;> simp [amtCaps, numCaps, Caps.get, str, h0]
    refine step _ _ ?_ hm (by
      simp only [commodityLine, g1, g2, g3]
      rw [if_neg (by simp), if_pos (l.text_ne hl)])
    rw [List.append_assoc]
    exact gap_body hi ⟨'f', _, rfl, by decide⟩
  | @nomarket ind room hi hr =>
    have h2 : RunsTo commodityBodyRe (ind ++ (str "nomarket" ++ room)) [] [] [(str "nomarket", str "nomarket")] := by
      refine RunsTo.altR ?_ (RunsTo.altR ?_ (RunsTo.altL (keyAlone hi hr ⟨'n', str "omarket", rfl, by decide⟩)))
      · rw [List.append_nil]; exact otherLit hi.2 (NoHead.cons (by decide)) ⟨'n', str "ote", rfl, by decide⟩ (by intro t e; simp [str] at e)
      · rw [List.append_nil]; exact otherLit hi.2 (NoHead.cons (by decide)) ⟨'f', str "ormat", rfl, by decide⟩ (by intro t e; simp [str] at e)
    have hm := h2.matches
    rw [List.append_nil] at hm
    exact step _ _ (gap_body hi ⟨'n', _, rfl, by decide⟩) hm (by simp [commodityLine, Caps.get, str]; rfl)
  | @symbol ind gap s room hi hg hne hs hr =>
    obtain ⟨y, t, ey⟩ := List.exists_cons_of_ne_nil hne
    have hp : ∀ x ∈ s, (isWord x || decide (x = '.')) = true := by
      intro x hx; rcases hs x hx with h | rfl
      · simp [h]
      · decide
    have hy : isWs y = false := by
      rcases hs y (by rw [ey]; simp) with h | rfl
      · obtain ⟨z, u, e1, e2⟩ := word_head (s := [y]) (by simp) (by simpa using h)
        cases e1; exact e2
      · decide
    have h1 : RunsTo (.grp (str "symbol") (.plus (.cls (fun c => isWord c || decide (c = '.'))))) s room [] [(str "symbol", s)] :=
      RunsTo.grp (RunsTo.plus hne hp (by have := hr.head (rest := []) (p := fun c => isWord c || decide (c = '.')) (by decide) (by decide) NoHead.nil; rw [List.append_nil] at this; exact this) [])
    have h2 : RunsTo commodityBodyRe (ind ++ (str "symbol" ++ (gap ++ s))) room [] [(str "symbol", s)] := by
      refine RunsTo.altR ?_ (RunsTo.altR ?_ (RunsTo.altR ?_ (RunsTo.altL (argRun hi hg ⟨'s', str "ymbol", rfl, by decide⟩ ⟨y, t, ey, hy⟩ h1))))
      · rw [List.append_assoc]; exact otherLit hi.2 (NoHead.cons (by decide)) ⟨'n', str "ote", rfl, by decide⟩ (by intro t e; simp [str] at e)
      · rw [List.append_assoc]; exact otherLit hi.2 (NoHead.cons (by decide)) ⟨'f', str "ormat", rfl, by decide⟩ (by intro t e; simp [str] at e)
      · rw [List.append_assoc]; exact otherGrp hi.2 (NoHead.cons (by decide)) ⟨'n', str "omarket", rfl, by decide⟩ (by intro t e; simp [str] at e)
    have hm := h2.matches
    refine step _ _ ?_ hm (by simp [commodityLine, Caps.get, str, hne]; rfl)
    rw [List.append_assoc]
    exact gap_body hi ⟨'s', _, rfl, by decide⟩
  | @default ind room hi hr =>
    have h2 : RunsTo commodityBodyRe (ind ++ (str "default" ++ room)) [] [] [(str "default", str "default")] := by
      refine RunsTo.altR ?_ (RunsTo.altR ?_ (RunsTo.altR ?_ (RunsTo.altR ?_ (keyAlone hi hr ⟨'d', str "efault", rfl, by decide⟩))))
      · rw [List.append_nil]; exact otherLit hi.2 (NoHead.cons (by decide)) ⟨'n', str "ote", rfl, by decide⟩ (by intro t e; simp [str] at e)
      · rw [List.append_nil]; exact otherLit hi.2 (NoHead.cons (by decide)) ⟨'f', str "ormat", rfl, by decide⟩ (by intro t e; simp [str] at e)
      · rw [List.append_nil]; exact otherGrp hi.2 (NoHead.cons (by decide)) ⟨'n', str "omarket", rfl, by decide⟩ (by intro t e; simp [str] at e)
      · rw [List.append_nil]; exact otherLit hi.2 (NoHead.cons (by decide)) ⟨'s', str "ymbol", rfl, by decide⟩ (by intro t e; simp [str] at e)
    have hm := h2.matches
    rw [List.append_nil] at hm
    exact step _ _ (gap_body hi ⟨'d', _, rfl, by decide⟩) hm (by simp [commodityLine, Caps.get, str]; rfl)

/-- The lines that follow do not belong to the declaration: there are none, or the next line is blank or starts at the margin. -/
def NotBody (rest : List Str) : Prop := ∀ l ∈ rest.head?, isBlank l = true ∨ ∃ x t, l = x :: t ∧ (isSpaceU x && decide (x.toNat < 128)) = false

theorem notBody_ends {rest : List Str} (h : NotBody rest) : ∀ l ∈ rest.head?, endsBody l = true := by
  intro l hl
  unfold endsBody
  rcases h l hl with h | ⟨x, t, rfl, h⟩
  · simp [h]
  · simp [h]

theorem comBody_fold {lines : List Str} {ss : List ComSetting} (h : List.Forall₂ ComLine lines ss) {rest : List Str} (hr : NotBody rest) (id : Str) (d : List ComSetting) :
    commodityBody (declared id d) (decide (.default ∈ d)) (lines ++ rest) = .ok ((declared id (d ++ ss), decide (.default ∈ d ++ ss)), rest) := by
  induction h generalizing d with
  | nil =>
    rw [List.append_nil, List.nil_append]
    cases rest with
    | nil => rfl
    | cons l t => rw [commodityBody, if_pos (notBody_ends hr l (by simp))]
  | @cons line s lines ss hs _ ih =>
    rw [List.cons_append, comLine_step hs, ← declared_concat]
    have e : (decide (ComSetting.default ∈ d) || decide (s = .default)) = decide (.default ∈ d ++ [s]) := by
      rw [Bool.eq_iff_iff, Bool.or_eq_true, decide_eq_true_iff, decide_eq_true_iff, decide_eq_true_iff, List.mem_append, List.mem_singleton, eq_comm (a := s)]
    rw [e, ih (d ++ [s]), List.append_assoc, List.singleton_append]

theorem gapHead_match {gap id room : Str} (hg : Gap gap) (h : CommodityName id) (hr : Room room) :
    commodityHeadRe.matches (str "commodity" ++ (gap ++ id) ++ room) = some [(str "commodity", id)] := by
  have h1 := commodity_run (rest := room) [] h (by simpa using hr.head (rest := []) (by decide) (by decide) NoHead.nil) []
  obtain ⟨x, t, ex, hx⟩ := com_head h
  have h2 : RunsTo commodityHeadRe (str "commodity" ++ (gap ++ id)) room [] _ :=
    RunsTo.seq (RunsTo.lit _ _ []) (RunsTo.seq (RunsTo.plus hg.1 hg.2.ws (by rw [ex]; exact NoHead.cons hx) []) h1)
  rw [h2.matches]; simp

/-- **C159** A commodity's declaration in any layout: the name, and below it, indented, any number of settings in any order. It declares
the commodity with these settings (the last of a kind counts) and makes it the default exactly when one of the settings says so. -/
theorem C159_commodity (env : PEnv) (gap id room : Str) (hg : Gap (' ' :: gap)) (hid : CommodityName id) (hroom : Room room)
    (lines : List Str) (ss : List ComSetting) (h : List.Forall₂ ComLine lines ss) (rest : List Str) (hr : NotBody rest) :
    next env ((str "commodity " ++ (gap ++ id) ++ room) :: (lines ++ rest)) = .ok (some (.commodity (declared id ss), decide (.default ∈ ss)), rest) := by
  have hline : str "commodity " ++ (gap ++ id) ++ room = 'c' :: (str "ommodity " ++ (gap ++ id) ++ room) := by simp [str]
  unfold next
  rw [if_neg (by rw [hline, isBlank_cons (by decide)]; decide), if_neg (by rw [hline]; simp [isComment])]
  unfold parseItem
  rw [if_neg (by simp [startsWith, str]), if_neg (by simp [startsWith, str]), if_pos (by rw [List.append_assoc]; exact startsWith_append _ _)]
  unfold parseCommodity
  have e : str "commodity " ++ (gap ++ id) ++ room = str "commodity" ++ ((' ' :: gap) ++ id) ++ room := by simp [str]
  rw [e, gapHead_match hg hid hroom]
  simp only [getOr, get_cons_eq]
  have := comBody_fold h hr id []
  rw [List.nil_append] at this
  rw [show (⟨id, [], 2, false, []⟩ : PCom) = declared id [] from rfl, show false = decide (ComSetting.default ∈ ([] : List ComSetting)) from rfl, this]
  rfl

/-- **C159** Loading goes on with the commodity known under its name, with the decimals of its format, and as the default if so declared. -/
theorem C159_loaded (today : Today) (st : LoadState) (gap id room : Str) (hg : Gap (' ' :: gap)) (hid : CommodityName id) (hroom : Room room)
    (lines : List Str) (ss : List ComSetting) (h : List.Forall₂ ComLine lines ss) (rest : List Str) (hr : NotBody rest) (n : Nat) :
    ∃ st', loadLines today (n + 1) st ((str "commodity " ++ (gap ++ id) ++ room) :: (lines ++ rest)) = loadLines today n st' rest ∧
      st'.items = st.items ++ [.commodity (declared id ss)] ∧
      st'.dflt = (if .default ∈ ss then id else st.dflt) ∧
      (∃ c, st'.lookup id = some c ∧ c.id = id ∧ c.decimals = ((ss.filterMap ComSetting.format?).getLast?).getD 2) ∧
      ∀ x, x ≠ id → st'.lookup x = st.lookup x := by
  refine ⟨⟨⟨st.coms.length, id, (declared id ss).decimals⟩ :: st.coms, if decide (ComSetting.default ∈ ss) then id else st.dflt, st.items ++ [.commodity (declared id ss)]⟩, ?_, rfl, by simp, ?_, ?_⟩
  · conv_lhs => unfold loadLines
    rw [C159_commodity _ gap id room hg hid hroom lines ss h rest hr]
    simp only [storeItem, Except.bind]
    rfl
  · exact ⟨⟨st.coms.length, id, (declared id ss).decimals⟩, by simp [LoadState.lookup], rfl, rfl⟩
  · intro x hx
    simp [LoadState.lookup, Ne.symm hx]

/-! ### Dates -/

/-- A date written year/month/day, the year with four digits, month and day with one or two. -/
def WrittenDate (t : Str) (n : Int) : Prop := ∃ y m d, t = y ++ '/' :: (m ++ '/' :: d) ∧ Digits y ∧ y.length = 4 ∧ Digits m ∧ (m.length = 1 ∨ m.length = 2) ∧
  Digits d ∧ (d.length = 1 ∨ d.length = 2) ∧ (strNat y : Int) = goYear n ∧ (strNat m : Int) = goMonth n ∧ (strNat d : Int) = goDay n ∧ 100 ≤ goYear n

/-- It ends at the end of the line or at a blank or tab. -/
def EndsWord (rest : Str) : Prop := ∀ x t, rest = x :: t → x = ' ' ∨ x = '\t'

theorem Room.endsWord {s : Str} (h : Room s) : EndsWord s := by rintro x t rfl; exact h x (by simp)
theorem Gap.endsWord {s rest : Str} (h : Gap s) : EndsWord (s ++ rest) := by
  obtain ⟨hne, h⟩ := h
  cases s with
  | nil => exact absurd rfl hne
  | cons x t => rintro y u e; cases e; exact h x (by simp)
theorem EndsWord.head {s : Str} {p : Char → Bool} (h : EndsWord s) (h1 : p ' ' = false) (h2 : p '\t' = false) : NoHead p s := by
  rintro x t rfl
  rcases h x t rfl with rfl | rfl <;> assumption

def dateCaps' (t y m d : Str) : Caps := [(str "date", t), (str "ymd", t), (str "ymdd", d), (str "ymdm", m), (str "ymdy", y)]

theorem writtenDate_run {t : Str} {n : Int} (h : WrittenDate t n) : ∃ y m d : Str,
    (∀ rest, EndsWord rest → RunsTo dateRe t rest [] (dateCaps' t y m d)) ∧
    ∀ (today : Today) (c : Caps), c.get (str "ymd") = t → c.get (str "ymdy") = y → c.get (str "ymdm") = m → c.get (str "ymdd") = d →
      c.get (str "offset") = [] → mustParseDate today c = .ok n := by
  obtain ⟨y, m, d, e, hy, hy4, hm, hml, hd, hdl, ey, em, ed, h100⟩ := h
  refine ⟨y, m, d, ?_, ?_⟩
  · intro rest hrest
    unfold dateCaps'
    rw [e]
    have hr : DateEnd rest := by
      intro x t e
      rcases hrest x t e with rfl | rfl
      · exact ⟨by decide, by decide⟩
      · exact ⟨by decide, by decide⟩
    have h1 := ymd_run (rest := [] ++ rest) ⟨hy, .inr hy4⟩ ⟨hm, hml⟩ ⟨hd, hdl⟩ (by simpa using hr) []
    have h2 := noOffset_run (rest := rest) (by
        intro x t e
        rcases hrest x t e with rfl | rfl
        · exact ⟨by decide, by decide⟩
        · exact ⟨by decide, by decide⟩)
      ((str "ymd", y ++ '/' :: (m ++ '/' :: d)) :: (str "ymdd", d) :: (str "ymdm", m) :: (str "ymdy", y) :: [])
    have := date_run h1 h2
    simpa using this
  · intro today c c1 c2 c3 c4 c5
    unfold mustParseDate parseDate
    rw [base_ymd today (by rw [c1, e]; simp) c2 (by rintro rfl; simp at hy4) c3 c4]
    simp only [c5]
    rw [ey, em, ed, if_neg (by omega), goDate_parts]
    rfl

theorem writtenDate_head {t : Str} {n : Int} (h : WrittenDate t n) : ∃ x u, t = x :: u ∧ isDigit x = true := by
  obtain ⟨y, m, d, e, hy, hy4, _⟩ := h
  cases y with
  | nil => simp at hy4
  | cons x u => exact ⟨x, _, e, hy x (by simp)⟩

/-! ## C160: accounts -/

/-- What a line of an account's declaration sets. -/
inductive AcctSetting
  | note (s : Str)
  | commodity (s : Str)
  | closed (d : Int)
  | bankId (s : Str)
  | acctId (s : Str)
  | csvId (s : Str)
  deriving DecidableEq

/-- A line of an account's declaration and what it sets: `note`, `commodity`, `closed` with a date, `ofx_bankid` and
`ofx_acctid` with a number, `csv_acctid` with a word. -/
inductive AcctLine : Str → AcctSetting → Prop
  | note {ind gap s} : Gap ind → Gap gap → noNl s → (∃ x y t, s = x :: y :: t ∧ isWs x = false) → AcctLine (ind ++ (str "note" ++ (gap ++ s))) (.note s)
  | commodity {ind gap s room} : Gap ind → Gap gap → CommodityName s → Room room → AcctLine (ind ++ (str "commodity" ++ (gap ++ s)) ++ room) (.commodity s)
  | closed {ind gap t d room} : Gap ind → Gap gap → WrittenDate t d → Room room → AcctLine (ind ++ (str "closed" ++ (gap ++ t)) ++ room) (.closed d)
  | bankId {ind gap s room} : Gap ind → Gap gap → s ≠ [] → (∀ x ∈ s, isDigit x = true) → Room room → AcctLine (ind ++ (str "ofx_bankid" ++ (gap ++ s)) ++ room) (.bankId s)
  | acctId {ind gap s room} : Gap ind → Gap gap → s ≠ [] → (∀ x ∈ s, isDigit x = true) → Room room → AcctLine (ind ++ (str "ofx_acctid" ++ (gap ++ s)) ++ room) (.acctId s)
  | csvId {ind gap s room} : Gap ind → Gap gap → s ≠ [] → (∀ x ∈ s, isWord x = true) → Room room → AcctLine (ind ++ (str "csv_acctid" ++ (gap ++ s)) ++ room) (.csvId s)

def AcctSetting.note? : AcctSetting → Option Str | .note s => some s | _ => none
def AcctSetting.commodity? : AcctSetting → Option Str | .commodity s => some s | _ => none
def AcctSetting.closed? : AcctSetting → Option Int | .closed s => some s | _ => none
def AcctSetting.bankId? : AcctSetting → Option Str | .bankId s => some s | _ => none
def AcctSetting.acctId? : AcctSetting → Option Str | .acctId s => some s | _ => none
def AcctSetting.csvId? : AcctSetting → Option Str | .csvId s => some s | _ => none

/-- The account declared by a name and settings when `dflt` is the default commodity: of several settings of a kind the last counts. -/
def declaredAcct (dflt name : Str) (ss : List AcctSetting) : PAcct :=
  ⟨name, ((ss.filterMap AcctSetting.note?).getLast?).getD [], ((ss.filterMap AcctSetting.commodity?).getLast?).getD dflt, (ss.filterMap AcctSetting.closed?).getLast?,
    ((ss.filterMap AcctSetting.bankId?).getLast?).getD [], ((ss.filterMap AcctSetting.acctId?).getLast?).getD [], ((ss.filterMap AcctSetting.csvId?).getLast?).getD []⟩

/-- One setting. -/
def AcctSetting.set (a : PAcct) : AcctSetting → PAcct
  | .note s => { a with description := s }
  | .commodity s => { a with commodityId := s }
  | .closed d => { a with closed := some d }
  | .bankId s => { a with ofxBankId := s }
  | .acctId s => { a with ofxAcctId := s }
  | .csvId s => { a with csvAcctId := s }

theorem declaredAcct_concat (dflt name : Str) (ss : List AcctSetting) (s : AcctSetting) : declaredAcct dflt name (ss ++ [s]) = s.set (declaredAcct dflt name ss) := by
  cases s <;> simp [declaredAcct, AcctSetting.set, AcctSetting.note?, AcctSetting.commodity?, AcctSetting.closed?, AcctSetting.bankId?, AcctSetting.acctId?,
    AcctSetting.csvId?, List.filterMap_append]

theorem acctLine_step {line : Str} {s : AcctSetting} (h : AcctLine line s) (env : PEnv) (a : PAcct) (rest : List Str) :
    accountBody env a (line :: rest) = accountBody env (s.set a) rest := by
  have step : ∀ c r, endsBody line = false → accountBodyRe.matches line = some c → accountLine env a c = .ok r →
      accountBody env a (line :: rest) = accountBody env r rest := by
    intro c r h1 h2 h3
    rw [accountBody, if_neg (by rw [h1]; decide), h2]
    simp only [h3, Except.bind]
  have hroom : ∀ {room : Str} {p : Char → Bool}, Room room → p ' ' = false → p '\t' = false → NoHead p room := fun hr h1 h2 => hr.endsWord.head h1 h2
  have k1 : ∃ a t, str "note" = a :: t ∧ isWs a = false := ⟨'n', str "ote", rfl, by decide⟩
  have k2 : ∃ a t, str "commodity" = a :: t ∧ isWs a = false := ⟨'c', str "ommodity", rfl, by decide⟩
  have k3 : ∃ a t, str "closed" = a :: t ∧ isWs a = false := ⟨'c', str "losed", rfl, by decide⟩
  have k4 : ∃ a t, str "ofx_bankid" = a :: t ∧ isWs a = false := ⟨'o', str "fx_bankid", rfl, by decide⟩
  have k5 : ∃ a t, str "ofx_acctid" = a :: t ∧ isWs a = false := ⟨'o', str "fx_acctid", rfl, by decide⟩
  have k6 : ∃ a t, str "csv_acctid" = a :: t ∧ isWs a = false := ⟨'c', str "sv_acctid", rfl, by decide⟩
  cases h with
  | @note ind gap s hi hg hn hs =>
    obtain ⟨x, y, t, ey, hy⟩ := hs
    have hne : s ≠ [] := by rw [ey]; simp
    have h1 : RunsTo (.grp (str "note") (.seq .notWs (.plus .any))) s [] [] [(str "note", s)] := by
      rw [ey] at hn ⊢
      refine RunsTo.grp (RunsTo.seq (x := [x]) (RunsTo.cls (by simp [hy]) _ []) (RunsTo.plus (by simp) ?_ NoHead.nil []))
      intro z hz; simpa using hn z (by simp; right; simpa using hz)
    have h2 : RunsTo accountBodyRe (ind ++ (str "note" ++ (gap ++ s))) [] [] [(str "note", s)] := RunsTo.altL (argRun hi hg k1 ⟨x, _, ey, hy⟩ h1)
    have hm := h2.matches
    rw [List.append_nil] at hm
    exact step _ _ (gap_body hi ⟨'n', _, rfl, by decide⟩) hm (by unfold accountLine; rw [get_cons_eq, if_pos hne]; rfl)
  | @commodity ind gap s room hi hg hs hr =>
    have h1 := commodity_run (rest := room) [] hs (hroom hr (by decide) (by decide)) []
    have h2 : RunsTo accountBodyRe (ind ++ (str "commodity" ++ (gap ++ s))) room [] [(str "commodity" ++ [], s)] := by
      refine RunsTo.altR ?_ (RunsTo.altL (argRun hi hg k2 (com_head hs) h1))
      · rw [List.append_assoc]; exact otherLit hi.2 (NoHead.cons (by decide)) k1 (by intro t e; simp [str] at e)
    refine step _ _ ?_ h2.matches (by simp [accountLine, Caps.get, str, hs.word.1]; rfl)
    rw [List.append_assoc]; exact gap_body hi ⟨'c', _, rfl, by decide⟩
  | @closed ind gap t d room hi hg ht hr =>
    obtain ⟨y, m, dd, hrun, hdate⟩ := writtenDate_run ht
    obtain ⟨z, u, ez, hz⟩ := writtenDate_head ht
    have h2 : RunsTo accountBodyRe (ind ++ (str "closed" ++ (gap ++ t))) room [] (dateCaps' t y m dd) := by
      refine RunsTo.altR ?_ (RunsTo.altR ?_ (RunsTo.altL (argRun hi hg k3 ⟨z, u, ez, notWs_num (.inl hz)⟩ (hrun room hr.endsWord))))
      · rw [List.append_assoc]; exact otherLit hi.2 (NoHead.cons (by decide)) k1 (by intro t e; simp [str] at e)
      · rw [List.append_assoc]; exact otherLit hi.2 (NoHead.cons (by decide)) k2 (by intro t e; simp [str] at e)
    refine step _ _ ?_ h2.matches ?_
    · rw [List.append_assoc]; exact gap_body hi ⟨'c', _, rfl, by decide⟩
    · unfold accountLine
      have hd := hdate env.today (dateCaps' t y m dd) (by simp [dateCaps', Caps.get, str]) (by simp [dateCaps', Caps.get, str]) (by simp [dateCaps', Caps.get, str])
        (by simp [dateCaps', Caps.get, str]) (by simp [dateCaps', Caps.get, str])
      have g : (dateCaps' t y m dd).get (str "date") ≠ [] := by simp [dateCaps', Caps.get, ez]
      rw [if_neg (by simp [dateCaps', Caps.get, str]), if_neg (by simp [dateCaps', Caps.get, str]), if_pos g, hd]
      rfl
  | @bankId ind gap s room hi hg hne hs hr =>
    have h1 : RunsTo (.grp (str "ofx_bankid") (.plus .digit)) s room [] [(str "ofx_bankid", s)] := RunsTo.grp (RunsTo.plus hne hs (hroom hr (by decide) (by decide)) [])
    have h2 : RunsTo accountBodyRe (ind ++ (str "ofx_bankid" ++ (gap ++ s))) room [] [(str "ofx_bankid", s)] := by
      refine RunsTo.altR ?_ (RunsTo.altR ?_ (RunsTo.altR ?_ (RunsTo.altL (argRun hi hg k4 (word_head hne (fun y hy => digit_word (hs y hy))) h1))))
      · rw [List.append_assoc]; exact otherLit hi.2 (NoHead.cons (by decide)) k1 (by intro t e; simp [str] at e)
      · rw [List.append_assoc]; exact otherLit hi.2 (NoHead.cons (by decide)) k2 (by intro t e; simp [str] at e)
      · rw [List.append_assoc]; exact otherLit hi.2 (NoHead.cons (by decide)) k3 (by intro t e; simp [str] at e)
    refine step _ _ ?_ h2.matches (by simp [accountLine, Caps.get, str, hne]; rfl)
    rw [List.append_assoc]; exact gap_body hi ⟨'o', _, rfl, by decide⟩
  | @acctId ind gap s room hi hg hne hs hr =>
    have h1 : RunsTo (.grp (str "ofx_acctid") (.plus .digit)) s room [] [(str "ofx_acctid", s)] := RunsTo.grp (RunsTo.plus hne hs (hroom hr (by decide) (by decide)) [])
    have h2 : RunsTo accountBodyRe (ind ++ (str "ofx_acctid" ++ (gap ++ s))) room [] [(str "ofx_acctid", s)] := by
      refine RunsTo.altR ?_ (RunsTo.altR ?_ (RunsTo.altR ?_ (RunsTo.altR ?_ (RunsTo.altL (argRun hi hg k5 (word_head hne (fun y hy => digit_word (hs y hy))) h1)))))
      · rw [List.append_assoc]; exact otherLit hi.2 (NoHead.cons (by decide)) k1 (by intro t e; simp [str] at e)
      · rw [List.append_assoc]; exact otherLit hi.2 (NoHead.cons (by decide)) k2 (by intro t e; simp [str] at e)
      · rw [List.append_assoc]; exact otherLit hi.2 (NoHead.cons (by decide)) k3 (by intro t e; simp [str] at e)
      · rw [List.append_assoc]; exact otherLit hi.2 (NoHead.cons (by decide)) k4 (by intro t e; simp [str] at e)
    refine step _ _ ?_ h2.matches (by simp [accountLine, Caps.get, str, hne]; rfl)
    rw [List.append_assoc]; exact gap_body hi ⟨'o', _, rfl, by decide⟩
  | @csvId ind gap s room hi hg hne hs hr =>
    have h1 : RunsTo (.grp (str "csv_acctid") (.plus .word)) s room [] [(str "csv_acctid", s)] := RunsTo.grp (RunsTo.plus hne hs (hroom hr (by decide) (by decide)) [])
    have h2 : RunsTo accountBodyRe (ind ++ (str "csv_acctid" ++ (gap ++ s))) room [] [(str "csv_acctid", s)] := by
      refine RunsTo.altR ?_ (RunsTo.altR ?_ (RunsTo.altR ?_ (RunsTo.altR ?_ (RunsTo.altR ?_ (argRun hi hg k6 (word_head hne hs) h1)))))
      · rw [List.append_assoc]; exact otherLit hi.2 (NoHead.cons (by decide)) k1 (by intro t e; simp [str] at e)
      · rw [List.append_assoc]; exact otherLit hi.2 (NoHead.cons (by decide)) k2 (by intro t e; simp [str] at e)
      · rw [List.append_assoc]; exact otherLit hi.2 (NoHead.cons (by decide)) k3 (by intro t e; simp [str] at e)
      · rw [List.append_assoc]; exact otherLit hi.2 (NoHead.cons (by decide)) k4 (by intro t e; simp [str] at e)
      · rw [List.append_assoc]; exact otherLit hi.2 (NoHead.cons (by decide)) k5 (by intro t e; simp [str] at e)
    refine step _ _ ?_ h2.matches (by simp [accountLine, Caps.get, str, hne]; rfl)
    rw [List.append_assoc]; exact gap_body hi ⟨'c', _, rfl, by decide⟩

theorem acctBody_fold {lines : List Str} {ss : List AcctSetting} (h : List.Forall₂ AcctLine lines ss) {rest : List Str} (hr : NotBody rest) (env : PEnv) (name : Str)
    (d : List AcctSetting) : accountBody env (declaredAcct env.dflt name d) (lines ++ rest) = .ok (declaredAcct env.dflt name (d ++ ss), rest) := by
  induction h generalizing d with
  | nil =>
    rw [List.append_nil, List.nil_append]
    cases rest with
    | nil => rfl
    | cons l t => rw [accountBody, if_pos (notBody_ends hr l (by simp))]
  | @cons line s lines ss hs _ ih =>
    rw [List.cons_append, acctLine_step hs, ← declaredAcct_concat, ih (d ++ [s]), List.append_assoc, List.singleton_append]

theorem gapAccount_match {gap name room : Str} (hg : Gap gap) (h : AccountName name) (hr : Room room) :
    accountHeadRe.matches (str "account" ++ (gap ++ name) ++ room) = some [(str "account", name)] := by
  have h1 := account_run (rest := room) h (hr.endsWord.head (by decide) (by decide)) []
  obtain ⟨x, t, ex, hx⟩ := h.head
  have h2 : RunsTo accountHeadRe (str "account" ++ (gap ++ name)) room [] _ :=
    RunsTo.seq (RunsTo.lit _ _ []) (RunsTo.seq (RunsTo.plus hg.1 hg.2.ws (by rw [ex]; exact NoHead.cons (alpha_props hx).1) []) h1)
  exact h2.matches

/-- **C160 (part)** An account's declaration in any layout: the name, and below it, indented, any number of settings in any order. It
declares the account with these settings (the last of a kind counts), in the default commodity in force unless another is set. Notes
have at least two characters. -/
theorem C160_account_partial (env : PEnv) (gap name room : Str) (hg : Gap gap) (hn : AccountName name) (hroom : Room room)
    (lines : List Str) (ss : List AcctSetting) (h : List.Forall₂ AcctLine lines ss) (rest : List Str) (hr : NotBody rest) :
    next env ((str "account" ++ (gap ++ name) ++ room) :: (lines ++ rest)) = .ok (some (.account (declaredAcct env.dflt name ss), false), rest) := by
  have hline : str "account" ++ (gap ++ name) ++ room = 'a' :: (str "ccount" ++ (gap ++ name) ++ room) := by simp [str]
  unfold next
  rw [if_neg (by rw [hline, isBlank_cons (by decide)]; decide), if_neg (by rw [hline]; simp [isComment])]
  unfold parseItem
  rw [if_neg (by simp [startsWith, str]), if_pos (by rw [List.append_assoc]; exact startsWith_append _ _)]
  unfold parseAccount
  rw [gapAccount_match hg hn hroom]
  simp only [getOr, get_cons_eq]
  have := acctBody_fold h hr env name []
  rw [List.nil_append] at this
  rw [show (⟨name, [], env.dflt, none, [], [], []⟩ : PAcct) = declaredAcct env.dflt name [] from rfl, this]
  rfl

/-- A note of any length is accepted and kept. -/
def C160_Statement : Prop := ∀ (env : PEnv) (name note : Str), AccountName name → noNl note → (∃ x t, note = x :: t ∧ isWs x = false) →
  next env [str "account " ++ name, str "  note " ++ note] = .ok (some (.account ⟨name, note, env.dflt, none, [], [], []⟩, false), [])

/-- An account's note of one character is refused with an error that ends the program. -/
theorem C160_note_violated : ¬ C160_Statement := by
  intro h
  have := h ⟨⟨2020, 1, 1⟩, fun _ => none, str "CAD"⟩ (str "A") (str "x") (.one ⟨'A', [], rfl, by decide, by simp⟩) (by decide) ⟨'x', [], rfl, by decide⟩
  have h2 : next ⟨⟨2020, 1, 1⟩, fun _ => none, str "CAD"⟩ [str "account " ++ str "A", str "  note " ++ str "x"] = .error .err := by
    unfold next
    rw [if_neg (by decide), if_neg (by decide)]
    unfold parseItem
    rw [if_neg (by decide), if_pos (by decide)]
    unfold parseAccount
    rw [accountBody, if_neg (by decide)]
    have : accountBodyRe.matches (str "  note " ++ str "x") = none := by decide +kernel
    rw [this]
    rfl
  rw [h2] at this
  cases this

end Verif
