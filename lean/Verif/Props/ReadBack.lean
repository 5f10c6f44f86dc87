import Verif.Props.RoundTrip
/-
C65: commodities, accounts and prices written and read again.
-/
namespace Verif

/-! ## Specification -/

/-- A price of a known currency. -/
structure CanonPrice (coms : Str → Option Com) (p : PPrice) : Prop where
  year : 100 ≤ goYear p.time ∧ goYear p.time ≤ 9999
  commodity : CommodityName p.commodityId
  value : CanonAmount coms p.value
  currency : p.currencyId = p.value.com.id

/-- A text on one line that does not start with white space and does not end in a carriage return. -/
def CanonText (s : Str) : Prop := noNl s ∧ (∀ x t, s = x :: t → isWs x = false) ∧ s.getLast? ≠ some '\r'

/-- A commodity as the parser accepts it. -/
structure CanonCom (c : PCom) : Prop where
  id : CommodityName c.id
  name : CanonText c.name

/-- An account as the parser accepts it. -/
structure CanonAcct (a : PAcct) : Prop where
  name : AccountName a.fullName
  description : CanonText a.description
  /-- a description has more than one character -/
  long : a.description.length ≠ 1
  commodity : CommodityName a.commodityId
  closed : ∀ d, a.closed = some d → 100 ≤ goYear d ∧ goYear d ≤ 9999
  bank : ∀ x ∈ a.ofxBankId, isDigit x = true
  acct : ∀ x ∈ a.ofxAcctId, isDigit x = true
  csv : ∀ x ∈ a.csvAcctId, isWord x = true

/-- What follows an item: nothing, or an empty line. -/
def Ends (rest : List Str) : Prop := rest = [] ∨ ∃ t, rest = [] :: t

/-! ## Proofs -/

theorem written_date_end {n : Int} (h : 100 ≤ goYear n ∧ goYear n ≤ 9999) : ∃ y m d : Str,
    RunsTo dateRe (formatDate n) [] [] (dateCaps n y m d) ∧
    ∀ (today : Today) (c : Caps), c.get (str "ymd") = formatDate n → c.get (str "ymdy") = y → c.get (str "ymdm") = m → c.get (str "ymdd") = d →
      c.get (str "offset") = [] → mustParseDate today c = .ok n := by
  obtain ⟨y, m, d, e, hy, hm, hd, ey, em, ed⟩ := formatDate_digits n (by omega) h.2
  refine ⟨y, m, d, ?_, ?_⟩
  · unfold dateCaps
    rw [e]
    have hr : DateEnd [] := by intro x t e; cases e
    have h1 := ymd_run (rest := [] ++ []) ⟨hy.1, .inr hy.2⟩ ⟨hm.1, .inr hm.2⟩ ⟨hd.1, .inr hd.2⟩ (by simpa using hr) []
    have h2 := noOffset_run (rest := []) (by intro x t e; cases e)
      ((str "ymd", y ++ '/' :: (m ++ '/' :: d)) :: (str "ymdd", d) :: (str "ymdm", m) :: (str "ymdy", y) :: [])
    have := date_run h1 h2
    simpa using this
  · intro today c c1 c2 c3 c4 c5
    unfold mustParseDate parseDate
    rw [base_ymd today (by rw [c1, e]; simp) c2 (by rintro rfl; have := hy.2; simp at this) c3 c4]
    simp only [c5]
    rw [ey, em, ed, if_neg (by omega), goDate_parts]
    rfl

theorem ws1 : ∀ x ∈ [' '], isWs x = true := by intro x hx; simp at hx; subst hx; decide
theorem ws2 : ∀ x ∈ str "  ", isWs x = true := by decide

/-- A body line with another key. -/
theorem keyNo {key u : Str} {r : Re} (hu : NoHead isWs u) (hk : ∀ t : Str, ' ' :: t ≠ key ++ t) (hk2 : ∀ a t : Str, ' ' :: a ≠ key ++ t) (hp : ∀ t, u ≠ key ++ t) :
    NoMatch (.seq (.plus .ws) (.seq (.lit key) r)) (str "  " ++ u) := by
  refine NoMatch.plusThen hu (fun w1 w2 e => NoMatch.seqL (NoMatch.lit ?_))
  intro t e2
  cases w2 with
  | nil => exact hp t e2
  | cons x w2 =>
    have : x = ' ' := (by decide : ∀ x ∈ str "  ", x = ' ') x (by rw [e]; simp)
    subst this
    exact hk2 _ t e2

theorem keyNoGrp {key u n : Str} {r : Re} (hu : NoHead isWs u) (hk2 : ∀ a t : Str, ' ' :: a ≠ key ++ t) (hp : ∀ t, u ≠ key ++ t) :
    NoMatch (.seq (.plus .ws) (.seq (.grp n (.lit key)) r)) (str "  " ++ u) := by
  refine NoMatch.plusThen hu (fun w1 w2 e => NoMatch.seqL (NoMatch.grp (NoMatch.lit ?_)))
  intro t e2
  cases w2 with
  | nil => exact hp t e2
  | cons x w2 =>
    have : x = ' ' := (by decide : ∀ x ∈ str "  ", x = ' ') x (by rw [e]; simp)
    subst this
    exact hk2 _ t e2

/-- A body line with this key. -/
theorem keyRun {key arg : Str} {X : Re} {c' : Caps} (hk : ∃ a t, key = a :: t ∧ isWs a = false) (ha : ∃ x t, arg = x :: t ∧ isWs x = false) (hX : RunsTo X arg [] [] c') :
    RunsTo (.cat [.plus .ws, .lit key, .plus .ws, X]) (str "  " ++ (key ++ ([' '] ++ arg))) [] [] c' := by
  obtain ⟨a, t, rfl, hak⟩ := hk
  obtain ⟨x, u, rfl, hxa⟩ := ha
  refine RunsTo.seq (RunsTo.plus (by decide) ws2 (NoHead.cons hak) []) (RunsTo.seq (RunsTo.lit _ _ []) (RunsTo.seq (RunsTo.plus (by simp) ws1 (NoHead.cons hxa) []) hX))

theorem word_head {s : Str} (hne : s ≠ []) (h : ∀ x ∈ s, isWord x = true) : ∃ x t, s = x :: t ∧ isWs x = false := by
  obtain ⟨x, t, rfl⟩ := List.exists_cons_of_ne_nil hne
  refine ⟨x, t, rfl, ?_⟩
  have := h x (by simp)
  by_contra hc
  simp only [Bool.not_eq_false] at hc
  unfold isWs at hc
  simp only [Bool.or_eq_true, decide_eq_true_eq] at hc
  rcases hc with (((rfl | rfl) | rfl) | rfl) | rfl <;> exact absurd this (by decide)

theorem digit_word {x : Char} (h : isDigit x = true) : isWord x = true := by unfold isWord; simp [h]

theorem com_head {s : Str} (h : CommodityName s) : ∃ x t, s = x :: t ∧ isWs x = false := word_head h.word.1 h.word.2

/-! ### Prices -/

theorem price_run {p : PPrice} {coms : Str → Option Com} (h : CanonPrice coms p) {l : Lit} (hl : l.WF) :
    ∃ c, priceRe.matches (str "P " ++ formatDate p.time ++ str " " ++ p.commodityId ++ str " " ++ (l.text ++ ' ' :: p.value.com.id)) = some c ∧
      (∀ today, mustParseDate today c = .ok p.time) ∧ c.get (str "commodity1") = p.commodityId ∧ c.get (str "commodity2") = p.value.com.id ∧
      c.get (str "amount") = l.text := by
  obtain ⟨y, m, d, e, hrun, hdate⟩ := written_date h.year
  have h1 := hrun (p.commodityId ++ ([' '] ++ (l.text ++ ([' '] ++ p.value.com.id))))
  have hcom := h.value.2.2.2.1
  obtain ⟨x, t, ex, hx⟩ := l.text_head hl
  have h2 : RunsTo (.plus .ws) [' '] ((p.commodityId ++ ([' '] ++ (l.text ++ ([' '] ++ p.value.com.id)))) ++ []) (dateCaps p.time y m d) (dateCaps p.time y m d) := by
    obtain ⟨a, t, ea, ha⟩ := com_head h.commodity
    refine RunsTo.plus (by simp) ws1 ?_ _
    rw [ea]; exact NoHead.cons ha
  have h3 := commodity_run (rest := ([' '] ++ (l.text ++ ([' '] ++ p.value.com.id))) ++ []) (str "1") h.commodity (NoHead.cons (by decide)) (dateCaps p.time y m d)
  have h4 : RunsTo (.plus .ws) [' '] ((l.text ++ ([' '] ++ p.value.com.id)) ++ []) ((str "commodity" ++ str "1", p.commodityId) :: dateCaps p.time y m d)
      ((str "commodity" ++ str "1", p.commodityId) :: dateCaps p.time y m d) :=
    RunsTo.plus (by simp) ws1 (by rw [ex]; exact NoHead.cons (notWs_num hx)) _
  have h5 := amount_run (rest := []) [] (str "2") hl hcom (sp := [' ']) (by simp) (by simp) NoHead.nil ((str "commodity" ++ str "1", p.commodityId) :: dateCaps p.time y m d)
  have h0 : RunsTo (.lit (str "P ")) (str "P ") ((formatDate p.time ++ ([' '] ++ (p.commodityId ++ ([' '] ++ (l.text ++ ([' '] ++ p.value.com.id)))))) ++ []) [] [] := RunsTo.lit _ _ _
  have hall : RunsTo priceRe (str "P " ++ (formatDate p.time ++ ([' '] ++ (p.commodityId ++ ([' '] ++ (l.text ++ ([' '] ++ p.value.com.id))))))) [] [] _ :=
    RunsTo.seq h0 (RunsTo.seq (by simpa using h1) (RunsTo.seq h2 (RunsTo.seq h3 (RunsTo.seq h4 h5))))
  have hm := hall.matches
  have e2 : (str "P " ++ (formatDate p.time ++ ([' '] ++ (p.commodityId ++ ([' '] ++ (l.text ++ ([' '] ++ p.value.com.id))))))) ++ [] =
      str "P " ++ formatDate p.time ++ str " " ++ p.commodityId ++ str " " ++ (l.text ++ ' ' :: p.value.com.id) := by simp [str]
  rw [e2] at hm
  refine ⟨_, hm, ?_, ?_, ?_, ?_⟩
  · intro today
    refine hdate today _ ?_ ?_ ?_ ?_ ?_ <;> by_cases h0 : l.fp = [] <;> simp [amtCaps, numCaps, dateCaps, Caps.get, str, h0]
  all_goals by_cases h0 : l.fp = [] <;> simp [amtCaps, numCaps, dateCaps, Caps.get, str, h0]

theorem isSpaceU_lt_of_word {x : Char} (h : isAlpha x = true) : isSpaceU x = false := by
  have : 65 ≤ x.toNat ∧ x.toNat ≤ 122 := by
    unfold isAlpha at h
    simp only [Bool.or_eq_true, Bool.and_eq_true, decide_eq_true_eq] at h
    omega
  by_contra hc
  simp only [Bool.not_eq_false] at hc
  unfold isSpaceU at hc
  simp only [Bool.or_eq_true, Bool.and_eq_true, decide_eq_true_eq, List.mem_cons, List.not_mem_nil, or_false] at hc
  rcases hc with hc | hc
  · rcases hc with rfl | rfl | rfl | rfl | rfl | rfl | rfl | rfl | rfl | rfl | rfl | rfl | rfl | rfl <;> exact absurd this (by decide)
  · omega

theorem isBlank_cons {x : Char} {u : Str} (h : isSpaceU x = false) : isBlank (x :: u) = false := by simp [isBlank, h]

theorem startsWith_append (p s : Str) : startsWith p (p ++ s) = true := by simp [startsWith]

theorem clean_word {s : Str} (h : ∀ x ∈ s, isWord x = true) : CleanLine s := clean_of_pred h (by decide) (by decide)

/-- **C65** A price that is written and read again is the same price. -/
theorem C65_price (env : PEnv) (p : PPrice) (h : CanonPrice env.coms p) (rest : List Str) :
    ∃ line, writePrice p = .ok [line] ∧ CleanLine line ∧ next env (line :: rest) = .ok (some (.price p, false), rest) := by
  obtain ⟨l, hl, es⟩ := string_lit p.value h.value.1
  obtain ⟨c, hm, hd, h1, h2, h3⟩ := price_run h hl
  have hcom := h.value.2.2.2.1
  refine ⟨str "P " ++ formatDate p.time ++ str " " ++ p.commodityId ++ str " " ++ (l.text ++ ' ' :: p.value.com.id), ?_, ?_, ?_⟩
  · unfold writePrice amountText
    rw [format_none es]
    rfl
  · refine CleanLine.append (noNl_append (noNl_append (noNl_append (noNl_append (by decide) (formatDate_head h.year).1) (by decide)) (clean_word h.commodity.word.2).1) (by decide))
      (CleanLine.append (lit_noNl hl) (CleanLine.append (a := [' ']) (by decide) (clean_word hcom.word.2) hcom.word.1) (by simp)) (by simp)
  · have hline : str "P " ++ formatDate p.time ++ str " " ++ p.commodityId ++ str " " ++ (l.text ++ ' ' :: p.value.com.id) =
        'P' :: ' ' :: (formatDate p.time ++ str " " ++ p.commodityId ++ str " " ++ (l.text ++ ' ' :: p.value.com.id)) := by simp [str]
    unfold next
    rw [if_neg (by rw [hline, isBlank_cons (by decide)]; decide), if_neg (by rw [hline]; simp [isComment])]
    unfold parseItem
    rw [if_neg (by rw [hline]; simp [startsWith, str]), if_neg (by rw [hline]; simp [startsWith, str]), if_neg (by rw [hline]; simp [startsWith, str]),
      if_neg (by rw [hline]; simp [startsWith, str]), if_pos (by rw [hline]; simp [startsWith, str])]
    unfold parsePrice
    rw [hm]
    simp only [hd, h1, h2, h3, Except.bind]
    have := optAmount_canon h.value es (l.text_ne hl)
    unfold optAmount mustFindCommodity at this
    rw [if_neg (l.text_ne hl), h.value.2.2.2.2] at this
    simp only [Except.bind] at this
    unfold mustFindCommodity
    rw [h.value.2.2.2.2]
    simp only []
    cases hp : parseAmount l.text p.value.com with
    | error f => rw [hp] at this; cases this
    | ok a =>
      rw [hp] at this
      simp only [Except.ok.injEq, Option.some.injEq] at this
      subst this
      simp only [← h.currency]

/-! ### Commodities -/

theorem any_run {s : Str} (h : noNl s) (c : Caps) : RunsTo (.star .any) s [] c c :=
  RunsTo.star (by intro x hx; simpa using h x hx) NoHead.nil c

theorem endsBody_blanks {u : Str} (h : ∃ x t, u = x :: t ∧ isSpaceU x = false) : endsBody (str "  " ++ u) = false := by
  obtain ⟨x, t, rfl, hx⟩ := h
  unfold endsBody
  have : isBlank (str "  " ++ x :: t) = false := by simp [isBlank, str, hx]
  rw [this]
  simp [str]
  decide

theorem endsBody_key {key arg : Str} (h : ∃ x t, key = x :: t ∧ isSpaceU x = false) : ¬ endsBody (str "  " ++ (key ++ arg)) = true := by
  obtain ⟨x, t, rfl, hx⟩ := h
  have : endsBody (str "  " ++ (x :: t ++ arg)) = false := endsBody_blanks ⟨x, _, rfl, hx⟩
  rw [this]; decide

theorem endsBody_of_ends {rest : List Str} (h : Ends rest) : ∀ l t, rest = l :: t → endsBody l = true := by
  rintro l t e
  rcases h with rfl | ⟨u, rfl⟩
  · cases e
  · cases e; decide

/-- The number a commodity's format line starts with. -/
def formatLit (d : Nat) : Lit := ⟨false, ['1'], rep d '0'⟩

theorem formatLit_wf (d : Nat) : (formatLit d).WF := ⟨by simp [formatLit], by simp [formatLit]; decide, rep_zero_allDigits d⟩

theorem formatLit_text (d : Nat) : (formatLit d).text = if d > 0 then str "1." ++ rep d '0' else str "1" := by
  unfold Lit.text formatLit
  by_cases h : d > 0
  · have : rep d '0' ≠ [] := by intro e; have := congrArg List.length e; simp at this; omega
    simp [h, this, str]
  · have : d = 0 := by omega
    subst this
    simp [str, rep]

/-- The body of a written commodity. -/
theorem commodityBody_read {c : PCom} (h : CanonCom c) {rest : List Str} (hr : Ends rest) :
    commodityBody ⟨c.id, [], 2, false, []⟩ false ((writeCommodity c).tail ++ rest) = .ok (({ c with symbol := [] }, false), rest) := by
  have fin : ∀ x, commodityBody x false rest = .ok ((x, false), rest) := by
    intro x
    cases hrest : rest with
    | nil => rfl
    | cons l t => rw [commodityBody, if_pos (endsBody_of_ends hr l t hrest)]
  have market : ∀ x : PCom, x.noMarket = false → commodityBody x false ((if c.noMarket then [str "  nomarket"] else []) ++ rest) = .ok (({ x with noMarket := c.noMarket }, false), rest) := by
    intro x hx
    by_cases hm : c.noMarket = true
    · rw [if_pos hm, List.singleton_append, commodityBody, if_neg (by decide +kernel)]
      have : commodityBodyRe.matches (str "  nomarket") = some [(str "nomarket", str "nomarket")] := by decide +kernel
      rw [this]
      have e2 : commodityLine x [(str "nomarket", str "nomarket")] = .ok ({ x with noMarket := true }, false) := by simp [commodityLine, Caps.get, str]
      simp only [e2, Except.bind, Bool.or_self]
      rw [fin, hm]
    · rw [if_neg hm, List.nil_append, fin]
      have : c.noMarket = false := by simpa using hm
      rw [this, ← hx]
  have fmt : ∀ x : PCom, x.noMarket = false → commodityBody x false (([str "  format " ++ (if c.decimals > 0 then str "1." ++ rep c.decimals '0' else str "1") ++ str " " ++ c.id] ++
      (if c.noMarket then [str "  nomarket"] else [])) ++ rest) = .ok (({ x with decimals := c.decimals, noMarket := c.noMarket }, false), rest) := by
    intro x hx
    rw [List.append_assoc, List.singleton_append, commodityBody]
    have e : str "  format " ++ (if c.decimals > 0 then str "1." ++ rep c.decimals '0' else str "1") ++ str " " ++ c.id =
        str "  " ++ (str "format" ++ ([' '] ++ ((formatLit c.decimals).text ++ ([' '] ++ c.id)))) := by
      rw [formatLit_text]; simp [str]
    rw [e, if_neg (endsBody_key (key := str "format") ⟨'f', str "ormat", rfl, by decide⟩)]
    obtain ⟨y, u, ey, hy⟩ := (formatLit c.decimals).text_head (formatLit_wf _)
    have h1 := RunsTo.grp (n := str "format") (amount_run (rest := []) [] [] (formatLit_wf c.decimals) h.id (sp := [' ']) (by simp) (by simp) NoHead.nil [])
    have h2 : RunsTo commodityBodyRe (str "  " ++ (str "format" ++ ([' '] ++ ((formatLit c.decimals).text ++ ([' '] ++ c.id))))) [] [] _ :=
      RunsTo.altR (by rw [List.append_nil]; exact keyNo (NoHead.cons (by decide)) (by intro t e; simp [str] at e) (by intro a t e; simp [str] at e) (by intro t e; simp [str] at e))
        (RunsTo.altL (keyRun ⟨'f', str "ormat", rfl, by decide⟩ ⟨y, _, by rw [ey]; rfl, notWs_num hy⟩ h1))
    have hm := h2.matches
    rw [List.append_nil] at hm
    rw [hm]
    have g1 : Caps.get ((str "format", (formatLit c.decimals).text ++ ([' '] ++ c.id)) :: amtCaps [] [] (formatLit c.decimals) c.id []) (str "note") = [] := by
      by_cases h0 : (formatLit c.decimals).fp = [] <;> simp [amtCaps, numCaps, Caps.get, str, h0]
    have g2 : Caps.get ((str "format", (formatLit c.decimals).text ++ ([' '] ++ c.id)) :: amtCaps [] [] (formatLit c.decimals) c.id []) (str "amount") = (formatLit c.decimals).text := by
      by_cases h0 : (formatLit c.decimals).fp = [] <;> simp [amtCaps, numCaps, Caps.get, str, h0]
    have g3 : (Caps.get ((str "format", (formatLit c.decimals).text ++ ([' '] ++ c.id)) :: amtCaps [] [] (formatLit c.decimals) c.id []) (str "decimals")).length - 1 = c.decimals := by
      by_cases h0 : (formatLit c.decimals).fp = []
      · have : c.decimals = 0 := by have := congrArg List.length h0; simpa [formatLit] using this
        rw [this] at h0 ⊢
        simp [amtCaps, numCaps, Caps.get, str, formatLit, rep]
      · simp [amtCaps, numCaps, Caps.get, str, h0]
        simp [formatLit]
    simp only [commodityLine, g1, g2, g3]
    rw [if_neg (by simp), if_pos ((formatLit c.decimals).text_ne (formatLit_wf _))]
    simp only [Except.bind, Bool.or_self]
    exact market { x with decimals := c.decimals } hx
  unfold writeCommodity
  by_cases hn : c.name = []
  · simp only [hn, ne_eq, not_true_eq_false, if_false, List.append_nil, List.singleton_append, List.cons_append, List.tail_cons, List.nil_append]
    have := fmt ⟨c.id, [], 2, false, []⟩ rfl
    simp only [List.singleton_append, List.cons_append, List.nil_append] at this
    rw [this]
  · have htail : ∀ L : List Str, ([str "commodity " ++ c.id] ++ (if c.name ≠ [] then [str "  note " ++ c.name] else []) ++ L).tail = (str "  note " ++ c.name) :: L := by
      intro L; rw [if_pos hn]; simp
    have hass : [str "commodity " ++ c.id] ++ (if c.name ≠ [] then [str "  note " ++ c.name] else []) ++
        [str "  format " ++ (if c.decimals > 0 then str "1." ++ rep c.decimals '0' else str "1") ++ str " " ++ c.id] ++ (if c.noMarket then [str "  nomarket"] else []) =
        [str "commodity " ++ c.id] ++ (if c.name ≠ [] then [str "  note " ++ c.name] else []) ++
        ([str "  format " ++ (if c.decimals > 0 then str "1." ++ rep c.decimals '0' else str "1") ++ str " " ++ c.id] ++ (if c.noMarket then [str "  nomarket"] else [])) := by
      simp
    rw [hass, htail, List.cons_append, commodityBody]
    have e : str "  note " ++ c.name = str "  " ++ (str "note" ++ ([' '] ++ c.name)) := by simp [str]
    obtain ⟨x, t, ex⟩ := List.exists_cons_of_ne_nil hn
    have h1 : RunsTo (.grp (str "note") (.plus .any)) c.name [] [] [(str "note", c.name)] :=
      RunsTo.grp (RunsTo.plus hn (by intro y hy; simpa using h.name.1 y hy) NoHead.nil [])
    have h2 : RunsTo commodityBodyRe (str "  " ++ (str "note" ++ ([' '] ++ c.name))) [] [] [(str "note", c.name)] :=
      RunsTo.altL (keyRun ⟨'n', str "ote", rfl, by decide⟩ ⟨x, t, ex, h.name.2.1 x t ex⟩ h1)
    have hm := h2.matches
    rw [List.append_nil] at hm
    rw [e, if_neg (endsBody_key (key := str "note") ⟨'n', str "ote", rfl, by decide⟩), hm]
    simp only [commodityLine, get_cons_eq]
    rw [if_pos hn]
    simp only [Except.bind, Bool.or_self]
    have := fmt ⟨c.id, c.name, 2, false, []⟩ rfl
    exact this

theorem commodityHead_match {id : Str} (h : CommodityName id) : commodityHeadRe.matches (str "commodity " ++ id) = some [(str "commodity", id)] := by
  have h1 := commodity_run (rest := []) [] h NoHead.nil []
  obtain ⟨x, t, ex, hx⟩ := com_head h
  have h2 : RunsTo commodityHeadRe (str "commodity" ++ ([' '] ++ id)) [] [] _ :=
    RunsTo.seq (RunsTo.lit _ _ []) (RunsTo.seq (RunsTo.plus (by simp) ws1 (by rw [ex]; exact NoHead.cons hx) []) h1)
  have hm := h2.matches
  rw [List.append_nil] at hm
  have e : str "commodity" ++ ([' '] ++ id) = str "commodity " ++ id := by simp [str]
  rw [e] at hm
  rw [hm]; simp

/-- **C65** A commodity that is written and read again is the same commodity, except that its symbol, and that it is the default, are lost. -/
theorem C65_commodity_partial (env : PEnv) (c : PCom) (h : CanonCom c) (rest : List Str) (hr : Ends rest) :
    next env (writeCommodity c ++ rest) = .ok (some (.commodity { c with symbol := [] }, false), rest) := by
  have e : writeCommodity c = (str "commodity " ++ c.id) :: (writeCommodity c).tail := by simp [writeCommodity]
  rw [e, List.cons_append]
  have hline : str "commodity " ++ c.id = 'c' :: (str "ommodity " ++ c.id) := by simp [str]
  unfold next
  rw [if_neg (by rw [hline, isBlank_cons (by decide)]; decide), if_neg (by rw [hline]; simp [isComment])]
  unfold parseItem
  rw [if_neg (by simp [startsWith, str]), if_neg (by simp [startsWith, str]), if_pos (startsWith_append _ _)]
  unfold parseCommodity
  rw [commodityHead_match h.id]
  simp only [getOr, get_cons_eq]
  rw [commodityBody_read h hr]
  rfl

/-! ### Accounts -/

theorem accountHead_match {n : Str} (h : AccountName n) : accountHeadRe.matches (str "account " ++ n) = some [(str "account", n)] := by
  have h1 := account_run (rest := []) h NoHead.nil []
  obtain ⟨x, t, ex, hx⟩ := h.head
  have h2 : RunsTo accountHeadRe (str "account" ++ ([' '] ++ n)) [] [] _ :=
    RunsTo.seq (RunsTo.lit _ _ []) (RunsTo.seq (RunsTo.plus (by simp) ws1 (by rw [ex]; exact NoHead.cons (alpha_props hx).1) []) h1)
  have hm := h2.matches
  rw [List.append_nil] at hm
  have e : str "account" ++ ([' '] ++ n) = str "account " ++ n := by simp [str]
  rw [e] at hm
  exact hm

/-- One optional body line. -/
theorem accountBody_line {env : PEnv} {a a' : PAcct} {key arg : Str} {c : Caps} {rest : List Str} (hk : ∃ x t, key = x :: t ∧ isSpaceU x = false)
    (hm : accountBodyRe.matches (str "  " ++ (key ++ ([' '] ++ arg))) = some c) (hl : accountLine env a c = .ok a') :
    accountBody env a ((str "  " ++ (key ++ ([' '] ++ arg))) :: rest) = accountBody env a' rest := by
  rw [accountBody, if_neg (endsBody_key hk), hm]
  simp only [hl, Except.bind]

theorem accountBody_read {env : PEnv} {a : PAcct} (h : CanonAcct a) {rest : List Str} (hr : Ends rest) (com0 : Str) :
    accountBody env ⟨a.fullName, [], com0, none, [], [], []⟩ ((writeAccount a).tail ++ rest) = .ok (a, rest) := by
  have fin : ∀ x, accountBody env x rest = .ok (x, rest) := by
    intro x
    cases hrest : rest with
    | nil => rfl
    | cons l t => rw [accountBody, if_pos (endsBody_of_ends hr l t hrest)]
  have no : ∀ {key k2 arg : Str} {r : Re}, (∃ x t, k2 = x :: t ∧ isWs x = false) → (∀ b t : Str, ' ' :: b ≠ key ++ t) → (∀ b t : Str, k2 ++ ' ' :: b ≠ key ++ t) →
      NoMatch (.seq (.plus .ws) (.seq (.lit key) r)) ((str "  " ++ (k2 ++ ([' '] ++ arg))) ++ []) := by
    rintro key k2 arg r ⟨x, t, rfl, hx⟩ h1 h2
    rw [List.append_nil]
    exact keyNo (NoHead.cons hx) (fun t => h1 t t) h1 (fun t => by simpa using h2 arg t)
  -- csv
  have csv : ∀ x : PAcct, x.csvAcctId = [] → accountBody env x ((if a.csvAcctId ≠ [] then [str "  csv_acctid " ++ a.csvAcctId] else []) ++ rest) =
      .ok ({ x with csvAcctId := a.csvAcctId }, rest) := by
    intro x hx
    by_cases h0 : a.csvAcctId = []
    · rw [if_neg (by simpa using h0), List.nil_append, fin, h0, ← hx]
    · rw [if_pos h0, List.singleton_append]
      have e : str "  csv_acctid " ++ a.csvAcctId = str "  " ++ (str "csv_acctid" ++ ([' '] ++ a.csvAcctId)) := by simp [str]
      have hX : RunsTo (.grp (str "csv_acctid") (.plus .word)) a.csvAcctId [] [] [(str "csv_acctid", a.csvAcctId)] :=
        RunsTo.grp (RunsTo.plus h0 h.csv NoHead.nil [])
      have hR : RunsTo accountBodyRe (str "  " ++ (str "csv_acctid" ++ ([' '] ++ a.csvAcctId))) [] [] [(str "csv_acctid", a.csvAcctId)] := by
        refine RunsTo.altR (no ⟨'c', str "sv_acctid", rfl, by decide⟩ ?_ ?_) (RunsTo.altR (no ⟨'c', str "sv_acctid", rfl, by decide⟩ ?_ ?_)
          (RunsTo.altR (no ⟨'c', str "sv_acctid", rfl, by decide⟩ ?_ ?_) (RunsTo.altR (no ⟨'c', str "sv_acctid", rfl, by decide⟩ ?_ ?_)
          (RunsTo.altR (no ⟨'c', str "sv_acctid", rfl, by decide⟩ ?_ ?_) (keyRun ⟨'c', str "sv_acctid", rfl, by decide⟩ (word_head h0 h.csv) hX)))))
        all_goals intro b t e; simp [str] at e
      have hm := hR.matches
      rw [List.append_nil] at hm
      rw [e, accountBody_line (key := str "csv_acctid") ⟨'c', str "sv_acctid", rfl, by decide⟩ hm (a' := { x with csvAcctId := a.csvAcctId }) (by
        unfold accountLine
        simp [Caps.get, str, h0]), fin]
  have acct : ∀ x : PAcct, x.csvAcctId = [] → x.ofxAcctId = [] →
      accountBody env x ((if a.ofxAcctId ≠ [] then [str "  ofx_acctid " ++ a.ofxAcctId] else []) ++ ((if a.csvAcctId ≠ [] then [str "  csv_acctid " ++ a.csvAcctId] else []) ++ rest)) =
      .ok ({ x with csvAcctId := a.csvAcctId, ofxAcctId := a.ofxAcctId }, rest) := by
    intro x hx hx2
    by_cases h0 : a.ofxAcctId = []
    · rw [if_neg (by simpa using h0), List.nil_append, csv _ hx, h0, ← hx2]
    · rw [if_pos h0, List.singleton_append]
      have e : str "  ofx_acctid " ++ a.ofxAcctId = str "  " ++ (str "ofx_acctid" ++ ([' '] ++ a.ofxAcctId)) := by simp [str]
      have hX : RunsTo (.grp (str "ofx_acctid") (.plus .digit)) a.ofxAcctId [] [] [(str "ofx_acctid", a.ofxAcctId)] :=
        RunsTo.grp (RunsTo.plus h0 h.acct NoHead.nil [])
      have hR : RunsTo accountBodyRe (str "  " ++ (str "ofx_acctid" ++ ([' '] ++ a.ofxAcctId))) [] [] [(str "ofx_acctid", a.ofxAcctId)] := by
        refine RunsTo.altR (no ⟨'o', str "fx_acctid", rfl, by decide⟩ ?_ ?_) (RunsTo.altR (no ⟨'o', str "fx_acctid", rfl, by decide⟩ ?_ ?_)
          (RunsTo.altR (no ⟨'o', str "fx_acctid", rfl, by decide⟩ ?_ ?_) (RunsTo.altR (no ⟨'o', str "fx_acctid", rfl, by decide⟩ ?_ ?_)
          (RunsTo.altL (keyRun ⟨'o', str "fx_acctid", rfl, by decide⟩ (word_head h0 (fun y hy => digit_word (h.acct y hy))) hX)))))
        all_goals intro b t e; simp [str] at e
      have hm := hR.matches
      rw [List.append_nil] at hm
      rw [e, accountBody_line (key := str "ofx_acctid") ⟨'o', str "fx_acctid", rfl, by decide⟩ hm (a' := { x with ofxAcctId := a.ofxAcctId }) (by
        unfold accountLine
        simp [Caps.get, str, h0]), csv _ (by exact hx)]
  have bank : ∀ x : PAcct, x.csvAcctId = [] → x.ofxAcctId = [] → x.ofxBankId = [] →
      accountBody env x ((if a.ofxBankId ≠ [] then [str "  ofx_bankid " ++ a.ofxBankId] else []) ++ ((if a.ofxAcctId ≠ [] then [str "  ofx_acctid " ++ a.ofxAcctId] else []) ++
        ((if a.csvAcctId ≠ [] then [str "  csv_acctid " ++ a.csvAcctId] else []) ++ rest))) =
      .ok ({ x with csvAcctId := a.csvAcctId, ofxAcctId := a.ofxAcctId, ofxBankId := a.ofxBankId }, rest) := by
    intro x hx hx2 hx3
    by_cases h0 : a.ofxBankId = []
    · rw [if_neg (by simpa using h0), List.nil_append, acct _ hx hx2, h0, ← hx3]
    · rw [if_pos h0, List.singleton_append]
      have e : str "  ofx_bankid " ++ a.ofxBankId = str "  " ++ (str "ofx_bankid" ++ ([' '] ++ a.ofxBankId)) := by simp [str]
      have hX : RunsTo (.grp (str "ofx_bankid") (.plus .digit)) a.ofxBankId [] [] [(str "ofx_bankid", a.ofxBankId)] :=
        RunsTo.grp (RunsTo.plus h0 h.bank NoHead.nil [])
      have hR : RunsTo accountBodyRe (str "  " ++ (str "ofx_bankid" ++ ([' '] ++ a.ofxBankId))) [] [] [(str "ofx_bankid", a.ofxBankId)] := by
        refine RunsTo.altR (no ⟨'o', str "fx_bankid", rfl, by decide⟩ ?_ ?_) (RunsTo.altR (no ⟨'o', str "fx_bankid", rfl, by decide⟩ ?_ ?_)
          (RunsTo.altR (no ⟨'o', str "fx_bankid", rfl, by decide⟩ ?_ ?_)
          (RunsTo.altL (keyRun ⟨'o', str "fx_bankid", rfl, by decide⟩ (word_head h0 (fun y hy => digit_word (h.bank y hy))) hX))))
        all_goals intro b t e; simp [str] at e
      have hm := hR.matches
      rw [List.append_nil] at hm
      rw [e, accountBody_line (key := str "ofx_bankid") ⟨'o', str "fx_bankid", rfl, by decide⟩ hm (a' := { x with ofxBankId := a.ofxBankId }) (by
        unfold accountLine
        simp [Caps.get, str, h0]), acct _ (by exact hx) (by exact hx2)]
  have closed : ∀ x : PAcct, x.csvAcctId = [] → x.ofxAcctId = [] → x.ofxBankId = [] → x.closed = none →
      accountBody env x ((match a.closed with | none => [] | some d => [str "  closed " ++ formatDate d]) ++
        ((if a.ofxBankId ≠ [] then [str "  ofx_bankid " ++ a.ofxBankId] else []) ++ ((if a.ofxAcctId ≠ [] then [str "  ofx_acctid " ++ a.ofxAcctId] else []) ++
        ((if a.csvAcctId ≠ [] then [str "  csv_acctid " ++ a.csvAcctId] else []) ++ rest)))) =
      .ok ({ x with csvAcctId := a.csvAcctId, ofxAcctId := a.ofxAcctId, ofxBankId := a.ofxBankId, closed := a.closed }, rest) := by
    intro x hx hx2 hx3 hx4
    cases hc : a.closed with
    | none => simp only [List.nil_append]; rw [bank _ hx hx2 hx3, ← hx4]
    | some d =>
      simp only [List.singleton_append]
      obtain ⟨y, m, dd, hrun, hdate⟩ := written_date_end (h.closed d hc)
      obtain ⟨_, z, u, ez, hz⟩ := formatDate_head (h.closed d hc)
      have e : str "  closed " ++ formatDate d = str "  " ++ (str "closed" ++ ([' '] ++ formatDate d)) := by simp [str]
      have hR : RunsTo accountBodyRe (str "  " ++ (str "closed" ++ ([' '] ++ formatDate d))) [] [] (dateCaps d y m dd) := by
        refine RunsTo.altR (no ⟨'c', str "losed", rfl, by decide⟩ ?_ ?_) (RunsTo.altR (no ⟨'c', str "losed", rfl, by decide⟩ ?_ ?_)
          (RunsTo.altL (keyRun ⟨'c', str "losed", rfl, by decide⟩ ⟨z, u, ez, notWs_num (.inl hz)⟩ hrun)))
        · intro b t e; simp [str] at e
        · intro b t e; simp [str] at e
        · intro b t e; simp [str] at e
        · intro b t e; simp [str] at e
      have hm := hR.matches
      rw [List.append_nil] at hm
      rw [e, accountBody_line (key := str "closed") ⟨'c', str "losed", rfl, by decide⟩ hm (a' := { x with closed := some d }) (by
        unfold accountLine
        have hd := hdate env.today (dateCaps d y m dd) (by simp [dateCaps, Caps.get, str]) (by simp [dateCaps, Caps.get, str]) (by simp [dateCaps, Caps.get, str])
          (by simp [dateCaps, Caps.get, str]) (by simp [dateCaps, Caps.get, str])
        have g : (dateCaps d y m dd).get (str "date") ≠ [] := by simp [dateCaps, Caps.get, ez]
        rw [if_neg (by simp [dateCaps, Caps.get, str]), if_neg (by simp [dateCaps, Caps.get, str]), if_pos g, hd]
        rfl), bank _ (by exact hx) (by exact hx2) (by exact hx3)]
  have com : ∀ x : PAcct, x.csvAcctId = [] → x.ofxAcctId = [] → x.ofxBankId = [] → x.closed = none →
      accountBody env x ((str "  commodity " ++ a.commodityId) :: ((match a.closed with | none => [] | some d => [str "  closed " ++ formatDate d]) ++
        ((if a.ofxBankId ≠ [] then [str "  ofx_bankid " ++ a.ofxBankId] else []) ++ ((if a.ofxAcctId ≠ [] then [str "  ofx_acctid " ++ a.ofxAcctId] else []) ++
        ((if a.csvAcctId ≠ [] then [str "  csv_acctid " ++ a.csvAcctId] else []) ++ rest))))) =
      .ok ({ x with csvAcctId := a.csvAcctId, ofxAcctId := a.ofxAcctId, ofxBankId := a.ofxBankId, closed := a.closed, commodityId := a.commodityId }, rest) := by
    intro x hx hx2 hx3 hx4
    have h0 := h.commodity.word.1
    have e : str "  commodity " ++ a.commodityId = str "  " ++ (str "commodity" ++ ([' '] ++ a.commodityId)) := by simp [str]
    have hX := commodity_run (rest := []) [] h.commodity NoHead.nil []
    have hR : RunsTo accountBodyRe (str "  " ++ (str "commodity" ++ ([' '] ++ a.commodityId))) [] [] [(str "commodity" ++ [], a.commodityId)] := by
      refine RunsTo.altR (no ⟨'c', str "ommodity", rfl, by decide⟩ ?_ ?_) (RunsTo.altL (keyRun ⟨'c', str "ommodity", rfl, by decide⟩ (com_head h.commodity) hX))
      all_goals intro b t e; simp [str] at e
    have hm := hR.matches
    rw [List.append_nil] at hm
    rw [e, accountBody_line (key := str "commodity") ⟨'c', str "ommodity", rfl, by decide⟩ hm (a' := { x with commodityId := a.commodityId }) (by
      unfold accountLine
      simp [Caps.get, str, h0]), closed _ (by exact hx) (by exact hx2) (by exact hx3) (by exact hx4)]
  have etail : (writeAccount a).tail ++ rest = (if a.description ≠ [] then [str "  note " ++ a.description] else []) ++ ((str "  commodity " ++ a.commodityId) ::
        ((match a.closed with | none => [] | some d => [str "  closed " ++ formatDate d]) ++
        ((if a.ofxBankId ≠ [] then [str "  ofx_bankid " ++ a.ofxBankId] else []) ++ ((if a.ofxAcctId ≠ [] then [str "  ofx_acctid " ++ a.ofxAcctId] else []) ++
        ((if a.csvAcctId ≠ [] then [str "  csv_acctid " ++ a.csvAcctId] else []) ++ rest))))) := by
    unfold writeAccount
    simp only [List.cons_append, List.nil_append, List.append_assoc, List.tail_cons]
    cases a.closed <;> rfl
  rw [etail]
  by_cases h0 : a.description = []
  · rw [if_neg (by simpa using h0), List.nil_append, com _ rfl rfl rfl rfl]
    have e : ({ a with description := [] } : PAcct) = a := by rw [← h0]
    exact congrArg (fun z => Except.ok (z, rest)) e
  · rw [if_pos h0, List.singleton_append]
    obtain ⟨x, t, ex⟩ := List.exists_cons_of_ne_nil h0
    have ht : t ≠ [] := by rintro rfl; have := h.long; rw [ex] at this; simp at this
    have hx := h.description.2.1 x t ex
    have e : str "  note " ++ a.description = str "  " ++ (str "note" ++ ([' '] ++ a.description)) := by simp [str]
    have hX : RunsTo (.grp (str "note") (.seq .notWs (.plus .any))) ([x] ++ t) [] [] [(str "note", [x] ++ t)] := by
      refine RunsTo.grp (RunsTo.seq (RunsTo.cls ?_ _ _) (RunsTo.plus ht ?_ NoHead.nil []))
      · simp [hx]
      · intro y hy
        simpa using h.description.1 y (by rw [ex]; exact List.mem_cons_of_mem _ hy)
    have hR : RunsTo accountBodyRe (str "  " ++ (str "note" ++ ([' '] ++ ([x] ++ t)))) [] [] [(str "note", [x] ++ t)] :=
      RunsTo.altL (keyRun ⟨'n', str "ote", rfl, by decide⟩ ⟨x, t, rfl, hx⟩ hX)
    have hm := hR.matches
    rw [List.append_nil] at hm
    rw [e, accountBody_line (key := str "note") (arg := a.description) ⟨'n', str "ote", rfl, by decide⟩ (by rw [ex]; exact hm)
      (a' := ⟨a.fullName, a.description, com0, none, [], [], []⟩) (by
      unfold accountLine
      simp [Caps.get, str, ex]), com _ rfl rfl rfl rfl]

/-- **C65** An account that is written and read again is the same account. -/
theorem C65_account (env : PEnv) (a : PAcct) (h : CanonAcct a) (rest : List Str) (hr : Ends rest) :
    next env (writeAccount a ++ rest) = .ok (some (.account a, false), rest) := by
  have e : writeAccount a = (str "account " ++ a.fullName) :: (writeAccount a).tail := by simp [writeAccount]
  rw [e, List.cons_append]
  have hline : str "account " ++ a.fullName = 'a' :: (str "ccount " ++ a.fullName) := by simp [str]
  unfold next
  rw [if_neg (by rw [hline, isBlank_cons (by decide)]; decide), if_neg (by rw [hline]; simp [isComment])]
  unfold parseItem
  rw [if_neg (by simp [startsWith, str]), if_pos (by simp [startsWith, str])]
  unfold parseAccount
  rw [accountHead_match h.name]
  simp only [getOr, get_cons_eq]
  rw [accountBody_read h hr]
  rfl

/-! ### Written lines -/

theorem CleanLine.key {k s : Str} (hk : noNl k) (hs : CleanLine s) (hne : s ≠ []) : CleanLine (k ++ s) := CleanLine.append hk hs hne

theorem name_clean {n : Str} (h : AccountName n) : CleanLine n := by
  have : ∀ x ∈ n, (isNameChar x || decide (x = ':')) = true := by
    intro x hx
    rcases h.chars _ hx with h | h <;> simp [h]
  exact clean_of_pred this (by decide) (by decide)

theorem writeAccount_clean {a : PAcct} (h : CanonAcct a) : ∀ l ∈ writeAccount a, CleanLine l := by
  intro l hl
  unfold writeAccount at hl
  simp only [List.mem_append, List.mem_singleton] at hl
  have dig : ∀ {s : Str}, (∀ x ∈ s, isDigit x = true) → CleanLine s := fun h => clean_of_pred h (by decide) (by decide)
  rcases hl with (((((rfl | hl) | rfl) | hl) | hl) | hl) | hl
  · obtain ⟨x, t, e, _⟩ := h.name.head
    exact CleanLine.append (by decide) (name_clean h.name) (by rw [e]; simp)
  · split at hl
    · next h0 => simp at hl; subst hl; exact CleanLine.append (by decide) ⟨h.description.1, h.description.2.2⟩ h0
    · simp at hl
  · exact CleanLine.append (by decide) (clean_word h.commodity.word.2) h.commodity.word.1
  · cases hc : a.closed with
    | none => rw [hc] at hl; simp at hl
    | some d =>
      rw [hc] at hl
      simp at hl
      subst hl
      obtain ⟨y, m, dd, e, hy, hm, hd, _⟩ := formatDate_digits d (by have := h.closed d hc; omega) (h.closed d hc).2
      rw [e]
      refine CleanLine.append (by decide) (CleanLine.append (noNl_of_pred hy.1 (by decide)) (CleanLine.append (a := ['/']) (by decide)
        (CleanLine.append (noNl_of_pred hm.1 (by decide)) (CleanLine.append (a := ['/']) (by decide) (dig hd.1) ?_) (by simp)) (by simp)) (by simp)) (by simp)
      rintro rfl; have := hd.2; simp at this
  · split at hl
    · next h0 => simp at hl; subst hl; exact CleanLine.append (by decide) (dig h.bank) h0
    · simp at hl
  · split at hl
    · next h0 => simp at hl; subst hl; exact CleanLine.append (by decide) (dig h.acct) h0
    · simp at hl
  · split at hl
    · next h0 => simp at hl; subst hl; exact CleanLine.append (by decide) (clean_word h.csv) h0
    · simp at hl

theorem writeCommodity_clean {c : PCom} (h : CanonCom c) : ∀ l ∈ writeCommodity c, CleanLine l := by
  intro l hl
  unfold writeCommodity at hl
  simp only [List.mem_append, List.mem_singleton] at hl
  rcases hl with ((rfl | hl) | rfl) | hl
  · exact CleanLine.append (by decide) (clean_word h.id.word.2) h.id.word.1
  · split at hl
    · next h0 => simp at hl; subst hl; exact CleanLine.append (by decide) ⟨h.name.1, h.name.2.2⟩ h0
    · simp at hl
  · refine CleanLine.append (noNl_append (noNl_append (by decide) ?_) (by decide)) (clean_word h.id.word.2) h.id.word.1
    rw [← formatLit_text]
    exact lit_noNl (formatLit_wf _)
  · split at hl
    · simp at hl; subst hl; unfold CleanLine; decide
    · simp at hl

/-- **C65** The text of a written account, scanned and read again, gives that account. -/
theorem C65_account_text (env : PEnv) (a : PAcct) (h : CanonAcct a) : next env (scanLines (textOf (writeAccount a))) = .ok (some (.account a, false), []) := by
  rw [scanLines_textOf (writeAccount_clean h)]
  have := C65_account env a h [] (.inl rfl)
  rwa [List.append_nil] at this

/-- **C65** The text of a written commodity, scanned and read again, gives that commodity without its symbol. -/
theorem C65_commodity_text_partial (env : PEnv) (c : PCom) (h : CanonCom c) :
    next env (scanLines (textOf (writeCommodity c))) = .ok (some (.commodity { c with symbol := [] }, false), []) := by
  rw [scanLines_textOf (writeCommodity_clean h)]
  have := C65_commodity_partial env c h [] (.inl rfl)
  rwa [List.append_nil] at this

/-- C65 as stated, for commodities: one that was read, then written and read again, is the same. -/
def C65_Statement : Prop := ∀ (env : PEnv) (lines : List Str) (c : PCom) (d : Bool) (rest : List Str), next env lines = .ok (some (.commodity c, d), rest) →
  next env (writeCommodity c) = .ok (some (.commodity c, d), [])

/-- False: the symbol is lost. -/
theorem C65_symbol_violated : ¬ C65_Statement := by
  intro h
  have := h ⟨⟨2020, 1, 1⟩, fun _ => none, []⟩ [str "commodity XIU", str "  symbol XIU.TO"] ⟨str "XIU", [], 2, false, str "XIU.TO"⟩ false [] (by rfl)
  have e : (match next ⟨⟨2020, 1, 1⟩, fun _ => none, []⟩ (writeCommodity ⟨str "XIU", [], 2, false, str "XIU.TO"⟩) with
    | .ok (some (.commodity c, _), _) => decide (c.symbol = []) | _ => false) = true := by decide +kernel
  rw [this] at e
  exact absurd e (by decide)

/-- False: that it is the default is lost. -/
theorem C65_default_violated : ¬ C65_Statement := by
  intro h
  have := h ⟨⟨2020, 1, 1⟩, fun _ => none, []⟩ [str "commodity CAD", str "  default"] ⟨str "CAD", [], 2, false, []⟩ true [] (by rfl)
  have e : (match next ⟨⟨2020, 1, 1⟩, fun _ => none, []⟩ (writeCommodity ⟨str "CAD", [], 2, false, []⟩) with
    | .ok (some (_, d), _) => !d | _ => false) = true := by decide +kernel
  rw [this] at e
  exact absurd e (by decide)

/-! ### Concrete cases -/

def exAcct : PAcct := ⟨str "Assets:Bank-1", str "Joint account", str "CAD", some 737000, str "001", str "12345", str "ab_1"⟩

theorem exAcct_canon : CanonAcct exAcct where
  name := AccountName.cons (s := str "Assets") (t := str "Bank-1") (exSegment _ _ (by decide)) (.one (exSegment _ _ (by decide)))
  description := ⟨by decide, by rintro x t e; cases e; decide, by decide⟩
  long := by decide
  commodity := ⟨'C', str "AD", rfl, by decide, by decide⟩
  closed := by intro d e; cases e; decide +kernel
  bank := by decide
  acct := by decide
  csv := by decide

example (env : PEnv) : next env (scanLines (textOf (writeAccount exAcct))) = .ok (some (.account exAcct, false), []) := C65_account_text env exAcct exAcct_canon

example : CanonCom ⟨str "XIU", str "S&P TSX 60", 4, true, str "XIU.TO"⟩ :=
  ⟨⟨'X', str "IU", rfl, by decide, by decide⟩, by decide, by rintro x t e; cases e; decide, by decide⟩

example : CanonPrice exComs ⟨737000, str "USD", str "CAD", ⟨133, exCad⟩⟩ :=
  ⟨by decide +kernel, ⟨'U', str "SD", rfl, by decide, by decide⟩, exAmount _ (by decide), rfl⟩

end Verif
