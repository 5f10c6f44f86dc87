import Verif.Props.Amount
import Verif.Props.Date
import Verif.Model.Writer
/-
How the parser's expressions run on written texts.
-/
namespace Verif

/-- The text is empty or its first character does not satisfy `p`. -/
def NoHead (p : Char → Bool) (s : Str) : Prop := ∀ x t, s = x :: t → p x = false

theorem NoHead.nil {p : Char → Bool} : NoHead p [] := by intro x t h; cases h
theorem NoHead.cons {p : Char → Bool} {x : Char} {s : Str} (h : p x = false) : NoHead p (x :: s) := by
  intro y t e; cases e; exact h

/-! ### Account names -/

/-- An account name segment: a letter, then letters, digits, underscore, slash or dash. -/
def Segment (s : Str) : Prop := ∃ a t, s = a :: t ∧ isAlpha a = true ∧ ∀ x ∈ t, isNameChar x = true

/-- A full account name: segments separated by colons. -/
inductive AccountName : Str → Prop
  | one {s} : Segment s → AccountName s
  | cons {s t} : Segment s → AccountName t → AccountName (s ++ ':' :: t)

theorem nameRe_run {s rest : Str} (h : Segment s) (hr : NoHead isNameChar rest) (c : Caps) : RunsTo nameRe s rest c c := by
  obtain ⟨a, t, rfl, ha, ht⟩ := h
  exact RunsTo.seq (RunsTo.cls ha (t ++ rest) c) (RunsTo.star ht hr c)

theorem colon_noName : isNameChar ':' = false := by decide

/-- The rest after an account name: does not continue it. -/
def NameEnd (s : Str) : Prop := NoHead (fun c => isNameChar c || decide (c = ':')) s

theorem NameEnd.noName {s : Str} (h : NameEnd s) : NoHead isNameChar s := by
  intro x t e; have := h x t e; simp at this; exact this.1
theorem NameEnd.noColon {s : Str} (h : NameEnd s) : ∀ x t, s = x :: t → x ≠ ':' := by
  intro x t e; have := h x t e; simp at this; exact this.2

theorem tail_run {t rest : Str} (h : AccountName t) (hr : NameEnd rest) (c : Caps) :
    RunsTo (.star (.seq (.ch ':') nameRe)) (':' :: t) rest c c := by
  induction h with
  | @one s hs =>
    have h1 : RunsTo (.seq (.ch ':') nameRe) ([':'] ++ s) ([] ++ rest) c c := RunsTo.seq (RunsTo.ch ':' _ c) (nameRe_run hs (by simpa using hr.noName) c)
    have := RunsTo.starCons (by simp) h1 (RunsTo.starNil (NoMatch.seqL (NoMatch.ch hr.noColon)) c)
    simpa using this
  | @cons s t hs ht ih =>
    have h1 : RunsTo (.seq (.ch ':') nameRe) ([':'] ++ s) ((':' :: t) ++ rest) c c :=
      RunsTo.seq (RunsTo.ch ':' _ c) (nameRe_run hs (NoHead.cons colon_noName) c)
    have := RunsTo.starCons (by simp) h1 ih
    simpa using this

theorem account_run {s rest : Str} (h : AccountName s) (hr : NameEnd rest) (c : Caps) :
    RunsTo accountRe s rest c ((str "account", s) :: c) := by
  refine RunsTo.grp ?_
  cases h with
  | one hs =>
    have := RunsTo.seq (nameRe_run hs (rest := [] ++ rest) (by simpa using hr.noName) c)
      (RunsTo.starNil (NoMatch.seqL (NoMatch.ch hr.noColon)) c : RunsTo (.star (.seq (.ch ':') nameRe)) [] rest c c)
    simpa using this
  | cons hs ht => exact RunsTo.seq (nameRe_run hs (NoHead.cons colon_noName) c) (tail_run ht hr c)

theorem AccountName.chars {s : Str} (h : AccountName s) : ∀ x ∈ s, isNameChar x = true ∨ x = ':' := by
  have seg : ∀ s, Segment s → ∀ x ∈ s, isNameChar x = true := by
    rintro s ⟨a, t, rfl, ha, ht⟩ x hx
    rcases List.mem_cons.mp hx with rfl | hx
    · unfold isNameChar isWord; simp [ha]
    · exact ht x hx
  induction h with
  | one hs => exact fun x hx => .inl (seg _ hs x hx)
  | cons hs _ ih =>
    intro x hx
    rcases List.mem_append.mp hx with hx | hx
    · exact .inl (seg _ hs x hx)
    · rcases List.mem_cons.mp hx with rfl | hx
      · exact .inr rfl
      · exact ih x hx

theorem AccountName.head {s : Str} (h : AccountName s) : ∃ a t, s = a :: t ∧ isAlpha a = true := by
  cases h with
  | one hs => obtain ⟨a, t, rfl, ha, _⟩ := hs; exact ⟨a, t, rfl, ha⟩
  | cons hs _ => obtain ⟨a, t, rfl, ha, _⟩ := hs; exact ⟨a, _, rfl, ha⟩

/-! ### Commodities and numbers -/

/-- A commodity id: a letter, then letters, digits or underscore. -/
def CommodityName (s : Str) : Prop := ∃ a t, s = a :: t ∧ isAlpha a = true ∧ ∀ x ∈ t, isWord x = true

theorem commodity_run {s rest : Str} (n : Str) (h : CommodityName s) (hr : NoHead isWord rest) (c : Caps) :
    RunsTo (commodityRe n) s rest c ((str "commodity" ++ n, s) :: c) := by
  obtain ⟨a, t, rfl, ha, ht⟩ := h
  exact RunsTo.grp (RunsTo.seq (RunsTo.cls ha (t ++ rest) c) (RunsTo.star ht hr c))

theorem CommodityName.word {s : Str} (h : CommodityName s) : s ≠ [] ∧ ∀ x ∈ s, isWord x = true := by
  obtain ⟨a, t, rfl, ha, ht⟩ := h
  refine ⟨by simp, ?_⟩
  intro x hx
  rcases List.mem_cons.mp hx with rfl | hx
  · unfold isWord; simp [ha]
  · exact ht x hx

/-- The groups a number leaves. -/
def numCaps (n : Str) (l : Lit) (c : Caps) : Caps :=
  (str "amount" ++ n, l.text) :: (if l.fp = [] then c else (str "decimals" ++ n, '.' :: l.fp) :: c)

theorem digitsPlus_run {s rest : Str} (hne : s ≠ []) (h : Digits s) (hr : NoHead isDigit rest) (c : Caps) : RunsTo (.plus .digit) s rest c c :=
  RunsTo.plus hne h hr c

theorem Lit.WF.digits {l : Lit} (h : l.WF) : l.ip ≠ [] ∧ Digits l.ip ∧ Digits l.fp :=
  ⟨h.1, List.all_eq_true.mp h.2.1, List.all_eq_true.mp h.2.2⟩

theorem number_run {l : Lit} {rest : Str} (n : Str) (h : l.WF) (hr : NoHead (fun c => isDigit c || decide (c = '.')) rest) (c : Caps) :
    RunsTo (numberRe n) l.text rest c (numCaps n l c) := by
  obtain ⟨hi, hd, hf⟩ := h.digits
  have hr1 : NoHead isDigit rest := by intro x t e; have := hr x t e; simp at this; exact this.1
  have hr2 : ∀ x t, rest = x :: t → x ≠ '.' := by intro x t e; have := hr x t e; simp at this; exact this.2
  unfold numberRe numCaps
  refine RunsTo.grp ?_
  have hs : ∀ u, RunsTo (.opt (.ch '-')) (if l.neg then ['-'] else []) (l.ip ++ u) c c := by
    intro u
    by_cases hn : l.neg = true
    · rw [if_pos hn]; exact RunsTo.opt (RunsTo.ch '-' _ c)
    · rw [if_neg hn]
      refine RunsTo.optNone (NoMatch.ch ?_)
      intro x t e
      obtain ⟨a, v, ea⟩ := List.exists_cons_of_ne_nil hi
      rw [ea] at e
      cases e
      rintro rfl
      have := hd '-' (by rw [ea]; simp)
      exact absurd this (by decide)
  unfold Lit.text
  rw [List.append_assoc]
  by_cases h0 : l.fp = []
  · rw [if_pos h0, if_pos h0]
    refine RunsTo.seq (by rw [List.append_assoc]; exact hs _) (RunsTo.seq (digitsPlus_run hi hd (by simpa using hr1) c) ?_)
    exact RunsTo.optNone (NoMatch.grp (NoMatch.seqL (NoMatch.ch hr2)))
  · rw [if_neg h0, if_neg h0]
    refine RunsTo.seq (by rw [List.append_assoc]; exact hs _) (RunsTo.seq (digitsPlus_run hi hd ?_ c) ?_)
    · exact NoHead.cons (by decide)
    · exact RunsTo.opt (RunsTo.grp (RunsTo.seq (RunsTo.ch '.' _ c) (digitsPlus_run h0 hf hr1 c)))

/-- The groups an amount leaves. -/
def amtCaps (n m : Str) (l : Lit) (com : Str) (c : Caps) : Caps := (str "commodity" ++ m, com) :: numCaps n l c

theorem ws_noNum {s rest : Str} (hne : s ≠ []) (h : ∀ x ∈ s, x = ' ') : NoHead (fun c => isDigit c || decide (c = '.')) (s ++ rest) := by
  obtain ⟨a, t, rfl⟩ := List.exists_cons_of_ne_nil hne
  have : a = ' ' := h a (by simp)
  subst this
  exact NoHead.cons (by decide)

theorem blanks_ws {s : Str} (h : ∀ x ∈ s, x = ' ') : ∀ x ∈ s, isWs x = true := by
  intro x hx; rw [h x hx]; decide

theorem alpha_props {a : Char} (h : isAlpha a = true) : isWs a = false ∧ isWord a = true := by
  constructor
  · by_contra hc
    simp only [Bool.not_eq_false] at hc
    unfold isWs at hc
    simp only [Bool.or_eq_true, decide_eq_true_eq] at hc
    rcases hc with (((rfl | rfl) | rfl) | rfl) | rfl <;> exact absurd h (by decide)
  · unfold isWord; simp [h]

theorem amount_run {l : Lit} {com sp rest : Str} (n m : Str) (h : l.WF) (hc : CommodityName com) (hne : sp ≠ []) (hsp : ∀ x ∈ sp, x = ' ')
    (hr : NoHead isWord rest) (c : Caps) : RunsTo (amountRe n m) (l.text ++ (sp ++ com)) rest c (amtCaps n m l com c) := by
  unfold amountRe amtCaps
  refine RunsTo.seq (number_run n h (by rw [List.append_assoc]; exact ws_noNum hne hsp) c) (RunsTo.seq (RunsTo.plus hne (blanks_ws hsp) ?_ _) (commodity_run m hc hr _))
  obtain ⟨a, t, rfl, ha, _⟩ := hc
  exact NoHead.cons (alpha_props ha).1

/-- The printed number of an amount. -/
theorem string_lit (a : Amount) (hd : a.com.decimals ≤ 50) : ∃ l : Lit, l.WF ∧ a.string = .ok l.text := by
  rw [string_ok a hd, floatString_pow]
  refine ⟨⟨decide (a.int < 0), natStr (a.int.natAbs / 10 ^ a.com.decimals),
      if a.com.decimals > 0 then fracStr a.int.natAbs a.com.decimals else []⟩, ?_, ?_⟩
  · refine ⟨natStr_ne_nil _, natStr_allDigits _, ?_⟩
    simp only; split
    · exact fracStr_digits _ _
    · rfl
  · unfold Lit.text
    simp only [decide_eq_true_eq]
    congr 2
    by_cases h : a.com.decimals > 0
    · simp only [h, if_true]
      have : fracStr a.int.natAbs a.com.decimals ≠ [] := by
        intro e; have := fracStr_length a.int.natAbs _ h; rw [e] at this; simp at this; omega
      simp only [this, if_false]
      rfl
    · simp [h]

/-! ### Notes -/

/-- The text of a note: not empty, one line. -/
def noNl (s : Str) : Prop := ∀ x ∈ s, x ≠ '\n'
instance (s : Str) : Decidable (noNl s) := by unfold noNl; infer_instance

theorem note_run {n : Str} (name : Str) (h : noNl n) (c : Caps) : RunsTo (noteRe name) (';' :: ' ' :: n) [] c ((name, n) :: c) := by
  have h1 : RunsTo (.star .any) n [] c c := RunsTo.star (by intro x hx; simpa using h x hx) NoHead.nil c
  have := RunsTo.seq (RunsTo.ch ';' (([' '] ++ n) ++ []) c) (RunsTo.seq (RunsTo.opt (RunsTo.ch ' ' (n ++ []) c)) (RunsTo.grp (n := name) h1))
  exact this

/-- A text that starts with neither a semicolon nor (after blanks) anything. -/
theorem noteRe_no {s : Str} (name : Str) (h : ∀ x t, s = x :: t → x ≠ ';') : NoMatch (noteRe name) s := NoMatch.seqL (NoMatch.ch h)

/-- The optional note at the end of a posting line. -/
def noteTail : Option Str → Str
  | none => []
  | some n => str " ; " ++ n

def noteCaps (name : Str) : Option Str → Caps → Caps
  | none, c => c
  | some n, c => (name, n) :: c

theorem noteTail_run {n : Option Str} (name : Str) (h : ∀ x ∈ n, noNl x) (c : Caps) :
    RunsTo (.opt (.seq (.star .ws) (noteRe name))) (noteTail n) [] c (noteCaps name n c) := by
  cases n with
  | none =>
    refine RunsTo.optNone (NoMatch.starThen (w := []) NoHead.nil ?_)
    intro w1 w2 e
    obtain ⟨rfl, rfl⟩ := List.append_eq_nil_iff.mp e.symm
    exact noteRe_no name (by intro x t e; cases e)
  | some n =>
    have h1 : RunsTo (.star .ws) [' '] (';' :: ' ' :: n ++ []) c c := RunsTo.star (by intro x hx; simp at hx; subst hx; decide) (NoHead.cons (by decide)) c
    have := RunsTo.opt (RunsTo.seq h1 (note_run name (h n rfl) c))
    exact this

/-- The balance assertion of a posting line. -/
def balTail : Option (Lit × Str) → Str
  | none => []
  | some (l, com) => str " = " ++ (l.text ++ ([' '] ++ com))

def balCaps : Option (Lit × Str) → Caps → Caps
  | none, c => c
  | some (l, com), c => amtCaps (str "2") (str "2") l com c

theorem Lit.text_head {l : Lit} (h : l.WF) : ∃ x t, l.text = x :: t ∧ (isDigit x = true ∨ x = '-') := by
  obtain ⟨hi, hd, _⟩ := h.digits
  obtain ⟨a, u, ea⟩ := List.exists_cons_of_ne_nil hi
  unfold Lit.text
  by_cases hn : l.neg = true
  · exact ⟨'-', _, by simp [hn]; rfl, .inr rfl⟩
  · refine ⟨a, u ++ (if l.fp = [] then [] else '.' :: l.fp), by simp [hn, ea], .inl (hd a (by rw [ea]; simp))⟩

theorem notWs_num {x : Char} (h : isDigit x = true ∨ x = '-') : isWs x = false := by
  rcases h with h | rfl
  · by_contra hc
    simp only [Bool.not_eq_false] at hc
    unfold isWs at hc
    simp only [Bool.or_eq_true, decide_eq_true_eq] at hc
    rcases hc with (((rfl | rfl) | rfl) | rfl) | rfl <;> exact absurd h (by decide)
  · decide

theorem noteTail_head {n : Option Str} {p : Char → Bool} (h : p ' ' = false) : NoHead p (noteTail n) := by
  cases n with
  | none => exact NoHead.nil
  | some n => exact NoHead.cons h

theorem bal_run {b : Option (Lit × Str)} {n : Option Str} (h : ∀ x ∈ b, x.1.WF ∧ CommodityName x.2) (c : Caps) :
    RunsTo (.opt balanceRe) (balTail b) (noteTail n) c (balCaps b c) := by
  cases b with
  | none =>
    refine RunsTo.optNone ?_
    cases n with
    | none => exact NoMatch.plusThen (w := []) NoHead.nil (by
        intro w1 w2 e
        obtain ⟨rfl, rfl⟩ := List.append_eq_nil_iff.mp e.symm
        exact NoMatch.seqL (NoMatch.ch (by intro x t e; cases e)))
    | some n =>
      refine NoMatch.plusThenCls (w := [' ']) (rest := ';' :: ' ' :: n) (q := fun x => decide (x = '=')) (NoHead.cons (by decide)) ?_
        (NoHead.cons (by decide)) ?_
      · intro x hx; simp at hx; subst hx; decide
      · intro s hs; exact NoMatch.seqL (NoMatch.cls hs)
  | some x =>
    obtain ⟨l, com⟩ := x
    obtain ⟨hl, hc⟩ := h _ rfl
    simp only at hl hc
    have blank : ∀ x ∈ [' '], isWs x = true := by intro x hx; simp at hx; subst hx; decide
    obtain ⟨x, t, ex, hx⟩ := l.text_head hl
    have h3 := amount_run (rest := noteTail n) (str "2") (str "2") hl hc (sp := [' ']) (by simp) (by simp) (noteTail_head (by decide)) c
    have h2 : RunsTo (.plus .ws) [' '] ((l.text ++ ([' '] ++ com)) ++ noteTail n) c c :=
      RunsTo.plus (by simp) blank (by rw [ex]; exact NoHead.cons (notWs_num hx)) c
    have h1 : RunsTo (.plus .ws) [' '] ((['='] ++ ([' '] ++ (l.text ++ ([' '] ++ com)))) ++ noteTail n) c c :=
      RunsTo.plus (by simp) blank (NoHead.cons (by decide)) c
    have h4 := RunsTo.opt (RunsTo.seq h1 (RunsTo.seq (RunsTo.ch '=' _ c) (RunsTo.seq h2 h3)))
    exact h4

/-- A posting line as written. -/
def postingText (acct sp : Str) (l : Lit) (com : Str) (b : Option (Lit × Str)) (n : Option Str) : Str :=
  str "  " ++ (acct ++ ((sp ++ ((l.text ++ ([' '] ++ com)) ++ balTail b)) ++ noteTail n))

def postingCaps (acct : Str) (l : Lit) (com : Str) (b : Option (Lit × Str)) (n : Option Str) : Caps :=
  noteCaps (str "shortNote") n (balCaps b (amtCaps (str "1") (str "1") l com [(str "account", acct)]))

theorem balTail_head {b : Option (Lit × Str)} {n : Option Str} {p : Char → Bool} (h : p ' ' = false) : NoHead p (balTail b ++ noteTail n) := by
  cases b with
  | none => exact noteTail_head h
  | some x => exact NoHead.cons h

theorem posting_run {acct sp : Str} {l : Lit} {com : Str} {b : Option (Lit × Str)} {n : Option Str} (ha : AccountName acct) (hne : sp ≠ [])
    (hsp : ∀ x ∈ sp, x = ' ') (hl : l.WF) (hc : CommodityName com) (hb : ∀ x ∈ b, x.1.WF ∧ CommodityName x.2) (hn : ∀ x ∈ n, noNl x) :
    RunsTo postingRe (postingText acct sp l com b n) [] [] (postingCaps acct l com b n) := by
  refine RunsTo.altL ?_
  unfold postingText postingCaps
  obtain ⟨x, t, ex, hx⟩ := l.text_head hl
  obtain ⟨a, u, ea, hal⟩ := ha.head
  have h0 : RunsTo (.plus .ws) (str "  ") ((acct ++ ((sp ++ ((l.text ++ ([' '] ++ com)) ++ balTail b)) ++ noteTail n)) ++ []) [] [] :=
    RunsTo.plus (by decide) (by decide) (by rw [ea]; exact NoHead.cons (alpha_props hal).1) []
  have hend : NameEnd (((sp ++ ((l.text ++ ([' '] ++ com)) ++ balTail b)) ++ noteTail n) ++ []) := by
    obtain ⟨y, v, ey⟩ := List.exists_cons_of_ne_nil hne
    have : y = ' ' := hsp y (by rw [ey]; simp)
    rw [ey, this]
    exact NoHead.cons (by decide)
  refine RunsTo.seq h0 (RunsTo.seq (account_run ha hend []) (RunsTo.seq (RunsTo.opt ?_) (noteTail_run (str "shortNote") hn _)))
  simp only [List.append_nil]
  refine RunsTo.seq (RunsTo.plus hne (blanks_ws hsp) ?_ _) (RunsTo.seq (amount_run (str "1") (str "1") hl hc (by simp) (by simp) (balTail_head (by decide)) _) (bal_run hb _))
  rw [ex]; exact NoHead.cons (notWs_num hx)

theorem get_cons_eq {n v : Str} {c : Caps} : Caps.get ((n, v) :: c) n = v := by simp [Caps.get]

def balAmt : Option (Lit × Str) → Str
  | none => []
  | some x => x.1.text
def balCom : Option (Lit × Str) → Str
  | none => []
  | some x => x.2

/-- What the groups of a posting line say. -/
theorem postingCaps_get (acct : Str) (l : Lit) (com : Str) (b : Option (Lit × Str)) (n : Option Str) :
    (postingCaps acct l com b n).get (str "note") = [] ∧ (postingCaps acct l com b n).get (str "account") = acct ∧
    (postingCaps acct l com b n).get (str "amount1") = l.text ∧ (postingCaps acct l com b n).get (str "commodity1") = com ∧
    (postingCaps acct l com b n).get (str "amount2") = balAmt b ∧
    (postingCaps acct l com b n).get (str "commodity2") = balCom b ∧
    (postingCaps acct l com b n).get (str "shortNote") = n.getD [] := by
  rcases b with _ | ⟨l2, com2⟩ <;> rcases n with _ | n <;>
    by_cases h1 : l.fp = [] <;> (try by_cases h2 : l2.fp = []) <;>
    simp [balAmt, balCom, postingCaps, noteCaps, balCaps, amtCaps, numCaps, Caps.get, str, h1] <;> simp [h2]

theorem noteLine_run {ind n : Str} (hne : ind ≠ []) (hi : ∀ x ∈ ind, x = ' ') (h : noNl n) :
    RunsTo postingRe (ind ++ (';' :: ' ' :: n)) [] [] [(str "note", n)] := by
  refine RunsTo.altR ?_ ?_
  · rw [List.append_assoc]
    refine NoMatch.plusThenCls (q := isAlpha) (NoHead.cons (by decide)) ?_ (NoHead.cons (by decide)) ?_
    · intro x hx; rw [hi x hx]; decide
    · intro s hs
      exact NoMatch.seqL (NoMatch.grp (NoMatch.seqL (NoMatch.seqL (NoMatch.cls hs))))
  · exact RunsTo.seq (RunsTo.plus hne (blanks_ws hi) (NoHead.cons (by decide)) []) (note_run (str "note") h [])

/-- An empty line is not a posting. -/
theorem posting_empty : postingRe.matches [] = none := by decide

end Verif
