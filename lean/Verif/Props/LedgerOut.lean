import Mathlib.Data.List.Forall2
import Verif.Model.LedgerOut
import Verif.Props.Format
import Verif.Props.ReadBack
import Verif.Props.Parsed
import Verif.Props.FormatOwn
import Verif.Props.TextOut
/-
C164, C165: the output of `coin format -ledger` and `gc2coin -l`.
-/
namespace Verif

/-! ## Specification -/

/-- The characters the comment at commodity.go:54-62 lists: white space, digits, punctuation, operators, brackets, the at sign. -/
def NeedsQuotes (id : Str) : Prop :=
  ∃ c ∈ id, c = ' ' ∨ c = '\t' ∨ isDigit c = true ∨ c ∈ str ".,;:?!" ∨ c ∈ str "-+*^/&|=" ∨ c ∈ str "<>[](){}" ∨ c = '@'

/-- The amount's commodity can be written without quotes. -/
def PlainAmount (a : Amount) : Prop := ¬ NeedsQuotes a.com.id

/-- No amount of the posting needs quotes. -/
def PlainPost (p : PPost) : Prop := (∀ q, p.quantity = some q → PlainAmount q) ∧ ∀ b, p.balance = some b → PlainAmount b

/-- What is left of posting `p` when the ledger-compatible text of it is read: the quantity survives only if its commodity has no quotes,
the balance assertion only if neither has, and the note on the same line is lost with them. -/
structure Reread (p r : PPost) : Prop where
  account : r.account = p.account
  quantity : ∀ q, p.quantity = some q → (PlainAmount q → r.quantity = some q) ∧ (¬ PlainAmount q → r.quantity = none)
  balance : (PlainPost p → r.balance = p.balance) ∧ (¬ PlainPost p → r.balance = none)
  notes : (PlainPost p → r.notes = p.notes) ∧ (¬ PlainPost p → r.notes = p.notes ∨ r.notes = p.notes.tail)

/-- Transactions that agree in everything but their postings, which are what is left of them. -/
structure RereadTxn (t u : PTxn) : Prop where
  posted : u.posted = t.posted
  code : u.code = t.code
  description : u.description = t.description
  notes : u.notes = t.notes
  postings : List.Forall₂ Reread t.postings u.postings

/-! ## C164: quoting -/

theorem disallowed_iff (c : Char) : disallowed.contains c = true ↔
    (c = ' ' ∨ c = '\t' ∨ isDigit c = true ∨ c ∈ str ".,;:?!" ∨ c ∈ str "-+*^/&|=" ∨ c ∈ str "<>[](){}" ∨ c = '@') := by
  constructor
  · intro h
    have h := List.contains_iff_mem.mp h
    revert h
    have : ∀ c ∈ disallowed, (c = ' ' ∨ c = '\t' ∨ isDigit c = true ∨ c ∈ str ".,;:?!" ∨ c ∈ str "-+*^/&|=" ∨ c ∈ str "<>[](){}" ∨ c = '@') := by decide +kernel
    exact this c
  · intro h
    have digits : ∀ c, isDigit c = true → c ∈ disallowed := by
      intro c hc
      rw [isDigit_iff] at hc
      have key : ∀ d : Char, d ∈ disallowed → c.toNat = d.toNat → c ∈ disallowed := by
        intro d hd e
        have : c = d := Char.ext (UInt32.toNat_inj.mp e)
        rw [this]; exact hd
      have : c.toNat = 48 ∨ c.toNat = 49 ∨ c.toNat = 50 ∨ c.toNat = 51 ∨ c.toNat = 52 ∨ c.toNat = 53 ∨ c.toNat = 54 ∨ c.toNat = 55 ∨ c.toNat = 56 ∨ c.toNat = 57 := by omega
      rcases this with h | h | h | h | h | h | h | h | h | h
      · exact key '0' (by decide) h
      · exact key '1' (by decide) h
      · exact key '2' (by decide) h
      · exact key '3' (by decide) h
      · exact key '4' (by decide) h
      · exact key '5' (by decide) h
      · exact key '6' (by decide) h
      · exact key '7' (by decide) h
      · exact key '8' (by decide) h
      · exact key '9' (by decide) h
    rw [List.contains_iff_mem]
    rcases h with rfl | rfl | h | h | h | h | rfl
    · decide
    · decide
    · exact digits c h
    · revert c; decide +kernel
    · revert c; decide +kernel
    · revert c; decide +kernel
    · decide

theorem any_disallowed (id : Str) : id.any (fun c => disallowed.contains c) = true ↔ NeedsQuotes id := by
  rw [List.any_eq_true]
  constructor
  · rintro ⟨c, h, hc⟩; exact ⟨c, h, (disallowed_iff c).mp hc⟩
  · rintro ⟨c, h, hc⟩; exact ⟨c, h, (disallowed_iff c).mpr hc⟩

/-- **C164** What stands for a commodity: its id outside ledger's format; in ledger's format its id when that has none of ledger's special
characters, and its id between double quotes otherwise. -/
theorem C164_safe_id (id : Str) : safeId false id = id ∧ (¬ NeedsQuotes id → safeId true id = id) ∧
    (NeedsQuotes id → safeId true id = str "\"" ++ id ++ str "\"") := by
  refine ⟨rfl, ?_, ?_⟩
  · intro h
    unfold safeId
    rw [if_pos rfl, if_neg (fun hc => h ((any_disallowed id).mp hc))]
  · intro h
    unfold safeId
    rw [if_pos rfl, if_pos ((any_disallowed id).mpr h)]
    simp [str]

/-- **C164** Two commodities the parser accepts are never written alike. -/
theorem C164_distinct (a b : Str) (ha : CommodityName a) (hb : CommodityName b) (ledger : Bool) (h : safeId ledger a = safeId ledger b) : a = b := by
  cases ledger with
  | false => exact h
  | true =>
    have noq : ∀ s, CommodityName s → ∀ u, s ≠ '"' :: u := by
      rintro s ⟨x, t, rfl, hx, _⟩ u e
      cases e; exact absurd hx (by decide)
    unfold safeId at h
    rw [if_pos rfl, if_pos rfl] at h
    split at h <;> split at h
    · exact List.append_cancel_right (List.cons.inj h).2
    · exact absurd h.symm (noq b hb _)
    · exact absurd h (noq a ha _)
    · exact h

/-- **C164** For commodities the parser accepts only digits matter. -/
theorem C164_digits (id : Str) (h : CommodityName id) : NeedsQuotes id ↔ ∃ c ∈ id, isDigit c = true := by
  constructor
  · rintro ⟨c, hc, h1⟩
    have hw := h.word.2 c hc
    rcases h1 with rfl | rfl | h1 | h1 | h1 | h1 | rfl
    · exact absurd hw (by decide)
    · exact absurd hw (by decide)
    · exact ⟨c, hc, h1⟩
    · exact absurd hw (by clear hc hw; revert c; decide +kernel)
    · exact absurd hw (by clear hc hw; revert c; decide +kernel)
    · exact absurd hw (by clear hc hw; revert c; decide +kernel)
    · exact absurd hw (by decide)
  · rintro ⟨c, hc, h1⟩
    exact ⟨c, hc, .inr (.inr (.inl h1))⟩

theorem amountTextL_plain (ledger : Bool) (w : Option Nat) (a : Amount) (h : ledger = true → PlainAmount a) : amountTextL ledger w a = amountText w a := by
  unfold amountTextL amountText
  cases ledger with
  | false => rfl
  | true => rw [(C164_safe_id a.com.id).2.1 (h rfl)]

theorem writePostingL_plain (ledger : Bool) (maxn maxa : Nat) (p : PPost) (h : ledger = true → PlainPost p) :
    writePostingL ledger maxn maxa p = writePosting maxn maxa p := by
  unfold writePostingL writePosting
  cases eq : p.quantity with
  | none => rfl
  | some q =>
    simp only []
    rw [amountTextL_plain _ _ _ (fun hl => (h hl).1 q eq)]
    have : balanceTextL ledger p.balance = balanceText p.balance := by
      cases eb : p.balance with
      | none => rfl
      | some b =>
        simp only [balanceTextL, balanceText]
        rw [amountTextL_plain _ _ _ (fun hl => (h hl).2 b eb)]
    rw [this]

theorem writeTxnL_plain (ledger : Bool) (dec : Str → Nat) (t : PTxn) (h : ledger = true → ∀ p ∈ t.postings, PlainPost p) :
    writeTxnL ledger dec t = writeTxn dec t := by
  unfold writeTxnL writeTxn
  have : ∀ maxn maxa (ps : List PPost), (ledger = true → ∀ p ∈ ps, PlainPost p) → writePostingsL ledger maxn maxa ps = writePostings maxn maxa ps := by
    intro maxn maxa ps
    induction ps with
    | nil => intro _; rfl
    | cons p ps ih =>
      intro h
      rw [writePostingsL, writePostings, writePostingL_plain _ _ _ _ (fun hl => h hl p (by simp)), ih (fun hl q hq => h hl q (by simp [hq]))]
  simp only [this _ _ _ h]

theorem writeTxnsL_plain (ledger : Bool) (dec : Str → Nat) (ts : List PTxn) (h : ledger = true → ∀ t ∈ ts, ∀ p ∈ t.postings, PlainPost p) :
    writeTxnsL ledger dec ts = writeTxns dec ts := by
  induction ts with
  | nil => rfl
  | cons t ts ih =>
    rw [writeTxnsL, writeTxns, writeTxnL_plain _ _ _ (fun hl => h hl t (by simp)), ih (fun hl u hu => h hl u (by simp [hu]))]

/-- The model of the ordinary output is the model with the argument false. -/
theorem writeTxnL_false (dec : Str → Nat) (t : PTxn) : writeTxnL false dec t = writeTxn dec t := writeTxnL_plain _ _ _ (by simp)
theorem formatTextL_false (today : Today) (env : Env) (trim : Bool) (st : LoadState) (text : Str) :
    formatTextL today env false trim st text = formatText today env trim st text := by
  unfold formatTextL formatText
  simp only [writeTxnsL_plain false _ _ (by simp)]
theorem writeCommodityL_false (c : PCom) : writeCommodityL false c = writeCommodity c := rfl
theorem writePriceL_false (p : PPrice) : writePriceL false p = writePrice p := rfl
theorem writeAccountL_false (a : PAcct) : writeAccountL false a = writeAccount a := by
  unfold writeAccountL writeAccount
  simp only [safeId, and_true]
  cases a.closed <;> simp

/-- **C164** Transactions whose commodities have no special characters are written in ledger's format exactly as they are without it. -/
theorem C164_transaction (dec : Str → Nat) (t : PTxn) (h : ∀ p ∈ t.postings, PlainPost p) : writeTxnL true dec t = writeTxn dec t :=
  writeTxnL_plain _ _ _ (fun _ => h)

/-- **C164** An account is written in ledger's format as the account without its bank ids would be otherwise. -/
theorem C164_account (a : PAcct) (h : ¬ NeedsQuotes a.commodityId) :
    writeAccountL true a = writeAccount { a with ofxBankId := [], ofxAcctId := [], csvAcctId := [] } := by
  unfold writeAccountL writeAccount
  rw [(C164_safe_id _).2.1 h]
  cases a.closed <;> simp

/-- **C164** Commodities and prices. -/
theorem C164_commodity (c : PCom) (h : ¬ NeedsQuotes c.id) : writeCommodityL true c = writeCommodity c := by
  unfold writeCommodityL writeCommodity
  rw [(C164_safe_id _).2.1 h]

theorem C164_price (p : PPrice) (h : ¬ NeedsQuotes p.commodityId) (hv : PlainAmount p.value) : writePriceL true p = writePrice p := by
  unfold writePriceL writePrice
  rw [(C164_safe_id _).2.1 h, amountTextL_plain _ _ _ (fun _ => hv)]

/-- **C164** A commodity is written in ledger's format as the commodity with the quoted id would be otherwise: quoted in every line. -/
theorem C164_commodity_quoted (c : PCom) (h : NeedsQuotes c.id) : writeCommodityL true c = writeCommodity { c with id := str "\"" ++ c.id ++ str "\"" } := by
  unfold writeCommodityL writeCommodity
  rw [(C164_safe_id _).2.2 h]

theorem C164_account_quoted (a : PAcct) (h : NeedsQuotes a.commodityId) :
    writeAccountL true a = writeAccount { a with ofxBankId := [], ofxAcctId := [], csvAcctId := [], commodityId := str "\"" ++ a.commodityId ++ str "\"" } := by
  unfold writeAccountL writeAccount
  rw [(C164_safe_id _).2.2 h]
  cases a.closed <;> simp

/-- A commodity with a digit is quoted, one without is not. -/
example : safeId true (str "RY4") = str "\"RY4\"" ∧ safeId true (str "CAD") = str "CAD" ∧ NeedsQuotes (str "RY4") ∧ ¬ NeedsQuotes (str "CAD") :=
  ⟨by decide, by decide, by unfold NeedsQuotes; decide +kernel, by unfold NeedsQuotes; decide +kernel⟩

/-! ## C165: reading it back -/

theorem run_unique {p : Char → Bool} : ∀ {u v a b : Str}, (∀ x ∈ u, p x = true) → (∀ x ∈ v, p x = true) → NoHead p a → NoHead p b →
    u ++ a = v ++ b → u = v ∧ a = b := by
  intro u
  induction u with
  | nil =>
    intro v a b _ hv ha _ e
    cases v with
    | nil => exact ⟨rfl, e⟩
    | cons y v =>
      have := ha y (v ++ b) (by simpa using e)
      rw [hv y (by simp)] at this
      exact absurd this (by decide)
  | cons x u ih =>
    intro v a b hu hv ha hb e
    cases v with
    | nil =>
      have := hb x (u ++ a) (by simpa using e.symm)
      rw [hu x (by simp)] at this
      exact absurd this (by decide)
    | cons y v =>
      simp only [List.cons_append, List.cons.injEq] at e
      obtain ⟨h1, h2⟩ := ih (fun z hz => hu z (by simp [hz])) (fun z hz => hv z (by simp [hz])) ha hb e.2
      exact ⟨by rw [e.1, h1], h2⟩

/-- The characters of numbers. -/
def numChar (c : Char) : Bool := isDigit c || decide (c = '-') || decide (c = '.')

theorem lit_numChar {l : Lit} (h : l.WF) : ∀ x ∈ l.text, numChar x = true := by
  obtain ⟨_, h1, h2⟩ := h.digits
  intro x hx
  unfold Lit.text at hx
  unfold numChar
  rcases List.mem_append.mp hx with hx | hx
  · rcases List.mem_append.mp hx with hx | hx
    · split at hx
      · simp at hx; subst hx; decide
      · cases hx
    · simp [h1 x hx]
  · split at hx
    · cases hx
    · rcases List.mem_cons.mp hx with rfl | hx
      · decide
      · simp [h2 x hx]

theorem number_chars {n s rest : Str} {c c' : Caps} (h : Re.Match (numberRe n) s rest c c') : ∀ x ∈ s, numChar x = true := by
  unfold numberRe at h
  rw [grp_match_iff] at h
  obtain ⟨_, h, _⟩ := h
  have h : Re.Match (.seq (.opt (.ch '-')) (.seq (.plus (.cls isDigit)) (.opt (.grp (str "decimals" ++ n) (.seq (.ch '.') (.plus (.cls isDigit))))))) s rest c _ := h
  rw [seq_match_iff] at h
  obtain ⟨s1, s2, _, rfl, h1, h2⟩ := h
  rw [seq_match_iff] at h2
  obtain ⟨s3, s4, _, rfl, h3, h4⟩ := h2
  rw [opt_match_iff, ch_match_iff] at h1
  rw [plus_cls_match_iff] at h3
  rw [opt_match_iff, grp_match_iff] at h4
  intro x hx
  unfold numChar
  rcases List.mem_append.mp hx with hx | hx
  · rcases h1 with ⟨rfl, _⟩ | ⟨rfl, _⟩
    · simp at hx; subst hx; decide
    · cases hx
  · rcases List.mem_append.mp hx with hx | hx
    · simp [h3.2.1 x hx]
    · rcases h4 with ⟨_, h4, _⟩ | ⟨rfl, _⟩
      · rw [seq_match_iff] at h4
        obtain ⟨s5, s6, _, rfl, h5, h6⟩ := h4
        rw [ch_match_iff] at h5
        rw [plus_cls_match_iff] at h6
        rcases List.mem_append.mp hx with hx | hx
        · rw [h5.1] at hx; simp at hx; subst hx; decide
        · simp [h6.2.1 x hx]
      · cases hx

theorem ws_notNum {x : Char} (h : isWs x = true) : numChar x = false := by
  unfold isWs at h
  simp only [Bool.or_eq_true, decide_eq_true_eq] at h
  rcases h with (((rfl | rfl) | rfl) | rfl) | rfl <;> decide

/-- A number followed by a quoted commodity is not an amount. -/
theorem quoted_noAmount {l : Lit} {n m v : Str} (h : l.WF) : NoMatch (amountRe n m) (l.text ++ ' ' :: '"' :: v) := by
  intro s1 s2 c c' e hm
  have k : Re.Match (.seq (numberRe n) (.seq (.plus (.cls isWs)) (commodityRe m))) s1 s2 c c' := hm
  rw [seq_match_iff] at k
  obtain ⟨t1, t2, _, rfl, k1, k2⟩ := k
  rw [seq_match_iff] at k2
  obtain ⟨t3, t4, _, rfl, k3, k4⟩ := k2
  unfold commodityRe at k4
  rw [grp_match_iff] at k4
  obtain ⟨_, k4, _⟩ := k4
  obtain ⟨a, t, rfl, ha, _⟩ := commodity_match k4
  rw [plus_cls_match_iff] at k3
  obtain ⟨hne, hws, _⟩ := k3
  have h1 := number_chars k1
  obtain ⟨y, w, rfl⟩ := List.exists_cons_of_ne_nil hne
  have e1 : l.text ++ ' ' :: '"' :: v = t1 ++ ((y :: w) ++ (a :: (t ++ s2))) := by rw [e]; simp
  obtain ⟨_, e2⟩ := run_unique (lit_numChar h) h1 (NoHead.cons (by decide)) (NoHead.cons (ws_notNum (hws y (by simp)))) e1
  have e3 : [' '] ++ '"' :: v = (y :: w) ++ (a :: (t ++ s2)) := e2
  obtain ⟨_, e4⟩ := run_unique (p := isWs) (u := [' ']) (by intro x hx; simp at hx; subst hx; decide) hws (NoHead.cons (by decide)) (NoHead.cons (alpha_props ha).1) e3
  cases e4
  exact absurd ha (by decide)

theorem blank_noAmount {n m v : Str} : NoMatch (amountRe n m) (' ' :: v) := by
  refine NoMatch.seqL (NoMatch.grp (NoMatch.seqR ?_))
  intro s1 s2 c c' e hm
  rw [opt_match_iff, ch_match_iff] at hm
  rcases hm with ⟨rfl, _⟩ | ⟨rfl, _⟩
  · cases e
  · refine NoMatch.seqL (NoMatch.plus ?_)
    intro x t e2
    rw [← List.nil_append s2, ← e] at e2
    cases e2; decide

/-- Blanks, a number and a quoted commodity. -/
theorem quoted_noGap {l : Lit} {n m sp v : Str} (r : Re) (h : l.WF) (hsp : ∀ x ∈ sp, x = ' ') :
    NoMatch (.seq (.plus .ws) (.seq (amountRe n m) r)) (sp ++ (l.text ++ ' ' :: '"' :: v)) := by
  obtain ⟨x, t, ex, hx⟩ := l.text_head h
  refine NoMatch.plusThen (p := isWs) (by rw [ex]; exact NoHead.cons (notWs_num hx)) ?_
  intro w1 w2 e
  refine NoMatch.seqL ?_
  cases w2 with
  | nil => exact quoted_noAmount h
  | cons y w2 =>
    have : y = ' ' := hsp y (by rw [e]; simp)
    subst this
    exact blank_noAmount

/-- Nor is there a note before it. -/
theorem number_noNote {l : Lit} {name sp v : Str} (h : l.WF) (hsp : ∀ x ∈ sp, x = ' ') : NoMatch (.seq (.star .ws) (noteRe name)) (sp ++ (l.text ++ v)) := by
  obtain ⟨x, t, ex, hx⟩ := l.text_head h
  refine NoMatch.starThen (p := isWs) (by rw [ex]; exact NoHead.cons (notWs_num hx)) ?_
  intro w1 w2 e
  refine noteRe_no name ?_
  intro y u e2
  cases w2 with
  | nil =>
    rw [List.nil_append, ex, List.cons_append, List.cons.injEq] at e2
    rw [← e2.1]
    rintro rfl
    rcases hx with hx | hx
    · exact absurd hx (by decide)
    · exact absurd hx (by decide)
  | cons z w2 =>
    have : z = ' ' := hsp z (by rw [e]; simp)
    rw [List.cons_append, List.cons.injEq] at e2
    rw [← e2.1, this]; decide

/-- A posting line whose quantity is quoted: only the account is seen. -/
theorem quotedLine_matches {acct sp v : Str} {l : Lit} (ha : AccountName acct) (hne : sp ≠ []) (hsp : ∀ x ∈ sp, x = ' ') (hl : l.WF) :
    postingRe.matches (str "  " ++ (acct ++ (sp ++ (l.text ++ ' ' :: '"' :: v)))) = some [(str "account", acct)] := by
  obtain ⟨a, u, ea, hal⟩ := ha.head
  have hend : NameEnd (sp ++ (l.text ++ ' ' :: '"' :: v)) := by
    obtain ⟨y, w, ey⟩ := List.exists_cons_of_ne_nil hne
    have : y = ' ' := hsp y (by rw [ey]; simp)
    rw [ey, this]; exact NoHead.cons (by decide)
  have h0 : RunsTo (.plus .ws) (str "  ") ((acct ++ ([] ++ [])) ++ (sp ++ (l.text ++ ' ' :: '"' :: v))) [] [] :=
    RunsTo.plus (p := isWs) (by decide) (by decide) (by rw [ea]; exact NoHead.cons (alpha_props hal).1) []
  have hr : RunsTo postingRe (str "  " ++ (acct ++ ([] ++ []))) (sp ++ (l.text ++ ' ' :: '"' :: v)) [] [(str "account", acct)] := by
    refine RunsTo.altL (RunsTo.seq h0 (RunsTo.seq (account_run ha hend []) (RunsTo.seq (RunsTo.optNone ?_) (RunsTo.optNone ?_))))
    · exact quoted_noGap _ hl hsp
    · exact number_noNote hl hsp
  have := hr.matches
  simpa using this

/-- A posting line whose quantity is not quoted but whose balance is: the balance is not seen. -/
theorem quotedBalance_matches {acct sp com v : Str} {l l2 : Lit} (ha : AccountName acct) (hne : sp ≠ []) (hsp : ∀ x ∈ sp, x = ' ') (hl : l.WF)
    (hc : CommodityName com) (hl2 : l2.WF) :
    postingRe.matches (str "  " ++ (acct ++ (sp ++ (l.text ++ ([' '] ++ com)) ++ (str " = " ++ (l2.text ++ ' ' :: '"' :: v))))) =
      some (amtCaps (str "1") (str "1") l com [(str "account", acct)]) := by
  obtain ⟨a, u, ea, hal⟩ := ha.head
  obtain ⟨x, t, ex, hx⟩ := l.text_head hl
  obtain ⟨x2, t2, ex2, hx2⟩ := l2.text_head hl2
  have hend : NameEnd (((sp ++ ((l.text ++ ([' '] ++ com)) ++ [])) ++ []) ++ (str " = " ++ (l2.text ++ ' ' :: '"' :: v))) := by
    obtain ⟨y, w, ey⟩ := List.exists_cons_of_ne_nil hne
    have : y = ' ' := hsp y (by rw [ey]; simp)
    rw [ey, this]; exact NoHead.cons (by decide)
  have h0 : RunsTo (.plus .ws) (str "  ") ((acct ++ ((sp ++ ((l.text ++ ([' '] ++ com)) ++ [])) ++ [])) ++ (str " = " ++ (l2.text ++ ' ' :: '"' :: v))) [] [] :=
    RunsTo.plus (p := isWs) (by decide) (by decide) (by rw [ea]; exact NoHead.cons (alpha_props hal).1) []
  have hbal : NoMatch balanceRe (str " = " ++ (l2.text ++ ' ' :: '"' :: v)) := by
    have e : (str " = " ++ (l2.text ++ ' ' :: '"' :: v)) = [' '] ++ ('=' :: ([' '] ++ (l2.text ++ ' ' :: '"' :: v))) := rfl
    rw [e]
    refine NoMatch.plusThen (p := isWs) (NoHead.cons (by decide)) ?_
    intro w1 w2 e1
    cases w2 with
    | nil =>
      refine NoMatch.seqR ?_
      intro s1 s2 c c' e2 hm
      rw [ch_match_iff] at hm
      obtain ⟨rfl, _⟩ := hm
      cases e2
      have := quoted_noGap (n := str "2") (m := str "2") (sp := [' ']) (v := v) .eps hl2 (by simp)
      intro s3 s4 c3 c4 e3 hm3
      refine NoMatch.plusThen (p := isWs) (r := amountRe (str "2") (str "2")) (w := [' ']) (rest := l2.text ++ ' ' :: '"' :: v) (by rw [ex2]; exact NoHead.cons (notWs_num hx2)) ?_ s3 s4 c3 c4 e3 hm3
      intro w1 w2 e
      cases w2 with
      | nil => exact quoted_noAmount hl2
      | cons y w2 =>
        have : y = ' ' := by
          have : y ∈ [' '] := by rw [e]; simp
          simpa using this
        subst this
        exact blank_noAmount
    | cons y w2 =>
      have : y = ' ' := by
        have : y ∈ [' '] := by rw [e1]; simp
        simpa using this
      subst this
      exact NoMatch.seqL (NoMatch.ch (by intro x t e; cases e; decide))
  have hnote : NoMatch (.seq (.star .ws) (noteRe (str "shortNote"))) (str " = " ++ (l2.text ++ ' ' :: '"' :: v)) := by
    have e : (str " = " ++ (l2.text ++ ' ' :: '"' :: v)) = [' '] ++ ('=' :: ([' '] ++ (l2.text ++ ' ' :: '"' :: v))) := rfl
    rw [e]
    refine NoMatch.starThen (p := isWs) (NoHead.cons (by decide)) ?_
    intro w1 w2 e1
    refine noteRe_no _ ?_
    intro y u e2
    cases w2 with
    | nil => cases e2; decide
    | cons z w2 =>
      have : z = ' ' := by
        have : z ∈ [' '] := by rw [e1]; simp
        simpa using this
      subst this
      cases e2; decide
  have hr : RunsTo postingRe (str "  " ++ (acct ++ ((sp ++ ((l.text ++ ([' '] ++ com)) ++ [])) ++ []))) (str " = " ++ (l2.text ++ ' ' :: '"' :: v)) []
      (amtCaps (str "1") (str "1") l com [(str "account", acct)]) := by
    refine RunsTo.altL (RunsTo.seq h0 (RunsTo.seq (account_run ha hend []) (RunsTo.seq (RunsTo.opt ?_) (RunsTo.optNone hnote))))
    refine RunsTo.seq (RunsTo.plus (p := isWs) hne (blanks_ws hsp) (by rw [ex]; exact NoHead.cons (notWs_num hx)) _)
      (RunsTo.seq (amount_run (str "1") (str "1") hl hc (by simp) (by simp) (NoHead.cons (by decide)) _) (RunsTo.optNone ?_))
    exact hbal
  have := hr.matches
  simpa using this

/-- The text of an amount. -/
theorem amountTextL_lit {coms : Str → Option Com} {a : Amount} (ledger : Bool) (h : CanonAmount coms a) (w : Option Nat) :
    ∃ (l : Lit) (sp : Str), l.WF ∧ a.string = .ok l.text ∧ (∀ x ∈ sp, x = ' ') ∧ (w = none → sp = []) ∧
      amountTextL ledger w a = .ok (sp ++ (l.text ++ ' ' :: safeId ledger a.com.id)) := by
  obtain ⟨l, hl, es⟩ := string_lit a h.1
  cases w with
  | none => exact ⟨l, [], hl, es, by simp, fun _ => rfl, by unfold amountTextL; simp only [format_none es, Except.bind, List.nil_append]⟩
  | some w =>
    refine ⟨l, rep (w - l.text.length) ' ', hl, es, rep_blank _, by simp, ?_⟩
    unfold amountTextL
    simp only [format_some w h.1 es, Except.bind]
    unfold padLeft
    simp

theorem safeId_clean {id : Str} (ledger : Bool) (h : CommodityName id) : CleanLine (safeId ledger id) ∧ safeId ledger id ≠ [] := by
  have hc : CleanLine id := clean_of_pred h.word.2 (by decide) (by decide)
  unfold safeId
  split
  · split
    · refine ⟨?_, by simp⟩
      have := CleanLine.append (a := '"' :: id) (b := ['"']) (noNl_append (a := ['"']) (by decide) hc.1) (by unfold CleanLine; decide) (by simp)
      simpa using this
    · exact ⟨hc, h.word.1⟩
  · exact ⟨hc, h.word.1⟩

/-- One posting: what is written, and what reading it adds to the transaction. -/
theorem writePostingL_read {env : PEnv} {p : PPost} (h : CanonPost env.coms p) (maxn maxa : Nat) :
    ∃ lines r, writePostingL true maxn maxa p = .ok lines ∧ (∀ l ∈ lines, CleanLine l) ∧ Reread p r ∧
      ∀ (tn : List Str) (ps : List PPost) (pending rest : List Str), ∃ short long, r.notes = short ++ long ∧
        postingLoop env tn ps pending (lines ++ rest) =
          postingLoop env (attach tn ps pending).1 ((attach tn ps pending).2 ++ [{ r with notes := short }]) long rest := by
  by_cases hplain : PlainPost p
  · obtain ⟨lines, e, hl, cl⟩ := writePosting_canon h maxn maxa
    refine ⟨lines, p, by rw [writePostingL_plain _ _ _ _ (fun _ => hplain)]; exact e, cl, ?_, fun tn ps pending rest => posting_step hl h tn ps pending rest⟩
    exact ⟨rfl, fun q hq => ⟨fun _ => hq, fun hn => absurd (hplain.1 q hq) hn⟩, ⟨fun _ => rfl, fun hn => absurd hplain hn⟩, fun _ => rfl, fun hn => absurd hplain hn⟩
  · obtain ⟨q, eq, hq⟩ := h.quantity
    obtain ⟨l, sp0, hl, es, hsp0, _, et⟩ := amountTextL_lit true hq (some maxa)
    have hb : ∃ bal, balanceTextL true p.balance = .ok bal ∧ (p.balance = none ∧ bal = [] ∨
        ∃ (b : Amount) (l2 : Lit), p.balance = some b ∧ l2.WF ∧ bal = str " = " ++ (l2.text ++ ' ' :: safeId true b.com.id)) := by
      cases eb : p.balance with
      | none => exact ⟨[], rfl, .inl ⟨rfl, rfl⟩⟩
      | some b =>
        obtain ⟨l2, sp2, hl2, _, _, hn2, et2⟩ := amountTextL_lit true (h.balance b eb) none
        refine ⟨_, by simp only [balanceTextL, et2, Except.bind]; rfl, .inr ⟨b, l2, rfl, hl2, ?_⟩⟩
        rw [hn2 rfl]; rfl
    obtain ⟨bal, ebal, hbal⟩ := hb
    obtain ⟨n, long, ew, en, _⟩ := withNote_split (str "  " ++ padRight maxn p.account ++ str "  " ++ (sp0 ++ (l.text ++ ' ' :: safeId true q.com.id)) ++ bal) p.notes
    obtain ⟨sp, esp⟩ : ∃ sp, sp = rep (maxn - p.account.length) ' ' ++ (str "  " ++ sp0) := ⟨_, rfl⟩
    have hsp : ∀ x ∈ sp, x = ' ' := by
      intro x hx
      rw [esp] at hx
      rcases List.mem_append.mp hx with hx | hx
      · exact rep_blank _ x hx
      · rcases List.mem_append.mp hx with hx | hx
        · exact (by decide : ∀ x ∈ str "  ", x = ' ') x hx
        · exact hsp0 x hx
    have hspne : sp ≠ [] := by rw [esp]; simp [str]
    have eline : str "  " ++ padRight maxn p.account ++ str "  " ++ (sp0 ++ (l.text ++ ' ' :: safeId true q.com.id)) ++ bal ++ noteTail n =
        str "  " ++ (p.account ++ (sp ++ (l.text ++ ' ' :: safeId true q.com.id) ++ (bal ++ noteTail n))) := by
      rw [esp]; unfold padRight; simp
    have hw : writePostingL true maxn maxa p = .ok ((str "  " ++ (p.account ++ (sp ++ (l.text ++ ' ' :: safeId true q.com.id) ++ (bal ++ noteTail n)))) ::
        long.map (fun n => str "    ; " ++ n)) := by
      unfold writePostingL
      rw [eq]
      simp only [et, ebal, Except.bind, ew, eline]
    have hlong : ∀ x ∈ long, CanonNote x := fun x hx => h.notes x (by rw [en]; simp [hx])
    have hn : ∀ x ∈ n, CanonNote x := fun x hx => h.notes x (by rw [en]; simp [Option.mem_def.mp hx])
    have hclean : ∀ l' ∈ (str "  " ++ (p.account ++ (sp ++ (l.text ++ ' ' :: safeId true q.com.id) ++ (bal ++ noteTail n)))) ::
        long.map (fun n => str "    ; " ++ n), CleanLine l' := by
      intro l' hl'
      rcases List.mem_cons.mp hl' with rfl | hl'
      · rw [← eline]
        refine noteTail_clean ?_ hn
        have hacct : noNl p.account := by
          intro x hx h'; subst h'
          rcases h.account.chars _ hx with h' | h'
          · exact absurd h' (by decide)
          · exact absurd h' (by decide)
        have h1 : noNl (str "  " ++ padRight maxn p.account ++ str "  ") := by
          unfold padRight
          exact noNl_append (noNl_append (by decide) (noNl_append hacct (blanks_noNl (rep_blank _)))) (by decide)
        have h2 : CleanLine (sp0 ++ (l.text ++ ' ' :: safeId true q.com.id)) :=
          CleanLine.append (blanks_noNl hsp0) (CleanLine.append (lit_noNl hl)
            (CleanLine.append (a := [' ']) (by decide) (safeId_clean true hq.2.2.2.1).1 (safeId_clean true hq.2.2.2.1).2) (by simp)) (by simp)
        rcases hbal with ⟨_, rfl⟩ | ⟨b, l2, eb, hl2, rfl⟩
        · rw [List.append_nil]
          exact CleanLine.append h1 h2 (by simp)
        · have hb := (h.balance b eb).2.2.2.1
          refine CleanLine.append (noNl_append h1 h2.1) (CleanLine.append (by decide) (CleanLine.append (lit_noNl hl2)
            (CleanLine.append (a := [' ']) (by decide) (safeId_clean true hb).1 (safeId_clean true hb).2) (by simp)) (by simp)) (by simp)
      · exact longs_clean (by decide) hlong l' hl'
    have hnotes : long = p.notes ∨ long = p.notes.tail := by
      cases n with
      | none => left; rw [en]; rfl
      | some x => right; rw [en]; rfl
    have e4 : (str "    " ++ str "; ") = str "    ; " := by decide
    by_cases hpq : PlainAmount q
    · -- the balance is quoted
      have hbq : ∃ b, p.balance = some b ∧ ¬ PlainAmount b := by
        by_contra hc
        refine hplain ⟨?_, ?_⟩
        · intro q' hq'; rw [eq] at hq'; cases hq'; exact hpq
        · intro b hb; by_contra hnb; exact hc ⟨b, hb, hnb⟩
      obtain ⟨b, eb, hnb⟩ := hbq
      have hnb' : NeedsQuotes b.com.id := Classical.not_not.mp hnb
      rcases hbal with ⟨e0, _⟩ | ⟨b', l2, eb', hl2, rfl⟩
      · rw [eb] at e0; cases e0
      rw [eb] at eb'; cases eb'
      have ebal' : (str " = " ++ (l2.text ++ ' ' :: safeId true b.com.id)) ++ noteTail n =
          str " = " ++ (l2.text ++ ' ' :: '"' :: (b.com.id ++ '"' :: noteTail n)) := by
        rw [(C164_safe_id b.com.id).2.2 hnb']; simp [str]
      rw [ebal', (C164_safe_id q.com.id).2.1 hpq] at hw hclean
      refine ⟨_, ⟨p.account, some q, none, long⟩, hw, hclean, ⟨rfl, ?_, ⟨fun hp => absurd hp hplain, fun _ => rfl⟩, fun hp => absurd hp hplain, fun _ => hnotes⟩, ?_⟩
      · intro q' hq'; rw [eq] at hq'; cases hq'; exact ⟨fun _ => rfl, fun hn => absurd hpq hn⟩
      intro tn ps pending rest
      refine ⟨[], long, rfl, ?_⟩
      have hm := quotedBalance_matches (v := b.com.id ++ '"' :: noteTail n) h.account hspne hsp hl hq.2.2.2.1 hl2
      have g1 : (amtCaps (str "1") (str "1") l q.com.id [(str "account", p.account)]).get (str "note") = [] := by
        by_cases h0 : l.fp = [] <;> simp [amtCaps, numCaps, Caps.get, str, h0]
      have g2 : (amtCaps (str "1") (str "1") l q.com.id [(str "account", p.account)]).get (str "account") = p.account := by
        by_cases h0 : l.fp = [] <;> simp [amtCaps, numCaps, Caps.get, str, h0]
      have g3 : (amtCaps (str "1") (str "1") l q.com.id [(str "account", p.account)]).get (str "amount1") = l.text := by
        by_cases h0 : l.fp = [] <;> simp [amtCaps, numCaps, Caps.get, str, h0]
      have g4 : (amtCaps (str "1") (str "1") l q.com.id [(str "account", p.account)]).get (str "commodity1") = q.com.id := by
        by_cases h0 : l.fp = [] <;> simp [amtCaps, numCaps, Caps.get, str, h0]
      have g5 : (amtCaps (str "1") (str "1") l q.com.id [(str "account", p.account)]).get (str "amount2") = [] := by
        by_cases h0 : l.fp = [] <;> simp [amtCaps, numCaps, Caps.get, str, h0]
      have g6 : (amtCaps (str "1") (str "1") l q.com.id [(str "account", p.account)]).get (str "shortNote") = [] := by
        by_cases h0 : l.fp = [] <;> simp [amtCaps, numCaps, Caps.get, str, h0]
      have ho := optAmount_canon hq es (l.text_ne hl)
      rw [List.cons_append, postingLoop]
      simp only [List.singleton_append] at hm
      simp only [hm, g1, g2, g3, g4, g5, g6]
      rw [if_neg (by simp), ho]
      simp only [Except.bind, optAmount, if_true]
      have := notes_step (env := env) (ind := str "    ") (by decide) (by decide) (attach tn ps pending).1
        ((attach tn ps pending).2 ++ [⟨p.account, some q, none, []⟩]) rest long [] hlong
      rw [e4] at this
      simpa [shortNotes, trimLeft] using this
    · have hnq : NeedsQuotes q.com.id := Classical.not_not.mp hpq
      have eline' : sp ++ (l.text ++ ' ' :: safeId true q.com.id) ++ (bal ++ noteTail n) =
          sp ++ (l.text ++ ' ' :: '"' :: (q.com.id ++ '"' :: (bal ++ noteTail n))) := by
        rw [(C164_safe_id q.com.id).2.2 hnq]; simp [str]
      rw [eline'] at hw hclean
      refine ⟨_, ⟨p.account, none, none, long⟩, hw, hclean, ⟨rfl, ?_, ⟨fun hp => absurd hp hplain, fun _ => rfl⟩, fun hp => absurd hp hplain, fun _ => hnotes⟩, ?_⟩
      · intro q' hq'; rw [eq] at hq'; cases hq'; exact ⟨fun hn => absurd hn hpq, fun _ => rfl⟩
      intro tn ps pending rest
      refine ⟨[], long, rfl, ?_⟩
      have hm := quotedLine_matches (v := q.com.id ++ '"' :: (bal ++ noteTail n)) h.account hspne hsp hl
      rw [List.cons_append, postingLoop]
      simp only [hm]
      have g1 : Caps.get [(str "account", p.account)] (str "note") = [] := by simp [Caps.get, str]
      have g2 : Caps.get [(str "account", p.account)] (str "account") = p.account := get_cons_eq
      have g3 : Caps.get [(str "account", p.account)] (str "amount1") = [] := by simp [Caps.get, str]
      have g5 : Caps.get [(str "account", p.account)] (str "amount2") = [] := by simp [Caps.get, str]
      have g6 : Caps.get [(str "account", p.account)] (str "shortNote") = [] := by simp [Caps.get, str]
      rw [g1, g2, g3, g5, g6, if_neg (by simp)]
      simp only [Except.bind, optAmount, if_true]
      have := notes_step (env := env) (ind := str "    ") (by decide) (by decide) (attach tn ps pending).1
        ((attach tn ps pending).2 ++ [⟨p.account, none, none, []⟩]) rest long [] hlong
      rw [e4] at this
      simpa [shortNotes, trimLeft] using this

theorem postingsL_loop {env : PEnv} (maxn maxa : Nat) (tn : List Str) (rest : List Str) (hr : Stops rest) :
    ∀ (ps : List PPost), (∀ p ∈ ps, CanonPost env.coms p) → ∃ lines rs, writePostingsL true maxn maxa ps = .ok lines ∧ (∀ l ∈ lines, CleanLine l) ∧
      List.Forall₂ Reread ps rs ∧
      ∀ (done : List PPost) (p : PPost) (short long : List Str), p.notes = short ++ long →
        postingLoop env tn (done ++ [{ p with notes := short }]) long (lines ++ rest) = .ok ((tn, done ++ [p] ++ rs), rest) := by
  intro ps
  induction ps with
  | nil =>
    intro _
    refine ⟨[], [], rfl, by simp, .nil, ?_⟩
    intro done p short long hn
    have fin : finishPostings tn (done ++ [{ p with notes := short }]) long = .ok (tn, done ++ [p]) := by
      unfold finishPostings
      split
      · rename_i h
        subst h
        simp only [List.append_nil] at hn
        rw [← hn]
      · rw [if_neg (by simp), attachLast_concat]
        simp only [← hn]
    rw [List.nil_append]
    cases rest with
    | nil => rw [postingLoop, fin]; simp [Except.bind]
    | cons l ls =>
      rw [postingLoop]
      simp only [hr l ls rfl, fin, Except.bind, List.append_nil]
  | cons p' ps ih =>
    intro h
    obtain ⟨l1, r1, e1, cl1, hr1, step⟩ := writePostingL_read (h p' (by simp)) maxn maxa
    obtain ⟨l2, rs, e2, cl2, hrs, hl2⟩ := ih (fun p hp => h p (by simp [hp]))
    refine ⟨l1 ++ l2, r1 :: rs, by rw [writePostingsL, e1]; simp only [Except.bind, e2], ?_, .cons hr1 hrs, ?_⟩
    · intro l hl
      rcases List.mem_append.mp hl with h | h
      · exact cl1 l h
      · exact cl2 l h
    intro done p short long hn
    rw [List.append_assoc]
    obtain ⟨sh, lo, hn', e3⟩ := step tn (done ++ [{ p with notes := short }]) long (l2 ++ rest)
    rw [e3]
    have ha : attach tn (done ++ [{ p with notes := short }]) long = (tn, done ++ [p]) := by
      unfold attach
      rw [if_neg (by simp), attachLast_concat]
      simp only [← hn]
    rw [ha]
    simp only
    rw [hl2 (done ++ [p]) r1 sh lo hn']
    simp

theorem reread_core (env : PEnv) (dec : Str → Nat) (t : PTxn) (h : CanonTxn env.coms t) (rest : List Str) (hr : Stops rest) :
    ∃ line lines u, writeTxnL true dec t = .ok (line :: lines) ∧ parseTransaction env line (lines ++ rest) = .ok (u, rest) ∧ RereadTxn t u ∧
      (∃ x v, line = x :: v ∧ isDigit x = true) ∧ ∀ l ∈ line :: lines, CleanLine l := by
  obtain ⟨w, hw⟩ := maxWidths_ok dec t.postings h.postings
  obtain ⟨n, long, ew, en, en0⟩ := withNote_split (headLine t) t.notes
  obtain ⟨p, ps, ep⟩ := List.exists_cons_of_ne_nil h.some_posting
  have hp : CanonPost env.coms p := h.postings p (by rw [ep]; simp)
  obtain ⟨l1, r1, e1, cl1, hr1, step⟩ := writePostingL_read hp w.1 w.2
  obtain ⟨l2, rs, e2, cl2, hrs, hl2⟩ := postingsL_loop w.1 w.2 t.notes rest hr ps (fun q hq => h.postings q (by rw [ep]; simp [hq]))
  have hn : ∀ x ∈ n, CanonNote x := fun x hx => h.notes x (by rw [en]; simp [Option.mem_def.mp hx])
  have hlong : ∀ x ∈ long, CanonNote x := fun x hx => h.notes x (by rw [en]; simp [hx])
  refine ⟨headLine t ++ noteTail n, long.map (fun n => str "  ; " ++ n) ++ (l1 ++ l2), { t with postings := r1 :: rs }, ?_, ?_, ?_, ?_, ?_⟩
  · unfold writeTxnL
    simp only [hw, Except.bind, ew]
    rw [ep, writePostingsL, e1]
    simp only [Except.bind, e2]
    rfl
  · obtain ⟨c, hm, hdate, hcode, hdesc, hshort⟩ := head_matches (n := n) h.year h.code h.description h.noCode (fun h0 => en0 (h.noNotes h0))
      (fun x hx => (hn x hx).2.1)
    have hline : headLine t ++ noteTail n = formatDate t.posted ++ (codeText t.code ++ (' ' :: (t.description ++ noteTail n))) := by
      rw [headLine_eq]; simp
    unfold parseTransaction
    rw [hline, hm]
    simp only [hdate, Except.bind, hcode, hdesc, hshort]
    rw [shortNotes_canon hn, List.append_assoc, List.append_assoc]
    have := notes_step (env := env) (ind := str "  ") (by decide) (by decide) n.toList [] (l1 ++ (l2 ++ rest)) long [] hlong
    have e : (str "  " ++ str "; ") = str "  ; " := by decide
    rw [e] at this
    rw [this]
    obtain ⟨sh, lo, hn', e3⟩ := step n.toList [] ([] ++ long) (l2 ++ rest)
    rw [e3]
    have ha : attach n.toList [] ([] ++ long) = (t.notes, []) := by
      unfold attach
      rw [if_pos rfl, en]; simp
    rw [ha]
    simp only [List.nil_append]
    have := hl2 [] r1 sh lo hn'
    rw [List.nil_append] at this
    rw [this]
    simp
  · exact ⟨rfl, rfl, rfl, rfl, by rw [ep]; exact .cons hr1 hrs⟩
  · obtain ⟨_, x, u, e, hx⟩ := formatDate_head h.year
    exact ⟨x, _, by rw [headLine_eq, e]; rfl, hx⟩
  · intro l hl
    rcases List.mem_cons.mp hl with rfl | hl
    · exact noteTail_clean (headLine_clean h) hn
    · rcases List.mem_append.mp hl with hl | hl
      · exact longs_clean (by decide) hlong l hl
      · rcases List.mem_append.mp hl with hl | hl
        · exact cl1 l hl
        · exact cl2 l hl

/-- **C165** The ledger-compatible text of transactions in canonical form, loaded by coin: every transaction is there, in the same order
and with the same date, code, description, notes and accounts; but an amount whose commodity had to be quoted is not there any more, and
with it goes what follows it on its line. Nothing is reported. -/
theorem C165_reread (today : Today) (dec : Str → Nat) (st : LoadState) (ts : List PTxn) (h : ∀ t ∈ ts, CanonTxn st.lookup t) :
    ∃ lines us, writeTxnsL true dec ts = .ok lines ∧ List.Forall₂ RereadTxn ts us ∧
      loadText today st (textOf lines) = .ok { st with items := st.items ++ us.map Item.transaction } := by
  have core : ∀ (ts : List PTxn), (∀ t ∈ ts, CanonTxn st.lookup t) → ∃ lines us, writeTxnsL true dec ts = .ok lines ∧ (∀ l ∈ lines, CleanLine l) ∧
      List.Forall₂ RereadTxn ts us ∧ ts.length ≤ lines.length ∧
      ∀ (n : Nat) (its : List Item), ts.length < n → ∀ pre, (pre = [] ∨ pre = [[]]) →
        loadLines today n { st with items := its } (pre ++ lines) = .ok { st with items := its ++ us.map Item.transaction } := by
    intro ts
    induction ts with
    | nil =>
      intro _
      refine ⟨[], [], rfl, by simp, .nil, by simp, ?_⟩
      intro n its hn pre hp
      obtain ⟨n, rfl⟩ := Nat.exists_eq_succ_of_ne_zero (show n ≠ 0 by simp at hn; omega)
      rcases hp with rfl | rfl <;> simp [loadLines, next, isBlank]
    | cons t ts ih =>
      intro h
      obtain ⟨l2, us, e2, cl2, hus, len2, hl2⟩ := ih (fun t ht => h t (by simp [ht]))
      have hstop : Stops ([[]] ++ l2) := by intro l ls e; cases e; exact posting_empty
      obtain ⟨line, l1, u, e1, hp, hu, ⟨x, v, ex, hx⟩, cl1⟩ := reread_core ⟨today, st.lookup, st.dflt⟩ dec t (h t (by simp)) ([[]] ++ l2) hstop
      refine ⟨(line :: l1) ++ [[]] ++ l2, u :: us, by rw [writeTxnsL, e1]; simp only [Except.bind, e2], ?_, .cons hu hus, ?_, ?_⟩
      · intro l hl
        simp only [List.mem_append] at hl
        rcases hl with (hl | hl) | hl
        · exact cl1 l hl
        · simp at hl; subst hl; unfold CleanLine; decide
        · exact cl2 l hl
      · simp; omega
      · intro n its hn pre hp'
        obtain ⟨n, rfl⟩ := Nat.exists_eq_succ_of_ne_zero (show n ≠ 0 by simp at hn; omega)
        have hnext : next ⟨today, LoadState.lookup { st with items := its }, st.dflt⟩ (pre ++ ((line :: l1) ++ [[]] ++ l2)) =
            .ok (some (.transaction u, false), [[]] ++ l2) := by
          have hh : next ⟨today, st.lookup, st.dflt⟩ ((line :: l1) ++ [[]] ++ l2) = .ok (some (.transaction u, false), [[]] ++ l2) := by
            rw [List.append_assoc, List.cons_append]
            subst ex
            exact next_digit hx hp
          rcases hp' with rfl | rfl
          · exact hh
          · rw [List.singleton_append, next_empty]; exact hh
        rw [loadLines]
        simp only [hnext, storeItem, Except.bind]
        rw [hl2 n _ (by simp at hn; omega) [[]] (.inr rfl)]
        simp
  obtain ⟨lines, us, e, cl, hus, len, hl⟩ := core ts h
  refine ⟨lines, us, e, hus, ?_⟩
  unfold loadText
  rw [scanLines_textOf cl]
  exact hl _ st.items (by omega) [] (.inl rfl)

/-- **C165**, full statement: what `-ledger` writes for transactions in canonical form is read back as these transactions. -/
def C165_Statement : Prop :=
  ∀ (today : Today) (dec : Str → Nat) (st : LoadState) (ts : List PTxn), (∀ t ∈ ts, CanonTxn st.lookup t) →
    ∃ lines, writeTxnsL true dec ts = .ok lines ∧ loadText today st (textOf lines) = .ok { st with items := st.items ++ ts.map Item.transaction }

/-- **C165** for commodities without special characters. Missing: commodities with digits, for which the claim fails as shown below. -/
theorem C165_reads_back_partial (today : Today) (dec : Str → Nat) (st : LoadState) (ts : List PTxn) (h : ∀ t ∈ ts, CanonTxn st.lookup t)
    (hp : ∀ t ∈ ts, ∀ p ∈ t.postings, PlainPost p) :
    ∃ lines, writeTxnsL true dec ts = .ok lines ∧ loadText today st (textOf lines) = .ok { st with items := st.items ++ ts.map Item.transaction } := by
  rw [writeTxnsL_plain true dec ts (fun _ => hp)]
  exact C53_file_read_back today dec st ts h

/-! A fund whose id has a digit, bought from a cash account. -/
def lgFund : Com := ⟨1, str "RY4", 2⟩
def lgState : LoadState := ⟨[lgFund, exCad], str "CAD", []⟩
def lgTxn : PTxn := ⟨737000, [], str "Buy", [], [⟨str "Fund", some ⟨500, lgFund⟩, some ⟨700, lgFund⟩, [str "n"]⟩, ⟨str "Cash", some ⟨-1000, exCad⟩, none, []⟩]⟩

theorem lg_amount (c : Com) (hc : c = lgFund ∨ c = exCad) (i : Int) (h : -(2 ^ 63) ≤ i ∧ i < 2 ^ 63) : CanonAmount lgState.lookup ⟨i, c⟩ := by
  rcases hc with rfl | rfl
  · exact ⟨show (2:Nat) ≤ 50 by decide, h.1, h.2, ⟨'R', str "Y4", rfl, by decide, by decide⟩, show lgState.lookup (str "RY4") = some lgFund by decide⟩
  · exact ⟨show (2:Nat) ≤ 50 by decide, h.1, h.2, ⟨'C', str "AD", rfl, by decide, by decide⟩, show lgState.lookup (str "CAD") = some exCad by decide⟩

theorem lgTxn_canon : CanonTxn lgState.lookup lgTxn where
  year := by decide +kernel
  code := by decide
  description := by
    refine .inr ⟨by decide, by decide, ?_, ?_⟩
    · intro x t e; cases e; decide
    · intro x e
      have : (lgTxn.description).getLast? = some 'y' := by decide
      rw [this] at e; cases e; decide
  noCode := by
    intro _ w u e
    have : lgTxn.description = 'B' :: str "uy" := by decide
    rw [this] at e; cases e
  noNotes := by intro h; exact absurd h (by decide)
  notes := by intro n hn; cases hn
  some_posting := by decide
  postings := by
    intro p hp
    simp only [lgTxn, List.mem_cons, List.not_mem_nil, or_false] at hp
    rcases hp with rfl | rfl
    · refine ⟨.one (exSegment _ _ (by decide)), ⟨_, rfl, lg_amount _ (.inl rfl) _ (by decide)⟩, ?_, ?_⟩
      · intro b e; cases e; exact lg_amount _ (.inl rfl) _ (by decide)
      · intro n hn; simp at hn; subst hn; exact exCanonNote _ (by decide)
    · refine ⟨.one (exSegment _ _ (by decide)), ⟨_, rfl, lg_amount _ (.inr rfl) _ (by decide)⟩, ?_, ?_⟩
      · intro b e; cases e
      · intro n hn; cases hn

theorem lg_written : writeTxnsL true (fun _ => 2) [lgTxn] = .ok [str "2018/11/03 Buy", str "  Fund    5.00 \"RY4\" = 7.00 \"RY4\" ; n", str "  Cash  -10.00 CAD", []] :=
  ok_of_opt (by decide +kernel)

/-- The amount, the assertion and the note of the first posting are gone. -/
theorem lg_read : loadText ⟨2020, 1, 1⟩ lgState (textOf [str "2018/11/03 Buy", str "  Fund    5.00 \"RY4\" = 7.00 \"RY4\" ; n", str "  Cash  -10.00 CAD", []]) =
    .ok { lgState with items := [.transaction { lgTxn with postings := [⟨str "Fund", none, none, []⟩, ⟨str "Cash", some ⟨-1000, exCad⟩, none, []⟩] }] } :=
  load_eq (by decide +kernel)

theorem C165_reads_back_violated : ¬ C165_Statement := by
  intro h
  obtain ⟨lines, h1, h2⟩ := h ⟨2020, 1, 1⟩ (fun _ => 2) lgState [lgTxn] (by intro t ht; simp only [List.mem_singleton] at ht; subst ht; exact lgTxn_canon)
  rw [lg_written] at h1
  cases h1
  rw [lg_read] at h2
  exact absurd (Except.ok.inj h2) (by intro e; injection e with _ _ e; exact absurd e (by decide))

/-- The hypotheses of `C165_reread` are met by it, and those of `C165_reads_back_partial` by the transaction of C53. -/
example : (∀ t ∈ [lgTxn], CanonTxn lgState.lookup t) ∧ (∀ t ∈ [exTxn], CanonTxn exState.lookup t) ∧ ∀ t ∈ [exTxn], ∀ p ∈ t.postings, PlainPost p := by
  refine ⟨?_, ?_, ?_⟩
  · intro t ht; simp only [List.mem_singleton] at ht; subst ht; exact lgTxn_canon
  · intro t ht; simp only [List.mem_singleton] at ht; subst ht; unfold exState; rw [exState_lookup]; exact exTxn_canon
  · have cad : ∀ i, PlainAmount ⟨i, exCad⟩ := fun i => show ¬ NeedsQuotes (str "CAD") by unfold NeedsQuotes; decide +kernel
    intro t ht p hp
    simp only [List.mem_singleton] at ht; subst ht
    simp only [exTxn, List.mem_cons, List.not_mem_nil, or_false] at hp
    rcases hp with rfl | rfl
    · exact ⟨fun q e => by cases e; exact cad _, fun b e => by cases e⟩
    · exact ⟨fun q e => by cases e; exact cad _, fun b e => by cases e; exact cad _⟩

/-- Sums over postings that lack a quantity twice end the program. -/
theorem totalP_missing (conv : Com → Amount → Except Fault Amount) : ∀ (ps : List PPost) (a : Amount) (r : Amount × Bool), totalP conv a true ps = .ok r →
    ∀ p ∈ ps, p.quantity ≠ none := by
  intro ps
  induction ps with
  | nil => intro a r _ p hp; cases hp
  | cons p ps ih =>
    intro a r h q hq
    rw [totalP] at h
    cases ep : p.quantity with
    | none => rw [ep] at h; simp at h
    | some x =>
      rw [ep] at h
      obtain ⟨b, _, h2⟩ := bind_ok.mp h
      rcases List.mem_cons.mp hq with rfl | hq
      · rw [ep]; simp
      · exact ih b r h2 q hq

theorem totalP_once (conv : Com → Amount → Except Fault Amount) : ∀ (ps : List PPost) (a : Amount) (r : Amount × Bool), totalP conv a false ps = .ok r →
    ps.Pairwise (fun p q => p.quantity ≠ none ∨ q.quantity ≠ none) := by
  intro ps
  induction ps with
  | nil => intro a r _; exact .nil
  | cons p ps ih =>
    intro a r h
    rw [totalP] at h
    cases ep : p.quantity with
    | none =>
      rw [ep] at h
      have h : totalP conv a true ps = .ok r := h
      have := totalP_missing conv ps a r h
      refine List.Pairwise.cons (fun q hq => .inr (this q hq)) ?_
      exact List.Pairwise.imp_of_mem (fun {a b} ha _ _ => .inl (this a ha)) (List.pairwise_of_forall (R := fun _ _ => True) (fun _ _ => trivial))
    | some x =>
      rw [ep] at h
      obtain ⟨b, _, h2⟩ := bind_ok.mp h
      exact List.Pairwise.cons (fun q _ => .inl (by rw [ep]; simp)) (ih b r h2)

theorem place_quantity {env : Env} {l ps : List PPost} (h : l.mapM (placePosting env) = .ok ps) :
    List.Forall₂ (fun p q => q.quantity = p.quantity ∧ ∃ a, env.find p.account = .ok a ∧ q.account = a) l ps := by
  have := (mapM_ok _ l ps).mp h
  refine this.imp ?_
  intro p q hpq
  unfold placePosting at hpq
  obtain ⟨a, h1, h2⟩ := bind_ok.mp hpq
  cases h2
  exact ⟨rfl, a, h1, rfl⟩

/-- **C165** When two amounts of a transaction were quoted, what is read is refused as soon as transactions are resolved: the program
ends and nothing is computed from it. -/
theorem C165_refused (env : Env) (t u : PTxn) (h : RereadTxn t u) (i j : Nat) (hij : i < j) (p q : PPost) (a b : Amount)
    (hp : t.postings[i]? = some p) (hq : t.postings[j]? = some q) (ha : p.quantity = some a) (hb : q.quantity = some b)
    (hna : ¬ PlainAmount a) (hnb : ¬ PlainAmount b) (r : PTxn) : resolvePTxn env u ≠ .ok r := by
  intro hr
  unfold resolvePTxn at hr
  obtain ⟨ps, h1, _⟩ := bind_ok.mp hr
  unfold resolvePostings at h1
  obtain ⟨placed, h2, h3⟩ := bind_ok.mp h1
  have hf := place_quantity h2
  have lost : ∀ (k : Nat) (x : PPost) (c : Amount), t.postings[k]? = some x → x.quantity = some c → ¬ PlainAmount c →
      ∃ y, placed[k]? = some y ∧ y.quantity = none := by
    intro k x c hk hx hc
    obtain ⟨hlt, e⟩ := List.getElem?_eq_some_iff.mp hk
    have hlt1 : k < u.postings.length := by rw [← h.postings.length_eq]; exact hlt
    have hlt2 : k < placed.length := by rw [← hf.length_eq]; exact hlt1
    have r1 := (List.forall₂_iff_get.mp h.postings).2 k hlt hlt1
    have r2 := (List.forall₂_iff_get.mp hf).2 k hlt1 hlt2
    simp only [List.get_eq_getElem] at r1 r2
    rw [e] at r1
    exact ⟨placed[k], List.getElem?_eq_getElem hlt2, by rw [r2.1]; exact (r1.quantity c hx).2 hc⟩
  obtain ⟨y, hy, hyn⟩ := lost i p a hp ha hna
  obtain ⟨z, hz, hzn⟩ := lost j q b hq hb hnb
  have hym : y ∈ placed := List.mem_of_getElem? hy
  split at h3
  · split at h3
    · rename_i hall
      have := List.all_eq_true.mp hall y hym
      rw [hyn] at this; exact absurd this (by decide)
    · cases h3
  · split at h3
    · rename_i hl
      rw [List.getLast?_eq_none_iff, List.map_eq_nil_iff] at hl
      rw [hl] at hym; cases hym
    · obtain ⟨w, h4, _⟩ := bind_ok.mp h3
      have := totalP_once env.conv placed _ w h4
      rw [List.pairwise_iff_getElem] at this
      obtain ⟨hi, ei⟩ := List.getElem?_eq_some_iff.mp hy
      obtain ⟨hj, ej⟩ := List.getElem?_eq_some_iff.mp hz
      rcases this i j hi hj hij with hh | hh
      · rw [ei] at hh; exact hh hyn
      · rw [ej] at hh; exact hh hzn

/-- The declarations `gc2coin -l` writes for a commodity with a digit: coin stops with an error. -/
example (env : PEnv) :
    (parseCommodity (str "commodity \"RY4\"") [str "  format 1.00 \"RY4\""]).toOption = none ∧
    (parseAccount env (str "account Fund") [str "  commodity \"RY4\""]).toOption = none ∧
    (parsePrice env (str "P 2018/11/03 \"RY4\" 10.00 CAD") []).toOption = none := by
  refine ⟨by decide +kernel, ?_, ?_⟩
  · have e : accountBodyRe.matches (str "  commodity \"RY4\"") = none := by decide +kernel
    have e2 : endsBody (str "  commodity \"RY4\"") = false := by decide +kernel
    unfold parseAccount
    rw [accountBody, e2, e]
    rfl
  · have e : priceRe.matches (str "P 2018/11/03 \"RY4\" 10.00 CAD") = none := by decide +kernel
    unfold parsePrice
    rw [e]
    rfl

end Verif
