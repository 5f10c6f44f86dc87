import Verif.Model.Import
import Verif.Props.Range
import Verif.Props.Amount
import Verif.Lemmas.Ledger
import Verif.Lemmas.Sort
import Mathlib.Data.List.Forall2
/-
C66–C68: imported transactions, duplicates, merged balances.
-/
namespace Verif

/-! ## C66: Imported transactions are balanced -/

/-- **C66** `Post` appends two postings: one of the given amount (and balance) in `from`, one of the opposite amount in `to`. They sum
to zero, and the one that receives comes first. -/
theorem C66_post (t : ITxn) (from_ dest : Str) (amount : Amount) (balance : Option Amount) :
    ∃ p q : IPost, (t.post from_ dest amount balance).postings = t.postings ++ [p, q] ∧
      [p, q].Perm [⟨from_, amount, balance, balance.isSome⟩, ⟨dest, ⟨-amount.int, amount.com⟩, none, false⟩] ∧
      p.quantity.int + q.quantity.int = 0 ∧ p.quantity.com = q.quantity.com ∧ 0 ≤ p.quantity.int := by
  unfold ITxn.post ITxn.postConversion Amount.negative Amount.negated
  by_cases h : amount.int < 0
  · refine ⟨_, _, by dsimp only; rw [if_pos (by simpa using h)]; rfl, List.Perm.swap _ _ _, ?_, rfl, ?_⟩
    · simp
    · simp; omega
  · refine ⟨_, _, by dsimp only; rw [if_neg (by simpa using h)]; rfl, List.Perm.refl _, ?_, rfl, ?_⟩
    · simp
    · simp; omega

/-- `Post` changes nothing else of the transaction. -/
theorem C66_post_rest (t : ITxn) (from_ dest : Str) (amount : Amount) (balance : Option Amount) :
    (t.post from_ dest amount balance).posted = t.posted ∧ (t.post from_ dest amount balance).code = t.code ∧
    (t.post from_ dest amount balance).description = t.description ∧ (t.post from_ dest amount balance).notes = t.notes := ⟨rfl, rfl, rfl, rfl⟩

/-- **C66** `PostConversion` appends the two given postings, the given `from` amount deciding their order. -/
theorem C66_postConversion (t : ITxn) (from_ dest : Str) (fa ta : Amount) (fb tb : Option Amount) :
    ∃ p q : IPost, (t.postConversion from_ fa fb dest ta tb).postings = t.postings ++ [p, q] ∧
      [p, q].Perm [⟨from_, fa, fb, fb.isSome⟩, ⟨dest, ta, tb, tb.isSome⟩] ∧
      (0 ≤ fa.int → p.account = from_ ∧ p.quantity = fa) ∧ (fa.int < 0 → p.account = dest ∧ p.quantity = ta) := by
  unfold ITxn.postConversion Amount.negative
  by_cases h : fa.int < 0
  · refine ⟨_, _, by dsimp only; rw [if_pos (by simpa using h)], List.Perm.swap _ _ _, fun h' => by omega, fun _ => ⟨rfl, rfl⟩⟩
  · refine ⟨_, _, by dsimp only; rw [if_neg (by simpa using h)], List.Perm.refl _, fun _ => ⟨rfl, rfl⟩, fun h' => by omega⟩

/-- A transaction of two postings that sum to zero, in different positions of the same commodity, the receiving one first. -/
def TwoSided (t : ITxn) : Prop :=
  ∃ p q : IPost, t.postings = [p, q] ∧ p.quantity.int + q.quantity.int = 0 ∧ p.quantity.com = q.quantity.com ∧ 0 ≤ p.quantity.int

theorem createTransaction_spec {env : ImportEnv} {account dest : Str} {notes : List Str} {date : Stamp} {payee : Str} {amount : Int × Int}
    {balance : Option (Int × Int)} {t : ITxn} (h : createTransaction env account dest notes date payee amount balance = .ok t) :
    ∃ amt bal, newAmountFrac amount.1 amount.2 (env.com account) = .ok amt ∧ balanceFrac (env.com account) balance = .ok bal ∧
      t = ITxn.post ⟨date, [], payee, notes, []⟩ account dest amt bal := by
  unfold createTransaction at h
  obtain ⟨amt, h1, h⟩ := bind_ok.mp h
  obtain ⟨bal, h2, h⟩ := bind_ok.mp h
  cases h
  exact ⟨amt, bal, h1, h2, rfl⟩

theorem newTransaction_spec {env : ImportEnv} {ars : AccountRules} {date : Stamp} {payee : Str} {amount : Int × Int}
    {balance : Option (Int × Int)} {t : ITxn} (h : newTransaction env ars date payee amount balance = .ok (some t)) :
    ∃ rule, ruleFor env.matcher env.sets payee env.fuel ars.items = .ok rule ∧
    ∃ dest notes, (rule = none ∧ dest = env.unbalanced ∧ notes = [] ∨ ∃ r, rule = some r ∧ r.account = some dest ∧ notes = r.notes) ∧
    ∃ amt bal, newAmountFrac amount.1 amount.2 (env.com ars.account) = .ok amt ∧ balanceFrac (env.com ars.account) balance = .ok bal ∧
      t = ITxn.post ⟨date, [], payee, notes, []⟩ ars.account dest amt bal := by
  unfold newTransaction at h
  obtain ⟨rule, h1, h⟩ := bind_ok.mp h
  refine ⟨rule, h1, ?_⟩
  cases rule with
  | none =>
    simp only at h
    obtain ⟨t', h2, h⟩ := bind_ok.mp h
    cases h
    exact ⟨_, _, .inl ⟨rfl, rfl, rfl⟩, createTransaction_spec h2⟩
  | some r =>
    simp only at h
    split at h
    · cases h
    · next a ha =>
      obtain ⟨t', h2, h⟩ := bind_ok.mp h
      cases h
      exact ⟨_, _, .inr ⟨r, rfl, ha, rfl⟩, createTransaction_spec h2⟩

/-- **C66** What an entry of an OFX file becomes: the date and payee of the entry, the amount rounded down to the account's decimals, in
the account of the statement, and the opposite in the account of the rule that applies (`Unbalanced` when none does). -/
theorem C66_entry (env : ImportEnv) (ars : AccountRules) (date : Stamp) (payee : Str) (num den : Int) (balance : Option (Int × Int)) (t : ITxn)
    (hd : (env.com ars.account).decimals ≤ 50) (hden : 0 < den)
    (h : newTransaction env ars date payee (num, den) balance = .ok (some t)) :
    t.posted = date ∧ t.description = payee ∧ t.code = [] ∧ TwoSided t ∧
    ∃ (n : Int) (bal : Option Amount), n * den ≤ num * 10 ^ (env.com ars.account).decimals ∧ num * 10 ^ (env.com ars.account).decimals < (n + 1) * den ∧
      (balance = none → bal = none) ∧ (balance ≠ none → bal ≠ none) ∧
      ∃ dest, t.postings.Perm [⟨ars.account, ⟨n, env.com ars.account⟩, bal, bal.isSome⟩, ⟨dest, ⟨-n, env.com ars.account⟩, none, false⟩] ∧
      ((ruleFor env.matcher env.sets payee env.fuel ars.items = .ok none ∧ dest = env.unbalanced ∧ t.notes = []) ∨
       ∃ r, ruleFor env.matcher env.sets payee env.fuel ars.items = .ok (some r) ∧ r.account = some dest ∧ t.notes = r.notes) := by
  obtain ⟨rule, hr, dest, notes, hto, amt, bal, h1, h2, rfl⟩ := newTransaction_spec h
  obtain ⟨p, q, e, hp, hsum, hcom, hpos⟩ := C66_post ⟨date, [], payee, notes, []⟩ ars.account dest amt bal
  refine ⟨rfl, rfl, rfl, ⟨p, q, by simpa using e, hsum, hcom, hpos⟩, ?_⟩
  have hfrac : amt = ⟨num * 10 ^ (env.com ars.account).decimals / den, env.com ars.account⟩ := by
    unfold newAmountFrac at h1
    obtain ⟨b, hb, h1⟩ := bind_ok.mp h1
    rw [if_neg (by simp; omega)] at h1
    cases h1
    split at hb
    · rw [bigPow10_ok hd] at hb
      cases hb
      simp
    · next h0 =>
      cases hb
      have : (env.com ars.account).decimals = 0 := by omega
      simp [this]
  subst hfrac
  refine ⟨_, bal, ?_, ?_, ?_, ?_, dest, by rw [e, List.nil_append]; exact hp, ?_⟩
  · exact Int.ediv_mul_le _ (by omega)
  · exact Int.lt_ediv_add_one_mul_self _ hden
  · rintro rfl; cases h2; rfl
  · intro hb
    cases balance with
    | none => exact absurd rfl hb
    | some b =>
      unfold balanceFrac at h2
      obtain ⟨x, _, h2⟩ := bind_ok.mp h2
      cases h2; simp
  · rcases hto with ⟨rfl, rfl, rfl⟩ | ⟨r, rfl, ha, rfl⟩
    · exact .inl ⟨hr, rfl, rfl⟩
    · exact .inr ⟨r, hr, ha, rfl⟩

theorem newTransaction_twoSided {env : ImportEnv} {ars : AccountRules} {date : Stamp} {payee : Str} {amount : Int × Int}
    {balance : Option (Int × Int)} {t : ITxn} (h : newTransaction env ars date payee amount balance = .ok (some t)) : TwoSided t := by
  obtain ⟨rule, hr, dest, notes, hto, amt, bal, h1, h2, rfl⟩ := newTransaction_spec h
  obtain ⟨p, q, e, hp, hsum, hcom, hpos⟩ := C66_post ⟨date, [], payee, notes, []⟩ ars.account dest amt bal
  exact ⟨p, q, by simpa using e, hsum, hcom, hpos⟩

/-- **C66** Every transaction read from an OFX file has two postings of one commodity that sum to zero, the receiving one first. -/
theorem C66_file (env : ImportEnv) (ri : Option RuleIndex) (byOfx : Str → Option Str) (bank cards : List OfxStatement) (ts : List ITxn)
    (h : readTransactions env ri byOfx bank cards = .ok ts) : ∀ t ∈ ts, TwoSided t := by
  have opt : ∀ {o : Option ITxn}, (∀ t, o = some t → TwoSided t) → ∀ t ∈ o.toList, TwoSided t := by
    intro o ho t ht; exact ho t (by simpa using ht)
  have bankE : ∀ (es : List OfxEntry) (ars : AccountRules) (b : Int × Int) (ts : List ITxn), bankEntries env ars b es = .ok ts → ∀ t ∈ ts, TwoSided t := by
    intro es
    induction es with
    | nil => intro ars b ts h; cases h; simp
    | cons e es ih =>
      intro ars b ts h
      unfold bankEntries at h
      obtain ⟨o, h1, h⟩ := bind_ok.mp h
      obtain ⟨us, h2, h⟩ := bind_ok.mp h
      cases h
      intro t ht
      rcases List.mem_append.mp ht with ht | ht
      · exact opt (fun t e => newTransaction_twoSided (by rw [h1, e])) t ht
      · exact ih _ _ _ h2 t ht
  have cardE : ∀ (es : List OfxEntry) (ars : AccountRules) (ts : List ITxn), cardEntries env ars es = .ok ts → ∀ t ∈ ts, TwoSided t := by
    intro es
    induction es with
    | nil => intro ars ts h; cases h; simp
    | cons e es ih =>
      intro ars ts h
      unfold cardEntries at h
      obtain ⟨o, h1, h⟩ := bind_ok.mp h
      obtain ⟨us, h2, h⟩ := bind_ok.mp h
      cases h
      intro t ht
      rcases List.mem_append.mp ht with ht | ht
      · exact opt (fun t e => newTransaction_twoSided (by rw [h1, e])) t ht
      · exact ih _ _ h2 t ht
  have banks : ∀ (ss : List OfxStatement) (ts : List ITxn), readBank env ri byOfx ss = .ok ts → ∀ t ∈ ts, TwoSided t := by
    intro ss
    induction ss with
    | nil => intro ts h; cases h; simp
    | cons s ss ih =>
      intro ts h
      unfold readBank at h
      obtain ⟨ars, _, h⟩ := bind_ok.mp h
      obtain ⟨us, h1, h⟩ := bind_ok.mp h
      obtain ⟨vs, h2, h⟩ := bind_ok.mp h
      cases h
      intro t ht
      rcases List.mem_append.mp ht with ht | ht
      · exact bankE _ _ _ _ h1 t ht
      · exact ih _ h2 t ht
  have cardss : ∀ (ss : List OfxStatement) (ts : List ITxn), readCards env ri byOfx ss = .ok ts → ∀ t ∈ ts, TwoSided t := by
    intro ss
    induction ss with
    | nil => intro ts h; cases h; simp
    | cons s ss ih =>
      intro ts h
      unfold readCards at h
      obtain ⟨ars, _, h⟩ := bind_ok.mp h
      obtain ⟨us, h1, h⟩ := bind_ok.mp h
      obtain ⟨vs, h2, h⟩ := bind_ok.mp h
      cases h
      intro t ht
      rcases List.mem_append.mp ht with ht | ht
      · exact cardE _ _ _ h1 t ht
      · exact ih _ h2 t ht
  unfold readTransactions at h
  obtain ⟨us, h1, h⟩ := bind_ok.mp h
  obtain ⟨vs, h2, h⟩ := bind_ok.mp h
  cases h
  intro t ht
  rcases List.mem_append.mp ht with ht | ht
  · exact banks _ _ h1 t ht
  · exact cardss _ _ h2 t ht

/-! ## C67: Duplicate detection -/

/-- `e.IsEqual(t)`. -/
def Equals (h : THeap) (e t : TRef) : Prop := (h e).isEqual (h t) = .ok true

theorem Equals.sec {h : THeap} {e t : TRef} (he : Equals h e t) : h.sec e = h.sec t := by
  unfold Equals ITxn.isEqual at he
  by_contra hc
  rw [if_pos (show ¬ (h e).posted.sec = (h t).posted.sec from hc)] at he
  cases he

theorem findEqual_spec {h : THeap} {t : TRef} {l : List TRef} {r : Option TRef} (hr : findEqual h t l = .ok r) :
    (r = some t ∧ ∃ e ∈ l, Equals h e t) ∨ (r = none ∧ ∀ e ∈ l, ¬ Equals h e t) := by
  induction l with
  | nil => cases hr; right; simp
  | cons e l ih =>
    unfold findEqual at hr
    obtain ⟨b, hb, hr⟩ := bind_ok.mp hr
    cases b with
    | true => cases hr; exact .inl ⟨rfl, e, by simp, hb⟩
    | false =>
      rcases ih hr with ⟨h1, x, hx, h2⟩ | ⟨h1, h2⟩
      · exact .inl ⟨h1, x, by simp [hx], h2⟩
      · refine .inr ⟨h1, ?_⟩
        intro x hx
        rcases List.mem_cons.mp hx with rfl | hx
        · unfold Equals; rw [hb]; simp
        · exact h2 x hx

theorem IPost.merge_self (p : IPost) : p.merge p = p := by
  unfold IPost.merge
  rw [if_neg (by rintro ⟨h1, h2⟩; exact h2 h1)]

theorem mergePostings_self (ps : List IPost) : mergePostings ps ps = .ok ps := by
  induction ps with
  | nil => rfl
  | cons p ps ih => unfold mergePostings; rw [ih, IPost.merge_self]; rfl

/-- Merging a transaction with itself changes nothing. -/
theorem mergeDuplicate_self (h : THeap) (t : TRef) : mergeDuplicate h t t = .ok h := by
  unfold mergeDuplicate
  rw [mergePostings_self]
  simp only [Except.bind, Except.ok.injEq]
  funext r
  split
  · next e => rw [e]
  · rfl

theorem less_strictWeak : StrictWeak ITxn.less where
  asymm := by
    intro a b h
    unfold ITxn.less at h ⊢
    simp only [Bool.or_eq_true, decide_eq_true_eq, Bool.and_eq_true, Bool.not_eq_true'] at h
    rcases h with h | ⟨⟨h1, h2⟩, h3⟩
    · have : ¬ b.posted.sec < a.posted.sec := by omega
      have : ¬ b.posted.sec = a.posted.sec := by omega
      simp_all
    · simp [h1, h2, h3]
  negTrans := by
    intro a b c h1 h2
    unfold ITxn.less at h1 h2 ⊢
    simp only [Bool.or_eq_false_iff, decide_eq_false_iff_not, Bool.and_eq_false_iff, Bool.not_eq_false'] at h1 h2 ⊢
    refine ⟨by omega, ?_⟩
    by_cases h : a.posted.sec = c.posted.sec
    · have e1 : a.posted.sec = b.posted.sec := by omega
      have e2 : b.posted.sec = c.posted.sec := by omega
      rcases h1.2 with (h1 | h1) | h1
      · exact absurd e1 h1
      · exact .inl (.inr h1)
      · rcases h2.2 with (h2 | h2) | h2
        · exact absurd e2 h2
        · rw [h2] at h1; cases h1
        · exact .inr h2
    · exact .inl (.inl h)

/-- State of the loop before handling the transactions `ts`. -/
structure DedupeInv (h : THeap) (old : List TRef) (s : Dedupe) (ts : List TRef) : Prop where
  heap : s.heap = h
  day : ∀ e, e ∈ s.filtered ++ s.day → h.sec e = s.prevDay → e ∈ s.day
  oldDay : s.prevDay ≠ 0 → s.oldDay = old.filter (fun e => decide (h.sec e = s.prevDay))
  ahead : s.prevDay ≠ 0 → ∀ t ∈ ts, s.prevDay ≤ h.sec t
  behind : s.prevDay ≠ 0 → ∀ e ∈ s.filtered ++ s.day, h.sec e ≤ s.prevDay
  start : s.prevDay = 0 → s.filtered ++ s.day = []

/-- The result of going through a list, given what was kept before: a transaction is kept exactly when no existing one and none kept
before equals it. -/
def KeepsFrom (h : THeap) (old : List TRef) : List TRef → List TRef → List TRef → Prop
  | kept, [], out => out = kept
  | kept, t :: ts, out =>
    ((∃ e ∈ old, Equals h e t) ∨ (∃ e ∈ kept, Equals h e t)) ∧ KeepsFrom h old kept ts out ∨
    ((∀ e ∈ old, ¬ Equals h e t) ∧ (∀ e ∈ kept, ¬ Equals h e t)) ∧ KeepsFrom h old (kept ++ [t]) ts out

theorem newDay_inv {h : THeap} {old : List TRef} (hold : InDateOrder h.sec old) {s : Dedupe} {t : TRef} {ts : List TRef}
    (hi : DedupeInv h old s (t :: ts)) (hz : h.sec t ≠ 0) (hst : ∀ u ∈ ts, h.sec t ≤ h.sec u) :
    DedupeInv h old (s.newDay old t) (t :: ts) ∧ (s.newDay old t).prevDay = h.sec t ∧
    (s.newDay old t).filtered ++ (s.newDay old t).day = s.filtered ++ s.day := by
  unfold Dedupe.newDay
  rw [hi.heap]
  split
  · next e =>
    have e : h.sec t = s.prevDay := e
    exact ⟨hi, e.symm, rfl⟩
  · next e =>
    have e : ¬ h.sec t = s.prevDay := e
    have behind : ∀ x ∈ s.filtered ++ s.day, h.sec x ≤ s.prevDay ∧ s.prevDay < h.sec t := by
      intro x hx
      have hp : s.prevDay ≠ 0 := fun hp => by rw [hi.start hp] at hx; simp at hx
      have := hi.ahead hp t (by simp)
      exact ⟨hi.behind hp x hx, by omega⟩
    refine ⟨⟨rfl, ?_, ?_, ?_, ?_, ?_⟩, rfl, by simp⟩
    · intro x hx hx2
      simp only [List.append_nil] at hx
      have := behind x hx
      have hx2 : h.sec x = h.sec t := hx2
      omega
    · intro _; exact C33_day h.sec old _ hold
    · intro _ u hu
      rcases List.mem_cons.mp hu with rfl | hu
      · exact Int.le_refl _
      · exact hst u hu
    · intro _ x hx
      simp only [List.append_nil] at hx
      have := behind x hx
      have h2 : h.sec t = (h t).posted.sec := rfl
      show h.sec x ≤ (h t).posted.sec
      omega
    · intro h0; exact absurd h0 hz

theorem dedupeLoop_spec (h : THeap) (old : List TRef) (hold : InDateOrder h.sec old) (ts : List TRef) (hs : ts.Pairwise (fun a b => h.sec a ≤ h.sec b))
    (hz : ∀ t ∈ ts, h.sec t ≠ 0) (s s' : Dedupe) (hi : DedupeInv h old s ts) (hr : dedupeLoop old s ts = .ok s') :
    s'.heap = h ∧ KeepsFrom h old (s.filtered ++ s.day) ts (s'.filtered ++ s'.day) := by
  induction ts generalizing s with
  | nil => cases hr; exact ⟨hi.heap, rfl⟩
  | cons t ts ih =>
    obtain ⟨hst, hs⟩ := List.pairwise_cons.mp hs
    have hzt : h.sec t ≠ 0 := hz t (by simp)
    have hz' : ∀ u ∈ ts, h.sec u ≠ 0 := fun u hu => hz u (by simp [hu])
    unfold dedupeLoop at hr
    obtain ⟨s2, h2, hr'⟩ := bind_ok.mp hr
    clear hr
    rename' hr' => hr
    obtain ⟨hi1, hp1, hk1⟩ := newDay_inv hold hi hzt hst
    rw [← hk1]
    generalize s.newDay old t = s1 at *
    have hp0 : s1.prevDay ≠ 0 := by rw [hp1]; exact hzt
    have hsame : DedupeInv h old s1 ts := ⟨hi1.heap, hi1.day, hi1.oldDay, fun hp u hu => hi1.ahead hp u (by simp [hu]), hi1.behind, hi1.start⟩
    unfold Dedupe.handle at h2
    obtain ⟨r, hr1, h2⟩ := bind_ok.mp h2
    rw [hi1.heap] at hr1
    rcases findEqual_spec hr1 with ⟨rfl, e, he, heq⟩ | ⟨rfl, hno⟩
    · cases h2
      obtain ⟨h3, h4⟩ := ih hs hz' _ hsame hr
      rw [hi1.oldDay hp0] at he
      exact ⟨h3, .inl ⟨.inl ⟨e, (List.mem_filter.mp he).1, heq⟩, h4⟩⟩
    · have hnoOld : ∀ e ∈ old, ¬ Equals h e t := by
        intro e he heq
        refine hno e ?_ heq
        rw [hi1.oldDay hp0]
        exact List.mem_filter.mpr ⟨he, by simp [heq.sec, hp1]⟩
      simp only [] at h2
      obtain ⟨r, hr2, h2⟩ := bind_ok.mp h2
      rw [hi1.heap] at hr2
      rcases findEqual_spec hr2 with ⟨rfl, e, he, heq⟩ | ⟨rfl, hno2⟩
      · simp only [] at h2
        rw [mergeDuplicate_self] at h2
        cases h2
        obtain ⟨h3, h4⟩ := ih hs hz' _ hsame hr
        exact ⟨h3, .inl ⟨.inr ⟨e, by simp [he], heq⟩, h4⟩⟩
      · cases h2
        have hi2 : DedupeInv h old { s1 with day := s1.day ++ [t] } ts := by
          refine ⟨hi1.heap, ?_, hi1.oldDay, fun hp u hu => hi1.ahead hp u (by simp [hu]), ?_, ?_⟩
          · intro x hx hx2
            simp only [← List.append_assoc, List.mem_append (s := s1.filtered ++ s1.day)] at hx
            rcases hx with hx | hx
            · exact List.mem_append.mpr (.inl (hi1.day x hx hx2))
            · exact List.mem_append.mpr (.inr hx)
          · intro hp x hx
            simp only [← List.append_assoc, List.mem_append (s := s1.filtered ++ s1.day)] at hx
            rcases hx with hx | hx
            · exact hi1.behind hp x hx
            · rw [List.mem_singleton] at hx
              subst hx
              exact Int.le_of_eq hp1.symm
          · intro h0; exact absurd h0 hp0
        obtain ⟨h3, h4⟩ := ih hs hz' _ hi2 hr
        refine ⟨h3, .inr ⟨⟨hnoOld, ?_⟩, by rw [List.append_assoc]; exact h4⟩⟩
        intro e he heq
        exact hno2 e (hi1.day e he (by rw [heq.sec, hp1])) heq

/-- `e` stands before `t` in `l`. -/
def StandsBefore (l : List TRef) (e t : TRef) : Prop := [e, t].Sublist l

theorem KeepsFrom.spec {h : THeap} {old : List TRef} {ts kept out : List TRef} (hk : KeepsFrom h old kept ts out) (hn : ts.Nodup) :
    ∃ new, out = kept ++ new ∧ new.Sublist ts ∧
      ∀ t ∈ ts, t ∈ new ↔ (∀ e ∈ old, ¬ Equals h e t) ∧ (∀ e ∈ kept, ¬ Equals h e t) ∧ ∀ e ∈ new, StandsBefore ts e t → ¬ Equals h e t := by
  induction ts generalizing kept with
  | nil => exact ⟨[], by simpa [KeepsFrom] using hk, by simp, by simp⟩
  | cons t ts ih =>
    obtain ⟨hnt, hn⟩ := List.nodup_cons.mp hn
    have key : ∀ e u, u ∈ ts → (StandsBefore (t :: ts) e u ↔ e = t ∨ StandsBefore ts e u) := by
      intro e u hu
      unfold StandsBefore
      constructor
      · intro hs
        cases hs with
        | cons _ hs => exact .inr hs
        | cons_cons _ hs => exact .inl rfl
      · rintro (rfl | hs)
        · exact List.Sublist.cons_cons _ (List.singleton_sublist.mpr hu)
        · exact hs.cons _
    have first : ∀ e, ¬ StandsBefore (t :: ts) e t := by
      intro e hs
      unfold StandsBefore at hs
      cases hs with
      | cons _ hs => exact hnt (hs.subset (by simp))
      | cons_cons _ hs => exact hnt (hs.subset (by simp))
    rcases hk with ⟨hd, hk⟩ | ⟨⟨hd1, hd2⟩, hk⟩
    · obtain ⟨new, rfl, hsub, hall⟩ := ih hk hn
      refine ⟨new, rfl, hsub.cons _, ?_⟩
      intro u hu
      rcases List.mem_cons.mp hu with rfl | hu
      · constructor
        · intro hm; exact absurd (hsub.subset hm) hnt
        · rintro ⟨h1, h2, _⟩
          rcases hd with ⟨e, he, heq⟩ | ⟨e, he, heq⟩
          · exact absurd heq (h1 e he)
          · exact absurd heq (h2 e he)
      · rw [hall u hu]
        refine and_congr_right fun _ => and_congr_right fun _ => forall_congr' fun e => ?_
        refine imp_congr_right fun he => ?_
        rw [key e u hu]
        constructor
        · rintro hh (rfl | hs)
          · exact absurd (hsub.subset he) hnt
          · exact hh hs
        · intro hh hs; exact hh (.inr hs)
    · obtain ⟨new, rfl, hsub, hall⟩ := ih hk hn
      refine ⟨t :: new, by simp, hsub.cons_cons _, ?_⟩
      intro u hu
      rcases List.mem_cons.mp hu with rfl | hu'
      · simp only [List.mem_cons, true_or, true_iff]
        exact ⟨hd1, hd2, fun e _ hs => absurd hs (first e)⟩
      · have hne : u ≠ t := by rintro rfl; exact hnt hu'
        simp only [List.mem_cons, hne, false_or]
        rw [hall u hu']
        constructor
        · rintro ⟨h1, h2, h3⟩
          refine ⟨h1, fun e he => h2 e (by simp [he]), ?_⟩
          rintro e (rfl | he) hs
          · exact h2 e (by simp)
          · rcases (key e u hu').mp hs with rfl | hs
            · exact h2 e (by simp)
            · exact h3 e he hs
        · rintro ⟨h1, h2, h3⟩
          refine ⟨h1, ?_, fun e he hs => h3 e (.inr he) ((key e u hu').mpr (.inr hs))⟩
          intro e he
          rcases List.mem_append.mp he with he | he
          · exact h2 e he
          · rw [List.mem_singleton] at he; subst he
            exact h3 e (.inl rfl) ((key e u hu').mpr (.inl rfl))

/-- The order in which a batch is written: by time, on equal times those without balance first, otherwise as read. -/
def WriteOrder (h : THeap) (batch : List TRef) : List TRef := stableSort (fun t u => (h t).less (h u)) batch

theorem writeOrder_sec (h : THeap) (batch : List TRef) : (WriteOrder h batch).Pairwise (fun a b => h.sec a ≤ h.sec b) := by
  refine (stableSort_sorted _ (less_strictWeak.comap h) batch).imp ?_
  intro a b hl
  unfold ITxn.less at hl
  simp only [Bool.or_eq_false_iff, decide_eq_false_iff_not] at hl
  have : ¬ h.sec b < h.sec a := hl.1
  omega

/-- **C67, C68** What the importer writes: a part of the batch, in order of time, from unchanged transactions. A transaction is written
exactly when it equals no existing transaction and none that is written before it. -/
theorem C67_written (h h' : THeap) (old batch out : List TRef) (hold : InDateOrder h.sec old) (hn : batch.Nodup)
    (hz : ∀ t ∈ batch, h.sec t ≠ 0) (hr : importBatch false h old batch = .ok (h', out)) :
    h' = h ∧ out.Sublist (WriteOrder h batch) ∧
    ∀ t ∈ batch, t ∈ out ↔ (∀ e ∈ old, ¬ Equals h e t) ∧ ∀ e ∈ out, StandsBefore (WriteOrder h batch) e t → ¬ Equals h e t := by
  unfold importBatch at hr
  simp only [Bool.false_eq_true, if_false] at hr
  obtain ⟨s, h1, hr⟩ := bind_ok.mp hr
  have hp := stableSort_perm (fun t u => (h t).less (h u)) batch
  obtain ⟨h2, h3⟩ := dedupeLoop_spec h old hold _ (writeOrder_sec h batch) (fun t ht => hz t (hp.mem_iff.mp ht)) _ s
    ⟨rfl, by simp, by simp, by simp, by simp, by simp⟩ h1
  obtain ⟨new, e, hsub, hall⟩ := h3.spec (hp.nodup_iff.mpr hn)
  cases hr
  refine ⟨h2, by rw [e]; simpa using hsub, ?_⟩
  intro t ht
  rw [e]
  have := hall t (hp.mem_iff.mpr ht)
  simpa using this

/-- Every account is used with one number of decimals. -/
def OneScale (dec : Str → Nat) (t : ITxn) : Prop := ∀ p ∈ t.postings, p.quantity.com.decimals = dec p.account

/-- What counts as the same entry: the same instant, the same code, the same amounts in the same accounts, in the same order.
The description and the notes do not count. -/
def SameEntry (t u : ITxn) : Prop :=
  t.posted.sec = u.posted.sec ∧ t.code = u.code ∧
  t.postings.map (fun p => (p.account, p.quantity.int)) = u.postings.map (fun p => (p.account, p.quantity.int))

instance (t u : ITxn) : Decidable (SameEntry t u) := by unfold SameEntry; infer_instance

theorem SameEntry.symm {t u : ITxn} (h : SameEntry t u) : SameEntry u t := ⟨h.1.symm, h.2.1.symm, h.2.2.symm⟩
theorem SameEntry.trans {t u v : ITxn} (h : SameEntry t u) (h2 : SameEntry u v) : SameEntry t v :=
  ⟨h.1.trans h2.1, h.2.1.trans h2.2.1, h.2.2.trans h2.2.2⟩

theorem amountEqual_sameScale (a b : Amount) (h : a.com.decimals = b.com.decimals) : a.isEqual b = .ok (decide (a.int = b.int)) := by
  unfold Amount.isEqual Amount.cmp
  simp only [adjustedTo_same a b h.symm, bind, Except.bind, pure, Except.pure, Functor.map, Except.map, Except.ok.injEq]
  unfold intCmp
  split
  · simp; omega
  · split
    · next e => simp [e]
    · next e => simp [e]

theorem postingsEqual_oneScale {dec : Str → Nat} (ps qs : List IPost) (hl : ps.length = qs.length)
    (hp : ∀ p ∈ ps, p.quantity.com.decimals = dec p.account) (hq : ∀ p ∈ qs, p.quantity.com.decimals = dec p.account) :
    postingsEqual ps qs = .ok (decide (ps.map (fun p => (p.account, p.quantity.int)) = qs.map (fun p => (p.account, p.quantity.int)))) := by
  induction ps generalizing qs with
  | nil =>
    cases qs with
    | nil => rfl
    | cons q qs => simp at hl
  | cons p ps ih =>
    cases qs with
    | nil => simp at hl
    | cons q qs =>
      have ih := ih qs (by simpa using hl) (fun x hx => hp x (by simp [hx])) (fun x hx => hq x (by simp [hx]))
      have e : q.isEqual p = .ok (decide (q.account = p.account ∧ q.quantity.int = p.quantity.int)) := by
        unfold IPost.isEqual
        by_cases ha : q.account = p.account
        · rw [if_pos ha, amountEqual_sameScale _ _ (by rw [hp p (by simp), hq q (by simp), ha])]
          simp [ha]
        · rw [if_neg ha]; simp [ha]
      unfold postingsEqual
      rw [e]
      simp only [Except.bind]
      by_cases hb : q.account = p.account ∧ q.quantity.int = p.quantity.int
      · rw [if_pos (by simpa using hb), ih]
        simp [hb.1, hb.2]
      · rw [if_neg (by simpa using hb)]
        simp only [List.map_cons, List.cons.injEq, Prod.mk.injEq, Except.ok.injEq]
        symm
        rw [decide_eq_false_iff_not]
        rintro ⟨⟨h1, h2⟩, _⟩
        exact hb ⟨h1.symm, h2.symm⟩

/-- **C67** `IsEqual` decides whether two transactions are the same entry; it does not fail. -/
theorem C67_isEqual {dec : Str → Nat} (t u : ITxn) (ht : OneScale dec t) (hu : OneScale dec u) : t.isEqual u = .ok (decide (SameEntry t u)) := by
  unfold ITxn.isEqual
  split
  · next h => rw [decide_eq_false (fun hs : SameEntry t u => h hs.1)]
  · next h =>
    split
    · next h2 => rw [decide_eq_false (fun hs : SameEntry t u => h2 hs.2.1)]
    · next h2 =>
      split
      · next h3 => rw [decide_eq_false (fun hs : SameEntry t u => h3 (by simpa using congrArg List.length hs.2.2))]
      · next h3 =>
        simp only [ne_eq, Decidable.not_not] at h h2
        rw [postingsEqual_oneScale _ _ (by simpa using h3) ht hu]
        congr 1
        rw [decide_eq_decide]
        exact ⟨fun hs => ⟨h, h2, hs⟩, fun hs => hs.2.2⟩

theorem findEqual_total {dec : Str → Nat} (h : THeap) (t : TRef) (l : List TRef) (ht : OneScale dec (h t)) (hl : ∀ e ∈ l, OneScale dec (h e)) :
    ∃ r, findEqual h t l = .ok r := by
  induction l with
  | nil => exact ⟨_, rfl⟩
  | cons e l ih =>
    unfold findEqual
    rw [C67_isEqual _ _ (hl e (by simp)) ht]
    simp only [Except.bind]
    split
    · exact ⟨_, rfl⟩
    · exact ih (fun x hx => hl x (by simp [hx]))

theorem dayOf_sub {α} [Inhabited α] (date : α → Int) (l : List α) (d : Int) : ∀ x ∈ dayOf date l d, x ∈ l := by
  intro x hx
  unfold dayOf at hx
  simp only at hx
  split at hx
  · simp at hx
  · exact List.mem_of_mem_drop (List.mem_of_mem_take hx)

theorem dedupeLoop_total {dec : Str → Nat} (h : THeap) (old : List TRef) (hold : ∀ e ∈ old, OneScale dec (h e)) (ts : List TRef)
    (hts : ∀ e ∈ ts, OneScale dec (h e)) (s : Dedupe) (hh : s.heap = h) (h1 : ∀ e ∈ s.oldDay, OneScale dec (h e)) (h2 : ∀ e ∈ s.day, OneScale dec (h e)) :
    ∃ s', dedupeLoop old s ts = .ok s' := by
  induction ts generalizing s with
  | nil => exact ⟨_, rfl⟩
  | cons t ts ih =>
    have ht := hts t (by simp)
    have hts' : ∀ e ∈ ts, OneScale dec (h e) := fun e he => hts e (by simp [he])
    unfold dedupeLoop
    have hn : (s.newDay old t).heap = h ∧ (∀ e ∈ (s.newDay old t).oldDay, OneScale dec (h e)) ∧ ∀ e ∈ (s.newDay old t).day, OneScale dec (h e) := by
      unfold Dedupe.newDay
      split
      · exact ⟨hh, h1, h2⟩
      · exact ⟨hh, fun e he => hold e (dayOf_sub _ _ _ e he), by simp⟩
    generalize s.newDay old t = s1 at *
    obtain ⟨g0, g1, g2⟩ := hn
    obtain ⟨r1, e1⟩ := findEqual_total h t s1.oldDay ht g1
    obtain ⟨r2, e2⟩ := findEqual_total h t s1.day ht g2
    unfold Dedupe.handle
    rw [g0, e1]
    rcases findEqual_spec e1 with ⟨rfl, _⟩ | ⟨rfl, _⟩
    · exact ih hts' s1 g0 g1 g2
    · simp only [Except.bind]
      rw [e2]
      rcases findEqual_spec e2 with ⟨rfl, _⟩ | ⟨rfl, _⟩
      · simp only [mergeDuplicate_self]
        exact ih hts' _ rfl g1 g2
      · refine ih hts' _ rfl g1 ?_
        intro e he
        rcases List.mem_append.mp he with he | he
        · exact g2 e he
        · rw [List.mem_singleton] at he; subst he; exact ht

theorem standsBefore_sub {l : List TRef} {e t : TRef} (h : StandsBefore l e t) : e ∈ l ∧ t ∈ l := ⟨h.subset (by simp), h.subset (by simp)⟩

theorem standsBefore_trans {l : List TRef} (hn : l.Nodup) {a b c : TRef} (h1 : StandsBefore l a b) (h2 : StandsBefore l b c) : StandsBefore l a c := by
  induction l with
  | nil => cases h1
  | cons x l ih =>
    obtain ⟨hx, hn⟩ := List.nodup_cons.mp hn
    cases h2 with
    | cons_cons _ h2 =>
      -- `b` is the head, so nothing stands before it
      cases h1 with
      | cons_cons _ h1 => exact absurd (h1.subset (by simp)) hx
      | cons _ h1 => exact absurd (h1.subset (by simp)) hx
    | cons _ h2 =>
      cases h1 with
      | cons_cons _ h1 => exact List.Sublist.cons_cons _ (List.singleton_sublist.mpr (h2.subset (by simp)))
      | cons _ h1 => exact (ih hn h1 h2).cons _

/-- **C67** For accounts of one scale each, importing does not fail, and writes exactly the transactions of the batch that are the same
as no existing one and no earlier one of the batch. -/
theorem C67_exact (dec : Str → Nat) (h : THeap) (old batch : List TRef) (hold : InDateOrder h.sec old) (hn : batch.Nodup)
    (hz : ∀ t ∈ batch, h.sec t ≠ 0) (h1 : ∀ e ∈ old, OneScale dec (h e)) (h2 : ∀ e ∈ batch, OneScale dec (h e)) :
    ∃ out, importBatch false h old batch = .ok (h, out) ∧ out.Sublist (WriteOrder h batch) ∧
    ∀ t ∈ batch, t ∈ out ↔ (∀ e ∈ old, ¬ SameEntry (h e) (h t)) ∧
      ∀ e ∈ batch, StandsBefore (WriteOrder h batch) e t → ¬ SameEntry (h e) (h t) := by
  have hp := stableSort_perm (fun t u => (h t).less (h u)) batch
  have hr : ∃ r, importBatch false h old batch = .ok r := by
    unfold importBatch
    simp only [Bool.false_eq_true, if_false]
    obtain ⟨s', e⟩ := dedupeLoop_total h old h1 _ (fun e he => h2 e (hp.mem_iff.mp he)) ⟨h, [], [], [], 0⟩ rfl (by simp) (by simp)
    rw [e]; exact ⟨_, rfl⟩
  obtain ⟨⟨h', out⟩, hr⟩ := hr
  obtain ⟨rfl, hsub, hall⟩ := C67_written h h' old batch out hold hn hz hr
  refine ⟨out, hr, hsub, ?_⟩
  have eqv : ∀ e t, (e ∈ old ∨ e ∈ batch) → t ∈ batch → (Equals h' e t ↔ SameEntry (h' e) (h' t)) := by
    intro e t he ht
    unfold Equals
    rw [C67_isEqual _ _ (he.elim (h1 e) (h2 e)) (h2 t ht)]
    simp
  have hob : ∀ e ∈ out, e ∈ batch := fun e he => hp.mem_iff.mp (hsub.subset he)
  have hall' : ∀ t ∈ batch, t ∈ out ↔ (∀ e ∈ old, ¬ SameEntry (h' e) (h' t)) ∧
      ∀ e ∈ out, StandsBefore (WriteOrder h' batch) e t → ¬ SameEntry (h' e) (h' t) := by
    intro t ht
    rw [hall t ht]
    constructor
    · rintro ⟨g1, g2⟩
      exact ⟨fun e he heq => g1 e he ((eqv e t (.inl he) ht).mpr heq), fun e he hs heq => g2 e he hs ((eqv e t (.inr (hob e he)) ht).mpr heq)⟩
    · rintro ⟨g1, g2⟩
      exact ⟨fun e he heq => g1 e he ((eqv e t (.inl he) ht).mp heq), fun e he hs heq => g2 e he hs ((eqv e t (.inr (hob e he)) ht).mp heq)⟩
  intro t ht
  rw [hall' t ht]
  refine and_congr_right fun g1 => ?_
  constructor
  · intro g2 e he hs heq
    by_cases heo : e ∈ out
    · exact g2 e heo hs heq
    · have := (hall' e he).not.mp heo
      simp only [not_and, not_forall, not_not] at this
      obtain ⟨x, hx, hxs, hxe⟩ := this (fun y hy hye => g1 y hy (hye.trans heq))
      exact g2 x hx (standsBefore_trans (hp.nodup_iff.mpr hn) hxs hs) (hxe.trans heq)
  · intro g2 e he hs heq
    exact g2 e (hob e he) hs heq

/-- With `-k` the whole batch is written, in order of time. -/
theorem C67_keepDupes (h : THeap) (old batch : List TRef) : importBatch true h old batch = .ok (h, WriteOrder h batch) := rfl

/-- The order of time is a rearrangement; entries of one time keep their order unless a balance moves one behind. -/
theorem C67_writeOrder (h : THeap) (batch : List TRef) :
    (WriteOrder h batch).Perm batch ∧ (WriteOrder h batch).Pairwise (fun a b => h.sec a ≤ h.sec b) ∧
    ∀ d b, (WriteOrder h batch).filter (fun t => decide (h.sec t = d ∧ (h t).hasAssertions = b)) =
      batch.filter (fun t => decide (h.sec t = d ∧ (h t).hasAssertions = b)) := by
  refine ⟨stableSort_perm _ _, writeOrder_sec h batch, ?_⟩
  intro d b
  refine stableSort_filter _ _ ?_ batch
  intro x y hx hy
  simp only [decide_eq_true_eq] at hx hy
  have hx1 : (h x).posted.sec = d := hx.1
  have hy1 : (h y).posted.sec = d := hy.1
  unfold ITxn.less
  rw [hx1, hy1, hx.2, hy.2]
  cases b <;> simp

/-- The same entry on the same *day*, which is what a ledger records. -/
def SameOnDay (t u : ITxn) : Prop :=
  t.posted.day = u.posted.day ∧ t.code = u.code ∧
  t.postings.map (fun p => (p.account, p.quantity.int)) = u.postings.map (fun p => (p.account, p.quantity.int))

instance (t u : ITxn) : Decidable (SameOnDay t u) := by unfold SameOnDay; infer_instance

/-- Full statement of C67: the transactions written are those that equal none of the ledger's transactions of that day and no earlier one
of the batch. The ledger's times come from dates (`Stamp.ofDay`), the batch's from an OFX file. -/
def C67_Statement : Prop := ∀ (dec : Str → Nat) (h : THeap) (old batch : List TRef), InDateOrder h.sec old → batch.Nodup →
  (∀ t ∈ batch, h.sec t ≠ 0) → (∀ e ∈ old, OneScale dec (h e)) → (∀ e ∈ batch, OneScale dec (h e)) →
  (∀ e ∈ old, ∃ d, (h e).posted = .ofDay d) →
  ∃ out, importBatch false h old batch = .ok (h, out) ∧ out.Sublist (WriteOrder h batch) ∧
    ∀ t ∈ batch, t ∈ out ↔ (∀ e ∈ old, ¬ SameOnDay (h e) (h t)) ∧
      ∀ e ∈ batch, StandsBefore (WriteOrder h batch) e t → ¬ SameOnDay (h e) (h t)

/-- A commodity of two decimals. -/
def exCom : Com := ⟨0, str "CAD", 2⟩

/-- A purchase on day 737062 (2019/01/04) as an OFX file gives it: midnight in a zone five hours behind UTC. -/
def exImported : ITxn := ITxn.post ⟨⟨737062 * 86400 + 18000, -18000⟩, [], str "SHOP", [], []⟩ (str "Assets:Bank") (str "Expenses") ⟨-1500, exCom⟩ none
/-- The same purchase read back from the ledger it was imported into. -/
def exInLedger : ITxn := { exImported with posted := .ofDay 737062 }

theorem exImported_scale : OneScale (fun _ => exCom.decimals) exImported := by unfold OneScale; decide
theorem exInLedger_scale : OneScale (fun _ => exCom.decimals) exInLedger := by unfold OneScale; decide

/-- **C67 is false** of the code: times are compared as instants, and a parsed date is noon UTC, so importing a file twice writes its
transactions twice. -/
theorem C67_reimport_violated : ¬ C67_Statement := by
  intro hst
  obtain ⟨out, hr, _, hall⟩ := hst (fun _ => exCom.decimals) (fun r => if r = 0 then exInLedger else exImported) [0] [1]
    (List.pairwise_singleton _ _) (List.nodup_singleton _) (by decide) (by simpa using exInLedger_scale) (by simpa using exImported_scale)
    (by simp only [List.mem_singleton, forall_eq, if_true]; exact ⟨_, rfl⟩)
  have h1 := (hall 1 (by simp)).not.mpr (by
    rintro ⟨g, _⟩
    exact g 0 (by simp) (by decide))
  have h2 : (importBatch false (fun r => if r = 0 then exInLedger else exImported) [0] [1]).toOption.map (·.2) = some [1] := by decide +kernel
  rw [hr] at h2
  simp only [Except.toOption, Option.map_some, Option.some.injEq] at h2
  rw [h2] at h1
  exact h1 (by simp)

/-- **C67 (partial)** True when the imported times are noon UTC too. Missing: any other time of the day, see above. -/
theorem C67_sameDay_partial (dec : Str → Nat) (h : THeap) (old batch : List TRef) (hold : InDateOrder h.sec old) (hn : batch.Nodup)
    (hz : ∀ t ∈ batch, h.sec t ≠ 0) (h1 : ∀ e ∈ old, OneScale dec (h e)) (h2 : ∀ e ∈ batch, OneScale dec (h e))
    (h3 : ∀ e ∈ old, ∃ d, (h e).posted = .ofDay d) (h4 : ∀ e ∈ batch, ∃ d, (h e).posted = .ofDay d) :
    ∃ out, importBatch false h old batch = .ok (h, out) ∧ out.Sublist (WriteOrder h batch) ∧
    ∀ t ∈ batch, t ∈ out ↔ (∀ e ∈ old, ¬ SameOnDay (h e) (h t)) ∧
      ∀ e ∈ batch, StandsBefore (WriteOrder h batch) e t → ¬ SameOnDay (h e) (h t) := by
  obtain ⟨out, hr, hs, hall⟩ := C67_exact dec h old batch hold hn hz h1 h2
  have eqv : ∀ e t, (e ∈ old ∨ e ∈ batch) → t ∈ batch → (SameEntry (h e) (h t) ↔ SameOnDay (h e) (h t)) := by
    intro e t he ht
    obtain ⟨d, hd⟩ := he.elim (h3 e) (h4 e)
    obtain ⟨d', hd'⟩ := h4 t ht
    have : (h e).posted.sec = (h t).posted.sec ↔ (h e).posted.day = (h t).posted.day := by
      rw [hd, hd']
      simp only [Stamp.ofDay, Stamp.day]
      omega
    unfold SameEntry SameOnDay
    rw [this]
  refine ⟨out, hr, hs, ?_⟩
  intro t ht
  rw [hall t ht]
  constructor
  · rintro ⟨g1, g2⟩
    exact ⟨fun e he hx => g1 e he ((eqv e t (.inl he) ht).mpr hx), fun e he hx hy => g2 e he hx ((eqv e t (.inr he) ht).mpr hy)⟩
  · rintro ⟨g1, g2⟩
    exact ⟨fun e he hx => g1 e he ((eqv e t (.inl he) ht).mp hx), fun e he hx hy => g2 e he hx ((eqv e t (.inr he) ht).mp hy)⟩

/-- A batch with an entry of the ledger, one that is new, and that one again: the new one is written once. -/
def exHeap : THeap := fun r => if r ≤ 1 then exInLedger else { exInLedger with code := str "7" }

example : (importBatch false exHeap [0] [1, 2, 3]).toOption.map (·.2) = some [2] := by decide +kernel
example : InDateOrder exHeap.sec [0] ∧ [1, 2, 3].Nodup ∧ (∀ t ∈ [1, 2, 3], exHeap.sec t ≠ 0) ∧
    (∀ e ∈ [0, 1, 2, 3], OneScale (fun _ => exCom.decimals) (exHeap e)) ∧ ∀ e ∈ [0, 1, 2, 3], (exHeap e).posted = .ofDay 737062 := by
  refine ⟨List.pairwise_singleton _ _, by decide, by decide, ?_, by decide⟩
  unfold OneScale; decide

/-! ## C68: Merging a duplicate keeps its balance -/

/-- Full statement of C68: when a transaction of the batch is not written because it is the same entry as one that is, every balance
it carries is, on the corresponding posting, also on the one that is written. -/
def C68_Statement : Prop := ∀ (h h' : THeap) (batch out : List TRef), batch.Nodup → (∀ t ∈ batch, h.sec t ≠ 0) →
  importBatch false h [] batch = .ok (h', out) →
  ∀ t ∈ batch, t ∉ out → ∃ e ∈ out, Equals h e t ∧
    ∀ (i : Nat) (p q : IPost), (h t).postings[i]? = some p → (h' e).postings[i]? = some q → p.balance ≠ none → q.balance ≠ none

/-- The purchase with the balance of the statement. -/
def exWithBalance : ITxn := ITxn.post ⟨.ofDay 737062, [], str "SHOP", [], []⟩ (str "Assets:Bank") (str "Expenses") ⟨-1500, exCom⟩ (some ⟨98500, exCom⟩)

/-- **C68 is false** of the code: `FindEqual` returns the transaction it was asked about, so it is merged with itself. -/
theorem C68_merge_violated : ¬ C68_Statement := by
  intro hst
  have hr : (importBatch false (fun r => if r = 0 then exInLedger else exWithBalance) [] [0, 1]).toOption.map (·.2) = some [0] := by decide +kernel
  cases hb : importBatch false (fun r => if r = 0 then exInLedger else exWithBalance) [] [0, 1] with
  | error e => rw [hb] at hr; cases hr
  | ok r =>
    obtain ⟨h', out⟩ := r
    rw [hb] at hr
    simp only [Except.toOption, Option.map_some, Option.some.injEq] at hr
    subst hr
    have hz : ∀ t ∈ [0, 1], THeap.sec (fun r => if r = 0 then exInLedger else exWithBalance) t ≠ 0 := by decide
    obtain ⟨rfl, _, _⟩ := C67_written _ h' [] [0, 1] [0] List.Pairwise.nil (by decide) hz hb
    obtain ⟨e, he, _, hall⟩ := hst _ _ [0, 1] [0] (by decide) hz hb 1 (by simp) (by simp)
    rw [List.mem_singleton] at he
    subst he
    exact hall 1 ⟨str "Assets:Bank", ⟨-1500, exCom⟩, some ⟨98500, exCom⟩, true⟩ ⟨str "Assets:Bank", ⟨-1500, exCom⟩, none, false⟩
      (by decide) (by decide) (by decide) rfl

/-- **C68** What happens instead: nothing that is written is changed, so the balance of a dropped duplicate is always lost. -/
theorem C68_unchanged (h h' : THeap) (old batch out : List TRef) (hold : InDateOrder h.sec old) (hn : batch.Nodup)
    (hz : ∀ t ∈ batch, h.sec t ≠ 0) (hr : importBatch false h old batch = .ok (h', out)) : h' = h :=
  (C67_written h h' old batch out hold hn hz hr).1

theorem mergePostings_spec (ps qs : List IPost) (hl : ps.length ≤ qs.length) :
    ∃ rs, mergePostings ps qs = .ok rs ∧ rs.length = ps.length ∧
      ∀ (i : Nat) (p q : IPost), ps[i]? = some p → qs[i]? = some q → ∃ r, rs[i]? = some r ∧ r.account = p.account ∧ r.quantity = p.quantity ∧
        r.balance = p.balance.or q.balance ∧ r.asserted = (if p.balance = none ∧ q.balance ≠ none then q.asserted else p.asserted) := by
  induction ps generalizing qs with
  | nil => exact ⟨[], rfl, rfl, by simp⟩
  | cons p ps ih =>
    cases qs with
    | nil => simp at hl
    | cons q qs =>
      obtain ⟨rs, e, hlen, hall⟩ := ih qs (by simpa using hl)
      refine ⟨p.merge q :: rs, by unfold mergePostings; rw [e]; rfl, by simp [hlen], ?_⟩
      intro i a b ha hb
      cases i with
      | zero =>
        simp only [List.getElem?_cons_zero, Option.some.injEq] at ha hb
        subst ha; subst hb
        refine ⟨_, rfl, ?_⟩
        unfold IPost.merge
        cases hpb : p.balance <;> cases hqb : q.balance <;> simp [hpb, hqb]
      | succ i =>
        simp only [List.getElem?_cons_succ] at ha hb ⊢
        exact hall i a b ha hb

/-- **C68 (partial)** `t.MergeDuplicate(t2)` itself does what it should: a posting of `t` without balance gets the one of the
corresponding posting of `t2`, and nothing else changes. Missing: the importer calls it with `t = t2`. -/
theorem C68_merge_partial (h : THeap) (t t2 : TRef) (hl : (h t).postings.length = (h t2).postings.length) :
    ∃ h', mergeDuplicate h t t2 = .ok h' ∧ (∀ r, r ≠ t → h' r = h r) ∧
      (h' t).posted = (h t).posted ∧ (h' t).code = (h t).code ∧ (h' t).description = (h t).description ∧ (h' t).notes = (h t).notes ∧
      (h' t).postings.length = (h t).postings.length ∧
      ∀ (i : Nat) (p q : IPost), (h t).postings[i]? = some p → (h t2).postings[i]? = some q →
        ∃ r, (h' t).postings[i]? = some r ∧ r.account = p.account ∧ r.quantity = p.quantity ∧ r.balance = p.balance.or q.balance ∧
          r.asserted = (if p.balance = none ∧ q.balance ≠ none then q.asserted else p.asserted) := by
  obtain ⟨rs, e, hlen, hall⟩ := mergePostings_spec (h t).postings (h t2).postings (by omega)
  unfold mergeDuplicate
  rw [e]
  refine ⟨_, rfl, ?_, ?_⟩
  · intro r hr; simp [hr]
  · simp only [if_true]
    exact ⟨trivial, trivial, trivial, trivial, hlen, hall⟩

end Verif
