import Verif.Lemmas.Groups
import Verif.Lemmas.Parser
import Verif.Lemmas.Amount
import Verif.Props.RoundTrip
/-
C61: crashes while loading. C62: empty note lines. C63: where a transaction ends.
-/
namespace Verif

/-! ## C61: Parser never crashes -/

/-- C61 as stated: loading a text succeeds or reports an error. -/
def C61_Statement : Prop := ∀ (today : Today) (st : LoadState) (text : Str), loadText today st text ≠ .error .panic

/-- False: a note line after the first line of a transaction that has no postings dereferences a nil pointer. -/
theorem C61_dangling_note_violated : ¬ C61_Statement := by
  intro h
  refine h ⟨2020, 1, 1⟩ ⟨[], [], []⟩ (str "2020/01/02 lunch\n  ; who paid?\n") ?_
  have : (match loadText ⟨2020, 1, 1⟩ ⟨[], [], []⟩ (str "2020/01/02 lunch\n  ; who paid?\n") with | .error .panic => true | _ => false) = true := by
    decide +kernel
  revert this
  split
  · next h => intro _; exact h
  · intro h; exact absurd h (by decide)

/-- The outcome is a crash. -/
def crashes (today : Today) (st : LoadState) (text : Str) : Bool :=
  match loadText today st text with | .error .panic => true | _ => false

/-- A few more texts that crash. -/
theorem C61_other_crashes :
    crashes ⟨2020, 1, 1⟩ ⟨[], [], []⟩ (str "include\n") = true ∧
    crashes ⟨2020, 1, 1⟩ ⟨[], [], []⟩ (str "test \n") = true ∧
    crashes ⟨2020, 1, 1⟩ ⟨[], [], []⟩ (str "accounts\n") = true ∧
    crashes ⟨2020, 1, 1⟩ ⟨[], [], []⟩ (str "1st of May\n") = true ∧
    crashes ⟨2020, 1, 1⟩ ⟨[], [], []⟩ (str "2020/01/02 lunch\n  Food  1 CAD\n") = true := by decide +kernel

/-- A number that is too long: a part of it has more than fifty characters. -/
def LongNumber (s : Str) : Prop := ∃ part ∈ splitOn '.' s, 50 < part.length

/-- An amount that cannot be read: of an unknown commodity, or too long. -/
def BadAmount (known : Str → Prop) (amt com : Str) : Prop := amt ≠ [] ∧ (¬ known com ∨ LongNumber amt)

/-- A line that can crash the parser (without looking at other lines): an `include`, `test` or `account` line without its argument,
a transaction or price line without a date, a price or posting with an amount of an unknown commodity, or a number of
more than fifty characters. -/
inductive BadLine (known : Str → Prop) (line : Str) : Prop
  | include_ : startsWith (str "include") line = true → includeRe.matches line = none → BadLine known line
  | test : startsWith (str "test ") line = true → testRe.matches line = none → BadLine known line
  | account : startsWith (str "account") line = true → accountHeadRe.matches line = none → BadLine known line
  | date (c) : startsDigit line = true → transactionRe.matches line = some c → c.get (str "date") = [] → BadLine known line
  | priceDate (c) : startsWith (str "P ") line = true → priceRe.matches line = some c → c.get (str "date") = [] → BadLine known line
  | price (c) : startsWith (str "P ") line = true → priceRe.matches line = some c → BadAmount known (c.get (str "amount")) (c.get (str "commodity2")) →
      BadLine known line
  | quantity (c) : postingRe.matches line = some c → BadAmount known (c.get (str "amount1")) (c.get (str "commodity1")) → BadLine known line
  | balance (c) : postingRe.matches line = some c → BadAmount known (c.get (str "amount2")) (c.get (str "commodity2")) → BadLine known line
  | decimals (c) : commodityBodyRe.matches line = some c → 51 < (c.get (str "decimals")).length → BadLine known line

/-- A line read as a note of the transaction or posting before it. -/
def IsNoteLine (line : Str) : Prop := ∃ c, postingRe.matches line = some c ∧ c.get (str "note") ≠ []

/-- A transaction line is followed by notes only. -/
def DanglingNote (lines : List Str) : Prop :=
  ∃ pre h ns post, lines = pre ++ h :: (ns ++ post) ∧ startsDigit h = true ∧ ns ≠ [] ∧ (∀ n ∈ ns, IsNoteLine n) ∧
    ∀ l t, post = l :: t → postingRe.matches l = none

/-- Amounts of known commodities that are not too long do not crash. -/
theorem parseAmount_safe {s : Str} {c : Com} (hc : c.decimals ≤ 50) (hs : ¬ LongNumber s) : parseAmount s c ≠ .error .panic := by
  have hpi : ∀ x, parseInt64 x ≠ .error .panic := by
    intro x
    unfold parseInt64
    repeat' split
    all_goals (intro h; first | cases h | (simp only [] at h; split at h <;> cases h))
  unfold parseAmount
  split
  · rename_i i hi
    cases hv : parseInt64 i with
    | error f => intro h; simp [Except.bind] at h; exact hpi i (hv.trans (by rw [h]))
    | ok v =>
      simp only [Except.bind]
      split
      · rw [bigPow10_ok hc]; intro h; cases h
      · intro h; cases h
  · rename_i i f hi
    have hf : f.length ≤ 50 := by
      by_contra hl
      exact hs ⟨f, by rw [hi]; simp, by omega⟩
    cases hv : parseInt64 (i ++ f) with
    | error f => intro h; simp [Except.bind] at h; exact hpi _ (hv.trans (by rw [h]))
    | ok v =>
      simp only [Except.bind]
      split
      · rw [bigPow10_ok hc, bigPow10_ok hf]; intro h; cases h
      · intro h; cases h
  · intro h; cases h

theorem bind_panic {α β : Type} {x : Except Fault α} {f : α → Except Fault β} (h : x.bind f = .error .panic) :
    x = .error .panic ∨ ∃ a, x = .ok a ∧ f a = .error .panic := by
  cases x with
  | error e => left; simp only [Except.bind, Except.error.injEq] at h; rw [h]
  | ok a => right; exact ⟨a, rfl, h⟩

/-- What is known while loading. -/
structure KnownEnv (known : Str → Prop) (env : PEnv) : Prop where
  found : ∀ id, known id → ∃ c, env.coms id = some c
  small : ∀ id c, env.coms id = some c → c.decimals ≤ 50

theorem optAmount_panic {known : Str → Prop} {env : PEnv} (hk : KnownEnv known env) {amt com : Str} (h : optAmount env amt com = .error .panic) :
    BadAmount known amt com := by
  unfold optAmount at h
  split at h
  · cases h
  · next hne =>
    refine ⟨hne, ?_⟩
    by_contra hcon
    have hcon := not_or.mp hcon
    have hkn : known com := by_contra hcon.1
    obtain ⟨c, hc⟩ := hk.found _ hkn
    rw [mustFindCommodity, hc] at h
    simp only [Except.bind] at h
    have hp := parseAmount_safe (s := amt) (hk.small _ _ hc) hcon.2
    cases hpa : parseAmount amt c with
    | error e => rw [hpa] at h hp; simp only [Except.error.injEq] at h; exact hp (by rw [h])
    | ok a => rw [hpa] at h; cases h

theorem attachLast_ne {ps : List PPost} {notes : List Str} (h : ps ≠ []) : attachLast ps notes ≠ [] := by
  match ps with
  | [] => exact absurd rfl h
  | [p] => simp [attachLast]
  | p :: q :: r => simp [attachLast]

/-- The loop over postings crashes only at a bad line, or on notes without a posting. -/
theorem postingLoop_panic {known : Str → Prop} {env : PEnv} (hk : KnownEnv known env) (lines : List Str) (tn : List Str) (ps : List PPost)
    (pending : List Str) (h : postingLoop env tn ps pending lines = .error .panic) :
    (∃ l ∈ lines, BadLine known l) ∨
    (ps = [] ∧ ∃ ns post, lines = ns ++ post ∧ (pending ≠ [] ∨ ns ≠ []) ∧ (∀ n ∈ ns, IsNoteLine n) ∧ ∀ l t, post = l :: t → postingRe.matches l = none) := by
  induction lines generalizing tn ps pending with
  | nil =>
    unfold postingLoop finishPostings at h
    split at h
    · cases h
    · next hp =>
      split at h
      · next hps => exact .inr ⟨hps, [], [], rfl, .inl hp, by simp, by simp⟩
      · cases h
  | cons line rest ih =>
    unfold postingLoop at h
    split at h
    · next hm =>
      unfold finishPostings at h
      split at h
      · cases h
      · next hp =>
        split at h
        · next hps => exact .inr ⟨hps, [], line :: rest, rfl, .inl hp, by simp, by rintro l t e; cases e; exact hm⟩
        · cases h
    · next c hm =>
      split at h
      · next hn =>
        rcases ih _ _ _ h with ⟨l, hl, hb⟩ | ⟨hps, ns, post, rfl, _, hns, hpost⟩
        · exact .inl ⟨l, by simp [hl], hb⟩
        · exact .inr ⟨hps, line :: ns, post, rfl, .inr (by simp), by
            intro n hn'
            rcases List.mem_cons.mp hn' with rfl | hn'
            · exact ⟨c, hm, hn⟩
            · exact hns n hn', hpost⟩
      · rcases bind_panic h with h1 | ⟨q, _, h⟩
        · exact .inl ⟨line, by simp, .quantity c hm (optAmount_panic hk h1)⟩
        · rcases bind_panic h with h2 | ⟨b, _, h⟩
          · exact .inl ⟨line, by simp, .balance c hm (optAmount_panic hk h2)⟩
          · rcases ih _ _ _ h with ⟨l, hl, hb⟩ | ⟨hps, _⟩
            · exact .inl ⟨l, by simp [hl], hb⟩
            · simp at hps

/-- What the loop leaves is the end of what it got. -/
theorem postingLoop_suffix {env : PEnv} (lines : List Str) (tn : List Str) (ps : List PPost) (pending : List Str) {r : (List Str × List PPost) × List Str}
    (h : postingLoop env tn ps pending lines = .ok r) : r.2 <:+ lines := by
  induction lines generalizing tn ps pending with
  | nil =>
    unfold postingLoop at h
    obtain ⟨_, _, h⟩ := bind_ok.mp h
    cases h; exact List.suffix_rfl
  | cons line rest ih =>
    unfold postingLoop at h
    split at h
    · obtain ⟨_, _, h⟩ := bind_ok.mp h
      cases h; exact List.suffix_rfl
    · split at h
      · exact (ih _ _ _ h).trans (List.suffix_cons _ _)
      · obtain ⟨_, _, h⟩ := bind_ok.mp h
        obtain ⟨_, _, h⟩ := bind_ok.mp h
        exact (ih _ _ _ h).trans (List.suffix_cons _ _)

/-- The date of a closed line. -/
theorem accountBody_date {line : Str} {c : Caps} (today : Today) (h : accountBodyRe.matches line = some c) (hd : c.get (str "date") ≠ []) :
    ∃ n, mustParseDate today c = .ok n := by
  obtain ⟨pre, s1, post, rfl, hm⟩ := matches_sound h
  unfold accountBodyRe at hm
  rw [alt_match_iff] at hm
  rcases hm with hm | hm
  · exact absurd (match_get_other hm (n := str "date") (by decide)) hd
  rw [alt_match_iff] at hm
  rcases hm with hm | hm
  · exact absurd (match_get_other hm (n := str "date") (by decide)) hd
  rw [alt_match_iff] at hm
  rcases hm with hm | hm
  · have hm : Re.Match (.seq (.plus .ws) (.seq (.lit (str "closed")) (.seq (.plus .ws) dateRe))) s1 post [] c := hm
    rw [seq_match_iff] at hm
    obtain ⟨_, _, _, _, _, hm⟩ := hm
    rw [seq_match_iff] at hm
    obtain ⟨_, _, _, _, _, hm⟩ := hm
    rw [seq_match_iff] at hm
    obtain ⟨_, s, _, _, _, hm⟩ := hm
    refine dateBase_some (date_captured hm ?_)
    rintro rfl
    unfold dateRe at hm
    rw [grp_match_iff] at hm
    obtain ⟨c2, _, rfl⟩ := hm
    exact hd (by simp [Caps.get])
  rw [alt_match_iff] at hm
  rcases hm with hm | hm
  · exact absurd (match_get_other hm (n := str "date") (by decide)) hd
  rw [alt_match_iff] at hm
  rcases hm with hm | hm
  · exact absurd (match_get_other hm (n := str "date") (by decide)) hd
  · exact absurd (match_get_other hm (n := str "date") (by decide)) hd

theorem accountBody_safe {env : PEnv} (lines : List Str) (a : PAcct) : accountBody env a lines ≠ .error .panic := by
  induction lines generalizing a with
  | nil => intro h; cases h
  | cons line rest ih =>
    unfold accountBody
    split
    · intro h; cases h
    · split
      · intro h; cases h
      · next c hm =>
        intro h
        rcases bind_panic h with h | ⟨_, _, h⟩
        · unfold accountLine at h
          split at h
          · cases h
          · split at h
            · cases h
            · split at h
              · next hd =>
                obtain ⟨n, hn⟩ := accountBody_date env.today hm hd
                rw [hn] at h; cases h
              · repeat' split at h
                all_goals cases h
        · exact ih _ h

theorem accountBody_suffix {env : PEnv} (lines : List Str) (a : PAcct) {r : PAcct × List Str} (h : accountBody env a lines = .ok r) :
    r.2 <:+ lines ∧ r.1.fullName = a.fullName := by
  induction lines generalizing a with
  | nil => cases h; exact ⟨List.suffix_rfl, rfl⟩
  | cons line rest ih =>
    unfold accountBody at h
    split at h
    · cases h; exact ⟨List.suffix_rfl, rfl⟩
    · split at h
      · cases h
      · obtain ⟨a', ha, h⟩ := bind_ok.mp h
        obtain ⟨h1, h2⟩ := ih _ h
        refine ⟨h1.trans (List.suffix_cons _ _), h2.trans ?_⟩
        unfold accountLine at ha
        split at ha
        · cases ha; rfl
        · split at ha
          · cases ha; rfl
          · split at ha
            · obtain ⟨_, _, ha⟩ := bind_ok.mp ha
              cases ha; rfl
            · repeat' split at ha
              all_goals cases ha; rfl

/-- A matched account head names the account. -/
theorem accountHead_name {line : Str} {c : Caps} (h : accountHeadRe.matches line = some c) : c.get (str "account") ≠ [] := by
  obtain ⟨pre, s1, post, rfl, hm⟩ := matches_sound h
  have hm : Re.Match (.seq (.lit (str "account")) (.seq (.plus .ws) accountRe)) s1 post [] c := hm
  rw [seq_match_iff] at hm
  obtain ⟨_, _, _, _, _, hm⟩ := hm
  rw [seq_match_iff] at hm
  obtain ⟨_, _, _, _, _, hm⟩ := hm
  unfold accountRe at hm
  rw [grp_match_iff] at hm
  obtain ⟨c2, hg, rfl⟩ := hm
  rw [seq_match_iff] at hg
  obtain ⟨_, _, _, rfl, hg, _⟩ := hg
  unfold nameRe at hg
  rw [seq_match_iff] at hg
  obtain ⟨_, _, _, rfl, hg, _⟩ := hg
  rw [cls_match_iff] at hg
  obtain ⟨ch, rfl, _⟩ := hg
  simp [Caps.get]

theorem commodityBody_safe (lines : List Str) (x : PCom) (d : Bool) : commodityBody x d lines ≠ .error .panic := by
  induction lines generalizing x d with
  | nil => intro h; cases h
  | cons line rest ih =>
    unfold commodityBody
    split
    · intro h; cases h
    · split
      · intro h; cases h
      · intro h
        rcases bind_panic h with h | ⟨_, _, h⟩
        · unfold commodityLine at h
          repeat' split at h
          all_goals cases h
        · exact ih _ _ h

theorem commodityBody_ok {known : Str → Prop} (lines : List Str) (x : PCom) (d : Bool) {r : (PCom × Bool) × List Str}
    (h : commodityBody x d lines = .ok r) : r.2 <:+ lines ∧ r.1.1.id = x.id ∧ (x.decimals ≤ 50 → (∀ l ∈ lines, ¬ BadLine known l) → r.1.1.decimals ≤ 50) := by
  induction lines generalizing x d with
  | nil => cases h; exact ⟨List.suffix_rfl, rfl, fun h _ => h⟩
  | cons line rest ih =>
    unfold commodityBody at h
    split at h
    · cases h; exact ⟨List.suffix_rfl, rfl, fun h _ => h⟩
    · split at h
      · cases h
      · next c hm =>
        obtain ⟨y, hy, h⟩ := bind_ok.mp h
        obtain ⟨h1, h2, h3⟩ := ih _ _ h
        have hid : y.1.id = x.id ∧ (x.decimals ≤ 50 → ¬ BadLine known line → y.1.decimals ≤ 50) := by
          unfold commodityLine at hy
          split at hy
          · cases hy; exact ⟨rfl, fun h _ => h⟩
          · split at hy
            · cases hy
              refine ⟨rfl, fun _ hb => ?_⟩
              by_contra hl
              exact hb (.decimals c hm (by simpa using hl))
            · repeat' split at hy
              all_goals cases hy
              all_goals exact ⟨rfl, fun h _ => h⟩
        refine ⟨h1.trans (List.suffix_cons _ _), h2.trans hid.1, fun hx hl => h3 (hid.2 hx (hl line (by simp))) (fun l hm => hl l (by simp [hm]))⟩

theorem testLoop_suffix (acc : Str) (lines : List Str) : (testLoop acc lines).2 <:+ lines := by
  induction lines generalizing acc with
  | nil => exact List.suffix_rfl
  | cons line rest ih =>
    unfold testLoop
    split
    · exact List.suffix_cons _ _
    · exact (ih _).trans (List.suffix_cons _ _)

theorem price_amount {line : Str} {c : Caps} (h : priceRe.matches line = some c) : c.get (str "amount") ≠ [] := by
  obtain ⟨pre, s1, post, rfl, hm⟩ := matches_sound h
  have hm : Re.Match (.seq (.lit (str "P ")) (.seq dateRe (.seq (.plus .ws) (.seq (commodityRe (str "1")) (.seq (.plus .ws) (.seq (numberRe []) (.seq (.plus .ws) (commodityRe (str "2"))))))))) s1 post [] c := hm
  rw [seq_match_iff] at hm
  obtain ⟨_, _, _, _, _, hm⟩ := hm
  rw [seq_match_iff] at hm
  obtain ⟨_, _, _, _, _, hm⟩ := hm
  rw [seq_match_iff] at hm
  obtain ⟨_, _, _, _, _, hm⟩ := hm
  rw [seq_match_iff] at hm
  obtain ⟨_, _, _, _, _, hm⟩ := hm
  rw [seq_match_iff] at hm
  obtain ⟨_, _, _, _, _, hm⟩ := hm
  rw [seq_match_iff] at hm
  obtain ⟨s, _, c1, _, h1, hm⟩ := hm
  rw [match_get_other hm (by decide)]
  unfold numberRe at h1
  rw [grp_match_iff] at h1
  obtain ⟨c2, h1, rfl⟩ := h1
  have h1 : Re.Match (.seq (.opt (.ch '-')) (.seq (.plus .digit) (.opt (.grp (str "decimals" ++ []) (.seq (.ch '.') (.plus .digit)))))) s _ _ c2 := h1
  rw [seq_match_iff] at h1
  obtain ⟨_, _, _, rfl, _, h1⟩ := h1
  rw [seq_match_iff] at h1
  obtain ⟨_, _, _, rfl, h1, _⟩ := h1
  have h1 : Re.Match (.plus (.cls isDigit)) _ _ _ _ := h1
  rw [plus_cls_match_iff] at h1
  have hne := h1.1
  simp [Caps.get, str, hne]

/-- One item: what crashes it, and what it leaves. -/
theorem parseItem_panic {known : Str → Prop} {env : PEnv} (hk : KnownEnv known env) {line : Str} {rest : List Str}
    (h : parseItem env line rest = .error .panic) : (∃ l ∈ line :: rest, BadLine known l) ∨ DanglingNote (line :: rest) := by
  unfold parseItem at h
  split at h
  · next hs =>
    rcases bind_panic h with h | ⟨_, _, h⟩
    · unfold parseInclude at h
      split at h
      · next hm => exact .inl ⟨line, by simp, .include_ hs hm⟩
      · cases h
    · cases h
  split at h
  · next hs =>
    rcases bind_panic h with h | ⟨_, _, h⟩
    · exact absurd h (accountBody_safe _ _)
    · cases h
  split at h
  · rcases bind_panic h with h | ⟨_, _, h⟩
    · exact absurd h (commodityBody_safe _ _ _)
    · cases h
  split at h
  · next hs =>
    rcases bind_panic h with h | ⟨_, _, h⟩
    · unfold parseTest at h
      split at h
      · next hm => exact .inl ⟨line, by simp, .test hs hm⟩
      · cases h
    · cases h
  split at h
  · next hs =>
    rcases bind_panic h with h | ⟨_, _, h⟩
    · unfold parsePrice at h
      split at h
      · cases h
      · next c hm =>
        by_cases hd : c.get (str "date") = []
        · exact .inl ⟨line, by simp, .priceDate c hs hm hd⟩
        obtain ⟨t, ht⟩ := price_date env.today hm hd
        rw [ht] at h
        simp only [Except.bind] at h
        refine .inl ⟨line, by simp, .price c hs hm (optAmount_panic hk ?_)⟩
        unfold optAmount
        rw [if_neg (price_amount hm)]
        rcases bind_panic h with h | ⟨cur, hc, h⟩
        · rw [h]; rfl
        · rw [hc]
          rcases bind_panic h with h | ⟨_, _, h⟩
          · simp only [Except.bind, h]
          · cases h
    · cases h
  split at h
  · next hs =>
    rcases bind_panic h with h | ⟨_, _, h⟩
    · unfold parseTransaction at h
      split at h
      · cases h
      · next c hm =>
        by_cases hd : c.get (str "date") = []
        · exact .inl ⟨line, by simp, .date c hs hm hd⟩
        obtain ⟨t, ht⟩ := transaction_date env.today hm hd
        rw [ht] at h
        simp only [Except.bind] at h
        rcases bind_panic h with h | ⟨_, _, h⟩
        · rcases postingLoop_panic hk _ _ _ _ h with ⟨l, hl, hb⟩ | ⟨_, ns, post, rfl, hne, hns, hpost⟩
          · exact .inl ⟨l, by simp [hl], hb⟩
          · exact .inr ⟨[], line, ns, post, rfl, hs, by simpa using hne, hns, hpost⟩
        · cases h
    · cases h
  · cases h

/-- What an item leaves and what it declares. -/
theorem parseItem_ok {known : Str → Prop} {env : PEnv} {line : Str} {rest : List Str} {r : ItemD × List Str}
    (h : parseItem env line rest = .ok r) : r.2 <:+ rest ∧
      ((∀ l ∈ line :: rest, ¬ BadLine known l) → (∀ x, r.1.1 = .commodity x → x.decimals ≤ 50) ∧ (∀ a, r.1.1 = .account a → a.fullName ≠ [])) := by
  unfold parseItem at h
  split at h
  · obtain ⟨q, hq, h⟩ := bind_ok.mp h
    unfold parseInclude at hq
    split at hq
    · cases hq
    · cases hq; cases h; exact ⟨List.suffix_rfl, fun _ => ⟨by simp, by simp⟩⟩
  split at h
  · next hs =>
    obtain ⟨q, hq, h⟩ := bind_ok.mp h
    obtain ⟨h1, h2⟩ := accountBody_suffix _ _ hq
    cases h
    refine ⟨h1, fun hb => ⟨by simp, ?_⟩⟩
    rintro a ha
    cases ha
    rw [h2]
    cases hm : accountHeadRe.matches line with
    | none => exact absurd (.account hs hm) (hb line (by simp))
    | some c => exact accountHead_name hm
  split at h
  · obtain ⟨q, hq, h⟩ := bind_ok.mp h
    obtain ⟨h1, h2, h3⟩ := commodityBody_ok (known := known) _ _ _ hq
    cases h
    refine ⟨h1, fun hb => ⟨?_, by simp⟩⟩
    intro x hx
    cases hx
    exact h3 (show 2 ≤ 50 by decide) (fun l hl => hb l (by simp [hl]))
  split at h
  · obtain ⟨q, hq, h⟩ := bind_ok.mp h
    unfold parseTest at hq
    split at hq
    · cases hq
    · cases hq; cases h; exact ⟨testLoop_suffix _ _, fun _ => ⟨by simp, by simp⟩⟩
  split at h
  · obtain ⟨q, hq, h⟩ := bind_ok.mp h
    unfold parsePrice at hq
    split at hq
    · cases hq
    · obtain ⟨_, _, hq⟩ := bind_ok.mp hq
      obtain ⟨_, _, hq⟩ := bind_ok.mp hq
      obtain ⟨_, _, hq⟩ := bind_ok.mp hq
      cases hq; cases h; exact ⟨List.suffix_rfl, fun _ => ⟨by simp, by simp⟩⟩
  split at h
  · obtain ⟨q, hq, h⟩ := bind_ok.mp h
    unfold parseTransaction at hq
    split at hq
    · cases hq
    · obtain ⟨_, _, hq⟩ := bind_ok.mp hq
      obtain ⟨_, hp, hq⟩ := bind_ok.mp hq
      have := postingLoop_suffix _ _ _ _ hp
      cases hq; cases h; exact ⟨this, fun _ => ⟨by simp, by simp⟩⟩
  · cases h

theorem dangling_suffix {l l' : List Str} (hs : l' <:+ l) (h : DanglingNote l') : DanglingNote l := by
  obtain ⟨p, rfl⟩ := hs
  obtain ⟨pre, hd, ns, post, rfl, h⟩ := h
  exact ⟨p ++ pre, hd, ns, post, by simp, h⟩

theorem next_panic {known : Str → Prop} {env : PEnv} (hk : KnownEnv known env) (lines : List Str) (h : next env lines = .error .panic) :
    (∃ l ∈ lines, BadLine known l) ∨ DanglingNote lines := by
  induction lines with
  | nil => cases h
  | cons line rest ih =>
    have up : ((∃ l ∈ rest, BadLine known l) ∨ DanglingNote rest) → (∃ l ∈ line :: rest, BadLine known l) ∨ DanglingNote (line :: rest) := by
      rintro (⟨l, hl, hb⟩ | h)
      · exact .inl ⟨l, by simp [hl], hb⟩
      · exact .inr (dangling_suffix (List.suffix_cons _ _) h)
    unfold next at h
    split at h
    · exact up (ih h)
    · split at h
      · exact up (ih h)
      · rcases bind_panic h with h | ⟨_, _, h⟩
        · exact parseItem_panic hk h
        · cases h

theorem next_ok {known : Str → Prop} {env : PEnv} (lines : List Str) {i : ItemD} {left : List Str} (h : next env lines = .ok (some i, left)) :
    left <:+ lines ∧ left.length < lines.length ∧ ((∀ l ∈ lines, ¬ BadLine known l) →
      (∀ x, i.1 = .commodity x → x.decimals ≤ 50) ∧ (∀ a, i.1 = .account a → a.fullName ≠ [])) := by
  induction lines with
  | nil => cases h
  | cons line rest ih =>
    unfold next at h
    split at h
    · obtain ⟨h1, h1', h2⟩ := ih h
      exact ⟨h1.trans (List.suffix_cons _ _), by simp; omega, fun hb => h2 (fun l hl => hb l (by simp [hl]))⟩
    · split at h
      · obtain ⟨h1, h1', h2⟩ := ih h
        exact ⟨h1.trans (List.suffix_cons _ _), by simp; omega, fun hb => h2 (fun l hl => hb l (by simp [hl]))⟩
      · obtain ⟨r, hr, h⟩ := bind_ok.mp h
        obtain ⟨h1, h2⟩ := parseItem_ok (known := known) hr
        cases h
        exact ⟨h1.trans (List.suffix_cons _ _), by have := h1.length_le; simp; omega, h2⟩

theorem loadLines_panic {known : Str → Prop} (today : Today) (n : Nat) (st : LoadState) (lines : List Str)
    (hfound : ∀ id, known id → ∃ c, st.lookup id = some c) (hsmall : ∀ c ∈ st.coms, c.decimals ≤ 50)
    (h : loadLines today n st lines = .error .panic) : (∃ l ∈ lines, BadLine known l) ∨ DanglingNote lines := by
  induction n generalizing st lines with
  | zero => cases h
  | succ n ih =>
    by_contra hcon
    obtain ⟨hbad, hdang⟩ := not_or.mp hcon
    have hbad : ∀ l ∈ lines, ¬ BadLine known l := fun l hl hb => hbad ⟨l, hl, hb⟩
    have hk : KnownEnv known ⟨today, st.lookup, st.dflt⟩ := by
      refine ⟨hfound, ?_⟩
      intro id c hc
      exact hsmall c (List.mem_of_find?_eq_some hc)
    unfold loadLines at h
    split at h
    · cases h
    · next f hne he =>
      have : f = .panic := by simpa using h
      subst this
      exact hcon (next_panic hk lines he)
    · cases h
    · next i left he =>
      obtain ⟨h1, _, h2⟩ := next_ok (known := known) lines he
      obtain ⟨hc, ha⟩ := h2 hbad
      rcases bind_panic h with h | ⟨st', hst, h⟩
      · unfold storeItem at h
        split at h
        · cases h
        · next a ha' =>
          rw [if_neg (ha a ha')] at h; cases h
        · cases h
      · have hf' : ∀ id, known id → ∃ c, st'.lookup id = some c := by
          intro id hid
          obtain ⟨c, hc0⟩ := hfound id hid
          unfold storeItem at hst
          split at hst
          · next x hx =>
            cases hst
            simp only [LoadState.lookup, List.find?_cons]
            split
            · exact ⟨_, rfl⟩
            · exact ⟨c, hc0⟩
          · next a ha' =>
            rw [if_neg (ha a ha')] at hst; cases hst; exact ⟨c, hc0⟩
          · cases hst; exact ⟨c, hc0⟩
        have hs' : ∀ c ∈ st'.coms, c.decimals ≤ 50 := by
          unfold storeItem at hst
          split at hst
          · next x hx =>
            cases hst
            intro y hy
            rcases List.mem_cons.mp hy with rfl | hy
            · exact hc x hx
            · exact hsmall y hy
          · next a ha' =>
            rw [if_neg (ha a ha')] at hst; cases hst; exact hsmall
          · cases hst; exact hsmall
        rcases ih st' left hf' hs' h with ⟨l, hl, hb⟩ | hd
        · exact hbad l (h1.subset hl) hb
        · exact hdang (dangling_suffix h1 hd)

/-- C61 (partial): loading a text into any state whose commodities have at most fifty decimals crashes only if the text has a bad line,
or a transaction line followed by notes only. Every other text is loaded or reported as wrong. -/
theorem C61_crash_causes_partial (today : Today) (st : LoadState) (text : Str) (hsmall : ∀ c ∈ st.coms, c.decimals ≤ 50)
    (hbad : ∀ l ∈ scanLines text, ¬ BadLine (fun id => ∃ c ∈ st.coms, c.id = id) l) (hdang : ¬ DanglingNote (scanLines text)) :
    loadText today st text ≠ .error .panic := by
  intro h
  unfold loadText at h
  have hfound : ∀ id, (∃ c ∈ st.coms, c.id = id) → ∃ c, st.lookup id = some c := by
    rintro id ⟨c, hc, rfl⟩
    unfold LoadState.lookup
    cases hf : st.coms.find? (fun x => decide (x.id = c.id)) with
    | some x => exact ⟨x, rfl⟩
    | none =>
      rw [List.find?_eq_none] at hf
      exact absurd (decide_eq_true rfl) (hf c hc)
  rcases loadLines_panic (known := fun id => ∃ c ∈ st.coms, c.id = id) today _ st _ hfound hsmall h with ⟨l, hl, hb⟩ | hd
  · exact hbad l hl hb
  · exact hdang hd

/-! A check for bad lines that can be run, to show that ordinary texts have none. -/

def badAmountB (ids : List Str) (amt com : Str) : Bool :=
  decide (amt ≠ []) && (!decide (com ∈ ids) || (splitOn '.' amt).any (fun part => decide (50 < part.length)))

def badLineB (ids : List Str) (line : Str) : Bool :=
  (startsWith (str "include") line && (includeRe.matches line).isNone) || (startsWith (str "test ") line && (testRe.matches line).isNone) ||
  (startsWith (str "account") line && (accountHeadRe.matches line).isNone) ||
  (startsDigit line && (transactionRe.matches line).any (fun c => decide (c.get (str "date") = []))) ||
  (startsWith (str "P ") line && (priceRe.matches line).any (fun c => decide (c.get (str "date") = []) ||
    badAmountB ids (c.get (str "amount")) (c.get (str "commodity2")))) ||
  (postingRe.matches line).any (fun c => badAmountB ids (c.get (str "amount1")) (c.get (str "commodity1")) ||
    badAmountB ids (c.get (str "amount2")) (c.get (str "commodity2"))) ||
  (commodityBodyRe.matches line).any (fun c => decide (51 < (c.get (str "decimals")).length))

def noteRun : Bool → List Str → Bool
  | seen, [] => seen
  | seen, l :: t =>
    match postingRe.matches l with
    | none => seen
    | some c => if c.get (str "note") ≠ [] then noteRun true t else false

def danglingB : List Str → Bool
  | [] => false
  | h :: t => (startsDigit h && noteRun false t) || danglingB t

theorem badAmountB_of {ids : List Str} {amt com : Str} (h : BadAmount (fun id => id ∈ ids) amt com) : badAmountB ids amt com = true := by
  obtain ⟨hne, h⟩ := h
  unfold badAmountB
  rw [Bool.and_eq_true, Bool.or_eq_true]
  refine ⟨decide_eq_true hne, ?_⟩
  rcases h with h | ⟨part, hp, hl⟩
  · left; simpa using h
  · right; rw [List.any_eq_true]; exact ⟨part, hp, decide_eq_true hl⟩

theorem badLineB_of {ids : List Str} {line : Str} (h : BadLine (fun id => id ∈ ids) line) : badLineB ids line = true := by
  unfold badLineB
  cases h with
  | include_ h1 h2 => simp [h1, h2]
  | test h1 h2 => simp [h1, h2]
  | account h1 h2 => simp [h1, h2]
  | date c h1 h2 h3 => simp [h1, h2, h3]
  | priceDate c h1 h2 h3 => simp [h1, h2, h3]
  | price c h1 h2 h3 => simp [h1, h2, badAmountB_of h3]
  | quantity c h2 h3 => simp [h2, badAmountB_of h3]
  | balance c h2 h3 => simp [h2, badAmountB_of h3]
  | decimals c h2 h3 => simp [h2, h3]

theorem noteRun_of {ns post : List Str} (seen : Bool) (hne : seen = true ∨ ns ≠ []) (hns : ∀ n ∈ ns, IsNoteLine n)
    (hp : ∀ l t, post = l :: t → postingRe.matches l = none) : noteRun seen (ns ++ post) = true := by
  induction ns generalizing seen with
  | nil =>
    have hs : seen = true := by simpa using hne
    cases post with
    | nil => simpa [noteRun] using hs
    | cons l t => simp [noteRun, hp l t rfl, hs]
  | cons n ns ih =>
    obtain ⟨c, hm, hc⟩ := hns n (by simp)
    simp only [List.cons_append, noteRun, hm]
    rw [if_pos hc]
    exact ih true (.inl rfl) (fun n hn => hns n (by simp [hn]))

theorem danglingB_of {lines : List Str} (h : DanglingNote lines) : danglingB lines = true := by
  obtain ⟨pre, hd, ns, post, rfl, h1, h2, h3, h4⟩ := h
  induction pre with
  | nil => simp [danglingB, h1, noteRun_of false (.inr h2) h3 h4]
  | cons p pre ih => simp [danglingB, ih]

/-- The hypotheses of C61 hold for an ordinary text. -/
def exC61 : Str := str "commodity CAD\n  note Canadian\n  format 1.00 CAD\n\naccount Food\n  commodity CAD\n\nP 2020/01/02 USD 1.25 CAD\n\n2020/01/02 (12) lunch ; #trip\n  ; a note\n  Food:Out  12.50 CAD\n  ; another note\n  Cash  -12.50 CAD = 10.00 CAD\n"

example : loadText ⟨2020, 1, 1⟩ ⟨[exCad], [], []⟩ exC61 ≠ .error .panic := by
  refine C61_crash_causes_partial _ _ _ (by decide) ?_ ?_
  · intro l hl hb
    have hall : (scanLines exC61).all (fun l => !badLineB [str "CAD"] l) = true := by decide +kernel
    have hb : BadLine (fun id => id ∈ [str "CAD"]) l := by
      have hiff : (fun id => ∃ c ∈ (⟨[exCad], [], []⟩ : LoadState).coms, c.id = id) = (fun id => id ∈ [str "CAD"]) := by
        funext id
        simp only [List.mem_singleton, exists_eq_left]
        exact propext ⟨fun h => h.symm, fun h => h.symm⟩
      rw [← hiff]; exact hb
    have h1 := List.all_eq_true.mp hall l hl
    rw [badLineB_of hb] at h1
    exact absurd h1 (by decide)
  · intro hd
    have : danglingB (scanLines exC61) = false := by decide +kernel
    rw [danglingB_of hd] at this
    exact absurd this (by decide)

/-! ## C62: An empty note line is not a posting -/

/-- The text of a note line after the semicolon, without the blank that may follow it. -/
def noteText : Str → Str
  | ' ' :: t => t
  | t => t

/-- A note line: blanks, a semicolon, text. -/
def NoteLine (line t : Str) : Prop := ∃ w, w ≠ [] ∧ (∀ x ∈ w, isWs x = true) ∧ line = w ++ ';' :: t ∧ noNl t

theorem ws_props {x : Char} (h : isWs x = true) : isAlpha x = false ∧ x ≠ ';' := by
  unfold isWs at h
  simp only [Bool.or_eq_true, decide_eq_true_eq] at h
  rcases h with (((rfl | rfl) | rfl) | rfl) | rfl <;> decide

/-- Note lines are read as notes. -/
theorem noteLine_caps {line t : Str} (h : NoteLine line t) : postingRe.matches line = some [(str "note", noteText t)] := by
  obtain ⟨w, hne, hw, rfl, hnl⟩ := h
  have hrun : RunsTo postingRe (w ++ ';' :: t) [] [] [(str "note", noteText t)] := by
    refine RunsTo.altR ?_ ?_
    · rw [List.append_assoc]
      refine NoMatch.plusThenCls (q := isAlpha) (NoHead.cons (by decide)) ?_ (NoHead.cons (by decide)) ?_
      · intro x hx; exact (ws_props (hw x hx)).1
      · intro s hs
        exact NoMatch.seqL (NoMatch.grp (NoMatch.seqL (NoMatch.seqL (NoMatch.cls hs))))
    · refine RunsTo.seq (RunsTo.plus hne hw (NoHead.cons (by decide)) []) ?_
      have key : ∀ (b u : Str), ';' :: t = [';'] ++ (b ++ u) → RunsTo (.opt (.ch ' ')) b (u ++ []) [] [] → noNl u → noteText t = u →
          RunsTo (noteRe (str "note")) (';' :: t) [] [] [(str "note", noteText t)] := by
        intro b u e hopt hu hnt
        rw [e, hnt]
        refine RunsTo.seq (RunsTo.ch ';' _ []) (RunsTo.seq hopt (RunsTo.grp (RunsTo.star ?_ ?_ [])))
        · intro y hy; exact decide_eq_true (hu y hy)
        · intro y t e; cases e
      cases t with
      | nil =>
        refine key [] [] rfl ?_ hnl rfl
        exact RunsTo.optNone (NoMatch.ch (by intro x t e; cases e))
      | cons x u =>
        by_cases hx : x = ' '
        · subst hx
          exact key [' '] u rfl (RunsTo.opt (RunsTo.ch ' ' _ [])) (fun y hy => hnl y (by simp [hy])) rfl
        · refine key [] (x :: u) rfl ?_ hnl ?_
          · exact RunsTo.optNone (NoMatch.ch (by intro y v e; cases e; exact hx))
          · unfold noteText
            split
            · next e => cases e; exact absurd rfl hx
            · rfl
  have := RunsTo.matches hrun
  rwa [List.append_nil] at this

/-- What a posting says, without its notes. -/
def PPost.core (p : PPost) : Str × Option Amount × Option Amount := (p.account, p.quantity, p.balance)

/-- C62 as stated: whatever the text of a note line, with or without it the transaction has the same postings. -/
def C62_Statement : Prop := ∀ (env : PEnv) (head : Str) (before after : List Str) (line t : Str) (r r' : PTxn × List Str), NoteLine line t →
  parseTransaction env head (before ++ line :: after) = .ok r → parseTransaction env head (before ++ after) = .ok r' →
  r.1.postings.map PPost.core = r'.1.postings.map PPost.core

theorem attachLast_core (ps : List PPost) (notes : List Str) (h : ps ≠ []) : (attachLast ps notes).map PPost.core = ps.map PPost.core := by
  induction ps with
  | nil => exact absurd rfl h
  | cons p ps ih =>
    cases ps with
    | nil => simp [attachLast, PPost.core]
    | cons q ps =>
      rw [attachLast]
      · rw [List.map_cons, List.map_cons, ih (by simp)]
      · simp

theorem attach_core (tn : List Str) (ps : List PPost) (pending : List Str) : (attach tn ps pending).2.map PPost.core = ps.map PPost.core := by
  unfold attach
  split
  · next h => simp [h]
  · next h => exact attachLast_core _ _ h

theorem finish_core {tn : List Str} {ps : List PPost} {pending : List Str} {r : List Str × List PPost}
    (h : finishPostings tn ps pending = .ok r) : r.2.map PPost.core = ps.map PPost.core := by
  unfold finishPostings at h
  split at h
  · cases h; rfl
  · split at h
    · cases h
    · next h' => cases h; exact attachLast_core _ _ h'

/-- Accounts and amounts do not depend on the notes seen so far. -/
theorem postingLoop_core {env : PEnv} (lines : List Str) {tn tn' : List Str} {ps ps' : List PPost} {pending pending' : List Str}
    {r r' : (List Str × List PPost) × List Str} (hc : ps.map PPost.core = ps'.map PPost.core)
    (h : postingLoop env tn ps pending lines = .ok r) (h' : postingLoop env tn' ps' pending' lines = .ok r') :
    r.1.2.map PPost.core = r'.1.2.map PPost.core ∧ r.2 = r'.2 := by
  induction lines generalizing tn tn' ps ps' pending pending' with
  | nil =>
    unfold postingLoop at h h'
    obtain ⟨x, hx, h⟩ := bind_ok.mp h
    obtain ⟨x', hx', h'⟩ := bind_ok.mp h'
    cases h; cases h'
    exact ⟨(finish_core hx).trans (hc.trans (finish_core hx').symm), rfl⟩
  | cons line rest ih =>
    unfold postingLoop at h h'
    split at h
    · next hm =>
      rw [hm] at h'
      obtain ⟨x, hx, h⟩ := bind_ok.mp h
      obtain ⟨x', hx', h'⟩ := bind_ok.mp h'
      cases h; cases h'
      exact ⟨(finish_core hx).trans (hc.trans (finish_core hx').symm), rfl⟩
    · next c hm =>
      rw [hm] at h'
      simp only [] at h'
      split at h
      · next hn => rw [if_pos hn] at h'; exact ih hc h h'
      · next hn =>
        rw [if_neg hn] at h'
        obtain ⟨q, hq, h⟩ := bind_ok.mp h
        obtain ⟨b, hb, h⟩ := bind_ok.mp h
        obtain ⟨q', hq', h'⟩ := bind_ok.mp h'
        obtain ⟨b', hb', h'⟩ := bind_ok.mp h'
        rw [hq] at hq'; cases hq'
        rw [hb] at hb'; cases hb'
        refine ih ?_ h h'
        rw [List.map_append, List.map_append, attach_core, attach_core, hc]

/-- C62 (partial): a note line with text adds no posting and changes none. -/
theorem C62_note_lines_partial (env : PEnv) (head : Str) (before after : List Str) (line t : Str) (r r' : PTxn × List Str)
    (hl : NoteLine line t) (ht : noteText t ≠ []) (h : parseTransaction env head (before ++ line :: after) = .ok r)
    (h' : parseTransaction env head (before ++ after) = .ok r') : r.1.postings.map PPost.core = r'.1.postings.map PPost.core := by
  have core : ∀ (before : List Str) (tn tn' : List Str) (ps ps' : List PPost) (pending pending' : List Str) (r r' : (List Str × List PPost) × List Str),
      ps.map PPost.core = ps'.map PPost.core → postingLoop env tn ps pending (before ++ line :: after) = .ok r →
      postingLoop env tn' ps' pending' (before ++ after) = .ok r' → r.1.2.map PPost.core = r'.1.2.map PPost.core := by
    intro before
    induction before with
    | nil =>
      intro tn tn' ps ps' pending pending' r r' hc h h'
      rw [List.nil_append] at h h'
      unfold postingLoop at h
      rw [noteLine_caps hl] at h
      simp only [] at h
      rw [if_pos (by simpa [Caps.get] using ht)] at h
      exact (postingLoop_core after hc h h').1
    | cons x before ih =>
      intro tn tn' ps ps' pending pending' r r' hc h h'
      rw [List.cons_append] at h h'
      unfold postingLoop at h h'
      split at h
      · next hm =>
        rw [hm] at h'
        obtain ⟨y, hy, h⟩ := bind_ok.mp h
        obtain ⟨y', hy', h'⟩ := bind_ok.mp h'
        cases h; cases h'
        exact (finish_core hy).trans (hc.trans (finish_core hy').symm)
      · next c hm =>
        rw [hm] at h'
        simp only [] at h'
        split at h
        · next hn => rw [if_pos hn] at h'; exact ih _ _ _ _ _ _ _ _ hc h h'
        · next hn =>
          rw [if_neg hn] at h'
          obtain ⟨q, hq, h⟩ := bind_ok.mp h
          obtain ⟨b, hb, h⟩ := bind_ok.mp h
          obtain ⟨q', hq', h'⟩ := bind_ok.mp h'
          obtain ⟨b', hb', h'⟩ := bind_ok.mp h'
          rw [hq] at hq'; cases hq'
          rw [hb] at hb'; cases hb'
          refine ih _ _ _ _ _ _ _ _ ?_ h h'
          rw [List.map_append, List.map_append, attach_core, attach_core, hc]
  unfold parseTransaction at h h'
  split at h
  · cases h
  · next c hm =>
    rw [hm] at h'
    simp only [] at h'
    obtain ⟨_, _, h⟩ := bind_ok.mp h
    obtain ⟨x, hx, h⟩ := bind_ok.mp h
    obtain ⟨_, _, h'⟩ := bind_ok.mp h'
    obtain ⟨x', hx', h'⟩ := bind_ok.mp h'
    cases h; cases h'
    exact core before _ _ _ _ _ _ _ _ rfl hx hx'

/-- What happens instead: an empty note line directly after the transaction line becomes its first posting, with an empty account name and
no amount. -/
theorem C62_empty_note_is_posting (env : PEnv) (head line t : Str) (after : List Str) (r : PTxn × List Str) (hl : NoteLine line t)
    (ht : noteText t = []) (h : parseTransaction env head (line :: after) = .ok r) :
    (r.1.postings.map PPost.core).head? = some ([], none, none) := by
  have core : ∀ (lines : List Str) (tn : List Str) (p : PPost) (ps : List PPost) (pending : List Str) (r : (List Str × List PPost) × List Str),
      postingLoop env tn (p :: ps) pending lines = .ok r → (r.1.2.map PPost.core).head? = some p.core := by
    intro lines
    have hd : ∀ (p : PPost) (ps l : List PPost), l.map PPost.core = (p :: ps).map PPost.core → ∃ q qs, l = q :: qs ∧ q.core = p.core := by
      intro p ps l h
      cases l with
      | nil => simp at h
      | cons q qs => simp at h; exact ⟨q, qs, rfl, h.1⟩
    induction lines with
    | nil =>
      intro tn p ps pending r h
      unfold postingLoop at h
      obtain ⟨x, hx, h⟩ := bind_ok.mp h
      cases h
      rw [finish_core hx]; rfl
    | cons l rest ih =>
      intro tn p ps pending r h
      unfold postingLoop at h
      split at h
      · obtain ⟨x, hx, h⟩ := bind_ok.mp h
        cases h
        rw [finish_core hx]; rfl
      · split at h
        · exact ih _ _ _ _ _ h
        · obtain ⟨q, hq, h⟩ := bind_ok.mp h
          obtain ⟨b, hb, h⟩ := bind_ok.mp h
          obtain ⟨q, qs, e, hcq⟩ := hd p ps _ (attach_core tn (p :: ps) pending)
          rw [e, List.cons_append] at h
          rw [ih _ _ _ _ _ h, hcq]
  unfold parseTransaction at h
  split at h
  · cases h
  · obtain ⟨_, _, h⟩ := bind_ok.mp h
    obtain ⟨x, hx, h⟩ := bind_ok.mp h
    cases h
    unfold postingLoop at hx
    rw [noteLine_caps hl, ht] at hx
    simp only [] at hx
    rw [if_neg (by simp [Caps.get])] at hx
    obtain ⟨q, hq, hx⟩ := bind_ok.mp hx
    obtain ⟨b, hb, hx⟩ := bind_ok.mp hx
    have e1 : q = none := by
      simp [Caps.get, optAmount, str] at hq; exact hq.symm
    have e2 : b = none := by
      simp [Caps.get, optAmount, str] at hb; exact hb.symm
    subst e1 e2
    have := core after _ _ _ _ _ hx
    rw [this]; simp [PPost.core, Caps.get, str]

/-- False as stated. -/
theorem C62_empty_note_violated : ¬ C62_Statement := by
  intro h
  let env : PEnv := ⟨⟨2020, 1, 1⟩, fun _ => some exCad, []⟩
  have hl : NoteLine (str "  ;") [] := ⟨str "  ", by decide, by decide, by decide, by decide⟩
  have h1 : ((parseTransaction env (str "2020/01/02 lunch") [str "  ;", str "  Food  1.00 CAD"]).toOption.map (fun r => r.1.postings.length)) = some 2 := by
    decide +kernel
  have h2 : ((parseTransaction env (str "2020/01/02 lunch") [str "  Food  1.00 CAD"]).toOption.map (fun r => r.1.postings.length)) = some 1 := by
    decide +kernel
  cases e1 : parseTransaction env (str "2020/01/02 lunch") [str "  ;", str "  Food  1.00 CAD"] with
  | error f => rw [e1] at h1; cases h1
  | ok r =>
    cases e2 : parseTransaction env (str "2020/01/02 lunch") [str "  Food  1.00 CAD"] with
    | error f => rw [e2] at h2; cases h2
    | ok r' =>
      rw [e1] at h1; rw [e2] at h2
      have := congrArg List.length (h env _ [] [str "  Food  1.00 CAD"] _ _ r r' hl e1 e2)
      simp only [Except.toOption, Option.map_some, Option.some.injEq] at h1 h2
      rw [List.length_map, List.length_map, h1, h2] at this
      exact absurd this (by decide)

/-- The hypotheses of the partial theorem hold for a transaction with a note between its postings. -/
example : NoteLine (str "  ; shared") (str " shared") ∧ noteText (str " shared") ≠ [] ∧
    (parseTransaction ⟨⟨2020, 1, 1⟩, fun _ => some exCad, []⟩ (str "2020/01/02 lunch") ([str "  Food  1.00 CAD"] ++ str "  ; shared" :: [str "  Cash  -1.00 CAD"])).toOption.isSome ∧
    (parseTransaction ⟨⟨2020, 1, 1⟩, fun _ => some exCad, []⟩ (str "2020/01/02 lunch") ([str "  Food  1.00 CAD"] ++ [str "  Cash  -1.00 CAD"])).toOption.isSome := by
  refine ⟨⟨str "  ", by decide, by decide, by decide, by decide⟩, by decide, by decide +kernel, by decide +kernel⟩

/-! ## C63: A transaction ends where the next item begins -/

/-- A blank followed by a letter or a semicolon: where a posting or note could begin. -/
def HasPostingStart (line : Str) : Prop := ∃ pre w x post, line = pre ++ w :: x :: post ∧ isWs w = true ∧ (isAlpha x = true ∨ x = ';')

/-- A line is taken for a posting or note exactly if somewhere in it a blank is followed by a letter or a semicolon. -/
theorem C63_taken_iff (line : Str) : postingRe.matches line = none ↔ ¬ HasPostingStart line := by
  unfold Re.matches
  rw [Option.map_eq_none_iff, find_none_iff]
  constructor
  · rintro h ⟨pre, w, x, post, rfl, hw, hx⟩
    have h1 := h pre (w :: x :: post) rfl
    rw [matchAt_none_iff] at h1
    rcases hx with hx | rfl
    · refine h1 [w, x] post [(str "account", [x])] rfl (.altL ?_)
      have m1 : Re.Match (.plus .ws) [w] ([x] ++ post) [] [] := by
        unfold Re.ws; rw [plus_cls_match_iff]; exact ⟨by simp, by simpa using hw, rfl⟩
      have m2 : Re.Match accountRe [x] ([] ++ post) [] [(str "account", [x])] :=
        .grp (.seq (s := [x]) (t := []) (.seq (s := [x]) (t := []) (.cls hx) .starNil) .starNil)
      have m3 : Re.Match (.seq (.opt (.cat [.plus .ws, amountRe (str "1") (str "1"), .opt balanceRe])) (.opt (.seq (.star .ws) (noteRe (str "shortNote")))))
          [] post [(str "account", [x])] [(str "account", [x])] := .seq (s := []) (t := []) (.altR .eps) (.altR .eps)
      exact .seq (s := [w]) (t := [x]) m1 (.seq (s := [x]) (t := []) m2 m3)
    · refine h1 [w, ';'] post [(str "note", [])] rfl (.altR ?_)
      have m1 : Re.Match (.plus .ws) [w] ([';'] ++ post) [] [] := by
        unfold Re.ws; rw [plus_cls_match_iff]; exact ⟨by simp, by simpa using hw, rfl⟩
      have m2 : Re.Match (noteRe (str "note")) [';'] post [] [(str "note", [])] :=
        .seq (s := [';']) (t := []) (.cls (by decide)) (.seq (s := []) (t := []) (.altR .eps) (.grp .starNil))
      exact .seq (s := [w]) (t := [';']) m1 m2
  · intro h pre s e
    rw [matchAt_none_iff]
    intro s1 s2 c' e1 hm
    subst e1
    have start : ∀ (w : Str) (x : Char) (u : Str), w ≠ [] → (∀ y ∈ w, isWs y = true) → s1 = w ++ x :: u → (isAlpha x = true ∨ x = ';') → False := by
      intro w x u hne hw e1 hx
      subst e1
      have hlast := List.dropLast_append_getLast hne
      refine h ⟨pre ++ w.dropLast, w.getLast hne, x, u ++ s2, ?_, hw _ (List.getLast_mem hne), hx⟩
      rw [e]
      conv_lhs => rw [← hlast]
      simp
    unfold postingRe at hm
    rw [alt_match_iff] at hm
    rcases hm with hm | hm
    · have hm : Re.Match (.seq (.plus (.cls isWs)) (.seq accountRe _)) s1 s2 [] c' := hm
      rw [seq_match_iff] at hm
      obtain ⟨w, t, c1, rfl, hw, hm⟩ := hm
      rw [plus_cls_match_iff] at hw
      rw [seq_match_iff] at hm
      obtain ⟨a, u, c2, rfl, ha, _⟩ := hm
      unfold accountRe at ha
      rw [grp_match_iff] at ha
      obtain ⟨_, ha, _⟩ := ha
      rw [seq_match_iff] at ha
      obtain ⟨_, _, _, rfl, ha, _⟩ := ha
      unfold nameRe at ha
      rw [seq_match_iff] at ha
      obtain ⟨_, _, _, rfl, ha, _⟩ := ha
      rw [cls_match_iff] at ha
      obtain ⟨x, rfl, hx, _⟩ := ha
      exact start w x _ hw.1 hw.2.1 (by simp; rfl) (.inl hx)
    · have hm : Re.Match (.seq (.plus (.cls isWs)) (.seq (.ch ';') _)) s1 s2 [] c' := hm
      rw [seq_match_iff] at hm
      obtain ⟨w, t, c1, rfl, hw, hm⟩ := hm
      rw [plus_cls_match_iff] at hw
      rw [seq_match_iff] at hm
      obtain ⟨a, u, c2, rfl, ha, _⟩ := hm
      rw [ch_match_iff] at ha
      obtain ⟨rfl, _⟩ := ha
      exact start w ';' u hw.1 hw.2.1 rfl (.inr rfl)

/-- The first line of an item, or a comment: it does not begin with a blank. -/
def StartsItem (line : Str) : Prop := ∃ x t, line = x :: t ∧ isWs x = false

/-- C63 as stated: parsing a transaction leaves a line that begins an item, and everything after it, to be read next. -/
def C63_Statement : Prop := ∀ (env : PEnv) (head : Str) (body : List Str) (line : Str) (rest : List Str) (r : PTxn × List Str), StartsItem line →
  parseTransaction env head (body ++ line :: rest) = .ok r → line :: rest <:+ r.2

/-- False: without an empty line between them, the next transaction is taken for a posting, in an account named like the first word of its
description. -/
theorem C63_next_transaction_violated : ¬ C63_Statement := by
  intro h
  let env : PEnv := ⟨⟨2020, 1, 1⟩, fun _ => some exCad, []⟩
  have h1 : ((parseTransaction env (str "2020/01/02 lunch") [str "  Food  1.00 CAD", str "2020/01/03 dinner", str "  Food  2.00 CAD"]).toOption.map
      (fun r => (r.1.postings.map (·.account), r.2))) = some ([str "Food", str "dinner", str "Food"], []) := by decide +kernel
  cases e1 : parseTransaction env (str "2020/01/02 lunch") [str "  Food  1.00 CAD", str "2020/01/03 dinner", str "  Food  2.00 CAD"] with
  | error f => rw [e1] at h1; cases h1
  | ok r =>
    rw [e1] at h1
    simp only [Except.toOption, Option.map_some, Option.some.injEq, Prod.mk.injEq] at h1
    have := (h env _ [str "  Food  1.00 CAD"] (str "2020/01/03 dinner") [str "  Food  2.00 CAD"] r ⟨'2', str "020/01/03 dinner", by decide, by decide⟩ e1).length_le
    rw [h1.2] at this
    exact absurd this (by simp)

/-- C63 (partial): a line in which no blank is followed by a letter or a semicolon – for instance an empty one – is never consumed by the transaction
before it, and neither is anything after it. (`C63_taken_iff`: these are all such lines.) -/
theorem C63_other_lines_partial (env : PEnv) (head : Str) (body : List Str) (line : Str) (rest : List Str) (r : PTxn × List Str)
    (hl : ¬ HasPostingStart line) (h : parseTransaction env head (body ++ line :: rest) = .ok r) : line :: rest <:+ r.2 := by
  have core : ∀ (body : List Str) (tn : List Str) (ps : List PPost) (pending : List Str) (r : (List Str × List PPost) × List Str),
      postingLoop env tn ps pending (body ++ line :: rest) = .ok r → line :: rest <:+ r.2 := by
    intro body
    induction body with
    | nil =>
      intro tn ps pending r h
      rw [List.nil_append] at h
      unfold postingLoop at h
      rw [(C63_taken_iff line).mpr hl] at h
      obtain ⟨_, _, h⟩ := bind_ok.mp h
      cases h; exact List.suffix_rfl
    | cons x body ih =>
      intro tn ps pending r h
      rw [List.cons_append] at h
      unfold postingLoop at h
      split at h
      · obtain ⟨_, _, h⟩ := bind_ok.mp h
        cases h
        exact ⟨x :: body, by simp⟩
      · split at h
        · exact ih _ _ _ _ h
        · obtain ⟨_, _, h⟩ := bind_ok.mp h
          obtain ⟨_, _, h⟩ := bind_ok.mp h
          exact ih _ _ _ _ h
  unfold parseTransaction at h
  split at h
  · cases h
  · obtain ⟨_, _, h⟩ := bind_ok.mp h
    obtain ⟨x, hx, h⟩ := bind_ok.mp h
    cases h
    exact core body _ _ _ _ hx

/-- A price line of an importer and an empty line meet the hypothesis. -/
example : ¬ HasPostingStart [] ∧ ¬ HasPostingStart (str "2020/01/03 (12) 7-eleven") := by
  constructor
  · rw [← C63_taken_iff]; decide +kernel
  · rw [← C63_taken_iff]; decide +kernel

end Verif
