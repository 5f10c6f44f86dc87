import Verif.Props.GcFiles
import Verif.Lemmas.Date
/-
C108: dates, descriptions and splits of the transactions of a converted GnuCash book.
-/
namespace Verif

/-! ## C108: transactions -/

/-! ### Dates -/

theorem readDigits_eq : ∀ (s : Str) (n : Nat) (t : Str), s.all isDigit = true → readDigits s.length n (s ++ t) = some (n * 10 ^ s.length + strNat s, t) := by
  intro s
  induction s with
  | nil => intro n t _; simp [readDigits]
  | cons c s ih =>
    intro n t h
    rw [List.all_cons, Bool.and_eq_true] at h
    show readDigits (s.length + 1) n (c :: (s ++ t)) = _
    rw [readDigits, if_pos h.1, ih _ _ h.2, strNat_cons, List.length_cons, Nat.pow_succ]
    congr 2
    ring

theorem readDigits_pad (w n : Nat) (t : Str) (hw : 0 < w) (h : n < 10 ^ w) : readDigits w 0 (padInt n w ++ t) = some (n, t) := by
  obtain ⟨h1, h2, h3⟩ := padInt_spec (x := (n : Int)) (w := w) (by omega) hw (by exact_mod_cast h)
  have := readDigits_eq (padInt n w) 0 t (List.all_eq_true.mpr h1)
  rw [h2] at this
  rw [this]
  have h4 : strNat (padInt n w) = n := by exact_mod_cast h3
  rw [h4]
  simp

/-- How GnuCash writes a date, for example `2020-01-31 10:59:00 -0500`. -/
def stampText (y m d h n s : Nat) (sign : Char) (zh zm : Nat) : Str :=
  padInt y 4 ++ '-' :: (padInt m 2 ++ '-' :: (padInt d 2 ++ ' ' :: (padInt h 2 ++ ':' :: (padInt n 2 ++ ':' :: (padInt s 2 ++ ' ' :: sign :: (padInt zh 2 ++ padInt zm 2))))))

/-- A valid date, time of day and zone. -/
def ValidStamp (y m d h n s : Nat) (sign : Char) (zh zm : Nat) : Prop :=
  y ≤ 9999 ∧ 1 ≤ m ∧ m ≤ 12 ∧ 1 ≤ d ∧ (d : Int) ≤ daysIn (isLeap y) m ∧ h < 24 ∧ n < 60 ∧ s < 60 ∧ (sign = '+' ∨ sign = '-') ∧ zh < 24 ∧ zm < 60

theorem daysIn_le (l : Bool) (m : Int) : daysIn l m ≤ 31 := by
  unfold daysIn
  split <;> split <;> omega

theorem readSign_of {c : Char} (h : c = '+' ∨ c = '-') (t : Str) : readSign (c :: t) = some (if c = '-' then -1 else 1, t) := by
  rcases h with rfl | rfl <;> rfl

theorem exactStamp_text {y m d h n s : Nat} {sign : Char} {zh zm : Nat} (hv : ValidStamp y m d h n s sign zh zm) :
    exactStamp (stampText y m d h n s sign zh zm) =
      some ⟨goDate y m d * 86400 + h * 3600 + n * 60 + s - (if sign = '-' then -1 else 1) * (zh * 3600 + zm * 60), (if sign = '-' then -1 else 1) * (zh * 3600 + zm * 60)⟩ := by
  obtain ⟨v1, v2, v3, v4, v5, v6, v7, v8, v9, v10, v11⟩ := hv
  have hd := daysIn_le (isLeap y) m
  unfold exactStamp stampText
  rw [readDigits_pad 4 y _ (by omega) (by omega)]
  simp only [Option.bind_some, readChar, if_pos]
  rw [readDigits_pad 2 m _ (by omega) (by omega)]
  simp only [Option.bind_some, readChar, if_pos]
  rw [readDigits_pad 2 d _ (by omega) (by omega)]
  simp only [Option.bind_some, readChar, if_pos]
  unfold clockOf
  rw [readDigits_pad 2 h _ (by omega) (by omega)]
  simp only [Option.bind_some, readChar, if_pos]
  rw [readDigits_pad 2 n _ (by omega) (by omega)]
  simp only [Option.bind_some, readChar, if_pos]
  rw [readDigits_pad 2 s _ (by omega) (by omega)]
  simp only [Option.bind_some, readChar, if_pos]
  unfold zoneOf
  rw [readSign_of v9]
  simp only [Option.bind_some]
  rw [readDigits_pad 2 zh _ (by omega) (by omega)]
  simp only [Option.bind_some]
  have e := readDigits_pad 2 zm [] (by omega) (by omega)
  rw [List.append_nil] at e
  rw [e]
  simp only [Option.bind_some, if_pos]
  unfold stampOf
  rw [if_pos ⟨v2, v3, v4, v5, v6, v7, v8, v10, v11⟩]

/-- **C108** A date written by GnuCash is kept: the day that is written to the coin file is the day of the text, whatever the zone, and
the order of times is that of the instants. -/
theorem C108_stamp (env : GcEnv) (y m d h n s : Nat) (sign : Char) (zh zm : Nat) (hv : ValidStamp y m d h n s sign zh zm) :
    ∃ t, mustParseTimeStamp env (stampText y m d h n s sign zh zm) = .ok t ∧
      formatDate t.day = padInt y 4 ++ ['/'] ++ padInt m 2 ++ ['/'] ++ padInt d 2 ∧ goYear t.day = y ∧
      t.sec = (goDate y m d * 24 + h) * 3600 + n * 60 + s - (if sign = '-' then -1 else 1) * (zh * 3600 + zm * 60) := by
  unfold mustParseTimeStamp
  rw [exactStamp_text hv]
  obtain ⟨v1, v2, v3, v4, v5, v6, v7, v8, v9, v10, v11⟩ := hv
  refine ⟨_, rfl, ?_⟩
  have hday : Stamp.day ⟨goDate y m d * 86400 + h * 3600 + n * 60 + s - (if sign = '-' then -1 else 1) * (zh * 3600 + zm * 60), (if sign = '-' then -1 else 1) * (zh * 3600 + zm * 60)⟩ = goDate y m d := by
    unfold Stamp.day
    simp only
    omega
  obtain ⟨g1, g2, g3⟩ := goDate_valid y m d ⟨by omega, by omega⟩ ⟨by omega, v5⟩
  refine ⟨?_, ?_, ?_⟩
  · rw [hday]; unfold formatDate; rw [g1, g2, g3]
  · rw [hday, g1]
  · simp only; ring

example : stampText 2020 2 29 23 59 0 '-' 5 30 = str "2020-02-29 23:59:00 -0530" := by decide +kernel
example : ValidStamp 2020 2 29 23 59 0 '-' 5 30 := by unfold ValidStamp; decide

/-- Nothing is converted if a date can not be read. -/
theorem C108_bad_date (env : GcEnv) (as : List GcAcct) (t : GTransaction) (h : exactStamp t.posted = none) (hl : env.looseStamp t.posted = none) :
    transactionOf env as t = .error .panic := by
  unfold transactionOf mustParseTimeStamp
  rw [h]
  simp only
  rw [hl]
  rfl

example : exactStamp (str "2019-02-29 10:59:00 +0000") = none := by decide +kernel

/-! ### Descriptions -/

theorem splitDash_none : ∀ (s : Str), (splitDash s).2 = none → (splitDash s).1 = s ∧ ∀ p q, s ≠ p ++ str " - " ++ q := by
  intro s
  induction s with
  | nil => intro _; exact ⟨rfl, fun p q h => by have := congrArg List.length h; simp [str] at this⟩
  | cons c s ih =>
    rw [splitDash]
    by_cases hp : hasPrefix (c :: s) (str " - ") = true
    · rw [if_pos hp]; intro h; cases h
    · rw [if_neg hp]
      intro h
      obtain ⟨h1, h2⟩ := ih h
      refine ⟨by simp only; rw [h1], ?_⟩
      intro p q e
      cases p with
      | nil =>
        apply hp
        unfold hasPrefix
        rw [List.isPrefixOf_iff_prefix]
        exact ⟨q, by rw [e]; rfl⟩
      | cons x p =>
        simp only [List.cons_append, List.cons.injEq] at e
        exact h2 p q (by rw [e.2])

theorem splitDash_some : ∀ (s r : Str), (splitDash s).2 = some r → s = (splitDash s).1 ++ str " - " ++ r ∧ ∀ p q, s = p ++ str " - " ++ q → (splitDash s).1.length ≤ p.length := by
  intro s
  induction s with
  | nil => intro r h; cases h
  | cons c s ih =>
    intro r
    rw [splitDash]
    by_cases hp : hasPrefix (c :: s) (str " - ") = true
    · rw [if_pos hp]
      intro h
      refine ⟨?_, fun p q _ => Nat.zero_le _⟩
      unfold hasPrefix at hp
      rw [List.isPrefixOf_iff_prefix] at hp
      obtain ⟨t, ht⟩ := hp
      simp only [Option.some.injEq] at h
      rw [← h, ← ht]
      have : s = ['-', ' '] ++ t := by
        have := congrArg List.tail ht
        exact this.symm
      rw [this]
      rfl
    · rw [if_neg hp]
      intro h
      obtain ⟨h1, h2⟩ := ih r h
      refine ⟨?_, ?_⟩
      · conv_lhs => rw [h1]
        simp
      · intro p q e
        cases p with
        | nil =>
          exfalso
          apply hp
          unfold hasPrefix
          rw [List.isPrefixOf_iff_prefix]
          exact ⟨q, by rw [e]; rfl⟩
        | cons x p =>
          simp only [List.cons_append, List.cons.injEq] at e
          have := h2 p q (by rw [e.2])
          simp only [List.length_cons]
          omega

/-- The description and the notes that a description of GnuCash becomes: what follows the first ` - ` is a note. -/
inductive Described : Str → Str → List Str → Prop
  | whole {d} : (∀ p q, d ≠ p ++ str " - " ++ q) → Described d d []
  | noted {p q} : (∀ p' q', p ++ str " - " ++ q = p' ++ str " - " ++ q' → p.length ≤ p'.length) → Described (p ++ str " - " ++ q) p (if q = [] then [] else [q])

theorem described_spec (d : Str) : Described d (splitDash d).1 (dashNotes (splitDash d).2) := by
  cases h : (splitDash d).2 with
  | none =>
    obtain ⟨h1, h2⟩ := splitDash_none d h
    rw [h1]
    exact .whole h2
  | some r =>
    obtain ⟨h1, h2⟩ := splitDash_some d r h
    generalize (splitDash d).1 = p at h1 h2
    subst h1
    have : dashNotes (some r) = if r = [] then [] else [r] := by
      unfold dashNotes
      by_cases hr : r = [] <;> simp [hr]
    rw [this]
    exact .noted h2

/-- There is one result. -/
theorem Described.unique {d a b : Str} {m n : List Str} (h : Described d a m) (h' : Described d b n) : a = b ∧ m = n := by
  have aux : ∀ {d d' a b : Str} {m n : List Str}, Described d a m → Described d' b n → d = d' → a = b ∧ m = n := by
    intro d d' a b m n h h' hd
    cases h with
    | whole h1 =>
      cases h' with
      | whole h2 => exact ⟨hd, rfl⟩
      | noted h2 => exact absurd hd (h1 _ _)
    | noted h1 =>
      cases h' with
      | whole h2 => exact absurd hd.symm (h2 _ _)
      | noted h2 =>
        have l1 := h1 _ _ hd
        have l2 := h2 _ _ hd.symm
        rw [List.append_assoc, List.append_assoc] at hd
        obtain ⟨e1, e2⟩ := List.append_inj hd (by omega)
        have e3 := List.append_cancel_left e2
        exact ⟨e1, by rw [e3]⟩
  exact aux h h' rfl

/-! ### Transactions -/

/-- The posting of a split: to its account, of its quantity in the commodity of the account, with the memo as note. -/
def PostingOf (env : GcEnv) (as : List GcAcct) (s : GSplit) (p : GcPost) : Prop :=
  p.account = s.account ∧ (∃ a ∈ as, a.guid = s.account ∧ gcAmount env s.quantity a.com = .ok p.quantity ∧ p.quantity.com = a.com) ∧
  p.notes = if s.memo = [] then [] else [s.memo]

theorem newAmountFrac_unit {n d : Int} {c : Com} {a : Amount} (h : newAmountFrac n d c = .ok a) : a.com = c := by
  unfold newAmountFrac at h
  obtain ⟨x, _, h2⟩ := bind_ok.mp h
  split at h2
  · cases h2
  · cases h2; rfl

theorem gcAmount_unit {env : GcEnv} {s : Str} {c : Com} {a : Amount} (h : gcAmount env s c = .ok a) : a.com = c := by
  unfold gcAmount at h
  split at h
  · unfold amountOf at h
    split at h
    · cases h
    · exact newAmountFrac_unit h
  · cases h

theorem splitFrom_spec {env : GcEnv} {as : List GcAcct} {s : GSplit} {p : GcPost} (h : splitFrom env as s = .ok p) : PostingOf env as s p := by
  unfold splitFrom at h
  split at h
  · cases h
  · rename_i a ha
    obtain ⟨q, hq, h2⟩ := bind_ok.mp h
    simp only [Except.ok.injEq] at h2
    rw [← h2]
    obtain ⟨m1, m2⟩ := byGuid_mem ha
    refine ⟨rfl, ⟨a, m1, m2, hq, gcAmount_unit hq⟩, ?_⟩
    by_cases hm : s.memo = [] <;> simp [hm]

/-- **C108** A transaction that is converted has the number as code, the description and the note, and the postings of its splits, all
of them and in their order. -/
theorem C108_transaction (env : GcEnv) (as : List GcAcct) (t : GTransaction) (r : GcTxn) (h : transactionOf env as t = .ok r) :
    r.code = t.num ∧ Described t.description r.description r.notes ∧ mustParseTimeStamp env t.posted = .ok r.posted ∧
    List.Forall₂ (PostingOf env as) t.splits r.postings := by
  unfold transactionOf at h
  obtain ⟨p, hp, h⟩ := bind_ok.mp h
  obtain ⟨ps, hps, h⟩ := bind_ok.mp h
  simp only [Except.ok.injEq] at h
  rw [← h]
  refine ⟨rfl, described_spec _, hp, ?_⟩
  exact ((mapM_ok _ _ _).mp hps).imp (fun _ _ h => splitFrom_spec h)

/-- A split of an unknown account stops the conversion. -/
theorem C108_unknown_account (env : GcEnv) (as : List GcAcct) (t : GTransaction) (s : GSplit) (hs : s ∈ t.splits) (h : ∀ a ∈ as, a.guid ≠ s.account) (r : GcTxn) :
    transactionOf env as t ≠ .ok r := by
  intro hr
  obtain ⟨_, _, _, h4⟩ := C108_transaction env as t r hr
  obtain ⟨p, _, _, ⟨a, ha, hg, _⟩, _⟩ := forall2_mem_left h4 s hs
  exact h a ha hg

/-- Everything that can be read is converted: valid dates and fractions, and known accounts. -/
theorem C108_total (env : GcEnv) (as : List GcAcct) (t : GTransaction) (p : Stamp) (hp : mustParseTimeStamp env t.posted = .ok p)
    (hs : ∀ s ∈ t.splits, ∃ a ∈ as, a.guid = s.account ∧ ∃ n d, 0 < d ∧ s.quantity = fractionText n d) (hn : (as.map (·.guid)).Nodup) (hc : ∀ a ∈ as, a.com.decimals ≤ 50) :
    ∃ r, transactionOf env as t = .ok r := by
  have hall : ∀ s ∈ t.splits, ∃ q, splitFrom env as s = .ok q := by
    intro s hsm
    obtain ⟨a, ha, hg, n, d, hd, hq⟩ := hs s hsm
    unfold splitFrom
    rw [← hg, byGuid_self hn ha]
    simp only
    obtain ⟨v, hv, _⟩ := C106_fraction env n d a.com (hc a ha) hd
    rw [hq, hv]
    exact ⟨_, rfl⟩
  obtain ⟨ps, hps⟩ := mapM_total _ _ hall
  unfold transactionOf
  rw [hp]
  show ∃ r, (t.splits.mapM (splitFrom env as)).bind _ = .ok r
  rw [hps]
  exact ⟨_, rfl⟩

/-- The transactions of the book, as they are written: each of them once, in order of time. -/
def Converted (env : GcEnv) (as : List GcAcct) (ts : List GTransaction) (out : List GcTxn) : Prop :=
  ∃ rs, ts.mapM (transactionOf env as) = .ok rs ∧ InTimeOrder (·.posted) rs out

/-- **C108** None is lost or added, and they are written in order of time. -/
theorem C108_all (env : GcEnv) (as : List GcAcct) (ts : List GTransaction) (out : List GcTxn) (h : Converted env as ts out) :
    out.length = ts.length ∧ (∀ t ∈ ts, ∃ r ∈ out, transactionOf env as t = .ok r) ∧ (∀ r ∈ out, ∃ t ∈ ts, transactionOf env as t = .ok r) ∧
    out.Pairwise (fun a b => a.posted.sec ≤ b.posted.sec) := by
  obtain ⟨rs, h1, h2, h3⟩ := h
  have hf := (mapM_ok _ _ _).mp h1
  refine ⟨by rw [h2.length_eq, hf.length_eq], ?_, ?_, h3⟩
  · intro t ht
    obtain ⟨r, hr, e⟩ := forall2_mem_left hf t ht
    exact ⟨r, h2.mem_iff.mpr hr, e⟩
  · intro r hr
    exact forall2_mem_right hf r (h2.mem_iff.mp hr)

/-- The balance of an account is the sum of its postings: it does not depend on the order of postings of one instant, which sorting
leaves open. -/
theorem C108_balance (conv : Com → Amount → Except Fault Amount) (a : GcAcct) (ps : List GcPost) (hc : ∀ p ∈ ps, p.quantity.com = a.com) :
    gcBalance conv a ps = .ok ⟨(ps.map (·.quantity.int)).sum, a.com⟩ ∧ ∀ ps', ps'.Perm ps → gcBalance conv a ps' = gcBalance conv a ps := by
  have key : ∀ l : List GcPost, (∀ p ∈ l, p.quantity.com = a.com) → gcBalance conv a l = .ok ⟨(l.map (·.quantity.int)).sum, a.com⟩ := by
    intro l hl
    unfold gcBalance
    rw [sumInto_same conv a.com (zeroAmount a.com) _ rfl (by simpa using hl)]
    simp [zeroAmount, Function.comp_def]
  refine ⟨key ps hc, fun ps' hp => ?_⟩
  rw [key ps hc, key ps' (fun p h => hc p (hp.mem_iff.mp h))]
  have : ∀ {l l' : List Int}, l.Perm l' → l.sum = l'.sum := by
    intro l l' h
    induction h with
    | nil => rfl
    | cons x _ ih => simp [ih]
    | swap x y l => simp; omega
    | trans _ _ h1 h2 => rw [h1, h2]
  rw [this (hp.map _)]

def exGcTxn : GTransaction := ⟨str "12", str "2020-02-29 23:59:00 -0530", str "Market - fruit - and more", [⟨str "a", str "cash", str "-1050/100"⟩, ⟨str "b", [], str "21/2"⟩]⟩

/-- A transaction of the example book. -/
example : (transactionOf exGcEnv exGcCreated exGcTxn).toOption = some ⟨⟨737483 * 86400 + 86340 + 19800, -19800⟩, str "12", str "Market", [str "fruit - and more"],
    [⟨str "a", ⟨-1050, ⟨1, str "CAD", 2⟩⟩, [str "cash"]⟩, ⟨str "b", ⟨1050, ⟨1, str "CAD", 2⟩⟩, []⟩]⟩ ∧ formatDate 737483 = str "2020/02/29" := by decide +kernel

example : ∃ out, Converted exGcEnv exGcCreated [exGcTxn, { exGcTxn with posted := str "2019-12-31 00:00:00 +0000" }] out := by
  obtain ⟨rs, h⟩ := ok_of_isOk (show ((([exGcTxn, { exGcTxn with posted := str "2019-12-31 00:00:00 +0000" }] : List GTransaction).mapM (transactionOf exGcEnv exGcCreated))).isOk = true by decide +kernel)
  exact ⟨_, rs, h, stableSort_perm (fun a b : GcTxn => decide (a.posted.sec < b.posted.sec)) rs, by
    have := stableSort_sorted (fun a b : GcTxn => decide (a.posted.sec < b.posted.sec)) (intLt_strictWeak.comap _) rs
    exact this.imp (fun h => by simpa using h)⟩

end Verif
