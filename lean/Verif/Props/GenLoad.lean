import Verif.Props.GenWrite
/-
C168: what gen2coin writes is a ledger that coin opens, and the transactions in it are the ones generated.
-/
namespace Verif

/-! ### The transactions generated -/

/-- A generated transaction: at a time between the two given ones, for one of the rules with its payee, it moves an amount from one of the rule's source accounts to one of its
destinations; the accounts are those whose last part the rule names. -/
structure Generated (b e : Int) (t : ITxn) : Prop where
  time : b ≤ t.posted.sec ∧ t.posted.sec ≤ e ∧ t.posted.off = 0
  bare : t.code = [] ∧ t.notes = []
  rule : ∃ a ∈ personalArgs, t.description ∈ splitOn '|' a.2.1 ∧ ∃ p ∈ splitOn '|' a.2.2.1, ∃ q ∈ splitOn '|' a.2.2.2.1, ∃ amt : Int,
    t.postings.Perm [⟨genFull q, ⟨amt, genCad⟩, none, false⟩, ⟨genFull p, ⟨-amt, genCad⟩, none, false⟩]

theorem moved_generated {b e N : Int} {x : Sample} {t : ITxn} (hx : SampleOk b e x) (h : Moved genCad N x t) : Generated b e t := by
  obtain ⟨⟨r, hr, er, hp⟩, t1, t2⟩ := hx
  obtain ⟨src, hs, dst, hd, amt, _, hperm⟩ := h.moves
  unfold genRules at hr
  rw [List.mem_map] at hr
  obtain ⟨a, ha, rfl⟩ := hr
  rw [er] at hs hd
  obtain ⟨p, hp1, rfl⟩ := List.mem_map.mp hs
  obtain ⟨q, hq1, rfl⟩ := List.mem_map.mp hd
  refine ⟨by rw [h.time]; exact ⟨t1, t2, rfl⟩, ⟨h.code, h.notes⟩, a, ha, ?_, p, hp1, q, hq1, amt, hperm⟩
  rw [h.payee]
  exact hp

theorem find_sample {accts : List Acct} (hn : (accts.map (·.fullName)).Perm genNames) : ∀ p ∈ genPats, mustFindAccount (accts.map (·.fullName)) (patternMatches p) p = .ok (genFull p) := by
  intro p hp
  rw [mustFind_perm hn]
  exact ok_of_opt (pats_found p hp)

theorem sample_generated {find : Str → Except Fault Str} (hf : ∀ p ∈ genPats, find p = .ok (genFull p)) (draws pays : Nat → Nat → Nat) (amounts : Nat → Nat) (b e : Int) :
    ∃ ts s, genTransactions find genCad draws pays amounts b e = .ok (ts, s) ∧ List.Forall₂ (Moved genCad (grow^[(allSamples draws pays b e genRules).length] 0)) (allSamples draws pays b e genRules) ts := by
  obtain ⟨ts, s, h1, h2⟩ := genTxns_ok (draw := amounts) (c := genCad) rfl (allSamples draws pays b e genRules) genTransactions.genZero 0 _ (Int.le_refl _) (by
    intro a _; exact ⟨Int.le_refl _, Int.le_refl _⟩) (by
    intro x hx
    obtain ⟨r, hr, er, _⟩ := (samples_ok draws pays b e x hx).rule
    rw [er]
    exact rules_ok r hr) (Int.le_refl _)
  refine ⟨ts, s, ?_, h2⟩
  unfold genTransactions
  rw [personal_rules hf]
  exact h1

theorem forall2_map_eq {α β γ : Type} {R : α → β → Prop} {f : α → γ} {g : β → γ} (h : ∀ a b, R a b → f a = g b) : ∀ {l : List α} {m : List β}, List.Forall₂ R l m → l.map f = m.map g := by
  intro l m hm
  induction hm with
  | nil => rfl
  | cons a _ ih => rw [List.map_cons, List.map_cons, ih, h _ _ a]

theorem moved_sorted {N : Int} {xs : List Sample} {ts : List ITxn} (h : List.Forall₂ (Moved genCad N) xs ts) (hs : xs.Pairwise (fun x y => x.sec ≤ y.sec)) :
    ts.Pairwise (fun a b => a.posted.sec ≤ b.posted.sec) := by
  have e : xs.map (·.sec) = ts.map (·.posted.sec) := forall2_map_eq (fun x t h => by rw [h.time]) h
  have : (xs.map (·.sec)).Pairwise (· ≤ ·) := by rw [List.pairwise_map]; exact hs
  rw [e, List.pairwise_map] at this
  exact this

/-! ### Batches -/

theorem batchLoop_keys {α : Type} (label : α → Str) (P : Str → Prop) : ∀ (ts : List α) (m : List (Str × List α)) (prev : Str) (batch : List α), (∀ e ∈ m, P e.1) → P prev → (∀ t ∈ ts, P (label t)) →
    ∀ e ∈ batchLoop label m prev batch ts, P e.1 := by
  have put : ∀ (m : List (Str × List α)) (k : Str) (v : List α), (∀ e ∈ m, P e.1) → P k → ∀ e ∈ mapPut m k v, P e.1 := by
    intro m k v h1 h2 e he
    unfold mapPut at he
    rcases List.mem_cons.mp he with rfl | he
    · exact h2
    · exact h1 e (List.mem_filter.mp he).1
  intro ts
  induction ts with
  | nil => intro m prev batch h1 h2 _; exact put m prev batch h1 h2
  | cons t ts ih =>
    intro m prev batch h1 h2 h3
    rw [batchLoop]
    split
    · exact ih _ _ _ h1 h2 (fun t ht => h3 t (by simp [ht]))
    · exact ih _ _ _ (put m prev batch h1 h2) (h3 t (by simp)) (fun t ht => h3 t (by simp [ht]))

theorem batch_keys {α : Type} (label : α → Str) (ts : List α) : ∀ e ∈ batchesByLabel label ts, ∃ t ∈ ts, label t = e.1 := by
  cases ts with
  | nil => intro e he; cases he
  | cons t ts =>
    exact batchLoop_keys label (fun k => ∃ t' ∈ t :: ts, label t' = k) (t :: ts) [] _ _ (by simp) ⟨t, by simp, rfl⟩ (fun t' ht' => ⟨t', ht', rfl⟩)

/-! ### Names of files -/

/-- A label is "transactions" for a single file; otherwise it begins with a digit. -/
theorem label_head (l : Labeler) {t : Int} (ht : 0 ≤ goYear (t / 86400) ∧ goYear (t / 86400) ≤ 9999) :
    (l = .one ∧ l.label t = str "transactions") ∨ (l ≠ .one ∧ ∃ c s, l.label t = c :: s ∧ isDigit c = true) := by
  obtain ⟨a1, a2, _⟩ := padInt_spec (x := goYear (t / 86400)) (w := 4) ht.1 (by decide) (by omega)
  have head : ∃ c s, padInt (goYear (t / 86400)) 4 = c :: s ∧ isDigit c = true := by
    cases e : padInt (goYear (t / 86400)) 4 with
    | nil => rw [e] at a2; cases a2
    | cons c s => exact ⟨c, s, rfl, a1 c (by rw [e]; simp)⟩
  obtain ⟨c, s, e, hc⟩ := head
  cases l with
  | one => exact .inl ⟨rfl, rfl⟩
  | byYear => exact .inr ⟨by simp, c, s, e, hc⟩
  | byMonth =>
    refine .inr ⟨by simp, c, s ++ '-' :: padInt (goMonth (t / 86400)) 2, ?_, hc⟩
    show padInt (goYear (t / 86400)) 4 ++ '-' :: padInt (goMonth (t / 86400)) 2 = _
    rw [e]
    rfl

theorem label_plain (l : Labeler) {t : Int} (ht : 0 ≤ goYear (t / 86400) ∧ goYear (t / 86400) ≤ 9999) :
    l.label t ++ str ".coin" ≠ str "commodities.coin" ∧ l.label t ++ str ".coin" ≠ str "accounts.coin" ∧ (l ≠ .one → l.label t ++ str ".coin" ≠ str "transactions.coin") := by
  rcases label_head l ht with ⟨h1, h⟩ | ⟨h1, c, s, h, hc⟩
  · rw [h]
    exact ⟨by decide, by decide, fun h => absurd h1 h⟩
  · rw [h]
    refine ⟨?_, ?_, fun _ => ?_⟩ <;>
    · intro e
      have := (List.cons.inj e).1
      rw [this] at hc
      exact absurd hc (by decide)

theorem coin_not_prices (s t : Str) : s ++ str ".coin" ≠ t ++ str ".prices" := by
  intro e
  have := suffix_letter (a := str ".coin") (b := str ".prices") (x := 'n') (y := 's') rfl rfl e
  exact absurd this (by decide)

theorem strip_list {ext : Str} : ∀ (l : List Str), (∀ x ∈ l, ∃ s, x = s ++ ext) → ∃ ks : List Str, l = ks.map (fun k => k ++ ext) := by
  intro l
  induction l with
  | nil => intro _; exact ⟨[], rfl⟩
  | cons x l ih =>
    intro h
    obtain ⟨s, rfl⟩ := h x (by simp)
    obtain ⟨ks, rfl⟩ := ih (fun x hx => h x (by simp [hx]))
    exact ⟨s :: ks, rfl⟩

/-! ### Loading the directory -/

theorem account_short {a : PAcct} (h1 : a.fullName.length ≤ 100) (h2 : a.commodityId.length ≤ 100) (h3 : a.description = []) (h4 : a.closed = none) (h5 : a.ofxBankId = [])
    (h6 : a.ofxAcctId = []) (h7 : a.csvAcctId = []) : ∀ l ∈ writeAccount a ++ [[]], l.length ≤ 5000 := by
  obtain ⟨n, d, c, cl, o1, o2, o3⟩ := a
  simp only at h1 h2 h3 h4 h5 h6 h7
  subst h3 h4 h5 h6 h7
  intro l hl
  unfold writeAccount at hl
  simp at hl
  rcases hl with rfl | rfl | rfl <;> simp [str] <;> omega

theorem gen_loads (today : Today) (limit : Nat) (l : Labeler) {dec : Str → Nat} (hdec : ∀ a, dec a ≤ 50) {dir : Dir} (hdir : ∀ s, dir (s ++ str ".coin") = none ∧ dir (s ++ str ".prices") = none)
    {accounts : List PAcct} (ha : ∀ a ∈ accounts, CanonAcct a) (hsa : ∀ a ∈ accounts, ∀ x ∈ writeAccount a ++ [[]], x.length ≤ 5000)
    (order : List (Str × List ITxn) → List (Str × List ITxn)) (ho : ∀ bs, (order bs).Perm bs) {N : Int} (hN : N < 2 ^ 63) {ts : List ITxn} (hs : ts.Pairwise (fun a b => a.posted.sec ≤ b.posted.sec))
    (ht : ∀ t ∈ ts, SampleTxn N t.written ∧ t.posted.off = 0) :
    ∃ o, genWrite l dec [genCom] accounts order ts dir = .ok o ∧ ∀ glob, Globs o glob →
      loadAllS (diskOf o glob) today (limit + 1) gcNames ⟨[], str "CAD", []⟩ =
        .ok ⟨[genCad], str "CAD", .commodity genCom :: accounts.map .account ++ ts.map (fun t => Item.transaction t.written)⟩ := by
  have hday : ∀ t ∈ ts, t.written.posted = t.posted.sec / 86400 := by
    intro t htm
    show t.posted.day = _
    have := (ht t htm).2
    rw [Stamp.day, this, Int.add_zero]
  have hyear : ∀ t ∈ ts, 0 ≤ goYear (t.posted.sec / 86400) ∧ goYear (t.posted.sec / 86400) ≤ 9999 := by
    intro t htm
    have := (ht t htm).1.year
    rw [hday t htm] at this
    omega
  have hread : ∀ t ∈ ts, ReadsAs today [genCad] (str "CAD") (.transaction t.written) (txnLines dec t) ∧ ∃ w, writeTxn dec t.written = .ok w := by
    intro t htm
    obtain ⟨ls, e, h⟩ := reads_txn (today := today) (coms := [genCad]) (dflt := str "CAD") (dec := dec) (sample_canon (coms := LoadState.lookup ⟨[genCad], str "CAD", []⟩) rfl hN (ht t htm).1)
    unfold txnLines
    rw [e]
    exact ⟨h, ls, rfl⟩
  have hshort : ∀ t ∈ ts, ∀ x ∈ txnLines dec t, x.length ≤ 5000 := by
    intro t htm x hx
    obtain ⟨_, w, e⟩ := hread t htm
    unfold txnLines at hx
    rw [e] at hx
    simp only [List.mem_append, List.mem_singleton] at hx
    rcases hx with hx | rfl
    · exact sample_short hdec hN (ht t htm).1 e x hx
    · simp
  obtain ⟨s1, s2, s3⟩ := C86_split l (fun t : ITxn => t.posted.sec) ts hs
  have s4 := batch_keys (fun t : ITxn => l.label t.posted.sec) ts
  generalize hbs : batchesByLabel (fun t : ITxn => l.label t.posted.sec) ts = bs at s1 s2 s3 s4
  have hp := ho bs
  have d0 : ∀ x, x ≠ str "commodities.coin" → x ≠ str "accounts.coin" → ((dir.put (str "commodities.coin") (some (textOf ([genCom].flatMap fun c => writeCommodity c ++ [[]])))).put
      (str "accounts.coin") (some (textOf (accounts.flatMap fun a => writeAccount a ++ [[]])))) x = dir x := by
    intro x h1 h2
    unfold Dir.put
    rw [if_neg h2, if_neg h1]
  obtain ⟨o, w1, w2, w3⟩ := batches_written (dec := dec) (order bs) ((dir.put (str "commodities.coin") (some (textOf ([genCom].flatMap fun c => writeCommodity c ++ [[]])))).put
      (str "accounts.coin") (some (textOf (accounts.flatMap fun a => writeAccount a ++ [[]])))) ((hp.map _).nodup_iff.mpr s1) (by
    intro b hb t htb
    rw [s2 b (hp.mem_iff.mp hb)] at htb
    exact (hread t (List.mem_filter.mp htb).1).2)
  refine ⟨o, by unfold genWrite; rw [hbs]; exact w1, ?_⟩
  intro glob hg
  -- the files
  have keyLabel : ∀ b ∈ bs, ∃ t ∈ ts, l.label t.posted.sec = b.1 := s4
  have oth : ∀ x, x ≠ str "commodities.coin" → x ≠ str "accounts.coin" → (∀ b ∈ bs, x ≠ b.1 ++ str ".coin") → o x = dir x := by
    intro x h1 h2 h3
    rw [w3 x (fun b hb => h3 b (hp.mem_iff.mp hb)), d0 x h1 h2]
  have oc : o (str "commodities.coin") = some (textOf ([genCom].flatMap fun c => writeCommodity c ++ [[]])) := by
    rw [w3 _ (by
      intro b hb e
      obtain ⟨t, htm, el⟩ := keyLabel b (hp.mem_iff.mp hb)
      rw [← el] at e
      exact (label_plain l (hyear t htm)).1 e.symm)]
    rfl
  have oa : o (str "accounts.coin") = some (textOf (accounts.flatMap fun a => writeAccount a ++ [[]])) := by
    rw [w3 _ (by
      intro b hb e
      obtain ⟨t, htm, el⟩ := keyLabel b (hp.mem_iff.mp hb)
      rw [← el] at e
      exact (label_plain l (hyear t htm)).2.1 e.symm)]
    rfl
  have ob : ∀ b ∈ bs, o (b.1 ++ str ".coin") = some (textOf ((ts.filter (fun t => decide (l.label t.posted.sec = b.1))).flatMap (txnLines dec))) := by
    intro b hb
    rw [w2 b (hp.mem_iff.mpr hb), s2 b hb]
  have oprices : ∀ s, o (s ++ str ".prices") = none := by
    intro s
    rw [oth _ (fun e => coin_not_prices (str "commodities") s e.symm) (fun e => coin_not_prices (str "accounts") s e.symm) (fun b _ e => coin_not_prices _ _ e.symm)]
    exact (hdir s).2
  have opc : o (str "prices.coin") = none := by
    rw [oth _ (by decide) (by decide) (by
      intro b hb e
      obtain ⟨t, htm, el⟩ := keyLabel b hb
      rw [← el] at e
      rcases label_head l (hyear t htm) with ⟨_, h⟩ | ⟨_, c, s, h, hc⟩
      · rw [h] at e; exact absurd e (by decide)
      · rw [h] at e
        rw [← (List.cons.inj e).1] at hc
        exact absurd hc (by decide))]
    exact (hdir (str "prices")).1
  -- commodities
  have hcom : CanonCom genCom ∧ genCom.symbol = [] := ⟨⟨⟨'C', str "AD", rfl, by decide, by decide⟩, by unfold noNl; simp [genCom], by simp [genCom], by simp [genCom]⟩, rfl⟩
  have h1 : loadFileS (diskOf o glob) today (limit + 1) ⟨[], str "CAD", []⟩ gcNames.commodities = .ok ⟨[genCad], str "CAD", [.commodity genCom]⟩ :=
    loads_fileS (lines := [genCom].flatMap fun c => writeCommodity c ++ [[]]) oc (commodities_clean (by intro c hc; rw [List.mem_singleton.mp hc]; exact hcom)) (by decide +kernel)
      (reads_commodities (today := today) (by intro c hc; rw [List.mem_singleton.mp hc]; exact hcom) ⟨[], str "CAD", []⟩)
  -- prices
  have h2 : pricesFiles (diskOf o glob) gcNames = [] := by
    unfold pricesFiles
    have e1 : (diskOf o glob).stat gcNames.prices = false := by
      show (o (str "prices.coin")).isSome = false
      rw [opc]; rfl
    rw [e1]
    obtain ⟨lp, hlp, _, hm⟩ := hg (str ".prices")
    have e2 : globOr (diskOf o glob) gcNames.pricesGlob = lp := by
      unfold globOr
      show (match glob (str "*.prices") with | none => [] | some l => l) = lp
      rw [show str "*.prices" = '*' :: str ".prices" from rfl, hlp]
    rw [e2]
    cases lp with
    | nil => rfl
    | cons x lp =>
      obtain ⟨⟨s, e⟩, hx⟩ := (hm x).mp (by simp)
      rw [e, oprices s] at hx
      cases hx
  -- accounts
  have h3 : loadFileS (diskOf o glob) today (limit + 1) ⟨[genCad], str "CAD", [.commodity genCom]⟩ gcNames.accounts = .ok ⟨[genCad], str "CAD", [.commodity genCom] ++ accounts.map .account⟩ := by
    have hf : List.Forall₂ (ReadsAs today [genCad] (str "CAD")) (accounts.map Item.account) (accounts.map (fun a => writeAccount a ++ [[]])) := by
      rw [List.forall₂_map_left_iff, List.forall₂_map_right_iff, List.forall₂_same]
      exact fun e he => reads_account (ha e he)
    rw [List.flatMap_def] at oa
    refine loads_fileS oa (reads_clean hf) ?_ (reads_list hf _)
    intro x hx
    rw [← List.flatMap_def, List.mem_flatMap] at hx
    obtain ⟨a, ham, hx⟩ := hx
    exact hsa a ham x hx
  -- transactions
  have h4 : ∃ ks : List Str, transactionFiles (diskOf o glob) gcNames = ks.map (fun k => k ++ str ".coin") ∧ (∀ k, k ∈ ks ↔ k ∈ bs.map (·.1)) ∧
      ks.Pairwise (fun a b => strLt (a ++ str ".coin") (b ++ str ".coin") = true) := by
    by_cases hone : l = .one ∧ ts ≠ []
    · obtain ⟨rfl, hne⟩ := hone
      obtain ⟨t, ts', rfl⟩ := List.exists_cons_of_ne_nil hne
      have hin := s3 t (by simp)
      have hin : str "transactions" ∈ bs.map (·.1) := hin
      refine ⟨[str "transactions"], ?_, ?_, by simp⟩
      · unfold transactionFiles
        have : (diskOf o glob).stat gcNames.transactions = true := by
          show (o (str "transactions.coin")).isSome = true
          obtain ⟨b, hb, e⟩ := List.mem_map.mp hin
          have := ob b hb
          rw [e] at this
          rw [show str "transactions.coin" = str "transactions" ++ str ".coin" from rfl, this]
          rfl
        rw [if_pos this]
        rfl
      · intro k
        constructor
        · intro hk
          rw [List.mem_singleton.mp hk]
          exact hin
        · intro hk
          obtain ⟨b, hb, e⟩ := List.mem_map.mp hk
          obtain ⟨_, _, e2⟩ := keyLabel b hb
          rw [List.mem_singleton, ← e, ← e2]
          rfl
    · have hno : ∀ b ∈ bs, b.1 ++ str ".coin" ≠ str "transactions.coin" := by
        intro b hb
        obtain ⟨t, htm, el⟩ := keyLabel b hb
        rw [← el]
        exact (label_plain l (hyear t htm)).2.2 (fun h => hone ⟨h, List.ne_nil_of_mem htm⟩)
      obtain ⟨lc, hlc, hsorted, hm⟩ := hg (str ".coin")
      have e2 : transactionFiles (diskOf o glob) gcNames = lc.filter (fun f => decide (f ≠ str "commodities.coin" ∧ f ≠ str "accounts.coin")) := by
        unfold transactionFiles
        have : (diskOf o glob).stat gcNames.transactions = false := by
          show (o (str "transactions.coin")).isSome = false
          rw [oth _ (by decide) (by decide) (fun b hb e => hno b hb e.symm), show dir (str "transactions.coin") = none from (hdir (str "transactions")).1]
          rfl
        rw [if_neg (by rw [this]; decide)]
        have : globOr (diskOf o glob) gcNames.coinGlob = lc := by
          unfold globOr
          show (match glob (str "*.coin") with | none => [] | some l => l) = lc
          rw [show str "*.coin" = '*' :: str ".coin" from rfl, hlc]
        rw [this]
        rfl
      have hmem : ∀ x, x ∈ lc.filter (fun f => decide (f ≠ str "commodities.coin" ∧ f ≠ str "accounts.coin")) ↔ ∃ b ∈ bs, x = b.1 ++ str ".coin" := by
        intro x
        rw [List.mem_filter, hm, decide_eq_true_iff]
        constructor
        · rintro ⟨⟨⟨s, e⟩, hx⟩, n1, n2⟩
          by_cases hx' : ∃ b ∈ bs, x = b.1 ++ str ".coin"
          · exact hx'
          · rw [oth x n1 n2 (fun b hb e => hx' ⟨b, hb, e⟩), e, (hdir s).1] at hx
            cases hx
        · rintro ⟨b, hb, rfl⟩
          obtain ⟨t, htm, el⟩ := keyLabel b hb
          have hl := label_plain l (hyear t htm)
          rw [el] at hl
          exact ⟨⟨⟨b.1, rfl⟩, by rw [ob b hb]; rfl⟩, hl.1, hl.2.1⟩
      obtain ⟨ks, hks⟩ := strip_list (lc.filter (fun f => decide (f ≠ str "commodities.coin" ∧ f ≠ str "accounts.coin"))) (by
        intro x hx
        obtain ⟨b, _, e⟩ := (hmem x).mp hx
        exact ⟨b.1, e⟩)
      refine ⟨ks, e2.trans hks, ?_, ?_⟩
      · intro k
        have := hmem (k ++ str ".coin")
        rw [hks, List.mem_map] at this
        constructor
        · intro hk
          obtain ⟨b, hb, e⟩ := this.mp ⟨k, hk, rfl⟩
          rw [List.append_cancel_right e]
          exact List.mem_map_of_mem hb
        · intro hk
          obtain ⟨b, hb, rfl⟩ := List.mem_map.mp hk
          obtain ⟨k', hk', e⟩ := this.mpr ⟨b, hb, rfl⟩
          rw [← List.append_cancel_right e]
          exact hk'
      · have := hsorted.filter (fun f => decide (f ≠ str "commodities.coin" ∧ f ≠ str "accounts.coin"))
        rw [hks, List.pairwise_map] at this
        exact this
  obtain ⟨ks, e4, m4, p4⟩ := h4
  have h5 := load_labels (d := diskOf o glob) (limit := limit) (lab := fun t : ITxn => l.label t.posted.sec) (fun t htm => (hread t htm).1) hshort ks (by
    intro k hk
    obtain ⟨b, hb, rfl⟩ := List.mem_map.mp ((m4 k).mp hk)
    exact ob b hb) ([.commodity genCom] ++ accounts.map .account)
  rw [by_labels (fun t : ITxn => l.label t.posted.sec) (fun t : ITxn => l.group t.posted.sec) (fun a b => label_iff l _ _) ks ts (hs.imp (fun h => group_mono l h)) (by
      refine p4.imp ?_
      intro k k' h a ha' b hb' ea eb
      rw [← ea, ← eb] at h
      exact label_order l (hyear a ha') (hyear b hb') h) (by
      intro k hk
      obtain ⟨b, hb, rfl⟩ := List.mem_map.mp ((m4 k).mp hk)
      exact keyLabel b hb) (by
      intro a ha'
      exact (m4 _).mpr (s3 a ha'))] at h5
  unfold loadAllS
  refine bind_ok.mpr ⟨_, h1, bind_ok.mpr ⟨⟨[genCad], str "CAD", [.commodity genCom]⟩, by rw [h2]; rfl, bind_ok.mpr ⟨_, h3, ?_⟩⟩⟩
  rw [e4, h5]
  rfl

/-! ### Opening the ledger -/

/-- The ledger loaded from the files resolves. -/
theorem gen_resolves {st : LoadState} {accts : List Acct} (hn : (accts.map (·.fullName)).Perm genNames) (hc : ∀ a ∈ accts, st.comFor a = some genCad) {N : Int}
    (ht : ∀ t ∈ st.txns, SampleTxn N t) (conv : Com → Amount → Except Fault Amount) :
    ∃ r, resolveTransactions (Env.ofAccounts accts (st.comOf accts) patternMatches conv) (heapOf st.txns) (txnsFrom 0 st.txns) (accts.map (·.fullName)) = .ok r := by
  have hnd : (accts.map (·.fullName)).Nodup := hn.nodup_iff.mpr genNames_nodup
  have hcom : ∀ n ∈ accts.map (·.fullName), st.comOf accts n = genCad := by
    intro n hm
    obtain ⟨a, ha, rfl⟩ := List.mem_map.mp hm
    unfold LoadState.comOf
    rw [getAcct_of_mem accts hnd a ha, Option.bind_some, hc a ha, Option.getD_some]
  have post : ∀ t' ∈ txnsFrom 0 st.txns, ∃ t ∈ st.txns, SampleTxn N t ∧ List.Forall₂ (fun r p => heapOf st.txns r = dataOf t.posted p) t'.postings t.postings := by
    intro t' ht'
    obtain ⟨t, htm, _, _, _, h⟩ := forall2_mem_left (heapOf_laid st.txns) t' ht'
    exact ⟨t, htm, ht t htm, h⟩
  have each : ∀ t' ∈ txnsFrom 0 st.txns, ∀ p ∈ t'.postings, (heapOf st.txns p).accountName ∈ genNames ∧ (∃ i : Int, (heapOf st.txns p).quantity = some ⟨i, genCad⟩) ∧ (heapOf st.txns p).balance = none := by
    intro t' ht' p hp
    obtain ⟨t, htm, hs, hf⟩ := post t' ht'
    obtain ⟨q, hq, e⟩ := forall2_mem_left hf p hp
    obtain ⟨src, h1, dst, h2, amt, _, hperm⟩ := hs.moves
    rw [hperm.mem_iff] at hq
    simp only [List.mem_cons, List.not_mem_nil, or_false] at hq
    rw [e]
    rcases hq with rfl | rfl
    · exact ⟨h2, ⟨amt, rfl⟩, rfl⟩
    · exact ⟨h1, ⟨-amt, rfl⟩, rfl⟩
  rw [C27_load_succeeds_iff _ _ _ _ (heapOf_parsed st.txns) hnd (by
    intro t' ht' p hp a ha
    obtain ⟨_, ⟨i, e1⟩, e2⟩ := each t' ht' p hp
    have hm : a ∈ accts.map (·.fullName) := mustFind_mem hnd ha
    constructor
    · intro q hq
      rw [e1] at hq
      cases hq
      exact (hcom a hm).symm
    · intro b hb
      rw [e2] at hb
      cases hb)]
  intro t' ht'
  have hq : ∀ p ∈ t'.postings, (heapOf st.txns p).quantity ≠ none := by
    intro p hp e
    obtain ⟨_, ⟨i, e1⟩, _⟩ := each t' ht' p hp
    rw [e1] at e
    cases e
  refine ⟨?_, fun _ => hq, fun _ => ⟨?_, fun _ => ?_⟩⟩
  · intro p hp
    obtain ⟨h1, _⟩ := each t' ht' p hp
    refine ⟨(heapOf st.txns p).accountName, ?_⟩
    show mustFindAccount (accts.map (·.fullName)) _ _ = _
    unfold mustFindAccount
    rw [if_pos (hn.mem_iff.mpr h1)]
  · rw [List.filter_eq_nil_iff.mpr (by intro p hp; simpa using hq p hp)]
    decide
  · obtain ⟨t, htm, hs, hf⟩ := post t' ht'
    obtain ⟨src, h1, dst, h2, amt, _, hperm⟩ := hs.moves
    have : ∀ {rs : List PRef} {ps : List PPost}, List.Forall₂ (fun r p => heapOf st.txns r = dataOf t.posted p) rs ps → quantitiesOf (heapOf st.txns) rs = ps.filterMap (·.quantity) := by
      intro rs ps h
      induction h with
      | nil => rfl
      | cons h _ ih =>
        unfold quantitiesOf at ih ⊢
        rw [List.filterMap_cons, List.filterMap_cons, ih, h]
        rfl
    rw [this hf]
    unfold total
    rw [perm_sum_int ((hperm.filterMap _).map _)]
    simp

/-- **C168.** Whatever the random numbers, the time between `b` and `e` (dates of years 100 to 9999) and the way of splitting the transactions into files, gen2coin generates transactions by its rules, in
order of time; and it writes a directory that coin opens (unless there are more than 15000 transactions), with one commodity and exactly these transactions in this order. -/
theorem C168_opens (today : Today) (limit : Nat) (compile : Compile) (l : Labeler) (b e : Int) (hb : 100 ≤ goYear (b / 86400)) (he : goYear (e / 86400) ≤ 9999)
    (dir : Dir) (hdir : ∀ s, dir (s ++ str ".coin") = none ∧ dir (s ++ str ".prices") = none)
    (setup : LoadState) (hsetup : loadText today ⟨[], str "CAD", []⟩ sampleSetup = .ok setup)
    (accts : List Acct) (L : Links) (hA : ResolvedAccounts setup.dflt setup.decls accts L) (listed : List Acct) (hl : listed.Perm accts)
    (draws pays : Nat → Nat → Nat) (amounts : Nat → Nat) (order : List (Str × List ITxn) → List (Str × List ITxn)) (ho : ∀ bs, (order bs).Perm bs) :
    ∃ ts s, genTransactions (fun p => mustFindAccount (accts.map (·.fullName)) (patternMatches p) p) genCad draws pays amounts b e = .ok (ts, s) ∧
      (∀ t ∈ ts, Generated b e t) ∧ ts.Pairwise (fun t u => t.posted.sec ≤ u.posted.sec) ∧
      (ts.length ≤ 15000 → ∃ o, genWrite l (fun _ => 2) [genCom] (listed.map (acctWritten genCad)) order ts dir = .ok o ∧ ∀ glob, Globs o glob →
        ∃ st accts' g, Opened ⟨diskOf o glob, today, limit + 1, gcNames⟩ compile st accts' g ∧ OneCom st accts' genCad ∧ st.txns = ts.map ITxn.written) := by
  rw [setup_loads] at hsetup
  cases hsetup
  have hA : ResolvedAccounts (str "CAD") setupState.decls accts L := hA
  have hnames : (accts.map (·.fullName)).Perm genNames := sample_names hA (by decide +kernel) (fun d hd => List.mem_map_of_mem hd)
  have hfresh : Fresh (str "CAD") accts := fresh_resolved hA (by unfold Fresh; decide +kernel)
  obtain ⟨ts, s, h1, h2⟩ := sample_generated (find_sample hnames) draws pays amounts b e
  have hsort := moved_sorted h2 (samples_sorted draws pays b e genRules)
  refine ⟨ts, s, h1, ?_, hsort, ?_⟩
  · intro t ht
    obtain ⟨x, hx, hm⟩ := forall2_mem_right h2 t ht
    exact moved_generated (samples_ok draws pays b e x hx) hm
  intro hlen
  rw [← h2.length_eq] at hlen
  have hN := grow_fits _ hlen
  generalize (grow^[(allSamples draws pays b e genRules).length] 0) = N at h2 hN
  have hsamp : ∀ t ∈ ts, SampleTxn N t.written ∧ t.posted.off = 0 := by
    intro t ht
    obtain ⟨x, hx, hm⟩ := forall2_mem_right h2 t ht
    exact ⟨moved_written hb he (samples_ok draws pays b e x hx) hm, by rw [hm.time]⟩
  have hacct : ∀ a ∈ listed.map (acctWritten genCad), ∃ n ∈ genNames, a = ⟨n, [], str "CAD", none, [], [], []⟩ := by
    intro a ha
    obtain ⟨x, hx, rfl⟩ := List.mem_map.mp ha
    have hx := hl.mem_iff.mp hx
    refine ⟨x.fullName, hnames.mem_iff.mp (List.mem_map_of_mem hx), ?_⟩
    have := hfresh x hx
    unfold acctWritten
    rw [show x.description = [] by rw [this]; rfl, show x.closed = none by rw [this]; rfl]
    rfl
  obtain ⟨o, w, hload⟩ := gen_loads today limit l (dec := fun _ => 2) (fun _ => by show (2 : Nat) ≤ 50; decide) hdir (accounts := listed.map (acctWritten genCad)) (by
      intro a ha
      obtain ⟨n, hn, rfl⟩ := hacct a ha
      exact ⟨(sample_accounts n hn).1, ⟨by unfold noNl; simp, by simp, by simp⟩, by simp, ⟨'C', str "AD", rfl, by decide, by decide⟩, by simp, by simp, by simp, by simp⟩) (by
      intro a ha
      obtain ⟨n, hn, rfl⟩ := hacct a ha
      exact account_short (sample_accounts n hn).2 (show (str "CAD").length ≤ 100 by decide) rfl rfl rfl rfl rfl)
      order ho (show N < 2 ^ 63 by omega) hsort hsamp
  refine ⟨o, w, ?_⟩
  intro glob hg
  have hst := hload glob hg
  generalize hste : (⟨[genCad], str "CAD", .commodity genCom :: (listed.map (acctWritten genCad)).map .account ++ ts.map (fun t => Item.transaction t.written)⟩ : LoadState) = st at hst
  have etx : st.txns = ts.map ITxn.written := by
    rw [← hste]
    unfold LoadState.txns
    simp only [List.cons_append]
    rw [List.filterMap_cons_none rfl, List.filterMap_append, List.filterMap_eq_nil_iff.mpr (by intro a ha; obtain ⟨x, _, rfl⟩ := List.mem_map.mp ha; rfl), List.nil_append, List.filterMap_map]
    exact congrFun (List.filterMap_eq_map (f := ITxn.written)) ts
  have edl : st.decls = listed.map (fun a => (⟨a.fullName, a.description, str "CAD", a.closed⟩ : Acct)) := by
    rw [← hste]
    unfold LoadState.decls
    simp only [List.cons_append]
    rw [List.filterMap_cons_none rfl, List.filterMap_append, List.map_append,
      List.filterMap_eq_nil_iff (l := ts.map _) |>.mpr (by intro a ha; obtain ⟨x, _, rfl⟩ := List.mem_map.mp ha; rfl), List.map_nil, List.append_nil, List.map_map, List.filterMap_map,
      show (itemAcct ∘ (Item.account ∘ acctWritten genCad)) = some ∘ acctWritten genCad from rfl, List.filterMap_eq_map, List.map_map]
    rfl
  have eprices : st.items.filterMap itemPrice = [] := by
    rw [← hste, List.filterMap_eq_nil_iff]
    intro x hx
    simp only [List.cons_append, List.mem_cons, List.mem_append, List.mem_map] at hx
    rcases hx with rfl | ⟨a, _, rfl⟩ | ⟨t, _, rfl⟩ <;> rfl
  have edflt : st.dflt = str "CAD" := by rw [← hste]
  have elook : st.lookup (str "CAD") = some genCad := by rw [← hste]; rfl
  have hfreshD : Fresh (str "CAD") st.decls := by
    intro a ha
    rw [edl] at ha
    obtain ⟨x, hx, rfl⟩ := List.mem_map.mp ha
    have := hfresh x (hl.mem_iff.mp hx)
    rw [show x.description = [] by rw [this]; rfl, show x.closed = none by rw [this]; rfl]
    rfl
  have dnames : st.decls.map (·.fullName) = listed.map (·.fullName) := by
    rw [edl, List.map_map]
    rfl
  obtain ⟨accts', L', hA'⟩ := resolved_exists (str "CAD") st.decls
  have hnames' : (accts'.map (·.fullName)).Perm genNames := sample_names hA' (by
      intro d hd
      have : d.fullName ∈ listed.map (·.fullName) := dnames ▸ List.mem_map_of_mem hd
      exact hnames.mem_iff.mp ((hl.map _).mem_iff.mp this)) (by
      intro d hd
      rw [dnames, (hl.map _).mem_iff, hnames.mem_iff]
      revert d
      decide +kernel)
  have hfresh' := fresh_resolved hA' hfreshD
  have hcom' : ∀ a ∈ accts', st.comFor a = some genCad := by
    intro a ha
    unfold LoadState.comFor
    rw [show a.commodityId = str "CAD" by rw [hfresh' a ha]; rfl, if_neg (by decide), elook]
  have hsamp' : ∀ t ∈ st.txns, SampleTxn N t := by
    intro t ht
    rw [etx] at ht
    obtain ⟨u, hu, rfl⟩ := List.mem_map.mp ht
    exact (hsamp u hu).1
  obtain ⟨⟨fin, sorted⟩, hr⟩ := gen_resolves hnames' hcom' hsamp' (convWith (fun _ => []) (fun _ _ => []) 1)
  refine ⟨st, accts', _, ⟨hst, [], fun _ => [], fun _ _ => [], 1, L', _, fin, sorted, 103, fun _ => [], id, by rw [eprices]; rfl, fun _ => .nil, fun _ _ => .refl _, ?_, by rw [edflt]; exact hA', ?_,
    List.Perm.refl _, hr, ?_, rfl⟩, ⟨hcom', ?_⟩, etx⟩
  · intro c x
    unfold convert
    simp only [convertF]
    split <;> rfl
  · intro a ha
    rw [hcom' a ha]
    rfl
  · intro a ha
    have := (sample_accounts a.fullName (hnames'.mem_iff.mp (List.mem_map_of_mem ha))).2
    omega
  · intro t ht p hp q hq
    obtain ⟨src, _, dst, _, amt, _, hperm⟩ := (hsamp' t ht).moves
    rw [hperm.mem_iff] at hp
    simp only [List.mem_cons, List.not_mem_nil, or_false] at hp
    rcases hp with rfl | rfl <;> cases hq <;> rfl

/-! ### The amounts -/

/-- What transactions booked to an account, in units. -/
def bookedTo (ts : List ITxn) (a : Str) : Int := ((ts.flatMap (·.postings)).map (fun p => if p.account = a then p.quantity.int else 0)).sum

theorem bookedTo_cons (t : ITxn) (ts : List ITxn) (a : Str) : bookedTo (t :: ts) a = bookedTo [t] a + bookedTo ts a := by
  unfold bookedTo
  rw [List.flatMap_cons, List.map_append, List.sum_append, List.flatMap_cons, List.flatMap_nil, List.append_nil]

theorem bookedTo_two {t : ITxn} {src dst : Str} {amt : Int} {c : Com} (h : t.postings.Perm [⟨dst, ⟨amt, c⟩, none, false⟩, ⟨src, ⟨-amt, c⟩, none, false⟩]) (a : Str) :
    bookedTo [t] a = (if dst = a then amt else 0) - (if src = a then amt else 0) := by
  unfold bookedTo
  rw [List.flatMap_cons, List.flatMap_nil, List.append_nil, perm_sum_int (h.map _)]
  simp only [List.map_cons, List.map_nil, List.sum_cons, List.sum_nil]
  split <;> split <;> omega

theorem genApply_balance (s : GenState) (src dst : Str) (amt : Int) (k : Nat) (a : Str) :
    (genApply s (src, dst, amt, k)).balance a = s.balance a + ((if dst = a then amt else 0) - (if src = a then amt else 0)) := by
  unfold genApply setFn
  simp only
  by_cases h1 : a = src
  · subst h1
    by_cases h2 : a = dst
    · subst h2; simp
    · have h3 : ¬ dst = a := fun e => h2 e.symm
      simp [h2, h3]
      omega
  · have h1' : ¬ src = a := fun e => h1 e.symm
    by_cases h2 : a = dst
    · subst h2; simp [h1, h1']
    · have h3 : ¬ dst = a := fun e => h2 e.symm
      simp [h1, h1', h2, h3]

theorem genTxns_amounts {draw : Nat → Nat} {c : Com} : ∀ (xs : List Sample) (s : GenState) (ts : List ITxn) (s' : GenState), genTxns draw c s xs = .ok (ts, s') →
    (∀ a, s'.balance a = s.balance a + bookedTo ts a) ∧
    ∀ (i : Nat) (x : Sample) (t : ITxn), xs[i]? = some x → ts[i]? = some t → ∃ src ∈ x.rule.source, ∃ dst ∈ x.rule.dest, ∃ (amt : Int) (k k' : Nat) (fb : Int),
      t.posted = ⟨x.sec, 0⟩ ∧ t.description = x.payee ∧ t.postings.Perm [⟨dst, ⟨amt, c⟩, none, false⟩, ⟨src, ⟨-amt, c⟩, none, false⟩] ∧
      amtBetween draw k c.decimals x.rule.min x.rule.max fb (s.balance dst + bookedTo (ts.take i) dst) = .ok (amt, k') := by
  intro xs
  induction xs with
  | nil =>
    intro s ts s' h
    cases h
    exact ⟨fun a => by simp [bookedTo], fun i x t hx => by simp at hx⟩
  | cons x xs ih =>
    intro s ts s' h
    rw [genTxns] at h
    obtain ⟨⟨src, dst, amt, k'⟩, hm, h⟩ := bind_ok.mp h
    obtain ⟨⟨ts1, s1⟩, hr, h⟩ := bind_ok.mp h
    cases h
    obtain ⟨i1, i2⟩ := ih _ _ _ hr
    unfold genMove at hm
    split at hm
    · rename_i src' dst' e1 e2
      obtain ⟨⟨amt', k2⟩, ha, hm⟩ := bind_ok.mp hm
      have hm := Except.ok.inj hm
      simp only [Prod.mk.injEq] at hm
      obtain ⟨rfl, rfl, rfl, rfl⟩ := hm
      rename' amt' => amt, src' => src, dst' => dst
      have hperm : (ITxn.post ⟨⟨x.sec, 0⟩, [], x.payee, [], []⟩ dst src ⟨amt, c⟩ none).postings.Perm [⟨dst, ⟨amt, c⟩, none, false⟩, ⟨src, ⟨-amt, c⟩, none, false⟩] := by
        unfold ITxn.post ITxn.postConversion Amount.negated
        simp only [List.nil_append, Option.isSome]
        split
        · exact .swap _ _ _
        · exact .refl _
      refine ⟨?_, ?_⟩
      · intro a
        rw [i1 a, genApply_balance, bookedTo_cons, bookedTo_two hperm]
        show _ = _ + (_ + bookedTo ts1 a)
        omega
      · intro i y t hy ht
        cases i with
        | zero =>
          simp only [List.getElem?_cons_zero, Option.some.injEq] at hy ht
          subst hy ht
          refine ⟨src, List.mem_of_getElem? e1, dst, List.mem_of_getElem? e2, amt, s.draws + 2, k2, s.balance src, rfl, rfl, hperm, ?_⟩
          rw [List.take_zero, show bookedTo [] dst = 0 from rfl, Int.add_zero]
          exact ha
        | succ i =>
          simp only [List.getElem?_cons_succ] at hy ht
          obtain ⟨src', h1, dst', h2, amt', k, k3, fb, h3, h4, h5, h6⟩ := i2 i y t hy ht
          refine ⟨src', h1, dst', h2, amt', k, k3, fb, h3, h4, h5, ?_⟩
          rw [genApply_balance] at h6
          rw [List.take_succ_cons, bookedTo_cons, bookedTo_two hperm]
          rw [← h6]
          congr 1
          show _ + (_ + bookedTo (ts1.take i) dst') = _
          omega
    · cases hm

theorem args_amounts : ∀ a ∈ personalArgs.map (fun a => (a.2.2.2.2.1, a.2.2.2.2.2)), (0 ≤ a.1 ∧ a.1 ≤ a.2 ∧ a.2 ≤ 2000) ∨ (a.1 = toBalance ∧ (a.2 = 1 ∨ a.2 = -600)) := by
  decide +kernel

/-- **C168.** The amounts: the `i`-th transaction follows one of the rules, and its amount is in whole dollars between the rule's limits or – for the rules that repay a balance or pay interest – the balance
of the receiving account, as all transactions before made it, divided by the rule's divisor (1, repaying it, or -600, the monthly interest). At the end the balances are what all transactions booked. -/
theorem C168_amounts {find : Str → Except Fault Str} (hf : ∀ p ∈ genPats, find p = .ok (genFull p)) (draws pays : Nat → Nat → Nat) (amounts : Nat → Nat) (b e : Int) (ts : List ITxn) (s : GenState)
    (h : genTransactions find genCad draws pays amounts b e = .ok (ts, s)) :
    (∀ a, s.balance a = bookedTo ts a) ∧
    ∀ (i : Nat) (t : ITxn), ts[i]? = some t → ∃ a ∈ personalArgs, t.description ∈ splitOn '|' a.2.1 ∧ ∃ p ∈ splitOn '|' a.2.2.1, ∃ q ∈ splitOn '|' a.2.2.2.1, ∃ amt : Int,
      t.postings.Perm [⟨genFull q, ⟨amt, genCad⟩, none, false⟩, ⟨genFull p, ⟨-amt, genCad⟩, none, false⟩] ∧
      (a.2.2.2.2.1 ≠ toBalance → ∃ u, amt = u * 100 ∧ a.2.2.2.2.1 ≤ u ∧ u ≤ a.2.2.2.2.2) ∧
      (a.2.2.2.2.1 = toBalance → ∃ r, -bookedTo (ts.take i) (genFull q) = amt * a.2.2.2.2.2 + r ∧ 0 ≤ r ∧ r < |a.2.2.2.2.2|) := by
  unfold genTransactions at h
  rw [personal_rules hf] at h
  have h : genTxns amounts genCad genTransactions.genZero (allSamples draws pays b e genRules) = .ok (ts, s) := h
  obtain ⟨g1, g2⟩ := genTxns_amounts _ _ _ _ h
  obtain ⟨ts0, s0, h0, hf0⟩ := sample_generated hf draws pays amounts b e
  have e0 : ts0 = ts := by
    unfold genTransactions at h0
    rw [personal_rules hf] at h0
    have h0 : genTxns amounts genCad genTransactions.genZero (allSamples draws pays b e genRules) = .ok (ts0, s0) := h0
    exact (Prod.mk.inj (Except.ok.inj (h0.symm.trans h))).1
  subst e0
  refine ⟨fun a => by rw [g1 a]; show 0 + _ = _; omega, ?_⟩
  intro i t ht
  have hi : i < (allSamples draws pays b e genRules).length := by
    rw [hf0.length_eq]
    exact (List.getElem?_eq_some_iff.mp ht).1
  obtain ⟨src, hs, dst, hd, amt, k, k', fb, _, e2, hperm, ha⟩ := g2 i _ t (List.getElem?_eq_getElem hi) ht
  obtain ⟨⟨r, hr, er, hp⟩, _⟩ := samples_ok draws pays b e _ (List.getElem_mem hi)
  generalize (allSamples draws pays b e genRules)[i] = x at hs hd e2 ha er hp
  unfold genRules at hr
  rw [List.mem_map] at hr
  obtain ⟨a, ham, rfl⟩ := hr
  rw [er] at hs hd ha
  obtain ⟨p, hp1, rfl⟩ := List.mem_map.mp hs
  obtain ⟨q, hq1, rfl⟩ := List.mem_map.mp hd
  refine ⟨a, ham, by rw [e2]; exact hp, p, hp1, q, hq1, amt, hperm, ?_, ?_⟩
  · intro hne
    rcases args_amounts _ (List.mem_map_of_mem ham) with ⟨h1, h2, h3⟩ | ⟨h1, _⟩
    · simp only at h1 h2 h3
      obtain ⟨u, k2, hu, u1, u2, _⟩ := C88_amount amounts k 2 a.2.2.2.2.1 a.2.2.2.2.2 fb (genTransactions.genZero.balance (genFull q) + bookedTo (ts0.take i) (genFull q)) (by decide)
        (by unfold genConstants; omega) (by norm_num; omega)
      have := Except.ok.inj (ha.symm.trans hu)
      refine ⟨u, (Prod.mk.inj this).1, ?_, ?_⟩ <;> omega
    · exact absurd h1 hne
  · intro he
    have hd0 : a.2.2.2.2.2 ≠ 0 := by
      rcases args_amounts _ (List.mem_map_of_mem ham) with ⟨h1, h2, h3⟩ | ⟨_, h2⟩
      · simp only at h1 h2 h3
        rw [he] at h2
        unfold toBalance at h2
        omega
      · simp only at h2
        omega
    obtain ⟨⟨x, r, hx, hr1, hr2, hr3⟩, _⟩ := C88_fraction a.2.2.2.2.2 fb (genTransactions.genZero.balance (genFull q) + bookedTo (ts0.take i) (genFull q)) hd0
    have ha : amtBetween amounts k genCad.decimals a.2.2.2.2.1 a.2.2.2.2.2 fb (genTransactions.genZero.balance (genFull q) + bookedTo (ts0.take i) (genFull q)) = .ok (amt, k') := ha
    unfold amtBetween at ha
    rw [he, if_pos (by decide), hx] at ha
    have ha : (Except.ok (x, k) : Except Fault (Int × Nat)) = .ok (amt, k') := ha
    cases ha
    refine ⟨r, ?_, hr2, hr3⟩
    rw [← hr1]
    show _ = -(0 + _)
    rw [Int.zero_add]

/-! ### The generator modelled before -/

/-- Without the transactions this is the generator of C87 and C88. -/
theorem genTxns_state (draw : Nat → Nat) (c : Com) : ∀ (xs : List Sample) (s : GenState), (genTxns draw c s xs).map (·.2) = generateAll draw c.decimals s (xs.map (·.rule)) := by
  have one : ∀ (d : Nat) (r : GenRule) (s : GenState), generatePostings draw d r s = (genMove draw d r s).bind fun m => .ok (genApply s m) := by
    intro d r s
    unfold genMove generatePostings
    cases r.source[draw s.draws % r.source.length]? with
    | none => rfl
    | some src =>
      cases r.dest[draw (s.draws + 1) % r.dest.length]? with
      | none => rfl
      | some dst =>
        simp only
        cases amtBetween draw (s.draws + 2) d r.min r.max (s.balance src) (s.balance dst) <;> rfl
  intro xs
  induction xs with
  | nil => intro s; rfl
  | cons x xs ih =>
    intro s
    rw [genTxns, List.map_cons, generateAll, one]
    cases genMove draw c.decimals x.rule s with
    | error f => rfl
    | ok m =>
      simp only [Except.bind]
      rw [← ih]
      cases genTxns draw c (genApply s m) xs <;> rfl

/-! ### A sample -/

/-- From 2000/01/01 to 2000/03/01. -/
def exBegin : Int := goDate 2000 1 1 * 86400
def exEnd : Int := goDate 2000 3 1 * 86400

def exMust (p : Str) : Except Fault Str := mustFindAccount genNames (patternMatches p) p

set_option maxRecDepth 100000 in
/-- Non-vacuity of C168: two months make a few dozen transactions, -/
theorem ex_count : ((genTransactions exMust genCad (fun _ _ => 0) (fun _ _ => 0) (fun _ => 0) exBegin exEnd).toOption.map fun r => r.1.length) = some 39 := by decide +kernel

example : 100 ≤ goYear (exBegin / 86400) ∧ goYear (exEnd / 86400) ≤ 9999 := by decide +kernel

/-- and the accounts resolve. -/
example : ∃ accts L, ResolvedAccounts setupState.dflt setupState.decls accts L := resolved_exists _ _

end Verif
