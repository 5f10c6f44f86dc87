import Verif.Props.Page
import Verif.Lemmas.Calendar
/-!
# Property C118: the whole page
-/
namespace Verif

/-- The same amount on the page, whose commodities are told apart by their id. -/
def pageAmount (a : Amount) : Amount := ⟨a.int, ⟨0, a.com.id, a.com.decimals⟩⟩

/-- An amount of one of the commodities, exactly representable. -/
def AmountOk (cs : List OutCom) (a : Amount) : Prop := (∃ c ∈ cs, c.id = a.com.id ∧ c.decimals = a.com.decimals) ∧ a.int.natAbs ≤ 2 ^ 53

/-- A date of the years 100 to 9999. -/
def DateOk (d : Int) : Prop := 100 ≤ goYear d ∧ goYear d ≤ 9999

/-- The commodities of a ledger: distinct ids without blanks. -/
def ComsOk (cs : List OutCom) : Prop := (cs.map (·.id)).Nodup ∧ ∀ c ∈ cs, ' ' ∉ c.id ∧ c.decimals ≤ 50

/-- The commodity on the page. -/
def wcomOf (c : OutCom) : Com := ⟨0, c.id, c.decimals⟩

theorem loadCommodities_push : ∀ (l : List OutCom) (acc : List Com), ((acc.map (·.id)) ++ (l.map (·.id))).Nodup →
    foldE (fun cs v => (pageCom v).bind fun c => .ok (putCom cs c)) acc (l.map commodityJson) = .ok (acc ++ l.map wcomOf) := by
  intro l
  induction l with
  | nil => intro acc _; simp [foldE]
  | cons c l ih =>
    intro acc h
    obtain ⟨g1, g2⟩ := commodityJson_get c
    have h1 : pageCom (commodityJson c) = .ok (wcomOf c) := by
      unfold pageCom needStr
      rw [g1, g2]; rfl
    have h2 : putCom acc (wcomOf c) = acc ++ [wcomOf c] := by
      unfold putCom
      rw [List.filter_eq_self.mpr]
      intro x hx
      simp only [ne_eq, decide_not, Bool.not_eq_true', decide_eq_false_iff_not]
      intro e
      exact (List.nodup_append.mp h).2.2 x.id (List.mem_map.mpr ⟨x, hx, rfl⟩) c.id (by simp) e
    rw [List.map_cons, foldE_cons, h1]
    show foldE _ (putCom acc (wcomOf c)) _ = _
    rw [h2, ih]
    · simp
    · simpa [wcomOf] using h

/-- The commodities loaded by the page. -/
def pageComs (cs : List OutCom) : List Com := (stableSort (fun a b : OutCom => strLt a.id b.id) cs).map wcomOf

theorem loadCommodities_ok (cs : List OutCom) (h : (cs.map (·.id)).Nodup) : loadCommodities (commoditiesJson cs) = .ok (pageComs cs) := by
  have hp := stableSort_perm (fun a b : OutCom => strLt a.id b.id) cs
  unfold loadCommodities commoditiesJson objectValues pageComs
  show foldE _ [] (((stableSort (fun a b : OutCom => strLt a.id b.id) cs).map fun c => (c.id, commodityJson c)).map (·.2)) = _
  rw [List.map_map]
  have := loadCommodities_push (stableSort (fun a b : OutCom => strLt a.id b.id) cs) [] (by simpa using ((hp.map (·.id)).nodup_iff).mpr h)
  exact this

theorem findCom_mem (l : List Com) (hn : (l.map (·.id)).Nodup) (c : Com) (hc : c ∈ l) : findCom l c.id = some c := by
  unfold findCom
  cases hf : l.find? (fun x => decide (x.id = c.id)) with
  | none => have := List.find?_eq_none.mp hf c hc; simp at this
  | some x =>
    have h1 := List.find?_some hf
    have h2 := List.mem_of_find?_eq_some hf
    simp only [decide_eq_true_eq] at h1
    rw [List.inj_on_of_nodup_map hn h2 hc h1]

theorem pageComs_find (cs : List OutCom) (h : (cs.map (·.id)).Nodup) (c : OutCom) (hc : c ∈ cs) : findCom (pageComs cs) c.id = some (wcomOf c) := by
  have hp := stableSort_perm (fun a b : OutCom => strLt a.id b.id) cs
  have hn : ((pageComs cs).map (·.id)).Nodup := by
    unfold pageComs
    rw [List.map_map]
    exact ((hp.map (·.id)).nodup_iff).mpr h
  exact findCom_mem _ hn (wcomOf c) (List.mem_map.mpr ⟨c, hp.mem_iff.mpr hc, rfl⟩)

theorem page_amount (cs : List OutCom) (hcs : ComsOk cs) (a : Amount) (ha : AmountOk cs a) :
    ∃ s, amountJson a = .ok s ∧ wParse (findCom (pageComs cs)) s = .ok (pageAmount a) ∧ wString false (pageAmount a) = s := by
  obtain ⟨⟨c, hc, e1, e2⟩, hb⟩ := ha
  have hk : KnownCom (findCom (pageComs cs)) (pageAmount a).com := by
    refine ⟨?_, ?_⟩
    · have := pageComs_find cs hcs.1 c hc
      show findCom (pageComs cs) a.com.id = _
      rw [← e1, this]
      unfold wcomOf pageAmount
      rw [e1, e2]
    · show ' ' ∉ a.com.id
      rw [← e1]; exact (hcs.2 c hc).1
  have hd : (pageAmount a).com.decimals ≤ 50 := by show a.com.decimals ≤ 50; rw [← e2]; exact (hcs.2 c hc).2
  obtain ⟨s, h1, h2⟩ := C110_page_amounts_partial _ (pageAmount a) hk hd hb
  have h3 := C111_same_text (pageAmount a) hd
  rw [h1] at h3
  injection h3 with h3
  refine ⟨s, ?_, h2, h3.symm⟩
  rw [← h1, amountJson_eq a (by rw [← e2]; exact (hcs.2 c hc).2), amountJson_eq (pageAmount a) hd]
  rfl

/-! ### Prices -/

/-- The page's price. -/
def wpriceOf (cs : List OutCom) (p : OutPrice) : WPrice :=
  ⟨(findCom (pageComs cs) p.commodityId).getD ⟨0, [], 0⟩, 86400 * p.time, pageAmount p.value⟩

/-- What prices must satisfy. -/
def PricesOk (cs : List OutCom) (ps : List OutPrice) : Prop :=
  ∀ p ∈ ps, (∃ c ∈ cs, c.id = p.commodityId) ∧ AmountOk cs p.value ∧ p.value.int ≠ 0 ∧ DateOk p.time

theorem jsonAll_total {α : Type} (f : α → Except Fault JVal) (l : List α) (h : ∀ x ∈ l, ∃ v, f x = .ok v) : ∃ vs, jsonAll f l = .ok vs := by
  induction l with
  | nil => exact ⟨[], rfl⟩
  | cons x l ih =>
    obtain ⟨v, hv⟩ := h x List.mem_cons_self
    obtain ⟨vs, hvs⟩ := ih (fun y hy => h y (List.mem_cons_of_mem _ hy))
    exact ⟨v :: vs, (jsonAll_ok f _ _).mpr (.cons hv ((jsonAll_ok f _ _).mp hvs))⟩

/-- Reading back the elements of a list one by one. -/
theorem forall2_read {α β : Type} {f : α → Except Fault JVal} {g : JVal → Except Fault β} {out : α → β} {l : List α} {vs : List JVal}
    (h : List.Forall₂ (fun x v => f x = .ok v) l vs) (hx : ∀ x ∈ l, ∀ v, f x = .ok v → g v = .ok (out x)) :
    List.Forall₂ (fun v y => g v = .ok y) vs (l.map out) := by
  induction h with
  | nil => exact .nil
  | cons h1 _ ih => exact .cons (hx _ List.mem_cons_self _ h1) (ih (fun x hm => hx x (List.mem_cons_of_mem _ hm)))

theorem pagePrice_ok (cs : List OutCom) (hcs : ComsOk cs) (p : OutPrice) (hc : ∃ c ∈ cs, c.id = p.commodityId) (hv : AmountOk cs p.value)
    (hd : DateOk p.time) : ∃ v, priceJson p = .ok v ∧ pagePrice (pageComs cs) v = .ok (wpriceOf cs p) := by
  obtain ⟨s, h1, h2, h3⟩ := page_amount cs hcs p.value hv
  have hv : ∃ v, priceJson p = .ok v := by unfold priceJson; rw [h1]; exact ⟨_, rfl⟩
  obtain ⟨v, hv⟩ := hv
  obtain ⟨s', g1, g2, g3, g4⟩ := priceJson_get p v hv
  rw [h1] at g1; injection g1 with g1; subst g1
  refine ⟨v, hv, ?_⟩
  obtain ⟨c, hc, hce⟩ := hc
  have hf : findCom (pageComs cs) p.commodityId = some (wcomOf c) := by rw [← hce]; exact pageComs_find cs hcs.1 c hc
  unfold pagePrice needStr
  rw [g2, g3, g4]
  show (needCom (pageComs cs) p.commodityId).bind _ = _
  have hn : needCom (pageComs cs) p.commodityId = .ok (wcomOf c) := by unfold needCom; rw [hf]
  rw [hn]
  show (wParse (findCom (pageComs cs)) s).bind _ = _
  rw [h2]
  show (if wString false (pageAmount p.value) ≠ s then _ else _) = _
  rw [if_neg (by rw [h3]; simp)]
  show (needDate (formatDate p.time)).bind _ = _
  have hdt : needDate (formatDate p.time) = .ok (86400 * p.time) := by unfold needDate; rw [jsDate_format p.time hd.1 hd.2]
  rw [hdt]
  unfold wpriceOf
  rw [hf]
  rfl

theorem pushedPrices_total : ∀ (ps : List WPrice), (∀ p ∈ ps, p.value.int ≠ 0) → ∃ all, pushedPrices ps = .ok all := by
  intro ps
  induction ps with
  | nil => intro _; exact ⟨[], rfl⟩
  | cons p ps ih =>
    intro h
    obtain ⟨all, ha⟩ := ih (fun q hq => h q (List.mem_cons_of_mem _ hq))
    unfold pushedPrices wReverse wReciprocal
    rw [if_neg (h p List.mem_cons_self), ha]
    exact ⟨_, rfl⟩

theorem pushedPrices_get : ∀ (ps all : List WPrice), pushedPrices ps = .ok all → all.length = 2 * ps.length ∧ ∀ (i : Nat) (p : WPrice), ps[i]? = some p →
    all[2 * i]? = some p ∧ ∃ r, all[2 * i + 1]? = some r ∧ wReverse p = .ok r := by
  intro ps
  induction ps with
  | nil => intro all h; injection h with h; subst h; simp
  | cons q ps ih =>
    intro all h
    unfold pushedPrices at h
    obtain ⟨r, h1, h⟩ := bind_ok.mp h
    obtain ⟨rest, h2, h⟩ := bind_ok.mp h
    injection h with h; subst h
    obtain ⟨i1, i2⟩ := ih rest h2
    refine ⟨by simp only [List.length_cons]; omega, ?_⟩
    intro i p hi
    cases i with
    | zero => simp at hi; subst hi; exact ⟨rfl, r, rfl, h1⟩
    | succ i =>
      rw [List.getElem?_cons_succ] at hi
      obtain ⟨j1, j2⟩ := i2 i p hi
      refine ⟨?_, ?_⟩
      · rw [show 2 * (i + 1) = (2 * i + 1) + 1 by omega, List.getElem?_cons_succ, List.getElem?_cons_succ]; exact j1
      · rw [show 2 * (i + 1) + 1 = (2 * i + 1 + 1) + 1 by omega, List.getElem?_cons_succ, List.getElem?_cons_succ]; exact j2

theorem loadPrices_ok (cs : List OutCom) (hcs : ComsOk cs) (ps : List OutPrice) (hps : PricesOk cs ps) :
    ∃ v all, pricesJson ps = .ok v ∧ loadPagePrices (pageComs cs) v = .ok all ∧ pushedPrices (ps.map (wpriceOf cs)) = .ok all := by
  obtain ⟨all, hall⟩ := pushedPrices_total (ps.map (wpriceOf cs)) (by
    intro q hq
    obtain ⟨p, hp, rfl⟩ := List.mem_map.mp hq
    exact (hps p hp).2.2.1)
  have hr : ∀ p ∈ ps, ∃ v, priceJson p = .ok v ∧ pagePrice (pageComs cs) v = .ok (wpriceOf cs p) :=
    fun p hp => pagePrice_ok cs hcs p (hps p hp).1 (hps p hp).2.1 (hps p hp).2.2.2
  obtain ⟨vs, hvs⟩ := jsonAll_total priceJson ps (fun p hp => by obtain ⟨v, hv, _⟩ := hr p hp; exact ⟨v, hv⟩)
  have h2 := (jsonAll_ok _ _ _).mp hvs
  have h3 := forall2_read (g := pagePrice (pageComs cs)) (out := wpriceOf cs) h2 (by
    intro p hp v hv
    obtain ⟨v', hv', h'⟩ := hr p hp
    rw [hv] at hv'; injection hv' with hv'; subst hv'; exact h')
  have h4 := foldE_push _ _ _ h3 []
  refine ⟨sliceJson vs, all, by unfold pricesJson; rw [hvs]; rfl, ?_, hall⟩
  cases vs with
  | nil =>
    cases h2
    exact hall
  | cons v vs =>
    show (foldE (fun ps v => (pagePrice (pageComs cs) v).bind fun p => .ok (ps ++ [p])) [] (v :: vs)).bind _ = _
    rw [h4]
    exact hall

/-! ### Transactions -/

/-- The page's posting. -/
def wpostOf (p : OutPost) : WPost :=
  ⟨p.account, pageAmount p.quantity, pageAmount (p.balance.getD ⟨0, ⟨0, [], 0⟩⟩), p.asserted, p.notes, sortedTags (p.tags.getD [])⟩

/-- The page's transaction. -/
def wtxnOf (t : OutTxn) : WTxn := ⟨86400 * t.posted, t.description, t.notes, t.code, t.location, t.postings.map wpostOf⟩

/-- What transactions must satisfy. -/
def TxnsOk (cs : List OutCom) (names : List Str) (ts : List OutTxn) : Prop :=
  ∀ t ∈ ts, DateOk t.posted ∧ ∀ p ∈ t.postings, p.account ∈ names ∧ AmountOk cs p.quantity ∧ ∃ b, p.balance = some b ∧ AmountOk cs b

theorem pagePost_ok (cs : List OutCom) (hcs : ComsOk cs) (as : List WAcct) (p : OutPost) (ha : p.account ∈ as.map (·.fullName))
    (hq : AmountOk cs p.quantity) (b : Amount) (hb : p.balance = some b) (hbo : AmountOk cs b) :
    ∃ v, postingJson p = .ok v ∧ pagePost (pageComs cs) as v = .ok (wpostOf p) := by
  obtain ⟨q, q1, q2, _⟩ := page_amount cs hcs p.quantity hq
  obtain ⟨s, s1, s2, _⟩ := page_amount cs hcs b hbo
  have hv : ∃ v, postingJson p = .ok v := by
    unfold postingJson balanceFields
    rw [q1, hb]
    show ∃ v, (((amountJson b).bind _).bind _) = .ok v
    rw [s1]
    exact ⟨_, rfl⟩
  obtain ⟨v, hv⟩ := hv
  obtain ⟨q', g1, g2, g3, g4, g5, g6, _⟩ := postingJson_get p v hv
  rw [q1] at g1; injection g1 with g1; subst g1
  obtain ⟨s', t1, t2, t3⟩ := g6 b hb
  rw [s1] at t1; injection t1 with t1; subst t1
  refine ⟨v, hv, ?_⟩
  obtain ⟨w, hw⟩ : ∃ w, findAcct as p.account = some w := by
    have := findAcct_some as p.account ha
    cases hf : findAcct as p.account with
    | none => rw [hf] at this; cases this
    | some w => exact ⟨w, rfl⟩
  unfold pagePost needStr
  rw [g2, g3, g4, g5, t2, t3]
  dsimp only [Except.bind]
  rw [hw]
  dsimp only
  rw [q2]
  dsimp only
  rw [s2]
  unfold wpostOf
  rw [hb]
  rfl

theorem pageTxn_ok (cs : List OutCom) (hcs : ComsOk cs) (as : List WAcct) (t : OutTxn) (hd : DateOk t.posted)
    (hp : ∀ p ∈ t.postings, p.account ∈ as.map (·.fullName) ∧ AmountOk cs p.quantity ∧ ∃ b, p.balance = some b ∧ AmountOk cs b) :
    ∃ v, txnJson t = .ok v ∧ pageTxn (pageComs cs) as v = .ok (wtxnOf t) := by
  have hr : ∀ p ∈ t.postings, ∃ v, postingJson p = .ok v ∧ pagePost (pageComs cs) as v = .ok (wpostOf p) := by
    intro p hm
    obtain ⟨h1, h2, b, h3, h4⟩ := hp p hm
    exact pagePost_ok cs hcs as p h1 h2 b h3 h4
  obtain ⟨vs, hvs⟩ := jsonAll_total postingJson t.postings (fun p hp => by obtain ⟨v, hv, _⟩ := hr p hp; exact ⟨v, hv⟩)
  have hv : ∃ v, txnJson t = .ok v := by unfold txnJson; rw [hvs]; exact ⟨_, rfl⟩
  obtain ⟨v, hv⟩ := hv
  obtain ⟨ps, g1, g2, g3, g4, g5, g6, g7⟩ := txnJson_get t v hv
  rw [hvs] at g1; injection g1 with g1; subst g1
  refine ⟨v, hv, ?_⟩
  have h3 := forall2_read (g := pagePost (pageComs cs) as) (out := wpostOf) ((jsonAll_ok _ _ _).mp hvs) (by
    intro p hp v hv
    obtain ⟨v', hv', h'⟩ := hr p hp
    rw [hv] at hv'; injection hv' with hv'; subst hv'; exact h')
  have h4 := foldE_push _ _ _ h3 []
  have hdt : needDate (formatDate t.posted) = .ok (86400 * t.posted) := by unfold needDate; rw [jsDate_format t.posted hd.1 hd.2]
  unfold pageTxn needStr
  rw [g2, g3, g4, g5, g6, g7]
  show (needDate (formatDate t.posted)).bind _ = _
  rw [hdt]
  show (foldE (fun ps v => (pagePost (pageComs cs) as v).bind fun p => .ok (ps ++ [p])) [] vs).bind _ = _
  rw [h4]
  rfl

theorem loadTransactions_ok (cs : List OutCom) (hcs : ComsOk cs) (as : List WAcct) (ts : List OutTxn) (hne : ts ≠ [])
    (hts : TxnsOk cs (as.map (·.fullName)) ts) :
    ∃ v, transactionsJson ts = .ok v ∧ loadTransactions (pageComs cs) as v = .ok (ts.map wtxnOf) := by
  have hr : ∀ t ∈ ts, ∃ v, txnJson t = .ok v ∧ pageTxn (pageComs cs) as v = .ok (wtxnOf t) :=
    fun t ht => pageTxn_ok cs hcs as t (hts t ht).1 (hts t ht).2
  obtain ⟨vs, hvs⟩ := jsonAll_total txnJson ts (fun p hp => by obtain ⟨v, hv, _⟩ := hr p hp; exact ⟨v, hv⟩)
  have h2 := (jsonAll_ok _ _ _).mp hvs
  have h3 := forall2_read (g := pageTxn (pageComs cs) as) (out := wtxnOf) h2 (by
    intro p hp v hv
    obtain ⟨v', hv', h'⟩ := hr p hp
    rw [hv] at hv'; injection hv' with hv'; subst hv'; exact h')
  have h4 := foldE_push _ _ _ h3 []
  refine ⟨sliceJson vs, by unfold transactionsJson; rw [hvs]; rfl, ?_⟩
  cases vs with
  | nil => cases h2; exact absurd rfl hne
  | cons v vs => exact h4


/-! ### The range of dates -/

theorem minDate_le (now : Int) (ts : List WTxn) : minDate now ts ≤ now ∧ ∀ t ∈ ts, minDate now ts ≤ t.posted := by
  unfold minDate
  induction ts generalizing now with
  | nil => simp
  | cons t ts ih =>
    rw [List.foldl_cons]
    obtain ⟨h1, h2⟩ := ih (if t.posted < now then t.posted else now)
    have h3 : (if t.posted < now then t.posted else now) ≤ now ∧ (if t.posted < now then t.posted else now) ≤ t.posted := by
      split <;> omega
    refine ⟨by omega, ?_⟩
    intro u hu
    rcases List.mem_cons.mp hu with rfl | hu
    · omega
    · exact h2 u hu

theorem le_maxDate (epoch : Int) (ts : List WTxn) : epoch ≤ maxDate epoch ts ∧ ∀ t ∈ ts, t.posted ≤ maxDate epoch ts := by
  unfold maxDate
  induction ts generalizing epoch with
  | nil => simp
  | cons t ts ih =>
    rw [List.foldl_cons]
    obtain ⟨h1, h2⟩ := ih (if epoch < t.posted then t.posted else epoch)
    have h3 : epoch ≤ (if epoch < t.posted then t.posted else epoch) ∧ t.posted ≤ (if epoch < t.posted then t.posted else epoch) := by
      split <;> omega
    refine ⟨by omega, ?_⟩
    intro u hu
    rcases List.mem_cons.mp hu with rfl | hu
    · omega
    · exact h2 u hu

theorem firstDay (y : Int) : goDate y 1 1 = yearStart y := by
  unfold goDate
  simp only
  rw [show ((1:Int) - 1) / 12 = 0 by decide, show ((1:Int) - 1) % 12 + 1 = 1 by decide, Int.add_zero]
  unfold monthStart
  rw [if_pos (by decide)]; omega

theorem lastDay (y : Int) : goDate y 12 31 = yearStart (y + 1) - 1 := by
  have h := yearLen y
  unfold goDate
  simp only
  rw [show ((12:Int) - 1) / 12 = 0 by decide, show ((12:Int) - 1) % 12 + 1 = 12 by decide, Int.add_zero]
  unfold monthStart
  cases hl : isLeap y <;> rw [hl] at h <;> simp at h ⊢ <;> omega

theorem yearFirst_le (t : Int) : yearFirst t ≤ t := by
  unfold yearFirst
  rw [firstDay]
  have := (goYear_spec (t / 86400)).1
  omega

theorem le_yearLast (m n : Int) (h : 86400 * n ≤ m) : 86400 * n ≤ yearLast m := by
  unfold yearLast
  rw [lastDay]
  have := (goYear_spec (m / 86400)).2
  omega

/-! ## C118 -/

/-- A loaded ledger whose numbers and dates the page can represent. `accts` and `L` are its accounts, `names` below the full
names of all of them but Root. -/
structure LedgerOk (dflt : Str) (cs : List OutCom) (ps : List OutPrice) (decls accts : List Acct) (L : Links) (ts : List OutTxn) : Prop where
  coms : ComsOk cs
  prices : PricesOk cs ps
  resolved : ResolvedAccounts dflt decls accts L
  noRoot : ∀ a ∈ accts, a.fullName ≠ str "Root" → ¬ IsLastPart a.fullName (str "Root")
  acctCom : ∀ a ∈ accts, ∃ c ∈ cs, c.id = a.commodityId
  closed : ∀ a ∈ accts, ∀ d, a.closed = some d → DateOk d
  txns : TxnsOk cs ((accts.map (·.fullName)).filter (fun n => decide (n ≠ str "Root"))) ts

/-- The page shows the ledger: `pg` holds the commodities, the prices each followed by its reverse, the accounts and the
transactions, all in order, and a range of dates enclosing them, from a first of January to a 31st of December. -/
def Shows (cs : List OutCom) (ps : List OutPrice) (accts : List Acct) (ts : List OutTxn) (pg : Page) : Prop :=
  pg.coms.Perm (cs.map fun c => ⟨0, c.id, c.decimals⟩) ∧
  (pg.prices.length = 2 * ps.length ∧ ∀ (i : Nat) (p : OutPrice), ps[i]? = some p →
    ∃ c d r, c ∈ cs ∧ c.id = p.commodityId ∧ d = Com.mk 0 c.id c.decimals ∧ pg.prices[2 * i]? = some ⟨d, 86400 * p.time, pageAmount p.value⟩ ∧
      pg.prices[2 * i + 1]? = some ⟨(pageAmount p.value).com, 86400 * p.time, ⟨r, d⟩⟩) ∧
  SameAccounts pg.coms accts pg.accts ∧
  pg.txns = ts.map (fun t => ⟨86400 * t.posted, t.description, t.notes, t.code, t.location,
    t.postings.map (fun p => ⟨p.account, pageAmount p.quantity, pageAmount (p.balance.getD ⟨0, ⟨0, [], 0⟩⟩), p.asserted, p.notes, sortedTags (p.tags.getD [])⟩)⟩) ∧
  (∀ t ∈ ts, pg.start ≤ 86400 * t.posted ∧ 86400 * t.posted ≤ pg.stop) ∧
  (∃ y, pg.start = 86400 * goDate y 1 1) ∧ (∃ y, pg.stop = 86400 * goDate y 12 31)

/-- The full statement of C118. -/
def C118_Statement : Prop := ∀ (now epoch : Int) (code location : Str → Str) (dflt : Str) (cs : List OutCom) (ps : List OutPrice) (decls accts : List Acct)
  (L : Links) (ts : List OutTxn), LedgerOk dflt cs ps decls accts L ts →
  ∃ x pg, pageTexts cs ps (outAccts code location accts L) ts = .ok x ∧ loadPage now epoch x = .ok pg ∧ Shows cs ps accts ts pg

/-- **C118** for a ledger with at least one transaction. -/
theorem C118_page_partial (now epoch : Int) (code location : Str → Str) (dflt : Str) (cs : List OutCom) (ps : List OutPrice) (decls accts : List Acct)
    (L : Links) (ts : List OutTxn) (h : LedgerOk dflt cs ps decls accts L ts) (hne : ts ≠ []) :
    ∃ x pg, pageTexts cs ps (outAccts code location accts L) ts = .ok x ∧ loadPage now epoch x = .ok pg ∧ Shows cs ps accts ts pg := by
  obtain ⟨pv, all, p1, p2, p3⟩ := loadPrices_ok cs h.coms ps h.prices
  have hac : ∀ a ∈ accts, ∃ c, findCom (pageComs cs) a.commodityId = some c := by
    intro a ha
    obtain ⟨c, hc, e⟩ := h.acctCom a ha
    exact ⟨wcomOf c, by rw [← e]; exact pageComs_find cs h.coms.1 c hc⟩
  obtain ⟨was, a1, a2⟩ := C117_accounts_partial code location (pageComs cs) dflt decls accts L h.resolved h.noRoot hac h.closed
  rw [parseE_encode] at a1
  have a1 : loadAccounts (pageComs cs) (accountsJson (outAccts code location accts L)) = .ok was := a1
  have hts : TxnsOk cs (was.map (·.fullName)) ts := by
    intro t ht
    refine ⟨(h.txns t ht).1, fun p hp => ?_⟩
    obtain ⟨h1, h2⟩ := (h.txns t ht).2 p hp
    refine ⟨?_, h2⟩
    obtain ⟨hm, hr⟩ := List.mem_filter.mp h1
    obtain ⟨a, ha, e⟩ := List.mem_map.mp hm
    obtain ⟨w, hw, we⟩ := a2.2.1 a ha (by rw [e]; simpa using hr)
    exact List.mem_map.mpr ⟨w, hw, by rw [we, e]⟩
  obtain ⟨tv, t1, t2⟩ := loadTransactions_ok cs h.coms was ts hne hts
  refine ⟨⟨jsonEncode (commoditiesJson cs), jsonEncode pv, jsonEncode (accountsJson (outAccts code location accts L)), jsonEncode tv⟩,
    ⟨pageComs cs, all, was, ts.map wtxnOf, yearFirst (minDate now (ts.map wtxnOf)), yearLast (maxDate epoch (ts.map wtxnOf))⟩, ?_, ?_, ?_⟩
  · unfold pageTexts
    rw [p1, t1]; rfl
  · unfold loadPage
    rw [parseE_encode, parseE_encode, parseE_encode, parseE_encode]
    show (loadCommodities (commoditiesJson cs)).bind _ = _
    rw [loadCommodities_ok cs h.coms.1]
    show (loadPagePrices (pageComs cs) pv).bind _ = _
    rw [p2]
    show (loadAccounts (pageComs cs) (accountsJson (outAccts code location accts L))).bind _ = _
    rw [a1]
    show (loadTransactions (pageComs cs) was tv).bind _ = _
    rw [t2]
    rfl
  · refine ⟨(stableSort_perm _ cs).map wcomOf, ?_, a2, ?_, ?_, ⟨_, rfl⟩, ⟨_, rfl⟩⟩
    · obtain ⟨l1, l2⟩ := pushedPrices_get _ _ p3
      refine ⟨by rw [l1, List.length_map], ?_⟩
      intro i p hi
      obtain ⟨g1, r, g2, g3⟩ := l2 i (wpriceOf cs p) (by rw [List.getElem?_map, hi]; rfl)
      obtain ⟨⟨c, hc, e⟩, _⟩ := h.prices p (List.mem_of_getElem? hi)
      have hf : findCom (pageComs cs) p.commodityId = some (wcomOf c) := by rw [← e]; exact pageComs_find cs h.coms.1 c hc
      have hw : wpriceOf cs p = ⟨wcomOf c, 86400 * p.time, pageAmount p.value⟩ := by unfold wpriceOf; rw [hf]; rfl
      rw [hw] at g1 g3
      unfold wReverse at g3
      obtain ⟨q, _, g3⟩ := bind_ok.mp g3
      injection g3 with g3
      subst g3
      exact ⟨c, wcomOf c, q, hc, e, rfl, g1, g2⟩
    · rfl
    · intro t ht
      have hm : wtxnOf t ∈ ts.map wtxnOf := List.mem_map.mpr ⟨t, ht, rfl⟩
      refine ⟨?_, ?_⟩
      · have h1 := (minDate_le now (ts.map wtxnOf)).2 _ hm
        have h2 := yearFirst_le (minDate now (ts.map wtxnOf))
        have h3 : (wtxnOf t).posted = 86400 * t.posted := rfl
        show yearFirst _ ≤ _
        omega
      · exact le_yearLast _ _ ((le_maxDate epoch (ts.map wtxnOf)).2 _ hm)

/-- **C118 is false** of the code: a ledger without transactions is written as `null`, which the page cannot load. -/
theorem C118_empty_violated : ¬ C118_Statement := by
  intro h
  obtain ⟨L, hr⟩ := resolved_concrete (str "CAD") []
  have hall : ∀ a ∈ createParents (str "CAD") (baseAccounts (str "CAD") []) (baseAccounts (str "CAD") []), a.commodityId = str "CAD" ∧ a.closed = none ∧
      (a.fullName = str "Root" ∨ a.fullName = str "Unbalanced") := by decide +kernel
  obtain ⟨x, pg, h1, h2, _⟩ := h 0 0 (fun _ => []) (fun _ => []) (str "CAD") [⟨str "CAD", [], 2, [], []⟩] [] [] _ L [] {
    coms := ⟨by decide, by decide⟩
    prices := by intro p hp; cases hp
    resolved := hr
    noRoot := by
      intro a ha hne hl
      rcases (hall a ha).2.2 with e | e
      · exact hne e
      · rw [e] at hl
        rcases hl.2 with e' | ⟨pre, e'⟩
        · exact absurd e' (by decide)
        · have : ':' ∈ str "Unbalanced" := by rw [e']; simp
          exact absurd this (by decide)
    acctCom := fun a ha => ⟨_, List.mem_singleton.mpr rfl, (hall a ha).1.symm⟩
    closed := fun a ha d hd => by rw [(hall a ha).2.1] at hd; cases hd
    txns := by intro t ht; cases ht }
  unfold pageTexts at h1
  obtain ⟨p, _, h1⟩ := bind_ok.mp h1
  obtain ⟨t, h3, h1⟩ := bind_ok.mp h1
  injection h1 with h1
  subst h1
  have h3 : t = .null := by
    unfold transactionsJson jsonAll at h3
    injection h3 with h3
    exact h3.symm
  subst h3
  unfold loadPage at h2
  rw [parseE_encode, parseE_encode, parseE_encode, parseE_encode] at h2
  obtain ⟨_, _, h2⟩ := bind_ok.mp h2
  obtain ⟨_, _, h2⟩ := bind_ok.mp h2
  obtain ⟨_, _, h2⟩ := bind_ok.mp h2
  obtain ⟨_, _, h2⟩ := bind_ok.mp h2
  obtain ⟨_, _, h2⟩ := bind_ok.mp h2
  obtain ⟨_, _, h2⟩ := bind_ok.mp h2
  obtain ⟨v, hv, h2⟩ := bind_ok.mp h2
  obtain ⟨_, h4, _⟩ := bind_ok.mp h2
  injection hv with hv
  subst hv
  cases h4

/-- Non-vacuity: a ledger with a price and a transaction. -/
example : ∃ (accts : List Acct) (L : Links), LedgerOk (str "CAD") [⟨str "CAD", str "Dollar", 2, [], []⟩, ⟨str "X", [], 0, [], []⟩]
    [⟨737059, str "X", ⟨1050, ⟨1, str "CAD", 2⟩⟩, []⟩] [⟨str "Assets:Bank", [], str "CAD", none⟩] accts L
    [⟨737060, str "a </script>", [], [], [], [], [⟨str "Assets:Bank", ⟨-500, ⟨1, str "CAD", 2⟩⟩, some ⟨500, ⟨1, str "CAD", 2⟩⟩, true, [], none⟩]⟩] := by
  obtain ⟨L, hr⟩ := resolved_concrete (str "CAD") [⟨str "Assets:Bank", [], str "CAD", none⟩]
  have hall : ∀ a ∈ createParents (str "CAD") (baseAccounts (str "CAD") [⟨str "Assets:Bank", [], str "CAD", none⟩])
      (baseAccounts (str "CAD") [⟨str "Assets:Bank", [], str "CAD", none⟩]), a.commodityId = str "CAD" ∧ a.closed = none ∧
      (a.fullName ≠ str "Root" → (parentAndName a.fullName).2 ≠ str "Root") := by decide +kernel
  refine ⟨_, L, {
    coms := ⟨by decide, by decide⟩
    prices := ?_
    resolved := hr
    noRoot := ?_
    acctCom := fun a ha => ⟨_, List.mem_cons_self, (hall a ha).1.symm⟩
    closed := fun a ha d hd => by rw [(hall a ha).2.1] at hd; cases hd
    txns := ?_ }⟩
  · intro p hp
    rw [List.mem_singleton] at hp; subst hp
    exact ⟨⟨⟨str "X", [], 0, [], []⟩, by simp, rfl⟩, ⟨⟨_, List.mem_cons_self, rfl, rfl⟩, by decide⟩, by decide, by unfold DateOk; decide +kernel⟩
  · intro a ha hne hl
    refine (hall a ha).2.2 hne ?_
    rcases hl.2 with e | ⟨pre, e⟩
    · exact absurd e hne
    · rw [e, parentAndName_some pre _ hl.1]
  · intro t ht
    rw [List.mem_singleton] at ht; subst ht
    refine ⟨by unfold DateOk; decide +kernel, ?_⟩
    intro p hp
    rw [List.mem_singleton] at hp; subst hp
    exact ⟨by decide +kernel, ⟨⟨_, List.mem_cons_self, rfl, rfl⟩, by decide⟩, _, rfl, ⟨_, List.mem_cons_self, rfl, rfl⟩, by decide⟩

end Verif
