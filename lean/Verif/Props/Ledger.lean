import Verif.Lemmas.Ledger
/-!
# Properties C26–C32: resolving transactions

`resolveTransactions env heap txns order = .ok (fin, sorted)`: loading the parsed transactions `txns` (postings in `heap`)
succeeded for the account-map iteration order `order`; `fin` is the state afterwards, `sorted` the transaction list.
-/
namespace Verif

/-- Sum of the numbers of a list of amounts. -/
def total (l : List Amount) : Int := (l.map (·.int)).sum

/-- Quantities of postings that have one. -/
def quantitiesOf (h : Heap) (ps : List PRef) : List Amount := ps.filterMap (fun p => (h p).quantity)

theorem quantitiesOf_sum (h : Heap) (ps : List PRef) : total (quantitiesOf h ps) = (ps.map (qint h)).sum := by
  unfold total quantitiesOf
  induction ps with
  | nil => rfl
  | cons p ps ih =>
    rcases hq : (h p).quantity with _ | q
    · simp only [List.filterMap_cons, hq, ih, List.map_cons, List.sum_cons, qint]; omega
    · simp only [List.filterMap_cons, hq, List.map_cons, List.sum_cons, ih, qint]

/-- The pieces of a successful load. -/
theorem load_parts {env : Env} {heap : Heap} {txns : List Txn} {order : List Str} {fin : Loaded} {sorted : List Txn}
    (h : resolveTransactions env heap txns order = .ok (fin, sorted)) :
    ∃ st, resolveTxns env ⟨heap, Books.empty⟩ txns = .ok st ∧
      checkAll env ⟨st.heap, st.books, fun a => zeroAmount (env.comOf a), []⟩ order = .ok fin ∧
      sorted = stableSort (txnLess fin.heap) txns := by
  simp only [resolveTransactions, bind_ok] at h
  obtain ⟨st, h1, l, h2, h3⟩ := h
  injection h3 with h3
  simp only [Prod.mk.injEq] at h3
  obtain ⟨rfl, rfl⟩ := h3
  exact ⟨st, h1, h2, rfl⟩

theorem phase1 {env : Env} {heap : Heap} {txns : List Txn} (hp : Parsed heap txns) {st : LState}
    (h : resolveTxns env ⟨heap, Books.empty⟩ txns = .ok st) :
    (∀ t ∈ txns, Accepted env heap t) ∧ BInv env heap ([] ++ txns.flatMap (·.postings)) st.books ∧
    SameStatic heap st.heap ∧ (∀ p, (st.heap p).balance = (heap p).balance) ∧
    (∀ p, p ∉ txns.flatMap (·.postings) → st.heap p = heap p) ∧
    (∀ p q, (heap p).quantity = some q → (st.heap p).quantity = some q) ∧
    (∀ t ∈ txns, ∀ p, elided heap t.postings = [p] → ∀ c, SharesCommodity env heap t c →
      ∃ T, sumInto env.conv (zeroAmount c) (stated heap t.postings) = .ok T ∧ (st.heap p).quantity = some T.negated) :=
  resolveTxns_spec txns (BInv.empty env heap) (by simpa using hp.nodup) h

theorem phase2 {env : Env} {heap : Heap} {txns : List Txn} (hp : Parsed heap txns) {st : LState} {fin : Loaded} {order : List Str}
    (hnd : order.Nodup) (h : resolveTxns env ⟨heap, Books.empty⟩ txns = .ok st)
    (h2 : checkAll env ⟨st.heap, st.books, fun a => zeroAmount (env.comOf a), []⟩ order = .ok fin) :
    fin.books.postings = st.books.postings ∧ fin.books.account = st.books.account ∧ SameStatic st.heap fin.heap ∧
    (∀ p, (fin.heap p).quantity = (st.heap p).quantity) ∧
    (∀ p b, (st.heap p).balance = some b → (fin.heap p).balance = some b) ∧
    (∀ p, (∀ a ∈ order, p ∉ st.books.postings a) → fin.heap p = st.heap p ∧ (p ∈ fin.warnings ↔ p ∈ ([] : List PRef))) ∧
    (∀ a, a ∉ order → fin.balance a = zeroAmount (env.comOf a)) ∧
    (∀ a ∈ order, ∃ h h' w, checkLoop env h (zeroAmount (env.comOf a)) (st.books.postings a) = .ok (h', fin.balance a, w) ∧
      (∀ p ∈ st.books.postings a, h p = st.heap p ∧ h' p = fin.heap p ∧ (p ∈ fin.warnings ↔ p ∈ ([] : List PRef) ∨ p ∈ w))) :=
  checkAll_spec (env := env) (st := ⟨st.heap, st.books, fun a => zeroAmount (env.comOf a), []⟩) (fin := fin) order hnd
    (((phase1 hp h).2.1.congr (phase1 hp h).2.2.1).sorted)
    (fun a b p ha hb => by
      have hb1 := (phase1 hp h).2.1
      have e1 := ((hb1.mem a p).mp ha).2
      have e2 := ((hb1.mem b p).mp hb).2
      rw [e1] at e2; injection e2) h2

/-- What a loaded transaction of one commodity looks like. -/
theorem resolved_txn {env : Env} {heap : Heap} {txns : List Txn} (hp : Parsed heap txns) {st : LState}
    (h : resolveTxns env ⟨heap, Books.empty⟩ txns = .ok st) (t : Txn) (ht : t ∈ txns) (c : Com)
    (hc : SharesCommodity env heap t c) (hq : ∀ p ∈ t.postings, ∀ q, (heap p).quantity = some q → q.com = c) :
    (∀ p ∈ t.postings, ∃ q, (st.heap p).quantity = some q ∧ q.com = c) ∧ (t.postings.map (qint st.heap)).sum = 0 ∧
    (∀ p, elided heap t.postings = [p] → (st.heap p).quantity = some ⟨-total (quantitiesOf heap t.postings), c⟩) := by
  obtain ⟨hacc, _, _, _, _, hkeep, hel⟩ := phase1 hp h
  have hacc := hacc t ht
  have hnd : t.postings.Nodup := (List.nodup_flatMap.mp hp.nodup).1 t ht
  by_cases hnil : t.postings = []
  · rw [hnil]; simp [elided]
  obtain ⟨hlen, T, hT, hz⟩ := hacc.2.2 c hnil hc
  have hcom : ∀ q ∈ stated heap t.postings, q.com = c := by
    intro q hqm
    obtain ⟨p, hpm, hpq⟩ := List.mem_filterMap.mp hqm
    exact hq p hpm q hpq
  rw [sumInto_same env.conv c (zeroAmount c) _ rfl hcom] at hT
  injection hT with hT
  have hTi : T.int = total (stated heap t.postings) := by rw [← hT]; simp [zeroAmount, total]
  have hTc : T.com = c := by rw [← hT]
  rcases hels : elided heap t.postings with _ | ⟨e, l⟩
  · have hall : ∀ p ∈ t.postings, ∃ q, (heap p).quantity = some q := by
      intro p hpm
      rw [elided, List.filter_eq_nil_iff] at hels
      have := hels p hpm
      cases hx : (heap p).quantity with
      | none => simp [hx] at this
      | some q => exact ⟨q, rfl⟩
    have hsame : ∀ p ∈ t.postings, (st.heap p).quantity = (heap p).quantity := by
      intro p hpm; obtain ⟨q, hq'⟩ := hall p hpm; rw [hkeep p q hq', hq']
    refine ⟨?_, ?_, by simp⟩
    · intro p hpm
      obtain ⟨q, hq'⟩ := hall p hpm
      exact ⟨q, by rw [hsame p hpm, hq'], hq p hpm q hq'⟩
    · have e1 : t.postings.map (qint st.heap) = t.postings.map (qint heap) := by
        apply List.map_congr_left; intro p hpm; unfold qint; rw [hsame p hpm]
      rw [e1, ← quantitiesOf_sum]
      have := hz hels
      rw [hTi] at this; exact this
  · have hl : l = [] := by rw [hels] at hlen; simpa using hlen
    subst hl
    obtain ⟨T', hT', hset⟩ := hel t ht e hels c hc
    rw [sumInto_same env.conv c (zeroAmount c) _ rfl hcom] at hT'
    injection hT' with hT'
    have hTT : T' = T := by rw [← hT', hT]
    subst hTT
    have hem : e ∈ elided heap t.postings := by rw [hels]; simp
    simp only [elided, List.mem_filter, decide_eq_true_eq] at hem
    have hothers : ∀ p ∈ t.postings, p ≠ e → ∃ q, (heap p).quantity = some q := by
      intro p hpm hpe
      cases hx : (heap p).quantity with
      | some q => exact ⟨q, rfl⟩
      | none =>
        have : p ∈ elided heap t.postings := by simp [elided, hpm, hx]
        rw [hels] at this; simp at this; exact absurd this hpe
    have hval : (st.heap e).quantity = some ⟨-total (quantitiesOf heap t.postings), c⟩ := by
      rw [hset, Amount.negated, hTi, hTc]; rfl
    refine ⟨?_, ?_, ?_⟩
    · intro p hpm
      by_cases hpe : p = e
      · subst hpe; exact ⟨_, hval, rfl⟩
      · obtain ⟨q, hq'⟩ := hothers p hpm hpe
        exact ⟨q, hkeep p q hq', hq p hpm q hq'⟩
    · obtain ⟨l1, l2, hsplit⟩ := List.append_of_mem hem.1
      have hne : ∀ p ∈ l1 ++ l2, qint st.heap p = qint heap p := by
        intro p hpm
        have hpm' : p ∈ t.postings := by rw [hsplit]; simp at hpm ⊢; tauto
        have hpe : p ≠ e := by
          rintro rfl
          rw [hsplit] at hnd
          have := (List.nodup_middle.mp hnd)
          exact (List.nodup_cons.mp this).1 hpm
        obtain ⟨q, hq'⟩ := hothers p hpm' hpe
        unfold qint; rw [hkeep p q hq', hq']
      have he0 : qint heap e = 0 := by unfold qint; rw [hem.2]
      have hqe : qint st.heap e = -total (quantitiesOf heap t.postings) := by unfold qint; rw [hval]
      rw [quantitiesOf_sum, hsplit] at hqe
      rw [hsplit]
      simp only [List.map_append, List.map_cons, List.sum_append, List.sum_cons] at hqe ⊢
      rw [List.map_congr_left (fun p hp => hne p (by simp [hp])) (l := l1),
        List.map_congr_left (fun p hp => hne p (by simp [hp])) (l := l2), hqe, he0]
      ring
    · intro p hpe
      simp only [List.cons.injEq, and_true] at hpe
      subst hpe; exact hval

/-! ## C26 -/

/-- **C26** Once loaded, every transaction whose accounts share one commodity `c` and whose stated quantities are in `c` has a
quantity in `c` on every posting, and these sum exactly to zero. -/
theorem C26_loaded_balanced (env : Env) (heap : Heap) (txns : List Txn) (order : List Str) (fin : Loaded) (sorted : List Txn)
    (hp : Parsed heap txns) (hnd : order.Nodup) (h : resolveTransactions env heap txns order = .ok (fin, sorted))
    (t : Txn) (ht : t ∈ txns) (c : Com) (hc : SharesCommodity env heap t c)
    (hq : ∀ p ∈ t.postings, ∀ q, (heap p).quantity = some q → q.com = c) :
    (∀ p ∈ t.postings, ∃ q, (fin.heap p).quantity = some q ∧ q.com = c) ∧ total (quantitiesOf fin.heap t.postings) = 0 := by
  obtain ⟨st, h1, h2, _⟩ := load_parts h
  obtain ⟨g1, g2, _⟩ := resolved_txn hp h1 t ht c hc hq
  have hqf := (phase2 hp hnd h1 h2).2.2.2.1
  refine ⟨fun p hpm => ?_, ?_⟩
  · rw [hqf p]; exact g1 p hpm
  · rw [quantitiesOf_sum, ← g2]
    congr 1
    apply List.map_congr_left
    intro p _; unfold qint; rw [hqf p]

/-! ## C27 -/

/-- **C27** (transactions) The transaction phase succeeds exactly when every transaction is acceptable: all its accounts are
found; if the accounts have different commodities no quantity is missing; if they share a commodity at most one quantity is
missing, the stated ones can be added up in it, and they add up to zero when none is missing. -/
theorem C27_transactions_accepted_iff (env : Env) (heap : Heap) (txns : List Txn) (hp : Parsed heap txns) :
    (∃ st, resolveTxns env ⟨heap, Books.empty⟩ txns = .ok st) ↔
    ∀ t ∈ txns, (∀ p ∈ t.postings, ∃ a, env.find (heap p).accountName = .ok a) ∧
      ((¬ ∃ c, SharesCommodity env heap t c) → ∀ p ∈ t.postings, (heap p).quantity ≠ none) ∧
      (∀ c, t.postings ≠ [] → SharesCommodity env heap t c →
        (t.postings.filter (fun p => decide ((heap p).quantity = none))).length ≤ 1 ∧
        ∃ T, sumInto env.conv (zeroAmount c) (quantitiesOf heap t.postings) = .ok T ∧
          ((∀ p ∈ t.postings, (heap p).quantity ≠ none) → T.int = 0)) := by
  have key : ∀ t, Accepted env heap t ↔ ((∀ p ∈ t.postings, ∃ a, env.find (heap p).accountName = .ok a) ∧
      ((¬ ∃ c, SharesCommodity env heap t c) → ∀ p ∈ t.postings, (heap p).quantity ≠ none) ∧
      (∀ c, t.postings ≠ [] → SharesCommodity env heap t c →
        (t.postings.filter (fun p => decide ((heap p).quantity = none))).length ≤ 1 ∧
        ∃ T, sumInto env.conv (zeroAmount c) (quantitiesOf heap t.postings) = .ok T ∧
          ((∀ p ∈ t.postings, (heap p).quantity ≠ none) → T.int = 0))) := by
    intro t
    have e : elided heap t.postings = [] ↔ ∀ p ∈ t.postings, (heap p).quantity ≠ none := by
      rw [elided, List.filter_eq_nil_iff]; simp
    unfold Accepted
    simp only [e]
    exact Iff.rfl
  constructor
  · rintro ⟨st, h⟩ t ht
    exact (key t).mp ((phase1 hp h).1 t ht)
  · intro h
    exact resolveTxns_total txns (BInv.empty env heap) (by simpa using hp.nodup) (fun t ht => (key t).mpr (h t ht))

/-- **C27** (whole load) For ledgers whose quantities and asserted balances are written in the account's commodity – no
conversion involved – loading succeeds exactly when every transaction is well formed; so it fails (exits) exactly if some account
cannot be found, a mixed transaction has a missing quantity, a single-commodity transaction has two missing quantities, or
has none missing and a non-zero sum. -/
theorem C27_load_succeeds_iff (env : Env) (heap : Heap) (txns : List Txn) (order : List Str) (hp : Parsed heap txns) (hnd : order.Nodup)
    (hq : ∀ t ∈ txns, ∀ p ∈ t.postings, ∀ a, env.find (heap p).accountName = .ok a →
      (∀ q, (heap p).quantity = some q → q.com = env.comOf a) ∧ (∀ b, (heap p).balance = some b → b.com = env.comOf a)) :
    (∃ r, resolveTransactions env heap txns order = .ok r) ↔
    ∀ t ∈ txns, (∀ p ∈ t.postings, ∃ a, env.find (heap p).accountName = .ok a) ∧
      ((¬ ∃ c, SharesCommodity env heap t c) → ∀ p ∈ t.postings, (heap p).quantity ≠ none) ∧
      ((∃ c, SharesCommodity env heap t c) →
        (t.postings.filter (fun p => decide ((heap p).quantity = none))).length ≤ 1 ∧
        ((∀ p ∈ t.postings, (heap p).quantity ≠ none) → total (quantitiesOf heap t.postings) = 0)) := by
  have hcom : ∀ t ∈ txns, (∀ p ∈ t.postings, ∃ a, env.find (heap p).accountName = .ok a) → ∀ c, SharesCommodity env heap t c →
      ∀ q ∈ quantitiesOf heap t.postings, q.com = c := by
    intro t ht hf c hc q hqm
    obtain ⟨p, hpm, hpq⟩ := List.mem_filterMap.mp hqm
    obtain ⟨a, ha⟩ := hf p hpm
    rw [((hq t ht p hpm a ha).1 q hpq), hc p hpm a ha]
  constructor
  · rintro ⟨⟨fin, sorted⟩, h⟩ t ht
    obtain ⟨st, h1, _, _⟩ := load_parts h
    obtain ⟨g1, g2, g3⟩ := (C27_transactions_accepted_iff env heap txns hp).mp ⟨st, h1⟩ t ht
    refine ⟨g1, g2, ?_⟩
    rintro ⟨c, hc⟩
    by_cases hnil : t.postings = []
    · rw [hnil]; simp [quantitiesOf, total]
    · obtain ⟨k1, T, hT, k2⟩ := g3 c hnil hc
      rw [sumInto_same env.conv c (zeroAmount c) _ rfl (hcom t ht g1 c hc)] at hT
      injection hT with hT
      refine ⟨k1, fun hall => ?_⟩
      have := k2 hall
      rw [← hT] at this; simpa [zeroAmount, total] using this
  · intro h
    obtain ⟨st, hst⟩ := (C27_transactions_accepted_iff env heap txns hp).mpr (fun t ht => by
      obtain ⟨g1, g2, g3⟩ := h t ht
      refine ⟨g1, g2, fun c _ hc => ?_⟩
      obtain ⟨k1, k2⟩ := g3 ⟨c, hc⟩
      refine ⟨k1, _, sumInto_same env.conv c (zeroAmount c) _ rfl (hcom t ht g1 c hc), fun hall => ?_⟩
      simpa [zeroAmount, total] using k2 hall)
    obtain ⟨_, hb, hstat, hbal, _, hkeep, hel⟩ := phase1 hp hst
    -- every listed posting has a quantity in its account's commodity
    have hlist : ∀ a p, p ∈ st.books.postings a → (∃ q, (st.heap p).quantity = some q ∧ q.com = env.comOf a) ∧
        (∀ b, (st.heap p).balance = some b → b.com.decimals = (env.comOf a).decimals) := by
      intro a p hpm
      obtain ⟨hm, ha⟩ := (hb.mem a p).mp hpm
      simp only [List.nil_append] at hm
      obtain ⟨t, ht, hpt⟩ := List.mem_flatMap.mp hm
      refine ⟨?_, ?_⟩
      · cases hx : (heap p).quantity with
        | some q => exact ⟨q, hkeep p q hx, (hq t ht p hpt a ha).1 q hx⟩
        | none =>
          obtain ⟨g1, g2, g3⟩ := h t ht
          have hsc : ∃ c, SharesCommodity env heap t c := by
            by_contra hno; exact g2 hno p hpt hx
          obtain ⟨c, hc⟩ := hsc
          have hmem : p ∈ elided heap t.postings := by simp [elided, hpt, hx]
          have hlen := (g3 ⟨c, hc⟩).1
          have hsing : elided heap t.postings = [p] := by
            change (elided heap t.postings).length ≤ 1 at hlen
            rcases hels : elided heap t.postings with _ | ⟨e, l⟩
            · rw [hels] at hmem; simp at hmem
            · rw [hels] at hlen hmem
              have : l = [] := by simpa using hlen
              subst this; simp at hmem; rw [hmem]
          obtain ⟨T, hT, hset⟩ := hel t ht p hsing c hc
          have hTc := sumInto_com env.conv c _ T _ rfl hT
          exact ⟨_, hset, by rw [Amount.negated]; simp only; rw [hTc, hc p hpt a ha]⟩
      · intro b hbb
        rw [hbal] at hbb
        rw [(hq t ht p hpt a ha).2 b hbb]
    have hsorted : ∀ a, SortedBy (fun p => (st.heap p).posted) (st.books.postings a) := (hb.congr hstat).sorted
    have hown : ∀ a b p, p ∈ st.books.postings a → p ∈ st.books.postings b → a = b := by
      intro a b p ha hb'
      have e1 := ((hb.mem a p).mp ha).2
      have e2 := ((hb.mem b p).mp hb').2
      rw [e1] at e2; injection e2
    have gen : ∀ (order : List Str) (st0 : Loaded), order.Nodup → st0.books.postings = st.books.postings →
        SameStatic st.heap st0.heap → (∀ p, (st0.heap p).quantity = (st.heap p).quantity) →
        (∀ a ∈ order, ∀ p ∈ st.books.postings a, (st0.heap p).balance = (st.heap p).balance) →
        ∃ fin, checkAll env st0 order = .ok fin := by
      intro order
      induction order with
      | nil => intro st0 _ _ _ _ _; exact ⟨_, rfl⟩
      | cons a rest ih =>
        intro st0 hnd e1 e2 e3 e4
        obtain ⟨hna, hnd'⟩ := List.nodup_cons.mp hnd
        have es : (fun p => (st0.heap p).posted) = fun p => (st.heap p).posted := by funext p; exact (e2 p).1
        have hid : sortPostings st0.heap (st0.books.postings a) = st.books.postings a := by
          rw [e1]; apply sortPostings_id; rw [es]; exact hsorted a
        obtain ⟨⟨h', bal', w⟩, hr⟩ := checkLoop_total (env := env) (h := st0.heap) (bal := zeroAmount (env.comOf a)) (env.comOf a) rfl
          (st.books.postings a) (hb.nodup a)
          (fun p hpm => by rw [e3]; exact (hlist a p hpm).1)
          (fun p hpm b hbb => (hlist a p hpm).2 b (by rw [← e4 a (by simp) p hpm]; exact hbb))
        have hfr := checkLoop_frame _ hr
        obtain ⟨fin, hfin⟩ := ih ⟨h', st0.books.setPostings a (st.books.postings a), fun x => if x = a then bal' else st0.balance x,
            st0.warnings ++ w⟩ hnd'
          (by funext x; simp only [Books.setPostings]; split
              · rename_i e; rw [e]
              · rw [e1])
          (e2.trans hfr.2.1) (fun p => by rw [hfr.1, e3])
          (fun b hbm p hpm => by
            have hpa : p ∉ st.books.postings a := by
              intro hpa; have := hown a b p hpa hpm; subst this; exact hna hbm
            simp only
            rw [hfr.2.2.1 p hpa]; exact e4 b (by simp [hbm]) p hpm)
        refine ⟨fin, ?_⟩
        simp only [checkAll, hid, bind_ok]
        exact ⟨_, hr, hfin⟩
    obtain ⟨fin, hfin⟩ := gen order ⟨st.heap, st.books, fun a => zeroAmount (env.comOf a), []⟩ hnd rfl (SameStatic.refl _) (fun _ => rfl) (fun _ _ _ _ => rfl)
    refine ⟨(fin, stableSort (txnLess fin.heap) txns), ?_⟩
    simp only [resolveTransactions, bind_ok]
    exact ⟨st, hst, fin, hfin, rfl⟩

/-! ## C28 -/

/-- **C28** Loading keeps every stated quantity; in a transaction of one commodity with a single missing quantity that one becomes
minus the sum of the stated ones, which is the only amount making the transaction sum to zero. -/
theorem C28_elided_amount (env : Env) (heap : Heap) (txns : List Txn) (order : List Str) (fin : Loaded) (sorted : List Txn)
    (hp : Parsed heap txns) (hnd : order.Nodup) (h : resolveTransactions env heap txns order = .ok (fin, sorted)) :
    (∀ p q, (heap p).quantity = some q → (fin.heap p).quantity = some q) ∧
    (∀ t ∈ txns, ∀ c, SharesCommodity env heap t c → (∀ p ∈ t.postings, ∀ q, (heap p).quantity = some q → q.com = c) →
      ∀ p ∈ t.postings, (heap p).quantity = none →
        ∃ q, (fin.heap p).quantity = some q ∧ q.com = c ∧ q.int + total (quantitiesOf heap t.postings) = 0) := by
  obtain ⟨st, h1, h2, _⟩ := load_parts h
  have hqf := (phase2 hp hnd h1 h2).2.2.2.1
  obtain ⟨hacc, _, _, _, _, hkeep, _⟩ := phase1 hp h1
  refine ⟨fun p q hq => by rw [hqf]; exact hkeep p q hq, ?_⟩
  intro t ht c hc hq p hpm hnone
  have hmem : p ∈ elided heap t.postings := by simp [elided, hpm, hnone]
  have hlen := ((hacc t ht).2.2 c (by intro h0; rw [h0] at hpm; simp at hpm) hc).1
  have hsing : elided heap t.postings = [p] := by
    change (elided heap t.postings).length ≤ 1 at hlen
    rcases hels : elided heap t.postings with _ | ⟨e, l⟩
    · rw [hels] at hmem; simp at hmem
    · rw [hels] at hlen hmem
      have : l = [] := by simpa using hlen
      subst this; simp at hmem; rw [hmem]
  obtain ⟨_, _, g3⟩ := resolved_txn hp h1 t ht c hc hq
  exact ⟨_, by rw [hqf]; exact g3 p hsing, rfl, by simp⟩

/-! ## C29, C30 -/

/-- The common core of C29 and C30 for one account. -/
theorem account_check {env : Env} {heap : Heap} {txns : List Txn} {order : List Str} {fin : Loaded} {sorted : List Txn}
    (hp : Parsed heap txns) (hnd : order.Nodup) (h : resolveTransactions env heap txns order = .ok (fin, sorted))
    (a : Str) (ha : a ∈ order) (hq : ∀ p ∈ fin.books.postings a, ∀ q, (fin.heap p).quantity = some q → q.com = env.comOf a) :
    fin.balance a = ⟨((fin.books.postings a).map (qint fin.heap)).sum, env.comOf a⟩ ∧
    (∀ l1 p l2, fin.books.postings a = l1 ++ p :: l2 → (heap p).balance = none →
      (fin.heap p).balance = some ⟨((l1 ++ [p]).map (qint fin.heap)).sum, env.comOf a⟩) ∧
    (∀ l1 p l2, fin.books.postings a = l1 ++ p :: l2 → ∀ b, (heap p).balance = some b → b.com.decimals = (env.comOf a).decimals →
      (p ∈ fin.warnings ↔ b.int ≠ ((l1 ++ [p]).map (qint fin.heap)).sum)) ∧
    (∀ p ∈ fin.books.postings a, p ∈ fin.warnings → ∃ b, (heap p).balance = some b) := by
  obtain ⟨st, h1, h2, _⟩ := load_parts h
  obtain ⟨g1, _, _, g4, _, _, _, g8⟩ := phase2 hp hnd h1 h2
  obtain ⟨_, hb, _, hbal, _, _, _⟩ := phase1 hp h1
  obtain ⟨hh, h', w, hr, hcl⟩ := g8 a ha

  rw [g1] at hq ⊢
  have hqi : ∀ l : List PRef, (∀ x ∈ l, x ∈ st.books.postings a) → l.map (qint hh) = l.map (qint fin.heap) := by
    intro l hl
    apply List.map_congr_left
    intro x hx
    unfold qint; rw [(hcl x (hl x hx)).1, g4]
  have hbq : ∀ p ∈ st.books.postings a, (hh p).balance = (heap p).balance := by
    intro p hpm; rw [(hcl p hpm).1]; exact hbal p
  obtain ⟨k1, k2, k3, k4⟩ := checkLoop_spec (env := env) (env.comOf a) rfl (st.books.postings a) (hb.nodup a)
    (fun p hpm q hq' => hq p hpm q (by rw [g4, ← (hcl p hpm).1]; exact hq')) hr
  simp only [zeroAmount, zero_add] at k1 k2 k3
  refine ⟨by rw [k1, hqi _ (fun x hx => hx)], ?_, ?_, ?_⟩
  · intro l1 p l2 e hnone
    have hpm : p ∈ st.books.postings a := by rw [e]; simp
    have := k2 l1 p l2 e (by rw [hbq p hpm]; exact hnone)
    rw [(hcl p hpm).2.1, hqi _ (by rw [e]; intro x hx; simp at hx ⊢; tauto)] at this
    exact this
  · intro l1 p l2 e b hbb hd
    have hpm : p ∈ st.books.postings a := by rw [e]; simp
    have := k3 l1 p l2 e b (by rw [hbq p hpm]; exact hbb) hd
    rw [hqi _ (by rw [e]; intro x hx; simp at hx ⊢; tauto)] at this
    rw [← this, (hcl p hpm).2.2]; simp
  · intro p hpm hw
    have hw' := (hcl p hpm).2.2.mp hw
    simp only [List.not_mem_nil, false_or] at hw'
    obtain ⟨b, hbb⟩ := k4 p hw'
    exact ⟨b, by rw [← hbq p hpm]; exact hbb⟩

/-- **C29** After loading, for an account all of whose quantities are in its commodity: the list of its postings is in date
order; the balance recorded on a posting without assertion is the exact sum of the account's postings up to and including it;
the account balance is the sum of all of them. -/
theorem C29_running_balances (env : Env) (heap : Heap) (txns : List Txn) (order : List Str) (fin : Loaded) (sorted : List Txn)
    (hp : Parsed heap txns) (hnd : order.Nodup) (h : resolveTransactions env heap txns order = .ok (fin, sorted))
    (a : Str) (ha : a ∈ order) (hq : ∀ p ∈ fin.books.postings a, ∀ q, (fin.heap p).quantity = some q → q.com = env.comOf a) :
    (fin.books.postings a).Pairwise (fun p q => (heap p).posted ≤ (heap q).posted) ∧
    (∀ p, p ∈ fin.books.postings a ↔ (∃ t ∈ txns, p ∈ t.postings) ∧ env.find (heap p).accountName = .ok a) ∧
    (∀ l1 p l2, fin.books.postings a = l1 ++ p :: l2 → (heap p).asserted = false →
      (fin.heap p).balance = some ⟨total (quantitiesOf fin.heap (l1 ++ [p])), env.comOf a⟩) ∧
    fin.balance a = ⟨total (quantitiesOf fin.heap (fin.books.postings a)), env.comOf a⟩ := by
  obtain ⟨st, h1, h2, _⟩ := load_parts h
  have g1 := (phase2 hp hnd h1 h2).1
  have hb := (phase1 hp h1).2.1
  obtain ⟨k1, k2, _, _⟩ := account_check hp hnd h a ha hq

  refine ⟨by rw [g1]; exact hb.sorted a, ?_, ?_, ?_⟩
  · intro p
    rw [g1, hb.mem]
    simp only [List.nil_append, List.mem_flatMap]; exact Iff.rfl
  · intro l1 p l2 e has
    rw [quantitiesOf_sum]
    apply k2 l1 p l2 e
    have := hp.asserted p
    rw [has] at this
    cases hx : (heap p).balance with
    | none => rfl
    | some b => rw [hx] at this; simp at this
  · rw [quantitiesOf_sum]; exact k1

/-- **C30** Asserted balances are never altered, and in an account whose quantities are in its commodity a warning is printed for
exactly those asserted postings (assertion in the account's commodity) whose running sum differs from the assertion; postings
without assertion never cause one. Assertions do not enter the running sums. -/
theorem C30_balance_assertions (env : Env) (heap : Heap) (txns : List Txn) (order : List Str) (fin : Loaded) (sorted : List Txn)
    (hp : Parsed heap txns) (hnd : order.Nodup) (h : resolveTransactions env heap txns order = .ok (fin, sorted)) :
    (∀ p b, (heap p).asserted = true → (heap p).balance = some b → (fin.heap p).balance = some b ∧ (fin.heap p).asserted = true) ∧
    (∀ a ∈ order, (∀ p ∈ fin.books.postings a, ∀ q, (fin.heap p).quantity = some q → q.com = env.comOf a) →
      (∀ l1 p l2, fin.books.postings a = l1 ++ p :: l2 → ∀ b, (heap p).balance = some b → b.com = env.comOf a →
        (p ∈ fin.warnings ↔ b.int ≠ total (quantitiesOf fin.heap (l1 ++ [p])))) ∧
      (∀ p ∈ fin.books.postings a, (heap p).asserted = false → p ∉ fin.warnings)) := by
  obtain ⟨st, h1, h2, _⟩ := load_parts h
  have g := phase2 hp hnd h1 h2
  have g0 := phase1 hp h1
  refine ⟨?_, ?_⟩
  · intro p b has hb
    refine ⟨g.2.2.2.2.1 p b (by rw [g0.2.2.2.1]; exact hb), ?_⟩
    rw [(g.2.2.1 p).2.2.1]
    exact ((g0.2.2.1 p).2.2.1).trans has
  · intro a ha hq
    obtain ⟨_, _, k3, k4⟩ := account_check hp hnd h a ha hq
    refine ⟨?_, ?_⟩
    · intro l1 p l2 e b hb hbc
      rw [quantitiesOf_sum]
      exact k3 l1 p l2 e b hb (by rw [hbc])
    · intro p hpm has hw
      obtain ⟨b, hb⟩ := k4 p hpm hw
      have := hp.asserted p
      rw [has, hb] at this; simp at this

/-! ## C31 -/

theorem sum_flatMap {α β} (f : β → Int) (g : α → List β) (l : List α) :
    ((l.flatMap g).map f).sum = (l.map (fun a => ((g a).map f).sum)).sum := by
  induction l with
  | nil => rfl
  | cons a l ih => simp [List.flatMap_cons, ih]

/-- **C31** In a loaded ledger of one commodity the balances of all accounts sum to zero. -/
theorem C31_accounting_equation (env : Env) (heap : Heap) (txns : List Txn) (order : List Str) (fin : Loaded) (sorted : List Txn)
    (hp : Parsed heap txns) (hnames : env.names.Nodup) (hord : order.Perm env.names)
    (hfind : ∀ n a, env.find n = .ok a → a ∈ env.names)
    (h : resolveTransactions env heap txns order = .ok (fin, sorted)) (c : Com) (hc : ∀ a, env.comOf a = c)
    (hq : ∀ t ∈ txns, ∀ p ∈ t.postings, ∀ q, (heap p).quantity = some q → q.com = c) :
    (env.names.map (fun a => (fin.balance a).int)).sum = 0 := by
  have hnd : order.Nodup := hord.nodup_iff.mpr hnames
  obtain ⟨st, h1, h2, _⟩ := load_parts h
  have g := phase2 hp hnd h1 h2
  obtain ⟨hacc, hb, _, _, _, _, _⟩ := phase1 hp h1
  have hpost := g.1

  have hshare : ∀ t, SharesCommodity env heap t c := fun t p _ a _ => hc a
  have hqfin : ∀ t ∈ txns, ∀ p ∈ t.postings, ∃ q, (fin.heap p).quantity = some q ∧ q.com = c := fun t ht =>
    (C26_loaded_balanced env heap txns order fin sorted hp hnd h t ht c (hshare t) (hq t ht)).1
  have hbalance : ∀ a ∈ env.names, (fin.balance a).int = ((fin.books.postings a).map (qint fin.heap)).sum := by
    intro a ha
    have := (account_check hp hnd h a (hord.mem_iff.mpr ha) (by
      intro p hpm q hpq
      rw [hpost] at hpm
      obtain ⟨hm, _⟩ := (hb.mem a p).mp hpm
      simp only [List.nil_append] at hm
      obtain ⟨t, ht, hpt⟩ := List.mem_flatMap.mp hm
      obtain ⟨q', hq', hqc⟩ := hqfin t ht p hpt
      rw [hpq] at hq'; injection hq' with hq'; rw [hq', hqc, hc a])).1
    rw [this]
  rw [List.map_congr_left hbalance, ← sum_flatMap]
  have hperm : (env.names.flatMap fin.books.postings).Perm (txns.flatMap (·.postings)) := by
    rw [List.perm_ext_iff_of_nodup]
    · intro p
      rw [List.mem_flatMap]
      constructor
      · rintro ⟨a, _, hpm⟩
        rw [hpost] at hpm
        simpa using ((hb.mem a p).mp hpm).1
      · intro hpm
        obtain ⟨t, ht, hpt⟩ := List.mem_flatMap.mp hpm
        obtain ⟨a, ha⟩ := (hacc t ht).1 p hpt
        refine ⟨a, hfind _ _ ha, ?_⟩
        rw [hpost, hb.mem]; exact ⟨by simpa using hpm, ha⟩
    · rw [List.nodup_flatMap]
      refine ⟨fun a _ => by rw [hpost]; exact hb.nodup a, ?_⟩
      refine hnames.imp ?_
      intro a b hab
      simp only [Function.onFun, List.disjoint_left]
      intro p hpa hpb
      rw [hpost] at hpa hpb
      have e1 := ((hb.mem a p).mp hpa).2
      have e2 := ((hb.mem b p).mp hpb).2
      rw [e1] at e2; injection e2 with e2; exact hab e2
    · exact hp.nodup
  rw [perm_sum_int (hperm.map _), sum_flatMap]
  have : ∀ t ∈ txns, (t.postings.map (qint fin.heap)).sum = 0 := by
    intro t ht
    rw [← quantitiesOf_sum]
    exact (C26_loaded_balanced env heap txns order fin sorted hp hnd h t ht c (hshare t) (hq t ht)).2
  rw [List.map_congr_left this]
  simp

/-! ## C32 -/

theorem txnLess_strictWeak (h : Heap) : StrictWeak (txnLess h) where
  asymm := by
    intro a b
    simp only [txnLess]
    cases hasAssertions h a <;> cases hasAssertions h b <;> simp <;> omega
  negTrans := by
    intro a b c
    simp only [txnLess]
    cases hasAssertions h a <;> cases hasAssertions h b <;> cases hasAssertions h c <;> simp <;> omega

/-- **C32** After loading, the transactions are a permutation of the loaded ones, in date order; on one day those without balance
assertion come first; transactions of the same day and kind keep their input order. -/
theorem C32_transactions_sorted (env : Env) (heap : Heap) (txns : List Txn) (order : List Str) (fin : Loaded) (sorted : List Txn)
    (hp : Parsed heap txns) (hnd : order.Nodup) (h : resolveTransactions env heap txns order = .ok (fin, sorted)) :
    sorted.Perm txns ∧ sorted.Pairwise (fun t u => t.posted ≤ u.posted) ∧
    sorted.Pairwise (fun t u => t.posted = u.posted → (∃ p ∈ t.postings, (heap p).asserted = true) → ∃ p ∈ u.postings, (heap p).asserted = true) ∧
    (∀ (d : Int) (b : Bool), sorted.filter (fun t => decide (t.posted = d) && (t.postings.any (fun p => (heap p).asserted) == b)) =
      txns.filter (fun t => decide (t.posted = d) && (t.postings.any (fun p => (heap p).asserted) == b))) := by
  obtain ⟨st, h1, h2, rfl⟩ := load_parts h
  have hstat := (phase1 hp h1).2.2.1.trans (phase2 hp hnd h1 h2).2.2.1
  have hass : ∀ t : Txn, hasAssertions fin.heap t = t.postings.any (fun p => (heap p).asserted) := by
    intro t; unfold hasAssertions; congr 1; funext p; exact (hstat p).2.2.1
  have hs := stableSort_sorted (txnLess fin.heap) (txnLess_strictWeak _) txns
  refine ⟨stableSort_perm _ _, hs.imp ?_, hs.imp ?_, ?_⟩
  · intro t u htu
    simp only [txnLess, Bool.or_eq_false_iff, decide_eq_false_iff_not] at htu
    omega
  · intro t u htu hd hex
    simp only [txnLess, Bool.or_eq_false_iff, Bool.and_eq_false_iff, decide_eq_false_iff_not] at htu
    rcases htu.2 with (h | h) | h
    · exact absurd hd.symm h
    · rw [hass] at h
      simpa [List.any_eq_true] using h
    · rw [hass] at h
      obtain ⟨p, hpm, hpa⟩ := hex
      rw [List.any_eq_false] at h
      exact absurd hpa (h p hpm)
  · intro d b
    apply stableSort_filter
    intro t u ht hu
    simp only [Bool.and_eq_true, decide_eq_true_eq, beq_iff_eq] at ht hu
    simp only [txnLess, hass, ht.1, hu.1, ht.2, hu.2]
    simp

/-! ## Non-vacuity -/

/-- A small ledger: two accounts in CAD, three transactions out of date order, one elided amount, one (wrong) assertion. -/
def sampleCom : Com := ⟨0, str "CAD", 2⟩
def sampleEnv : Env := ⟨[str "A", str "B"], fun _ => sampleCom, fun n => if n ∈ [str "A", str "B"] then .ok n else .error .panic, fun _ _ => .error .err⟩
def sampleHeap : Heap := fun p =>
  [(⟨5, str "A", some ⟨100, sampleCom⟩, none, false, []⟩ : PData), ⟨5, str "B", none, none, false, []⟩,
   ⟨2, str "A", some ⟨-50, sampleCom⟩, some ⟨-50, sampleCom⟩, true, []⟩, ⟨2, str "B", some ⟨50, sampleCom⟩, none, false, []⟩,
   ⟨2, str "B", some ⟨7, sampleCom⟩, some ⟨58, sampleCom⟩, true, []⟩, ⟨2, str "A", some ⟨-7, sampleCom⟩, none, false, []⟩].getD p
    ⟨0, [], none, none, false, []⟩
def sampleTxns : List Txn := [⟨5, [], str "x", [], [0, 1]⟩, ⟨2, [], str "y", [], [2, 3]⟩, ⟨2, [], str "z", [], [4, 5]⟩]

example : Parsed sampleHeap sampleTxns := by
  refine ⟨by decide, by decide, ?_⟩
  intro p
  by_cases h : p < 6
  · revert h; revert p; decide
  · unfold sampleHeap
    rw [List.getD_eq_getElem?_getD, List.getElem?_eq_none (by simpa using Nat.le_of_not_lt h)]; rfl

def sampleRun : Option (Loaded × List Txn) := (resolveTransactions sampleEnv sampleHeap sampleTxns [str "B", str "A"]).toOption

example : sampleRun.map (fun r => (r.1.books.postings (str "A"), (r.1.balance (str "A")).int, (r.1.balance (str "B")).int)) =
    some ([2, 5, 0], 43, -43) := by decide +kernel
example : sampleRun.map (fun r => (List.range 6).map (fun p => ((r.1.heap p).balance.map (·.int)))) =
    some [some 43, some (-43), some (-50), some 50, some 58, some (-57)] := by decide +kernel
example : sampleRun.map (fun r => (r.1.warnings, r.2.map (·.description))) = some ([4], [str "y", str "z", str "x"]) := by
  decide +kernel

end Verif
