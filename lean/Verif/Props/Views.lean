import Verif.Model.Views
import Verif.Props.PageLoad
import Verif.Props.Date
import Verif.Props.Ledger
/-!
# Properties C119–C122: dates, the register and balances on the page
-/
namespace Verif

/-! ## C119: dates -/

/-- The full statement of C119: whatever the time zone of the browser (12 hours behind to 14 hours ahead of UTC), the page shows a
date of the ledger (loaded as local midnight, C118) as that day. -/
def C119_Statement : Prop := ∀ off d : Int, -43200 ≤ off → off ≤ 50400 → DateOk d → dateToString off (86400 * d) = isoDay d

/-- **C119 (violated)**: one hour east of UTC every date is shown a day early. -/
theorem C119_date_violated : ¬ C119_Statement := by
  intro h
  have := h 3600 739000 (by decide) (by decide) (by unfold DateOk; decide)
  revert this
  decide +kernel

/-- Days are told apart by their text. -/
theorem isoDay_inj (a b : Int) (ha : 0 ≤ goYear a ∧ goYear a ≤ 9999) (hb : 0 ≤ goYear b ∧ goYear b ≤ 9999) (h : isoDay a = isoDay b) : a = b := by
  have key : ∀ n : Int, 0 ≤ goYear n ∧ goYear n ≤ 9999 → ∃ y m d : Str, isoDay n = y ++ '-' :: (m ++ '-' :: d) ∧ Digits y ∧ Digits m ∧ Digits d ∧
      formatDate n = y ++ '/' :: (m ++ '/' :: d) := by
    intro n hn
    have r := goParts_range n
    have hb := monthStart_bounds (isLeap (goYear n)) (goMonth n) ⟨r.1, r.2.1⟩
    refine ⟨padInt (goYear n) 4, padInt (goMonth n) 2, padInt (goDay n) 2, rfl, ?_, ?_, ?_, by unfold formatDate; simp⟩
    · exact (padInt_spec hn.1 (by decide) (by omega)).1
    · exact (padInt_spec (by omega) (by decide) (by omega)).1
    · exact (padInt_spec (by omega) (by decide) (by omega)).1
  obtain ⟨y, m, d, e1, y1, m1, d1, f1⟩ := key a ha
  obtain ⟨y', m', d', e2, y2, m2, d2, f2⟩ := key b hb
  rw [e1, e2] at h
  have hdash : isDigit '-' = false := by decide
  have tail : ∀ (t : Str) (y : Char) (u : Str), '-' :: t = y :: u → isDigit y = false := by
    intro t y u e
    injection e with e _
    rw [← e]; exact hdash
  obtain ⟨rfl, h2⟩ := digits_span y1 y2 hdash (tail _) h
  simp only [List.cons.injEq, true_and] at h2
  obtain ⟨rfl, h3⟩ := digits_span m2 m1 hdash (tail _) h2
  simp only [List.cons.injEq, true_and] at h3
  subst h3
  exact C56_print_injective a b ha hb (by rw [f1, f2])

/-- **C119 (dates)**: at UTC and west of it every date is shown as written; east of it every date is shown a day early. -/
theorem C119_date_partial (off d : Int) (h1 : -86400 < off) (h2 : off < 86400) :
    (off ≤ 0 → dateToString off (86400 * d) = isoDay d) ∧ (0 < off → dateToString off (86400 * d) = isoDay (d - 1)) := by
  unfold dateToString
  constructor
  · intro h
    rw [show (86400 * d - off) / 86400 = d by omega]
  · intro h
    rw [show (86400 * d - off) / 86400 = d - 1 by omega]

/-- So the date shown is wrong exactly east of UTC. -/
theorem C119_date_iff (off d : Int) (h1 : -86400 < off) (h2 : off < 86400) (hd : DateOk d) : dateToString off (86400 * d) = isoDay d ↔ off ≤ 0 := by
  obtain ⟨w, e⟩ := C119_date_partial off d h1 h2
  constructor
  · intro h
    by_contra hn
    rw [e (by omega)] at h
    have hy : 99 ≤ goYear (d - 1) := by
      have hs := goYear_spec d
      have : goYear (yearStart (goYear d) - 1) ≤ goYear (d - 1) := goYear_mono (by omega)
      have e2 : goYear (yearStart (goYear d) - 1) = goYear d - 1 := by
        apply goYear_unique
        · have := yearStart_mono (y := goYear d - 1) (z := goYear d) (by omega); omega
        · rw [show goYear d - 1 + 1 = goYear d by omega]; omega
      have := hd.1
      omega
    have hy2 : goYear (d - 1) ≤ goYear d := goYear_mono (by omega)
    have hd1 := hd.1
    have hd2 := hd.2
    have := isoDay_inj (d - 1) d ⟨by omega, by omega⟩ ⟨by omega, by omega⟩ h
    omega
  · exact w

example : DateOk (goDate 2024 2 29) ∧ dateToString (-18000) (86400 * goDate 2024 2 29) = str "2024-02-29" ∧
    dateToString 3600 (86400 * goDate 2024 2 29) = str "2024-02-28" := by
  refine ⟨by unfold DateOk; decide, ?_, ?_⟩ <;> decide +kernel

/-! ### The range of dates -/

/-- Postings in the order of their dates. -/
def VSorted (l : List VPost) : Prop := l.Pairwise (fun v w => v.txn.posted ≤ w.txn.posted)

/-- On postings in the order of their dates, trimming keeps exactly those in the range. -/
theorem trim_filter (l : List VPost) (hl : VSorted l) (start stop : Int) :
    trimToDateRange l start stop = l.filter (fun v => decide (start ≤ v.txn.posted ∧ v.txn.posted ≤ stop)) := by
  have key : ∀ (l : List VPost), VSorted l → ∀ j, l.findIdx? (fun v => decide (stop < v.txn.posted)) = some j →
      l.take j = l.filter (fun v => decide (v.txn.posted ≤ stop)) := by
    intro l hl
    induction l with
    | nil => intro j h; cases h
    | cons v l ih =>
      intro j h
      obtain ⟨h1, h2⟩ := List.pairwise_cons.mp hl
      rw [List.findIdx?_cons] at h
      split at h
      · next hv =>
        injection h with h; subst h
        have hv : stop < v.txn.posted := by simpa using hv
        rw [List.take_zero]
        symm
        rw [List.filter_eq_nil_iff]
        intro w hw
        simp only [decide_eq_true_eq, not_le]
        rcases List.mem_cons.mp hw with rfl | hw
        · exact hv
        · have := h1 w hw; omega
      · next hv =>
        cases hf : l.findIdx? (fun v => decide (stop < v.txn.posted)) with
        | none => rw [hf] at h; cases h
        | some j' =>
          rw [hf] at h
          simp only [Option.map_some, Option.some.injEq] at h
          subst h
          have hv : v.txn.posted ≤ stop := by simpa using hv
          rw [List.take_succ_cons, List.filter_cons_of_pos (by simpa using hv), ih h2 j' hf]
  have key2 : ∀ (l : List VPost), VSorted l → ∀ i, l.findIdx? (fun v => decide (start ≤ v.txn.posted)) = some i →
      l.drop i = l.filter (fun v => decide (start ≤ v.txn.posted)) := by
    intro l hl
    induction l with
    | nil => intro j h; cases h
    | cons v l ih =>
      intro i h
      obtain ⟨h1, h2⟩ := List.pairwise_cons.mp hl
      rw [List.findIdx?_cons] at h
      split at h
      · next hv =>
        injection h with h; subst h
        have hv : start ≤ v.txn.posted := by simpa using hv
        rw [List.drop_zero]
        symm
        rw [List.filter_eq_self]
        intro w hw
        simp only [decide_eq_true_eq]
        rcases List.mem_cons.mp hw with rfl | hw
        · exact hv
        · have := h1 w hw; omega
      · next hv =>
        cases hf : l.findIdx? (fun v => decide (start ≤ v.txn.posted)) with
        | none => rw [hf] at h; cases h
        | some j' =>
          rw [hf] at h
          simp only [Option.map_some, Option.some.injEq] at h
          subst h
          rw [List.drop_succ_cons, List.filter_cons_of_neg (by simpa using hv), ih h2 j' hf]
  by_cases hss : start ≤ stop
  case neg =>
    have hr : l.filter (fun v => decide (start ≤ v.txn.posted ∧ v.txn.posted ≤ stop)) = [] := by
      rw [List.filter_eq_nil_iff]
      intro v _
      simp only [decide_eq_true_eq]
      omega
    rw [hr]
    unfold trimToDateRange
    cases hi : l.findIdx? (fun v => decide (start ≤ v.txn.posted)) with
    | none => rfl
    | some i =>
      obtain ⟨hil, hip, him⟩ := List.findIdx?_eq_some_iff_getElem.mp hi
      simp only [decide_eq_true_eq] at hip
      cases hj : l.findIdx? (fun v => decide (stop < v.txn.posted)) with
      | none =>
        have := List.findIdx?_eq_none_iff.mp hj l[i] (List.getElem_mem _)
        simp only [decide_eq_false_iff_not, not_lt] at this
        omega
      | some j =>
        dsimp only
        obtain ⟨hjl, hjp, hjm⟩ := List.findIdx?_eq_some_iff_getElem.mp hj
        have : j ≤ i := by
          by_contra hn
          have := hjm i (by omega)
          simp only [decide_eq_true_eq] at this
          omega
        apply List.drop_eq_nil_of_le
        rw [List.length_take]; omega
  unfold trimToDateRange
  cases hi : l.findIdx? (fun v => decide (start ≤ v.txn.posted)) with
  | none =>
    have := List.findIdx?_eq_none_iff.mp hi
    dsimp only
    symm
    rw [List.filter_eq_nil_iff]
    intro v hv
    have := this v hv
    simp only [decide_eq_true_eq, not_and, not_le]
    intro h
    simp [h] at this
  | some i =>
    dsimp only
    cases hj : l.findIdx? (fun v => decide (stop < v.txn.posted)) with
    | none =>
      dsimp only
      rw [key2 l hl i hi]
      apply List.filter_congr
      intro v hv
      have := List.findIdx?_eq_none_iff.mp hj v hv
      simp only [decide_eq_false_iff_not, not_lt] at this
      simp [this]
    | some j =>
      dsimp only
      have hij : i ≤ j := by
        by_contra hn
        have hj' := List.findIdx?_eq_some_iff_getElem.mp hj
        obtain ⟨hjl, hjp, _⟩ := hj'
        obtain ⟨hil, hip, him⟩ := List.findIdx?_eq_some_iff_getElem.mp hi
        have := him j (by omega)
        simp only [decide_eq_true_eq] at hjp this
        omega
      have hs : VSorted (l.take j) := hl.sublist (List.take_sublist _ _)
      by_cases hlt : i < j
      · have hi' : (l.take j).findIdx? (fun v => decide (start ≤ v.txn.posted)) = some i := by
          rw [List.findIdx?_eq_some_iff_getElem] at hi ⊢
          obtain ⟨hil, hip, him⟩ := hi
          refine ⟨by rw [List.length_take]; omega, ?_, ?_⟩
          · rw [List.getElem_take]; exact hip
          · intro k hk; rw [List.getElem_take]; exact him k hk
        rw [key2 _ hs i hi', key l hl j hj, List.filter_filter]
        apply List.filter_congr
        intro v _
        simp
      · have e : i = j := by omega
        subst e
        have h1 : (l.take i).drop i = [] := by
          apply List.drop_eq_nil_of_le; rw [List.length_take]; omega
        rw [h1]
        symm
        rw [List.filter_eq_nil_iff]
        intro v hv
        simp only [decide_eq_true_eq, not_and, not_le]
        intro hvs
        rw [← List.take_append_drop i l] at hv
        rcases List.mem_append.mp hv with hv | hv
        · exfalso
          obtain ⟨k, hk, e⟩ := List.mem_iff_getElem.mp hv
          obtain ⟨hil, hip, him⟩ := List.findIdx?_eq_some_iff_getElem.mp hi
          have := him k (by rw [List.length_take] at hk; omega)
          rw [List.getElem_take] at e
          rw [e] at this
          simp only [decide_eq_true_eq] at this
          exact this hvs
        · obtain ⟨hjl, hjp, _⟩ := List.findIdx?_eq_some_iff_getElem.mp hj
          simp only [decide_eq_true_eq] at hjp
          have hd : l.drop i = l[i] :: l.drop (i + 1) := List.drop_eq_getElem_cons hjl
          have hp : VSorted (l.drop i) := hl.sublist (List.drop_sublist _ _)
          rw [hd] at hv hp
          rcases List.mem_cons.mp hv with rfl | hv
          · exact hjp
          · have := (List.pairwise_cons.mp hp).1 v hv; omega

/-- The postings dated on one of the days from `a` to `b`. -/
def onDays (a b : Int) (l : List VPost) : List VPost := l.filter (fun v => decide (86400 * a ≤ v.txn.posted ∧ v.txn.posted ≤ 86400 * b))

/-- Postings dated at local midnight, as the page loads them (C118). -/
def Midnights (l : List VPost) : Prop := ∀ v ∈ l, ∃ d : Int, v.txn.posted = 86400 * d

/-- The full statement of C119 for the range of dates entered by the user: exactly the postings from the first to the last day are kept. -/
def C119_RangeStatement : Prop := ∀ (off a b : Int) (l : List VPost), -43200 ≤ off → off ≤ 50400 → VSorted l → Midnights l →
  trimToDateRange l (inputDate off a) (inputDate off b) = onDays a b l

/-- **C119 (range)**: at UTC the range is kept exactly; west of UTC the last day is missing, east of it the first. -/
theorem C119_range_partial (off a b : Int) (l : List VPost) (h1 : -86400 < off) (h2 : off < 86400) (hl : VSorted l) (hm : Midnights l) :
    trimToDateRange l (inputDate off a) (inputDate off b) =
      if off = 0 then onDays a b l else if off < 0 then onDays a (b - 1) l else onDays (a + 1) b l := by
  rw [trim_filter l hl]
  unfold onDays inputDate
  split
  · apply List.filter_congr
    intro v _
    rw [decide_eq_decide]; omega
  · split
    · apply List.filter_congr
      intro v hv
      obtain ⟨d, hd⟩ := hm v hv
      rw [decide_eq_decide, hd]; omega
    · apply List.filter_congr
      intro v hv
      obtain ⟨d, hd⟩ := hm v hv
      rw [decide_eq_decide, hd]; omega

/-- A posting of 100 on day 739000. -/
def oneDay : VPost := ⟨⟨86400 * 739000, [], [], [], [], []⟩, 0, ⟨str "Assets", ⟨100, sampleCom⟩, ⟨100, sampleCom⟩, false, [], []⟩⟩

/-- **C119 (range, violated)**: five hours west of UTC a posting on the only day of the range is not shown. -/
theorem C119_range_violated : ¬ C119_RangeStatement := by
  intro h
  have := h (-18000) 739000 739000 [oneDay] (by decide) (by decide) (by unfold VSorted; decide)
    (by intro v hv; rw [List.mem_singleton] at hv; subst hv; exact ⟨739000, rfl⟩)
  revert this
  decide +kernel

example : VSorted [oneDay] ∧ Midnights [oneDay] ∧ trimToDateRange [oneDay] (inputDate 0 739000) (inputDate 0 739001) = [oneDay] := by
  refine ⟨by unfold VSorted; decide, ?_, by decide +kernel⟩
  intro v hv; rw [List.mem_singleton] at hv; subst hv; exact ⟨739000, rfl⟩

/-- **C119 (inputs)** A date the user enters is the date the input shows, in every time zone. -/
theorem C119_input_shown (off n : Int) : inputShows off (inputDate off n) = n := by
  unfold inputShows inputDate
  omega

/-! ## The transactions of a loaded ledger -/

/-- The page's transactions for a loaded ledger (C118). -/
def pageTxns (loc : Txn → Str) (fin : Loaded) (sorted : List Txn) : List WTxn := sorted.map (fun t => wtxnOf (outTxn loc fin t))

/-- **C118 (what a transaction carries)** Each transaction of the page has the day, code, description and notes of the ledger's, at the same
place, and each of its postings the account, amounts, notes and tags of the ledger's posting. -/
theorem C118_loaded_fields (loc : Txn → Str) (fin : Loaded) (sorted : List Txn) :
    List.Forall₂ (fun (t : Txn) (w : WTxn) => w.posted = 86400 * t.posted ∧ w.code = t.code ∧ w.description = t.description ∧ w.notes = t.notes ∧
      w.location = loc t ∧ List.Forall₂ (fun (p : PRef) (x : WPost) => (∀ a, fin.books.account p = some a → x.account = a) ∧
        (∀ q, (fin.heap p).quantity = some q → x.quantity.int = q.int ∧ x.quantity.com.id = q.com.id) ∧
        (∀ b, (fin.heap p).balance = some b → x.balance.int = b.int ∧ x.balance.com.id = b.com.id) ∧
        x.asserted = (fin.heap p).asserted ∧ x.notes = (fin.heap p).notes ∧ x.tags.Perm (parseTags (fin.heap p).notes)) t.postings w.postings)
      sorted (pageTxns loc fin sorted) := by
  unfold pageTxns
  rw [List.forall₂_map_right_iff, List.forall₂_same]
  intro t _
  refine ⟨rfl, rfl, rfl, rfl, rfl, ?_⟩
  show List.Forall₂ _ t.postings ((t.postings.map (outPost fin)).map wpostOf)
  rw [List.map_map, List.forall₂_map_right_iff, List.forall₂_same]
  intro p _
  show (∀ a, fin.books.account p = some a → (fin.books.account p).getD [] = a) ∧ _ ∧ _ ∧ _ ∧ _ ∧ (sortedTags ((parseTags (fin.heap p).notes).toTags.getD [])).Perm _
  refine ⟨fun a ha => by rw [ha]; rfl, ?_, ?_, rfl, rfl, ?_⟩
  · intro q hq
    show (pageAmount ((fin.heap p).quantity.getD _)).int = _ ∧ (pageAmount ((fin.heap p).quantity.getD _)).com.id = _
    rw [hq]; exact ⟨rfl, rfl⟩
  · intro b hb
    show (pageAmount ((fin.heap p).balance.getD _)).int = _ ∧ (pageAmount ((fin.heap p).balance.getD _)).com.id = _
    rw [hb]; exact ⟨rfl, rfl⟩
  · have : (parseTags (fin.heap p).notes).toTags.getD [] = parseTags (fin.heap p).notes := by
      unfold TagMap.toTags
      split
      · rename_i h; rw [h]; rfl
      · rfl
    rw [this]
    exact stableSort_perm _ _

/-- Transactions in the order of their dates. -/
def TxnsSorted (ts : List WTxn) : Prop := ts.Pairwise (fun t u => t.posted ≤ u.posted)

theorem mem_txnPosts {t : WTxn} {v : VPost} : v ∈ txnPosts t ↔ v.txn = t ∧ t.postings[v.idx]? = some v.post := by
  unfold txnPosts
  rw [List.mem_map]
  constructor
  · rintro ⟨⟨p, i⟩, h, rfl⟩
    exact ⟨rfl, List.mem_zipIdx_iff_getElem?.mp h⟩
  · rintro ⟨rfl, h⟩
    exact ⟨(v.post, v.idx), List.mem_zipIdx_iff_getElem?.mpr h, rfl⟩

theorem mem_acctPosts {ts : List WTxn} {a : Str} {v : VPost} :
    v ∈ acctPosts ts a ↔ v.txn ∈ ts ∧ v.txn.postings[v.idx]? = some v.post ∧ v.post.account = a := by
  unfold acctPosts
  rw [List.mem_filter, List.mem_flatMap]
  constructor
  · rintro ⟨⟨t, ht, hv⟩, ha⟩
    obtain ⟨rfl, h⟩ := mem_txnPosts.mp hv
    exact ⟨ht, h, by simpa using ha⟩
  · rintro ⟨h1, h2, h3⟩
    exact ⟨⟨v.txn, h1, mem_txnPosts.mpr ⟨rfl, h2⟩⟩, by simpa using h3⟩

theorem acctPosts_sorted (ts : List WTxn) (h : TxnsSorted ts) (a : Str) : VSorted (acctPosts ts a) := by
  unfold acctPosts
  apply List.Pairwise.filter
  unfold TxnsSorted at h
  induction ts with
  | nil => exact .nil
  | cons t ts ih =>
    obtain ⟨h1, h2⟩ := List.pairwise_cons.mp h
    rw [List.flatMap_cons, List.pairwise_append]
    refine ⟨?_, ih h2, ?_⟩
    · apply List.pairwise_of_forall_mem_list
      intro v hv w hw
      rw [(mem_txnPosts.mp hv).1, (mem_txnPosts.mp hw).1]
    · intro v hv w hw
      obtain ⟨u, hu, hw⟩ := List.mem_flatMap.mp hw
      rw [(mem_txnPosts.mp hv).1, (mem_txnPosts.mp hw).1]
      exact h1 u hu

theorem pageTxns_sorted (loc : Txn → Str) (env : Env) (heap : Heap) (txns : List Txn) (order : List Str) (fin : Loaded) (sorted : List Txn)
    (hp : Parsed heap txns) (hnd : order.Nodup) (h : resolveTransactions env heap txns order = .ok (fin, sorted)) :
    TxnsSorted (pageTxns loc fin sorted) := by
  obtain ⟨_, hs, _⟩ := C32_transactions_sorted env heap txns order fin sorted hp hnd h
  unfold TxnsSorted pageTxns
  rw [List.pairwise_map]
  refine hs.imp ?_
  intro t u htu
  show 86400 * t.posted ≤ 86400 * u.posted
  omega

/-! ### C118 for a loaded ledger -/

theorem checkLoop_balanced {env : Env} : ∀ (ps : List PRef) {h h' : Heap} {bal bal' : Amount} {w : List PRef},
    checkLoop env h bal ps = .ok (h', bal', w) → ∀ p ∈ ps, ∃ b, (h' p).balance = some b := by
  intro ps
  induction ps with
  | nil => intro h h' bal bal' w _ p hp; cases hp
  | cons q ps ih =>
    intro h h' bal bal' w hr p hp
    unfold checkLoop at hr
    split at hr
    · cases hr
    · obtain ⟨b1, _, hr⟩ := bind_ok.mp hr
      split at hr
      · next b hb =>
        obtain ⟨eq, _, hr⟩ := bind_ok.mp hr
        obtain ⟨r, hr1, hr⟩ := bind_ok.mp hr
        injection hr with hr
        simp only [Prod.mk.injEq] at hr
        obtain ⟨r1, r2, r3⟩ := r
        have he : r1 = h' := hr.1
        subst he
        rcases List.mem_cons.mp hp with rfl | hp
        · exact ⟨b, by rw [(checkLoop_frame ps hr1).2.2.2.1 p b hb]; exact hb⟩
        · exact ih hr1 p hp
      · rcases List.mem_cons.mp hp with rfl | hp
        · have hs : ((h.set p { h p with balance := some b1.copy }) p).balance = some b1.copy := by unfold Heap.set; rw [if_pos rfl]
          exact ⟨b1.copy, by rw [(checkLoop_frame ps hr).2.2.2.1 p _ hs]; exact hs⟩
        · exact ih hr p hp

theorem checkAll_balanced {env : Env} : ∀ (order : List Str) {st fin : Loaded}, order.Nodup → (∀ a, SortedBy (fun p => (st.heap p).posted) (st.books.postings a)) →
    checkAll env st order = .ok fin → ∀ a ∈ order, ∀ p ∈ st.books.postings a, ∃ b, (fin.heap p).balance = some b := by
  intro order
  induction order with
  | nil => intro st fin _ _ _ a ha; cases ha
  | cons x rest ih =>
    intro st fin hnd hs hr a ha p hp
    unfold checkAll at hr
    dsimp only at hr
    obtain ⟨r, hr1, hr⟩ := bind_ok.mp hr
    obtain ⟨h', bal', w⟩ := r
    rw [sortPostings_id st.heap _ (hs x)] at hr1 hr
    obtain ⟨f1, f2, f3, f4, f5⟩ := checkLoop_frame _ hr1
    obtain ⟨hx, hnd'⟩ := List.nodup_cons.mp hnd
    have hbooks : (st.books.setPostings x (st.books.postings x)) = st.books := by
      unfold Books.setPostings
      cases st.books with
      | mk ps ac =>
        congr 1
        funext y
        show (if y = x then ps x else ps y) = ps y
        split
        · next e => rw [e]
        · rfl
    rw [hbooks] at hr
    have hs' : ∀ a, SortedBy (fun p => (h' p).posted) (st.books.postings a) := by
      intro a
      have : (fun p => (h' p).posted) = fun p => (st.heap p).posted := by funext p; exact (f2 p).1
      rw [this]; exact hs a
    rcases List.mem_cons.mp ha with rfl | ha
    · obtain ⟨b, hb⟩ := checkLoop_balanced _ hr1 p hp
      -- later accounts do not remove a balance
      have keep : ∀ (order : List Str) {st fin : Loaded}, checkAll env st order = .ok fin → ∀ p b, (st.heap p).balance = some b → (fin.heap p).balance = some b := by
        intro order
        induction order with
        | nil => intro st fin h p b hb; injection h with h; rw [← h]; exact hb
        | cons y rest ih =>
          intro st fin h p b hb
          unfold checkAll at h
          dsimp only at h
          obtain ⟨r, hr1, h⟩ := bind_ok.mp h
          obtain ⟨h', bal', w⟩ := r
          refine ih h p b ?_
          show (h' p).balance = some b
          rw [(checkLoop_frame _ hr1).2.2.2.1 p b hb]; exact hb
      exact ⟨b, keep rest hr p b hb⟩
    · exact ih hnd' hs' hr a ha p hp

/-- Every posting of a loaded ledger has an account of the ledger, a quantity and a balance. -/
theorem loaded_complete {env : Env} {heap : Heap} {txns : List Txn} {order : List Str} {fin : Loaded} {sorted : List Txn} (hp : Parsed heap txns)
    (hnd : order.Nodup) (h : resolveTransactions env heap txns order = .ok (fin, sorted)) (hord : ∀ n a, env.find n = .ok a → a ∈ order)
    (t : Txn) (ht : t ∈ sorted) (p : PRef) (hpt : p ∈ t.postings) :
    ∃ a q b, env.find (heap p).accountName = .ok a ∧ fin.books.account p = some a ∧ (fin.heap p).quantity = some q ∧ (fin.heap p).balance = some b := by
  obtain ⟨st, h1, h2, _⟩ := load_parts h
  obtain ⟨c1, _⟩ := C32_transactions_sorted env heap txns order fin sorted hp hnd h
  have hm : p ∈ [] ++ txns.flatMap (·.postings) := by
    rw [List.nil_append]; exact List.mem_flatMap.mpr ⟨t, c1.mem_iff.mp ht, hpt⟩
  have hbi := (phase1 hp h1).2.1
  have hst := (phase1 hp h1).2.2.1
  obtain ⟨a, ha, hac⟩ := hbi.account p hm
  have hao : a ∈ order := hord _ a ha
  have hpa : p ∈ st.books.postings a := (hbi.mem a p).mpr ⟨hm, ha⟩
  have hsort : ∀ a, SortedBy (fun p => (st.heap p).posted) (st.books.postings a) := fun a => (hbi.congr hst).sorted a
  obtain ⟨b, hb⟩ := checkAll_balanced order hnd hsort h2 a hao p hpa
  have hq : ∃ q, (fin.heap p).quantity = some q := by
    rw [(phase2 hp hnd h1 h2).2.2.2.1]
    -- a posting without quantity stops the check
    have stop : ∀ (ps : List PRef) {h h' : Heap} {bal bal' : Amount} {w : List PRef}, checkLoop env h bal ps = .ok (h', bal', w) → ∀ p ∈ ps, ∃ q, (h p).quantity = some q := by
      intro ps
      induction ps with
      | nil => intro h h' bal bal' w _ p hp; cases hp
      | cons x ps ih =>
        intro h h' bal bal' w hr p hp
        unfold checkLoop at hr
        split at hr
        · cases hr
        · next q hq =>
          rcases List.mem_cons.mp hp with rfl | hp
          · exact ⟨q, hq⟩
          · obtain ⟨b1, _, hr⟩ := bind_ok.mp hr
            split at hr
            · obtain ⟨eq, _, hr⟩ := bind_ok.mp hr
              obtain ⟨r, hr1, hr⟩ := bind_ok.mp hr
              obtain ⟨r1, r2, r3⟩ := r
              exact ih hr1 p hp
            · obtain ⟨q', hq'⟩ := ih hr p hp
              unfold Heap.set at hq'
              split at hq'
              · next e => subst e; exact ⟨q', hq'⟩
              · exact ⟨q', hq'⟩
    have stopAll : ∀ (order : List Str) {st fin : Loaded}, (∀ a, SortedBy (fun p => (st.heap p).posted) (st.books.postings a)) → checkAll env st order = .ok fin → ∀ a ∈ order, ∀ p ∈ st.books.postings a, ∃ q, (st.heap p).quantity = some q := by
      intro order
      induction order with
      | nil => intro st fin _ _ a ha; cases ha
      | cons x rest ih =>
        intro st fin hs hr a ha p hp
        unfold checkAll at hr
        dsimp only at hr
        obtain ⟨r, hr1, hr⟩ := bind_ok.mp hr
        obtain ⟨h', bal', w⟩ := r
        rw [sortPostings_id st.heap _ (hs x)] at hr1 hr
        obtain ⟨f1, f2, _⟩ := checkLoop_frame _ hr1
        rcases List.mem_cons.mp ha with rfl | ha
        · exact stop _ hr1 p hp
        · have hs' : ∀ y, SortedBy (fun p => (h' p).posted) ((st.books.setPostings x (st.books.postings x)).postings y) := by
            intro y
            have e : (fun p => (h' p).posted) = fun p => (st.heap p).posted := by funext p; exact (f2 p).1
            rw [e]
            show SortedBy _ (if y = x then st.books.postings x else st.books.postings y)
            split
            · exact hs x
            · exact hs y
          obtain ⟨q, hq⟩ := ih hs' hr a ha p (by
            show p ∈ (if a = x then st.books.postings x else st.books.postings a)
            split
            · next e => rw [← e]; exact hp
            · exact hp)
          exact ⟨q, by rw [← f1]; exact hq⟩
    exact stopAll order hsort h2 a hao p hpa
  obtain ⟨q, hq⟩ := hq
  exact ⟨a, q, b, ha, by rw [(phase2 hp hnd h1 h2).2.1]; exact hac, hq, hb⟩

/-- **C118 (from the loaded ledger)**: the page of a successfully loaded ledger with at least one transaction loads and shows it.
Accounts, commodities and prices as in C118; dates from the year 100 to 9999, amounts of known commodities up to 2^53 units, no
posting to Root itself. -/
theorem C118_loaded_partial (now epoch : Int) (code location : Str → Str) (loc : Txn → Str) (dflt : Str) (cs : List OutCom) (ps : List OutPrice)
    (decls accts : List Acct) (L : Links) (env : Env) (heap : Heap) (txns : List Txn) (order : List Str) (fin : Loaded) (sorted : List Txn)
    (hcs : ComsOk cs) (hps : PricesOk cs ps) (hres : ResolvedAccounts dflt decls accts L)
    (hroot : ∀ a ∈ accts, a.fullName ≠ str "Root" → ¬ IsLastPart a.fullName (str "Root")) (hac : ∀ a ∈ accts, ∃ c ∈ cs, c.id = a.commodityId)
    (hcl : ∀ a ∈ accts, ∀ d, a.closed = some d → DateOk d)
    (hp : Parsed heap txns) (hne : txns ≠ []) (hord : order.Perm (accts.map (·.fullName))) (hnd : order.Nodup)
    (hfind : ∀ n a, env.find n = .ok a → a ∈ accts.map (·.fullName) ∧ a ≠ str "Root")
    (h : resolveTransactions env heap txns order = .ok (fin, sorted)) (hdate : ∀ t ∈ txns, DateOk t.posted)
    (hamt : ∀ t ∈ txns, ∀ p ∈ t.postings, ∀ x, (fin.heap p).quantity = some x ∨ (fin.heap p).balance = some x → AmountOk cs x) :
    ∃ x pg, pageTexts cs ps (outAccts code location accts L) (sorted.map (outTxn loc fin)) = .ok x ∧ loadPage now epoch x = .ok pg ∧
      Shows cs ps accts (sorted.map (outTxn loc fin)) pg := by
  obtain ⟨c1, _⟩ := C32_transactions_sorted env heap txns order fin sorted hp hnd h
  refine C118_page_partial now epoch code location dflt cs ps decls accts L _ ⟨hcs, hps, hres, hroot, hac, hcl, ?_⟩ ?_
  · intro u hu
    obtain ⟨t, ht, rfl⟩ := List.mem_map.mp hu
    have ht' := c1.mem_iff.mp ht
    refine ⟨hdate t ht', ?_⟩
    intro op hop
    obtain ⟨p, hpm, rfl⟩ := List.mem_map.mp hop
    obtain ⟨a, q, b, ha, hac, hq, hb⟩ := loaded_complete hp hnd h (fun n a hn => hord.mem_iff.mpr (hfind n a hn).1) t ht p hpm
    refine ⟨?_, ?_, b, hb, hamt t ht' p hpm b (.inr hb)⟩
    · show (fin.books.account p).getD [] ∈ _
      rw [hac]
      obtain ⟨f1, f2⟩ := hfind _ a ha
      exact List.mem_filter.mpr ⟨f1, by simpa using f2⟩
    · show AmountOk cs ((fin.heap p).quantity.getD _)
      rw [hq]
      exact hamt t ht' p hpm q (.inl hq)
  · intro e
    rw [List.map_eq_nil_iff] at e
    rw [e] at c1
    exact hne c1.symm.eq_nil

/-! ## C120: the register -/

/-- Sums of the first quantities, which must be exactly representable. -/
def SumsFit (com : Com) (l : List VPost) : Prop :=
  (∀ v ∈ l, v.post.quantity.com = com) ∧ ∀ k : Nat, ((l.take k).map (fun v : VPost => v.post.quantity.int)).sum.natAbs ≤ 2 ^ 53

theorem vRows_spec (conv : Com → Amount → Int → Except Fault Amount) (off : Int) (com : Com) : ∀ (l : List VPost) (t : Int) (rows : List VRow),
    (∀ v ∈ l, v.post.quantity.com = com) → (∀ k : Nat, (t + ((l.take k).map (fun v : VPost => v.post.quantity.int)).sum).natAbs ≤ 2 ^ 53) →
    vRows conv off ⟨t, com⟩ l = .ok rows →
    rows.length = l.length ∧ ∀ (i : Nat) (v : VPost), l[i]? = some v → ∃ r o, rows[i]? = some r ∧ vOther v = .ok o ∧
      r = ⟨dateToString off v.txn.posted, v.txn.description, o.post.account, v.post.quantity, v.post.balance,
        ⟨t + ((l.take (i + 1)).map (fun v : VPost => v.post.quantity.int)).sum, com⟩⟩ := by
  intro l
  induction l with
  | nil => intro t rows _ _ h; injection h with h; subst h; simp
  | cons v l ih =>
    intro t rows hc hf h
    unfold vRows at h
    obtain ⟨t1, h1, h⟩ := bind_ok.mp h
    obtain ⟨o, h2, h⟩ := bind_ok.mp h
    obtain ⟨rest, h3, h⟩ := bind_ok.mp h
    injection h with h; subst h
    unfold wAddIn at h1
    rw [if_pos (by exact hc v List.mem_cons_self)] at h1
    injection h1 with h1
    have hb : (t + v.post.quantity.int).natAbs ≤ 2 ^ 53 := by simpa using hf 1
    rw [dbl_exact _ hb] at h1
    subst h1
    obtain ⟨i1, i2⟩ := ih (t + v.post.quantity.int) rest (fun w hw => hc w (List.mem_cons_of_mem _ hw)) (by
      intro k
      have := hf (k + 1)
      rw [List.take_succ_cons, List.map_cons, List.sum_cons, ← Int.add_assoc] at this
      exact this) h3
    refine ⟨by simp [i1], ?_⟩
    intro i w hi
    cases i with
    | zero =>
      simp only [List.getElem?_cons_zero, Option.some.injEq] at hi
      subst hi
      refine ⟨_, o, rfl, h2, ?_⟩
      simp
    | succ i =>
      rw [List.getElem?_cons_succ] at hi
      obtain ⟨r, o', j1, j2, j3⟩ := i2 i w hi
      refine ⟨r, o', by rw [List.getElem?_cons_succ]; exact j1, j2, ?_⟩
      rw [j3, List.take_succ_cons (i := i + 1), List.map_cons, List.sum_cons, ← Int.add_assoc]

theorem vRows_total (conv : Com → Amount → Int → Except Fault Amount) (off : Int) (com : Com) : ∀ (l : List VPost) (t : Int),
    (∀ v ∈ l, v.post.quantity.com = com) → (∀ v ∈ l, ∃ o, vOther v = .ok o) → ∃ rows, vRows conv off ⟨t, com⟩ l = .ok rows := by
  intro l
  induction l with
  | nil => intro t _ _; exact ⟨[], rfl⟩
  | cons v l ih =>
    intro t hc ho
    obtain ⟨o, ho1⟩ := ho v List.mem_cons_self
    obtain ⟨rest, hr⟩ := ih (dbl (t + v.post.quantity.int)) (fun w hw => hc w (List.mem_cons_of_mem _ hw)) (fun w hw => ho w (List.mem_cons_of_mem _ hw))
    unfold vRows wAddIn
    rw [if_pos (by exact hc v List.mem_cons_self)]
    show ∃ rows, ((vOther v).bind _) = .ok rows
    rw [ho1]
    show ∃ rows, ((vRows conv off ⟨dbl (t + v.post.quantity.int), com⟩ l).bind _) = .ok rows
    rw [hr]
    exact ⟨_, rfl⟩

/-- **C120** (register of an account): the register lists exactly the postings of the account dated in the range, in order, each
with its date, description, the account of the posting on the other side, quantity and balance, and with the sum of all
quantities listed so far. (Quantities in the account's commodity with sums of at most 2^53 units, see C110.) -/
theorem C120_register (conv : Com → Amount → Int → Except Fault Amount) (off : Int) (ts : List WTxn) (hts : TxnsSorted ts) (a : WAcct) (start stop : Int)
    (rows : List VRow) (shown : List VPost)
    (hs : shown = (acctPosts ts a.fullName).filter (fun v => decide (start ≤ v.txn.posted ∧ v.txn.posted ≤ stop)))
    (hf : SumsFit a.com shown) (h : viewRegisterFull conv off ts a start stop = .ok rows) :
    rows.length = shown.length ∧ ∀ (i : Nat) (v : VPost), shown[i]? = some v → ∃ r o, rows[i]? = some r ∧ vOther v = .ok o ∧
      r = ⟨dateToString off v.txn.posted, v.txn.description, o.post.account, v.post.quantity, v.post.balance,
        ⟨((shown.take (i + 1)).map (fun v : VPost => v.post.quantity.int)).sum, a.com⟩⟩ := by
  unfold viewRegisterFull at h
  rw [trim_filter _ (acctPosts_sorted ts hts _), ← hs] at h
  have := vRows_spec conv off a.com shown 0 rows hf.1 (by simpa using hf.2) h
  simpa using this

/-- **C120** (the register is shown): it is, when every posting listed has a posting on the other side (C121). -/
theorem C120_shown (conv : Com → Amount → Int → Except Fault Amount) (off : Int) (ts : List WTxn) (hts : TxnsSorted ts) (a : WAcct) (start stop : Int)
    (hc : ∀ v ∈ acctPosts ts a.fullName, v.post.quantity.com = a.com)
    (ho : ∀ v ∈ acctPosts ts a.fullName, start ≤ v.txn.posted → v.txn.posted ≤ stop → ∃ o, vOther v = .ok o) :
    ∃ rows, viewRegisterFull conv off ts a start stop = .ok rows := by
  unfold viewRegisterFull
  rw [trim_filter _ (acctPosts_sorted ts hts _)]
  apply vRows_total
  · intro v hv
    exact hc v (List.mem_filter.mp hv).1
  · intro v hv
    obtain ⟨h1, h2⟩ := List.mem_filter.mp hv
    simp only [decide_eq_true_eq] at h2
    exact ho v h1 h2.1 h2.2

/-! ## C121: the other account -/

theorem vOther_ok {v o : VPost} (h : vOther v = .ok o) :
    o ∈ txnPosts v.txn ∧ o.idx ≠ v.idx ∧ (jsSign o.post.quantity.int ≠ jsSign v.post.quantity.int ∨ v.post.quantity.int = 0) ∧
    ∀ p ∈ txnPosts v.txn, p.idx < o.idx → p.idx ≠ v.idx → jsSign p.post.quantity.int = jsSign v.post.quantity.int ∧ v.post.quantity.int ≠ 0 := by
  have hz : ∀ n : Int, jsSign n = 0 ↔ n = 0 := by intro n; unfold jsSign; split <;> (try split) <;> omega
  unfold vOther at h
  split at h
  · next p hp =>
    injection h with h; subst h
    have h1 := List.find?_some hp
    have h2 := List.mem_of_find?_eq_some hp
    simp only [ne_eq, decide_not, Bool.and_eq_true, Bool.not_eq_true', decide_eq_false_iff_not, Bool.or_eq_true, decide_eq_true_eq] at h1
    refine ⟨h2, h1.1, ?_, ?_⟩
    · rcases h1.2 with h | h
      · exact .inl h
      · exact .inr ((hz _).mp h)
    · intro q hq hlt hne
      obtain ⟨_, as, bs, e, hall⟩ := List.find?_eq_some_iff_append.mp hp
      have hmem : q ∈ as := by
        rw [e] at hq
        rcases List.mem_append.mp hq with hq | hq
        · exact hq
        · exfalso
          have hsorted : (txnPosts v.txn).Pairwise (fun x y => x.idx < y.idx) := by
            unfold txnPosts
            rw [List.pairwise_map]
            have : ((v.txn.postings.zipIdx).map Prod.snd).Pairwise (· < ·) := by
              rw [List.zipIdx_map_snd]
              exact List.pairwise_lt_range'
            exact List.pairwise_map.mp this
          rw [e] at hsorted
          obtain ⟨_, hs2, _⟩ := List.pairwise_append.mp hsorted
          rcases List.mem_cons.mp hq with rfl | hq
          · omega
          · have := (List.pairwise_cons.mp hs2).1 q hq; omega
      have := hall q hmem
      simp only [ne_eq, decide_not, Bool.not_and, Bool.not_not, Bool.not_or, Bool.or_eq_true, decide_eq_true_eq, Bool.and_eq_true, Bool.not_eq_true',
        decide_eq_false_iff_not] at this
      rcases this with h | ⟨h, h'⟩
      · exact absurd h hne
      · exact ⟨h, fun h0 => h' ((hz _).mpr h0)⟩
  · cases h

/-- The full statement of C121: in a loaded ledger every posting has a posting on the other side, so that every register can be shown. -/
def C121_Statement : Prop := ∀ (loc : Txn → Str) (env : Env) (heap : Heap) (txns : List Txn) (order : List Str) (fin : Loaded) (sorted : List Txn),
  Parsed heap txns → order.Nodup → resolveTransactions env heap txns order = .ok (fin, sorted) →
  ∀ t ∈ pageTxns loc fin sorted, ∀ v ∈ txnPosts t, ∃ o, vOther v = .ok o

/-- A transaction whose only posting is zero. -/
def loneHeap : Heap := fun _ => ⟨5, str "A", some ⟨0, sampleCom⟩, none, false, []⟩

/-- **C121 (violated)**: a transaction with a single posting of zero is loaded, and the register of its account cannot be shown. -/
theorem C121_other_violated : ¬ C121_Statement := by
  intro h
  have hp : Parsed loneHeap [⟨5, [], str "x", [], [0]⟩] := ⟨by decide, by decide, fun _ => rfl⟩
  cases hr : resolveTransactions sampleEnv loneHeap [⟨5, [], str "x", [], [0]⟩] [str "A", str "B"] with
  | error e =>
    have : (resolveTransactions sampleEnv loneHeap [⟨5, [], str "x", [], [0]⟩] [str "A", str "B"]).isOk = true := by decide +kernel
    rw [hr] at this; cases this
  | ok r =>
    obtain ⟨fin, sorted⟩ := r
    have h1 := h (fun _ => []) sampleEnv loneHeap _ _ fin sorted hp (by decide) hr
    have h2 : ((resolveTransactions sampleEnv loneHeap [⟨5, [], str "x", [], [0]⟩] [str "A", str "B"]).toOption.map
        (fun r => (pageTxns (fun _ => []) r.1 r.2).any (fun t => (txnPosts t).any (fun v => !(vOther v).isOk)))) = some true := by decide +kernel
    rw [hr] at h2
    have h3 : (pageTxns (fun _ => []) fin sorted).any (fun t => (txnPosts t).any (fun v => !(vOther v).isOk)) = true := by
      have h2 : some ((pageTxns (fun _ => []) fin sorted).any (fun t => (txnPosts t).any (fun v => !(vOther v).isOk))) = some true := h2
      injection h2
    rw [List.any_eq_true] at h3
    obtain ⟨t, ht, h3⟩ := h3
    rw [List.any_eq_true] at h3
    obtain ⟨v, hv, h3⟩ := h3
    obtain ⟨o, ho⟩ := h1 t ht v hv
    rw [ho] at h3
    cases h3

/-- **C121 (which one)**: the posting found is the first of the transaction, other than the given one, that has another sign (any
other posting when the given one is zero). -/
theorem C121_which (v o : VPost) (h : vOther v = .ok o) :
    o ∈ txnPosts v.txn ∧ o.idx ≠ v.idx ∧ (jsSign o.post.quantity.int ≠ jsSign v.post.quantity.int ∨ v.post.quantity.int = 0) ∧
    ∀ p ∈ txnPosts v.txn, p.idx < o.idx → p.idx ≠ v.idx → jsSign p.post.quantity.int = jsSign v.post.quantity.int ∧ v.post.quantity.int ≠ 0 :=
  vOther_ok h

theorem sum_same_sign (s : Int) (hs : s ≠ 0) : ∀ l : List Int, (∀ x ∈ l, jsSign x = s) → l ≠ [] → l.sum ≠ 0 := by
  have hr : ∀ x : Int, (jsSign x = 1 ∧ 0 < x) ∨ (jsSign x = -1 ∧ x < 0) ∨ (jsSign x = 0 ∧ x = 0) := by
    intro x; unfold jsSign; split <;> (try split) <;> omega
  have key : ∀ l : List Int, (∀ x ∈ l, jsSign x = s) → (s = 1 → 0 ≤ l.sum ∧ (l ≠ [] → 0 < l.sum)) ∧ (s = -1 → l.sum ≤ 0 ∧ (l ≠ [] → l.sum < 0)) := by
    intro l
    induction l with
    | nil => intro _; simp
    | cons x l ih =>
      intro h
      obtain ⟨i1, i2⟩ := ih (fun y hy => h y (List.mem_cons_of_mem _ hy))
      have hx := h x List.mem_cons_self
      rw [List.sum_cons]
      constructor
      · intro h1
        have := (i1 h1).1
        have : 0 < x := by rcases hr x with ⟨a, b⟩ | ⟨a, b⟩ | ⟨a, b⟩ <;> omega
        exact ⟨by omega, fun _ => by omega⟩
      · intro h1
        have := (i2 h1).1
        have : x < 0 := by rcases hr x with ⟨a, b⟩ | ⟨a, b⟩ | ⟨a, b⟩ <;> omega
        exact ⟨by omega, fun _ => by omega⟩
  intro l hl hne
  obtain ⟨k1, k2⟩ := key l hl
  cases l with
  | nil => exact absurd rfl hne
  | cons x l =>
    have hx := hl x List.mem_cons_self
    rcases hr x with ⟨a, b⟩ | ⟨a, b⟩ | ⟨a, b⟩
    · have := (k1 (by omega)).2 (by simp); omega
    · have := (k2 (by omega)).2 (by simp); omega
    · omega

/-- **C121** for one transaction: with at least two postings that sum to zero, every posting has one on the other side. -/
theorem C121_balanced (t : WTxn) (h2 : 2 ≤ t.postings.length) (hs : (t.postings.map (fun p => p.quantity.int)).sum = 0) (v : VPost) (hv : v ∈ txnPosts t) :
    ∃ o, vOther v = .ok o := by
  obtain ⟨e, hg⟩ := mem_txnPosts.mp hv
  unfold vOther
  split
  · next p hp => exact ⟨p, rfl⟩
  · next hn =>
    exfalso
    rw [e] at hn
    have hn := List.find?_eq_none.mp hn
    have hall : ∀ p ∈ txnPosts t, p.idx = v.idx ∨ (jsSign p.post.quantity.int = jsSign v.post.quantity.int ∧ jsSign v.post.quantity.int ≠ 0) := by
      intro p hp
      have := hn p hp
      simp only [ne_eq, decide_not, Bool.and_eq_true, Bool.not_eq_true', decide_eq_false_iff_not, Bool.or_eq_true, decide_eq_true_eq, not_and, not_or,
        not_not] at this
      by_cases hi : p.idx = v.idx
      · exact .inl hi
      · exact .inr (this hi)
    have hlt : v.idx < t.postings.length := by
      obtain ⟨h, _⟩ := List.getElem?_eq_some_iff.mp hg
      exact h
    -- another posting exists
    obtain ⟨j, hj, hjne⟩ : ∃ j, j < t.postings.length ∧ j ≠ v.idx := by
      by_cases h0 : v.idx = 0
      · exact ⟨1, by omega, by omega⟩
      · exact ⟨0, by omega, by omega⟩
    have hz : jsSign v.post.quantity.int ≠ 0 := by
      have := hall ⟨t, j, t.postings[j]⟩ (mem_txnPosts.mpr ⟨rfl, List.getElem?_eq_getElem hj⟩)
      rcases this with h | h
      · exact absurd h hjne
      · exact h.2
    refine sum_same_sign (jsSign v.post.quantity.int) hz (t.postings.map (fun p => p.quantity.int)) ?_ ?_ hs
    · intro x hx
      obtain ⟨p, hp, rfl⟩ := List.mem_map.mp hx
      obtain ⟨i, hi, rfl⟩ := List.mem_iff_getElem.mp hp
      rcases hall ⟨t, i, t.postings[i]⟩ (mem_txnPosts.mpr ⟨rfl, List.getElem?_eq_getElem hi⟩) with h | h
      · have h : i = v.idx := h
        subst h
        rw [List.getElem?_eq_getElem hi] at hg
        injection hg with hg
        rw [hg]
      · exact h.1
    · intro h
      rw [List.map_eq_nil_iff] at h
      rw [h] at h2
      simp at h2

/-- **C121** for a loaded ledger: every transaction of accounts of one commodity, with at least two postings, all in that commodity.
(Missing: single postings of zero and transactions between commodities.) -/
theorem C121_other_partial (loc : Txn → Str) (env : Env) (heap : Heap) (txns : List Txn) (order : List Str) (fin : Loaded) (sorted : List Txn)
    (hp : Parsed heap txns) (hnd : order.Nodup) (h : resolveTransactions env heap txns order = .ok (fin, sorted)) (t : Txn) (ht : t ∈ txns)
    (h2 : 2 ≤ t.postings.length) (c : Com) (hc : SharesCommodity env heap t c)
    (hq : ∀ p ∈ t.postings, ∀ q, (heap p).quantity = some q → q.com = c) :
    ∀ v ∈ txnPosts (wtxnOf (outTxn loc fin t)), ∃ o, vOther v = .ok o := by
  obtain ⟨b1, b2⟩ := C26_loaded_balanced env heap txns order fin sorted hp hnd h t ht c hc hq
  apply C121_balanced
  · unfold wtxnOf outTxn
    simp only [List.length_map]
    exact h2
  · unfold wtxnOf outTxn
    simp only [List.map_map]
    rw [← b2, quantitiesOf_sum]
    congr 1
    apply List.map_congr_left
    intro p hp
    obtain ⟨q, hq, _⟩ := b1 p hp
    unfold qint
    rw [hq]
    show ((fin.heap p).quantity.getD _).int = q.int
    rw [hq]
    rfl

example : sampleRun.map (fun r => (pageTxns (fun _ => []) r.1 r.2).all (fun t => (txnPosts t).all (fun v => (vOther v).isOk))) = some true := by
  decide +kernel

end Verif
