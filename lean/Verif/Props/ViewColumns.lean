import Verif.Props.ViewGroup
import Verif.Lemmas.Double
import Verif.Lemmas.Generate
/-!
# Properties C132 to C136: aggregated registers with subaccounts, details and charts of the page
-/
namespace Verif

/-! ## Specification -/

/-- The postings of an account between two times. -/
def postsIn (ts : List WTxn) (start stop : Int) (w : WAcct) : List VPost :=
  (acctPosts ts w.fullName).filter (fun v => decide (start ≤ v.txn.posted ∧ v.txn.posted ≤ stop))

/-- The account's postings of the period starting on the day `d`. -/
def cellPosts (g : Aggregate) (ts : List WTxn) (start stop : Int) (w : WAcct) (d : Int) : List VPost :=
  (postsIn ts start stop w).filter (fun v => decide (g.red v.day = d))

/-- The account's postings of the periods of the table up to that one. -/
def cellsPosts (g : Aggregate) (ts : List WTxn) (start stop : Int) (w : WAcct) (d : Int) : List VPost :=
  (postsIn ts start stop w).filter (fun v => decide (start ≤ 86400 * g.red v.day ∧ g.red v.day ≤ d))

/-- The cell of one account. -/
def cellOf (g : Aggregate) (ts : List WTxn) (start stop : Int) (w : WAcct) (d : Int) : PGroup :=
  ⟨d, cellPosts g ts start stop w d, ⟨qsum (cellPosts g ts start stop w d), w.com⟩, ⟨qsum (cellsPosts g ts start stop w d), w.com⟩,
    lastBalance ⟨0, w.com⟩ (cellsPosts g ts start stop w d)⟩

/-- The sums over several cells. -/
def sumCells {ι : Type} (c : Com) (F : ι → Int → PGroup) (xs : List ι) (d : Int) : PGroup :=
  ⟨d, xs.flatMap (fun x => (F x d).postings), ⟨(xs.map (fun x => (F x d).sum.int)).sum, c⟩, ⟨(xs.map (fun x => (F x d).total.int)).sum, c⟩,
    ⟨(xs.map (fun x => (F x d).balance.int)).sum, c⟩⟩

/-- Cells of one commodity for the days `ds`, whose sums are exactly representable. -/
structure CellsOk {ι : Type} (c : Com) (ds : List Int) (F : ι → Int → PGroup) (xs : List ι) : Prop where
  date : ∀ x ∈ xs, ∀ d, (F x d).date = d
  sum : ∀ x ∈ xs, ∀ d, (F x d).sum.com = c
  total : ∀ x ∈ xs, ∀ d, (F x d).total.com = c
  balance : ∀ x ∈ xs, ∀ d, (F x d).balance.com = c
  fits : ∀ d ∈ ds, (xs.map (fun x => (F x d).sum.int.natAbs)).sum ≤ 2 ^ 53 ∧ (xs.map (fun x => (F x d).total.int.natAbs)).sum ≤ 2 ^ 53 ∧
    (xs.map (fun x => (F x d).balance.int.natAbs)).sum ≤ 2 ^ 53

/-- The column of cells. -/
def column {ι : Type} (acct : ι → Option WAcct) (ds : List Int) (F : ι → Int → PGroup) (x : ι) : AGroups := ⟨acct x, ds.map (F x)⟩

theorem wAddIn_ok (conv : Com → Amount → Int → Except Fault Amount) (c : Com) (t : Int) (a : Amount) (date : Int) (ha : a.com = c)
    (h : t.natAbs + a.int.natAbs ≤ 2 ^ 53) : wAddIn conv ⟨t, c⟩ a date = .ok ⟨t + a.int, c⟩ := by
  unfold wAddIn
  rw [if_pos ha]
  show Except.ok (⟨dbl (t + a.int), c⟩ : Amount) = _
  rw [dbl_exact _ (by omega)]

theorem addGroupsAt_ok {ι : Type} (conv : Com → Amount → Int → Except Fault Amount) (c : Com) (acct : ι → Option WAcct) (ds : List Int) (F : ι → Int → PGroup)
    (i : Nat) (d : Int) (hi : ds[i]? = some d) : ∀ (xs : List ι) (ps : List VPost) (s t b : Int), CellsOk c [] F xs →
    s.natAbs + (xs.map (fun x => (F x d).sum.int.natAbs)).sum ≤ 2 ^ 53 → t.natAbs + (xs.map (fun x => (F x d).total.int.natAbs)).sum ≤ 2 ^ 53 →
    b.natAbs + (xs.map (fun x => (F x d).balance.int.natAbs)).sum ≤ 2 ^ 53 →
    addGroupsAt conv i ⟨d, ps, ⟨s, c⟩, ⟨t, c⟩, ⟨b, c⟩⟩ (xs.map (column acct ds F)) =
      .ok ⟨d, ps ++ xs.flatMap (fun x => (F x d).postings), ⟨s + (xs.map (fun x => (F x d).sum.int)).sum, c⟩, ⟨t + (xs.map (fun x => (F x d).total.int)).sum, c⟩,
        ⟨b + (xs.map (fun x => (F x d).balance.int)).sum, c⟩⟩ := by
  intro xs
  induction xs with
  | nil => intro ps s t b _ _ _ _; simp [addGroupsAt]
  | cons x xs ih =>
    intro ps s t b hok h1 h2 h3
    simp only [List.map_cons, List.sum_cons] at h1 h2 h3
    have hx : x ∈ x :: xs := List.mem_cons_self
    have hok' : CellsOk c [] F xs := ⟨fun y hy => hok.date y (List.mem_cons_of_mem _ hy), fun y hy => hok.sum y (List.mem_cons_of_mem _ hy),
      fun y hy => hok.total y (List.mem_cons_of_mem _ hy), fun y hy => hok.balance y (List.mem_cons_of_mem _ hy), fun d hd => by cases hd⟩
    rw [List.map_cons]
    unfold addGroupsAt
    have hg : (column acct ds F x).groups[i]? = some (F x d) := by
      unfold column
      rw [List.getElem?_map, hi]; rfl
    rw [hg]
    dsimp only
    have ha : addGroup conv ⟨d, ps, ⟨s, c⟩, ⟨t, c⟩, ⟨b, c⟩⟩ (F x d) =
        .ok ⟨d, ps ++ (F x d).postings, ⟨s + (F x d).sum.int, c⟩, ⟨t + (F x d).total.int, c⟩, ⟨b + (F x d).balance.int, c⟩⟩ := by
      unfold addGroup
      rw [if_neg (by rw [hok.date x hx d]; simp)]
      dsimp only
      rw [wAddIn_ok conv c s _ _ (hok.sum x hx d) (by omega)]
      show (wAddIn conv ⟨t, c⟩ _ _).bind _ = _
      rw [wAddIn_ok conv c t _ _ (hok.total x hx d) (by omega)]
      show (wAddIn conv ⟨b, c⟩ _ _).bind _ = _
      rw [wAddIn_ok conv c b _ _ (hok.balance x hx d) (by omega)]
      rfl
    rw [ha]
    show addGroupsAt conv i _ _ = _
    rw [ih _ _ _ _ hok' (by omega) (by omega) (by omega)]
    simp only [List.map_cons, List.sum_cons, List.flatMap_cons, List.append_assoc, Int.add_assoc]

theorem sumAll_ok {ι : Type} (conv : Com → Amount → Int → Except Fault Amount) (c : Com) (acct : ι → Option WAcct) (ds : List Int) (F : ι → Int → PGroup)
    (xs : List ι) (hne : xs ≠ []) (hok : CellsOk c ds F xs) :
    sumAll conv c (xs.map (column acct ds F)) = .ok ⟨none, ds.map (sumCells c F xs)⟩ := by
  obtain ⟨x, xs', rfl⟩ := List.exists_cons_of_ne_nil hne
  have hok' : CellsOk c [] F (x :: xs') := ⟨hok.date, hok.sum, hok.total, hok.balance, fun d hd => by cases hd⟩
  unfold sumAll
  rw [List.map_cons]
  dsimp only
  have hall : allE (fun (e : PGroup × Nat) => addGroupsAt conv e.2 ⟨e.1.date, [], ⟨0, c⟩, ⟨0, c⟩, ⟨0, c⟩⟩ (column acct ds F x :: xs'.map (column acct ds F)))
      (column acct ds F x).groups.zipIdx = .ok (((column acct ds F x).groups.zipIdx).map (fun e => sumCells c F (x :: xs') e.1.date)) := by
    apply allE_ok
    rintro ⟨p, i⟩ he
    rw [List.mem_zipIdx_iff_getElem?] at he
    have he : (ds.map (F x))[i]? = some p := he
    rw [List.getElem?_map] at he
    cases hd : ds[i]? with
    | none => rw [hd] at he; cases he
    | some d =>
      rw [hd] at he
      have he : F x d = p := by simpa using he
      subst he
      dsimp only
      rw [hok.date x List.mem_cons_self d]
      have hm : d ∈ ds := List.mem_of_getElem? hd
      obtain ⟨f1, f2, f3⟩ := hok.fits d hm
      have := addGroupsAt_ok conv c acct ds F i d hd (x :: xs') [] 0 0 0 hok' (by simpa using f1) (by simpa using f2) (by simpa using f3)
      rw [List.map_cons] at this
      rw [this]
      unfold sumCells
      simp
  rw [hall]
  show Except.ok _ = Except.ok _
  have e : ((column acct ds F x).groups.zipIdx).map (fun e => sumCells c F (x :: xs') e.1.date) =
      (((column acct ds F x).groups.zipIdx).map Prod.fst).map (fun p => sumCells c F (x :: xs') p.date) := by
    rw [List.map_map]; rfl
  rw [e, List.zipIdx_map_fst]
  show Except.ok (⟨none, ((ds.map (F x)).map _)⟩ : AGroups) = _
  rw [List.map_map]
  congr 2
  apply List.map_congr_left
  intro d _
  show sumCells c F (x :: xs') (F x d).date = _
  rw [hok.date x List.mem_cons_self d]

/-! ## C132: the columns -/

theorem insertBy_map {α β : Type} (lt : β → β → Bool) (h : α → β) (a : α) (l : List α) :
    insertBy lt (h a) (l.map h) = (insertBy (fun x y => lt (h x) (h y)) a l).map h := by
  induction l with
  | nil => rfl
  | cons b l ih =>
    rw [List.map_cons]
    unfold insertBy
    split
    · rw [ih]; rfl
    · rfl

theorem stableSort_map {α β : Type} (lt : β → β → Bool) (h : α → β) (l : List α) :
    stableSort lt (l.map h) = (stableSort (fun x y => lt (h x) (h y)) l).map h := by
  induction l with
  | nil => rfl
  | cons a l ih => rw [List.map_cons]; unfold stableSort; rw [ih, insertBy_map]

theorem averageLt_iff (negated : Bool) (x y : Int × Nat) (hx : 0 < x.2) (hy : 0 < y.2) :
    averageLt negated x y = true ↔ if negated then fracVal x < fracVal y else fracVal y < fracVal x := by
  have hx' : (0 : ℚ) < x.2 := by exact_mod_cast hx
  have hy' : (0 : ℚ) < y.2 := by exact_mod_cast hy
  have key : ∀ a b : Int × Nat, (0 : ℚ) < a.2 → (0 : ℚ) < b.2 → (a.1 * (b.2 : Int) < b.1 * (a.2 : Int) ↔ fracVal a < fracVal b) := by
    intro a b ha hb
    unfold fracVal
    rw [div_lt_div_iff₀ ha hb]
    exact_mod_cast Iff.rfl
  unfold averageLt
  cases negated
  · simp only [Bool.false_eq_true, if_false, decide_eq_true_eq]
    exact key y x hy' hx'
  · simp only [if_true, decide_eq_true_eq]
    exact key x y hx' hy'

/-- The accounts of a table with subaccounts: the account and the accounts below it that are kept, if they have postings. -/
def TableAccts (as : List WAcct) (keep : WAcct → Bool) (ts : List WTxn) (a : WAcct) (accts : List WAcct) : Prop :=
  accts.Nodup ∧ ∀ w, w ∈ accts ↔ (w = a ∨ Down as keep a.fullName w) ∧ acctPosts ts w.fullName ≠ []

/-- What the account's postings in the table add up to. -/
def tableTotal (g : Aggregate) (ts : List WTxn) (start stop : Int) (w : WAcct) : Int :=
  qsum ((postsIn ts start stop w).filter (fun v => decide (start ≤ 86400 * g.red v.day ∧ 86400 * g.red v.day < stop)))

/-- All accounts of the table are in one commodity, with amounts that are represented exactly. -/
structure SubOk (c : Com) (g : Aggregate) (ts : List WTxn) (start stop : Int) (accts : List WAcct) : Prop where
  com : ∀ w ∈ accts, w.com = c
  posts : ∀ w ∈ accts, Groupable c (acctPosts ts w.fullName)
  balance : ∀ w ∈ accts, ∀ v ∈ acctPosts ts w.fullName, v.post.balance.com = c
  small : (accts.map (fun w => asum (acctPosts ts w.fullName))).sum ≤ 2 ^ 49
  balances : ∀ d : Int, (accts.map (fun w => (lastBalance ⟨0, c⟩ (cellsPosts g ts start stop w d)).int.natAbs)).sum ≤ 2 ^ 53

theorem tableAccts_perm {as : List WAcct} {keep : WAcct → Bool} {ts : List WTxn} {k : Nat} {a : WAcct} {accts : List WAcct} (ht : WTree as) (ha : a ∈ as)
    (hk : ∀ w ∈ as, w.fullName.length ≤ k) (h : TableAccts as keep ts a accts) :
    ((a :: allChildren as keep k a.fullName).filter (fun w => !(acctPosts ts w.fullName).isEmpty)).Perm accts := by
  obtain ⟨m1, m2, _⟩ := C123_children as keep ht k hk a.fullName
  have hn : (a :: allChildren as keep k a.fullName).Nodup := by
    rw [List.nodup_cons]
    refine ⟨fun h => ?_, m2⟩
    have := ((m1 a).mp h).longer ht
    omega
  rw [List.perm_ext_iff_of_nodup (hn.filter _) h.1]
  intro w
  rw [h.2, List.mem_filter, List.mem_cons, m1]
  simp

theorem SubOk.perm {c : Com} {g : Aggregate} {ts : List WTxn} {start stop : Int} {l m : List WAcct} (hp : l.Perm m) (h : SubOk c g ts start stop m) :
    SubOk c g ts start stop l :=
  ⟨fun w hw => h.com w (hp.mem_iff.mp hw), fun w hw => h.posts w (hp.mem_iff.mp hw), fun w hw => h.balance w (hp.mem_iff.mp hw),
    by rw [(hp.map _).sum_eq]; exact h.small, fun d => by rw [(hp.map _).sum_eq]; exact h.balances d⟩

theorem childGroups_ok (conv : Com → Amount → Int → Except Fault Amount) {off : Int} (h1 : -86400 < off) (h2 : off < 86400) (g : Aggregate) (as : List WAcct)
    (keep : WAcct → Bool) (ts : List WTxn) (hts : TxnsSorted ts) (k : Nat) (a : WAcct) (start stop : Int) (hr : RangeOk start stop) (accts : List WAcct)
    (e : (a :: allChildren as keep k a.fullName).filter (fun w => !(acctPosts ts w.fullName).isEmpty) = accts)
    (hok : SubOk a.com g ts start stop accts) :
    withAllChildPostingGroups conv off g as keep ts k a start stop =
      .ok (accts.map (column some (intervalRange g start stop) (cellOf g ts start stop))) := by
  unfold withAllChildPostingGroups
  rw [e]
  apply allE_ok
  intro w hw
  have hp := hok.posts w hw
  have hc := hok.com w hw
  rw [trim_filter _ (acctPosts_sorted ts hts _)]
  have hsub : ∀ v ∈ postsIn ts start stop w, v ∈ acctPosts ts w.fullName := fun v hv => (List.mem_filter.mp hv).1
  have hsort : VSorted (postsIn ts start stop w) := List.Pairwise.filter _ (acctPosts_sorted ts hts _)
  have hsum := asum_filter_le (acctPosts ts w.fullName) (fun v => decide (start ≤ v.txn.posted ∧ v.txn.posted ≤ stop))
  obtain ⟨gs, eg, hg⟩ := groupBy_ok conv h1 h2 g start stop (postsIn ts start stop w) w.com hsort (fun v hv => hp.1 v (hsub v hv)) hr
    (fun v hv => by rw [hc]; exact hp.2.1 v (hsub v hv)) (Nat.le_trans hsum hp.2.2)
  show (groupBy conv off g start stop (postsIn ts start stop w) w.com).bind _ = _
  rw [eg, groupsAre_map hg]
  rfl

theorem asum_cell_le (g : Aggregate) (ts : List WTxn) (start stop : Int) (w : WAcct) (p : VPost → Bool) :
    asum ((postsIn ts start stop w).filter p) ≤ asum (acctPosts ts w.fullName) :=
  Nat.le_trans (asum_filter_le _ _) (asum_filter_le _ _)

theorem sum_map_le {α : Type} (f h : α → Nat) (l : List α) (hfh : ∀ x ∈ l, f x ≤ h x) : (l.map f).sum ≤ (l.map h).sum := by
  induction l with
  | nil => exact Nat.le_refl _
  | cons x l ih =>
    simp only [List.map_cons, List.sum_cons]
    have := hfh x List.mem_cons_self
    have := ih (fun y hy => hfh y (List.mem_cons_of_mem _ hy))
    omega

theorem lastBalance_com {c : Com} {l : List VPost} (h : ∀ v ∈ l, v.post.balance.com = c) : (lastBalance ⟨0, c⟩ l).com = c := by
  unfold lastBalance
  cases hl : l.getLast? with
  | none => rfl
  | some v => exact h v (List.mem_of_getLast? hl)

theorem SubOk.cells {c : Com} {g : Aggregate} {ts : List WTxn} {start stop : Int} {l : List WAcct} (h : SubOk c g ts start stop l) (ds : List Int) :
    CellsOk c ds (cellOf g ts start stop) l := by
  refine ⟨fun _ _ _ => rfl, fun w hw _ => h.com w hw, fun w hw _ => h.com w hw, ?_, ?_⟩
  · intro w hw d
    show (lastBalance ⟨0, w.com⟩ _).com = c
    rw [h.com w hw]
    apply lastBalance_com
    intro v hv
    exact h.balance w hw v (List.mem_filter.mp (List.mem_filter.mp hv).1).1
  · intro d _
    have hs := h.small
    refine ⟨?_, ?_, ?_⟩
    · refine Nat.le_trans (sum_map_le _ (fun w => asum (acctPosts ts w.fullName)) l ?_) (by omega)
      intro w _
      exact Nat.le_trans (qsum_le _) (asum_cell_le g ts start stop w _)
    · refine Nat.le_trans (sum_map_le _ (fun w => asum (acctPosts ts w.fullName)) l ?_) (by omega)
      intro w _
      exact Nat.le_trans (qsum_le _) (asum_cell_le g ts start stop w _)
    · have := h.balances d
      refine Nat.le_trans (sum_map_le _ (fun w => (lastBalance ⟨0, c⟩ (cellsPosts g ts start stop w d)).int.natAbs) l ?_) this
      intro w hw
      show (lastBalance ⟨0, w.com⟩ _).int.natAbs ≤ _
      rw [h.com w hw]

theorem SubOk.sublist {c : Com} {g : Aggregate} {ts : List WTxn} {start stop : Int} {l m : List WAcct} (hp : l.Sublist m) (h : SubOk c g ts start stop m) :
    SubOk c g ts start stop l :=
  ⟨fun w hw => h.com w (hp.mem hw), fun w hw => h.posts w (hp.mem hw), fun w hw => h.balance w (hp.mem hw),
    Nat.le_trans ((hp.map _).sum_le_sum (fun _ _ => Nat.zero_le _)) h.small,
    fun d => Nat.le_trans ((hp.map _).sum_le_sum (fun _ _ => Nat.zero_le _)) (h.balances d)⟩

/-- The total of the last period. -/
theorem last_total {g : Aggregate} {ts : List WTxn} {start stop : Int} {w : WAcct} {d : Int} (hd : (intervalRange g start stop).getLast? = some d) :
    qsum (cellsPosts g ts start stop w d) = tableTotal g ts start stop w := by
  unfold cellsPosts tableTotal
  congr 1
  apply List.filter_congr
  intro v _
  rw [decide_eq_decide]
  have hm := mem_intervalRange.mp (List.mem_of_getLast? hd)
  constructor
  · rintro ⟨a, b⟩; exact ⟨a, by omega⟩
  · rintro ⟨a, b⟩
    refine ⟨a, ?_⟩
    have hv : g.red v.day ∈ intervalRange g start stop := mem_intervalRange.mpr ⟨red_starts g _, a, b⟩
    have hs := intervalRange_sorted g start stop
    obtain ⟨l, e⟩ := List.getLast?_eq_some_iff.mp hd
    rw [e] at hv hs
    rcases List.mem_append.mp hv with h | h
    · have := (List.pairwise_append.mp hs).2.2 _ h d (List.mem_singleton.mpr rfl)
      omega
    · rw [List.mem_singleton] at h; omega

/-- **C132** The columns of an aggregated register or chart with subaccounts: one for each account with postings among the account and
the kept accounts below it, in the order of what their postings in the table add up to (the largest first; the smallest first for
accounts with negative amounts). When there are more than `max` accounts, the first `max - 1` have columns and the last column shows the
sums over all the others. -/
theorem C132_columns (conv : Com → Amount → Int → Except Fault Amount) (off : Int) (h1 : -86400 < off) (h2 : off < 86400) (g : Aggregate) (as : List WAcct)
    (ht : WTree as) (keep : WAcct → Bool) (ts : List WTxn) (hts : TxnsSorted ts) (k : Nat) (hk : ∀ w ∈ as, w.fullName.length ≤ k) (a : WAcct) (ha : a ∈ as)
    (start stop : Int) (hr : RangeOk start stop) (ds : List Int) (hds : PeriodStarts g start stop ds) (hne : ds ≠ []) (max : Nat) (hmax : 1 ≤ max)
    (negated : Bool) (accts : List WAcct) (hacc : TableAccts as keep ts a accts) (hok : SubOk a.com g ts start stop accts) :
    ∃ order : List WAcct, order.Perm accts ∧
      order.Pairwise (fun x y => if negated then tableTotal g ts start stop x ≤ tableTotal g ts start stop y
        else tableTotal g ts start stop y ≤ tableTotal g ts start stop x) ∧
      groupByWithSubAccounts conv off g as keep ts k a start stop max negated =
        .ok (if accts.length ≤ max then order.map (column some ds (cellOf g ts start stop))
          else (order.take (max - 1)).map (column some ds (cellOf g ts start stop)) ++
            [⟨none, ds.map (sumCells a.com (cellOf g ts start stop) (order.drop (max - 1)))⟩]) := by
  rw [hds.unique] at hne ⊢
  generalize hdd : intervalRange g start stop = D at hne
  obtain ⟨dl, hdl⟩ : ∃ d, D.getLast? = some d := by
    cases hl : D.getLast? with
    | none => rw [List.getLast?_eq_none_iff] at hl; exact absurd hl hne
    | some d => exact ⟨d, rfl⟩
  have hperm := tableAccts_perm ht ha hk hacc
  generalize hA : (a :: allChildren as keep k a.fullName).filter (fun w => !(acctPosts ts w.fullName).isEmpty) = A at hperm
  have hokA := hok.perm hperm
  have hgr := childGroups_ok conv h1 h2 g as keep ts hts k a start stop hr A hA hokA
  rw [hdd] at hgr
  -- averages
  let avg : WAcct → Int × Nat := fun w =>
    fl (fl (tableTotal g ts start stop w) (10 ^ a.com.decimals)).1 ((fl (tableTotal g ts start stop w) (10 ^ a.com.decimals)).2 * D.length)
  have havg : allE (fun x => (average conv a.com x).bind fun v => .ok (v, x)) (A.map (column some D (cellOf g ts start stop))) =
      .ok (A.map (fun w => (avg w, column some D (cellOf g ts start stop) w))) := by
    rw [allE_ok _ (fun x => (match x.account with | some w => (avg w) | none => (0, 0), x)), List.map_map]
    · rfl
    · intro x hx
      obtain ⟨w, hw, rfl⟩ := List.mem_map.mp hx
      have hl : (column some D (cellOf g ts start stop) w).groups.getLast? = some (cellOf g ts start stop w dl) := by
        unfold column
        rw [List.getLast?_map, hdl]; rfl
      unfold average
      rw [hl]
      dsimp only
      unfold convTo
      have hcom : (cellOf g ts start stop w dl).total.com = a.com := hokA.com w hw
      rw [if_pos hcom]
      have htot : (cellOf g ts start stop w dl).total.int = tableTotal g ts start stop w := last_total (by rw [hdd]; exact hdl)
      show Except.ok _ = Except.ok _
      rw [htot]
      have hlen : (column some D (cellOf g ts start stop) w).groups.length = D.length := by unfold column; simp
      rw [hlen]
      rfl
  let lt : WAcct → WAcct → Bool := fun x y => averageLt negated (avg x) (avg y)
  have hlt : ∀ x y, lt x y = true ↔ if negated then fracVal (avg x) < fracVal (avg y) else fracVal (avg y) < fracVal (avg x) :=
    fun x y => averageLt_iff negated _ _ (fl_pos _ _) (fl_pos _ _)
  have hltf : ∀ x y, lt x y = false ↔ if negated then fracVal (avg y) ≤ fracVal (avg x) else fracVal (avg x) ≤ fracVal (avg y) := by
    intro x y
    rw [← Bool.not_eq_true, hlt]
    cases negated <;> simp
  have hsw : StrictWeak lt := by
    constructor
    · intro x y h
      rw [hlt] at h
      rw [hltf]
      cases negated
      · simp only [Bool.false_eq_true, if_false] at *; exact le_of_lt h
      · simp only [if_true] at *; exact le_of_lt h
    · intro x y z h h'
      rw [hltf] at *
      cases negated
      · simp only [Bool.false_eq_true, if_false] at *; exact le_trans h h'
      · simp only [if_true] at *; exact le_trans h' h
  have hsort := stableSort_sorted lt hsw A
  have hsp : (stableSort lt A).Perm A := stableSort_perm lt A
  refine ⟨stableSort lt A, hsp.trans hperm, ?_, ?_⟩
  · have hsz : ∀ w ∈ A, (tableTotal g ts start stop w).natAbs ≤ 2 ^ 49 := by
      intro w hw
      refine Nat.le_trans (qsum_le _) (Nat.le_trans (asum_cell_le g ts start stop w _) (Nat.le_trans ?_ hokA.small))
      exact List.single_le_sum (fun _ _ => Nat.zero_le _) _ (List.mem_map.mpr ⟨w, hw, rfl⟩)
    have hDpos : 0 < D.length := List.length_pos_iff.mpr hne
    have h10 : 0 < 10 ^ a.com.decimals := by positivity
    have hpw := List.Pairwise.and_mem.mp hsort
    refine hpw.imp ?_
    rintro x y ⟨hx, hy, hxy⟩
    have hx' := hsz x (hsp.mem_iff.mp hx)
    have hy' := hsz y (hsp.mem_iff.mp hy)
    rw [hltf] at hxy
    cases negated
    · simp only [Bool.false_eq_true, if_false] at *
      by_contra hc
      exact absurd (fl_fl_lt _ _ _ _ h10 hDpos hx' hy' (by omega)) (not_lt.mpr hxy)
    · simp only [if_true] at *
      by_contra hc
      exact absurd (fl_fl_lt _ _ _ _ h10 hDpos hy' hx' (by omega)) (not_lt.mpr hxy)
  · unfold groupByWithSubAccounts
    rw [hgr]
    show (allE _ _).bind _ = _
    rw [havg]
    show (if (max : Int) < _ then _ else _) = _
    have hsorted : (stableSort (fun x y : (Int × Nat) × AGroups => averageLt negated x.1 y.1) (A.map (fun w => (avg w, column some D (cellOf g ts start stop) w)))).map
        (fun x => x.2) = (stableSort lt A).map (column some D (cellOf g ts start stop)) := by
      rw [stableSort_map, List.map_map]; rfl
    rw [hsorted]
    have hlen : ((stableSort lt A).map (column some D (cellOf g ts start stop))).length = accts.length := by
      rw [List.length_map, hsp.length_eq, hperm.length_eq]
    rw [hlen]
    generalize hO : stableSort lt A = O at *
    have hOlen : O.length = accts.length := by rw [hsp.length_eq, hperm.length_eq]
    by_cases hle : accts.length ≤ max
    · rw [if_neg (by omega), if_pos hle]
      unfold sliceTo
      rw [if_pos (by omega), Int.toNat_natCast, List.take_of_length_le (by rw [hlen]; exact hle)]
    · rw [if_pos (by omega), if_neg hle]
      have e1 : sliceFrom ((max : Int) - 1) (O.map (column some D (cellOf g ts start stop))) = (O.drop (max - 1)).map (column some D (cellOf g ts start stop)) := by
        unfold sliceFrom
        rw [if_pos (by omega), List.map_drop]
        congr 1; omega
      have e2 : (sliceTo (max : Int) (O.map (column some D (cellOf g ts start stop)))).dropLast = (O.take (max - 1)).map (column some D (cellOf g ts start stop)) := by
        unfold sliceTo
        rw [if_pos (by omega), Int.toNat_natCast, List.dropLast_take (by rw [List.length_map]; omega), List.map_take]
      have hokO : SubOk a.com g ts start stop O := hokA.perm hsp
      rw [e1, e2, sumAll_ok conv a.com some D _ (O.drop (max - 1)) (by
        intro he
        rw [List.drop_eq_nil_iff] at he
        omega) ((hokO.sublist (List.drop_sublist _ _)).cells D)]
      rfl

/-- The cells of a row. -/
def columnCells (cols : List AGroups) (i : Nat) : List PGroup := cols.filterMap (fun x => x.groups[i]?)

theorem rowCells_columns {ι : Type} (acct : ι → Option WAcct) (ds : List Int) (F : ι → Int → PGroup) (xs : List ι) {i : Nat} {d : Int} (hi : ds[i]? = some d) :
    columnCells (xs.map (column acct ds F)) i = xs.map (fun x => F x d) := by
  unfold columnCells
  rw [List.filterMap_map]
  induction xs with
  | nil => rfl
  | cons x xs ih =>
    rw [List.filterMap_cons, List.map_cons]
    have : ((fun x : AGroups => x.groups[i]?) ∘ column acct ds F) x = some (F x d) := by
      show (ds.map (F x))[i]? = _
      rw [List.getElem?_map, hi]; rfl
    rw [this, ih]

/-- The postings shown in a table with subaccounts, in the period starting on the day `d`. -/
def subtreePosts (g : Aggregate) (as : List WAcct) (keep : WAcct → Bool) (ts : List WTxn) (a : WAcct) (start stop d : Int) (l : List VPost) : Prop :=
  ∃ names : List Str, (∀ n, n ∈ names ↔ n = a.fullName ∨ ∃ w, Down as keep a.fullName w ∧ w.fullName = n) ∧
    l = (ts.flatMap txnPosts).filter (fun v => (decide (start ≤ v.txn.posted ∧ v.txn.posted ≤ stop) && decide (g.red v.day = d)) && names.contains v.post.account)

theorem accts_sum (g : Aggregate) (as : List WAcct) (ht : WTree as) (keep : WAcct → Bool) (ts : List WTxn) (a : WAcct) (ha : a ∈ as) (start stop d : Int)
    (accts : List WAcct) (hacc : TableAccts as keep ts a accts) (l : List VPost) (hl : subtreePosts g as keep ts a start stop d l) :
    (accts.map (fun w => qsum (cellPosts g ts start stop w d))).sum = qsum l := by
  obtain ⟨names, hn, rfl⟩ := hl
  have hin : ∀ w, (w = a ∨ Down as keep a.fullName w) → w ∈ as := by
    rintro w (rfl | h)
    · exact ha
    · exact h.mem
  have hnd : (accts.map (fun w : WAcct => w.fullName)).Nodup := by
    rw [List.nodup_map_iff_inj_on hacc.1]
    intro x hx y hy e
    exact ht.eq_of_name (hin x ((hacc.2 x).mp hx).1) (hin y ((hacc.2 y).mp hy).1) e
  have hu := acctPosts_union ts _ hnd (fun v => decide (start ≤ v.txn.posted ∧ v.txn.posted ≤ stop) && decide (g.red v.day = d))
  have e1 : (accts.map (fun w : WAcct => w.fullName)).flatMap (fun n => (acctPosts ts n).filter
      (fun v => decide (start ≤ v.txn.posted ∧ v.txn.posted ≤ stop) && decide (g.red v.day = d))) = accts.flatMap (fun w => cellPosts g ts start stop w d) := by
    rw [List.flatMap_map]
    congr 1
    funext w
    unfold cellPosts postsIn
    rw [List.filter_filter]
    apply List.filter_congr
    intro v _
    rw [Bool.and_comm]
  rw [e1] at hu
  have e2 : (ts.flatMap txnPosts).filter (fun v => (decide (start ≤ v.txn.posted ∧ v.txn.posted ≤ stop) && decide (g.red v.day = d)) &&
      (accts.map (fun w : WAcct => w.fullName)).contains v.post.account) =
      (ts.flatMap txnPosts).filter (fun v => (decide (start ≤ v.txn.posted ∧ v.txn.posted ≤ stop) && decide (g.red v.day = d)) && names.contains v.post.account) := by
    apply List.filter_congr
    intro v hv
    congr 1
    rw [Bool.eq_iff_iff, List.contains_iff_mem, List.contains_iff_mem, hn, List.mem_map]
    constructor
    · rintro ⟨w, hw, e⟩
      rcases ((hacc.2 w).mp hw).1 with rfl | h
      · exact Or.inl e.symm
      · exact Or.inr ⟨w, h, e⟩
    · intro h
      have : ∃ w, (w = a ∨ Down as keep a.fullName w) ∧ w.fullName = v.post.account := by
        rcases h with h | ⟨w, h, e⟩
        · exact ⟨a, Or.inl rfl, h.symm⟩
        · exact ⟨w, Or.inr h, e⟩
      obtain ⟨w, hw, e⟩ := this
      refine ⟨w, (hacc.2 w).mpr ⟨hw, ?_⟩, e⟩
      intro hnil
      have hm : v ∈ acctPosts ts w.fullName := by
        unfold acctPosts
        rw [List.mem_filter]
        exact ⟨hv, by rw [e]; simp⟩
      rw [hnil] at hm
      cases hm
  rw [e2] at hu
  have hq : qsum (accts.flatMap (fun w => cellPosts g ts start stop w d)) = (accts.map (fun w => qsum (cellPosts g ts start stop w d))).sum := by
    unfold qsum
    rw [sum_int_flatMap]
  rw [← hq]
  unfold qsum
  exact (hu.map _).sum_eq

/-- **C132** (full statement): for every maximum of columns entered by the user and every range, in every row the cells add up to the
quantities of all postings of the account and the kept accounts below it that are dated between the two dates and in the row's period. -/
def C132_Statement : Prop :=
  ∀ (conv : Com → Amount → Int → Except Fault Amount) (off : Int) (g : Aggregate) (as : List WAcct) (keep : WAcct → Bool) (ts : List WTxn) (k : Nat) (a : WAcct)
    (start stop : Int) (ds : List Int) (max : Int) (negated : Bool) (accts : List WAcct),
    -86400 < off → off < 86400 → WTree as → TxnsSorted ts → (∀ w ∈ as, w.fullName.length ≤ k) → a ∈ as → RangeOk start stop → PeriodStarts g start stop ds →
    TableAccts as keep ts a accts → SubOk a.com g ts start stop accts →
    ∃ cols, groupByWithSubAccounts conv off g as keep ts k a start stop max negated = .ok cols ∧
      ∀ (i : Nat) (d : Int), ds[i]? = some d → ∀ l, subtreePosts g as keep ts a start stop d l →
        ((columnCells cols i).map (fun x : PGroup => x.sum.int)).sum = qsum l

/-- **C132** (partial: a maximum of at least one and at least one period; nothing is lost or counted twice): in every row the cells add up to the quantities of all postings of the account and the kept
accounts below it that are dated between the two dates and in the row's period, and there are as many columns as accounts, or `max`.
Missing: a maximum of zero or less, and ranges without a period (see `C132_zero_violated`, `C132_empty_violated`). -/
theorem C132_complete_partial (conv : Com → Amount → Int → Except Fault Amount) (off : Int) (h1 : -86400 < off) (h2 : off < 86400) (g : Aggregate) (as : List WAcct)
    (ht : WTree as) (keep : WAcct → Bool) (ts : List WTxn) (hts : TxnsSorted ts) (k : Nat) (hk : ∀ w ∈ as, w.fullName.length ≤ k) (a : WAcct) (ha : a ∈ as)
    (start stop : Int) (hr : RangeOk start stop) (ds : List Int) (hds : PeriodStarts g start stop ds) (hne : ds ≠ []) (max : Nat) (hmax : 1 ≤ max)
    (negated : Bool) (accts : List WAcct) (hacc : TableAccts as keep ts a accts) (hok : SubOk a.com g ts start stop accts) :
    ∃ cols, groupByWithSubAccounts conv off g as keep ts k a start stop max negated = .ok cols ∧ cols.length = min accts.length max ∧
      ∀ (i : Nat) (d : Int), ds[i]? = some d → ∀ l, subtreePosts g as keep ts a start stop d l →
        ((columnCells cols i).map (fun x : PGroup => x.sum.int)).sum = qsum l := by
  obtain ⟨order, hp, _, e⟩ := C132_columns conv off h1 h2 g as ht keep ts hts k hk a ha start stop hr ds hds hne max hmax negated accts hacc hok
  refine ⟨_, e, ?_, ?_⟩
  · split
    · next h => rw [List.length_map, hp.length_eq]; omega
    · next h =>
      rw [List.length_append, List.length_map, List.length_take, List.length_singleton, hp.length_eq]
      omega
  · intro i d hi l hl
    rw [← accts_sum g as ht keep ts a ha start stop d accts hacc l hl, ← (hp.map _).sum_eq]
    split
    · rw [rowCells_columns _ _ _ _ hi, List.map_map]
      rfl
    · have e1 : ∀ x y : List AGroups, columnCells (x ++ y) i = columnCells x i ++ columnCells y i := fun x y => List.filterMap_append
      rw [e1, rowCells_columns _ _ _ _ hi]
      have e2 : columnCells [⟨none, ds.map (sumCells a.com (cellOf g ts start stop) (order.drop (max - 1)))⟩] i =
          [sumCells a.com (cellOf g ts start stop) (order.drop (max - 1)) d] := by
        unfold columnCells
        simp [hi]
      rw [e2, List.map_append, List.sum_append, List.map_map]
      conv_rhs => rw [← List.take_append_drop (max - 1) order, List.map_append, List.sum_append]
      congr 1
      show List.sum [_] = _
      rw [List.sum_singleton]
      rfl

/-! Two accounts, one below the other, with one posting each. -/

def colTxn (name : Str) (d q b : Int) : WTxn := ⟨86400 * d, str "x", [], [], [], [⟨name, ⟨q, sampleCom⟩, ⟨b, sampleCom⟩, false, [], []⟩]⟩

def colTxns : List WTxn := [colTxn (str "Assets") (goDate 2015 1 5) 100 100, colTxn (str "Assets:Bank") (goDate 2015 1 7) 20 20,
  colTxn (str "Assets:Bank:Savings") (goDate 2015 2 3) 5 5]

def colAcct : WAcct := ⟨str "Assets", str "Assets", sampleCom, none, none⟩

def colAccts : List WAcct := [colAcct, ⟨str "Bank", str "Assets:Bank", sampleCom, some (str "Assets"), some 8640000⟩,
  ⟨str "Savings", str "Assets:Bank:Savings", sampleCom, some (str "Assets:Bank"), none⟩]

theorem colTxns_ok (g : Aggregate) (start stop : Int) : WTree treeAccts ∧ TxnsSorted colTxns ∧ (∀ w ∈ treeAccts, w.fullName.length ≤ 30) ∧ colAcct ∈ treeAccts ∧
    TableAccts treeAccts (fun _ => true) colTxns colAcct colAccts ∧ SubOk colAcct.com g colTxns start stop colAccts := by
  have hm := C123_children treeAccts (fun _ => true) treeAccts_tree 30 (by decide) (str "Assets")
  have hall : allChildren treeAccts (fun _ => true) 30 (str "Assets") = colAccts.drop 1 := by decide
  refine ⟨treeAccts_tree, by unfold TxnsSorted; decide +kernel, by decide, by decide, ⟨by decide, ?_⟩, ?_⟩
  · intro w
    show w ∈ colAccts ↔ (w = colAcct ∨ Down treeAccts _ (str "Assets") w) ∧ _
    rw [← hm.1 w, hall]
    constructor
    · intro h
      refine ⟨?_, ?_⟩
      · rcases List.mem_cons.mp h with h | h
        · exact Or.inl h
        · exact Or.inr h
      · revert w; decide +kernel
    · rintro ⟨h | h, _⟩
      · rw [h]; decide
      · exact List.mem_of_mem_drop h
  · have hposts : ∀ w ∈ colAccts, Groupable colAcct.com (acctPosts colTxns w.fullName) := by
      unfold Groupable YearOk; decide +kernel
    have hbal : ∀ w ∈ colAccts, ∀ v ∈ acctPosts colTxns w.fullName, v.post.balance.com = colAcct.com := by decide +kernel
    have hsize : ∀ w ∈ colAccts, ∀ v ∈ acctPosts colTxns w.fullName, v.post.balance.int.natAbs ≤ 100 := by decide +kernel
    refine ⟨by decide, hposts, hbal, by decide +kernel, ?_⟩
    intro d
    have hle : ∀ w ∈ colAccts, (lastBalance ⟨0, colAcct.com⟩ (cellsPosts g colTxns start stop w d)).int.natAbs ≤ 100 := by
      intro w hw
      unfold lastBalance
      cases hl : (cellsPosts g colTxns start stop w d).getLast? with
      | none => decide
      | some v => exact hsize w hw v (List.mem_filter.mp (List.mem_filter.mp (List.mem_of_getLast? hl)).1).1
    have := sum_map_le (fun w => (lastBalance ⟨0, colAcct.com⟩ (cellsPosts g colTxns start stop w d)).int.natAbs) (fun _ => 100) colAccts hle
    exact Nat.le_trans this (by decide)

theorem colRange_ok : RangeOk (86400 * goDate 2015 1 1) (86400 * goDate 2015 12 31) :=
  groupTxns_ok.2.2 _ _ (by unfold YearOk; decide +kernel) (by unfold YearOk; decide +kernel)

/-- The postings of the subtree of the example. -/
theorem colSubtree (d : Int) : subtreePosts .monthly treeAccts (fun _ => true) colTxns colAcct (86400 * goDate 2015 1 1) (86400 * goDate 2015 12 31) d
    ((colTxns.flatMap txnPosts).filter (fun v => (decide (86400 * goDate 2015 1 1 ≤ v.txn.posted ∧ v.txn.posted ≤ 86400 * goDate 2015 12 31) &&
      decide (Aggregate.red .monthly v.day = d)) && [str "Assets", str "Assets:Bank", str "Assets:Bank:Savings"].contains v.post.account)) := by
  refine ⟨_, ?_, rfl⟩
  have hm := C123_children treeAccts (fun _ => true) treeAccts_tree 30 (by decide) (str "Assets")
  have hall : allChildren treeAccts (fun _ => true) 30 (str "Assets") = colAccts.drop 1 := by decide
  intro n
  show _ ↔ n = str "Assets" ∨ _
  rw [List.mem_cons]
  apply or_congr Iff.rfl
  constructor
  · intro h
    have : n ∈ (colAccts.drop 1).map (fun w : WAcct => w.fullName) := h
    obtain ⟨w, hw, e⟩ := List.mem_map.mp this
    exact ⟨w, (hm.1 w).mp (by rw [hall]; exact hw), e⟩
  · rintro ⟨w, hw, e⟩
    have := (hm.1 w).mpr hw
    rw [hall] at this
    have : w.fullName ∈ (colAccts.drop 1).map (fun w : WAcct => w.fullName) := List.mem_map.mpr ⟨w, this, rfl⟩
    rw [e] at this
    exact this

/-- **C132** The full statement is false for a maximum of zero: the only column then shows the account with the smallest total, so
January 2015 has nothing of the 120 posted. -/
theorem C132_zero_violated : ¬ C132_Statement := by
  intro h
  obtain ⟨c1, c2, c3, c4, c5, c6⟩ := colTxns_ok .monthly (86400 * goDate 2015 1 1) (86400 * goDate 2015 12 31)
  obtain ⟨cols, e, hc⟩ := h (fun _ _ _ => .error .err) 0 .monthly treeAccts (fun _ => true) colTxns 30 colAcct _ _ _ 0 false colAccts (by decide) (by decide)
    c1 c2 c3 c4 colRange_ok (intervalRange_starts _ _ _) c5 c6
  have h1 := hc 0 (goDate 2015 1 1) (by decide +kernel) _ (colSubtree _)
  have h2 : (groupByWithSubAccounts (fun _ _ _ => .error .err) 0 .monthly treeAccts (fun _ => true) colTxns 30 colAcct (86400 * goDate 2015 1 1)
      (86400 * goDate 2015 12 31) 0 false).toOption.map (fun cols => ((columnCells cols 0).map (fun x : PGroup => x.sum.int)).sum) = some 0 := by decide +kernel
  rw [e] at h2
  injection h2 with h2
  dsimp only at h2
  rw [h2] at h1
  exact absurd h1 (by decide +kernel)

/-- **C132** The full statement is false for ranges in which no period starts: the page throws. -/
theorem C132_empty_violated : ¬ C132_Statement := by
  intro h
  obtain ⟨c1, c2, c3, c4, c5, c6⟩ := colTxns_ok .monthly (86400 * goDate 2015 1 2) (86400 * goDate 2015 1 20)
  obtain ⟨cols, e, hc⟩ := h (fun _ _ _ => .error .err) 0 .monthly treeAccts (fun _ => true) colTxns 30 colAcct _ _ _ 5 false colAccts (by decide) (by decide)
    c1 c2 c3 c4 (groupTxns_ok.2.2 _ _ (by unfold YearOk; decide +kernel) (by unfold YearOk; decide +kernel)) (intervalRange_starts _ _ _) c5 c6
  have h2 : (groupByWithSubAccounts (fun _ _ _ => .error .err) 0 .monthly treeAccts (fun _ => true) colTxns 30 colAcct (86400 * goDate 2015 1 2)
      (86400 * goDate 2015 1 20) 5 false).isOk = false := by decide +kernel
  rw [e] at h2
  cases h2

/-! With a maximum of two the smaller two accounts share the column Other. -/
example : (groupByWithSubAccounts (fun _ _ _ => .error .err) 0 .monthly treeAccts (fun _ => true) colTxns 30 colAcct (86400 * goDate 2015 1 1)
      (86400 * goDate 2015 12 31) 2 false).toOption.map (fun cols => (cols.map (fun x => x.account.isSome),
        (columnCells cols 0).map (fun x : PGroup => x.sum.int), (columnCells cols 1).map (fun x : PGroup => x.total.int))) =
    some ([true, false], [100, 20], [100, 25]) := by decide +kernel

/-! ## C133: the table with subaccounts -/

/-- A column given by its account and its cells. -/
abbrev Col := Option WAcct × (Int → PGroup)

theorem rowAt_ok {ι : Type} (conv : Com → Amount → Int → Except Fault Amount) (c : Com) (acct : ι → Option WAcct) (ds : List Int) (F : ι → Int → PGroup)
    (i : Nat) (d : Int) (hi : ds[i]? = some d) : ∀ (xs : List ι) (s b : Int), CellsOk c [] F xs →
    s.natAbs + (xs.map (fun x => (F x d).sum.int.natAbs)).sum ≤ 2 ^ 53 → b.natAbs + (xs.map (fun x => (F x d).balance.int.natAbs)).sum ≤ 2 ^ 53 →
    rowAt conv i d ⟨s, c⟩ ⟨b, c⟩ (xs.map (column acct ds F)) =
      .ok (⟨s + (xs.map (fun x => (F x d).sum.int)).sum, c⟩, ⟨b + (xs.map (fun x => (F x d).balance.int)).sum, c⟩) := by
  intro xs
  induction xs with
  | nil => intro s b _ _ _; simp [rowAt]
  | cons x xs ih =>
    intro s b hok h1 h3
    simp only [List.map_cons, List.sum_cons] at h1 h3
    have hx : x ∈ x :: xs := List.mem_cons_self
    have hok' : CellsOk c [] F xs := ⟨fun y hy => hok.date y (List.mem_cons_of_mem _ hy), fun y hy => hok.sum y (List.mem_cons_of_mem _ hy),
      fun y hy => hok.total y (List.mem_cons_of_mem _ hy), fun y hy => hok.balance y (List.mem_cons_of_mem _ hy), fun d hd => by cases hd⟩
    rw [List.map_cons]
    unfold rowAt
    have hg : (column acct ds F x).groups[i]? = some (F x d) := by
      unfold column
      rw [List.getElem?_map, hi]; rfl
    rw [hg]
    dsimp only
    rw [if_neg (by rw [hok.date x hx d]; simp), wAddIn_ok conv c s _ _ (hok.sum x hx d) (by omega)]
    show (wAddIn conv ⟨b, c⟩ _ _).bind _ = _
    rw [wAddIn_ok conv c b _ _ (hok.balance x hx d) (by omega)]
    show rowAt conv i d _ _ _ = _
    rw [ih _ _ hok' (by omega) (by omega)]
    simp only [List.map_cons, List.sum_cons, Int.add_assoc]

theorem subRows_ok {ι : Type} (conv : Com → Amount → Int → Except Fault Amount) (off : Int) (c : Com) (flows : Bool) (acct : ι → Option WAcct) (ds : List Int)
    (F : ι → Int → PGroup) (xs : List ι) (hok : CellsOk c ds F xs) : ∀ (l : List (Int × Nat)) (t : Int), (∀ e ∈ l, ds[e.2]? = some e.1) →
    subRegisterRows conv off c flows (xs.map (column acct ds F)) ⟨t, c⟩ l = .ok (l.map (fun e => ⟨dateToString off (86400 * e.1),
      xs.map (fun x => balanceOrSum flows (F x e.1)), balanceOrSum flows (sumCells c F xs e.1), balanceOrSum flows (sumCells c F xs e.1)⟩)) := by
  intro l
  induction l with
  | nil => intro t _; rfl
  | cons e l ih =>
    intro t hl
    obtain ⟨d, i⟩ := e
    have hi : ds[i]? = some d := hl (d, i) List.mem_cons_self
    obtain ⟨f1, f2, f3⟩ := hok.fits d (List.mem_of_getElem? hi)
    have hok' : CellsOk c [] F xs := ⟨hok.date, hok.sum, hok.total, hok.balance, fun d hd => by cases hd⟩
    unfold subRegisterRows
    rw [rowAt_ok conv c acct ds F i d hi xs 0 0 hok' (by simpa using f1) (by simpa using f3)]
    show (wAddIn conv ⟨t, c⟩ _ _).bind _ = _
    unfold wAddIn
    rw [if_pos rfl]
    show (subRegisterRows conv off c flows _ ⟨dbl _, c⟩ l).bind _ = _
    rw [ih _ (fun e he => hl e (List.mem_cons_of_mem _ he))]
    show Except.ok _ = Except.ok _
    rw [List.map_cons]
    congr 2
    dsimp only
    have e1 : (xs.map (column acct ds F)).filterMap (fun x => (x.groups[i]?).map (balanceOrSum flows)) = xs.map (fun x => balanceOrSum flows (F x d)) := by
      rw [List.filterMap_map]
      clear ih hok hok' f1 f2 f3
      induction xs with
      | nil => rfl
      | cons x xs ih =>
        rw [List.filterMap_cons, List.map_cons]
        have : ((fun x : AGroups => (x.groups[i]?).map (balanceOrSum flows)) ∘ column acct ds F) x = some (balanceOrSum flows (F x d)) := by
          show ((ds.map (F x))[i]?).map _ = _
          rw [List.getElem?_map, hi]; rfl
        rw [this, ih]
    rw [e1]
    congr 1 <;> (unfold balanceOrSum sumCells; cases flows <;> simp)

/-- The columns of `C132_columns`. -/
def tableCols (g : Aggregate) (ts : List WTxn) (start stop : Int) (c : Com) (max : Nat) (order : List WAcct) : List Col :=
  if order.length ≤ max then order.map (fun w => (some w, cellOf g ts start stop w))
  else (order.take (max - 1)).map (fun w => (some w, cellOf g ts start stop w)) ++ [(none, sumCells c (cellOf g ts start stop) (order.drop (max - 1)))]

theorem map_cols {ι : Type} (acct : ι → Option WAcct) (ds : List Int) (F : ι → Int → PGroup) (xs : List ι) :
    xs.map (column acct ds F) = (xs.map (fun x => ((acct x, F x) : Col))).map (column Prod.fst ds Prod.snd) := by
  rw [List.map_map]; rfl

theorem natAbs_sum_map_le {α : Type} (f : α → Int) (l : List α) : (l.map f).sum.natAbs ≤ (l.map (fun x => (f x).natAbs)).sum := by
  have := natAbs_sum_le (l.map f)
  rw [List.map_map] at this
  exact this

theorem tableCols_ok {c : Com} {g : Aggregate} {ts : List WTxn} {start stop : Int} {order : List WAcct} (h : SubOk c g ts start stop order) (ds : List Int) (max : Nat) :
    CellsOk c ds Prod.snd (tableCols g ts start stop c max order) ∧
    ∀ d, sumCells c Prod.snd (tableCols g ts start stop c max order) d = sumCells c (cellOf g ts start stop) order d := by
  have hc := h.cells ds
  unfold tableCols
  split
  · constructor
    · refine ⟨?_, ?_, ?_, ?_, ?_⟩
      · intro x hx d; obtain ⟨w, hw, rfl⟩ := List.mem_map.mp hx; exact hc.date w hw d
      · intro x hx d; obtain ⟨w, hw, rfl⟩ := List.mem_map.mp hx; exact hc.sum w hw d
      · intro x hx d; obtain ⟨w, hw, rfl⟩ := List.mem_map.mp hx; exact hc.total w hw d
      · intro x hx d; obtain ⟨w, hw, rfl⟩ := List.mem_map.mp hx; exact hc.balance w hw d
      · intro d hd
        obtain ⟨f1, f2, f3⟩ := hc.fits d hd
        simp only [List.map_map]
        exact ⟨f1, f2, f3⟩
    · intro d
      unfold sumCells
      simp only [List.map_map, List.flatMap_map]
      rfl
  · have split_sum : ∀ (f : WAcct → Nat), ((order.take (max - 1)).map f).sum + ((order.drop (max - 1)).map f).sum = (order.map f).sum := by
      intro f
      rw [← List.sum_append, ← List.map_append, List.take_append_drop]
    have split_int : ∀ (f : WAcct → Int), ((order.take (max - 1)).map f).sum + ((order.drop (max - 1)).map f).sum = (order.map f).sum := by
      intro f
      rw [← List.sum_append, ← List.map_append, List.take_append_drop]
    have mem : ∀ w, w ∈ order.take (max - 1) → w ∈ order := fun w => List.mem_of_mem_take
    constructor
    · refine ⟨?_, ?_, ?_, ?_, ?_⟩
      · intro x hx d
        rcases List.mem_append.mp hx with hx | hx
        · obtain ⟨w, hw, rfl⟩ := List.mem_map.mp hx; exact hc.date w (mem w hw) d
        · rw [List.mem_singleton] at hx; subst hx; rfl
      · intro x hx d
        rcases List.mem_append.mp hx with hx | hx
        · obtain ⟨w, hw, rfl⟩ := List.mem_map.mp hx; exact hc.sum w (mem w hw) d
        · rw [List.mem_singleton] at hx; subst hx; rfl
      · intro x hx d
        rcases List.mem_append.mp hx with hx | hx
        · obtain ⟨w, hw, rfl⟩ := List.mem_map.mp hx; exact hc.total w (mem w hw) d
        · rw [List.mem_singleton] at hx; subst hx; rfl
      · intro x hx d
        rcases List.mem_append.mp hx with hx | hx
        · obtain ⟨w, hw, rfl⟩ := List.mem_map.mp hx; exact hc.balance w (mem w hw) d
        · rw [List.mem_singleton] at hx; subst hx; rfl
      · intro d hd
        obtain ⟨f1, f2, f3⟩ := hc.fits d hd
        simp only [List.map_append, List.sum_append, List.map_map, List.map_cons, List.map_nil, List.sum_cons, List.sum_nil, Nat.add_zero]
        refine ⟨?_, ?_, ?_⟩
        · refine Nat.le_trans ?_ f1
          rw [← split_sum]
          exact Nat.add_le_add_left (natAbs_sum_map_le _ _) _
        · refine Nat.le_trans ?_ f2
          rw [← split_sum]
          exact Nat.add_le_add_left (natAbs_sum_map_le _ _) _
        · refine Nat.le_trans ?_ f3
          rw [← split_sum]
          exact Nat.add_le_add_left (natAbs_sum_map_le _ _) _
    · intro d
      have e1 := split_int (fun w => (cellOf g ts start stop w d).sum.int)
      have e2 := split_int (fun w => (cellOf g ts start stop w d).total.int)
      have e3 := split_int (fun w => (cellOf g ts start stop w d).balance.int)
      have e4 : (order.take (max - 1)).flatMap (fun w => (cellOf g ts start stop w d).postings) ++ (order.drop (max - 1)).flatMap (fun w => (cellOf g ts start stop w d).postings) =
          order.flatMap (fun w => (cellOf g ts start stop w d).postings) := by
        rw [← List.flatMap_append, List.take_append_drop]
      unfold sumCells
      simp only [List.map_append, List.sum_append, List.map_map, List.map_cons, List.map_nil, List.sum_cons, List.sum_nil, Int.add_zero, List.flatMap_append, List.flatMap_map,
        List.flatMap_cons, List.flatMap_nil, List.append_nil]
      rw [← e1, ← e2, ← e3, ← e4]
      rfl

/-- **C133** (full statement): with style Flows the table with subaccounts has a row for each period; under Total it shows the sum over the
subtree for the period, and under Cum.Total the sum of the totals so far. -/
def C133_Statement : Prop :=
  ∀ (conv : Com → Amount → Int → Except Fault Amount) (off : Int) (g : Aggregate) (as : List WAcct) (keep : WAcct → Bool) (ts : List WTxn) (k : Nat) (a : WAcct)
    (start stop : Int) (ds : List Int) (max : Nat) (negated : Bool) (accts : List WAcct) (rows : List GRow),
    -86400 < off → off < 86400 → WTree as → TxnsSorted ts → (∀ w ∈ as, w.fullName.length ≤ k) → a ∈ as → RangeOk start stop → PeriodStarts g start stop ds → ds ≠ [] →
    1 ≤ max → TableAccts as keep ts a accts → SubOk a.com g ts start stop accts →
    viewRegisterAggregatedWithSubAccounts conv off g true as keep ts k a start stop max negated = .ok rows →
    rows.map (fun r : GRow => r.date) = ds.map (fun d => dateToString off (86400 * d)) ∧
    (∀ (i : Nat) (d : Int) (r : GRow), ds[i]? = some d → rows[i]? = some r →
      (∀ l, subtreePosts g as keep ts a start stop d l → r.total.int = qsum l) ∧ (r.cells.map (fun x : Amount => x.int)).sum = r.total.int ∧
      r.cumTotal.int = ((rows.take (i + 1)).map (fun r : GRow => r.total.int)).sum)

/-- **C133** (partial): the rows, their cells (the columns of C132) and their totals are as stated, with style Balances the total is the sum
of the balances of the cells. Missing: Cum.Total, which repeats the total. -/
theorem C133_table_partial (conv : Com → Amount → Int → Except Fault Amount) (off : Int) (h1 : -86400 < off) (h2 : off < 86400) (g : Aggregate) (flows : Bool)
    (as : List WAcct) (ht : WTree as) (keep : WAcct → Bool) (ts : List WTxn) (hts : TxnsSorted ts) (k : Nat) (hk : ∀ w ∈ as, w.fullName.length ≤ k) (a : WAcct)
    (ha : a ∈ as) (start stop : Int) (hr : RangeOk start stop) (ds : List Int) (hds : PeriodStarts g start stop ds) (hne : ds ≠ []) (max : Nat) (hmax : 1 ≤ max)
    (negated : Bool) (accts : List WAcct) (hacc : TableAccts as keep ts a accts) (hok : SubOk a.com g ts start stop accts) :
    ∃ rows cols, groupByWithSubAccounts conv off g as keep ts k a start stop max negated = .ok cols ∧
      viewRegisterAggregatedWithSubAccounts conv off g flows as keep ts k a start stop max negated = .ok rows ∧
      rows.map (fun r : GRow => r.date) = ds.map (fun d => dateToString off (86400 * d)) ∧
      ∀ (i : Nat) (d : Int), ds[i]? = some d → ∃ r, rows[i]? = some r ∧ r.cells = (columnCells cols i).map (balanceOrSum flows) ∧
        (r.cells.map (fun x : Amount => x.int)).sum = r.total.int ∧ r.cumTotal = r.total ∧
        (flows = true → ∀ l, subtreePosts g as keep ts a start stop d l → r.total = ⟨qsum l, a.com⟩) := by
  obtain ⟨order, hp, _, e⟩ := C132_columns conv off h1 h2 g as ht keep ts hts k hk a ha start stop hr ds hds hne max hmax negated accts hacc hok
  have hcols : (if accts.length ≤ max then order.map (column some ds (cellOf g ts start stop))
      else (order.take (max - 1)).map (column some ds (cellOf g ts start stop)) ++
        [(⟨none, ds.map (sumCells a.com (cellOf g ts start stop) (order.drop (max - 1)))⟩ : AGroups)]) =
      (tableCols g ts start stop a.com max order).map (column Prod.fst ds Prod.snd) := by
    unfold tableCols
    rw [hp.length_eq]
    split
    · rw [List.map_map]; rfl
    · rw [List.map_append, List.map_map]; rfl
  obtain ⟨hcok, hsum⟩ := tableCols_ok (hok.perm hp) ds max
  have hrows := subRows_ok conv off a.com flows Prod.fst ds Prod.snd _ hcok ds.zipIdx 0 (by
    rintro ⟨d, i⟩ he
    rw [List.mem_zipIdx_iff_getElem?] at he
    exact he)
  refine ⟨ds.zipIdx.map (fun e => ⟨dateToString off (86400 * e.1), (tableCols g ts start stop a.com max order).map (fun x => balanceOrSum flows (x.2 e.1)),
      balanceOrSum flows (sumCells a.com Prod.snd (tableCols g ts start stop a.com max order) e.1),
      balanceOrSum flows (sumCells a.com Prod.snd (tableCols g ts start stop a.com max order) e.1)⟩), _, e, ?_, ?_⟩
  · unfold viewRegisterAggregatedWithSubAccounts
    rw [e, hcols]
    show subRegisterRows conv off a.com flows _ ⟨0, a.com⟩ (intervalRange g start stop).zipIdx = _
    rw [← hds.unique, hrows]
  · rw [List.map_map]
    constructor
    · have : (ds.zipIdx.map Prod.fst).map (fun d => dateToString off (86400 * d)) = ds.map (fun d => dateToString off (86400 * d)) := by rw [List.zipIdx_map_fst]
      rw [← this, List.map_map]
      rfl
    · intro i d hi
      rw [List.getElem?_map, List.getElem?_zipIdx, hi]
      refine ⟨_, rfl, ?_, ?_, rfl, ?_⟩
      · dsimp only
        rw [hcols, rowCells_columns _ _ _ _ hi, List.map_map]
        rfl
      · dsimp only
        rw [List.map_map]
        cases flows <;> rfl
      · rintro rfl l hl
        dsimp only
        rw [hsum]
        rw [← accts_sum g as ht keep ts a ha start stop d accts hacc l hl, ← (hp.map _).sum_eq]
        rfl

/-- **C133** The full statement is false: the second month of the example has a total of 5, and the same under Cum.Total, not 125. -/
theorem C133_cumulative_violated : ¬ C133_Statement := by
  intro h
  obtain ⟨c1, c2, c3, c4, c5, c6⟩ := colTxns_ok .monthly (86400 * goDate 2015 1 1) (86400 * goDate 2015 12 31)
  cases hr : viewRegisterAggregatedWithSubAccounts (fun _ _ _ => .error .err) 0 .monthly true treeAccts (fun _ => true) colTxns 30 colAcct (86400 * goDate 2015 1 1)
      (86400 * goDate 2015 12 31) (5 : Nat) false with
  | error e =>
    have : (viewRegisterAggregatedWithSubAccounts (fun _ _ _ => .error .err) 0 .monthly true treeAccts (fun _ => true) colTxns 30 colAcct (86400 * goDate 2015 1 1)
      (86400 * goDate 2015 12 31) (5 : Nat) false).isOk = true := by decide +kernel
    rw [hr] at this; cases this
  | ok rows =>
    have h1 := h (fun _ _ _ => .error .err) 0 .monthly treeAccts (fun _ => true) colTxns 30 colAcct _ _ _ 5 false colAccts rows (by decide) (by decide)
      c1 c2 c3 c4 colRange_ok (intervalRange_starts _ _ _) (by decide +kernel) (by decide) c5 c6 hr
    have h2 : (viewRegisterAggregatedWithSubAccounts (fun _ _ _ => .error .err) 0 .monthly true treeAccts (fun _ => true) colTxns 30 colAcct (86400 * goDate 2015 1 1)
      (86400 * goDate 2015 12 31) (5 : Nat) false).toOption.map (fun rows => ((rows.take 2).map (fun r : GRow => r.total.int), (rows[1]?).map (fun r => r.cumTotal.int))) =
        some ([120, 5], some 5) := by decide +kernel
    rw [hr] at h2
    injection h2 with h2
    injection h2 with h3 h4
    cases hx : rows[1]? with
    | none => rw [hx] at h4; cases h4
    | some r =>
      rw [hx] at h4
      injection h4 with h4
      have h5 := (h1.2 1 (goDate 2015 2 1) r (by decide +kernel) hx).2.2
      rw [h3] at h5
      dsimp only at h4
      rw [h4] at h5
      exact absurd h5 (by decide)

/-! ## C134: the details of a group -/

/-- **C134** The order of `topN` is that of `cmp` on the absolute amounts: the sorting puts `x` before `y` when `y.cmp(x, true)` is negative. -/
theorem C134_compare (x y : Amount) (h : y.com = x.com) : ∃ n, wCmpAbs y x = .ok n ∧ (n < 0 ↔ y.int.natAbs < x.int.natAbs) := by
  unfold wCmpAbs
  rw [if_neg (not_not.mpr h)]
  exact ⟨_, rfl, by omega⟩

/-- **C134** The details shown for a group are `n` of its postings (all, when there are fewer), largest first by the size of the amounts
converted to the account's commodity on their days; no posting left out is larger than one shown. -/
theorem C134_top (conv : Com → Amount → Int → Except Fault Amount) (n : Nat) (c : Com) (posts : List VPost) (val : VPost → Amount)
    (hv : ∀ v ∈ posts, convTo conv c v.post.quantity v.txn.posted = .ok (val v)) :
    ∃ top rest, topN conv n c posts = .ok top ∧ (top ++ rest).Perm posts ∧ top.length = min n posts.length ∧
      top.Pairwise (fun x y => (val y).int.natAbs ≤ (val x).int.natAbs) ∧ ∀ x ∈ top, ∀ y ∈ rest, (val y).int.natAbs ≤ (val x).int.natAbs := by
  unfold topN
  split
  · next hlt =>
    refine ⟨_, posts.drop n, rfl, by rw [List.take_append_drop], by rw [List.length_take], ?_, ?_⟩
    · match posts, hlt with
      | [], _ => simp
      | [x], _ => cases n <;> simp
      | _ :: _ :: _, h => simp only [List.length_cons] at h; omega
    · match posts, hlt with
      | [], _ => simp
      | [x], _ => cases n <;> simp
      | _ :: _ :: _, h => simp only [List.length_cons] at h; omega
  · rw [allE_ok _ (fun v => ((val v).int, v)) posts (fun v hm => by rw [hv v hm]; rfl)]
    let lt : VPost → VPost → Bool := fun x y => decide ((val y).int.natAbs < (val x).int.natAbs)
    have hsw : StrictWeak lt := by
      constructor
      · intro x y h; simp only [lt, decide_eq_true_eq, decide_eq_false_iff_not] at *; omega
      · intro x y z h1 h2; simp only [lt, decide_eq_false_iff_not] at *; omega
    have e : topSort (posts.map (fun v => ((val v).int, v))) = (stableSort lt posts).map (fun v => ((val v).int, v)) := by
      unfold topSort
      rw [stableSort_map]
    have hs := stableSort_sorted lt hsw posts
    have hp := stableSort_perm lt posts
    have hs' : (stableSort lt posts).Pairwise (fun x y => (val y).int.natAbs ≤ (val x).int.natAbs) :=
      hs.imp (fun {x y} h => by simp only [lt, decide_eq_false_iff_not] at h; omega)
    refine ⟨(stableSort lt posts).take n, (stableSort lt posts).drop n, ?_, by rw [List.take_append_drop]; exact hp,
      by rw [List.length_take, hp.length_eq], hs'.sublist (List.take_sublist _ _), ?_⟩
    · show Except.ok _ = Except.ok _
      rw [e, ← List.map_take, List.map_map]
      congr 1
      exact List.map_id' _
    · rw [← List.take_append_drop n (stableSort lt posts)] at hs'
      intro x hx y hy
      exact (List.pairwise_append.mp hs').2.2 x hx y hy

/-! The posting of -100 comes before those of 20 and 3. -/
example : (topN (fun _ _ _ => .error .err) 2 sampleCom (acctPosts [groupTxn 5 20 20, groupTxn 6 (-100) (-80), groupTxn 7 3 (-77)] (str "Assets"))).toOption.map
    (List.map (fun v : VPost => v.post.quantity.int)) = some [-100, 20] := by decide +kernel

/-! ## C135: the bars of the chart -/

/-- The length of a bar in units of the commodity: the whole part of the amount (negated for accounts with negative amounts), zero when it
is negative. -/
def barLength (negated : Bool) (c : Com) (x : Int) : Int :=
  if negated then (if x ≤ 0 then (-x) / 10 ^ c.decimals else 0) else (if 0 ≤ x then x / 10 ^ c.decimals else 0)

theorem widthOf_ok (conv : Com → Amount → Int → Except Fault Amount) (c : Com) (flows negated : Bool) (g : PGroup) (hc : (balanceOrSum flows g).com = c)
    (hf : (balanceOrSum flows g).int.natAbs < 2 ^ 53) : widthOf conv c flows negated g = .ok (barLength negated c (balanceOrSum flows g).int) := by
  unfold widthOf convTo
  rw [if_pos hc]
  show Except.ok _ = Except.ok _
  have h10 : 0 < 10 ^ c.decimals := by positivity
  rw [fl_trunc _ _ h10 hf]
  generalize (balanceOrSum flows g).int = x
  have e10 : ((10 ^ c.decimals : Nat) : Int) = 10 ^ c.decimals := by push_cast; rfl
  rw [e10]
  have hp : (0 : Int) < 10 ^ c.decimals := by positivity
  congr 1
  unfold barLength
  generalize (10 : Int) ^ c.decimals = m at hp
  rcases Int.lt_or_le x 0 with hx | hx
  · have e1 : Int.tdiv x m = -((-x) / m) := by
      have := Int.tdiv_eq_ediv_of_nonneg (a := -x) (b := m) (by omega)
      rw [Int.neg_tdiv] at this
      omega
    have h0 : 0 ≤ (-x) / m := Int.ediv_nonneg (by omega) (by omega)
    rw [e1]
    cases negated
    · simp only [Bool.false_eq_true, if_false]
      rw [if_neg (show ¬ 0 ≤ x by omega)]
      split <;> omega
    · simp only [if_true]
      rw [if_pos (show x ≤ 0 by omega)]
      split <;> omega
  · have e1 : Int.tdiv x m = x / m := Int.tdiv_eq_ediv_of_nonneg hx
    have h0 : 0 ≤ x / m := Int.ediv_nonneg hx (by omega)
    rw [e1]
    cases negated
    · simp only [Bool.false_eq_true, if_false]
      rw [if_pos hx, if_neg (by omega)]
    · simp only [if_true]
      split
      · next h =>
        split
        · next h2 =>
          have : x = 0 := by omega
          subst this
          simp at h
        · rfl
      · next h =>
        have hz : x / m = 0 := by omega
        rw [hz]
        split
        · next h2 =>
          have : x = 0 := by omega
          subst this
          simp
        · rfl

/-- **C135** In the chart the bars of a period are laid end to end, in the order of the columns: each has the whole part of its amount as
length (none when the amount has the other sign), and starts where the one before it ends; the first starts at zero. -/
theorem C135_bars {ι : Type} (conv : Com → Amount → Int → Except Fault Amount) (c : Com) (flows negated : Bool) (acct : ι → Option WAcct) (ds : List Int)
    (F : ι → Int → PGroup) (xs : List ι) (i : Nat) (d : Int) (hi : ds[i]? = some d) (hc : ∀ x ∈ xs, (balanceOrSum flows (F x d)).com = c)
    (hf : ∀ x ∈ xs, (balanceOrSum flows (F x d)).int.natAbs < 2 ^ 53) :
    ∃ bars, barsAt conv c flows negated i 0 (xs.map (column acct ds F)) = .ok bars ∧ bars.length = xs.length ∧
      ∀ (j : Nat) (x : ι), xs[j]? = some x → bars[j]? = some
        (((xs.take j).map (fun x => barLength negated c (balanceOrSum flows (F x d)).int)).sum, barLength negated c (balanceOrSum flows (F x d)).int) := by
  have key : ∀ (xs : List ι) (o : Int), (∀ x ∈ xs, (balanceOrSum flows (F x d)).com = c) → (∀ x ∈ xs, (balanceOrSum flows (F x d)).int.natAbs < 2 ^ 53) →
      ∃ bars, barsAt conv c flows negated i o (xs.map (column acct ds F)) = .ok bars ∧ bars.length = xs.length ∧
        ∀ (j : Nat) (x : ι), xs[j]? = some x → bars[j]? = some
          (o + ((xs.take j).map (fun x => barLength negated c (balanceOrSum flows (F x d)).int)).sum, barLength negated c (balanceOrSum flows (F x d)).int) := by
    intro xs
    induction xs with
    | nil => intro o _ _; exact ⟨[], rfl, rfl, fun j x h => by simp at h⟩
    | cons y ys ih =>
      intro o hc hf
      obtain ⟨bars, e, hl, hb⟩ := ih (o + barLength negated c (balanceOrSum flows (F y d)).int) (fun x hx => hc x (List.mem_cons_of_mem _ hx))
        (fun x hx => hf x (List.mem_cons_of_mem _ hx))
      rw [List.map_cons]
      unfold barsAt
      have hg : (column acct ds F y).groups[i]? = some (F y d) := by
        unfold column
        rw [List.getElem?_map, hi]; rfl
      rw [hg]
      dsimp only
      rw [widthOf_ok conv c flows negated _ (hc y List.mem_cons_self) (hf y List.mem_cons_self)]
      refine ⟨(o, barLength negated c (balanceOrSum flows (F y d)).int) :: bars, ?_, by simp [hl], ?_⟩
      · show (barsAt conv c flows negated i _ _).bind _ = _
        rw [e]; rfl
      · intro j x hx
        cases j with
        | zero =>
          simp only [List.getElem?_cons_zero, Option.some.injEq] at hx
          subst hx
          simp
        | succ j =>
          rw [List.getElem?_cons_succ] at hx ⊢
          rw [hb j x hx, List.take_succ_cons, List.map_cons, List.sum_cons, Int.add_assoc]
  obtain ⟨bars, e, hl, hb⟩ := key xs 0 hc hf
  exact ⟨bars, e, hl, fun j x hx => by have := hb j x hx; rw [Int.zero_add] at this; exact this⟩

/-- **C135** (lengths are never negative, so bars do not overlap). -/
theorem C135_length (negated : Bool) (c : Com) (x : Int) : 0 ≤ barLength negated c x := by
  have hp : (0 : Int) < 10 ^ c.decimals := by positivity
  unfold barLength
  split <;> split
  · exact Int.ediv_nonneg (by omega) (by omega)
  · omega
  · exact Int.ediv_nonneg (by omega) (by omega)
  · omega

example : (barsAt (fun _ _ _ => .error .err) sampleCom true false 0 0 ([(1099 : Int), -500, 250].map (column (fun _ => none) [7]
    (fun x d => ⟨d, [], ⟨x, sampleCom⟩, ⟨0, sampleCom⟩, ⟨0, sampleCom⟩⟩)))).toOption = some [(0, 10), (10, 0), (10, 2)] := by decide +kernel

/-! ## C136: the period chosen for a range -/

/-- The least number of days of a period. -/
def leastDays : Aggregate → Int
  | .weekly => 7
  | .monthly => 28
  | .quarterly => 90
  | .yearly => 365

theorem starts_apart (g : Aggregate) {d d' : Int} (h : StartsPeriod g d) (h' : StartsPeriod g d') (hlt : d < d') : d + leastDays g ≤ d' := by
  have r := goParts_range d
  have r' := goParts_range d'
  have hp := goDate_parts d
  have hp' := goDate_parts d'
  have hy := goYear_mono (show d ≤ d' by omega)
  cases g with
  | weekly =>
    have h : weekday d = 0 := h
    have h' : weekday d' = 0 := h'
    unfold weekday at h h'
    show d + 7 ≤ d'
    omega
  | monthly =>
    have h : goDay d = 1 := h
    have h' : goDay d' = 1 := h'
    show d + 28 ≤ d'
    by_contra hc
    have hv := goDate_valid (goYear d) (goMonth d) (1 + (d' - d)) ⟨r.1, r.2.1⟩ ⟨by omega, by
      have : 28 ≤ daysIn (isLeap (goYear d)) (goMonth d) := by
        unfold daysIn
        repeat' split
        all_goals decide
      omega⟩
    rw [goDate_add] at hv
    rw [h] at hp
    rw [hp, show d + (d' - d) = d' by omega] at hv
    omega
  | quarterly =>
    obtain ⟨h, hm⟩ := h
    obtain ⟨h', hm'⟩ := h'
    show d + 90 ≤ d'
    rw [h] at hp
    rw [h'] at hp'
    have n1 := goDate_next_month (goYear d) (goMonth d) ⟨r.1, r.2.1⟩
    have n2 := goDate_next_month (goYear d) (goMonth d + 1) ⟨by omega, by omega⟩
    have n3 := goDate_next_month (goYear d) (goMonth d + 1 + 1) ⟨by omega, by omega⟩
    have hlen : goDate (goYear d) (goMonth d + 3) 1 ≥ d + 90 := by
      rw [show goMonth d + 3 = goMonth d + 1 + 1 + 1 by omega, n3, n2, n1, hp]
      have : 90 ≤ daysIn (isLeap (goYear d)) (goMonth d) + daysIn (isLeap (goYear d)) (goMonth d + 1) + daysIn (isLeap (goYear d)) (goMonth d + 1 + 1) := by
        rcases hm with e | e | e | e <;> rw [e] <;> cases isLeap (goYear d) <;> decide
      omega
    refine Int.le_trans hlen ?_
    by_cases hyy : goYear d' = goYear d
    · rw [hyy] at hp'
      have hmm : goMonth d + 3 ≤ goMonth d' := by
        by_contra hc
        have : goMonth d' ≤ goMonth d := by omega
        have := first_mono (y := goYear d) r'.1 r.2.1 this
        omega
      have := first_mono (y := goYear d) (m := goMonth d + 3) (m' := goMonth d') (by omega) r'.2.1 hmm
      omega
    · have e1 : goDate (goYear d) 13 1 = goDate (goYear d + 1) 1 1 := by
        have := goDate_next_month (goYear d) 12 ⟨by omega, by omega⟩
        unfold goDate
        simp only
        norm_num
      have e2 : goDate (goYear d) (goMonth d + 3) 1 ≤ goDate (goYear d) 13 1 := by
        rcases Int.lt_or_le (goMonth d + 3) 13 with hlt | hge
        · exact Int.le_of_lt (first_mono_lt (goYear d) hlt)
        · rw [show goMonth d + 3 = 13 by omega]
      have e3 : goDate (goYear d + 1) 1 1 ≤ d' := by
        rw [goDate_first _ _ ⟨by omega, by omega⟩]
        have hm1 : monthStart (isLeap (goYear d + 1)) 1 = 0 := by cases isLeap (goYear d + 1) <;> decide
        rw [hm1]
        obtain ⟨y1, _⟩ := goYear_spec d'
        have y2 := yearStart_mono (y := goYear d + 1) (z := goYear d') (by omega)
        revert y1 y2
        generalize yearStart (goYear d + 1) = u
        generalize yearStart (goYear d') = v
        intro y1 y2
        omega
      omega
  | yearly =>
    obtain ⟨h, hm⟩ := h
    obtain ⟨h', hm'⟩ := h'
    show d + 365 ≤ d'
    rw [h, hm] at hp
    rw [h', hm'] at hp'
    rw [goDate_first _ _ ⟨by omega, by omega⟩] at hp hp'
    have hm1 : ∀ b, monthStart b 1 = 0 := by intro b; cases b <;> decide
    rw [hm1] at hp hp'
    have hne : goYear d ≠ goYear d' := fun e => by rw [e] at hp; omega
    have y2 := yearStart_mono (y := goYear d) (z := goYear d') (by omega)
    revert hp hp' y2
    generalize yearStart (goYear d) = u
    generalize yearStart (goYear d') = v
    intro hp hp' y2
    omega

theorem apart_count (n : Int) (_hn : 0 < n) : ∀ (l : List Int) (a b : Int), l.Pairwise (fun x y => x + n ≤ y) → (∀ x ∈ l, a ≤ x ∧ x < b) → (l.length : Int) * n < b - a + n ∨ l = [] := by
  intro l
  induction l with
  | nil => intro a b _ _; exact Or.inr rfl
  | cons x l ih =>
    intro a b hp hb
    rw [List.pairwise_cons] at hp
    left
    have hx := hb x List.mem_cons_self
    rcases ih (x + n) b hp.2 (fun y hy => ⟨hp.1 y hy, (hb y (List.mem_cons_of_mem _ hy)).2⟩) with h | h
    · rw [List.length_cons]
      push_cast
      have : ((l.length : Int) + 1) * n = (l.length : Int) * n + n := by ring
      omega
    · subst h
      simp only [List.length_cons, List.length_nil, Nat.zero_add, Int.natCast_one, Int.one_mul]
      omega

/-- **C136** The number of rows or bars: when the dates are changed while aggregating, the period is chosen so that there are at most 26 of
them, unless the range is five years or longer. -/
theorem C136_rows (start stop : Int) (h : stop - start < 5 * 365 * 86400) (ds : List Int) (hds : PeriodStarts (aggregationFor start stop) start stop ds) :
    ds.length ≤ 26 := by
  have hpair : ds.Pairwise (fun x y => x + leastDays (aggregationFor start stop) ≤ y) := by
    refine (List.Pairwise.and_mem.mp hds.1).imp ?_
    rintro x y ⟨hx, hy, hxy⟩
    exact starts_apart _ ((hds.2 x).mp hx).1 ((hds.2 y).mp hy).1 hxy
  have hmem : ∀ x ∈ ds, -((-start) / 86400) ≤ x ∧ x < -((-stop) / 86400) := by
    intro x hx
    obtain ⟨_, a, b⟩ := (hds.2 x).mp hx
    omega
  have hpos : 0 < leastDays (aggregationFor start stop) := by cases aggregationFor start stop <;> decide
  rcases apart_count _ hpos ds _ _ hpair hmem with hc | hc
  · revert hc
    unfold aggregationFor
    split
    · intro hc; simp only [leastDays] at hc; omega
    · split
      · intro hc; simp only [leastDays] at hc; omega
      · intro hc
        simp only [leastDays] at hc; omega
  · subst hc; decide

/-- **C136** (longer ranges are never cut finer). -/
theorem C136_coarser (start stop start' stop' : Int) (h : stop - start ≤ stop' - start') :
    leastDays (aggregationFor start stop) ≤ leastDays (aggregationFor start' stop') := by
  unfold aggregationFor
  repeat' split
  all_goals (simp only [leastDays]; omega)

/-! A range of 179 days that starts on a Sunday has 26 weeks. -/
example : (intervalRange (aggregationFor (86400 * goDate 2023 1 1) (86400 * (goDate 2023 1 1 + 179))) (86400 * goDate 2023 1 1)
    (86400 * (goDate 2023 1 1 + 179))).length = 26 ∧ aggregationFor (86400 * goDate 2023 1 1) (86400 * (goDate 2023 1 1 + 180)) = .monthly := by decide +kernel

end Verif
