import Verif.Model.ViewGroup
import Verif.Props.ViewTree
import Verif.Props.Periods
/-!
# Properties C129 to C136: aggregated registers and charts of the page
-/
namespace Verif

/-! ## Specification: periods -/

/-- The first days of periods: Sundays; the first days of months, of quarters, of years. -/
def StartsPeriod : Aggregate → Int → Prop
  | .weekly, d => weekday d = 0
  | .monthly, d => goDay d = 1
  | .quarterly, d => goDay d = 1 ∧ (goMonth d = 1 ∨ goMonth d = 4 ∨ goMonth d = 7 ∨ goMonth d = 10)
  | .yearly, d => goDay d = 1 ∧ goMonth d = 1

/-- The period of the day `n` starts on the day `d`: the last first day not after `n`. -/
def PeriodOf (g : Aggregate) (n d : Int) : Prop := StartsPeriod g d ∧ d ≤ n ∧ ∀ d', StartsPeriod g d' → d' ≤ n → d' ≤ d

/-- The day of a posting. -/
def VPost.day (v : VPost) : Int := v.txn.posted / 86400

/-- The sum of the quantities of postings. -/
def qsum (l : List VPost) : Int := (l.map (fun v : VPost => v.post.quantity.int)).sum

/-- The sum of the sizes of the quantities. -/
def asum (l : List VPost) : Nat := (l.map (fun v : VPost => v.post.quantity.int.natAbs)).sum

/-- The days on which the periods between two times start, in order. -/
def PeriodStarts (g : Aggregate) (start stop : Int) (ds : List Int) : Prop :=
  ds.Pairwise (· < ·) ∧ ∀ d : Int, d ∈ ds ↔ StartsPeriod g d ∧ start ≤ 86400 * d ∧ 86400 * d < stop

theorem red_starts (g : Aggregate) (n : Int) : StartsPeriod g (g.red n) := by
  cases g with
  | weekly => exact (C60_week n).1
  | monthly => exact (C60_month n).2.2.1
  | quarterly =>
    have h := C60_quarter n
    have r := goParts_range n
    refine ⟨h.2.2.1, ?_⟩
    show goMonth (quarterReduce n) = 1 ∨ _
    simp only [Aggregate.red]
    rw [h.2.1]
    omega
  | yearly => exact ⟨(C60_year n).2.2.1, (C60_year n).2.1⟩

theorem red_le (g : Aggregate) (n : Int) : g.red n ≤ n := by
  cases g with
  | weekly => exact (C60_week n).2.1
  | monthly => exact (C60_month n).2.2.2.1
  | quarterly => exact (C60_quarter n).2.2.2.1
  | yearly => exact (C60_year n).2.2.2.1

theorem red_mono (g : Aggregate) {a b : Int} (h : a ≤ b) : g.red a ≤ g.red b := by
  cases g with
  | weekly => exact (C60_week_order a b).1 h
  | monthly => exact (C60_month_order a b).1 h
  | quarterly => exact (C60_quarter_order a b).1 h
  | yearly => exact (C60_year_order a b).1 h

theorem red_fixed {g : Aggregate} {d : Int} : g.red d = d ↔ StartsPeriod g d := by
  constructor
  · intro h; rw [← h]; exact red_starts g d
  · intro h
    have r := goParts_range d
    have hp := goDate_parts d
    cases g with
    | weekly =>
      have h1 := C60_week d
      have h : weekday d = 0 := h
      simp only [Aggregate.red]
      have h2 := h1.1
      have h3 := h1.2.1
      have h4 := h1.2.2.1
      unfold weekday at h h2
      omega
    | monthly =>
      have h : goDay d = 1 := h
      show goDate (goYear d) (goMonth d) 1 = d
      rw [← h]; exact hp
    | quarterly =>
      obtain ⟨h1, h2⟩ := h
      show goDate (goYear d) (Int.tdiv (goMonth d - 1) 3 * 3 + 1) 1 = d
      rw [quarter_first _ ⟨r.1, r.2.1⟩, show (goMonth d - 1) / 3 * 3 + 1 = goMonth d by omega]
      rw [h1] at hp; exact hp
    | yearly =>
      obtain ⟨h1, h2⟩ := h
      show goDate (goYear d) 1 1 = d
      rw [h1, h2] at hp; exact hp

theorem red_idem (g : Aggregate) (n : Int) : g.red (g.red n) = g.red n := red_fixed.mpr (red_starts g n)

/-- **C129** (periods): postings are grouped by the last Sunday, first of a month, of a quarter or of a year on or before their day. -/
theorem C129_period (g : Aggregate) (n d : Int) : g.red n = d ↔ PeriodOf g n d := by
  have key : PeriodOf g n (g.red n) := ⟨red_starts g n, red_le g n, fun d' h1 h2 => by
    have := red_mono g h2
    rw [red_fixed.mpr h1] at this
    exact this⟩
  constructor
  · rintro rfl; exact key
  · rintro ⟨h1, h2, h3⟩
    have a := h3 _ key.1 key.2.1
    have b := key.2.2 d h1 h2
    omega

theorem mem_intervalRange {g : Aggregate} {start stop d : Int} :
    d ∈ intervalRange g start stop ↔ StartsPeriod g d ∧ start ≤ 86400 * d ∧ 86400 * d < stop := by
  unfold intervalRange
  rw [List.mem_filter, decide_eq_true_eq, red_fixed, List.mem_map]
  constructor
  · rintro ⟨⟨n, hn, rfl⟩, h⟩
    rw [List.mem_range] at hn
    refine ⟨h, ?_, ?_⟩ <;> omega
  · rintro ⟨h, h1, h2⟩
    refine ⟨⟨(d - -((-start) / 86400)).toNat, ?_, ?_⟩, h⟩
    · rw [List.mem_range]; omega
    · omega

theorem intervalRange_sorted (g : Aggregate) (start stop : Int) : (intervalRange g start stop).Pairwise (· < ·) := by
  unfold intervalRange
  apply List.Pairwise.filter
  rw [List.pairwise_map]
  exact List.pairwise_lt_range.imp (fun {a b} h => by omega)

theorem intervalRange_starts (g : Aggregate) (start stop : Int) : PeriodStarts g start stop (intervalRange g start stop) :=
  ⟨intervalRange_sorted g start stop, fun _ => mem_intervalRange⟩

/-- There is only one such list. -/
theorem PeriodStarts.unique {g : Aggregate} {start stop : Int} {ds : List Int} (h : PeriodStarts g start stop ds) : ds = intervalRange g start stop := by
  have h2 := intervalRange_starts g start stop
  have hperm : ds.Perm (intervalRange g start stop) := by
    rw [List.perm_ext_iff_of_nodup (h.1.imp (fun h => by omega)) (h2.1.imp (fun h => by omega))]
    intro d
    rw [h.2, h2.2]
  exact List.Perm.eq_of_pairwise (fun a b _ _ h1 h2 => by omega) h.1 h2.1 hperm

/-! ## Groups -/

theorem goYear_near (n m : Int) (h : n - 300 ≤ m) : goYear n - 1 ≤ goYear m := by
  by_contra hc
  obtain ⟨a1, _⟩ := goYear_spec n
  obtain ⟨_, a2⟩ := goYear_spec m
  have a3 := yearStart_mono (y := goYear m + 1) (z := goYear n) (by omega)
  revert a1 a2 a3
  generalize yearStart (goYear m + 1) = x
  generalize yearStart (goYear n) = z
  intro a1 a2 a3
  omega

theorem goYear_prev (n : Int) (h : 100 ≤ goYear n ∧ goYear n ≤ 9999) : 99 ≤ goYear (n - 1) ∧ goYear (n - 1) ≤ 9999 := by
  have m := goYear_mono (show n - 1 ≤ n by omega)
  have := goYear_near n (n - 1) (by omega)
  omega

/-- The text of a date identifies the day, in any zone. -/
theorem dateToString_inj {off a b : Int} (h1 : -86400 < off) (h2 : off < 86400) (ha : DateOk a) (hb : DateOk b) :
    dateToString off (86400 * a) = dateToString off (86400 * b) ↔ a = b := by
  refine ⟨fun h => ?_, fun h => by rw [h]⟩
  unfold dateToString at h
  by_cases ho : off ≤ 0
  · have e : ∀ n : Int, (86400 * n - off) / 86400 = n := by intro n; omega
    rw [e, e] at h
    exact isoDay_inj a b ⟨by unfold DateOk at ha; omega, ha.2⟩ ⟨by unfold DateOk at hb; omega, hb.2⟩ h
  · have e : ∀ n : Int, (86400 * n - off) / 86400 = n - 1 := by intro n; omega
    rw [e, e] at h
    have pa := goYear_prev a ha
    have pb := goYear_prev b hb
    have := isoDay_inj (a - 1) (b - 1) ⟨by omega, pa.2⟩ ⟨by omega, pb.2⟩ h
    omega

/-- The period of a day is in a year that can be written. -/
theorem red_year (g : Aggregate) (n : Int) (h : 101 ≤ goYear n ∧ goYear n ≤ 9999) : DateOk (g.red n) := by
  have m := goYear_mono (red_le g n)
  refine ⟨?_, by omega⟩
  cases g with
  | weekly =>
    have hw := C60_week n
    have := goYear_near n (weekReduce n) (by omega)
    show 100 ≤ goYear (weekReduce n)
    omega
  | monthly => show 100 ≤ goYear (monthReduce n); rw [(C60_month n).1]; omega
  | quarterly => show 100 ≤ goYear (quarterReduce n); rw [(C60_quarter n).1]; omega
  | yearly => show 100 ≤ goYear (yearReduce n); rw [(C60_year n).1]; omega

/-- The years of days the page writes with four digits, with a margin of one year for the zone and the week. -/
def YearOk (d : Int) : Prop := 101 ≤ goYear d ∧ goYear d ≤ 9999

theorem groupOf_filter {off : Int} (h1 : -86400 < off) (h2 : off < 86400) (g : Aggregate) (posts : List VPost) (hd : ∀ v ∈ posts, YearOk v.day)
    (d : Int) (hdd : DateOk d) : groupOf off g posts d = posts.filter (fun v => decide (g.red v.day = d)) := by
  unfold groupOf
  apply List.filter_congr
  intro v hv
  have hr := red_year g v.day (hd v hv)
  rw [decide_eq_decide]
  exact dateToString_inj h1 h2 hr hdd

theorem addQuantities_ok (conv : Com → Amount → Int → Except Fault Amount) (date : Int) (c : Com) : ∀ (l : List VPost) (t : Int),
    (∀ v ∈ l, v.post.quantity.com = c) → t.natAbs + asum l ≤ 2 ^ 53 → addQuantities conv date ⟨t, c⟩ l = .ok ⟨t + qsum l, c⟩ := by
  intro l
  induction l with
  | nil => intro t _ _; simp [addQuantities, qsum]
  | cons v l ih =>
    intro t hc hf
    have e : asum (v :: l) = v.post.quantity.int.natAbs + asum l := by simp [asum]
    have e2 : qsum (v :: l) = v.post.quantity.int + qsum l := by simp [qsum]
    rw [e] at hf
    unfold addQuantities wAddIn
    rw [if_pos (hc v List.mem_cons_self)]
    show addQuantities conv date ⟨dbl (t + v.post.quantity.int), c⟩ l = _
    rw [dbl_exact _ (by omega), ih _ (fun w hw => hc w (List.mem_cons_of_mem _ hw)) (by omega), e2]
    congr 2; omega

/-- The balance of the last of some postings. -/
def lastBalance (b : Amount) (l : List VPost) : Amount := match l.getLast? with | none => b | some v => v.post.balance

theorem qsum_append (l m : List VPost) : qsum (l ++ m) = qsum l + qsum m := by simp [qsum]
theorem asum_append (l m : List VPost) : asum (l ++ m) = asum l + asum m := by simp [asum]
theorem qsum_le (l : List VPost) : (qsum l).natAbs ≤ asum l := by
  unfold qsum asum
  have := natAbs_sum_le (l.map (fun v : VPost => v.post.quantity.int))
  rw [List.map_map] at this
  exact this

theorem groupLoop_ok (conv : Com → Amount → Int → Except Fault Amount) (off : Int) (g : Aggregate) (posts : List VPost) (c : Com)
    (hc : ∀ v ∈ posts, v.post.quantity.com = c) : ∀ (ds : List Int) (t : Int) (b : Amount),
    t.natAbs + asum (ds.flatMap (groupOf off g posts)) ≤ 2 ^ 53 →
    ∃ gs, groupLoop conv off g posts c ⟨t, c⟩ b ds = .ok gs ∧ gs.length = ds.length ∧
      ∀ (i : Nat) (d : Int), ds[i]? = some d → gs[i]? = some ⟨d, groupOf off g posts d, ⟨qsum (groupOf off g posts d), c⟩,
        ⟨t + qsum ((ds.take (i + 1)).flatMap (groupOf off g posts)), c⟩, lastBalance b ((ds.take (i + 1)).flatMap (groupOf off g posts))⟩ := by
  intro ds
  induction ds with
  | nil => intro t b _; exact ⟨[], rfl, rfl, fun i d h => by simp at h⟩
  | cons d ds ih =>
    intro t b hf
    rw [List.flatMap_cons, asum_append] at hf
    have hq := qsum_le (groupOf off g posts d)
    have hsel : ∀ v ∈ groupOf off g posts d, v.post.quantity.com = c := fun v hv => hc v (List.mem_filter.mp hv).1
    unfold groupLoop
    split
    · next he =>
      rw [he] at hf
      obtain ⟨gs, e, hl, hgs⟩ := ih t b (by simpa [asum] using hf)
      rw [e]
      refine ⟨_, rfl, by simp [hl], ?_⟩
      intro i x hx
      cases i with
      | zero =>
        simp only [List.getElem?_cons_zero, Option.some.injEq] at hx
        subst hx
        simp [he, qsum, lastBalance]
      | succ i =>
        rw [List.getElem?_cons_succ] at hx ⊢
        rw [hgs i x hx, List.take_succ_cons, List.flatMap_cons, he, List.nil_append]
    · next v l he =>
      rw [he] at hf hsel hq
      have hadd := addQuantities_ok conv (86400 * d) c (v :: l) 0 hsel (by simp; omega)
      rw [hadd]
      show ∃ gs, ((wAddIn conv ⟨t, c⟩ ⟨0 + qsum (v :: l), c⟩ (86400 * d)).bind _) = .ok gs ∧ _
      have hw : wAddIn conv ⟨t, c⟩ ⟨0 + qsum (v :: l), c⟩ (86400 * d) = .ok ⟨t + qsum (v :: l), c⟩ := by
        unfold wAddIn
        rw [if_pos rfl]
        show Except.ok (⟨dbl (t + (0 + qsum (v :: l))), c⟩ : Amount) = _
        rw [dbl_exact _ (by omega)]
        simp
      rw [hw]
      obtain ⟨gs, e, hl, hgs⟩ := ih (t + qsum (v :: l)) ((v :: l).getLast (by simp)).post.balance (by omega)
      show ∃ gs, ((groupLoop conv off g posts c ⟨t + qsum (v :: l), c⟩ _ ds).bind _) = .ok gs ∧ _
      rw [e]
      refine ⟨_, rfl, by simp [hl], ?_⟩
      intro i x hx
      have hlb : ∀ m : List VPost, lastBalance ((v :: l).getLast (by simp)).post.balance m = lastBalance b ((v :: l) ++ m) := by
        intro m
        unfold lastBalance
        rw [List.getLast?_append]
        cases hm : m.getLast? with
        | none => rw [List.getLast?_eq_some_getLast (by simp : v :: l ≠ [])]; rfl
        | some w => rfl
      cases i with
      | zero =>
        simp only [List.getElem?_cons_zero, Option.some.injEq] at hx
        subst hx
        have h0 := hlb []
        simp only [List.append_nil] at h0
        simp only [List.getElem?_cons_zero, Nat.zero_add, List.take_succ_cons, List.take_zero, List.flatMap_cons, List.flatMap_nil, List.append_nil, he]
        rw [← h0]
        simp [lastBalance]
      | succ i =>
        rw [List.getElem?_cons_succ] at hx ⊢
        rw [hgs i x hx, List.take_succ_cons, List.flatMap_cons, he, hlb, qsum_append, Int.add_assoc]

/-- Selecting one key after another from a sorted list selects all of them. -/
theorem flatMap_filter_keys {α : Type} (f : α → Int) : ∀ (ds : List Int) (l : List α), l.Pairwise (fun x y => f x ≤ f y) → ds.Pairwise (· < ·) →
    ds.flatMap (fun d => l.filter (fun x => decide (f x = d))) = l.filter (fun x => decide (f x ∈ ds)) := by
  intro ds
  induction ds with
  | nil => intro l _ _; simp
  | cons d ds ih =>
    intro l hl hd
    rw [List.pairwise_cons] at hd
    rw [List.flatMap_cons, ih l hl hd.2]
    clear ih
    induction l with
    | nil => rfl
    | cons x l ihl =>
      rw [List.pairwise_cons] at hl
      have ihl := ihl hl.2
      by_cases h1 : f x = d
      · have h2 : f x ∉ ds := fun h => by have := hd.1 _ h; omega
        simp only [List.filter_cons, h1, decide_true, if_true, List.mem_cons, true_or]
        rw [h1] at h2
        simp only [h2, decide_false, Bool.false_eq_true, if_false, List.cons_append]
        rw [ihl]; simp
      · by_cases h2 : f x ∈ ds
        · have hgt := hd.1 _ h2
          have hno : l.filter (fun y => decide (f y = d)) = [] := by
            rw [List.filter_eq_nil_iff]
            intro y hy
            have := hl.1 y hy
            simp only [decide_eq_true_eq]; omega
          rw [hno, List.nil_append] at ihl
          simp only [List.filter_cons, h1, h2, decide_false, decide_true, Bool.false_eq_true, if_false, if_true, List.mem_cons, or_true]
          rw [hno, List.nil_append, ihl]; simp
        · simp only [List.filter_cons, h1, h2, decide_false, Bool.false_eq_true, if_false, List.mem_cons, or_self]
          rw [ihl]; simp

theorem asum_filter_le (l : List VPost) (p : VPost → Bool) : asum (l.filter p) ≤ asum l := by
  induction l with
  | nil => simp
  | cons v l ih =>
    have e : ∀ m, asum (v :: m) = v.post.quantity.int.natAbs + asum m := by intro m; simp [asum]
    rw [List.filter_cons]
    split
    · rw [e, e]; omega
    · rw [e]; omega

/-- What the groups of an account must be. -/
def GroupsAre (g : Aggregate) (posts : List VPost) (c : Com) (start : Int) (ds : List Int) (gs : List PGroup) : Prop :=
  gs.length = ds.length ∧ ∀ (i : Nat) (d : Int), ds[i]? = some d →
    gs[i]? = some ⟨d, posts.filter (fun v => decide (g.red v.day = d)), ⟨qsum (posts.filter (fun v => decide (g.red v.day = d))), c⟩,
      ⟨qsum (posts.filter (fun v => decide (start ≤ 86400 * g.red v.day ∧ g.red v.day ≤ d))), c⟩,
      lastBalance ⟨0, c⟩ (posts.filter (fun v => decide (start ≤ 86400 * g.red v.day ∧ g.red v.day ≤ d)))⟩

theorem groupBy_ok (conv : Com → Amount → Int → Except Fault Amount) {off : Int} (h1 : -86400 < off) (h2 : off < 86400) (g : Aggregate) (start stop : Int)
    (posts : List VPost) (c : Com) (hs : VSorted posts) (hd : ∀ v ∈ posts, YearOk v.day) (hr : ∀ d, start ≤ 86400 * d → 86400 * d < stop → DateOk d)
    (hc : ∀ v ∈ posts, v.post.quantity.com = c) (hf : asum posts ≤ 2 ^ 53) :
    ∃ gs, groupBy conv off g start stop posts c = .ok gs ∧ GroupsAre g posts c start (intervalRange g start stop) gs := by
  have hok : ∀ d ∈ intervalRange g start stop, DateOk d := fun d hd => by
    obtain ⟨_, a, b⟩ := mem_intervalRange.mp hd
    exact hr d a b
  have hsorted : posts.Pairwise (fun x y => g.red x.day ≤ g.red y.day) := by
    refine List.Pairwise.imp ?_ hs
    intro x y hxy
    exact red_mono g (Int.ediv_le_ediv (by decide) hxy)
  have key : ∀ ds : List Int, (∀ d ∈ ds, DateOk d) → ds.Pairwise (· < ·) → ds.flatMap (groupOf off g posts) = posts.filter (fun v => decide (g.red v.day ∈ ds)) := by
    intro ds hds hp
    rw [← flatMap_filter_keys (fun v : VPost => g.red v.day) ds posts hsorted hp]
    have : ∀ l : List Int, (∀ d ∈ l, DateOk d) → l.flatMap (groupOf off g posts) = l.flatMap (fun d => posts.filter (fun x => decide (g.red x.day = d))) := by
      intro l
      induction l with
      | nil => intro _; rfl
      | cons x l ih =>
        intro hl
        rw [List.flatMap_cons, List.flatMap_cons, ih (fun d hd => hl d (List.mem_cons_of_mem _ hd)), groupOf_filter h1 h2 g posts hd x (hl x List.mem_cons_self)]
    exact this ds hds
  have hsort := intervalRange_sorted g start stop
  obtain ⟨gs, e, hl, hgs⟩ := groupLoop_ok conv off g posts c hc (intervalRange g start stop) 0 ⟨0, c⟩ (by
    rw [key _ hok hsort]
    have := asum_filter_le posts (fun v => decide (g.red v.day ∈ intervalRange g start stop))
    simp only [Int.natAbs_zero]; omega)
  refine ⟨gs, e, hl, ?_⟩
  intro i d hi
  have hdm : d ∈ intervalRange g start stop := List.mem_of_getElem? hi
  have htk : (intervalRange g start stop).take (i + 1) = (intervalRange g start stop).filter (fun x => decide (x ≤ d)) := by
    obtain ⟨hi', hid⟩ := List.getElem?_eq_some_iff.mp hi
    conv_rhs => rw [← List.take_append_drop (i + 1) (intervalRange g start stop), List.filter_append]
    rw [List.filter_eq_self.mpr, List.filter_eq_nil_iff.mpr, List.append_nil]
    · intro x hx
      obtain ⟨j, hj⟩ := List.mem_iff_getElem?.mp hx
      rw [List.getElem?_drop] at hj
      obtain ⟨hj', hjd⟩ := List.getElem?_eq_some_iff.mp hj
      have := List.pairwise_iff_getElem.mp hsort i (i + 1 + j) hi' hj' (by omega)
      simp only [decide_eq_true_eq]; omega
    · intro x hx
      obtain ⟨j, hj⟩ := List.mem_iff_getElem?.mp hx
      rw [List.getElem?_take] at hj
      split at hj
      · next hlt =>
        obtain ⟨hj', hjd⟩ := List.getElem?_eq_some_iff.mp hj
        simp only [decide_eq_true_eq]
        rcases Nat.lt_or_ge j i with h | h
        · have := List.pairwise_iff_getElem.mp hsort j i hj' hi' h
          omega
        · have : j = i := by omega
          subst this; omega
      · cases hj
  have hall : ((intervalRange g start stop).take (i + 1)).flatMap (groupOf off g posts) =
      posts.filter (fun v => decide (start ≤ 86400 * g.red v.day ∧ g.red v.day ≤ d)) := by
    rw [key _ (fun x hx => hok x (List.mem_of_mem_take hx)) (hsort.sublist (List.take_sublist _ _)), htk]
    apply List.filter_congr
    intro v _
    rw [decide_eq_decide, List.mem_filter, mem_intervalRange, decide_eq_true_eq]
    have hst := red_starts g v.day
    have := mem_intervalRange.mp hdm
    constructor
    · rintro ⟨⟨_, a, b⟩, h⟩; exact ⟨a, h⟩
    · rintro ⟨a, h⟩; exact ⟨⟨hst, a, by omega⟩, h⟩
  rw [hgs i d hi, hall, groupOf_filter h1 h2 g posts hd d (hok d hdm)]
  simp

/-! ## C129: the aggregated register -/

/-- Postings of an account that the aggregated views can handle: days in the years 101 to 9999, quantities in the account's commodity,
the sum of their sizes exactly representable. -/
def Groupable (c : Com) (posts : List VPost) : Prop :=
  (∀ v ∈ posts, YearOk v.day) ∧ (∀ v ∈ posts, v.post.quantity.com = c) ∧ asum posts ≤ 2 ^ 53

/-- All days between two times can be written. -/
def RangeOk (start stop : Int) : Prop := ∀ d : Int, start ≤ 86400 * d → 86400 * d < stop → DateOk d

theorem map_eq_of_get {α β : Type} (f : α → β) (l : List α) (m : List β) (hl : m.length = l.length)
    (h : ∀ (i : Nat) (x : α), l[i]? = some x → m[i]? = some (f x)) : m = l.map f := by
  apply List.ext_getElem?
  intro i
  rw [List.getElem?_map]
  cases hx : l[i]? with
  | some x => rw [h i x hx]; rfl
  | none =>
    rw [List.getElem?_eq_none_iff] at hx
    rw [List.getElem?_eq_none_iff.mpr (by omega)]; rfl

theorem groupsAre_map {g : Aggregate} {posts : List VPost} {c : Com} {start : Int} {ds : List Int} {gs : List PGroup} (h : GroupsAre g posts c start ds gs) :
    gs = ds.map (fun d => ⟨d, posts.filter (fun v => decide (g.red v.day = d)), ⟨qsum (posts.filter (fun v => decide (g.red v.day = d))), c⟩,
      ⟨qsum (posts.filter (fun v => decide (start ≤ 86400 * g.red v.day ∧ g.red v.day ≤ d))), c⟩,
      lastBalance ⟨0, c⟩ (posts.filter (fun v => decide (start ≤ 86400 * g.red v.day ∧ g.red v.day ≤ d)))⟩) :=
  map_eq_of_get _ _ _ h.1 h.2

/-- **C129** The aggregated register of an account has one row for each period that starts between the two dates (from the first, before
the second), in order. With style Flows it shows the sum of the quantities of all the account's postings of that period, and the
cumulative total is the sum of the quantities of all postings of this and the earlier rows' periods. -/
theorem C129_register (conv : Com → Amount → Int → Except Fault Amount) (off : Int) (h1 : -86400 < off) (h2 : off < 86400) (g : Aggregate) (ts : List WTxn)
    (hts : TxnsSorted ts) (a : WAcct) (start stop : Int) (hp : Groupable a.com (acctPosts ts a.fullName)) (hr : RangeOk start stop)
    (ds : List Int) (hds : PeriodStarts g start stop ds) :
    viewRegisterAggregated conv off g true ts a start stop = .ok (ds.map (fun d => (dateToString off (86400 * d),
      ⟨qsum ((acctPosts ts a.fullName).filter (fun v => decide (g.red v.day = d))), a.com⟩,
      ⟨qsum ((acctPosts ts a.fullName).filter (fun v => decide (start ≤ 86400 * g.red v.day ∧ g.red v.day ≤ d))), a.com⟩))) := by
  obtain ⟨gs, e, hg⟩ := groupBy_ok conv h1 h2 g start stop (acctPosts ts a.fullName) a.com (acctPosts_sorted ts hts _) hp.1 hr hp.2.1 hp.2.2
  unfold viewRegisterAggregated
  rw [e, groupsAre_map hg, hds.unique]
  show Except.ok _ = Except.ok _
  rw [List.map_map]
  rfl

/-- **C129** (exclusive periods): every posting belongs to at most one row. -/
theorem C129_once (g : Aggregate) (n d d' : Int) (h : PeriodOf g n d) (h' : PeriodOf g n d') : d = d' := by
  rw [← (C129_period g n d).mpr h, ← (C129_period g n d').mpr h']

/-! ## C130: the rows account for the postings between the dates -/

/-- The amounts of the rows. -/
def rowsSum (rows : List (Str × Amount × Amount)) : Int := (rows.map (fun r => r.2.1.int)).sum

/-- **C130** (full statement): the amounts of the rows add up to the quantities of the postings between the two dates. -/
def C130_Statement : Prop :=
  ∀ (conv : Com → Amount → Int → Except Fault Amount) (off : Int) (g : Aggregate) (ts : List WTxn) (a : WAcct) (start stop : Int) (rows : List (Str × Amount × Amount)),
    -86400 < off → off < 86400 → TxnsSorted ts → Groupable a.com (acctPosts ts a.fullName) → RangeOk start stop → start ≤ stop →
    viewRegisterAggregated conv off g true ts a start stop = .ok rows →
    rowsSum rows = qsum ((acctPosts ts a.fullName).filter (fun v => decide (start ≤ v.txn.posted ∧ v.txn.posted ≤ stop)))

/-- What the rows of the aggregated register add up to: the postings of the periods that start between the dates. -/
theorem C130_rows_sum (conv : Com → Amount → Int → Except Fault Amount) (off : Int) (g : Aggregate) (ts : List WTxn) (a : WAcct) (start stop : Int)
    (rows : List (Str × Amount × Amount)) (h1 : -86400 < off) (h2 : off < 86400) (hts : TxnsSorted ts) (hp : Groupable a.com (acctPosts ts a.fullName))
    (hr : RangeOk start stop) (h : viewRegisterAggregated conv off g true ts a start stop = .ok rows) :
    rowsSum rows = qsum ((acctPosts ts a.fullName).filter (fun v => decide (start ≤ 86400 * g.red v.day ∧ 86400 * g.red v.day < stop))) := by
  rw [C129_register conv off h1 h2 g ts hts a start stop hp hr _ (intervalRange_starts g start stop)] at h
  injection h with h
  subst h
  unfold rowsSum
  rw [List.map_map]
  have hsorted : (acctPosts ts a.fullName).Pairwise (fun x y => g.red x.day ≤ g.red y.day) := by
    refine List.Pairwise.imp ?_ (acctPosts_sorted ts hts a.fullName)
    intro x y hxy
    exact red_mono g (Int.ediv_le_ediv (by decide) hxy)
  have e := flatMap_filter_keys (fun v : VPost => g.red v.day) _ _ hsorted (intervalRange_sorted g start stop)
  have e2 : (acctPosts ts a.fullName).filter (fun v => decide (start ≤ 86400 * g.red v.day ∧ 86400 * g.red v.day < stop)) =
      (acctPosts ts a.fullName).filter (fun v => decide (g.red v.day ∈ intervalRange g start stop)) := by
    apply List.filter_congr
    intro v _
    rw [decide_eq_decide, mem_intervalRange]
    exact ⟨fun h => ⟨red_starts g _, h⟩, fun h => h.2⟩
  rw [e2, ← e]
  unfold qsum
  rw [sum_int_flatMap]
  rfl

/-- **C130** (partial): they do when the first date starts a period, the second does not, and the account has no posting after the second
date. Missing: other ranges, where postings of the partial first period are left out, postings of a period starting on the second date
are left out, and postings after the second date in the last period are included. -/
theorem C130_complete_partial (conv : Com → Amount → Int → Except Fault Amount) (off : Int) (g : Aggregate) (ts : List WTxn) (a : WAcct) (s e : Int)
    (rows : List (Str × Amount × Amount)) (h1 : -86400 < off) (h2 : off < 86400) (hts : TxnsSorted ts) (hp : Groupable a.com (acctPosts ts a.fullName))
    (hr : RangeOk (86400 * s) (86400 * e)) (hs : StartsPeriod g s) (he : ¬ StartsPeriod g e) (hl : ∀ v ∈ acctPosts ts a.fullName, v.txn.posted ≤ 86400 * e)
    (h : viewRegisterAggregated conv off g true ts a (86400 * s) (86400 * e) = .ok rows) :
    rowsSum rows = qsum ((acctPosts ts a.fullName).filter (fun v => decide (86400 * s ≤ v.txn.posted ∧ v.txn.posted ≤ 86400 * e))) := by
  rw [C130_rows_sum conv off g ts a _ _ rows h1 h2 hts hp hr h]
  congr 1
  apply List.filter_congr
  intro v hv
  have hle := hl v hv
  have hrl := red_le g v.day
  have hday : v.day = v.txn.posted / 86400 := rfl
  rw [decide_eq_decide]
  constructor
  · rintro ⟨a1, _⟩
    exact ⟨by omega, hle⟩
  · rintro ⟨a1, _⟩
    have hm := red_mono g (show s ≤ v.day by omega)
    rw [red_fixed.mpr hs] at hm
    refine ⟨by omega, ?_⟩
    have hne : g.red v.day ≠ e := fun he' => he (by rw [← he']; exact red_starts g _)
    omega

/-- **C130** (partial, the page as it opens): aggregated by months, quarters or years, with the dates the page starts with (the first and
the last day of the years of the transactions), the rows add up to all postings of the account. Missing: weeks. -/
theorem C130_default_partial (conv : Com → Amount → Int → Except Fault Amount) (off now epoch : Int) (g : Aggregate) (hg : g ≠ .weekly) (ts : List WTxn) (a : WAcct)
    (rows : List (Str × Amount × Amount)) (h1 : -86400 < off) (h2 : off < 86400) (hts : TxnsSorted ts) (hm : ∀ t ∈ ts, ∃ n, t.posted = 86400 * n)
    (hp : Groupable a.com (acctPosts ts a.fullName)) (hr : RangeOk (yearFirst (minDate now ts)) (yearLast (maxDate epoch ts)))
    (h : viewRegisterAggregated conv off g true ts a (yearFirst (minDate now ts)) (yearLast (maxDate epoch ts)) = .ok rows) :
    rowsSum rows = qsum (acctPosts ts a.fullName) := by
  have hin : ∀ v ∈ acctPosts ts a.fullName, v.txn ∈ ts := fun v hv => (mem_acctPosts.mp hv).1
  have hlast : ∀ v ∈ acctPosts ts a.fullName, v.txn.posted ≤ yearLast (maxDate epoch ts) := by
    intro v hv
    obtain ⟨n, hn⟩ := hm _ (hin v hv)
    rw [hn]
    apply le_yearLast
    rw [← hn]
    exact (le_maxDate epoch ts).2 _ (hin v hv)
  have hfirst : ∀ v ∈ acctPosts ts a.fullName, yearFirst (minDate now ts) ≤ v.txn.posted := by
    intro v hv
    exact Int.le_trans (yearFirst_le _) ((minDate_le now ts).2 _ (hin v hv))
  rw [C130_complete_partial conv off g ts a _ _ rows h1 h2 hts hp hr ?_ ?_ hlast h]
  · congr 1
    rw [List.filter_eq_self]
    intro v hv
    rw [decide_eq_true_eq]
    exact ⟨hfirst v hv, hlast v hv⟩
  · have f := first_parts (goYear (minDate now ts / 86400)) 1 ⟨by omega, by omega⟩
    cases g with
    | weekly => exact absurd rfl hg
    | monthly => exact f.2.2
    | quarterly => exact ⟨f.2.2, Or.inl f.2.1⟩
    | yearly => exact ⟨f.2.2, f.2.1⟩
  · have f := (goDate_valid (goYear (maxDate epoch ts / 86400)) 12 31 ⟨by omega, by omega⟩ ⟨by omega, by unfold daysIn; cases isLeap _ <;> decide⟩).2.2
    have no : ¬ (31 : Int) = 1 := by decide
    cases g with
    | weekly => exact absurd rfl hg
    | monthly => intro hc; exact no (f.symm.trans hc)
    | quarterly => intro hc; exact no (f.symm.trans hc.1)
    | yearly => intro hc; exact no (f.symm.trans hc.1)

/-! A ledger with postings on a Thursday (2015/01/01), on 2015/06/10 and in the next year. -/

def groupAcct : WAcct := ⟨str "Assets", str "Assets", sampleCom, none, none⟩

def groupTxn (d q b : Int) : WTxn := ⟨86400 * d, str "x", [], [], [], [⟨str "Assets", ⟨q, sampleCom⟩, ⟨b, sampleCom⟩, false, [], []⟩]⟩

def groupTxns : List WTxn := [groupTxn (goDate 2015 1 1) 100 100, groupTxn (goDate 2015 6 10) 20 120, groupTxn (goDate 2016 1 2) 3 123]

/-- The ledger above meets the hypotheses of the theorems. -/
theorem groupTxns_ok : TxnsSorted groupTxns ∧ Groupable sampleCom (acctPosts groupTxns (str "Assets")) ∧
    (∀ a b : Int, YearOk a → YearOk b → RangeOk (86400 * a) (86400 * b)) := by
  refine ⟨by unfold TxnsSorted; decide +kernel, ⟨by unfold YearOk; decide +kernel, by decide +kernel, by decide +kernel⟩, ?_⟩
  intro a b ha hb d h1 h2
  have m1 := goYear_mono (show a ≤ d by omega)
  have m2 := goYear_mono (show d ≤ b by omega)
  unfold YearOk at ha hb
  exact ⟨by omega, by omega⟩

/-- **C130** The full statement is false: in the weekly register of 2015 the posting of January 1st, a Thursday, is in no row (and the one of
January 2nd of the next year is in the last row). -/
theorem C130_complete_violated : ¬ C130_Statement := by
  intro h
  cases hr : viewRegisterAggregated (fun _ _ _ => .error .err) 0 .weekly true groupTxns groupAcct (86400 * goDate 2015 1 1) (86400 * goDate 2015 12 31) with
  | error e =>
    have : (viewRegisterAggregated (fun _ _ _ => .error .err) 0 .weekly true groupTxns groupAcct (86400 * goDate 2015 1 1) (86400 * goDate 2015 12 31)).isOk = true := by
      decide +kernel
    rw [hr] at this; cases this
  | ok rows =>
    have h1 := h (fun _ _ _ => .error .err) 0 .weekly groupTxns groupAcct _ _ rows (by decide) (by decide) groupTxns_ok.1 groupTxns_ok.2.1
      (groupTxns_ok.2.2 _ _ (by unfold YearOk; decide +kernel) (by unfold YearOk; decide +kernel)) (by decide +kernel) hr
    have h2 : (viewRegisterAggregated (fun _ _ _ => .error .err) 0 .weekly true groupTxns groupAcct (86400 * goDate 2015 1 1) (86400 * goDate 2015 12 31)).toOption.map
        rowsSum = some 23 := by decide +kernel
    rw [hr] at h2
    injection h2 with h2
    rw [h2] at h1
    exact absurd h1 (by decide +kernel)

/-! Of the other kind: a week starting on the last date (2017/12/31 is a Sunday) is left out; a posting after the last date is included. -/
example : (viewRegisterAggregated (fun _ _ _ => .error .err) 0 .weekly true [groupTxn (goDate 2017 12 31) 100 100] groupAcct (86400 * goDate 2017 1 1)
      (86400 * goDate 2017 12 31)).toOption.map rowsSum = some 0 ∧
    (viewRegisterAggregated (fun _ _ _ => .error .err) 0 .monthly true groupTxns groupAcct (86400 * goDate 2015 1 1) (86400 * goDate 2015 6 8)).toOption.map rowsSum =
      some 120 := by decide +kernel

/-! The months of 2015 and the start of 2016 meet the hypotheses of `C130_default_partial`. -/
example : (viewRegisterAggregated (fun _ _ _ => .error .err) 0 .monthly true groupTxns groupAcct (yearFirst (minDate (86400 * goDate 2020 1 1) groupTxns))
      (yearLast (maxDate (86400 * goDate 1970 1 1) groupTxns))).toOption.map rowsSum = some 123 ∧
    (yearFirst (minDate (86400 * goDate 2020 1 1) groupTxns), yearLast (maxDate (86400 * goDate 1970 1 1) groupTxns)) =
      (86400 * goDate 2015 1 1, 86400 * goDate 2016 12 31) := by decide +kernel

/-! ## C131: balances at the ends of periods -/

/-- **C131** (full statement): with style Balances a row shows the balance of the account at the end of the row's period: the balance of
its last posting in this or an earlier period. -/
def C131_Statement : Prop :=
  ∀ (conv : Com → Amount → Int → Except Fault Amount) (off : Int) (g : Aggregate) (ts : List WTxn) (a : WAcct) (start stop : Int) (ds : List Int)
    (rows : List (Str × Amount × Amount)),
    -86400 < off → off < 86400 → TxnsSorted ts → Groupable a.com (acctPosts ts a.fullName) → RangeOk start stop → PeriodStarts g start stop ds →
    viewRegisterAggregated conv off g false ts a start stop = .ok rows →
    rows.map (fun r => r.2.1) = ds.map (fun d => lastBalance ⟨0, a.com⟩ ((acctPosts ts a.fullName).filter (fun v => decide (g.red v.day ≤ d))))

/-- **C131** (partial): the balance of the last posting in this or an earlier period of the table, and zero when there is none. -/
theorem C131_balances_partial (conv : Com → Amount → Int → Except Fault Amount) (off : Int) (h1 : -86400 < off) (h2 : off < 86400) (g : Aggregate) (ts : List WTxn)
    (hts : TxnsSorted ts) (a : WAcct) (start stop : Int) (hp : Groupable a.com (acctPosts ts a.fullName)) (hr : RangeOk start stop)
    (ds : List Int) (hds : PeriodStarts g start stop ds) :
    ∃ rows, viewRegisterAggregated conv off g false ts a start stop = .ok rows ∧
      rows.map (fun r => r.1) = ds.map (fun d => dateToString off (86400 * d)) ∧
      rows.map (fun r => r.2.1) = ds.map (fun d => lastBalance ⟨0, a.com⟩
        ((acctPosts ts a.fullName).filter (fun v => decide (start ≤ 86400 * g.red v.day ∧ g.red v.day ≤ d)))) := by
  obtain ⟨gs, e, hg⟩ := groupBy_ok conv h1 h2 g start stop (acctPosts ts a.fullName) a.com (acctPosts_sorted ts hts _) hp.1 hr hp.2.1 hp.2.2
  unfold viewRegisterAggregated
  rw [e, groupsAre_map hg, hds.unique]
  refine ⟨_, rfl, ?_, ?_⟩
  · rw [List.map_map, List.map_map]; rfl
  · rw [List.map_map, List.map_map]; rfl

/-- **C131** (partial, nothing before): the balance at the end of the period, when the account has no posting in an earlier period. Missing:
accounts with earlier postings, whose balance is shown as zero until their first posting in the table. -/
theorem C131_end_partial (conv : Com → Amount → Int → Except Fault Amount) (off : Int) (h1 : -86400 < off) (h2 : off < 86400) (g : Aggregate) (ts : List WTxn)
    (hts : TxnsSorted ts) (a : WAcct) (start stop : Int) (hp : Groupable a.com (acctPosts ts a.fullName)) (hr : RangeOk start stop)
    (hb : ∀ v ∈ acctPosts ts a.fullName, start ≤ 86400 * g.red v.day) (ds : List Int) (hds : PeriodStarts g start stop ds) (rows : List (Str × Amount × Amount))
    (h : viewRegisterAggregated conv off g false ts a start stop = .ok rows) :
    rows.map (fun r => r.2.1) = ds.map (fun d => lastBalance ⟨0, a.com⟩ ((acctPosts ts a.fullName).filter (fun v => decide (g.red v.day ≤ d)))) := by
  obtain ⟨rows', e, _, hrow⟩ := C131_balances_partial conv off h1 h2 g ts hts a start stop hp hr ds hds
  rw [h] at e
  injection e with e
  subst e
  rw [hrow]
  apply List.map_congr_left
  intro d _
  congr 1
  apply List.filter_congr
  intro v hv
  rw [decide_eq_decide]
  exact ⟨fun h => h.2, fun h => ⟨hb v hv, h⟩⟩

/-- **C131** The full statement is false: the balances of February to May 2015 are shown as zero when the table starts in February. -/
theorem C131_balances_violated : ¬ C131_Statement := by
  intro h
  cases hr : viewRegisterAggregated (fun _ _ _ => .error .err) 0 .monthly false groupTxns groupAcct (86400 * goDate 2015 2 1) (86400 * goDate 2015 7 31) with
  | error e =>
    have : (viewRegisterAggregated (fun _ _ _ => .error .err) 0 .monthly false groupTxns groupAcct (86400 * goDate 2015 2 1) (86400 * goDate 2015 7 31)).isOk = true := by
      decide +kernel
    rw [hr] at this; cases this
  | ok rows =>
    have h1 := h (fun _ _ _ => .error .err) 0 .monthly groupTxns groupAcct _ _ _ rows (by decide) (by decide) groupTxns_ok.1 groupTxns_ok.2.1
      (groupTxns_ok.2.2 _ _ (by unfold YearOk; decide +kernel) (by unfold YearOk; decide +kernel)) (intervalRange_starts _ _ _) hr
    have h2 : (viewRegisterAggregated (fun _ _ _ => .error .err) 0 .monthly false groupTxns groupAcct (86400 * goDate 2015 2 1) (86400 * goDate 2015 7 31)).toOption.map
        (fun rows => (rows.map (fun r => r.2.1)).map (fun x : Amount => x.int)) = some [0, 0, 0, 0, 120, 120] := by decide +kernel
    rw [hr] at h2
    injection h2 with h2
    dsimp only at h2
    rw [h1] at h2
    exact absurd h2 (by decide +kernel)

end Verif
