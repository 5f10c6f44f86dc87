import Verif.Lemmas.Generate
/-
C84–C88: the sample ledgers of gen2coin.
-/
namespace Verif

/-! ## C84: weekly dates -/

/-- The Sunday a day's week begins with. -/
def sundayOf (day : Int) : Int := day - weekday day

/-- Specification: the days `days` of the week (0 is Sunday) of every `interval`-th week, counted from the week of `begin`, that are
between `begin` and `end`, at the time of day of `begin`. -/
def WeeklyDate (interval : Int) (days : List Int) (begin_ end_ t : Int) : Prop :=
  begin_ ≤ t ∧ t ≤ end_ ∧ t % 86400 = begin_ % 86400 ∧ weekday (t / 86400) ∈ days ∧
    ∃ j : Nat, sundayOf (t / 86400) = sundayOf (begin_ / 86400) + 7 * (interval * j)

/-- C84: when no choice is left, exactly these dates are generated. -/
def C84_Statement : Prop :=
  ∀ (draw : Nat → Nat) (k count : Nat) (interval : Int) (days : List Int) (b e t : Int), 1 ≤ interval → days ≠ [] →
    (∀ d ∈ days, 0 ≤ d ∧ d ≤ 6) → days.length ≤ count →
    (t ∈ weekly draw k count interval days b e ↔ WeeklyDate interval days b e t)

/-- Sunday 2023/01/01 at noon: the last day of the ledger. -/
def exSunday : Int := goDate 2023 1 1 * 86400 + 43200

/-- **C84** is false: the end of the ledger is left out when it is a Sunday. -/
theorem C84_weekly_violated : ¬ C84_Statement := by
  intro h
  have := (h (fun _ => 0) 0 1 1 [0] exSunday exSunday exSunday (by decide) (by decide) (by decide) (by decide)).mpr
    ⟨by decide, by decide, rfl, by decide +kernel, 0, by decide +kernel⟩
  exact absurd this (by decide +kernel)

theorem interval_id {i : Int} (h : 1 ≤ i) : intervalOf i = i := by unfold intervalOf; rw [if_neg (by omega)]

/-- The dates of `weekly`, week by week. -/
theorem weekly_form (draw : Nat → Nat) (k count : Nat) (interval : Int) (days : List Int) (b e : Int) (hi : 1 ≤ interval) (hd : days ≠ []) :
    ∃ (P : Nat → List Int) (N : Nat), (∀ j, ∃ k, P j = (weekPicks draw count k days).1) ∧
      (∀ j : Nat, j < N ↔ b - 86400 * weekday (b / 86400) + 86400 * (7 * interval) * j < e) ∧
      weekly draw k count interval days b e =
        (List.range N).flatMap (fun j => ((P j).map (secAddDays (b - 86400 * weekday (b / 86400) + 86400 * (7 * interval) * j))).filter (inGenRange b e)) := by
  unfold weekly
  rw [if_neg hd, interval_id hi]
  have e0 : secAddDays b (-secWeekday b) = b - 86400 * weekday (b / 86400) := by unfold secAddDays secWeekday; ring
  rw [e0]
  exact weeklyLoop_form draw count (7 * interval) (by omega) days b e _ k _ (Nat.le_refl _)

theorem inGenRange_iff (b e t : Int) : inGenRange b e t = true ↔ b ≤ t ∧ t ≤ e := by
  unfold inGenRange
  simp only [Bool.not_eq_true', Bool.or_eq_false_iff, decide_eq_false_iff_not, not_lt]
  exact and_comm

/-- The day `d` of the `x`-th week after the week of `b`. -/
theorem week_parts (b x d : Int) (hd : 0 ≤ d ∧ d ≤ 6) :
    let t := secAddDays (b - 86400 * weekday (b / 86400) + 86400 * (7 * x)) d
    t % 86400 = b % 86400 ∧ weekday (t / 86400) = d ∧ sundayOf (t / 86400) = sundayOf (b / 86400) + 7 * x := by
  unfold secAddDays sundayOf weekday
  simp only
  omega

theorem week_of (b t x : Int) (h1 : t % 86400 = b % 86400) (h2 : sundayOf (t / 86400) = sundayOf (b / 86400) + 7 * x) :
    t = secAddDays (b - 86400 * weekday (b / 86400) + 86400 * (7 * x)) (weekday (t / 86400)) := by
  unfold secAddDays
  unfold sundayOf at h2
  generalize weekday (t / 86400) = w at *
  generalize weekday (b / 86400) = v at *
  omega

theorem assoc_week (interval : Int) (j : Nat) : 86400 * (7 * interval) * (j : Int) = 86400 * (7 * (interval * j)) := by ring

/-- **C84** Every generated date is one of the dates wanted, whatever is drawn. -/
theorem C84_sound (draw : Nat → Nat) (k count : Nat) (interval : Int) (days : List Int) (b e t : Int) (hi : 1 ≤ interval) (hne : days ≠ [])
    (hd : ∀ d ∈ days, 0 ≤ d ∧ d ≤ 6) (h : t ∈ weekly draw k count interval days b e) : WeeklyDate interval days b e t := by
  obtain ⟨P, N, hP, hN, hf⟩ := weekly_form draw k count interval days b e hi hne
  rw [hf] at h
  obtain ⟨j, hj, ht⟩ := List.mem_flatMap.mp h
  obtain ⟨ht, hr⟩ := List.mem_filter.mp ht
  obtain ⟨d, hdm, rfl⟩ := List.mem_map.mp ht
  obtain ⟨k', hk'⟩ := hP j
  rw [hk'] at hdm
  have hdm := (weekPicks_spec draw count k' days).1.subset hdm
  obtain ⟨h1, h2⟩ := (inGenRange_iff _ _ _).mp hr
  rw [assoc_week] at *
  obtain ⟨p1, p2, p3⟩ := week_parts b (interval * j) d (hd d hdm)
  exact ⟨h1, h2, p1, by rw [p2]; exact hdm, j, p3⟩

/-- **C84** What is generated exactly when nothing is left to chance: all the dates but the end, if that is a Sunday. Missing from the full
property: that date. -/
theorem C84_weekly_partial (draw : Nat → Nat) (k count : Nat) (interval : Int) (days : List Int) (b e t : Int) (hi : 1 ≤ interval) (hne : days ≠ [])
    (hd : ∀ d ∈ days, 0 ≤ d ∧ d ≤ 6) (hc : days.length ≤ count) :
    t ∈ weekly draw k count interval days b e ↔ WeeklyDate interval days b e t ∧ ¬ (t = e ∧ weekday (t / 86400) = 0) := by
  constructor
  · intro h
    refine ⟨C84_sound draw k count interval days b e t hi hne hd h, ?_⟩
    obtain ⟨P, N, hP, hN, hf⟩ := weekly_form draw k count interval days b e hi hne
    rw [hf] at h
    obtain ⟨j, hj, ht⟩ := List.mem_flatMap.mp h
    obtain ⟨ht, hr⟩ := List.mem_filter.mp ht
    obtain ⟨d, hdm, rfl⟩ := List.mem_map.mp ht
    obtain ⟨k', hk'⟩ := hP j
    rw [hk'] at hdm
    have hdm := (weekPicks_spec draw count k' days).1.subset hdm
    have hlt := (hN j).mp (List.mem_range.mp hj)
    rw [assoc_week] at *
    obtain ⟨p1, p2, p3⟩ := week_parts b (interval * j) d (hd d hdm)
    rintro ⟨he, hw⟩
    rw [p2] at hw
    subst hw
    unfold secAddDays at he
    omega
  · rintro ⟨⟨h1, h2, h3, h4, j, h5⟩, hn⟩
    obtain ⟨P, N, hP, hN, hf⟩ := weekly_form draw k count interval days b e hi hne
    have ht := week_of b t (interval * j) h3 h5
    rw [hf]
    refine List.mem_flatMap.mpr ⟨j, List.mem_range.mpr ((hN j).mpr ?_), List.mem_filter.mpr ⟨List.mem_map.mpr ⟨weekday (t / 86400), ?_, ?_⟩, ?_⟩⟩
    · rw [assoc_week]
      have hw := hd _ h4
      unfold secAddDays at ht
      omega
    · obtain ⟨k', hk'⟩ := hP j
      rw [hk', weekPicks_all draw count k' days hc]
      exact h4
    · rw [assoc_week]; exact ht.symm
    · exact (inGenRange_iff _ _ _).mpr ⟨h1, h2⟩

/-- **C84** The dates are generated in order, none twice. -/
theorem C84_sorted (draw : Nat → Nat) (k count : Nat) (interval : Int) (days : List Int) (b e : Int) (hi : 1 ≤ interval) (hne : days ≠ [])
    (hd : ∀ d ∈ days, 0 ≤ d ∧ d ≤ 6) (hs : days.Pairwise (· < ·)) : (weekly draw k count interval days b e).Pairwise (· < ·) := by
  obtain ⟨P, N, hP, hN, hf⟩ := weekly_form draw k count interval days b e hi hne
  rw [hf, List.pairwise_flatMap]
  have hmem : ∀ j, ∀ x ∈ ((P j).map (secAddDays (b - 86400 * weekday (b / 86400) + 86400 * (7 * interval) * j))).filter (inGenRange b e),
      ∃ d, 0 ≤ d ∧ d ≤ 6 ∧ x = b - 86400 * weekday (b / 86400) + 86400 * (7 * (interval * j)) + 86400 * d := by
    intro j x hx
    obtain ⟨hx, _⟩ := List.mem_filter.mp hx
    obtain ⟨d, hdm, rfl⟩ := List.mem_map.mp hx
    obtain ⟨k', hk'⟩ := hP j
    rw [hk'] at hdm
    have := hd d ((weekPicks_spec draw count k' days).1.subset hdm)
    exact ⟨d, this.1, this.2, by unfold secAddDays; ring⟩
  constructor
  · intro j _
    obtain ⟨k', hk'⟩ := hP j
    rw [hk']
    refine List.Pairwise.filter _ (List.pairwise_map.mpr ?_)
    exact (weekPicks_sorted draw count k' days hs).imp (fun h => by unfold secAddDays; omega)
  · refine List.pairwise_lt_range.imp ?_
    intro i j hij x hx y hy
    obtain ⟨d, hd0, hd6, rfl⟩ := hmem i x hx
    obtain ⟨d', hd0', hd6', rfl⟩ := hmem j y hy
    have : interval * (i : Int) + 1 ≤ interval * (j : Int) := by
      have : interval * ((i : Int) + 1) ≤ interval * (j : Int) := Int.mul_le_mul_of_nonneg_left (by omega) (by omega)
      have e : interval * ((i : Int) + 1) = interval * i + interval := by ring
      omega
    omega

theorem flatMap_single {α β : Type} (f : α → List β) (l : List α) (a : α) (hn : l.Nodup) (ha : a ∈ l) (h : ∀ x ∈ l, x ≠ a → f x = []) :
    l.flatMap f = f a := by
  induction l with
  | nil => cases ha
  | cons x l ih =>
    rw [List.flatMap_cons]
    rcases List.mem_cons.mp ha with rfl | ha
    · have : l.flatMap f = [] := by
        rw [List.flatMap_eq_nil_iff]
        intro y hy
        exact h y (by simp [hy]) (by rintro rfl; exact (List.nodup_cons.mp hn).1 hy)
      rw [this, List.append_nil]
    · rw [h x (by simp) (by rintro rfl; exact (List.nodup_cons.mp hn).1 ha), List.nil_append]
      exact ih (List.nodup_cons.mp hn).2 ha (fun y hy => h y (by simp [hy]))

/-- **C84** Every week that counts and lies within the ledger gets `count` dates, or all of its days if there are fewer. `w` is the time of
its Sunday. -/
theorem C84_count (draw : Nat → Nat) (k count : Nat) (interval : Int) (days : List Int) (b e : Int) (hi : 1 ≤ interval) (hne : days ≠ [])
    (hd : ∀ d ∈ days, 0 ≤ d ∧ d ≤ 6) (j : Nat) (w : Int) (hw : w = (sundayOf (b / 86400) + 7 * (interval * j)) * 86400 + b % 86400)
    (hb : b ≤ w) (he : w + 6 * 86400 ≤ e) :
    ((weekly draw k count interval days b e).filter (fun t => decide (w ≤ t ∧ t < w + 7 * 86400))).length = min count days.length := by
  obtain ⟨P, N, hP, hN, hf⟩ := weekly_form draw k count interval days b e hi hne
  have hw' : w = b - 86400 * weekday (b / 86400) + 86400 * (7 * (interval * j)) := by
    rw [hw]; unfold sundayOf; generalize weekday (b / 86400) = v; omega
  have hmem : ∀ i, ∀ x ∈ ((P i).map (secAddDays (b - 86400 * weekday (b / 86400) + 86400 * (7 * interval) * i))),
      ∃ d, 0 ≤ d ∧ d ≤ 6 ∧ x = b - 86400 * weekday (b / 86400) + 86400 * (7 * (interval * i)) + 86400 * d := by
    intro i x hx
    obtain ⟨d, hdm, rfl⟩ := List.mem_map.mp hx
    obtain ⟨k', hk'⟩ := hP i
    rw [hk'] at hdm
    have := hd d ((weekPicks_spec draw count k' days).1.subset hdm)
    exact ⟨d, this.1, this.2, by unfold secAddDays; ring⟩
  rw [hf, List.filter_flatMap, flatMap_single _ _ j List.nodup_range]
  · obtain ⟨k', hk'⟩ := hP j
    rw [List.filter_eq_self.mpr, List.filter_eq_self.mpr, List.length_map, hk', (weekPicks_spec draw count k' days).2]
    · intro x hx
      obtain ⟨d, h0, h6, rfl⟩ := hmem j x hx
      exact (inGenRange_iff _ _ _).mpr ⟨by omega, by omega⟩
    · intro x hx
      obtain ⟨d, h0, h6, rfl⟩ := hmem j x (List.mem_filter.mp hx).1
      rw [hw']
      exact decide_eq_true ⟨by omega, by omega⟩
  · refine List.mem_range.mpr ((hN j).mpr ?_)
    rw [assoc_week]; omega
  · intro i _ hij
    rw [List.filter_eq_nil_iff]
    intro x hx
    obtain ⟨d, h0, h6, rfl⟩ := hmem i x (List.mem_filter.mp hx).1
    rw [hw', decide_eq_true_eq]
    rintro ⟨h1, h2⟩
    have : interval * (i : Int) ≠ interval * (j : Int) := by
      intro h
      have := Int.eq_of_mul_eq_mul_left (by omega) h
      exact hij (by exact_mod_cast this)
    omega

/-- Saturdays and Sundays from Monday 2023/01/02 to Tuesday 2023/01/17. -/
example : (weekly (fun _ => 0) 0 2 1 [0, 6] (goDate 2023 1 2 * 86400) (goDate 2023 1 17 * 86400)).map (fun t => formatDate (t / 86400)) =
    [str "2023/01/07", str "2023/01/08", str "2023/01/14", str "2023/01/15"] := by decide +kernel

/-! ## C85: monthly dates -/

/-- Specification: `n` is the day `p` of its month, counted from the end (-1 is the last day) if `p` is negative. -/
def MonthDay (p n : Int) : Prop :=
  (0 < p ∧ goDay n = p) ∨ (p < 0 ∧ goDay n = daysIn (isLeap (goYear n)) (goMonth n) + 1 + p)

/-- Specification: the days `days` (all, if empty) of every `interval`-th month, counted from the month of `begin`, between `begin` and
`end`, at the time of day of `begin`. -/
def MonthlyDate (interval : Int) (days : List Int) (begin_ end_ t : Int) : Prop :=
  begin_ ≤ t ∧ t ≤ end_ ∧ t % 86400 = begin_ % 86400 ∧ (days = [] ∨ ∃ p ∈ days, MonthDay p (t / 86400)) ∧
    ∃ j : Nat, 12 * goYear (t / 86400) + goMonth (t / 86400) = 12 * goYear (begin_ / 86400) + goMonth (begin_ / 86400) + interval * j

/-- C85: when no choice is left, exactly these dates are generated. -/
def C85_Statement : Prop :=
  ∀ (draw : Nat → Nat) (k count : Nat) (interval : Int) (days : List Int) (b e t : Int), 1 ≤ interval →
    days.length ≤ count → (days = [] → 31 ≤ count) →
    (t ∈ monthly draw k count interval days b e ↔ MonthlyDate interval days b e t)

/-- **C85** is false: the end of the ledger is left out when it is the first of a month. -/
theorem C85_monthly_violated : ¬ C85_Statement := by
  intro h
  have := (h (fun _ => 0) 0 1 1 [1] exSunday exSunday exSunday (by decide) (by decide) (by decide)).mpr
    ⟨by decide, by decide, rfl, .inr ⟨1, by decide, .inl ⟨by decide, by decide +kernel⟩⟩, 0, by decide +kernel⟩
  exact absurd this (by decide +kernel)

theorem tod_range (t : Int) : 0 ≤ t % 86400 ∧ t % 86400 < 86400 := by omega

/-- The months the loop goes through. -/
theorem monthly_form (draw : Nat → Nat) (k count : Nat) (interval : Int) (days : List Int) (b e : Int) (hi : 1 ≤ interval) :
    ∃ (P : Nat → List Int) (N : Nat),
      (∀ j : Nat, ∃ k, P j = (picksOf draw count k (if days = [] then allDays (firstOf (goYear (b / 86400)) (goMonth (b / 86400) + interval * j) (b % 86400)) else days)).1) ∧
      (∀ j : Nat, j < N ↔ firstOf (goYear (b / 86400)) (goMonth (b / 86400) + interval * j) (b % 86400) < e) ∧
      monthly draw k count interval days b e = (List.range N).flatMap (fun j : Nat =>
        monthDates b e (firstOf (goYear (b / 86400)) (goMonth (b / 86400) + interval * j) (b % 86400)) (P j)) := by
  unfold monthly
  have e0 : secAddDate b 0 (1 - goDay (b / 86400)) = firstOf (goYear (b / 86400)) (goMonth (b / 86400)) (b % 86400) := by
    unfold secAddDate addDate firstOf
    have : goDay (b / 86400) + (1 - goDay (b / 86400)) = 1 := by omega
    rw [Int.add_zero, Int.add_zero, this]
  rw [e0, interval_id hi]
  exact monthlyLoop_form draw count interval hi days b e _ _ (tod_range b) _ k _ (Nat.le_refl _)

theorem sameMonth_iff (y m tod t : Int) (ht : 0 ≤ tod ∧ tod < 86400) :
    sameMonth (firstOf y m tod) t = true ↔ goDate y m 1 ≤ t / 86400 ∧ t / 86400 < goDate y (m + 1) 1 := by
  unfold sameMonth
  rw [(firstOf_div y m tod ht).1, Bool.and_eq_true, decide_eq_true_eq, decide_eq_true_eq]
  exact in_month y m (t / 86400)

theorem month_index (y m n : Int) : (goDate y m 1 ≤ n ∧ n < goDate y (m + 1) 1) ↔ 12 * goYear n + goMonth n = 12 * y + m := by
  rw [← in_month]
  obtain ⟨g1, g2, g3⟩ := goDate_norm y m
  obtain ⟨r1, r2, _⟩ := goParts_range n
  rw [g1, g2]
  omega

/-- The day of the month. -/
theorem goDay_in_month (y m n : Int) (h : goDate y m 1 ≤ n ∧ n < goDate y (m + 1) 1) :
    goDay n = n - goDate y m 1 + 1 ∧ daysIn (isLeap (goYear n)) (goMonth n) = goDate y (m + 1) 1 - goDate y m 1 := by
  obtain ⟨h1, h2⟩ := (in_month y m n).mpr h
  have hd := next_first y m
  obtain ⟨g1, g2, g3⟩ := goDate_norm y m
  have e1 : goDate (goYear n) (goMonth n) 1 = goDate y m 1 := by
    rw [← h1, ← h2]
    have := goDate_parts (goDate y m 1)
    rw [g3] at this
    exact this
  have e2 : goDate (goYear n) (goMonth n) (1 + (goDay n - 1)) = n := by
    have : 1 + (goDay n - 1) = goDay n := by omega
    rw [this]; exact goDate_parts n
  rw [goDate_add, e1] at e2
  rw [h1, h2] at hd
  omega

theorem pickDay_first (y m tod p : Int) (ht : 0 ≤ tod ∧ tod < 86400) :
    pickDay (firstOf y m tod) p = (if p ≤ 0 then goDate y (m + 1) 1 + p else goDate y m 1 + (p - 1)) * 86400 + tod := by
  unfold pickDay
  rw [secAddDate_first y m tod ht, secAddDate_first y m tod ht, Int.add_zero]
  split <;> rfl

/-- The day that pick `p` of a month gives. -/
theorem pick_spec (y m tod t : Int) (ht : 0 ≤ tod ∧ tod < 86400) (p : Int) :
    (pickDay (firstOf y m tod) p = t ∧ sameMonth (firstOf y m tod) t = true) ↔
    (t % 86400 = tod ∧ (goDate y m 1 ≤ t / 86400 ∧ t / 86400 < goDate y (m + 1) 1) ∧ MonthDay p (t / 86400)) := by
  rw [sameMonth_iff y m tod t ht, pickDay_first y m tod p ht]
  constructor
  · rintro ⟨h1, h2⟩
    obtain ⟨d1, d2⟩ := goDay_in_month y m (t / 86400) h2
    refine ⟨by split at h1 <;> omega, h2, ?_⟩
    unfold MonthDay
    rw [d1, d2]
    split at h1
    · right; omega
    · left; omega
  · rintro ⟨h1, h2, h3⟩
    obtain ⟨d1, d2⟩ := goDay_in_month y m (t / 86400) h2
    refine ⟨?_, h2⟩
    unfold MonthDay at h3
    rw [d1, d2] at h3
    split <;> omega

theorem allDays_mem (y m tod : Int) (ht : 0 ≤ tod ∧ tod < 86400) (p : Int) :
    p ∈ allDays (firstOf y m tod) ↔ 1 ≤ p ∧ p ≤ goDate y (m + 1) 1 - goDate y m 1 := by
  have hlt := first_mono_lt y (m := m) (m' := m + 1) (by omega)
  have e : secAddDate (firstOf y m tod) 1 (-1) / 86400 = goDate y (m + 1) 1 - 1 := by
    rw [secAddDate_first y m tod ht]; omega
  have hd := (goDay_in_month y m (goDate y (m + 1) 1 - 1) (by omega)).1
  unfold allDays
  rw [e, hd]
  simp only [List.mem_map, List.mem_range]
  constructor
  · rintro ⟨i, hi, rfl⟩; omega
  · rintro ⟨h1, h2⟩; exact ⟨(p - 1).toNat, by omega, by omega⟩

theorem allDays_length (y m tod : Int) (ht : 0 ≤ tod ∧ tod < 86400) : (allDays (firstOf y m tod)).length ≤ 31 := by
  have hlt := first_mono_lt y (m := m) (m' := m + 1) (by omega)
  have e : secAddDate (firstOf y m tod) 1 (-1) / 86400 = goDate y (m + 1) 1 - 1 := by
    rw [secAddDate_first y m tod ht]; omega
  obtain ⟨_, _, _, h⟩ := goParts_range (goDate y (m + 1) 1 - 1)
  unfold allDays
  rw [e, List.length_map, List.length_range]
  have : daysIn (isLeap (goYear (goDate y (m + 1) 1 - 1))) (goMonth (goDate y (m + 1) 1 - 1)) ≤ 31 := by
    unfold daysIn; split_ifs <;> omega
  omega

theorem monthDates_mem (b e cur t : Int) (picks : List Int) :
    t ∈ monthDates b e cur picks ↔ (∃ p ∈ picks, pickDay cur p = t) ∧ sameMonth cur t = true ∧ b ≤ t ∧ t ≤ e := by
  unfold monthDates
  rw [(stableSort_perm _ _).mem_iff, List.mem_filter, List.mem_map, Bool.and_eq_true, inGenRange_iff]

/-- **C85** Every generated date is one of the dates wanted, whatever is drawn. -/
theorem C85_sound (draw : Nat → Nat) (k count : Nat) (interval : Int) (days : List Int) (b e t : Int) (hi : 1 ≤ interval)
    (h : t ∈ monthly draw k count interval days b e) : MonthlyDate interval days b e t := by
  obtain ⟨P, N, hP, hN, hf⟩ := monthly_form draw k count interval days b e hi
  rw [hf] at h
  obtain ⟨j, hj, ht⟩ := List.mem_flatMap.mp h
  obtain ⟨⟨p, hp, hpt⟩, hsm, h1, h2⟩ := (monthDates_mem _ _ _ _ _).mp ht
  obtain ⟨q1, q2, q3⟩ := (pick_spec _ _ _ t (tod_range b) p).mp ⟨hpt, hsm⟩
  refine ⟨h1, h2, q1, ?_, j, ?_⟩
  · by_cases hd : days = []
    · exact .inl hd
    · right
      obtain ⟨k', hk'⟩ := hP j
      rw [hk', if_neg hd] at hp
      exact ⟨p, (picksOf_spec draw count k' days).1.subset hp, q3⟩
  · rw [(month_index _ _ _).mp q2]; ring

/-- **C85** What is generated exactly when nothing is left to chance: all the dates but the end, if that is the first of a month. Missing from
the full property: that date. -/
theorem C85_monthly_partial (draw : Nat → Nat) (k count : Nat) (interval : Int) (days : List Int) (b e t : Int) (hi : 1 ≤ interval)
    (hc : days.length ≤ count) (hc31 : days = [] → 31 ≤ count) :
    t ∈ monthly draw k count interval days b e ↔ MonthlyDate interval days b e t ∧ ¬ (t = e ∧ goDay (t / 86400) = 1) := by
  constructor
  · intro h
    refine ⟨C85_sound draw k count interval days b e t hi h, ?_⟩
    obtain ⟨P, N, hP, hN, hf⟩ := monthly_form draw k count interval days b e hi
    rw [hf] at h
    obtain ⟨j, hj, ht⟩ := List.mem_flatMap.mp h
    obtain ⟨⟨p, hp, hpt⟩, hsm, h1, h2⟩ := (monthDates_mem _ _ _ _ _).mp ht
    obtain ⟨q1, q2, q3⟩ := (pick_spec _ _ _ t (tod_range b) p).mp ⟨hpt, hsm⟩
    have hlt := (hN j).mp (List.mem_range.mp hj)
    rintro ⟨he, hday⟩
    have := (goDay_in_month _ _ _ q2).1
    unfold firstOf at hlt
    omega
  · rintro ⟨⟨h1, h2, h3, h4, j, h5⟩, hn⟩
    obtain ⟨P, N, hP, hN, hf⟩ := monthly_form draw k count interval days b e hi
    have hin : goDate (goYear (b / 86400)) (goMonth (b / 86400) + interval * j) 1 ≤ t / 86400 ∧
        t / 86400 < goDate (goYear (b / 86400)) (goMonth (b / 86400) + interval * j + 1) 1 := by
      rw [month_index, h5]; ring
    obtain ⟨d1, d2⟩ := goDay_in_month _ _ _ hin
    rw [hf]
    refine List.mem_flatMap.mpr ⟨j, List.mem_range.mpr ((hN j).mpr ?_), (monthDates_mem _ _ _ _ _).mpr ?_⟩
    · unfold firstOf
      omega
    · have hp : ∃ p ∈ P j, MonthDay p (t / 86400) := by
        obtain ⟨k', hk'⟩ := hP j
        rw [hk']
        by_cases hd : days = []
        · rw [if_pos hd, picksOf_all _ _ _ _ (le_trans (allDays_length _ _ _ (tod_range b)) (hc31 hd))]
          refine ⟨goDay (t / 86400), (allDays_mem _ _ _ (tod_range b) _).mpr ⟨by omega, by omega⟩, .inl ⟨by omega, rfl⟩⟩
        · rw [if_neg hd, picksOf_all _ _ _ _ hc]
          rcases h4 with h4 | h4
          · exact absurd h4 hd
          · exact h4
      obtain ⟨p, hp, hpd⟩ := hp
      obtain ⟨r1, r2⟩ := (pick_spec _ _ _ t (tod_range b) p).mpr ⟨h3, hin, hpd⟩
      exact ⟨⟨p, hp, r1⟩, r2, h1, h2⟩

/-- **C85** The dates are generated in order. -/
theorem C85_sorted (draw : Nat → Nat) (k count : Nat) (interval : Int) (days : List Int) (b e : Int) (hi : 1 ≤ interval) :
    (monthly draw k count interval days b e).Pairwise (· ≤ ·) := by
  obtain ⟨P, N, hP, hN, hf⟩ := monthly_form draw k count interval days b e hi
  rw [hf, List.pairwise_flatMap]
  constructor
  · intro j _
    exact (stableSort_sorted _ intLt_strictWeak _).imp (fun h => by simpa using h)
  · refine List.pairwise_lt_range.imp ?_
    intro i j hij x hx y hy
    obtain ⟨_, hx, _⟩ := (monthDates_mem _ _ _ _ _).mp hx
    obtain ⟨_, hy, _⟩ := (monthDates_mem _ _ _ _ _).mp hy
    have hx := ((sameMonth_iff _ _ _ _ (tod_range b)).mp hx).2
    have hy := ((sameMonth_iff _ _ _ _ (tod_range b)).mp hy).1
    have hle : goMonth (b / 86400) + interval * (i : Int) + 1 ≤ goMonth (b / 86400) + interval * (j : Int) := by
      have : interval * ((i : Int) + 1) ≤ interval * (j : Int) := Int.mul_le_mul_of_nonneg_left (by omega) (by omega)
      have e : interval * ((i : Int) + 1) = interval * i + interval := by ring
      omega
    have : goDate (goYear (b / 86400)) (goMonth (b / 86400) + interval * (i : Int) + 1) 1 ≤ goDate (goYear (b / 86400)) (goMonth (b / 86400) + interval * (j : Int)) 1 := by
      rcases Int.lt_or_eq_of_le hle with h | h
      · exact Int.le_of_lt (first_mono_lt _ h)
      · rw [h]
    omega

/-- **C85** Every month that counts and lies within the ledger gets `count` dates (or as many as there are days to pick from), if all the days
exist in every month. -/
theorem C85_count (draw : Nat → Nat) (k count : Nat) (interval : Int) (days : List Int) (b e : Int) (hi : 1 ≤ interval) (hne : days ≠ [])
    (hd : ∀ p ∈ days, p ≠ 0 ∧ -28 ≤ p ∧ p ≤ 28) (j : Nat) (first last : Int)
    (hfirst : first = goDate (goYear (b / 86400)) (goMonth (b / 86400) + interval * j) 1)
    (hlast : last = goDate (goYear (b / 86400)) (goMonth (b / 86400) + interval * j + 1) 1 - 1)
    (hb : b ≤ first * 86400 + b % 86400) (he : last * 86400 + b % 86400 ≤ e) :
    ((monthly draw k count interval days b e).filter (fun t => decide (first ≤ t / 86400 ∧ t / 86400 ≤ last))).length = min count days.length := by
  obtain ⟨P, N, hP, hN, hf⟩ := monthly_form draw k count interval days b e hi
  have h28 : first + 27 ≤ last := by
    have := next_first (goYear (b / 86400)) (goMonth (b / 86400) + interval * j)
    have h : ∀ l m, 28 ≤ daysIn l m := by intro l m; unfold daysIn; split_ifs <;> omega
    have := h (isLeap (goYear (goDate (goYear (b / 86400)) (goMonth (b / 86400) + interval * j) 1))) (goMonth (goDate (goYear (b / 86400)) (goMonth (b / 86400) + interval * j) 1))
    omega
  rw [hf, List.filter_flatMap, flatMap_single _ _ j List.nodup_range]
  · obtain ⟨k', hk'⟩ := hP j
    rw [if_neg hne] at hk'
    rw [List.filter_eq_self.mpr]
    · unfold monthDates
      rw [(stableSort_perm _ _).length_eq, List.filter_eq_self.mpr, List.length_map, hk', (picksOf_spec draw count k' days).2]
      intro t ht
      obtain ⟨p, hp, rfl⟩ := List.mem_map.mp ht
      rw [hk'] at hp
      obtain ⟨hp0, hp1, hp2⟩ := hd p ((picksOf_spec draw count k' days).1.subset hp)
      have ht := tod_range b
      rw [Bool.and_eq_true, sameMonth_iff _ _ _ _ ht, inGenRange_iff, pickDay_first _ _ _ _ ht]
      split <;> omega
    · intro t ht
      obtain ⟨_, ht, _⟩ := (monthDates_mem _ _ _ _ _).mp ht
      have ht := (sameMonth_iff _ _ _ _ (tod_range b)).mp ht
      exact decide_eq_true ⟨by omega, by omega⟩
  · refine List.mem_range.mpr ((hN j).mpr ?_)
    unfold firstOf
    omega
  · intro i _ hij
    rw [List.filter_eq_nil_iff]
    intro t ht
    obtain ⟨_, ht, _⟩ := (monthDates_mem _ _ _ _ _).mp ht
    have ht := (sameMonth_iff _ _ _ _ (tod_range b)).mp ht
    rw [decide_eq_true_eq]
    rintro ⟨h1, h2⟩
    have e1 := (month_index _ _ _).mp ht
    have e2 := (month_index (goYear (b / 86400)) (goMonth (b / 86400) + interval * j) (t / 86400)).mp ⟨by omega, by omega⟩
    have : interval * (i : Int) = interval * (j : Int) := by omega
    have := Int.eq_of_mul_eq_mul_left (by omega) this
    exact hij (by exact_mod_cast this)

/-- The 15th and the last day of every month. -/
example : (monthly (fun _ => 0) 0 2 1 [15, -1] (goDate 2023 1 16 * 86400) (goDate 2023 3 14 * 86400)).map (fun t => formatDate (t / 86400)) =
    [str "2023/01/31", str "2023/02/15", str "2023/02/28"] := by decide +kernel

/-! ## C86: splitting into files -/

theorem padInt_natStr (x : Int) (w : Nat) (h : 0 ≤ x) : strNat (padInt x w) = x.natAbs := by
  unfold padInt
  simp only
  rw [if_neg (by omega), List.nil_append, strNat_append, strNat_rep_zero, strNat_natStr]
  simp

theorem padInt_inj (x y : Int) (w : Nat) (h : padInt x w = padInt y w) : x = y := by
  have pos : ∀ (z : Int), 0 ≤ z → ∀ c ∈ (padInt z w).head?, c ≠ '-' := by
    intro z hz c hc
    have hall : ∀ c ∈ padInt z w, isDigit c = true := by
      unfold padInt
      simp only
      rw [if_neg (by omega), List.nil_append]
      intro c hc
      rcases List.mem_append.mp hc with hc | hc
      · unfold rep at hc
        rw [(List.mem_replicate.mp hc).2]; decide
      · exact List.all_eq_true.mp (natStr_allDigits _) c hc
    have := hall c (List.mem_of_mem_head? hc)
    rintro rfl
    exact absurd this (by decide)
  have neg : ∀ (z : Int), z < 0 → (padInt z w).head? = some '-' := by
    intro z hz
    unfold padInt
    simp [hz]
  have abs : ∀ (z : Int), padInt z w = (if z < 0 then ['-'] else []) ++ padInt z.natAbs w := by
    intro z
    unfold padInt
    simp only
    rw [if_neg (show ¬ ((z.natAbs : Nat) : Int) < 0 by omega), List.nil_append, Int.natAbs_natCast, List.append_assoc]
  rcases Int.lt_or_le x 0 with hx | hx <;> rcases Int.lt_or_le y 0 with hy | hy
  · rw [abs x, abs y, if_pos hx, if_pos hy] at h
    have h := congrArg strNat (List.append_cancel_left h)
    rw [padInt_natStr _ _ (by omega), padInt_natStr _ _ (by omega)] at h
    omega
  · exact absurd rfl (pos y hy '-' (by rw [← h, neg x hx]; rfl))
  · exact absurd rfl (pos x hx '-' (by rw [h, neg y hy]; rfl))
  · have h := congrArg strNat h
    rw [padInt_natStr _ _ hx, padInt_natStr _ _ hy] at h
    omega

/-- What the labels distinguish: nothing, years, months. -/
def Labeler.group : Labeler → Int → Int
  | .one, _ => 0
  | .byYear, t => goYear (t / 86400)
  | .byMonth, t => 12 * goYear (t / 86400) + goMonth (t / 86400)

theorem padInt_month (x : Int) (h : 1 ≤ x ∧ x ≤ 12) : (padInt x 2).length = 2 := by
  obtain ⟨h1, h2⟩ := h
  have : x = 1 ∨ x = 2 ∨ x = 3 ∨ x = 4 ∨ x = 5 ∨ x = 6 ∨ x = 7 ∨ x = 8 ∨ x = 9 ∨ x = 10 ∨ x = 11 ∨ x = 12 := by omega
  rcases this with rfl | rfl | rfl | rfl | rfl | rfl | rfl | rfl | rfl | rfl | rfl | rfl <;> decide +kernel

theorem label_iff (l : Labeler) (a b : Int) : l.label a = l.label b ↔ l.group a = l.group b := by
  cases l with
  | one => exact ⟨fun _ => rfl, fun _ => rfl⟩
  | byYear =>
    unfold Labeler.label Labeler.group
    exact ⟨padInt_inj _ _ _, fun h => by simp only at h ⊢; rw [h]⟩
  | byMonth =>
    unfold Labeler.label Labeler.group
    obtain ⟨a1, a2, _⟩ := goParts_range (a / 86400)
    obtain ⟨b1, b2, _⟩ := goParts_range (b / 86400)
    simp only
    constructor
    · intro h
      obtain ⟨h1, h2⟩ := List.append_inj' h (by simp [padInt_month _ ⟨a1, a2⟩, padInt_month _ ⟨b1, b2⟩])
      have h1 := padInt_inj _ _ _ h1
      have h2 := padInt_inj _ _ _ (List.cons.inj h2).2
      omega
    · intro h
      have h1 : goYear (a / 86400) = goYear (b / 86400) := by omega
      have h2 : goMonth (a / 86400) = goMonth (b / 86400) := by omega
      rw [h1, h2]

theorem group_mono (l : Labeler) {a b : Int} (h : a ≤ b) : l.group a ≤ l.group b := by
  have hd : a / 86400 ≤ b / 86400 := Int.ediv_le_ediv (by decide) h
  cases l with
  | one => exact Int.le_refl _
  | byYear => exact goYear_mono hd
  | byMonth =>
    unfold Labeler.group
    have h1 := goYear_mono hd
    obtain ⟨a1, a2, _⟩ := goParts_range (a / 86400)
    obtain ⟨b1, b2, _⟩ := goParts_range (b / 86400)
    simp only
    rcases Int.lt_or_eq_of_le h1 with h | h
    · omega
    · have := goMonth_mono h hd
      omega

/-- Specification: every file holds the transactions of its label, all of them, in order, and every transaction is in one. -/
def SplitBy {α : Type} (label : α → Str) (ts : List α) (files : List (Str × List α)) : Prop :=
  (files.map (·.1)).Nodup ∧ (∀ e ∈ files, e.2 = ts.filter (fun t => decide (label t = e.1))) ∧ ∀ t ∈ ts, label t ∈ files.map (·.1)

theorem mapPut_keys {α : Type} (m : List (Str × α)) (k : Str) (v : α) (h : k ∉ m.map (·.1)) : mapPut m k v = (k, v) :: m := by
  unfold mapPut
  rw [List.filter_eq_self.mpr]
  intro e he
  exact decide_eq_true (by rintro rfl; exact h (List.mem_map.mpr ⟨e, he, rfl⟩))

theorem batchLoop_split {α : Type} (label : α → Str) (g : α → Int) (hl : ∀ a b, label a = label b ↔ g a = g b) :
    ∀ (ts pre : List α) (m : List (Str × List α)) (cur : α), (pre ++ ts).Pairwise (fun a b => g a ≤ g b) → (∀ a ∈ pre, g a ≤ g cur) →
      (∀ a ∈ ts, g cur ≤ g a) → (m.map (·.1)).Nodup → label cur ∉ m.map (·.1) → (∀ e ∈ m, e.2 = pre.filter (fun t => decide (label t = e.1))) →
      (∀ e ∈ m, ∃ a, label a = e.1 ∧ g a < g cur) →
      (∀ t ∈ pre, label t = label cur ∨ label t ∈ m.map (·.1)) →
      SplitBy label (pre ++ ts) (batchLoop label m (label cur) (pre.filter (fun t => decide (label t = label cur))) ts)
  | [], pre, m, cur, hs, h1, h2, h3, h4, h5, h6, h7 => by
    unfold batchLoop
    rw [mapPut_keys _ _ _ h4, List.append_nil]
    refine ⟨List.nodup_cons.mpr ⟨h4, h3⟩, ?_, ?_⟩
    · intro e he
      rcases List.mem_cons.mp he with rfl | he
      · rfl
      · exact h5 e he
    · intro t ht
      rw [List.map_cons]
      rcases h7 t ht with h | h
      · rw [h]; exact List.mem_cons_self
      · exact List.mem_cons_of_mem _ h
  | t :: ts, pre, m, cur, hs, h1, h2, h3, h4, h5, h6, h7 => by
    unfold batchLoop
    have hpre : ∀ a ∈ pre, g a ≤ g t := fun a ha => le_trans (h1 a ha) (h2 t (by simp))
    have hts : ∀ a ∈ ts, g t ≤ g a := by
      intro a ha
      have := (List.pairwise_append.mp hs).2.1
      exact (List.pairwise_cons.mp this).1 a ha
    have hs' : ((pre ++ [t]) ++ ts).Pairwise (fun a b => g a ≤ g b) := by simpa using hs
    have hlt : ∀ e ∈ m, e.1 ≠ label t := by
      intro e he hc
      obtain ⟨a, ha, hlt⟩ := h6 e he
      have := (hl a t).mp (ha.trans hc)
      have := h2 t (by simp)
      omega
    have h5' : ∀ e ∈ m, e.2 = (pre ++ [t]).filter (fun t => decide (label t = e.1)) := by
      intro e he
      rw [List.filter_append, ← h5 e he, List.filter_cons_of_neg, List.filter_nil, List.append_nil]
      simp only [decide_eq_true_eq]
      exact fun h => hlt e he h.symm
    by_cases hc : label cur = label t
    · rw [if_pos hc]
      have hg := (hl cur t).mp hc
      have hf : pre.filter (fun t => decide (label t = label cur)) ++ [t] = (pre ++ [t]).filter (fun u => decide (label u = label t)) := by
        rw [List.filter_append, List.filter_cons_of_pos (by simp), List.filter_nil, hc]
      rw [hf, hc]
      have := batchLoop_split label g hl ts (pre ++ [t]) m t hs'
        (by intro a ha; rcases List.mem_append.mp ha with ha | ha
            · exact hpre a ha
            · rw [List.mem_singleton.mp ha])
        hts h3 (by rw [← hc]; exact h4) h5'
        (by intro e he; obtain ⟨a, ha, hlt⟩ := h6 e he; exact ⟨a, ha, by omega⟩)
        (by intro a ha; rcases List.mem_append.mp ha with ha | ha
            · rcases h7 a ha with h | h
              · exact .inl (h.trans hc)
              · exact .inr h
            · rw [List.mem_singleton.mp ha]; exact .inl rfl)
      simpa using this
    · rw [if_neg hc]
      have hg : g cur < g t := by
        have h := h2 t (by simp)
        have : g cur ≠ g t := fun h => hc ((hl cur t).mpr h)
        omega
      rw [mapPut_keys _ _ _ h4]
      have hnil : pre.filter (fun u => decide (label u = label t)) = [] := by
        rw [List.filter_eq_nil_iff]
        intro a ha
        rw [decide_eq_true_eq]
        intro h
        have := (hl a t).mp h
        have := h1 a ha
        omega
      have hf : [t] = (pre ++ [t]).filter (fun u => decide (label u = label t)) := by
        rw [List.filter_append, List.filter_cons_of_pos (by simp), List.filter_nil, hnil, List.nil_append]
      have hcur : ¬ label t = label cur := fun h => hc h.symm
      have := batchLoop_split label g hl ts (pre ++ [t]) ((label cur, pre.filter (fun t => decide (label t = label cur))) :: m) t hs'
        (by intro a ha; rcases List.mem_append.mp ha with ha | ha
            · exact hpre a ha
            · rw [List.mem_singleton.mp ha])
        hts (List.nodup_cons.mpr ⟨h4, h3⟩)
        (by rw [List.map_cons, List.mem_cons]
            rintro (h | h)
            · exact hcur h
            · obtain ⟨e, he, hh⟩ := List.mem_map.mp h
              exact hlt e he hh)
        (by intro e he
            rcases List.mem_cons.mp he with rfl | he
            · rw [List.filter_append, List.filter_cons_of_neg (by simpa using hcur), List.filter_nil, List.append_nil]
            · exact h5' e he)
        (by intro e he
            rcases List.mem_cons.mp he with rfl | he
            · exact ⟨cur, rfl, hg⟩
            · obtain ⟨a, ha, hlt⟩ := h6 e he; exact ⟨a, ha, by omega⟩)
        (by intro a ha; rcases List.mem_append.mp ha with ha | ha
            · rw [List.map_cons]
              rcases h7 a ha with h | h
              · rw [h]; exact .inr List.mem_cons_self
              · exact .inr (List.mem_cons_of_mem _ h)
            · rw [List.mem_singleton.mp ha]; exact .inl rfl)
      rw [← hf] at this
      simpa using this

/-- **C86** Splitting a sorted ledger into files by year, by month or not at all: every transaction is in exactly the file of its period, the
order is kept, and no file is written twice (a second one of the same name would replace the first). -/
theorem C86_split {α : Type} (l : Labeler) (posted : α → Int) (ts : List α) (hs : ts.Pairwise (fun a b => posted a ≤ posted b)) :
    SplitBy (fun t => l.label (posted t)) ts (batchesByLabel (fun t => l.label (posted t)) ts) := by
  cases ts with
  | nil => exact ⟨by simp [batchesByLabel], by simp [batchesByLabel], by simp⟩
  | cons t ts =>
    have hp : (t :: ts).Pairwise (fun a b => l.group (posted a) ≤ l.group (posted b)) := hs.imp (fun h => group_mono l h)
    exact batchLoop_split (fun t => l.label (posted t)) (fun t => l.group (posted t)) (fun a b => label_iff l _ _) (t :: ts) [] [] t
      (by simpa using hp) (by simp) (by
        intro a ha
        rcases List.mem_cons.mp ha with rfl | ha
        · exact Int.le_refl _
        · exact (List.pairwise_cons.mp hp).1 a ha) (by simp) (by simp) (by simp) (by simp) (by simp)

/-- **C86** The sorted ledger is the concatenation of nothing more and nothing less: the files together have as many transactions. -/
theorem C86_each_once {α : Type} [DecidableEq α] (l : Labeler) (posted : α → Int) (ts : List α) (hs : ts.Pairwise (fun a b => posted a ≤ posted b)) (t : α) :
    ((batchesByLabel (fun t => l.label (posted t)) ts).map (fun e => e.2.count t)).sum = ts.count t := by
  obtain ⟨h1, h2, h3⟩ := C86_split l posted ts hs
  generalize batchesByLabel (fun t => l.label (posted t)) ts = files at *
  have key : ∀ files : List (Str × List α), (files.map (·.1)).Nodup → (∀ e ∈ files, e.2 = ts.filter (fun t => decide (l.label (posted t) = e.1))) →
      (files.map (fun e => e.2.count t)).sum = if l.label (posted t) ∈ files.map (·.1) then ts.count t else 0 := by
    intro files
    induction files with
    | nil => intro _ _; simp
    | cons e files ih =>
      intro hn he
      have ih := ih (List.nodup_cons.mp hn).2 (fun x hx => he x (by simp [hx]))
      rw [List.map_cons, List.sum_cons, ih, he e (by simp)]
      by_cases hc : l.label (posted t) = e.1
      · rw [List.count_filter (by simpa using hc)]
        have hn1 : l.label (posted t) ∉ files.map (·.1) := by rw [hc]; exact (List.nodup_cons.mp hn).1
        rw [if_neg hn1, if_pos (by simp [hc])]
        rfl
      · have : (ts.filter (fun t => decide (l.label (posted t) = e.1))).count t = 0 := by
          rw [List.count_eq_zero]
          intro h
          exact hc (by simpa using (List.mem_filter.mp h).2)
        rw [this, Nat.zero_add]
        have : (l.label (posted t) ∈ List.map (fun x => x.1) (e :: files)) ↔ l.label (posted t) ∈ List.map (fun x => x.1) files := by
          simp [List.map_cons, List.mem_cons, hc]
        simp only [this]
  rw [key files h1 h2]
  split
  · rfl
  · rename_i h
    symm
    rw [List.count_eq_zero]
    exact fun ht => h (h3 t ht)

example : (batchesByLabel (fun t => Labeler.byMonth.label t) [goDate 2023 1 5 * 86400, goDate 2023 1 31 * 86400, goDate 2023 2 1 * 86400]).map (fun e => (e.1, e.2.length)) =
    [(str "2023-02", 1), (str "2023-01", 2)] := by decide +kernel

/-! ## C87: balances on postings -/

/-- The state before anything is generated. -/
def genStart : GenState := ⟨fun _ => 0, fun _ => [], 0⟩

/-- C87: with `-wb` every posting carries the sum of its account's postings up to and including itself. -/
def C87_Statement : Prop :=
  ∀ (draw : Nat → Nat) (decimals : Nat) (rules : List GenRule) (s : GenState) (a : Str) (i : Nat) (b : Int), generateAll draw decimals genStart rules = .ok s →
    (withBalances s a)[i]? = some b → b = ((s.posted a).take (i + 1)).sum

/-- 100 from A to B. -/
def exRule : GenRule := ⟨[str "A"], [str "B"], 100, 100⟩

theorem C87_balances_violated : ¬ C87_Statement := by
  intro h
  have e : ∃ s, generateAll (fun _ => 0) 0 genStart [exRule] = .ok s ∧ (withBalances s (str "B"))[0]? = some 200 ∧ s.posted (str "B") = [100] := ⟨_, rfl, by decide +kernel, by decide +kernel⟩
  obtain ⟨s, hs, hb, hp⟩ := e
  have := h _ _ _ s _ _ _ hs hb
  rw [hp] at this
  exact absurd this (by decide)

theorem setFn_same {α : Type} (f : Str → α) (x : Str) (v : α) : setFn f x v x = v := by simp [setFn]

theorem generatePostings_sum (draw : Nat → Nat) (decimals : Nat) (r : GenRule) (s s' : GenState) (h : generatePostings draw decimals r s = .ok s')
    (hs : ∀ a, s.balance a = (s.posted a).sum) : ∀ a, s'.balance a = (s'.posted a).sum := by
  unfold generatePostings at h
  split at h
  · rename_i src dst h1 h2
    obtain ⟨amt, ha, h⟩ := bind_ok.mp h
    cases h
    have step : ∀ (b : Str → Int) (p : Str → List Int) (x : Str) (v : Int), (∀ a, b a = (p a).sum) →
        ∀ a, setFn b x (b x + v) a = (setFn p x (p x ++ [v]) a).sum := by
      intro b p x v hbp a
      unfold setFn
      split
      · rw [List.sum_append, hbp x]; simp
      · exact hbp a
    have h1 := step s.balance s.posted dst amt.1 hs
    have := step _ _ src (-amt.1) h1
    intro a
    exact this a
  · cases h

/-- **C88** While the sample is generated the balance of an account is the sum of its postings. -/
theorem C88_balance_is_sum (draw : Nat → Nat) (decimals : Nat) (rules : List GenRule) (s : GenState) (h : generateAll draw decimals genStart rules = .ok s) :
    ∀ a, s.balance a = (s.posted a).sum := by
  have key : ∀ (rules : List GenRule) (s0 s : GenState), (∀ a, s0.balance a = (s0.posted a).sum) → generateAll draw decimals s0 rules = .ok s →
      ∀ a, s.balance a = (s.posted a).sum := by
    intro rules
    induction rules with
    | nil => intro s0 s h0 h; cases h; exact h0
    | cons r rules ih =>
      intro s0 s h0 h
      unfold generateAll at h
      obtain ⟨s1, h1, h⟩ := bind_ok.mp h
      exact ih s1 s (generatePostings_sum draw decimals r s0 s1 h1 h0) h
  exact key rules genStart s (by intro a; rfl) h

theorem checkBalances_get (b : Int) (qs : List Int) : ∀ i x, (checkBalances b qs).1[i]? = some x → x = b + (qs.take (i + 1)).sum := by
  induction qs generalizing b with
  | nil => intro i x h; simp [checkBalances] at h
  | cons q qs ih =>
    intro i x h
    unfold checkBalances at h
    simp only at h
    cases i with
    | zero => simp at h; simp [← h]
    | succ i =>
      rw [List.getElem?_cons_succ] at h
      have := ih (b + q) i x h
      rw [this, List.take_succ_cons, List.sum_cons]
      omega

theorem checkBalances_length (b : Int) (qs : List Int) : (checkBalances b qs).1.length = qs.length := by
  induction qs generalizing b with
  | nil => rfl
  | cons q qs ih => unfold checkBalances; simp [ih]

/-- **C87** What the postings carry instead: that sum plus the final balance of the account. Missing from the full property: it holds only if the
account's final balance is zero. -/
theorem C87_balances_partial (draw : Nat → Nat) (decimals : Nat) (rules : List GenRule) (s : GenState) (a : Str) (i : Nat) (b : Int)
    (h : generateAll draw decimals genStart rules = .ok s) (hb : (withBalances s a)[i]? = some b) :
    b = ((s.posted a).take (i + 1)).sum + (s.posted a).sum := by
  unfold withBalances at hb
  have := checkBalances_get _ _ i b hb
  rw [C88_balance_is_sum draw decimals rules s h a] at this
  omega

/-- **C87** Every posting carries a balance. -/
theorem C87_all (s : GenState) (a : Str) : (withBalances s a).length = (s.posted a).length := checkBalances_length _ _

/-! ## C88: amounts -/

theorem wrap64_id {x : Int} (h : -2 ^ 63 ≤ x ∧ x < 2 ^ 63) : wrap64 x = x := by unfold wrap64; omega

theorem wrap64_mul (a b : Int) : wrap64 (wrap64 a * b) = wrap64 (a * b) := by
  unfold wrap64
  congr 1
  have h : ((a + 2 ^ 63) % 2 ^ 64 - 2 ^ 63) % 2 ^ 64 = a % 2 ^ 64 := by omega
  have h2 : (((a + 2 ^ 63) % 2 ^ 64 - 2 ^ 63) * b) % 2 ^ 64 = (a * b) % 2 ^ 64 := by
    rw [Int.mul_emod, h, ← Int.mul_emod]
  omega

theorem wrap64_mul_right (a b : Int) : wrap64 (a * wrap64 b) = wrap64 (a * b) := by
  rw [Int.mul_comm a, wrap64_mul, Int.mul_comm]

theorem powLoop_spec (base : Int) (exp : Nat) : ∀ (n i : Nat), exp < 2 ^ (i + n) →
    powLoop exp n (2 ^ i) (wrap64 (base ^ 2 ^ i)) (wrap64 (base ^ (exp % 2 ^ i))) = wrap64 (base ^ exp)
  | 0, i, h => by
    unfold powLoop
    rw [Nat.mod_eq_of_lt (by simpa using h)]
  | n + 1, i, h => by
    unfold powLoop
    by_cases hle : 2 ^ i ≤ exp
    · rw [if_pos hle]
      have ih := powLoop_spec base exp n (i + 1) (by rw [show i + 1 + n = i + (n + 1) by omega]; exact h)
      have e1 : wrap64 (wrap64 (base ^ 2 ^ i) * wrap64 (base ^ 2 ^ i)) = wrap64 (base ^ 2 ^ (i + 1)) := by
        rw [wrap64_mul, wrap64_mul_right, ← pow_add, pow_succ, Nat.mul_two]
      have e2 : (if exp / 2 ^ i % 2 = 1 then wrap64 (wrap64 (base ^ (exp % 2 ^ i)) * wrap64 (base ^ 2 ^ i)) else wrap64 (base ^ (exp % 2 ^ i))) =
          wrap64 (base ^ (exp % 2 ^ (i + 1))) := by
        have hm : exp % 2 ^ (i + 1) = exp % 2 ^ i + 2 ^ i * (exp / 2 ^ i % 2) := by rw [pow_succ, Nat.mod_mul]
        rw [hm]
        rcases Nat.mod_two_eq_zero_or_one (exp / 2 ^ i) with h0 | h0
        · rw [h0]; simp
        · rw [h0, if_pos rfl, wrap64_mul, wrap64_mul_right, Nat.mul_one, pow_add]
      rw [e1, e2, show 2 ^ i * 2 = 2 ^ (i + 1) by rw [pow_succ]]
      exact ih
    · rw [if_neg hle, Nat.mod_eq_of_lt (by omega)]

/-- **C88** The power function: exact as long as the result fits into 64 bits. -/
theorem C88_pow (exp : Nat) (h : exp ≤ 18) : intPow 10 exp = 10 ^ exp := by
  unfold intPow
  have := powLoop_spec 10 exp (exp + 1) 0 (lt_of_lt_of_le Nat.lt_two_pow_self (Nat.pow_le_pow_right (by decide) (by omega)))
  have e1 : wrap64 ((10 : Int) ^ 2 ^ 0) = 10 := by decide
  have e2 : wrap64 ((10 : Int) ^ (exp % 2 ^ 0)) = 1 := by rw [pow_zero, Nat.mod_one]; decide
  rw [e1, e2, pow_zero] at this
  rw [this, wrap64_id]
  have h1 : (10 : Int) ^ exp ≤ 10 ^ 18 := by exact_mod_cast Nat.pow_le_pow_right (show 0 < 10 by decide) h
  have h2 : (0 : Int) < 10 ^ exp := by positivity
  have h3 : (10 : Int) ^ 18 < 2 ^ 63 := by decide
  constructor
  · omega
  · omega

/-- **C88** A random amount is a whole number between the two bounds of the rule, and below the larger one unless they are equal. -/
theorem C88_amount (draw : Nat → Nat) (k decimals : Nat) (a b fb tb : Int) (hd : decimals ≤ 18) (ha : a ≤ genConstants)
    (hr : -2 ^ 63 ≤ min a b * 10 ^ decimals ∧ max a b * 10 ^ decimals < 2 ^ 63) :
    ∃ u k', amtBetween draw k decimals a b fb tb = .ok (u * 10 ^ decimals, k') ∧ min a b ≤ u ∧ u ≤ max a b ∧ (a ≠ b → u < max a b) := by
  unfold amtBetween
  rw [if_neg (by omega), C88_pow decimals hd]
  have key : min a b ≤ (amtRandom draw k a b).1 ∧ (amtRandom draw k a b).1 ≤ max a b ∧ (a ≠ b → (amtRandom draw k a b).1 < max a b) := by
    unfold amtRandom
    simp only
    rcases Int.lt_trichotomy a b with h | h | h
    · have hn : ¬ a > b := by omega
      simp only [hn, if_false]
      rw [if_pos (by omega)]
      have := Nat.mod_lt (draw k) (show 0 < (b - a).toNat by omega)
      generalize draw k % (b - a).toNat = x at *
      simp only
      omega
    · subst h
      simp
    · simp only [gt_iff_lt, h, if_true]
      rw [if_pos (by omega)]
      have := Nat.mod_lt (draw k) (show 0 < (a - b).toNat by omega)
      generalize draw k % (a - b).toNat = x at *
      simp only
      omega
  obtain ⟨k1, k2, k3⟩ := key
  refine ⟨(amtRandom draw k a b).1, (amtRandom draw k a b).2, ?_, k1, k2, k3⟩
  simp only
  rw [wrap64_id]
  have hp : (0 : Int) ≤ 10 ^ decimals := by positivity
  have h1 := Int.mul_le_mul_of_nonneg_right k1 hp
  have h2 := Int.mul_le_mul_of_nonneg_right k2 hp
  omega

/-- **C88** A rule that repays a balance brings it to zero, at the cost of the paying account. -/
theorem C88_repay (draw : Nat → Nat) (decimals : Nat) (src dst : Str) (hne : src ≠ dst) (s : GenState) :
    ∃ s', generatePostings draw decimals ⟨[src], [dst], toBalance, 1⟩ s = .ok s' ∧ s'.balance dst = 0 ∧
      s'.balance src = s.balance src + s.balance dst ∧ ∀ a, a ≠ src → a ≠ dst → s'.balance a = s.balance a := by
  unfold generatePostings
  have e1 : ([src] : List Str)[draw s.draws % [src].length]? = some src := by simp [Nat.mod_one]
  have e2 : ([dst] : List Str)[draw (s.draws + 1) % [dst].length]? = some dst := by simp [Nat.mod_one]
  simp only [e1, e2]
  have e3 : amtBetween draw (s.draws + 2) decimals toBalance 1 (s.balance src) (s.balance dst) = .ok (-s.balance dst, s.draws + 2) := by
    unfold amtBetween amtFromBalance
    rw [if_pos (by decide), if_neg (by decide), if_pos rfl, if_neg (by decide), Int.ediv_one]
    rfl
  rw [e3]
  refine ⟨_, rfl, ?_, ?_, ?_⟩
  · simp [setFn, Ne.symm hne]
  · simp [setFn, hne]
  · intro a h1 h2
    simp [setFn, h1, h2]

/-- **C88** A rule that pays a fraction of a balance, of either account: the amount times the divisor is the negated balance, up to a
remainder smaller than the divisor. -/
theorem C88_fraction (divisor fb tb : Int) (hd : divisor ≠ 0) :
    (∃ x r, amtFromBalance toBalance divisor fb tb = .ok x ∧ -tb = x * divisor + r ∧ 0 ≤ r ∧ r < |divisor|) ∧
    ∃ x r, amtFromBalance fromBalance divisor fb tb = .ok x ∧ -fb = x * divisor + r ∧ 0 ≤ r ∧ r < |divisor| := by
  refine ⟨⟨-tb / divisor, -tb % divisor, ?_, ?_, Int.emod_nonneg _ hd, Int.emod_lt_abs _ hd⟩,
    ⟨-fb / divisor, -fb % divisor, ?_, ?_, Int.emod_nonneg _ hd, Int.emod_lt_abs _ hd⟩⟩
  · unfold amtFromBalance
    rw [if_neg (by decide), if_pos rfl, if_neg hd]
  · have := Int.emod_add_mul_ediv (-tb) divisor
    rw [Int.mul_comm]
    omega
  · unfold amtFromBalance
    rw [if_pos rfl, if_neg hd]
  · have := Int.emod_add_mul_ediv (-fb) divisor
    rw [Int.mul_comm]
    omega

example : (generateAll (fun _ => 0) 2 genStart [exRule, ⟨[str "C"], [str "A"], toBalance, 1⟩]).toOption.map
    (fun s => (s.balance (str "A"), s.balance (str "B"), s.balance (str "C"), s.posted (str "A"))) = some (0, 10000, -10000, [-10000, 10000]) := by decide +kernel

/-- **C84, C85** (defaults) An interval below 1 counts as 1; no weekdays mean all seven. -/
theorem C84_defaults (draw : Nat → Nat) (k count : Nat) (interval : Int) (days : List Int) (begin_ end_ : Int) :
    (interval < 1 → weekly draw k count interval days begin_ end_ = weekly draw k count 1 days begin_ end_) ∧
    (interval < 1 → monthly draw k count interval days begin_ end_ = monthly draw k count 1 days begin_ end_) ∧
    weekly draw k count interval [] begin_ end_ = weekly draw k count interval [0, 1, 2, 3, 4, 5, 6] begin_ end_ ∧
    intervalOf 1 = 1 := by
  have h : interval < 1 → intervalOf interval = intervalOf 1 := by
    intro h; unfold intervalOf; rw [if_pos h, if_neg (by decide)]
  refine ⟨fun hi => ?_, fun hi => ?_, ?_, by decide⟩
  · unfold weekly; rw [h hi]
  · unfold monthly; rw [h hi]
  · unfold weekly; rfl

end Verif
