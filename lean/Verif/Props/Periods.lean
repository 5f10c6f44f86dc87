import Verif.Model.Periods
import Verif.Lemmas.Calendar
import Verif.Lemmas.Aggregate
/-
C60: periods of the aggregated register.
-/
namespace Verif

theorem goDate_add (y m d k : Int) : goDate y m (d + k) = goDate y m d + k := by unfold goDate; simp only; omega

theorem addDate_days (n k : Int) : addDate n 0 0 k = n + k := by
  unfold addDate
  rw [Int.add_zero, Int.add_zero, goDate_add, goDate_parts]

/-- Start of a month in the year. -/
theorem goDate_first (y m : Int) (hm : 1 ≤ m ∧ m ≤ 12) : goDate y m 1 = yearStart y + monthStart (isLeap y) m := by
  unfold goDate
  simp only
  have e1 : (m - 1) / 12 = 0 := by omega
  have e2 : (m - 1) % 12 + 1 = m := by omega
  rw [e1, e2, Int.add_zero]; omega

theorem daysIn_pos (leap : Bool) (m : Int) : 1 ≤ daysIn leap m := by
  unfold daysIn; split_ifs <;> omega

theorem first_parts (y m : Int) (hm : 1 ≤ m ∧ m ≤ 12) :
    goYear (goDate y m 1) = y ∧ goMonth (goDate y m 1) = m ∧ goDay (goDate y m 1) = 1 :=
  goDate_valid y m 1 hm ⟨by omega, daysIn_pos _ _⟩

theorem goDate_next_month (y m : Int) (hm : 1 ≤ m ∧ m ≤ 12) : goDate y (m + 1) 1 = goDate y m 1 + daysIn (isLeap y) m := by
  by_cases h : m < 12
  · rw [goDate_first _ _ hm, goDate_first _ _ ⟨by omega, by omega⟩]
    have h1 := monthStart_table (isLeap y) m hm _ rfl
    have h2 := monthStart_table (isLeap y) (m + 1) ⟨by omega, by omega⟩ _ rfl
    have hk := leapK (isLeap y)
    generalize (if isLeap y = true then (1:Int) else 0) = k at *
    omega
  · have : m = 12 := by omega
    subst this
    have e : goDate y (12 + 1) 1 = yearStart (y + 1) := by
      have e1 : ((12:Int) + 1 - 1) / 12 = 1 := by decide
      have e2 : ((12:Int) + 1 - 1) % 12 + 1 = 1 := by decide
      unfold goDate; simp only; rw [e1, e2]; simp [monthStart]
    rw [e, goDate_first _ _ hm]
    have h1 := monthStart_table (isLeap y) 12 hm _ rfl
    have hl := yearLen y
    generalize (if isLeap y = true then (1:Int) else 0) = k at *
    omega

theorem goMonth_mono {a b : Int} (hy : goYear a = goYear b) (h : a ≤ b) : goMonth a ≤ goMonth b := by
  unfold goMonth; rw [hy]; exact monthOf_mono _ (by omega)

/-- Months of a year are in order. -/
theorem first_mono {y m m' : Int} (hm : 1 ≤ m) (hm' : m' ≤ 12) (h : m ≤ m') : goDate y m 1 ≤ goDate y m' 1 := by
  rw [goDate_first _ _ ⟨hm, by omega⟩, goDate_first _ _ ⟨by omega, hm'⟩]
  have h1 := monthStart_table (isLeap y) m ⟨hm, by omega⟩ _ rfl
  have h2 := monthStart_table (isLeap y) m' ⟨by omega, hm'⟩ _ rfl
  have hk := leapK (isLeap y)
  generalize (if isLeap y = true then (1:Int) else 0) = k at *
  omega

theorem first_year_lt {y y' m m' : Int} (hm : 1 ≤ m ∧ m ≤ 12) (hm' : 1 ≤ m' ∧ m' ≤ 12) (h : y < y') : goDate y m 1 < goDate y' m' 1 := by
  rw [goDate_first _ _ hm, goDate_first _ _ hm']
  have b1 := monthStart_bounds (isLeap y) m hm
  have b2 := monthStart_bounds (isLeap y') m' hm'
  have hl := yearLen y
  have := daysIn_pos (isLeap y) m
  have h2 : yearStart (y + 1) ≤ yearStart y' := by
    have := yearStart_mono (y := y + 1) (z := y') (by omega)
    omega
  omega

/-- A reducer that maps a day to the first day of a month `g` of its year is monotone if `g` is. -/
theorem reduce_mono (g : Int → Int) (hg : ∀ m, 1 ≤ m ∧ m ≤ 12 → 1 ≤ g m ∧ g m ≤ m) (hgm : ∀ m m', m ≤ m' → g m ≤ g m') {a b : Int} (h : a ≤ b) :
    goDate (goYear a) (g (goMonth a)) 1 ≤ goDate (goYear b) (g (goMonth b)) 1 := by
  have ra := goParts_range a
  have rb := goParts_range b
  have ga := hg _ ⟨ra.1, ra.2.1⟩
  have gb := hg _ ⟨rb.1, rb.2.1⟩
  have hy := goYear_mono h
  rcases Int.lt_or_eq_of_le hy with hlt | heq
  · exact Int.le_of_lt (first_year_lt ⟨ga.1, by omega⟩ ⟨gb.1, by omega⟩ hlt)
  · rw [heq]
    exact first_mono ga.1 (by omega) (hgm _ _ (goMonth_mono heq h))

/-- **C60** Weeks: the reduction of a day is the Sunday on or before it (the only Sunday among the day and the six before). -/
theorem C60_week (t : Int) : weekday (weekReduce t) = 0 ∧ weekReduce t ≤ t ∧ t < weekReduce t + 7 ∧ weekReduce (weekReduce t) = weekReduce t := by
  have e : ∀ t, weekReduce t = t - weekday t := by
    intro t; unfold weekReduce; simp only; rw [addDate_days, goDate_parts]; omega
  rw [e (weekReduce t), e t]
  unfold weekday
  omega

/-- **C60** Weeks are in order, and two days have the same week exactly when no Sunday separates them: both lie within seven days
starting with a Sunday. -/
theorem C60_week_order (a b : Int) : (a ≤ b → weekReduce a ≤ weekReduce b) ∧
    (weekReduce a = weekReduce b ↔ ∃ s, weekday s = 0 ∧ s ≤ a ∧ a < s + 7 ∧ s ≤ b ∧ b < s + 7) := by
  have e : ∀ t, weekReduce t = t - weekday t := by
    intro t; unfold weekReduce; simp only; rw [addDate_days, goDate_parts]; omega
  have ha := C60_week a
  have hb := C60_week b
  refine ⟨by rw [e, e]; unfold weekday; omega, ?_, ?_⟩
  · intro h
    exact ⟨weekReduce a, ha.1, ha.2.1, ha.2.2.1, by omega, by omega⟩
  · rintro ⟨s, h0, h1, h2, h3, h4⟩
    rw [e, e]; unfold weekday at *; omega

/-- **C60** Months: the reduction is the first day of the same month, and the day is in that month. -/
theorem C60_month (t : Int) : goYear (monthReduce t) = goYear t ∧ goMonth (monthReduce t) = goMonth t ∧ goDay (monthReduce t) = 1 ∧
    monthReduce t ≤ t ∧ t < goDate (goYear t) (goMonth t + 1) 1 ∧ monthReduce (monthReduce t) = monthReduce t := by
  have r := goParts_range t
  obtain ⟨f1, f2, f3⟩ := first_parts (goYear t) (goMonth t) ⟨r.1, r.2.1⟩
  have hp := goDate_parts t
  have hk : goDate (goYear t) (goMonth t) (goDay t) = goDate (goYear t) (goMonth t) 1 + (goDay t - 1) := by
    rw [← goDate_add]; congr 1; omega
  refine ⟨f1, f2, f3, ?_, ?_, ?_⟩
  · unfold monthReduce; omega
  · rw [goDate_next_month _ _ ⟨r.1, r.2.1⟩]; omega
  · unfold monthReduce at *; rw [f1, f2]

theorem C60_month_order (a b : Int) : (a ≤ b → monthReduce a ≤ monthReduce b) ∧
    (monthReduce a = monthReduce b ↔ goYear a = goYear b ∧ goMonth a = goMonth b) := by
  have ha := C60_month a
  have hb := C60_month b
  refine ⟨fun h => reduce_mono id (fun m hm => ⟨hm.1, Int.le_refl _⟩) (fun _ _ h => h) h, ?_, ?_⟩
  · intro h
    rw [← ha.1, ← hb.1, ← ha.2.1, ← hb.2.1, h]; exact ⟨rfl, rfl⟩
  · rintro ⟨h1, h2⟩; unfold monthReduce; rw [h1, h2]

theorem quarter_first (m : Int) (hm : 1 ≤ m ∧ m ≤ 12) : Int.tdiv (m - 1) 3 * 3 + 1 = (m - 1) / 3 * 3 + 1 := by
  rw [Int.tdiv_eq_ediv_of_nonneg (by omega)]

/-- **C60** Quarters: the reduction is the first day of January, April, July or October, and the day is in the three months from
it. -/
theorem C60_quarter (t : Int) : goYear (quarterReduce t) = goYear t ∧ goMonth (quarterReduce t) = (goMonth t - 1) / 3 * 3 + 1 ∧
    goDay (quarterReduce t) = 1 ∧ quarterReduce t ≤ t ∧ t < goDate (goYear t) ((goMonth t - 1) / 3 * 3 + 4) 1 ∧
    quarterReduce (quarterReduce t) = quarterReduce t := by
  have r := goParts_range t
  have hr : 1 ≤ goMonth t ∧ goMonth t ≤ 12 := ⟨r.1, r.2.1⟩
  have hq : 1 ≤ (goMonth t - 1) / 3 * 3 + 1 ∧ (goMonth t - 1) / 3 * 3 + 1 ≤ 12 := by omega
  have hm := C60_month t
  have e : quarterReduce t = goDate (goYear t) ((goMonth t - 1) / 3 * 3 + 1) 1 := by
    unfold quarterReduce; rw [quarter_first _ hr]
  obtain ⟨f1, f2, f3⟩ := first_parts (goYear t) ((goMonth t - 1) / 3 * 3 + 1) hq
  rw [← e] at f1 f2 f3
  refine ⟨f1, f2, f3, ?_, ?_, ?_⟩
  · have := first_mono (y := goYear t) hq.1 hr.2 (by omega : (goMonth t - 1) / 3 * 3 + 1 ≤ goMonth t)
    have h4 := hm.2.2.2.1
    unfold monthReduce at h4
    rw [e]; omega
  · have h5 := hm.2.2.2.2.1
    generalize hg : (goMonth t - 1) / 3 * 3 + 4 = q at *
    by_cases hq12 : q ≤ 12
    · have := first_mono (y := goYear t) (m := goMonth t + 1) (m' := q) (by omega) hq12 (by omega)
      omega
    · have hq13 : q = 12 + 1 := by omega
      rw [hq13, goDate_next_month _ _ ⟨by omega, by omega⟩]
      rw [goDate_next_month _ _ hr] at h5
      have h1 := monthStart_table (isLeap (goYear t)) (goMonth t) hr _ rfl
      have h2 := monthStart_table (isLeap (goYear t)) 12 ⟨by omega, by omega⟩ _ rfl
      rw [goDate_first _ _ hr] at h5
      rw [goDate_first _ _ ⟨by omega, by omega⟩]
      generalize (if isLeap (goYear t) = true then (1:Int) else 0) = k at *
      omega
  · have : quarterReduce (quarterReduce t) = goDate (goYear t) ((goMonth t - 1) / 3 * 3 + 1) 1 := by
      show goDate (goYear (quarterReduce t)) (Int.tdiv (goMonth (quarterReduce t) - 1) 3 * 3 + 1) 1 = _
      rw [f1, f2, quarter_first _ hq]
      congr 1
      omega
    rw [this, e]

theorem C60_quarter_order (a b : Int) : (a ≤ b → quarterReduce a ≤ quarterReduce b) ∧
    (quarterReduce a = quarterReduce b ↔ goYear a = goYear b ∧ (goMonth a - 1) / 3 = (goMonth b - 1) / 3) := by
  have ha := C60_quarter a
  have hb := C60_quarter b
  have ra := goParts_range a
  have rb := goParts_range b
  have e : ∀ t, quarterReduce t = goDate (goYear t) ((goMonth t - 1) / 3 * 3 + 1) 1 := by
    intro t; have r := goParts_range t; unfold quarterReduce; rw [quarter_first _ ⟨r.1, r.2.1⟩]
  refine ⟨fun h => ?_, ?_, ?_⟩
  · rw [e, e]
    exact reduce_mono (fun m => (m - 1) / 3 * 3 + 1) (fun m hm => by constructor <;> omega) (fun m m' h => by omega) h
  · intro h
    refine ⟨by rw [← ha.1, ← hb.1, h], ?_⟩
    have := ha.2.1
    rw [h, hb.2.1] at this; omega
  · rintro ⟨h1, h2⟩; rw [e, e, h1, h2]

/-- **C60** Years. -/
theorem C60_year (t : Int) : goYear (yearReduce t) = goYear t ∧ goMonth (yearReduce t) = 1 ∧ goDay (yearReduce t) = 1 ∧
    yearReduce t ≤ t ∧ t < goDate (goYear t + 1) 1 1 ∧ yearReduce (yearReduce t) = yearReduce t := by
  obtain ⟨f1, f2, f3⟩ := first_parts (goYear t) 1 ⟨by omega, by omega⟩
  obtain ⟨g1, g2⟩ := goYear_spec t
  have e : ∀ y, goDate y 1 1 = yearStart y := by intro y; rw [goDate_first _ _ ⟨by omega, by omega⟩]; simp [monthStart]
  refine ⟨f1, f2, f3, ?_, ?_, ?_⟩
  · unfold yearReduce; rw [e]; exact g1
  · rw [e]; exact g2
  · unfold yearReduce at *; rw [f1]

theorem C60_year_order (a b : Int) : (a ≤ b → yearReduce a ≤ yearReduce b) ∧ (yearReduce a = yearReduce b ↔ goYear a = goYear b) := by
  have ha := C60_year a
  have hb := C60_year b
  refine ⟨fun h => reduce_mono (fun _ => 1) (fun m hm => ⟨by simp, hm.1⟩) (fun _ _ _ => Int.le_refl _) h, ?_, ?_⟩
  · intro h; rw [← ha.1, ← hb.1, h]
  · intro h; unfold yearReduce; rw [h]

/-- All four reducers keep the order of dates, as the theorems about the aggregated register require. -/
theorem C60_reducers_monotone (cat : Option (PRef → Str)) :
    MonoRed ⟨some weekReduce, cat⟩ ∧ MonoRed ⟨some monthReduce, cat⟩ ∧ MonoRed ⟨some quarterReduce, cat⟩ ∧ MonoRed ⟨some yearReduce, cat⟩ ∧
    MonoRed ⟨none, cat⟩ := by
  refine ⟨?_, ?_, ?_, ?_, ?_⟩ <;> intro r hr x y hxy
  · simp only [Option.mem_some_iff] at hr; subst hr; exact (C60_week_order x y).1 hxy
  · simp only [Option.mem_some_iff] at hr; subst hr; exact (C60_month_order x y).1 hxy
  · simp only [Option.mem_some_iff] at hr; subst hr; exact (C60_quarter_order x y).1 hxy
  · simp only [Option.mem_some_iff] at hr; subst hr; exact (C60_year_order x y).1 hxy
  · simp at hr

/-! Concrete dates: 2024/02/29 (a Thursday) and around. -/
example : weekday (goDate 2024 2 29) = 4 ∧ weekReduce (goDate 2024 2 29) = goDate 2024 2 25 ∧ monthReduce (goDate 2024 2 29) = goDate 2024 2 1 ∧
    quarterReduce (goDate 2024 5 31) = goDate 2024 4 1 ∧ yearReduce (goDate 2024 12 31) = goDate 2024 1 1 ∧
    goDate 2023 2 29 = goDate 2023 3 1 ∧ goDate 2023 13 1 = goDate 2024 1 1 ∧ goYear (goDate 0 3 1) = 0 := by decide +kernel

end Verif
