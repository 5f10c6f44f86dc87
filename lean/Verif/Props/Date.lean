import Verif.Lemmas.Date
import Verif.Props.Periods
/-
C56-C59, C73, C74: what date texts mean. `dateSet today s` is the value `(*Date).Set(s)` stores (or its error) when the globals
`Year, Month, Day` are `today`; dates are day numbers, `goYear`, `goMonth`, `goDay` their calendar parts.
-/
namespace Verif

theorem date_run {t off rest : Str} {c c1 c2 : Caps} (h1 : RunsTo (.opt ymdRe) t (off ++ rest) c c1)
    (h2 : RunsTo (.opt offsetRe) off rest c1 c2) : RunsTo dateRe (t ++ off) rest c ((str "date", t ++ off) :: c2) :=
  RunsTo.grp (RunsTo.seq h1 h2)

theorem date_matches {t off : Str} {c1 c2 : Caps} (h1 : RunsTo (.opt ymdRe) t off [] c1) (h2 : RunsTo (.opt offsetRe) off [] c1 c2) :
    dateRe.matches (t ++ off) = some ((str "date", t ++ off) :: c2) := by
  have := (date_run (rest := []) (by simpa using h1) h2).matches
  simpa using this

theorem date_matches0 {t : Str} {c1 : Caps} (h1 : RunsTo (.opt ymdRe) t [] [] c1) : dateRe.matches t = some ((str "date", t) :: c1) := by
  have := date_matches h1 (noOffset_run (rest := []) (by intro x t h; cases h) c1)
  simpa using this

/-- The texts that denote a date without offset: y/m/d (year of two or four digits), m/d, yyyy/m and yyyy. -/
inductive DateText : Str → Prop
  | ymd {y m d : Str} : Dig24 y → Dig12 m → Dig12 d → DateText (y ++ '/' :: (m ++ '/' :: d))
  | md {m d : Str} : Dig12 m → Dig12 d → DateText (m ++ '/' :: d)
  | ym {y m : Str} : Dig4 y → Dig12 m → DateText (y ++ '/' :: m)
  | y {y : Str} : Dig4 y → DateText y

theorem Dig24.ne_nil {s : Str} (h : Dig24 s) : s ≠ [] := by rintro rfl; have := h.2; simp at this
theorem Dig12.ne_nil {s : Str} (h : Dig12 s) : s ≠ [] := by rintro rfl; have := h.2; simp at this
theorem Dig4.ne_nil {s : Str} (h : Dig4 s) : s ≠ [] := by rintro rfl; have := h.2; simp at this

theorem base_ymd {y m d : Str} (today : Today) {c : Caps} (h1 : c.get (str "ymd") ≠ []) (hy : c.get (str "ymdy") = y) (hy0 : y ≠ [])
    (hm : c.get (str "ymdm") = m) (hd : c.get (str "ymdd") = d) :
    dateBase today c = some (if (strNat y : Int) < 100 then fullYear today.y (strNat y) else strNat y, (strNat m : Int), (strNat d : Int)) := by
  unfold dateBase
  simp only [hy, hm, hd]
  rw [if_pos h1, if_pos hy0]

theorem base_md {m d : Str} (today : Today) {c : Caps} (h1 : c.get (str "ymd") ≠ []) (hy : c.get (str "ymdy") = [])
    (hm : c.get (str "ymdm") = m) (hd : c.get (str "ymdd") = d) :
    dateBase today c = some (closeYear today.y today.m (strNat m), (strNat m : Int), (strNat d : Int)) := by
  unfold dateBase
  simp only [hy, hm, hd]
  rw [if_pos h1, if_neg (by simp)]

theorem set_ymd (today : Today) {y m d : Str} (hy : Dig24 y) (hm : Dig12 m) (hd : Dig12 d) :
    dateSet today (y ++ '/' :: (m ++ '/' :: d)) =
      .ok (goDate (if (strNat y : Int) < 100 then fullYear today.y (strNat y) else strNat y) (strNat m) (strNat d)) := by
  unfold dateSet
  rw [date_matches0 (ymd_run hy hm hd DateEnd.nil [])]
  simp only
  unfold parseDate
  rw [base_ymd (y := y) (m := m) (d := d) today (by simp [Caps.get, str]) (by simp [Caps.get, str]) hy.ne_nil (by simp [Caps.get, str]) (by simp [Caps.get, str])]
  simp [Caps.get, str, applyOffset]

theorem set_md (today : Today) {m d : Str} (hm : Dig12 m) (hd : Dig12 d) :
    dateSet today (m ++ '/' :: d) = .ok (goDate (closeYear today.y today.m (strNat m)) (strNat m) (strNat d)) := by
  unfold dateSet
  rw [date_matches0 (md_run hm hd DateEnd.nil [])]
  simp only
  unfold parseDate
  rw [base_md (m := m) (d := d) today (by simp [Caps.get, str]) (by simp [Caps.get, str]) (by simp [Caps.get, str]) (by simp [Caps.get, str])]
  simp [Caps.get, str, applyOffset]

/-! ### C56 -/

/-- C56: a printed date reads back, for every date of the years 0 to 9999 and whatever today is. -/
def C56_Statement : Prop :=
  ∀ (today : Today) (n : Int), 0 ≤ goYear n → goYear n ≤ 9999 → dateSet today (formatDate n) = .ok n

/-- The year 50 is printed as 0050 and read as a two digit year. -/
theorem C56_dates_violated : ¬ C56_Statement := by
  intro h
  have := h ⟨2024, 1, 1⟩ (goDate 50 1 1) (by decide) (by decide)
  exact absurd this (by decide +kernel)

/-- The printed form: four, two and two digits. -/
theorem formatDate_digits (n : Int) (h0 : 0 ≤ goYear n) (h1 : goYear n ≤ 9999) : ∃ y m d : Str, formatDate n = y ++ '/' :: (m ++ '/' :: d) ∧
    Dig4 y ∧ (Digits m ∧ m.length = 2) ∧ (Digits d ∧ d.length = 2) ∧ (strNat y : Int) = goYear n ∧ (strNat m : Int) = goMonth n ∧
    (strNat d : Int) = goDay n := by
  have r := goParts_range n
  have hb := monthStart_bounds (isLeap (goYear n)) (goMonth n) ⟨r.1, r.2.1⟩
  obtain ⟨y1, y2, y3⟩ := padInt_spec (x := goYear n) (w := 4) h0 (by decide) (by omega)
  obtain ⟨m1, m2, m3⟩ := padInt_spec (x := goMonth n) (w := 2) (by omega) (by decide) (by omega)
  obtain ⟨d1, d2, d3⟩ := padInt_spec (x := goDay n) (w := 2) (by omega) (by decide) (by omega)
  exact ⟨_, _, _, by unfold formatDate; simp, ⟨y1, y2⟩, ⟨m1, m2⟩, ⟨d1, d2⟩, y3, m3, d3⟩

/-- C56 for the years 100 to 9999 (missing: the years 0 to 99). -/
theorem C56_dates_partial (today : Today) (n : Int) (h0 : 100 ≤ goYear n) (h1 : goYear n ≤ 9999) :
    dateSet today (formatDate n) = .ok n := by
  obtain ⟨y, m, d, e, hy, hm, hd, ey, em, ed⟩ := formatDate_digits n (by omega) h1
  rw [e, set_ymd today ⟨hy.1, .inr hy.2⟩ ⟨hm.1, .inr hm.2⟩ ⟨hd.1, .inr hd.2⟩, ey, em, ed, if_neg (by omega), goDate_parts]

/-- Printed forms are different for different dates. -/
theorem C56_print_injective (a b : Int) (ha : 0 ≤ goYear a ∧ goYear a ≤ 9999) (hb : 0 ≤ goYear b ∧ goYear b ≤ 9999)
    (h : formatDate a = formatDate b) : a = b := by
  obtain ⟨y, m, d, e, hy, hm, hd, ey, em, ed⟩ := formatDate_digits a ha.1 ha.2
  obtain ⟨y', m', d', e', hy', hm', hd', ey', em', ed'⟩ := formatDate_digits b hb.1 hb.2
  rw [e, e'] at h
  obtain ⟨rfl, h2⟩ := digits_span hy.1 hy'.1 slash_noDigit slashTail h
  simp only [List.cons.injEq, true_and] at h2
  obtain ⟨rfl, h3⟩ := digits_span hm'.1 hm.1 slash_noDigit slashTail h2
  simp only [List.cons.injEq, true_and] at h3
  subst h3
  rw [← goDate_parts a, ← goDate_parts b, ← ey, ← em, ← ed, ← ey', ← em', ← ed']

example : formatDate (goDate 2024 2 29) = str "2024/02/29" := by decide +kernel
example : dateSet ⟨1987, 6, 5⟩ (str "2024/02/29") = .ok (goDate 2024 2 29) := by decide +kernel

/-! ### C57 -/

/-- C57: a two digit year is a closest year with those last digits, whatever the current (non-negative) year. -/
def C57_Statement : Prop :=
  ∀ (today : Today), 0 ≤ today.y → ∀ y m d : Str, Digits y → y.length = 2 → Dig12 m → Dig12 d →
    ∃ yr : Int, dateSet today (y ++ '/' :: (m ++ '/' :: d)) = .ok (goDate yr (strNat m) (strNat d)) ∧
      yr % 100 = strNat y ∧ ∀ z : Int, z % 100 = strNat y → (yr - today.y).natAbs ≤ (z - today.y).natAbs

/-- In 1999, 99 means 1199. -/
theorem C57_two_digits_violated : ¬ C57_Statement := by
  intro h
  obtain ⟨yr, h1, _, h3⟩ := h ⟨1999, 6, 1⟩ (by decide) (str "99") (str "1") (str "1") (by unfold Digits; decide) (by decide)
    ⟨by unfold Digits; decide, by decide⟩ ⟨by unfold Digits; decide, by decide⟩
  have h2 : dateSet ⟨1999, 6, 1⟩ (str "99" ++ '/' :: (str "1" ++ '/' :: str "1")) = .ok (goDate 1199 1 1) := by decide +kernel
  rw [h2] at h1
  have e : goDate 1199 1 1 = goDate yr 1 1 := by
    have : (strNat (str "1") : Int) = 1 := by decide
    rw [this] at h1; exact Except.ok.inj h1
  have e2 := (first_parts yr 1 ⟨by omega, by omega⟩).1
  rw [← e, (first_parts 1199 1 ⟨by omega, by omega⟩).1] at e2
  have := h3 1999 (by decide)
  rw [← e2] at this
  exact absurd this (by decide)

/-- C57 when the current year is at most 150 years into its millennium, such as 2000 to 2150 (missing: other years, where the
nearest century of the millennium's begin is taken). Of two years equally close, the one in the first century of the millennium. -/
theorem C57_two_digits_partial (today : Today) (h0 : 0 ≤ today.y) (h1 : today.y % 1000 ≤ 150) (y m d : Str) (hy : Digits y) (hl : y.length = 2)
    (hm : Dig12 m) (hd : Dig12 d) : ∃ yr : Int, dateSet today (y ++ '/' :: (m ++ '/' :: d)) = .ok (goDate yr (strNat m) (strNat d)) ∧
      yr % 100 = strNat y ∧ (∀ z : Int, z % 100 = strNat y → (yr - today.y).natAbs ≤ (z - today.y).natAbs) ∧
      ((yr - today.y).natAbs = 50 → today.y % 1000 < 150 → yr % 1000 < 100) := by
  have hlt : strNat y < 100 := by
    have := strNat_lt y (List.all_eq_true.mpr hy); rw [hl] at this; simpa using this
  refine ⟨fullYear today.y (strNat y), ?_, ?_, ?_, ?_⟩
  · rw [set_ymd today ⟨hy, .inl hl⟩ hm hd, if_pos (by exact_mod_cast hlt)]
  · unfold fullYear
    simp only
    rw [Int.tdiv_eq_ediv_of_nonneg h0]
    split_ifs <;> omega
  · intro z hz
    unfold fullYear
    simp only
    rw [Int.tdiv_eq_ediv_of_nonneg h0]
    split_ifs <;> omega
  · unfold fullYear
    simp only
    rw [Int.tdiv_eq_ediv_of_nonneg h0]
    split_ifs <;> omega

example : dateSet ⟨2024, 6, 1⟩ (str "99/5/17") = .ok (goDate 1999 5 17) := by decide +kernel
example : dateSet ⟨2024, 6, 1⟩ (str "31/5/17") = .ok (goDate 2031 5 17) := by decide +kernel

/-! ### C58 -/

/-- C58: without a year the text means the given day in the year for which the month is closest to the current month; half a year away
it is the current year. -/
theorem C58_omitted_year (today : Today) (hM : 1 ≤ today.m ∧ today.m ≤ 12) (m d : Str) (hm : Dig12 m) (hd : Dig12 d)
    (hm12 : 1 ≤ strNat m ∧ strNat m ≤ 12) : ∃ yr : Int, dateSet today (m ++ '/' :: d) = .ok (goDate yr (strNat m) (strNat d)) ∧
      (∀ z : Int, (12 * (yr - today.y) + (strNat m - today.m)).natAbs ≤ (12 * (z - today.y) + (strNat m - today.m)).natAbs) ∧
      ((12 * (yr - today.y) + (strNat m - today.m)).natAbs = 6 → yr = today.y) := by
  refine ⟨_, set_md today hm hd, ?_, ?_⟩
  · intro z
    unfold closeYear
    split_ifs <;> omega
  · unfold closeYear
    split_ifs <;> omega

example : dateSet ⟨2024, 1, 10⟩ (str "12/25") = .ok (goDate 2023 12 25) := by decide +kernel
example : dateSet ⟨2024, 12, 10⟩ (str "1/5") = .ok (goDate 2025 1 5) := by decide +kernel

/-! ### C73 -/

/-- C73: a year and month mean the first day of the month, a year alone its first day. -/
theorem C73_month_and_year (today : Today) (y m : Str) (hy : Dig4 y) (hm : Dig12 m) :
    dateSet today (y ++ '/' :: m) = .ok (goDate (strNat y) (strNat m) 1) ∧ dateSet today y = .ok (goDate (strNat y) 1 1) := by
  constructor
  · unfold dateSet
    rw [date_matches0 (ym_run hy hm DateEnd.nil [])]
    simp only
    unfold parseDate dateBase
    simp [Caps.get, str, applyOffset, hm.ne_nil]
  · unfold dateSet
    rw [date_matches0 (y_run hy DateEnd.nil [])]
    simp only
    unfold parseDate dateBase
    simp [Caps.get, str, applyOffset, hy.ne_nil]

example : dateSet ⟨2024, 1, 10⟩ (str "1997") = .ok (goDate 1997 1 1) ∧ dateSet ⟨2024, 1, 10⟩ (str "1997/7") = .ok (goDate 1997 7 1) := by
  decide +kernel

/-! ### C59 -/

/-- The number of an offset. -/
def offsetNumber (sign : Char) (ds : Str) : Int := if sign = '-' then -(strNat ds : Int) else strNat ds

/-- The date an offset starts from: that of the text before it, or today. -/
def BaseDate (today : Today) (t : Str) (b : Int) : Prop :=
  (t = [] ∧ b = goDate today.y today.m today.d) ∨ (DateText t ∧ dateSet today t = .ok b)

/-- `f` is the first day of the month that is `n` months after the month of `b`. -/
def MonthsAfter (b n f : Int) : Prop := goDay f = 1 ∧ 12 * goYear f + goMonth f = 12 * goYear b + goMonth b + n

theorem signedAtoi_offset {sign : Char} {ds : Str} (hs : sign = '+' ∨ sign = '-') : signedAtoi (sign :: ds) = offsetNumber sign ds := by
  rcases hs with rfl | rfl <;> simp [signedAtoi, offsetNumber]

theorem dateBase_congr (today : Today) {c c' : Caps} (h1 : c'.get (str "ymd") = c.get (str "ymd")) (h2 : c'.get (str "ymdy") = c.get (str "ymdy"))
    (h3 : c'.get (str "ymdm") = c.get (str "ymdm")) (h4 : c'.get (str "ymdd") = c.get (str "ymdd")) (h5 : c'.get (str "ym") = c.get (str "ym"))
    (h6 : c'.get (str "ymy") = c.get (str "ymy")) (h7 : c'.get (str "ymm") = c.get (str "ymm"))
    (h : c.get (str "ymd") ≠ [] ∨ c.get (str "ym") ≠ []) : dateBase today c' = dateBase today c := by
  unfold dateBase
  rw [h1, h2, h3, h4, h5, h6, h7]
  by_cases hy : c.get (str "ymd") = []
  · simp [hy] at h; simp [hy, h]
  · simp [hy]

theorem DateText.run {t : Str} (h : DateText t) : ∃ c1 : Caps, (∀ rest, DateEnd rest → RunsTo (.opt ymdRe) t rest [] c1) ∧
    c1.get (str "offset") = [] ∧ (c1.get (str "ymd") ≠ [] ∨ c1.get (str "ym") ≠ []) := by
  cases h with
  | ymd hy hm hd => exact ⟨_, fun rest hr => ymd_run hy hm hd hr [], by simp [Caps.get, str], by simp [Caps.get, str]⟩
  | md hm hd => exact ⟨_, fun rest hr => md_run hm hd hr [], by simp [Caps.get, str], by simp [Caps.get, str]⟩
  | ym hy hm => exact ⟨_, fun rest hr => ym_run hy hm hr [], by simp [Caps.get, str], by simp [Caps.get, str]⟩
  | y hy => exact ⟨_, fun rest hr => y_run hy hr [], by simp [Caps.get, str], by simp [Caps.get, str, hy.ne_nil]⟩

theorem signNotDigit {sign : Char} (hs : sign = '+' ∨ sign = '-') : isDigit sign = false ∧ sign ≠ '/' := by
  rcases hs with rfl | rfl <;> decide

theorem get_cons_ne {n m v : Str} {c : Caps} (h : n ≠ m) : Caps.get ((n, v) :: c) m = c.get m := by
  simp [Caps.get, h]

theorem set_offset (today : Today) {t ds : Str} {b : Int} {sign u : Char} (hb : BaseDate today t b) (hs : sign = '+' ∨ sign = '-') (hne : ds ≠ [])
    (hds : Digits ds) (hu : isUnit u = true) : dateSet today (t ++ sign :: (ds ++ [u])) = .ok (applyOffset b (sign :: (ds ++ [u]))) := by
  rcases hb with ⟨rfl, rfl⟩ | ⟨ht, hb⟩
  · have h1 : RunsTo (.opt ymdRe) [] (sign :: (ds ++ [u])) [] [] :=
      noYmd_run (by intro x t e; cases e; exact (signNotDigit hs).1) []
    unfold dateSet
    rw [date_matches h1 (offset_run hs hne hds hu [])]
    simp only
    unfold parseDate dateBase
    simp [Caps.get, str]
  · obtain ⟨c1, h1, h2, h3⟩ := ht.run
    have hm := date_matches (h1 (sign :: (ds ++ [u])) (by intro x t e; cases e; exact signNotDigit hs)) (offset_run hs hne hds hu c1)
    unfold dateSet at hb ⊢
    rw [date_matches0 (h1 [] DateEnd.nil)] at hb
    rw [hm]
    simp only at hb ⊢
    unfold parseDate at hb ⊢
    have e : dateBase today ((str "date", t ++ sign :: (ds ++ [u])) :: (str "offset", sign :: (ds ++ [u])) :: c1) =
        dateBase today ((str "date", t) :: c1) := by
      refine dateBase_congr today ?_ ?_ ?_ ?_ ?_ ?_ ?_ ?_ <;>
        repeat rw [get_cons_ne (by decide)]
      exact h3
    rw [e]
    cases hd : dateBase today ((str "date", t) :: c1) with
    | none => rw [hd] at hb; exact absurd hb (by simp)
    | some p =>
      rw [hd] at hb
      obtain ⟨y, m, d⟩ := p
      simp only [Except.ok.injEq] at hb ⊢
      rw [get_cons_ne (by decide), h2] at hb
      have : goDate y m d = b := by simpa [applyOffset] using hb
      rw [this, get_cons_ne (by decide)]
      simp [Caps.get, str]

/-- The result of adding months is the day of the month counted from the first of the target month. -/
theorem addDate_months (b n : Int) : ∃ f, MonthsAfter b n f ∧ addDate b 0 n 0 = f + (goDay b - 1) := by
  have r := goParts_range b
  refine ⟨goDate (goYear b) (goMonth b + n) 1, ?_, ?_⟩
  · have e : goDate (goYear b) (goMonth b + n) 1 = goDate (goYear b + (goMonth b + n - 1) / 12) ((goMonth b + n - 1) % 12 + 1) 1 := by
      unfold goDate
      simp only
      have e1 : ((goMonth b + n - 1) % 12 + 1 - 1) / 12 = 0 := by omega
      have e2 : ((goMonth b + n - 1) % 12 + 1 - 1) % 12 = (goMonth b + n - 1) % 12 := by omega
      rw [e1, e2]; simp
    obtain ⟨p1, p2, p3⟩ := first_parts (goYear b + (goMonth b + n - 1) / 12) ((goMonth b + n - 1) % 12 + 1) (by omega)
    unfold MonthsAfter
    rw [e, p1, p2, p3]
    omega
  · unfold addDate
    rw [← goDate_add]
    have e1 : goYear b + 0 = goYear b := by omega
    have e2 : goDay b + 0 = 1 + (goDay b - 1) := by omega
    rw [e1, e2]

theorem addDate_years (b n : Int) : addDate b n 0 0 = addDate b 0 (12 * n) 0 := by
  unfold addDate goDate
  simp only
  have e1 : (goMonth b + 12 * n - 1) / 12 = (goMonth b - 1) / 12 + n := by omega
  have e2 : (goMonth b + 12 * n - 1) % 12 = (goMonth b - 1) % 12 := by omega
  simp only [Int.add_zero]
  rw [e1, e2, show goYear b + n + (goMonth b - 1) / 12 = goYear b + ((goMonth b - 1) / 12 + n) by omega]

/-- C59, days and weeks: `±n d` and `±n w` after a date (or alone, from today) move it by exactly n and 7n days. -/
theorem C59_days_weeks (today : Today) (t ds : Str) (b : Int) (sign : Char) (hb : BaseDate today t b) (hs : sign = '+' ∨ sign = '-')
    (hne : ds ≠ []) (hds : Digits ds) :
    dateSet today (t ++ sign :: (ds ++ ['d'])) = .ok (b + offsetNumber sign ds) ∧
    dateSet today (t ++ sign :: (ds ++ ['w'])) = .ok (b + 7 * offsetNumber sign ds) := by
  rw [set_offset today hb hs hne hds (by decide), set_offset today hb hs hne hds (by decide)]
  have l : ∀ u, (sign :: (ds ++ [u])).getLast? = some u := by intro u; rw [← List.cons_append, List.getLast?_concat]
  have dl : ∀ u, (sign :: (ds ++ [u])).dropLast = sign :: ds := by intro u; rw [← List.cons_append, List.dropLast_concat]
  unfold applyOffset
  simp only [l, dl, addDate_days, signedAtoi_offset hs]
  exact ⟨trivial, by rw [Int.mul_comm]⟩

/-- C59, months and years: `±n m` and `±n y` move to the same day of the month n and 12n months later, counted from the first day
of that month (so that a day the month does not have runs into the following month). -/
theorem C59_months_years (today : Today) (t ds : Str) (b : Int) (sign : Char) (hb : BaseDate today t b) (hs : sign = '+' ∨ sign = '-')
    (hne : ds ≠ []) (hds : Digits ds) :
    (∃ f, MonthsAfter b (offsetNumber sign ds) f ∧ dateSet today (t ++ sign :: (ds ++ ['m'])) = .ok (f + (goDay b - 1))) ∧
    (∃ f, MonthsAfter b (12 * offsetNumber sign ds) f ∧ dateSet today (t ++ sign :: (ds ++ ['y'])) = .ok (f + (goDay b - 1))) := by
  rw [set_offset today hb hs hne hds (by decide), set_offset today hb hs hne hds (by decide)]
  have l : ∀ u, (sign :: (ds ++ [u])).getLast? = some u := by intro u; rw [← List.cons_append, List.getLast?_concat]
  have dl : ∀ u, (sign :: (ds ++ [u])).dropLast = sign :: ds := by intro u; rw [← List.cons_append, List.dropLast_concat]
  unfold applyOffset
  simp only [l, dl, signedAtoi_offset hs]
  obtain ⟨f, h1, h2⟩ := addDate_months b (offsetNumber sign ds)
  obtain ⟨g, h3, h4⟩ := addDate_months b (12 * offsetNumber sign ds)
  exact ⟨⟨f, h1, by rw [h2]⟩, ⟨g, h3, by rw [addDate_years, h4]⟩⟩

/-- C59, months: when the target month has the day, that day of that month is the result. -/
theorem C59_same_day (b n f : Int) (hf : MonthsAfter b n f) (hd : goDay b ≤ daysIn (isLeap (goYear f)) (goMonth f)) :
    goYear (f + (goDay b - 1)) = goYear f ∧ goMonth (f + (goDay b - 1)) = goMonth f ∧ goDay (f + (goDay b - 1)) = goDay b := by
  have r := goParts_range f
  have rb := goParts_range b
  have e : f + (goDay b - 1) = goDate (goYear f) (goMonth f) (goDay b) := by
    conv_lhs => rw [← goDate_parts f, hf.1]
    rw [← goDate_add]; congr 1; omega
  rw [e]
  exact goDate_valid _ _ _ ⟨r.1, r.2.1⟩ ⟨rb.2.2.1, hd⟩

example : BaseDate ⟨2024, 1, 10⟩ (str "2023/12/31") (goDate 2023 12 31) := by
  refine .inr ⟨DateText.ymd (y := str "2023") (m := str "12") (d := str "31") ⟨?_, .inr rfl⟩ ⟨?_, .inr rfl⟩ ⟨?_, .inr rfl⟩, by decide +kernel⟩ <;>
    (unfold Digits; decide)
example : dateSet ⟨2024, 1, 10⟩ (str "2024/01/31+1m") = .ok (goDate 2024 3 2) ∧ dateSet ⟨2024, 1, 10⟩ (str "-2w") = .ok (goDate 2023 12 27) := by
  decide +kernel

/-! ### C74 -/

/-- C74: only whole date texts are accepted: one of the date forms, or nothing, followed by an optional offset. -/
def C74_Statement : Prop :=
  ∀ (today : Today) (s : Str) (n : Int), dateSet today s = .ok n →
    ∃ t off : Str, s = t ++ off ∧ (t = [] ∨ DateText t) ∧ (off = [] ∨ ∃ sign ds u, off = sign :: (ds ++ [u]) ∧ (sign = '+' ∨ sign = '-') ∧
      Digits ds ∧ isUnit u = true)

theorem DateText.chars {t : Str} (h : DateText t) : ∀ x ∈ t, isDigit x = true ∨ x = '/' := by
  intro x hx
  cases h with
  | ymd hy hm hd =>
    simp only [List.mem_append, List.mem_cons] at hx
    rcases hx with hx | rfl | hx | rfl | hx
    · exact .inl (hy.1 x hx)
    · exact .inr rfl
    · exact .inl (hm.1 x hx)
    · exact .inr rfl
    · exact .inl (hd.1 x hx)
  | md hm hd =>
    simp only [List.mem_append, List.mem_cons] at hx
    rcases hx with hx | rfl | hx
    · exact .inl (hm.1 x hx)
    · exact .inr rfl
    · exact .inl (hd.1 x hx)
  | ym hy hm =>
    simp only [List.mem_append, List.mem_cons] at hx
    rcases hx with hx | rfl | hx
    · exact .inl (hy.1 x hx)
    · exact .inr rfl
    · exact .inl (hm.1 x hx)
  | y hy => exact .inl (hy.1 x hx)

/-- Anything may follow a date. -/
theorem C74_strict_violated : ¬ C74_Statement := by
  intro h
  obtain ⟨t, off, e, h1, h2⟩ := h ⟨2024, 1, 10⟩ (str "2024/01/01x") (goDate 2024 1 1) (by decide +kernel)
  have hx : 'x' ∈ t ++ off := by rw [← e]; decide
  rcases List.mem_append.mp hx with hx | hx
  · rcases h1 with rfl | h1
    · simp at hx
    · rcases h1.chars _ hx with h | h
      · exact absurd h (by decide)
      · exact absurd h (by decide)
  · rcases h2 with rfl | ⟨sign, ds, u, rfl, hs, hds, hu⟩
    · simp at hx
    · simp only [List.mem_cons, List.mem_append, List.not_mem_nil, or_false] at hx
      rcases hx with rfl | hx | rfl
      · rcases hs with h | h <;> exact absurd h (by decide)
      · exact absurd (hds _ hx) (by decide)
      · exact absurd hu (by decide)

/-- C74, what is checked: a text that begins neither with a digit nor with a sign is rejected (missing: checks of the rest of the
text and of the ranges). -/
theorem C74_rejects_partial (today : Today) (s : Str) (h : ∀ x t, s = x :: t → isDigit x = false ∧ x ≠ '+' ∧ x ≠ '-') :
    dateSet today s = .error .err := by
  have h1 : RunsTo (.opt ymdRe) [] s [] [] := noYmd_run (fun x t e => (h x t e).1) []
  have h2 : RunsTo (.opt offsetRe) [] s [] [] := noOffset_run (fun x t e => (h x t e).2) []
  have := (date_run (t := []) (off := []) (rest := s) h1 h2).matches
  unfold dateSet
  rw [show dateRe.matches s = _ from this]
  simp [parseDate, dateBase, Caps.get, str]

example : dateSet ⟨2024, 1, 10⟩ (str "x2024/01/01") = .error .err ∧ dateSet ⟨2024, 1, 10⟩ (str "2024/02/30 and more") = .ok (goDate 2024 3 1) := by
  decide +kernel

end Verif
