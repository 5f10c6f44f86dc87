import Verif.Go.Calendar
import Mathlib.Tactic.Linarith
/-
The calendar functions are inverse to each other.
-/
namespace Verif

theorem yearStart_succ (y : Int) : yearStart (y + 1) = yearStart y + 365 + (if isLeap y then 1 else 0) := by
  unfold yearStart isLeap
  simp only [decide_eq_true_eq]
  split <;> omega

theorem yearStart_mono {y z : Int} (h : y ≤ z) : yearStart y + 365 * (z - y) ≤ yearStart z := by
  unfold yearStart; omega

theorem goYear_spec (n : Int) : yearStart (goYear n) ≤ n ∧ n < yearStart (goYear n + 1) := by
  unfold goYear yearStart
  simp only
  have h1 : 0 ≤ n % 146097 := Int.emod_nonneg _ (by norm_num)
  have h2 : n % 146097 < 146097 := Int.emod_lt_of_pos _ (by norm_num)
  have h3 := Int.mul_ediv_add_emod n 146097
  generalize hq : n / 146097 = q at *
  generalize hr : n % 146097 = r at *
  generalize hc : min (r / 36524) 3 = c
  have hc0 : 0 ≤ c ∧ c ≤ 3 ∧ 36524 * c ≤ r ∧ (c < 3 → r < 36524 * (c + 1)) := by omega
  generalize hr2 : r - 36524 * c = r2
  have hr2b : 0 ≤ r2 ∧ (c < 3 → r2 < 36524) ∧ (c = 3 → r2 < 36525) := by omega
  generalize hc4 : r2 / 1461 = c4
  generalize hr3 : r2 % 1461 = r3
  have hd := Int.mul_ediv_add_emod r2 1461
  rw [hc4, hr3] at hd
  have hr3b : 0 ≤ r3 ∧ r3 < 1461 := by omega
  have hc4b : 0 ≤ c4 ∧ c4 ≤ 24 := by omega
  generalize hc1 : min (r3 / 365) 3 = c1
  have hc1b : 0 ≤ c1 ∧ c1 ≤ 3 ∧ 365 * c1 ≤ r3 ∧ (c1 < 3 → r3 < 365 * (c1 + 1)) := by omega
  have hn : n = 146097 * q + 36524 * c + 1461 * c4 + r3 := by omega
  have e4 : (400 * q + 100 * c + 4 * c4 + c1 + 1 - 1) / 4 = 100 * q + 25 * c + c4 := by omega
  have e100 : (400 * q + 100 * c + 4 * c4 + c1 + 1 - 1) / 100 = 4 * q + c := by omega
  have e400 : (400 * q + 100 * c + 4 * c4 + c1 + 1 - 1) / 400 = q := by omega
  refine ⟨by rw [e4, e100, e400]; omega, ?_⟩
  by_cases h : c1 < 3
  · have f4 : (400 * q + 100 * c + 4 * c4 + c1 + 1 + 1 - 1) / 4 = 100 * q + 25 * c + c4 := by omega
    have f100 : (400 * q + 100 * c + 4 * c4 + c1 + 1 + 1 - 1) / 100 = 4 * q + c := by omega
    have f400 : (400 * q + 100 * c + 4 * c4 + c1 + 1 + 1 - 1) / 400 = q := by omega
    rw [f4, f100, f400]; omega
  · have hc13 : c1 = 3 := by omega
    subst hc13
    by_cases g : c4 < 24
    · have f4 : (400 * q + 100 * c + 4 * c4 + 3 + 1 + 1 - 1) / 4 = 100 * q + 25 * c + c4 + 1 := by omega
      have f100 : (400 * q + 100 * c + 4 * c4 + 3 + 1 + 1 - 1) / 100 = 4 * q + c := by omega
      have f400 : (400 * q + 100 * c + 4 * c4 + 3 + 1 + 1 - 1) / 400 = q := by omega
      rw [f4, f100, f400]; omega
    · have : c4 = 24 := by omega
      subst this
      by_cases k : c < 3
      · have f4 : (400 * q + 100 * c + 4 * 24 + 3 + 1 + 1 - 1) / 4 = 100 * q + 25 * c + 25 := by omega
        have f100 : (400 * q + 100 * c + 4 * 24 + 3 + 1 + 1 - 1) / 100 = 4 * q + c + 1 := by omega
        have f400 : (400 * q + 100 * c + 4 * 24 + 3 + 1 + 1 - 1) / 400 = q := by omega
        rw [f4, f100, f400]; omega
      · have : c = 3 := by omega
        subst this
        have f4 : (400 * q + 100 * 3 + 4 * 24 + 3 + 1 + 1 - 1) / 4 = 100 * q + 100 := by omega
        have f100 : (400 * q + 100 * 3 + 4 * 24 + 3 + 1 + 1 - 1) / 100 = 4 * q + 4 := by omega
        have f400 : (400 * q + 100 * 3 + 4 * 24 + 3 + 1 + 1 - 1) / 400 = q + 1 := by omega
        rw [f4, f100, f400]; omega

theorem yearStart_lt {y z : Int} : yearStart y < yearStart z ↔ y < z := by
  constructor
  · intro h; by_contra hc; have := yearStart_mono (y := z) (z := y) (by omega); omega
  · intro h; have := yearStart_mono (y := y) (z := z) (by omega); omega

/-- The year is determined by the bounds. -/
theorem goYear_unique {n y : Int} (h1 : yearStart y ≤ n) (h2 : n < yearStart (y + 1)) : goYear n = y := by
  obtain ⟨g1, g2⟩ := goYear_spec n
  have a : y < goYear n + 1 := yearStart_lt.mp (by omega)
  have b : goYear n < y + 1 := yearStart_lt.mp (by omega)
  omega

theorem monthChain_cases (k d : Int) (hk : 0 ≤ k ∧ k ≤ 1) :
    (d < 31 ∧ monthChain k d = 1) ∨ (31 ≤ d ∧ d < 59 + k ∧ monthChain k d = 2) ∨ (59 + k ≤ d ∧ d < 90 + k ∧ monthChain k d = 3) ∨
    (90 + k ≤ d ∧ d < 120 + k ∧ monthChain k d = 4) ∨ (120 + k ≤ d ∧ d < 151 + k ∧ monthChain k d = 5) ∨
    (151 + k ≤ d ∧ d < 181 + k ∧ monthChain k d = 6) ∨ (181 + k ≤ d ∧ d < 212 + k ∧ monthChain k d = 7) ∨
    (212 + k ≤ d ∧ d < 243 + k ∧ monthChain k d = 8) ∨ (243 + k ≤ d ∧ d < 273 + k ∧ monthChain k d = 9) ∨
    (273 + k ≤ d ∧ d < 304 + k ∧ monthChain k d = 10) ∨ (304 + k ≤ d ∧ d < 334 + k ∧ monthChain k d = 11) ∨
    (334 + k ≤ d ∧ monthChain k d = 12) := by
  unfold monthChain
  by_cases h1 : d < 31
  · exact .inl ⟨by omega, by simp only [if_pos h1]⟩
  by_cases h2 : d < 59 + k
  · exact .inr (.inl ⟨by omega, by omega, by simp only [if_neg h1, if_pos h2]⟩)
  by_cases h3 : d < 90 + k
  · exact .inr (.inr (.inl ⟨by omega, by omega, by simp only [if_neg h1, if_neg h2, if_pos h3]⟩))
  by_cases h4 : d < 120 + k
  · exact .inr (.inr (.inr (.inl ⟨by omega, by omega, by simp only [if_neg h1, if_neg h2, if_neg h3, if_pos h4]⟩)))
  by_cases h5 : d < 151 + k
  · exact .inr (.inr (.inr (.inr (.inl ⟨by omega, by omega, by simp only [if_neg h1, if_neg h2, if_neg h3, if_neg h4, if_pos h5]⟩))))
  by_cases h6 : d < 181 + k
  · exact .inr (.inr (.inr (.inr (.inr (.inl ⟨by omega, by omega, by simp only [if_neg h1, if_neg h2, if_neg h3, if_neg h4, if_neg h5, if_pos h6]⟩)))))
  by_cases h7 : d < 212 + k
  · exact .inr (.inr (.inr (.inr (.inr (.inr (.inl ⟨by omega, by omega, by simp only [if_neg h1, if_neg h2, if_neg h3, if_neg h4, if_neg h5, if_neg h6, if_pos h7]⟩))))))
  by_cases h8 : d < 243 + k
  · exact .inr (.inr (.inr (.inr (.inr (.inr (.inr (.inl ⟨by omega, by omega, by simp only [if_neg h1, if_neg h2, if_neg h3, if_neg h4, if_neg h5, if_neg h6, if_neg h7, if_pos h8]⟩)))))))
  by_cases h9 : d < 273 + k
  · exact .inr (.inr (.inr (.inr (.inr (.inr (.inr (.inr (.inl ⟨by omega, by omega, by simp only [if_neg h1, if_neg h2, if_neg h3, if_neg h4, if_neg h5, if_neg h6, if_neg h7, if_neg h8, if_pos h9]⟩))))))))
  by_cases h10 : d < 304 + k
  · exact .inr (.inr (.inr (.inr (.inr (.inr (.inr (.inr (.inr (.inl ⟨by omega, by omega, by simp only [if_neg h1, if_neg h2, if_neg h3, if_neg h4, if_neg h5, if_neg h6, if_neg h7, if_neg h8, if_neg h9, if_pos h10]⟩)))))))))
  by_cases h11 : d < 334 + k
  · exact .inr (.inr (.inr (.inr (.inr (.inr (.inr (.inr (.inr (.inr (.inl ⟨by omega, by omega, by simp only [if_neg h1, if_neg h2, if_neg h3, if_neg h4, if_neg h5, if_neg h6, if_neg h7, if_neg h8, if_neg h9, if_neg h10, if_pos h11]⟩))))))))))
  exact .inr (.inr (.inr (.inr (.inr (.inr (.inr (.inr (.inr (.inr (.inr (⟨by omega, by simp only [if_neg h1, if_neg h2, if_neg h3, if_neg h4, if_neg h5, if_neg h6, if_neg h7, if_neg h8, if_neg h9, if_neg h10, if_neg h11]⟩)))))))))))

theorem leapK (leap : Bool) : 0 ≤ (if leap then (1:Int) else 0) ∧ (if leap then (1:Int) else 0) ≤ 1 := by cases leap <;> simp

theorem monthOf_range (leap : Bool) (d : Int) : 1 ≤ monthOf leap d ∧ monthOf leap d ≤ 12 := by
  have := monthChain_cases (if leap then 1 else 0) d (leapK leap)
  unfold monthOf
  omega

theorem yearLen (y : Int) : yearStart (y + 1) - yearStart y = 365 + (if isLeap y then 1 else 0) := by
  rw [yearStart_succ]; omega

/-- First day and length of each month. -/
theorem monthStart_table (leap : Bool) (m : Int) (hm : 1 ≤ m ∧ m ≤ 12) (k : Int) (hk : k = if leap then 1 else 0) :
    (m = 1 ∧ monthStart leap m = 0 ∧ daysIn leap m = 31) ∨ (m = 2 ∧ monthStart leap m = 31 ∧ daysIn leap m = 28 + k) ∨
    (m = 3 ∧ monthStart leap m = 59 + k ∧ daysIn leap m = 31) ∨ (m = 4 ∧ monthStart leap m = 90 + k ∧ daysIn leap m = 30) ∨
    (m = 5 ∧ monthStart leap m = 120 + k ∧ daysIn leap m = 31) ∨ (m = 6 ∧ monthStart leap m = 151 + k ∧ daysIn leap m = 30) ∨
    (m = 7 ∧ monthStart leap m = 181 + k ∧ daysIn leap m = 31) ∨ (m = 8 ∧ monthStart leap m = 212 + k ∧ daysIn leap m = 31) ∨
    (m = 9 ∧ monthStart leap m = 243 + k ∧ daysIn leap m = 30) ∨ (m = 10 ∧ monthStart leap m = 273 + k ∧ daysIn leap m = 31) ∨
    (m = 11 ∧ monthStart leap m = 304 + k ∧ daysIn leap m = 30) ∨ (m = 12 ∧ monthStart leap m = 334 + k ∧ daysIn leap m = 31) := by
  subst hk
  obtain ⟨h3, h4⟩ := hm
  have : m = 1 ∨ m = 2 ∨ m = 3 ∨ m = 4 ∨ m = 5 ∨ m = 6 ∨ m = 7 ∨ m = 8 ∨ m = 9 ∨ m = 10 ∨ m = 11 ∨ m = 12 := by omega
  rcases this with rfl | rfl | rfl | rfl | rfl | rfl | rfl | rfl | rfl | rfl | rfl | rfl <;> cases leap <;> decide

/-- Months partition the year. -/
theorem monthOf_spec (leap : Bool) (d : Int) (h0 : 0 ≤ d) (h1 : d < 365 + (if leap then 1 else 0)) :
    monthStart leap (monthOf leap d) ≤ d ∧ d < monthStart leap (monthOf leap d) + daysIn leap (monthOf leap d) := by
  have hr := monthOf_range leap d
  have ht := monthStart_table leap _ hr _ rfl
  have hc := monthChain_cases (if leap then 1 else 0) d (leapK leap)
  have hm : monthOf leap d = monthChain (if leap then 1 else 0) d := rfl
  rw [← hm] at hc
  generalize monthOf leap d = m at *
  generalize monthStart leap m = ms at *
  generalize daysIn leap m = di at *
  generalize (if leap = true then (1:Int) else 0) = k at *
  omega

theorem monthOf_unique (leap : Bool) (m d : Int) (hm : 1 ≤ m ∧ m ≤ 12) (h1 : monthStart leap m ≤ d) (h2 : d < monthStart leap m + daysIn leap m) :
    monthOf leap d = m := by
  have ht := monthStart_table leap m hm _ rfl
  have hc := monthChain_cases (if leap then 1 else 0) d (leapK leap)
  have hk := leapK leap
  have hmo : monthOf leap d = monthChain (if leap then 1 else 0) d := rfl
  rw [← hmo] at hc
  generalize monthOf leap d = m' at *
  generalize monthStart leap m = ms at *
  generalize daysIn leap m = di at *
  generalize (if leap = true then (1:Int) else 0) = k at *
  omega

theorem monthStart_bounds (leap : Bool) (m : Int) (hm : 1 ≤ m ∧ m ≤ 12) :
    0 ≤ monthStart leap m ∧ monthStart leap m + daysIn leap m ≤ 365 + (if leap then 1 else 0) ∧ 28 ≤ daysIn leap m ∧ daysIn leap m ≤ 31 := by
  have ht := monthStart_table leap m hm _ rfl
  have hk := leapK leap
  generalize (if leap = true then (1:Int) else 0) = k at *
  omega

/-- Every day is the date of its year, month and day. -/
theorem goDate_parts (n : Int) : goDate (goYear n) (goMonth n) (goDay n) = n := by
  have hm := monthOf_range (isLeap (goYear n)) (n - yearStart (goYear n))
  unfold goDate
  simp only
  have e1 : (goMonth n - 1) / 12 = 0 := by unfold goMonth; omega
  have e2 : (goMonth n - 1) % 12 + 1 = goMonth n := by unfold goMonth; omega
  rw [e1, e2, Int.add_zero]
  unfold goDay
  omega

theorem goParts_range (n : Int) : 1 ≤ goMonth n ∧ goMonth n ≤ 12 ∧ 1 ≤ goDay n ∧ goDay n ≤ daysIn (isLeap (goYear n)) (goMonth n) := by
  have hm := monthOf_range (isLeap (goYear n)) (n - yearStart (goYear n))
  obtain ⟨g1, g2⟩ := goYear_spec n
  have hl := yearLen (goYear n)
  obtain ⟨s1, s2⟩ := monthOf_spec (isLeap (goYear n)) (n - yearStart (goYear n)) (by omega) (by omega)
  refine ⟨hm.1, hm.2, ?_, ?_⟩
  · unfold goDay goMonth; omega
  · unfold goDay goMonth; omega

/-- A proper date is read back by year, month and day. -/
theorem goDate_valid (y m d : Int) (hm : 1 ≤ m ∧ m ≤ 12) (hd : 1 ≤ d ∧ d ≤ daysIn (isLeap y) m) :
    goYear (goDate y m d) = y ∧ goMonth (goDate y m d) = m ∧ goDay (goDate y m d) = d := by
  have hb := monthStart_bounds (isLeap y) m hm
  have hl := yearLen y
  have e1 : (m - 1) / 12 = 0 := by omega
  have e2 : (m - 1) % 12 + 1 = m := by omega
  have e : goDate y m d = yearStart y + monthStart (isLeap y) m + (d - 1) := by
    unfold goDate; simp only; rw [e1, e2, Int.add_zero]
  have hy : goYear (goDate y m d) = y := by
    apply goYear_unique <;> rw [e] <;> omega
  have hmm : goMonth (goDate y m d) = m := by
    unfold goMonth
    rw [hy]
    apply monthOf_unique _ _ _ hm <;> rw [e] <;> omega
  refine ⟨hy, hmm, ?_⟩
  unfold goDay
  rw [hy, hmm, e]; omega

/-- Dates are ordered as their parts. -/
theorem goYear_mono {a b : Int} (h : a ≤ b) : goYear a ≤ goYear b := by
  obtain ⟨g1, _⟩ := goYear_spec a
  obtain ⟨_, h2⟩ := goYear_spec b
  have := (yearStart_lt (y := goYear a) (z := goYear b + 1)).mp (by omega)
  omega

theorem monthOf_mono (leap : Bool) {a b : Int} (h : a ≤ b) : monthOf leap a ≤ monthOf leap b := by
  have h1 := monthChain_cases (if leap then 1 else 0) a (leapK leap)
  have h2 := monthChain_cases (if leap then 1 else 0) b (leapK leap)
  have hk := leapK leap
  unfold monthOf
  generalize (if leap = true then (1:Int) else 0) = k at *
  omega

end Verif
