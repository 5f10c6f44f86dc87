import Verif.Model.Generate
import Verif.Props.Periods
import Verif.Lemmas.Sort
import Mathlib.Data.List.Perm.Subperm
/-
Lemmas about cmd/gen2coin: drawing without replacement, the normal form of the date loops, the calendar in seconds.
-/
namespace Verif

theorem drawPicks_spec {α : Type} (draw : Nat → Nat) : ∀ (c k : Nat) (l : List α),
    (drawPicks draw c k l).1.Subperm l ∧ (drawPicks draw c k l).1.length = min c l.length
  | 0, k, l => by simp [drawPicks]
  | c + 1, k, l => by
    unfold drawPicks
    cases l with
    | nil => simp
    | cons a l =>
      have hlt : draw k % (a :: l).length < (a :: l).length := Nat.mod_lt _ (by simp)
      generalize draw k % (a :: l).length = o at *
      rw [List.getElem?_eq_getElem hlt]
      obtain ⟨h1, h2⟩ := drawPicks_spec draw c (k + 1) ((a :: l).eraseIdx o)
      refine ⟨?_, ?_⟩
      · have hp : ((a :: l)[o] :: (a :: l).eraseIdx o).Perm (a :: l) := List.getElem_cons_eraseIdx_perm hlt
        exact ((List.subperm_cons _).mpr h1).trans hp.subperm
      · have hl : ((a :: l).eraseIdx o).length = l.length := by
          rw [List.length_eraseIdx_of_lt hlt]; simp
        simp only [List.length_cons, h2, hl]
        omega

theorem picksOf_spec {α : Type} (draw : Nat → Nat) (count k : Nat) (days : List α) :
    (picksOf draw count k days).1.Subperm days ∧ (picksOf draw count k days).1.length = min count days.length := by
  unfold picksOf
  split
  · exact drawPicks_spec draw count k days
  · exact ⟨List.Subperm.refl _, by simp; omega⟩

theorem picksOf_all {α : Type} (draw : Nat → Nat) (count k : Nat) (days : List α) (h : days.length ≤ count) :
    (picksOf draw count k days).1 = days := by
  unfold picksOf; rw [if_neg (by omega)]

theorem weekPicks_spec (draw : Nat → Nat) (count k : Nat) (days : List Int) :
    (weekPicks draw count k days).1.Subperm days ∧ (weekPicks draw count k days).1.length = min count days.length := by
  obtain ⟨h1, h2⟩ := picksOf_spec draw count k days
  unfold weekPicks
  simp only
  split
  · exact ⟨(stableSort_perm _ _).subperm.trans h1, by rw [(stableSort_perm _ _).length_eq]; exact h2⟩
  · exact ⟨h1, h2⟩

theorem weekPicks_all (draw : Nat → Nat) (count k : Nat) (days : List Int) (h : days.length ≤ count) :
    (weekPicks draw count k days).1 = days := by
  unfold weekPicks
  simp only
  rw [if_neg (by omega), picksOf_all draw count k days h]

/-- The picks of a week are in increasing order. -/
theorem weekPicks_sorted (draw : Nat → Nat) (count k : Nat) (days : List Int) (hs : days.Pairwise (· < ·)) :
    (weekPicks draw count k days).1.Pairwise (· < ·) := by
  by_cases h : count < days.length
  · have hsub := (weekPicks_spec draw count k days).1
    have hnd : (weekPicks draw count k days).1.Nodup := by
      obtain ⟨l, hl, hsl⟩ := hsub
      have : l.Pairwise (· < ·) := hs.sublist hsl
      exact hl.nodup_iff.mp (this.imp (fun h => by omega))
    have hle : (weekPicks draw count k days).1.Pairwise (fun a b => ¬ b < a) := by
      unfold weekPicks
      simp only
      rw [if_pos h]
      have := stableSort_sorted _ intLt_strictWeak (picksOf draw count k days).1
      exact this.imp (fun h => by simpa using h)
    exact (hle.and hnd).imp (fun ⟨a, b⟩ => by omega)
  · rw [weekPicks_all draw count k days (by omega)]; exact hs

/-- Normal form of the loop of `weekly`: the weeks that begin before the end, each with its picks. -/
theorem weeklyLoop_form (draw : Nat → Nat) (count : Nat) (step : Int) (hstep : 1 ≤ step) (days : List Int) (b e : Int) :
    ∀ (n k : Nat) (cur : Int), (e - cur).toNat ≤ n → ∃ (P : Nat → List Int) (N : Nat),
      (∀ j, ∃ k, P j = (weekPicks draw count k days).1) ∧ (∀ j : Nat, j < N ↔ cur + 86400 * step * j < e) ∧
      weeklyLoop draw count step days b e n k cur =
        (List.range N).flatMap (fun j => ((P j).map (secAddDays (cur + 86400 * step * j))).filter (inGenRange b e))
  | 0, k, cur, h => by
    refine ⟨fun _ => (weekPicks draw count k days).1, 0, fun j => ⟨k, rfl⟩, fun j => ?_, rfl⟩
    have : (0 : Int) ≤ 86400 * step * j := by positivity
    constructor
    · intro h; omega
    · intro h'; omega
  | n + 1, k, cur, h => by
    unfold weeklyLoop
    by_cases hlt : cur < e
    · rw [if_pos hlt]
      simp only
      obtain ⟨P, N, hP, hN, hl⟩ := weeklyLoop_form draw count step hstep days b e n (weekPicks draw count k days).2 (secAddDays cur step)
        (by unfold secAddDays; omega)
      refine ⟨fun j => match j with | 0 => (weekPicks draw count k days).1 | j + 1 => P j, N + 1, ?_, ?_, ?_⟩
      · intro j
        cases j with
        | zero => exact ⟨k, rfl⟩
        | succ j => exact hP j
      · intro j
        cases j with
        | zero => simp [hlt]
        | succ j =>
          rw [Nat.add_lt_add_iff_right, hN j]
          unfold secAddDays
          push_cast
          constructor <;> intro h <;> linarith
      · rw [hl, List.range_succ_eq_map, List.flatMap_cons, List.flatMap_map]
        congr 1
        · simp
        · apply congrArg (fun f => List.flatMap f (List.range N))
          funext j
          have : secAddDays cur step + 86400 * step * (j : Int) = cur + 86400 * step * ((j + 1 : Nat) : Int) := by
            unfold secAddDays; push_cast; ring
          rw [this]
    · rw [if_neg hlt]
      refine ⟨fun _ => (weekPicks draw count k days).1, 0, fun j => ⟨k, rfl⟩, fun j => ?_, rfl⟩
      have : (0 : Int) ≤ 86400 * step * j := by positivity
      constructor
      · intro h; omega
      · intro h'; omega

/-! ### The calendar -/

theorem goDate_norm (y m : Int) : goYear (goDate y m 1) = y + (m - 1) / 12 ∧ goMonth (goDate y m 1) = (m - 1) % 12 + 1 ∧ goDay (goDate y m 1) = 1 := by
  have e : goDate y m 1 = goDate (y + (m - 1) / 12) ((m - 1) % 12 + 1) 1 := by
    unfold goDate
    simp only
    have h1 : ((m - 1) % 12 + 1 - 1) / 12 = 0 := by omega
    have h2 : ((m - 1) % 12 + 1 - 1) % 12 = (m - 1) % 12 := by omega
    rw [h1, h2]
    simp
  rw [e]
  exact first_parts _ _ (by omega)

theorem goDate_shift (y m k d : Int) : goDate (y + (m - 1) / 12) ((m - 1) % 12 + 1 + k) d = goDate y (m + k) d := by
  unfold goDate
  simp only
  have h1 : y + (m - 1) / 12 + ((m - 1) % 12 + 1 + k - 1) / 12 = y + (m + k - 1) / 12 := by omega
  have h2 : ((m - 1) % 12 + 1 + k - 1) % 12 = (m + k - 1) % 12 := by omega
  rw [h1, h2]

/-- The first of the month `m` of year `y` at time of day `tod`. -/
def firstOf (y m tod : Int) : Int := goDate y m 1 * 86400 + tod

theorem firstOf_div (y m tod : Int) (h : 0 ≤ tod ∧ tod < 86400) : firstOf y m tod / 86400 = goDate y m 1 ∧ firstOf y m tod % 86400 = tod := by
  unfold firstOf; omega

theorem secAddDate_first (y m tod : Int) (h : 0 ≤ tod ∧ tod < 86400) (k d : Int) :
    secAddDate (firstOf y m tod) k d = (goDate y (m + k) 1 + d) * 86400 + tod := by
  obtain ⟨h1, h2⟩ := firstOf_div y m tod h
  obtain ⟨g1, g2, g3⟩ := goDate_norm y m
  unfold secAddDate addDate
  rw [h1, h2, g1, g2, g3]
  simp only [add_zero]
  rw [goDate_shift, goDate_add]

theorem next_first (y m : Int) : goDate y (m + 1) 1 = goDate y m 1 + daysIn (isLeap (goYear (goDate y m 1))) (goMonth (goDate y m 1)) := by
  obtain ⟨g1, g2, g3⟩ := goDate_norm y m
  have h := goDate_next_month (y + (m - 1) / 12) ((m - 1) % 12 + 1) (by omega)
  rw [goDate_shift] at h
  have := goDate_shift y m 0 1
  simp only [add_zero] at this
  rw [this] at h
  rw [g1, g2, h]

/-- A day is in the month of `goDate y m 1` iff it is between it and the next month. -/
theorem in_month (y m n : Int) : (goYear (goDate y m 1) = goYear n ∧ goMonth (goDate y m 1) = goMonth n) ↔
    goDate y m 1 ≤ n ∧ n < goDate y (m + 1) 1 := by
  have hd := next_first y m
  obtain ⟨g1, g2, g3⟩ := goDate_norm y m
  constructor
  · intro ⟨h1, h2⟩
    have hp := goDate_parts n
    obtain ⟨r1, r2, r3, r4⟩ := goParts_range n
    rw [h1, h2] at hd
    have e1 : goDate (goYear n) (goMonth n) 1 = goDate y m 1 := by
      rw [← h1, ← h2]
      have := goDate_parts (goDate y m 1)
      rw [g3] at this
      exact this
    have e2 : goDate (goYear n) (goMonth n) (1 + (goDay n - 1)) = n := by
      have : 1 + (goDay n - 1) = goDay n := by omega
      rw [this]; exact hp
    rw [goDate_add, e1] at e2
    omega
  · intro ⟨h1, h2⟩
    rw [hd] at h2
    have := goDate_valid (goYear (goDate y m 1)) (goMonth (goDate y m 1)) (1 + (n - goDate y m 1)) (by rw [g2]; omega) (by omega)
    rw [goDate_add] at this
    have e1 : goDate (goYear (goDate y m 1)) (goMonth (goDate y m 1)) 1 = goDate y m 1 := by
      have := goDate_parts (goDate y m 1)
      rw [g3] at this
      exact this
    rw [e1] at this
    have e2 : goDate y m 1 + (n - goDate y m 1) = n := by omega
    rw [e2] at this
    exact ⟨this.1.symm, this.2.1.symm⟩

theorem first_strict (y m : Int) : ∀ k : Nat, goDate y m 1 + k ≤ goDate y (m + k) 1
  | 0 => by simp
  | k + 1 => by
    have h := first_strict y m k
    have h2 := next_first y (m + k)
    have h3 := daysIn_pos (isLeap (goYear (goDate y (m + k) 1))) (goMonth (goDate y (m + k) 1))
    have e : m + ((k + 1 : Nat) : Int) = m + k + 1 := by push_cast; ring
    rw [e]
    push_cast
    omega

theorem first_mono_lt (y : Int) {m m' : Int} (h : m < m') : goDate y m 1 < goDate y m' 1 := by
  have := first_strict y m (m' - m).toNat
  have e : m + ((m' - m).toNat : Int) = m' := by omega
  rw [e] at this
  omega

theorem firstOf_mono (y m tod interval : Int) (hi : 1 ≤ interval) (j : Nat) : firstOf y m tod ≤ firstOf y (m + interval * j) tod := by
  unfold firstOf
  rcases Nat.eq_zero_or_pos j with rfl | hj
  · simp
  · have hp : 0 < interval * (j : Int) := by positivity
    have := first_mono_lt y (m := m) (m' := m + interval * j) (by omega)
    omega

/-- Normal form of the loop of `monthly`. -/
theorem monthlyLoop_form (draw : Nat → Nat) (count : Nat) (interval : Int) (hi : 1 ≤ interval) (days : List Int) (b e : Int)
    (y tod : Int) (ht : 0 ≤ tod ∧ tod < 86400) :
    ∀ (n k : Nat) (m : Int), (e - firstOf y m tod).toNat ≤ n → ∃ (P : Nat → List Int) (N : Nat),
      (∀ j : Nat, ∃ k, P j = (picksOf draw count k (if days = [] then allDays (firstOf y (m + interval * j) tod) else days)).1) ∧
      (∀ j : Nat, j < N ↔ firstOf y (m + interval * j) tod < e) ∧
      monthlyLoop draw count interval days b e n k (firstOf y m tod) =
        (List.range N).flatMap (fun j : Nat => monthDates b e (firstOf y (m + interval * j) tod) (P j))
  | 0, k, m, h => by
    refine ⟨fun j => (picksOf draw count k (if days = [] then allDays (firstOf y (m + interval * j) tod) else days)).1, 0, fun j => ⟨k, rfl⟩,
      fun j => ?_, rfl⟩
    constructor
    · intro h; omega
    · intro h'
      have := firstOf_mono y m tod interval hi j
      omega
  | n + 1, k, m, h => by
    have hmono := firstOf_mono y m tod interval hi
    unfold monthlyLoop
    by_cases hlt : firstOf y m tod < e
    · rw [if_pos hlt]
      simp only
      have hstep : secAddDate (firstOf y m tod) interval 0 = firstOf y (m + interval) tod := by
        rw [secAddDate_first y m tod ht]; unfold firstOf; simp
      rw [hstep]
      have hlt2 := first_mono_lt y (m := m) (m' := m + interval) (by omega)
      obtain ⟨P, N, hP, hN, hl⟩ := monthlyLoop_form draw count interval hi days b e y tod ht n
        (picksOf draw count k (if days = [] then allDays (firstOf y m tod) else days)).2 (m + interval) (by unfold firstOf at *; omega)
      have hj : ∀ j : Nat, m + interval + interval * (j : Int) = m + interval * ((j + 1 : Nat) : Int) := by intro j; push_cast; ring
      refine ⟨fun j => match j with | 0 => (picksOf draw count k (if days = [] then allDays (firstOf y m tod) else days)).1 | j + 1 => P j, N + 1, ?_, ?_, ?_⟩
      · intro j
        cases j with
        | zero => exact ⟨k, by simp⟩
        | succ j => rw [← hj]; exact hP j
      · intro j
        cases j with
        | zero => simp [hlt]
        | succ j => rw [Nat.add_lt_add_iff_right, hN j, hj]
      · rw [hl, List.range_succ_eq_map, List.flatMap_cons, List.flatMap_map]
        congr 1
        · simp
        · apply congrArg (fun f => List.flatMap f (List.range N))
          funext j
          rw [hj]
    · rw [if_neg hlt]
      refine ⟨fun j => (picksOf draw count k (if days = [] then allDays (firstOf y (m + interval * j) tod) else days)).1, 0, fun j => ⟨k, rfl⟩,
        fun j => ?_, rfl⟩
      constructor
      · intro h; omega
      · intro h'; have := hmono j; omega

end Verif
