import Verif.Lemmas.WebAmount
import Mathlib.Algebra.Order.Field.Rat
import Mathlib.Tactic.Ring
import Mathlib.Tactic.Linarith
import Mathlib.Tactic.FieldSimp
import Mathlib.Tactic.Positivity
import Mathlib.Algebra.Order.AbsoluteValue.Basic
/-! The rounding error of doubles. -/
namespace Verif

/-- The value of a fraction. -/
def fracVal (x : Int × Nat) : ℚ := (x.1 : ℚ) / (x.2 : ℚ)

theorem fl_pos (n : Int) (m : Nat) : 0 < (fl n m).2 := by
  unfold fl
  split
  · decide
  · dsimp only
    split
    · exact Nat.two_pow_pos _
    · exact Nat.one_pos

/-- The numerator of a double is within half a unit of the scaled quotient, and has at least 53 digits. -/
theorem fl_error (n : Int) (m : Nat) (hm : 0 < m) :
    2 ^ 53 * ((fl n m).1 * (m : Int) - n * ((fl n m).2 : Int)).natAbs ≤ n.natAbs * (fl n m).2 := by
  by_cases hn : n = 0
  · subst hn; simp [fl]
  have hpos : 0 < n.natAbs := by omega
  have h1 : 2 ^ Nat.log2 n.natAbs ≤ n.natAbs := Nat.log2_self_le (by omega)
  have h2 : m < 2 ^ (Nat.log2 m + 1) := Nat.lt_log2_self
  have scaled : ∀ k : Nat, 2 ^ 52 * m ≤ n.natAbs * 2 ^ k →
      2 ^ 53 * (quoEven (n * 2 ^ k) m * (m : Int) - n * ((2 ^ k : Nat) : Int)).natAbs ≤ n.natAbs * 2 ^ k := by
    intro k hk
    have hq := quoEven_near (n * 2 ^ k) m hm
    have e : ((2 ^ k : Nat) : Int) = 2 ^ k := by push_cast; rfl
    rw [e]
    have : 2 * (quoEven (n * 2 ^ k) m * (m : Int) - n * 2 ^ k).natAbs ≤ m := by omega
    have h3 : 2 ^ 53 * (quoEven (n * 2 ^ k) m * (m : Int) - n * 2 ^ k).natAbs = 2 ^ 52 * (2 * (quoEven (n * 2 ^ k) m * (m : Int) - n * 2 ^ k).natAbs) := by ring
    rw [h3]
    exact Nat.le_trans (Nat.mul_le_mul_left _ this) hk
  have divided : ∀ s : Nat, 2 ^ 52 * m * 2 ^ s ≤ n.natAbs →
      2 ^ 53 * (quoEven n (m * 2 ^ s) * 2 ^ s * (m : Int) - n * ((1 : Nat) : Int)).natAbs ≤ n.natAbs * 1 := by
    intro s hs
    have hq := quoEven_near n (m * 2 ^ s) (Nat.mul_pos hm (Nat.two_pow_pos _))
    have e : quoEven n (m * 2 ^ s) * ((m * 2 ^ s : Nat) : Int) = quoEven n (m * 2 ^ s) * 2 ^ s * (m : Int) := by push_cast; ring
    rw [e] at hq
    have : 2 * (quoEven n (m * 2 ^ s) * 2 ^ s * (m : Int) - n * ((1 : Nat) : Int)).natAbs ≤ m * 2 ^ s := by
      simp only [Int.natCast_one, Int.mul_one]; omega
    have h3 : 2 ^ 53 * (quoEven n (m * 2 ^ s) * 2 ^ s * (m : Int) - n * ((1 : Nat) : Int)).natAbs =
        2 ^ 52 * (2 * (quoEven n (m * 2 ^ s) * 2 ^ s * (m : Int) - n * ((1 : Nat) : Int)).natAbs) := by ring
    rw [h3, Nat.mul_one]
    refine Nat.le_trans (Nat.mul_le_mul_left _ this) ?_
    rw [← Nat.mul_assoc]; exact hs
  unfold fl
  rw [if_neg hn]
  dsimp only
  split
  · next hle =>
    dsimp only
    apply scaled
    split
    · have h3 : 2 ^ Nat.log2 n.natAbs * 2 ^ (52 + Nat.log2 m - Nat.log2 n.natAbs + 1) = 2 ^ 52 * 2 ^ (Nat.log2 m + 1) := by
        rw [← Nat.pow_add, ← Nat.pow_add]; congr 1; omega
      calc 2 ^ 52 * m ≤ 2 ^ 52 * 2 ^ (Nat.log2 m + 1) := Nat.mul_le_mul_left _ (by omega)
        _ = _ := h3.symm
        _ ≤ _ := Nat.mul_le_mul_right _ h1
    · omega
  · next hgt =>
    dsimp only
    apply divided
    split
    · have h3 : 2 ^ 52 * 2 ^ (Nat.log2 m + 1) * 2 ^ (Nat.log2 n.natAbs - Nat.log2 m - 52 - 1) = 2 ^ Nat.log2 n.natAbs := by
        rw [← Nat.pow_add, ← Nat.pow_add]; congr 1; omega
      calc 2 ^ 52 * m * 2 ^ (Nat.log2 n.natAbs - Nat.log2 m - 52 - 1) ≤ 2 ^ 52 * 2 ^ (Nat.log2 m + 1) * 2 ^ (Nat.log2 n.natAbs - Nat.log2 m - 52 - 1) :=
            Nat.mul_le_mul_right _ (Nat.mul_le_mul_left _ (by omega))
        _ = _ := h3
        _ ≤ _ := h1
    · omega

/-- The error of a double is at most 2^-53 of the value. -/
theorem fl_near (n : Int) (m : Nat) (hm : 0 < m) : |fracVal (fl n m) - (n : ℚ) / m| ≤ |(n : ℚ) / m| / 2 ^ 53 := by
  have h := fl_error n m hm
  have hp := fl_pos n m
  generalize fl n m = x at h hp
  obtain ⟨p, q⟩ := x
  dsimp only at h hp
  unfold fracVal
  dsimp only
  have hq : (0 : ℚ) < q := by exact_mod_cast hp
  have hm' : (0 : ℚ) < m := by exact_mod_cast hm
  have h' : (2 : ℚ) ^ 53 * |(p : ℚ) * m - n * q| ≤ |(n : ℚ)| * q := by
    have : ((2 ^ 53 * (p * (m : Int) - n * (q : Int)).natAbs : Nat) : ℚ) ≤ ((n.natAbs * q : Nat) : ℚ) := by exact_mod_cast h
    push_cast [Nat.cast_natAbs] at this
    exact this
  have e1 : (p : ℚ) / q - n / m = (p * m - n * q) / (q * m) := by field_simp
  rw [e1, abs_div, abs_div, abs_of_pos (mul_pos hq hm'), abs_of_pos hm', div_div, div_le_div_iff₀ (mul_pos hq hm') (by positivity)]
  have : |(p : ℚ) * m - n * q| * ((m : ℚ) * 2 ^ 53) = (2 ^ 53 * |(p : ℚ) * m - n * q|) * m := by ring
  rw [this]
  calc (2 ^ 53 * |(p : ℚ) * m - n * q|) * m ≤ (|(n : ℚ)| * q) * m := mul_le_mul_of_nonneg_right h' hm'.le
    _ = |(n : ℚ)| * (q * m) := by ring

/-- Two roundings keep different integers up to 2^49 apart and in order. -/
theorem fl_fl_lt (t t' : Int) (m n : Nat) (hm : 0 < m) (hn : 0 < n) (ht : t.natAbs ≤ 2 ^ 49) (ht' : t'.natAbs ≤ 2 ^ 49) (h : t < t') :
    fracVal (fl (fl t m).1 ((fl t m).2 * n)) < fracVal (fl (fl t' m).1 ((fl t' m).2 * n)) := by
  have hmQ : (0 : ℚ) < m := by exact_mod_cast hm
  have hnQ : (0 : ℚ) < n := by exact_mod_cast hn
  set e : ℚ := 1 / (m : ℚ) with he
  have he0 : 0 < e := by positivity
  have first : ∀ t : Int, t.natAbs ≤ 2 ^ 49 → |fracVal (fl t m) - t * e| ≤ e / 16 ∧ |fracVal (fl t m)| ≤ 2 ^ 49 * e + e / 16 := by
    intro t ht
    have h1 := fl_near t m hm
    have h2 : |(t : ℚ)| ≤ 2 ^ 49 := by
      have : ((t.natAbs : Nat) : ℚ) ≤ ((2 ^ 49 : Nat) : ℚ) := by exact_mod_cast ht
      rw [Nat.cast_natAbs] at this
      push_cast at this
      exact this
    have h3 : (t : ℚ) / m = t * e := by rw [he]; ring
    rw [h3, abs_mul, abs_of_pos he0] at h1
    have h4 : |(t : ℚ)| * e ≤ 2 ^ 49 * e := mul_le_mul_of_nonneg_right h2 he0.le
    have h5 : |fracVal (fl t m) - t * e| ≤ e / 16 := by
      refine h1.trans ?_
      have : 2 ^ 49 * e / 2 ^ 53 = e / 16 := by ring
      rw [← this]
      exact div_le_div_of_nonneg_right h4 (by positivity)
    refine ⟨h5, ?_⟩
    have h6 : |fracVal (fl t m)| ≤ |fracVal (fl t m) - t * e| + |(t : ℚ) * e| := by
      have := abs_add_le (fracVal (fl t m) - t * e) (t * e)
      simpa using this
    rw [abs_mul, abs_of_pos he0] at h6
    linarith
  have second : ∀ t : Int, t.natAbs ≤ 2 ^ 49 → |fracVal (fl (fl t m).1 ((fl t m).2 * n)) - fracVal (fl t m) / n| ≤ e / 8 / n := by
    intro t ht
    have h1 := fl_near (fl t m).1 ((fl t m).2 * n) (Nat.mul_pos (fl_pos t m) hn)
    have h3 : ((fl t m).1 : ℚ) / (((fl t m).2 * n : Nat) : ℚ) = fracVal (fl t m) / n := by
      unfold fracVal
      push_cast
      rw [div_div]
    rw [h3] at h1
    refine h1.trans ?_
    rw [abs_div, abs_of_pos hnQ, div_div, mul_comm (n : ℚ), ← div_div]
    apply div_le_div_of_nonneg_right _ hnQ.le
    have := (first t ht).2
    have h4 : |fracVal (fl t m)| / 2 ^ 53 ≤ (2 ^ 49 * e + e / 16) / 2 ^ 53 := div_le_div_of_nonneg_right this (by positivity)
    refine h4.trans ?_
    have : (2 ^ 49 * e + e / 16) / 2 ^ 53 = e / 16 + e / 16 / 2 ^ 53 := by ring
    rw [this]
    have : e / 16 / 2 ^ 53 ≤ e / 16 := div_le_self (by positivity) (by norm_num)
    linarith
  have a1 := abs_le.mp (first t ht).1
  have a2 := abs_le.mp (first t' ht').1
  have b1 := abs_le.mp (second t ht)
  have b2 := abs_le.mp (second t' ht')
  have hgap : (t : ℚ) * e + e ≤ t' * e := by
    have h : (t : ℚ) + 1 ≤ t' := by exact_mod_cast h
    have := mul_le_mul_of_nonneg_right h he0.le
    linarith
  have hu : fracVal (fl t m) + 7 * e / 8 ≤ fracVal (fl t' m) := by linarith [a1.2, a2.1]
  have hu' : fracVal (fl t m) / n + (7 * e / 8) / n ≤ fracVal (fl t' m) / n := by
    rw [← add_div]; exact div_le_div_of_nonneg_right hu hnQ.le
  have hpos : 0 < e / n := by positivity
  have e1 : 7 * e / 8 / (n : ℚ) = 7 / 8 * (e / n) := by ring
  have e2 : e / 8 / (n : ℚ) = 1 / 8 * (e / n) := by ring
  rw [e1] at hu'
  rw [e2] at b1 b2
  linarith [b1.2, b2.1]

theorem tdiv_of_bounds {p K : Int} {q : Nat} (hK : 0 ≤ K) (hq : 0 < q) (h1 : K * q ≤ p) (h2 : p < (K + 1) * q) : Int.tdiv p q = K := by
  have hp : 0 ≤ p := Int.le_trans (Int.mul_nonneg hK (by omega)) h1
  rw [Int.tdiv_eq_ediv_of_nonneg hp]
  have hq' : (0 : Int) < (q : Int) := by omega
  apply Int.le_antisymm
  · have := Int.ediv_lt_of_lt_mul hq' h2
    omega
  · exact Int.le_ediv_of_mul_le hq' h1

/-- A double divided exactly truncates as the exact quotient does. -/
theorem fl_trunc (t : Int) (m : Nat) (hm : 0 < m) (ht : t.natAbs < 2 ^ 53) : Int.tdiv (fl t m).1 ((fl t m).2 : Int) = Int.tdiv t m := by
  have hmQ : (0 : ℚ) < m := by exact_mod_cast hm
  have hp := fl_pos t m
  by_cases hz : t = 0
  · subst hz; simp [fl]
  by_cases hd : (m : Int) ∣ t
  · obtain ⟨k, e, _⟩ := fl_small t m hm hz ht
    obtain ⟨j, hj⟩ := hd
    rw [e]
    dsimp only
    have e2 : t * 2 ^ k = j * 2 ^ k * (m : Int) := by rw [hj]; ring
    rw [e2, quoEven_exact _ _ hm, hj]
    have e3 : ((2 ^ k : Nat) : Int) = 2 ^ k := by push_cast; rfl
    rw [e3, Int.mul_tdiv_cancel _ (by positivity), Int.mul_tdiv_cancel_left _ (by omega)]
  · have h1 := fl_near t m hm
    have h2 : |(t : ℚ)| < 2 ^ 53 := by
      have : ((t.natAbs : Nat) : ℚ) < ((2 ^ 53 : Nat) : ℚ) := by exact_mod_cast ht
      rw [Nat.cast_natAbs] at this
      push_cast at this
      exact this
    have h3 : |fracVal (fl t m) - (t : ℚ) / m| < 1 / m := by
      refine lt_of_le_of_lt h1 ?_
      rw [abs_div, abs_of_pos hmQ, div_div, div_lt_div_iff₀ (by positivity) hmQ]
      have := mul_lt_mul_of_pos_right h2 hmQ
      linarith
    have h3 := abs_lt.mp h3
    have hqQ : (0 : ℚ) < ((fl t m).2 : ℚ) := by exact_mod_cast hp
    have hval : fracVal (fl t m) * ((fl t m).2 : ℚ) = ((fl t m).1 : ℚ) := by
      unfold fracVal
      rw [div_mul_cancel₀ _ (ne_of_gt hqQ)]
    have hnz : t % (m : Int) ≠ 0 := fun h => hd (Int.dvd_of_emod_eq_zero h)
    have hdm := Int.mul_ediv_add_emod t m
    have hlt := Int.emod_lt_of_pos t (b := (m : Int)) (by omega)
    have hge := Int.emod_nonneg t (b := (m : Int)) (by omega)
    -- the exact quotient lies strictly between two integers
    have lo : ((t / (m : Int) : Int) : ℚ) + 1 / m ≤ (t : ℚ) / m := by
      rw [le_div_iff₀ hmQ, add_mul, one_div, inv_mul_cancel₀ (ne_of_gt hmQ)]
      have : (m : Int) * (t / m) + 1 ≤ t := by omega
      have : (m : ℚ) * ((t / (m : Int) : Int) : ℚ) + 1 ≤ t := by exact_mod_cast this
      linarith
    have hi : (t : ℚ) / m ≤ ((t / (m : Int) : Int) : ℚ) + 1 - 1 / m := by
      rw [div_le_iff₀ hmQ, sub_mul, add_mul, one_div, inv_mul_cancel₀ (ne_of_gt hmQ)]
      have : t + 1 ≤ (m : Int) * (t / m) + m := by omega
      have : (t : ℚ) + 1 ≤ (m : ℚ) * ((t / (m : Int) : Int) : ℚ) + m := by exact_mod_cast this
      linarith
    have blo : (t / (m : Int)) * ((fl t m).2 : Int) < (fl t m).1 := by
      have : ((t / (m : Int) : Int) : ℚ) * ((fl t m).2 : ℚ) < ((fl t m).1 : ℚ) := by
        rw [← hval]
        exact mul_lt_mul_of_pos_right (by linarith) hqQ
      exact_mod_cast this
    have bhi : (fl t m).1 < (t / (m : Int) + 1) * ((fl t m).2 : Int) := by
      have : ((fl t m).1 : ℚ) < (((t / (m : Int) : Int) : ℚ) + 1) * ((fl t m).2 : ℚ) := by
        rw [← hval]
        exact mul_lt_mul_of_pos_right (by linarith) hqQ
      exact_mod_cast this
    rcases Int.lt_or_le t 0 with hneg | hnn
    · have hK : t / (m : Int) < 0 := Int.ediv_neg_of_neg_of_pos hneg (by omega)
      have e1 : Int.tdiv (-(fl t m).1) ((fl t m).2 : Int) = -(t / (m : Int) + 1) := by
        apply tdiv_of_bounds (by omega) hp
        · have : -(t / (m : Int) + 1) * ((fl t m).2 : Int) = -((t / (m : Int) + 1) * ((fl t m).2 : Int)) := Int.neg_mul _ _
          omega
        · have : (-(t / (m : Int) + 1) + 1) * ((fl t m).2 : Int) = -((t / (m : Int)) * ((fl t m).2 : Int)) := by ring
          omega
      have e2 : Int.tdiv (-t) (m : Int) = -(t / (m : Int) + 1) := by
        apply tdiv_of_bounds (by omega) hm
        · have : -(t / (m : Int) + 1) * (m : Int) = -((m : Int) * (t / m)) - m := by ring
          omega
        · have : (-(t / (m : Int) + 1) + 1) * (m : Int) = -((m : Int) * (t / m)) := by ring
          omega
      rw [Int.neg_tdiv] at e1 e2
      omega
    · have hK : 0 ≤ t / (m : Int) := Int.ediv_nonneg hnn (by omega)
      rw [tdiv_of_bounds hK hp (Int.le_of_lt blo) bhi, Int.tdiv_eq_ediv_of_nonneg hnn]

end Verif
