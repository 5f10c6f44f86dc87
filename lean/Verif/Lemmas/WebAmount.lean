import Verif.Model.WebAmount
import Verif.Lemmas.Amount
/-! Lemmas about JavaScript numbers. -/
namespace Verif

theorem quoEven_cases (n : Int) (m : Nat) (hm : 0 < m) :
    (quoEven n m = n / (m : Int) ∧ 2 * (n % (m : Int)) ≤ m) ∨
    (quoEven n m = n / (m : Int) + 1 ∧ (m : Int) ≤ 2 * (n % (m : Int))) := by
  unfold quoEven
  dsimp only
  split
  · left; exact ⟨rfl, by omega⟩
  · split
    · right; exact ⟨rfl, by omega⟩
    · split
      · left; exact ⟨rfl, by omega⟩
      · right; exact ⟨rfl, by omega⟩

/-- The error of rounding is at most one half. -/
theorem quoEven_near (n : Int) (m : Nat) (hm : 0 < m) :
    2 * (quoEven n m * m) ≤ 2 * n + m ∧ 2 * n ≤ 2 * (quoEven n m * m) + m := by
  have hd := Int.mul_ediv_add_emod n m
  have h0 := Int.emod_nonneg n (b := (m : Int)) (by omega)
  have h1 := Int.emod_lt_of_pos n (b := (m : Int)) (by omega)
  rcases quoEven_cases n m hm with ⟨e, h⟩ | ⟨e, h⟩
  · have e2 : n / (m : Int) * m = m * (n / m) := Int.mul_comm _ _
    rw [e, e2]; omega
  · have e2 : (n / (m : Int) + 1) * m = m * (n / m) + m := by ring
    rw [e, e2]; omega

theorem quoEven_exact (q : Int) (m : Nat) (hm : 0 < m) : quoEven (q * m) m = q := by
  have h1 : q * (m : Int) / m = q := Int.mul_ediv_cancel _ (by omega)
  have h2 : q * (m : Int) % m = 0 := Int.mul_emod_left _ _
  unfold quoEven
  dsimp only
  rw [h1, h2, if_pos (by omega)]

/-- Rounding keeps lower integer bounds. -/
theorem quoEven_ge (n i : Int) (m : Nat) (hm : 0 < m) (h : i * m ≤ n) : i ≤ quoEven n m := by
  have hq : i ≤ n / (m : Int) := (Int.le_ediv_iff_mul_le (by omega)).mpr h
  rcases quoEven_cases n m hm with ⟨e, _⟩ | ⟨e, _⟩ <;> omega

/-- A number more than one half below an integer rounds below it. -/
theorem quoEven_lt (n i : Int) (m : Nat) (hm : 0 < m) (h : 2 * n < 2 * (i * m) - m) : quoEven n m < i := by
  have := (quoEven_near n m hm).1
  by_contra hc
  have h2 : i * (m : Int) ≤ quoEven n m * m := Int.mul_le_mul_of_nonneg_right (by omega) (by omega)
  omega

theorem log2_lt {a k : Nat} (ha : 0 < a) (h : a < 2 ^ (k + 1)) : Nat.log2 a ≤ k := by
  have := (Nat.log2_lt (by omega : a ≠ 0)).mpr h
  omega

/-- Below 2^53 the scaling of `fl` uses a power of two large enough for 53 binary digits. -/
theorem fl_small (n : Int) (m : Nat) (hm : 0 < m) (hn : n ≠ 0) (ha : n.natAbs < 2 ^ 53) :
    ∃ k, fl n m = (quoEven (n * 2 ^ k) m, 2 ^ k) ∧ 2 ^ 52 * m ≤ n.natAbs * 2 ^ k := by
  have hpos : 0 < n.natAbs := by omega
  have hla : Nat.log2 n.natAbs ≤ 52 := log2_lt hpos ha
  unfold fl
  rw [if_neg hn]
  dsimp only
  rw [if_pos (by omega)]
  split
  · refine ⟨_, rfl, ?_⟩
    have h1 : 2 ^ Nat.log2 n.natAbs ≤ n.natAbs := Nat.log2_self_le (by omega)
    have h2 : m < 2 ^ (Nat.log2 m + 1) := Nat.lt_log2_self
    have h3 : 2 ^ Nat.log2 n.natAbs * 2 ^ (52 + Nat.log2 m - Nat.log2 n.natAbs + 1) = 2 ^ 52 * 2 ^ (Nat.log2 m + 1) := by
      rw [← Nat.pow_add, ← Nat.pow_add]; congr 1; omega
    calc 2 ^ 52 * m ≤ 2 ^ 52 * 2 ^ (Nat.log2 m + 1) := Nat.mul_le_mul_left _ (by omega)
      _ = _ := h3.symm
      _ ≤ _ := Nat.mul_le_mul_right _ h1
  · exact ⟨_, rfl, by omega⟩

/-- Integers up to 2^53 are doubles. -/
theorem dbl_exact (n : Int) (h : n.natAbs ≤ 2 ^ 53) : dbl n = n := by
  by_cases hn : n = 0
  · subst hn; rfl
  by_cases hs : n.natAbs < 2 ^ 53
  · obtain ⟨k, e, _⟩ := fl_small n 1 (by omega) hn hs
    have hq : quoEven (n * 2 ^ k) 1 = n * 2 ^ k := by simpa using quoEven_exact (n * 2 ^ k) 1 (by omega)
    unfold dbl
    rw [e, hq]
    have : ((2 ^ k : Nat) : Int) = 2 ^ k := by push_cast; rfl
    rw [this]
    exact Int.mul_ediv_cancel _ (by positivity)
  · have : n = 2 ^ 53 ∨ n = -(2 ^ 53) := by omega
    rcases this with e | e <;> subst e <;> decide +kernel

/-- Division of an exact integer followed by `Math.round` is the exact quotient rounded half up, for even divisors and
for 1. -/
theorem mathRound_fl (n : Int) (m : Nat) (hm : m = 1 ∨ (0 < m ∧ m % 2 = 0)) (ha : n.natAbs < 2 ^ 53) :
    mathRound (fl n m) = (2 * n + m) / (2 * m) := by
  have hm0 : 0 < m := by omega
  by_cases hn : n = 0
  · subst hn
    have : fl 0 m = (0, 1) := by simp [fl]
    rw [this]
    show (1 : Int) / 2 = _
    symm
    rw [Int.ediv_eq_iff_of_pos (by omega)]
    omega
  obtain ⟨k, e, hk⟩ := fl_small n m hm0 hn ha
  rw [e]
  unfold mathRound
  dsimp only
  have hden : ((2 ^ k : Nat) : Int) = 2 ^ k := by push_cast; rfl
  rcases hm with h1 | ⟨_, h2⟩
  · subst h1
    have hq : quoEven (n * 2 ^ k) 1 = n * 2 ^ k := by simpa using quoEven_exact (n * 2 ^ k) 1 (by omega)
    rw [hq]
    have hp : (0 : Int) < 2 ^ k := by positivity
    rw [Int.ediv_eq_iff_of_pos (by rw [hden]; omega)]
    have : (2 * n + ((1 : Nat) : Int)) / (2 * ((1 : Nat) : Int)) = n := by omega
    rw [this, hden]
    have e1 : n * (2 * (2 : Int) ^ k) = 2 * (n * 2 ^ k) := by ring
    constructor
    · rw [e1]; omega
    · rw [e1]; omega
  · have hk0 : k ≠ 0 := by
      intro h0; subst h0; simp only [Nat.pow_zero, Nat.mul_one] at hk; omega
    obtain ⟨k', rfl⟩ := Nat.exists_eq_succ_of_ne_zero hk0
    -- let D = 2^k'; the denominator is 2 D
    have hD : (0 : Int) < 2 ^ k' := by positivity
    have hpow : (2 : Int) ^ (k' + 1) = 2 * 2 ^ k' := by ring
    have hmD : (m : Int) < 4 * 2 ^ k' := by
      have h3 : 2 ^ 52 * m < 2 ^ 53 * 2 ^ (k' + 1) :=
        lt_of_le_of_lt hk (Nat.mul_lt_mul_of_pos_right ha (by positivity))
      have h4 : m < 2 * 2 ^ (k' + 1) := by
        have : 2 ^ 53 * 2 ^ (k' + 1) = 2 ^ 52 * (2 * 2 ^ (k' + 1)) := by ring
        rw [this] at h3
        exact Nat.lt_of_mul_lt_mul_left h3
      have h5 : ((m : Nat) : Int) < ((2 * 2 ^ (k' + 1) : Nat) : Int) := by exact_mod_cast h4
      push_cast at h5
      rw [hpow] at h5
      omega
    simp only [Nat.succ_eq_add_one]
    rw [hden, hpow]
    generalize hDe : (2 : Int) ^ k' = D at *
    generalize hj : (2 * n + (m : Int)) / (2 * (m : Int)) = j
    rw [Int.ediv_eq_iff_of_pos (by omega)] at hj
    obtain ⟨hj1, hj2⟩ := hj
    have hlo : (2 * j - 1) * D ≤ quoEven (n * (2 * D)) m := by
      apply quoEven_ge _ _ _ hm0
      have : (2 * j - 1) * (m : Int) ≤ 2 * n := by nlinarith
      have := Int.mul_le_mul_of_nonneg_right this (by omega : (0 : Int) ≤ D)
      nlinarith
    have hhi : quoEven (n * (2 * D)) m < (2 * j + 1) * D := by
      apply quoEven_lt _ _ _ hm0
      have hgap : 2 * n + 2 ≤ (2 * j + 1) * (m : Int) := by
        have e3 : (2 * j + 1) * (m : Int) = 2 * (j * m) + m := by ring
        have e4 : j * (2 * (m : Int)) = 2 * (j * m) := by ring
        have h6 : (m : Int) % 2 = 0 := by omega
        omega
      have := Int.mul_le_mul_of_nonneg_right hgap (by omega : (0 : Int) ≤ D)
      nlinarith
    rw [Int.ediv_eq_iff_of_pos (by omega)]
    constructor
    · nlinarith
    · nlinarith

end Verif
