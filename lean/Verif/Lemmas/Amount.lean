import Verif.Lemmas.Basic
import Verif.Model.Amount
import Mathlib.Tactic.IntervalCases
/-! Lemmas about the amount model. -/
namespace Verif

theorem bigPow10_ok {i : Nat} (h : i ≤ 50) : bigPow10 i = .ok (10 ^ i) := by
  unfold bigPow10 bigPow10s
  split
  · have : i = 0 := by omega
    subst this; rfl
  · rw [if_pos (by omega)]
    congr 2; omega

theorem bigPow10_panic {i : Nat} (h : 50 < i) : bigPow10 i = .error .panic := by
  unfold bigPow10
  rw [if_neg (by omega), if_neg (by omega)]

theorem pow10_pos (d : Nat) : 0 < 10 ^ d := by positivity

/-- Printed form of `int / 10^d` with `d` fraction digits. -/
theorem floatString_pow (n : Int) (d : Nat) :
    floatString n (10 ^ d) d =
      (if n < 0 then ['-'] else []) ++ natStr (n.natAbs / 10 ^ d) ++
      (if d > 0 then '.' :: (rep (d - (natStr (n.natAbs % 10 ^ d)).length) '0' ++ natStr (n.natAbs % 10 ^ d)) else []) := by
  unfold floatString
  have hp := pow10_pos d
  have h1 : n.natAbs % 10 ^ d * 10 ^ d / 10 ^ d = n.natAbs % 10 ^ d := Nat.mul_div_cancel _ hp
  have h2 : n.natAbs % 10 ^ d * 10 ^ d % 10 ^ d = 0 := Nat.mul_mod_left _ _
  simp only [h1, h2]
  have : ¬ (10 ^ d ≤ 0 + 0) := by omega
  simp [this]

theorem string_ok (a : Amount) (h : a.com.decimals ≤ 50) :
    a.string = .ok (floatString a.int (10 ^ a.com.decimals) a.com.decimals) := by
  unfold Amount.string
  rw [bigPow10_ok h]; rfl

/-- digits of the fraction part -/
def fracStr (n d : Nat) : Str := rep (d - (natStr (n % 10 ^ d)).length) '0' ++ natStr (n % 10 ^ d)

theorem fracStr_length (n d : Nat) (h : 0 < d) : (fracStr n d).length = d := by
  have := natStr_length_le (n % 10 ^ d) d (Nat.mod_lt _ (pow10_pos d)) h
  simp [fracStr]; omega

theorem fracStr_val (n d : Nat) : strNat (fracStr n d) = n % 10 ^ d := by
  simp [fracStr, strNat_append, strNat_rep_zero]

theorem fracStr_digits (n d : Nat) : (fracStr n d).all isDigit = true := by
  simp only [fracStr, List.all_append, rep_zero_allDigits, natStr_allDigits, Bool.and_self]

theorem not_mem_of_digits {s : Str} {c : Char} (h : s.all isDigit = true) (hc : isDigit c = false) : c ∉ s := by
  intro hm
  have := List.all_eq_true.mp h c hm
  simp_all

/-- ParseInt on an unsigned digit string. -/
theorem parseInt64_digits (s : Str) (hd : s.all isDigit = true) (hne : s ≠ []) :
    parseInt64 s = if strNat s < 2 ^ 63 then .ok (strNat s : Int) else .error .err := by
  unfold parseInt64
  cases s with
  | nil => exact absurd rfl hne
  | cons c s =>
    have hc : isDigit c = true := by simp at hd; exact hd.1
    have h1 : c ≠ '-' := isDigit_ne hc (by decide)
    have h2 : c ≠ '+' := isDigit_ne hc (by decide)
    split
    rename_i neg ds heq
    have : neg = false ∧ ds = c :: s := by
      split at heq
      · rename_i h; simp at h; exact absurd h.1 h1
      · rename_i h; simp at h; exact absurd h.1 h2
      · simp at heq; exact ⟨heq.1, heq.2.symm⟩
    obtain ⟨rfl, rfl⟩ := this
    simp only [hd, if_true]
    simp

/-- ParseInt on a negative digit string. -/
theorem parseInt64_neg (s : Str) (hd : s.all isDigit = true) (hne : s ≠ []) :
    parseInt64 ('-' :: s) = if strNat s ≤ 2 ^ 63 then .ok (-(strNat s : Int)) else .error .err := by
  unfold parseInt64
  simp [hd, hne]

theorem adjustedTo_same (a b : Amount) (h : b.com.decimals = a.com.decimals) : b.adjustedTo a = .ok b.int := by
  unfold Amount.adjustedTo; simp [h]

theorem addIn_same (conv) (a b : Amount) (h : a.com = b.com) : a.addIn conv b = .ok ⟨a.int + b.int, a.com⟩ := by
  unfold Amount.addIn
  simp [h, adjustedTo_same a b (by rw [h]), Except.bind]

theorem sumInto_same (conv) (c : Com) (t : Amount) (l : List Amount) (ht : t.com = c) (hl : ∀ q ∈ l, q.com = c) :
    sumInto conv t l = .ok ⟨t.int + (l.map (·.int)).sum, c⟩ := by
  induction l generalizing t with
  | nil => simp [sumInto, ← ht]
  | cons q qs ih =>
    unfold sumInto
    rw [addIn_same conv t q (by rw [ht, hl q (by simp)])]
    show sumInto conv _ qs = _
    rw [ih _ (by exact ht) (fun q hq => hl q (by simp [hq]))]
    simp; ring

theorem intCmp_zero {x y : Int} : intCmp x y = 0 ↔ x = y := by unfold intCmp; split <;> [omega; split <;> omega]
theorem intCmp_neg {x y : Int} : intCmp x y < 0 ↔ x < y := by unfold intCmp; split <;> [omega; split <;> omega]
theorem intCmp_pos {x y : Int} : intCmp x y > 0 ↔ x > y := by unfold intCmp; split <;> [omega; split <;> omega]

theorem bigLog10Loop_ok (x n i k : Nat) (hk : k < n) (hlo : ∀ j, j < k → bigPow10s (i + j) ≤ x)
    (hhi : x < bigPow10s (i + k)) : bigLog10Loop x i n = .ok (i + k) := by
  induction n generalizing i k with
  | zero => omega
  | succ n ih =>
    unfold bigLog10Loop
    cases k with
    | zero => simp at hhi; simp [hhi]
    | succ k =>
      have h0 := hlo 0 (by omega)
      simp at h0
      rw [if_neg (by omega), ih (i+1) k (by omega)]
      · congr 1; omega
      · intro j hj; have := hlo (j+1) (by omega); rw [show i + 1 + j = i + (j+1) by omega]; exact this
      · rw [show i + 1 + k = i + (k+1) by omega]; exact hhi

theorem bigLog10Loop_panic (x n i : Nat) (h : ∀ j, j < n → bigPow10s (i + j) ≤ x) :
    bigLog10Loop x i n = .error .panic := by
  induction n generalizing i with
  | zero => rfl
  | succ n ih =>
    unfold bigLog10Loop
    have h0 := h 0 (by omega); simp at h0
    rw [if_neg (by omega), ih]
    intro j hj; have := h (j+1) (by omega); rw [show i + 1 + j = i + (j+1) by omega]; exact this

/-- Every number below `10^50` has a decimal logarithm. -/
theorem exists_log (x n : Nat) (h : x < 10 ^ (n+1)) : ∃ k, k ≤ n ∧ (k = 0 ∨ 10 ^ k ≤ x) ∧ x < 10 ^ (k + 1) := by
  induction n with
  | zero => exact ⟨0, by omega, .inl rfl, h⟩
  | succ n ih =>
    by_cases hx : x < 10 ^ (n+1)
    · obtain ⟨k, h1, h2, h3⟩ := ih hx; exact ⟨k, by omega, h2, h3⟩
    · exact ⟨n+1, by omega, .inr (by omega), h⟩

theorem pow10_mono {a b : Nat} (h : a ≤ b) : 10 ^ a ≤ 10 ^ b := Nat.pow_le_pow_right (by omega) h

theorem bigLog10_ok (x : Int) (k : Nat) (hk : k < 50) (hlo : k = 0 ∨ 10 ^ k ≤ x.natAbs) (hhi : x.natAbs < 10 ^ (k+1)) :
    bigLog10 x = .ok k := by
  unfold bigLog10
  have := bigLog10Loop_ok x.natAbs 50 0 k hk (fun j hj => by
    unfold bigPow10s
    rcases hlo with h | h
    · omega
    · exact le_trans (pow10_mono (by omega)) h) (by unfold bigPow10s; simpa using hhi)
  simpa using this

theorem bigLog10_panic (x : Int) (h : 10 ^ 50 ≤ x.natAbs) : bigLog10 x = .error .panic := by
  unfold bigLog10
  exact bigLog10Loop_panic _ _ _ (fun j hj => by unfold bigPow10s; exact le_trans (pow10_mono (by omega)) h)

end Verif
