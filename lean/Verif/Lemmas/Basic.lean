import Verif.Go.Basic
import Mathlib.Tactic.Ring
import Mathlib.Tactic.Linarith
/-! Lemmas about digit strings and binary search. -/
namespace Verif

theorem digitChar_toNat {d : Nat} (h : d < 10) : (digitChar d).toNat = 48 + d := by
  have : d = 0 ∨ d = 1 ∨ d = 2 ∨ d = 3 ∨ d = 4 ∨ d = 5 ∨ d = 6 ∨ d = 7 ∨ d = 8 ∨ d = 9 := by omega
  rcases this with h | h | h | h | h | h | h | h | h | h <;> subst h <;> rfl

@[simp] theorem digitVal_digitChar {d : Nat} (h : d < 10) : digitVal (digitChar d) = d := by
  unfold digitVal; rw [digitChar_toNat h]; omega

@[simp] theorem isDigit_digitChar {d : Nat} (h : d < 10) : isDigit (digitChar d) = true := by
  unfold isDigit; rw [digitChar_toNat h]; simp; omega

theorem isDigit_iff {c : Char} : isDigit c = true ↔ 48 ≤ c.toNat ∧ c.toNat ≤ 57 := by
  simp [isDigit]

theorem isDigit_ne {c d : Char} (h : isDigit c = true) (hd : isDigit d = false) : c ≠ d := by
  intro e; subst e; simp_all

@[simp] theorem not_isDigit_dot : isDigit '.' = false := by decide
@[simp] theorem not_isDigit_minus : isDigit '-' = false := by decide
@[simp] theorem not_isDigit_plus : isDigit '+' = false := by decide

theorem strNat_foldl (s : Str) (a : Nat) :
    s.foldl (fun a c => a * 10 + digitVal c) a = a * 10 ^ s.length + strNat s := by
  unfold strNat
  induction s generalizing a with
  | nil => simp
  | cons c s ih =>
    simp only [List.foldl_cons, List.length_cons]
    rw [ih, ih (0 * 10 + digitVal c)]
    ring

theorem strNat_append (s t : Str) : strNat (s ++ t) = strNat s * 10 ^ t.length + strNat t := by
  conv_lhs => unfold strNat
  rw [List.foldl_append, strNat_foldl]; rfl

@[simp] theorem strNat_nil : strNat [] = 0 := rfl
@[simp] theorem strNat_singleton (c : Char) : strNat [c] = digitVal c := by simp [strNat]

theorem strNat_cons (c : Char) (s : Str) : strNat (c :: s) = digitVal c * 10 ^ s.length + strNat s := by
  rw [show c :: s = [c] ++ s from rfl, strNat_append]; simp

@[simp] theorem strNat_natStr (n : Nat) : strNat (natStr n) = n := by
  induction n using Nat.strongRecOn with
  | ind n ih =>
    unfold natStr
    split
    · rename_i h; simp [digitVal_digitChar h]
    · rw [strNat_append, ih _ (by omega)]
      simp [digitVal_digitChar (Nat.mod_lt n (by omega : 10 > 0))]; omega

theorem natStr_allDigits (n : Nat) : (natStr n).all isDigit = true := by
  induction n using Nat.strongRecOn with
  | ind n ih =>
    unfold natStr
    split
    · rename_i h; simp [isDigit_digitChar h]
    · rw [List.all_append, ih _ (by omega)]
      simp [isDigit_digitChar (Nat.mod_lt n (by omega : 10 > 0))]

theorem natStr_ne_nil (n : Nat) : natStr n ≠ [] := by
  unfold natStr; split <;> simp

theorem natStr_length_pos (n : Nat) : 0 < (natStr n).length :=
  List.length_pos_iff.mpr (natStr_ne_nil n)

/-- Length of the decimal representation: `natStr n` has `k+1` digits iff `10^k ≤ n < 10^(k+1)` (or `n = 0`, one digit). -/
theorem natStr_length (n k : Nat) (hlo : k = 0 ∨ 10 ^ k ≤ n) (hhi : n < 10 ^ (k + 1)) :
    (natStr n).length = k + 1 := by
  induction k generalizing n with
  | zero => unfold natStr; simp at hhi; simp [hhi]
  | succ k ih =>
    have h1 : 10 ^ (k+1) ≤ n := by rcases hlo with h | h; · omega
                                   · exact h
    have h10 : ¬ n < 10 := by
      have : 10 ^ 1 ≤ 10 ^ (k+1) := Nat.pow_le_pow_right (by omega) (by omega)
      omega
    unfold natStr
    simp only [h10, if_false, List.length_append, List.length_singleton]
    rw [ih (n / 10)]
    · right
      rw [Nat.pow_succ] at h1
      omega
    · rw [Nat.pow_succ] at hhi
      omega

theorem natStr_length_le (n k : Nat) (h : n < 10 ^ k) (hk : 0 < k) : (natStr n).length ≤ k := by
  induction k generalizing n with
  | zero => omega
  | succ k ih =>
    unfold natStr
    split
    · simp
    · rename_i h10
      rcases Nat.eq_zero_or_pos k with rfl | hk'
      · simp at h; omega
      · have : n / 10 < 10 ^ k := by rw [Nat.pow_succ] at h; omega
        have := ih (n/10) this hk'
        simp; omega

@[simp] theorem length_rep (n : Nat) (c : Char) : (rep n c).length = n := by simp [rep]

theorem strNat_rep_zero (n : Nat) : strNat (rep n '0') = 0 := by
  induction n with
  | zero => rfl
  | succ n ih =>
    show strNat ('0' :: rep n '0') = 0
    rw [strNat_cons, ih]; simp [digitVal]

theorem rep_zero_allDigits (n : Nat) : (rep n '0').all isDigit = true := by
  simp [rep, List.all_replicate]
  right; decide

theorem strNat_lt (s : Str) (h : s.all isDigit = true) : strNat s < 10 ^ s.length := by
  induction s with
  | nil => simp
  | cons c s ih =>
    simp only [List.all_cons, Bool.and_eq_true] at h
    rw [strNat_cons, List.length_cons, Nat.pow_succ]
    have := ih h.2
    have hc := isDigit_iff.mp h.1
    have : digitVal c ≤ 9 := by unfold digitVal; omega
    nlinarith [Nat.pos_of_ne_zero (by positivity : (10:Nat) ^ s.length ≠ 0)]

/-! ### splitOn -/

theorem splitOn_ne_nil (sep : Char) (s : Str) : splitOn sep s ≠ [] := by
  cases s with
  | nil => simp [splitOn]
  | cons c cs => unfold splitOn; split; · simp
                 · split <;> simp

theorem splitOn_noSep (sep : Char) (s : Str) (h : sep ∉ s) : splitOn sep s = [s] := by
  induction s with
  | nil => rfl
  | cons c cs ih =>
    simp at h
    unfold splitOn
    rw [if_neg (fun e => h.1 e.symm), ih h.2]

theorem splitOn_append_sep (sep : Char) (s t : Str) (h : sep ∉ s) :
    splitOn sep (s ++ sep :: t) = s :: splitOn sep t := by
  induction s with
  | nil => simp [splitOn]
  | cons c cs ih =>
    simp at h
    rw [List.cons_append, splitOn, if_neg (fun e => h.1 e.symm), ih h.2]

theorem joinWith_cons (sep a : Str) (l : List Str) (h : l ≠ []) :
    joinWith sep (a :: l) = a ++ sep ++ joinWith sep l := by
  cases l with
  | nil => exact absurd rfl h
  | cons b t => rfl

/-- `strings.Join(strings.Split(s, sep), sep) = s`. -/
theorem joinWith_splitOn (sep : Char) (s : Str) : joinWith [sep] (splitOn sep s) = s := by
  induction s with
  | nil => rfl
  | cons c cs ih =>
    unfold splitOn
    split
    · rename_i h
      rw [joinWith_cons _ _ _ (splitOn_ne_nil _ _), ih]; simp [h]
    · rcases hs : splitOn sep cs with _ | ⟨h, t⟩
      · exact absurd hs (splitOn_ne_nil _ _)
      · rw [hs] at ih
        simp only
        cases t with
        | nil => simp [joinWith] at ih ⊢; exact ih
        | cons b t => simp [joinWith] at ih ⊢; exact ih

theorem perm_sum_int {l l' : List Int} (h : l.Perm l') : l.sum = l'.sum := by
  induction h with
  | nil => rfl
  | cons x _ ih => simp [ih]
  | swap x y l => simp; ring
  | trans _ _ ih1 ih2 => rw [ih1, ih2]

/-! ### Binary search -/

/-- Specification of `sort.Search` for a monotone predicate. -/
theorem searchLoop_spec (f : Nat → Bool) (n i j : Nat) (hij : i ≤ j) (hj : j ≤ n)
    (hlo : ∀ k, k < i → f k = false)
    (hhi : ∀ k, j ≤ k → k < n → f k = true)
    (hmono : ∀ a b, a ≤ b → b < n → f a = true → f b = true) :
    searchLoop f i j ≤ n ∧ i ≤ searchLoop f i j ∧ searchLoop f i j ≤ j ∧
    (∀ k, k < searchLoop f i j → f k = false) ∧
    (∀ k, searchLoop f i j ≤ k → k < n → f k = true) := by
  induction hd : j - i using Nat.strongRecOn generalizing i j with
  | ind d ih =>
    unfold searchLoop
    split
    · rename_i h
      simp only
      split
      · rename_i hf
        have := ih ((i+j)/2 - i) (by omega) i ((i+j)/2) (by omega) (by omega) hlo
          (fun k hk hkn => hmono _ _ hk hkn hf) rfl
        refine ⟨this.1, this.2.1, by omega, this.2.2.2.1, this.2.2.2.2⟩
      · rename_i hf
        have hf' : f ((i+j)/2) = false := by simpa using hf
        have := ih (j - ((i+j)/2+1)) (by omega) ((i+j)/2+1) j (by omega) (by omega)
          (fun k hk => by
            by_contra hne
            have hk1 : f k = true := by simpa using hne
            exact hf (hmono k ((i+j)/2) (by omega) (by omega) hk1)) hhi rfl
        refine ⟨this.1, by omega, this.2.2.1, this.2.2.2.1, this.2.2.2.2⟩
    · rename_i h
      have : i = j := by omega
      subst this
      exact ⟨hj, le_refl _, le_refl _, hlo, hhi⟩

theorem search_spec (n : Nat) (f : Nat → Bool)
    (hmono : ∀ a b, a ≤ b → b < n → f a = true → f b = true) :
    search n f ≤ n ∧ (∀ k, k < search n f → f k = false) ∧
    (∀ k, search n f ≤ k → k < n → f k = true) := by
  have := searchLoop_spec f n 0 n (by omega) (le_refl _) (by omega) (by omega) hmono
  exact ⟨this.1, this.2.2.2.1, this.2.2.2.2⟩

/-- Uniqueness: the result of a monotone search is the least index satisfying the predicate. -/
theorem search_eq (n : Nat) (f : Nat → Bool) (i : Nat) (hi : i ≤ n)
    (hlo : ∀ k, k < i → f k = false) (hhi : ∀ k, i ≤ k → k < n → f k = true) :
    search n f = i := by
  have hm : ∀ a b, a ≤ b → b < n → f a = true → f b = true := by
    intro a b hab hb ha
    by_cases h : i ≤ a
    · exact hhi b (by omega) hb
    · have := hlo a (by omega); simp [this] at ha
  obtain ⟨h1, h2, h3⟩ := search_spec n f hm
  rcases Nat.lt_trichotomy (search n f) i with h | h | h
  · have := hlo _ h; have := h3 _ (le_refl _) (by omega); simp_all
  · exact h
  · have := h2 _ h; have := hhi i (le_refl _) (by omega); simp_all

end Verif
