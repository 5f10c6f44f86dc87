import Verif.Lemmas.Amount
/-!
# Properties C01–C11: amounts
-/
namespace Verif

/-! ## Specification: decimal literals -/

/-- A decimal literal as a user writes it: optional minus sign, integer digits, optional fraction digits. -/
structure Lit where
  neg : Bool
  ip : Str
  fp : Str

/-- At least one integer digit; only digits. -/
def Lit.WF (l : Lit) : Prop := l.ip ≠ [] ∧ l.ip.all isDigit = true ∧ l.fp.all isDigit = true

/-- The text of a literal. -/
def Lit.text (l : Lit) : Str :=
  (if l.neg then ['-'] else []) ++ l.ip ++ (if l.fp = [] then [] else '.' :: l.fp)

/-- The value of the literal is `num / 10^scale`. -/
def Lit.num (l : Lit) : Int := (if l.neg then -1 else 1) * (strNat (l.ip ++ l.fp) : Int)
def Lit.scale (l : Lit) : Nat := l.fp.length

/-- The digits, read as one integer, fit a signed 64-bit integer. -/
def Lit.fits (l : Lit) : Prop := -(2 ^ 63) ≤ l.num ∧ l.num < 2 ^ 63

theorem Lit.parseInt (l : Lit) (h : l.WF) (hf : l.fits) :
    parseInt64 ((if l.neg then ['-'] else []) ++ (l.ip ++ l.fp)) = .ok l.num := by
  have hd : (l.ip ++ l.fp).all isDigit = true := by simp only [List.all_append, h.2.1, h.2.2, Bool.and_self]
  have hne : l.ip ++ l.fp ≠ [] := by simp [h.1]
  unfold Lit.fits at hf
  rcases hn : l.neg
  · simp only [Lit.num, hn] at hf ⊢
    simp only [List.nil_append, Bool.false_eq_true, if_false] at hf ⊢
    rw [parseInt64_digits _ hd hne, if_pos (by omega)]; simp
  · simp only [Lit.num, hn] at hf ⊢
    simp only [if_true, List.singleton_append] at hf ⊢
    rw [parseInt64_neg _ hd hne, if_pos (by omega)]; simp

theorem Lit.parseInt_err (l : Lit) (h : l.WF) (hf : ¬ l.fits) :
    parseInt64 ((if l.neg then ['-'] else []) ++ (l.ip ++ l.fp)) = .error .err := by
  have hd : (l.ip ++ l.fp).all isDigit = true := by simp only [List.all_append, h.2.1, h.2.2, Bool.and_self]
  have hne : l.ip ++ l.fp ≠ [] := by simp [h.1]
  unfold Lit.fits at hf
  rcases hn : l.neg
  · simp only [Lit.num, hn] at hf ⊢
    simp only [List.nil_append, Bool.false_eq_true, if_false] at hf ⊢
    rw [parseInt64_digits _ hd hne, if_neg (by omega)]
  · simp only [Lit.num, hn] at hf ⊢
    simp only [if_true, List.singleton_append] at hf ⊢
    rw [parseInt64_neg _ hd hne, if_neg (by omega)]

theorem Lit.split (l : Lit) (h : l.WF) :
    splitOn '.' l.text =
      if l.fp = [] then [(if l.neg then ['-'] else []) ++ l.ip] else [(if l.neg then ['-'] else []) ++ l.ip, l.fp] := by
  have h1 : '.' ∉ (if l.neg then ['-'] else []) ++ l.ip := by
    have := not_mem_of_digits h.2.1 not_isDigit_dot
    rcases l.neg <;> simp [this]
  have h2 : '.' ∉ l.fp := not_mem_of_digits h.2.2 not_isDigit_dot
  unfold Lit.text
  by_cases h0 : l.fp = []
  · simp only [h0, if_true]
    rw [List.append_nil, splitOn_noSep _ _ h1]
  · simp only [h0, if_false]
    rw [splitOn_append_sep _ _ _ h1, splitOn_noSep _ _ h2]

/-- What `parseAmount` computes for a literal of any number of fraction digits up to 50. -/
theorem parseAmount_lit (l : Lit) (c : Com) (h : l.WF) (hf : l.fits) (hc : c.decimals ≤ 50) (hs : l.scale ≤ 50) :
    parseAmount l.text c = .ok ⟨l.num * 10 ^ c.decimals / 10 ^ l.scale, c⟩ := by
  unfold parseAmount
  rw [l.split h]
  have hp := l.parseInt h hf
  by_cases h0 : l.fp = []
  · simp only [h0, List.append_nil, if_true] at hp ⊢
    rw [hp]
    simp only [bind, Except.bind, pure, Except.pure, Lit.scale, h0, List.length_nil, pow_zero, Int.ediv_one]
    split
    · rw [bigPow10_ok hc]; simp
    · have : c.decimals = 0 := by omega
      simp [this]
  · simp only [h0, if_false, List.append_assoc] at hp ⊢
    rw [hp]
    simp only [bind, Except.bind, pure, Except.pure]
    unfold Lit.scale at hs ⊢
    split
    · rw [bigPow10_ok hc, bigPow10_ok hs]; simp
    · rename_i hne
      have : c.decimals = l.fp.length := by simpa using hne
      rw [this, Int.mul_ediv_cancel _ (by positivity)]

/-! ## C02 -/

/-- **C02** A literal with no more fraction digits than the commodity has decimals is read exactly:
the result is the commodity's amount whose value `int / 10^decimals` equals `num / 10^scale`;
if its digits do not fit 64 bits an error is returned – never a wrong value. -/
theorem C02_parse_exact (l : Lit) (c : Com) (h : l.WF) (hc : c.decimals ≤ 50) (hs : l.scale ≤ c.decimals) :
    (l.fits → ∃ a, parseAmount l.text c = .ok a ∧ a.com = c ∧ a.int * 10 ^ l.scale = l.num * 10 ^ c.decimals) ∧
    (¬ l.fits → parseAmount l.text c = .error .err) := by
  constructor
  · intro hf
    refine ⟨_, parseAmount_lit l c h hf hc (by omega), rfl, ?_⟩
    simp only
    have : (10 : Int) ^ c.decimals = 10 ^ (c.decimals - l.scale) * 10 ^ l.scale := by
      rw [← pow_add]; congr 1; omega
    rw [this, ← mul_assoc, Int.mul_ediv_cancel _ (by positivity)]
  · intro hf
    have hp := l.parseInt_err h hf
    unfold parseAmount
    rw [l.split h]
    by_cases h0 : l.fp = []
    · simp only [h0, List.append_nil, if_true] at hp ⊢
      rw [hp]; rfl
    · simp only [h0, if_false, List.append_assoc] at hp ⊢
      rw [hp]; rfl

/-- Non-vacuity: "-12.5" with two decimals. -/
example : let l : Lit := ⟨true, ['1', '2'], ['5']⟩
    l.WF ∧ l.fits ∧ l.text = str "-12.5" ∧ parseAmount l.text ⟨0, str "CAD", 2⟩ = .ok ⟨-1250, ⟨0, str "CAD", 2⟩⟩ := by
  refine ⟨⟨by decide, by decide, by decide⟩, ⟨by decide, by decide⟩, by decide, by decide⟩

/-! ## C01 -/

/-- **C01** Printing an amount and parsing the printed number with the same commodity gives the amount back,
for every amount whose digits fit a signed 64-bit integer and commodity of at most 50 decimals. -/
theorem C01_print_parse (a : Amount) (hd : a.com.decimals ≤ 50) (hlo : -(2 ^ 63) ≤ a.int) (hhi : a.int < 2 ^ 63) :
    ∃ s, a.string = .ok s ∧ parseAmount s a.com = .ok a := by
  refine ⟨_, string_ok a hd, ?_⟩
  rw [floatString_pow]
  have key : ∃ l : Lit, l.WF ∧ l.num = a.int ∧ l.scale = a.com.decimals ∧
      l.text = (if a.int < 0 then ['-'] else []) ++ natStr (a.int.natAbs / 10 ^ a.com.decimals) ++
      (if a.com.decimals > 0 then '.' :: fracStr a.int.natAbs a.com.decimals else []) := by
    refine ⟨⟨decide (a.int < 0), natStr (a.int.natAbs / 10 ^ a.com.decimals),
      if a.com.decimals > 0 then fracStr a.int.natAbs a.com.decimals else []⟩, ?_, ?_, ?_, ?_⟩
    · refine ⟨natStr_ne_nil _, natStr_allDigits _, ?_⟩
      simp only; split
      · exact fracStr_digits _ _
      · rfl
    · unfold Lit.num
      simp only [decide_eq_true_eq]
      have : strNat (natStr (a.int.natAbs / 10 ^ a.com.decimals) ++
          if a.com.decimals > 0 then fracStr a.int.natAbs a.com.decimals else []) = a.int.natAbs := by
        rw [strNat_append]
        split
        · rename_i h
          rw [fracStr_length _ _ h, fracStr_val, strNat_natStr]
          exact Nat.div_add_mod' _ _
        · rename_i h
          have : a.com.decimals = 0 := by omega
          simp [this]
      rw [this]; split <;> omega
    · unfold Lit.scale; simp only; split
      · rename_i h; exact fracStr_length _ _ h
      · simp; omega
    · unfold Lit.text
      simp only [decide_eq_true_eq]
      congr 1
      by_cases h : a.com.decimals > 0
      · simp only [h, if_true]
        have : fracStr a.int.natAbs a.com.decimals ≠ [] := by
          intro e; have := fracStr_length a.int.natAbs _ h; rw [e] at this; simp at this; omega
        simp [this]
      · simp [h]
  obtain ⟨l, hw, hn, hsc, ht⟩ := key
  unfold fracStr at ht
  rw [← ht, parseAmount_lit l a.com hw (by unfold Lit.fits; omega) hd (by omega), hn, hsc,
    Int.mul_ediv_cancel _ (by positivity)]

/-- `Write` (amount.go:105-108) prints the same number, then a space and the commodity id. -/
theorem C01_write_is_string (a : Amount) :
    a.format none (some a.com.decimals) = a.string := by
  unfold Amount.format Amount.string; rfl

example : (⟨-5, ⟨0, str "CAD", 2⟩⟩ : Amount).string = .ok (str "-0.05") ∧
    parseAmount (str "-0.05") ⟨0, str "CAD", 2⟩ = .ok ⟨-5, ⟨0, str "CAD", 2⟩⟩ := by
  constructor
  · rw [string_ok _ (by decide), floatString_pow]; simp [natStr, rep]; decide
  · decide

/-! ## C03 -/

/-- The full statement of C03: surplus fraction digits are dropped (truncation toward zero), whatever the sign. -/
def C03_Statement : Prop := ∀ (l : Lit) (c : Com) (a : Amount), l.WF → l.fits → c.decimals ≤ 50 → l.scale ≤ 50 →
  parseAmount l.text c = .ok a → a.int = Int.tdiv (l.num * 10 ^ c.decimals) (10 ^ l.scale)

/-- **C03 is false** of the code: `-0.011` with two decimals is read as `-0.02`. -/
theorem C03_excess_digits_violated : ¬ C03_Statement := by
  intro h
  have := h ⟨true, ['0'], ['0', '1', '1']⟩ ⟨0, [], 2⟩ ⟨-2, ⟨0, [], 2⟩⟩ ⟨by decide, by decide, by decide⟩
    ⟨by decide, by decide⟩ (by decide) (by decide) (by decide)
  revert this; decide

/-- **C03 (partial)**: true for non-negative literals; missing: negative literals with surplus digits
(they are rounded down, see `C03_rounds_down`). -/
theorem C03_excess_digits_partial (l : Lit) (c : Com) (a : Amount) (h : l.WF) (hf : l.fits) (hc : c.decimals ≤ 50)
    (hs : l.scale ≤ 50) (hpos : 0 ≤ l.num) (hp : parseAmount l.text c = .ok a) :
    a.com = c ∧ a.int = Int.tdiv (l.num * 10 ^ c.decimals) (10 ^ l.scale) := by
  rw [parseAmount_lit l c h hf hc hs] at hp
  injection hp with hp; subst hp
  refine ⟨rfl, ?_⟩
  simp only
  rw [Int.tdiv_eq_ediv_of_nonneg (by positivity)]

/-- What the code does for every sign: the result is the largest amount not above the literal
(`int/10^decimals ≤ num/10^scale < (int+1)/10^decimals`). -/
theorem C03_rounds_down (l : Lit) (c : Com) (a : Amount) (h : l.WF) (hf : l.fits) (hc : c.decimals ≤ 50)
    (hs : l.scale ≤ 50) (hp : parseAmount l.text c = .ok a) :
    a.int * 10 ^ l.scale ≤ l.num * 10 ^ c.decimals ∧ l.num * 10 ^ c.decimals < (a.int + 1) * 10 ^ l.scale := by
  rw [parseAmount_lit l c h hf hc hs] at hp
  injection hp with hp; subst hp
  simp only
  have hpos : (0 : Int) < 10 ^ l.scale := by positivity
  exact ⟨Int.ediv_mul_le _ (by omega), by
    have := Int.lt_ediv_add_one_mul_self (l.num * 10 ^ c.decimals) hpos; exact this⟩

/-- More than 50 fraction digits make the parser panic (unless the commodity has exactly as many decimals). -/
theorem C03_too_many_digits_panics (l : Lit) (c : Com) (h : l.WF) (hf : l.fits) (hc : c.decimals ≤ 50)
    (hs : 50 < l.scale) : parseAmount l.text c = .error .panic := by
  have hfp : l.fp ≠ [] := by intro e; simp [Lit.scale, e] at hs
  unfold parseAmount
  rw [l.split h]
  have hp := l.parseInt h hf
  simp only [hfp, if_false, List.append_assoc] at hp ⊢
  rw [hp]
  simp only [bind, Except.bind, pure, Except.pure]
  unfold Lit.scale at hs
  rw [if_pos (by omega), bigPow10_ok hc, bigPow10_panic hs]

/-! ## C04 -/

/-- **C04** Adding any amounts of one commodity into a total of that commodity is exact and order independent
(whatever conversion would do for other commodities). -/
theorem C04_addin_exact (conv : Com → Amount → Except Fault Amount) (c : Com) (t : Amount) (l l' : List Amount)
    (ht : t.com = c) (hl : ∀ q ∈ l, q.com = c) (hperm : l'.Perm l) :
    sumInto conv t l = .ok ⟨t.int + (l.map (·.int)).sum, c⟩ ∧ sumInto conv t l' = sumInto conv t l := by
  refine ⟨sumInto_same conv c t l ht hl, ?_⟩
  rw [sumInto_same conv c t l ht hl, sumInto_same conv c t l' ht (fun q hq => hl q (hperm.mem_iff.mp hq))]
  rw [perm_sum_int (hperm.map (·.int))]

example : sumInto (fun _ _ => .error .err) ⟨5, ⟨0, [], 2⟩⟩ [⟨-7, ⟨0, [], 2⟩⟩, ⟨100, ⟨0, [], 2⟩⟩] = .ok ⟨98, ⟨0, [], 2⟩⟩ := by
  decide

/-! ## C05 -/

/-- Full statement of C05: with a direct price `p` (a value in the currency), the amount added differs from the exact
product `b.int * p.int / 10^(decimals of b)`, counted in the smallest units of the total, by less than one unit. -/
def C05_Statement : Prop := ∀ (db : PriceDB) (ord : MapOrder) (fuel : Nat) (a b a' : Amount) (p : Price) (ps : List Price),
  a.com ≠ b.com → lookupPrices (db b.com) a.com = some (p :: ps) → p.value.com = a.com →
  a.com.decimals ≤ 50 → b.com.decimals ≤ 50 → a.addIn (convWith db ord (fuel + 1)) b = .ok a' →
  |(a'.int - a.int) * 10 ^ b.com.decimals - b.int * p.value.int| < 10 ^ b.com.decimals

theorem conv_direct (db : PriceDB) (ord : MapOrder) (fuel : Nat) (c : Com) (b : Amount) (p : Price) (ps : List Price)
    (hne : c ≠ b.com) (hp : lookupPrices (db b.com) c = some (p :: ps)) :
    convWith db ord (fuel + 1) c b = b.times p.value := by
  unfold convWith convert
  rw [convertF]
  simp [hne, hp]

/-- **C05 is false** of the code: one share (no decimals) priced 100.55 adds 100.00. -/
theorem C05_conversion_error_violated : ¬ C05_Statement := by
  intro h
  have := h (fun c => if c = ⟨1, [], 0⟩ then [(⟨0, [], 2⟩, [⟨⟨10055, ⟨0, [], 2⟩⟩, 0⟩])] else []) (fun _ _ => []) 0
    ⟨0, ⟨0, [], 2⟩⟩ ⟨1, ⟨1, [], 0⟩⟩ ⟨10000, ⟨0, [], 2⟩⟩ ⟨⟨10055, ⟨0, [], 2⟩⟩, 0⟩ []
    (by decide) (by decide) (by decide) (by decide) (by decide)
    (by
      unfold Amount.addIn
      rw [conv_direct _ _ _ _ _ ⟨⟨10055, ⟨0, [], 2⟩⟩, 0⟩ [] (by decide) (by decide)]
      decide)
  revert this; decide

theorem tdiv_error (x : Int) (n : Int) (hn : 0 < n) : |Int.tdiv x n * n - x| < n := by
  have h1 : Int.tdiv x n * n = x - Int.tmod x n := by
    have := Int.tmod_add_mul_tdiv x n; rw [mul_comm] at this; omega
  rw [h1]
  rcases le_total 0 x with hx | hx
  · have h2 := Int.tmod_nonneg n hx
    have h3 := Int.tmod_lt_of_pos x hn
    rw [show x - x.tmod n - x = -(x.tmod n) by ring, abs_neg, abs_of_nonneg h2]; exact h3
  · have h2 := Int.tmod_nonneg n (show 0 ≤ -x by omega)
    have h3 := Int.tmod_lt_of_pos (-x) hn
    rw [Int.neg_tmod] at h2 h3
    rw [show x - x.tmod n - x = -(x.tmod n) by ring, abs_of_nonneg h2]; exact h3

theorem tdiv_tdiv (x : Int) (m n : Nat) : Int.tdiv (Int.tdiv x m) n = Int.tdiv x (m * n : Nat) := by
  rcases Int.natAbs_eq x with h | h
  · rw [h, ← Int.ofNat_tdiv, ← Int.ofNat_tdiv, ← Int.ofNat_tdiv, Nat.div_div_eq_div_mul]
  · rw [h, Int.neg_tdiv, Int.neg_tdiv, Int.neg_tdiv, ← Int.ofNat_tdiv, ← Int.ofNat_tdiv, ← Int.ofNat_tdiv,
      Nat.div_div_eq_div_mul]

/-- **C05 (partial)**: less than one unit of the total when the source commodity has at least as many decimals as the
total; in general less than one unit of the *coarser* of the two commodities. Missing: the one-unit bound when the
source has fewer decimals (false, see above). When the conversion fails the total is unchanged and the error reported. -/
theorem C05_conversion_error_partial (db : PriceDB) (ord : MapOrder) (fuel : Nat) (a b : Amount) (p : Price)
    (ps : List Price) (hne : a.com ≠ b.com) (hp : lookupPrices (db b.com) a.com = some (p :: ps))
    (hpc : p.value.com = a.com) (ha : a.com.decimals ≤ 50) (hb : b.com.decimals ≤ 50) :
    ∃ a', a.addIn (convWith db ord (fuel + 1)) b = .ok a' ∧ a'.com = a.com ∧
      (a.com.decimals ≤ b.com.decimals →
        |(a'.int - a.int) * 10 ^ b.com.decimals - b.int * p.value.int| < 10 ^ b.com.decimals) ∧
      |(a'.int - a.int) * 10 ^ b.com.decimals - b.int * p.value.int| <
        10 ^ (max a.com.decimals b.com.decimals) := by
  have hconv := conv_direct db ord fuel a.com b p ps hne hp
  unfold Amount.times at hconv
  rw [hpc, bigPow10_ok ha] at hconv
  have hpow : ∀ n : Nat, ((10 ^ n : Nat) : Int) = 10 ^ n := fun n => by push_cast; rfl
  unfold Amount.addIn
  rw [if_pos hne, hconv]
  simp only [Functor.map, Except.map, bind, Except.bind, pure, Except.pure, Amount.adjustedTo]
  rcases Nat.lt_trichotomy b.com.decimals a.com.decimals with h | h | h
  · rw [if_pos h, bigPow10_ok (by omega)]
    refine ⟨_, rfl, rfl, by omega, ?_⟩
    simp only [hpow]
    rw [max_eq_left (by omega)]
    have he := tdiv_error (b.int * p.value.int) (10 ^ a.com.decimals) (by positivity)
    have hsplit : (10 : Int) ^ (a.com.decimals - b.com.decimals) * 10 ^ b.com.decimals = 10 ^ a.com.decimals := by
      rw [← pow_add]; congr 1; omega
    rw [show ∀ t : Int, (a.int + t * 10 ^ (a.com.decimals - b.com.decimals) - a.int) * 10 ^ b.com.decimals =
      t * (10 ^ (a.com.decimals - b.com.decimals) * 10 ^ b.com.decimals) from fun t => by ring, hsplit]
    exact he
  · rw [if_neg (by omega), if_neg (by omega)]
    have he := tdiv_error (b.int * p.value.int) (10 ^ a.com.decimals) (by positivity)
    refine ⟨_, rfl, rfl, ?_, ?_⟩ <;> simp only [h, hpow, add_sub_cancel_left, max_self] <;> [intro _; skip] <;> exact he
  · rw [if_neg (by omega), if_pos h, bigPow10_ok (by omega)]
    have he := tdiv_error (b.int * p.value.int) (10 ^ b.com.decimals) (by positivity)
    have e : Int.tdiv (Int.tdiv (b.int * p.value.int) ((10 ^ a.com.decimals : Nat) : Int))
        ((10 ^ (b.com.decimals - a.com.decimals) : Nat) : Int) = Int.tdiv (b.int * p.value.int) (10 ^ b.com.decimals) := by
      rw [tdiv_tdiv, ← pow_add, hpow]; congr 2; omega
    refine ⟨_, rfl, rfl, ?_, ?_⟩ <;> simp only [e, add_sub_cancel_left] <;> [intro _; rw [max_eq_right (by omega)]] <;> exact he

/-- On failure `AddIn` leaves the total as it was. -/
theorem C05_failure_unchanged (conv : Com → Amount → Except Fault Amount) (a b : Amount) (f : Fault)
    (hne : a.com ≠ b.com) (h : conv a.com b = .error f) : a.addInState conv b = (a, some f) := by
  unfold Amount.addInState Amount.addIn
  simp [hne, h, bind, Except.bind]

/-! ## C06 -/

/-- Numeric order of amounts, as values `int / 10^decimals`. -/
def NumLt (a b : Amount) : Prop := a.int * 10 ^ b.com.decimals < b.int * 10 ^ a.com.decimals
def NumEq (a b : Amount) : Prop := a.int * 10 ^ b.com.decimals = b.int * 10 ^ a.com.decimals

/-- Full statement of C06: the three comparisons decide numeric order. -/
def C06_Statement : Prop := ∀ a b : Amount, a.com.decimals ≤ 50 → b.com.decimals ≤ 50 →
  (a.isLessThan b = .ok true ↔ NumLt a b) ∧ (a.isEqual b = .ok true ↔ NumEq a b) ∧ (a.isMoreThan b = .ok true ↔ NumLt b a)

/-- **C06 is false** of the code: 1 (no decimals) compares equal to 1.5. -/
theorem C06_compare_violated : ¬ C06_Statement := by
  intro h
  have := (h ⟨1, ⟨0, [], 0⟩⟩ ⟨15, ⟨1, [], 1⟩⟩ (by decide) (by decide)).2.1
  have h2 := this.mp (by decide)
  revert h2; unfold NumEq; decide

theorem adjustedTo_fine (a b : Amount) (ha : a.com.decimals ≤ 50) (h : b.com.decimals ≤ a.com.decimals) :
    b.adjustedTo a = .ok (b.int * 10 ^ (a.com.decimals - b.com.decimals)) := by
  unfold Amount.adjustedTo
  split
  · rw [bigPow10_ok (by omega)]; simp [Functor.map, Except.map]
  · rw [if_neg (by omega)]
    have : a.com.decimals - b.com.decimals = 0 := by omega
    simp [this]

/-- **C06 (partial)**: true whenever the right operand has no more decimals than the left one – in particular for amounts
of one commodity, so there trichotomy, antisymmetry and transitivity hold. Missing: a right operand with more decimals
(it is truncated first). -/
theorem C06_compare_partial (a b : Amount) (ha : a.com.decimals ≤ 50) (h : b.com.decimals ≤ a.com.decimals) :
    (a.isLessThan b = .ok true ↔ NumLt a b) ∧ (a.isEqual b = .ok true ↔ NumEq a b) ∧
    (a.isMoreThan b = .ok true ↔ NumLt b a) := by
  have hsplit : (10 : Int) ^ a.com.decimals = 10 ^ (a.com.decimals - b.com.decimals) * 10 ^ b.com.decimals := by
    rw [← pow_add]; congr 1; omega
  have hpos : (0 : Int) < 10 ^ b.com.decimals := by positivity
  simp only [Amount.isLessThan, Amount.isEqual, Amount.isMoreThan, Amount.cmp, adjustedTo_fine a b ha h, NumLt, NumEq,
    bind, Except.bind, pure, Except.pure, Functor.map, Except.map, Except.ok.injEq, decide_eq_true_eq,
    intCmp_zero, intCmp_neg, intCmp_pos, hsplit, ← mul_assoc]
  refine ⟨?_, ?_, ?_⟩
  · exact ⟨fun h => mul_lt_mul_of_pos_right h hpos, fun h => lt_of_mul_lt_mul_right h (le_of_lt hpos)⟩
  · exact ⟨fun h => by rw [h], fun h => mul_right_cancel₀ (ne_of_gt hpos) h⟩
  · exact ⟨fun h => mul_lt_mul_of_pos_right h hpos, fun h => lt_of_mul_lt_mul_right h (le_of_lt hpos)⟩

/-- Comparison of two amounts with the same decimals never fails and is antisymmetric. -/
theorem C06_compare_antisymm_partial (a b : Amount) (h : a.com.decimals = b.com.decimals) :
    ∃ r, a.cmp b = .ok r ∧ b.cmp a = .ok (-r) := by
  refine ⟨intCmp a.int b.int, ?_, ?_⟩
  · simp [Amount.cmp, adjustedTo_same a b h.symm, bind, Except.bind, pure, Except.pure]
  · simp only [Amount.cmp, adjustedTo_same b a h, bind, Except.bind, pure, Except.pure]
    congr 1; unfold intCmp; split <;> split <;> (try split) <;> omega

example : (⟨150, ⟨0, [], 2⟩⟩ : Amount).isMoreThan ⟨1, ⟨1, [], 0⟩⟩ = .ok true := by decide

/-! ## C07 -/

/-- **C07** Negation is an involution, keeps the commodity, and cancels under `AddIn`. -/
theorem C07_negated (conv : Com → Amount → Except Fault Amount) (a : Amount) :
    a.negated.negated = a ∧ a.negated.com = a.com ∧ a.negated.int = -a.int ∧
    a.addIn conv a.negated = .ok (zeroAmount a.com) ∧ a.copy = a := by
  refine ⟨?_, rfl, rfl, ?_, rfl⟩
  · cases a; simp [Amount.negated]
  · rw [addIn_same conv a a.negated rfl]; simp [Amount.negated, zeroAmount]

/-! ## C08 -/

/-- **C08** For amounts below 10^50 the width at the commodity's own decimals is the length of the printed form. -/
theorem C08_width (a : Amount) (hd : a.com.decimals ≤ 50) (hlt : a.int.natAbs < 10 ^ 50) :
    ∃ s, a.string = .ok s ∧ a.width a.com.decimals = .ok (s.length : Int) := by
  refine ⟨_, string_ok a hd, ?_⟩
  obtain ⟨k, hk, hlo, hhi⟩ := exists_log a.int.natAbs 49 hlt
  unfold Amount.width
  rw [bigLog10_ok a.int k (by omega) hlo hhi, floatString_pow]
  simp only [bind, Except.bind, pure, Except.pure]
  have hint : ((natStr (a.int.natAbs / 10 ^ a.com.decimals)).length : Int) =
      (if (k : Int) + 1 ≤ a.com.decimals then (a.com.decimals : Int) + 1 else (k : Int) + 1) - a.com.decimals := by
    split
    · rename_i h
      have : a.int.natAbs / 10 ^ a.com.decimals = 0 :=
        Nat.div_eq_of_lt (lt_of_lt_of_le hhi (pow10_mono (by omega)))
      rw [this]; simp [natStr]
    · rename_i h
      rw [natStr_length _ (k - a.com.decimals)]
      · omega
      · rcases Nat.eq_zero_or_pos (k - a.com.decimals) with h0 | h0
        · exact .inl h0
        · right
          rw [Nat.le_div_iff_mul_le (pow10_pos _), ← pow_add]
          have : k - a.com.decimals + a.com.decimals = k := by omega
          rw [this]
          rcases hlo with h1 | h1
          · omega
          · exact h1
      · rw [Nat.div_lt_iff_lt_mul (pow10_pos _), ← pow_add]
        have : k - a.com.decimals + 1 + a.com.decimals = k + 1 := by omega
        rw [this]; exact hhi
  have hfrac : ∀ h : a.com.decimals > 0,
      (rep (a.com.decimals - (natStr (a.int.natAbs % 10 ^ a.com.decimals)).length) '0' ++
        natStr (a.int.natAbs % 10 ^ a.com.decimals)).length = a.com.decimals :=
    fun h => fracStr_length _ _ h
  congr 1
  simp only [List.length_append, Nat.cast_add, hint]
  by_cases h0 : a.com.decimals > 0
  · have := hfrac h0
    simp only [h0, if_true, List.length_cons, this]
    split <;> split <;> simp <;> omega
  · have h00 : a.com.decimals = 0 := by omega
    simp only [h00, gt_iff_lt, lt_irrefl, if_false]
    split <;> split <;> simp <;> omega

/-- Outside of that range `Width` panics instead of returning a wrong width. -/
theorem C08_width_panics (a : Amount) (d : Nat) (h : 10 ^ 50 ≤ a.int.natAbs) : a.width d = .error .panic := by
  unfold Amount.width
  rw [bigLog10_panic _ h]; rfl

example : (⟨-5, ⟨0, str "CAD", 2⟩⟩ : Amount).width 2 = .ok 5 := by decide

/-! ## C09 -/

/-- **C09** `bigLog10` is the floor of the decimal logarithm of the absolute value (0 for one digit numbers) below 10^50 and panics from there on. -/
theorem C09_bigLog10 (x : Int) :
    (x.natAbs < 10 ^ 50 → ∃ k, bigLog10 x = .ok k ∧ (x.natAbs < 10 → k = 0) ∧
      (10 ≤ x.natAbs → 10 ^ k ≤ x.natAbs) ∧ x.natAbs < 10 ^ (k + 1)) ∧
    (10 ^ 50 ≤ x.natAbs → bigLog10 x = .error .panic) := by
  refine ⟨fun h => ?_, bigLog10_panic x⟩
  obtain ⟨k, hk, hlo, hhi⟩ := exists_log x.natAbs 49 h
  refine ⟨k, bigLog10_ok x k (by omega) hlo hhi, ?_, ?_, hhi⟩
  · intro h10
    rcases hlo with h | h
    · exact h
    · rcases k with _ | k
      · rfl
      · have := pow10_mono (show 1 ≤ k + 1 by omega); omega
  · intro h10
    rcases hlo with h | h
    · subst h; omega
    · exact h

/-- `bigPow10` is the power of ten up to 50 and panics above. -/
theorem C09_bigPow10 (i : Nat) : (i ≤ 50 → bigPow10 i = .ok (10 ^ i)) ∧ (50 < i → bigPow10 i = .error .panic) :=
  ⟨bigPow10_ok, bigPow10_panic⟩

/-- `pow10` is the power of ten up to 18 (all that fit 64 bits) and panics above. -/
theorem C09_pow10 (i : Nat) : (i ≤ 18 → pow10 i = .ok (10 ^ i)) ∧ (18 < i → pow10 i = .error .panic) := by
  unfold pow10 log10s
  constructor
  · intro h
    rcases i with _ | i
    · simp
    · rw [if_neg (by omega), if_pos (by omega)]
      have : ((i + 1 : Nat) : Int) - 1 = (i : Int) := by omega
      rw [this]; simp
  · intro h
    rw [if_neg (by omega), if_neg (by omega)]

/-- `log10` is the floor of the decimal logarithm for every positive 64-bit integer. -/
theorem C09_log10 (i : Int) (hpos : 0 < i) (hlt : i < 2 ^ 63) :
    10 ^ log10 i ≤ i ∧ i < 10 ^ (log10 i + 1) := by
  unfold log10
  split
  · simp; omega
  split
  · norm_num; omega
  split
  · norm_num; omega
  split
  · norm_num; omega
  rename_i h1 h2 h3 h4
  have hm : ∀ a b, a ≤ b → b < 18 → decide (i < (log10s a : Int)) = true → decide (i < (log10s b : Int)) = true := by
    intro a b hab _ ha
    have : (10 : Nat) ^ (a+1) ≤ 10 ^ (b+1) := pow10_mono (by omega)
    exact decide_eq_true (lt_of_lt_of_le (of_decide_eq_true ha) (by unfold log10s; exact_mod_cast this))
  obtain ⟨hle, hlo, hhi⟩ := search_spec 18 (fun j => decide (i < (log10s j : Int))) hm
  generalize search 18 (fun j => decide (i < (log10s j : Int))) = r at hle hlo hhi
  constructor
  · rcases r with _ | r
    · simp; omega
    · have := hlo r (by omega)
      simp only [log10s] at this
      push_cast at this
      exact not_lt.mp (of_decide_eq_false this)
  · rcases Nat.lt_or_ge r 18 with h | h
    · have := hhi r (le_refl _) h
      simp only [log10s] at this
      push_cast at this
      exact of_decide_eq_true this
    · have : r = 18 := by omega
      subst this; norm_num; omega

/-- Uniqueness of the logarithm, used for `SetFraction`. -/
theorem C09_setFraction (c : Com) (n : Nat) (h : n ≤ 18) : (c.setFraction (10 ^ n)).decimals = n := by
  unfold Com.setFraction
  simp only
  have hlt : (10 : Int) ^ n < 2 ^ 63 := by
    have : (10 : Nat) ^ n ≤ 10 ^ 18 := pow10_mono h
    have h2 : ((10 ^ n : Nat) : Int) ≤ ((10 ^ 18 : Nat) : Int) := by exact_mod_cast this
    push_cast at h2; norm_num at h2 ⊢; omega
  obtain ⟨h1, h2⟩ := C09_log10 (10 ^ n) (by positivity) hlt
  have h1' : (10 : Nat) ^ log10 (10 ^ n) ≤ 10 ^ n := by exact_mod_cast h1
  have h2' : (10 : Nat) ^ n < 10 ^ (log10 (10 ^ n) + 1) := by exact_mod_cast h2
  have a1 := (Nat.pow_le_pow_iff_right (by omega : 1 < 10)).mp h1'
  have a2 := (Nat.pow_lt_pow_iff_right (by omega : 1 < 10)).mp h2'
  omega

example : log10 123456 = 5 ∧ log10 (2 ^ 63 - 1) = 18 := by decide +kernel

/-! ## C10 -/

/-- **C10** `NewAmountFrac(num, den)` with positive denominator is the largest amount of the commodity not above `num/den`. -/
theorem C10_frac_floor (num den : Int) (c : Com) (hd : c.decimals ≤ 50) (hden : 0 < den) :
    ∃ a, newAmountFrac num den c = .ok a ∧ a.com = c ∧
      a.int * den ≤ num * 10 ^ c.decimals ∧ num * 10 ^ c.decimals < (a.int + 1) * den := by
  have key : newAmountFrac num den c = .ok ⟨num * 10 ^ c.decimals / den, c⟩ := by
    unfold newAmountFrac
    split
    · rw [bigPow10_ok hd]
      simp [Functor.map, Except.map, Except.bind, ne_of_gt hden]
    · rename_i h
      have : c.decimals = 0 := by omega
      simp [this, Except.bind, ne_of_gt hden]
  refine ⟨_, key, rfl, ?_, ?_⟩
  · exact Int.ediv_mul_le _ (by omega)
  · exact Int.lt_ediv_add_one_mul_self _ hden

/-- A zero denominator panics. -/
theorem C10_frac_zero_den (num : Int) (c : Com) (hd : c.decimals ≤ 50) : newAmountFrac num 0 c = .error .panic := by
  unfold newAmountFrac
  split
  · rw [bigPow10_ok hd]; rfl
  · rfl

example : newAmountFrac 12345 1000 ⟨0, [], 2⟩ = .ok ⟨1234, ⟨0, [], 2⟩⟩ := by decide

/-! ## C11 -/

/-- Full statement of C11: `IsBigger` compares absolute values as numbers. -/
def C11_Statement : Prop := ∀ a b : Amount,
  (a.isBigger b = true ↔ (b.int.natAbs : Int) * 10 ^ a.com.decimals < a.int.natAbs * 10 ^ b.com.decimals) ∧
  (a.isSmaller b = true ↔ (a.int.natAbs : Int) * 10 ^ b.com.decimals < b.int.natAbs * 10 ^ a.com.decimals)

/-- **C11 is false** of the code: 1.00 (two decimals) is "bigger" than 50 (no decimals). -/
theorem C11_magnitude_violated : ¬ C11_Statement := by
  intro h
  have := (h ⟨100, ⟨0, [], 2⟩⟩ ⟨50, ⟨1, [], 0⟩⟩).1.mp (by decide)
  revert this; decide

/-- **C11 (partial)**: true for amounts with the same number of decimals. -/
theorem C11_magnitude_partial (a b : Amount) (h : a.com.decimals = b.com.decimals) :
    (a.isBigger b = true ↔ (b.int.natAbs : Int) * 10 ^ a.com.decimals < a.int.natAbs * 10 ^ b.com.decimals) ∧
    (a.isSmaller b = true ↔ (a.int.natAbs : Int) * 10 ^ b.com.decimals < b.int.natAbs * 10 ^ a.com.decimals) := by
  have hpos : (0 : Int) < 10 ^ b.com.decimals := by positivity
  constructor
  · unfold Amount.isBigger Amount.cmpMagnitude
    rw [decide_eq_true_eq, intCmp_pos, h]
    exact ⟨fun h => mul_lt_mul_of_pos_right h hpos, fun h => lt_of_mul_lt_mul_right h (le_of_lt hpos)⟩
  · unfold Amount.isSmaller Amount.cmpMagnitude
    rw [decide_eq_true_eq, intCmp_neg, h]
    exact ⟨fun h => mul_lt_mul_of_pos_right h hpos, fun h => lt_of_mul_lt_mul_right h (le_of_lt hpos)⟩

end Verif
