import Verif.Lemmas.WebAmount
/-!
# C110–C112: amounts on the page made by coin2html
-/
namespace Verif

/-! ## Decimal texts -/

/-- Digit strings of one length are determined by their value. -/
theorem digits_eq : ∀ {s t : Str}, s.all isDigit = true → t.all isDigit = true → s.length = t.length → strNat s = strNat t → s = t := by
  intro s
  induction s with
  | nil => intro t _ _ hl _; cases t with
    | nil => rfl
    | cons _ _ => simp at hl
  | cons c s ih =>
    intro t hs ht hl hv
    cases t with
    | nil => simp at hl
    | cons d t =>
      simp only [List.all_cons, Bool.and_eq_true] at hs ht
      simp only [List.length_cons, Nat.add_right_cancel_iff] at hl
      rw [strNat_cons, strNat_cons, hl] at hv
      have h1 := strNat_lt s hs.2
      have h2 := strNat_lt t ht.2
      rw [hl] at h1
      have hp : 0 < 10 ^ t.length := pow10_pos _
      have e1 : digitVal c = digitVal d := by
        have a1 : (digitVal c * 10 ^ t.length + strNat s) / 10 ^ t.length = digitVal c := by
          rw [Nat.mul_comm, Nat.mul_add_div hp, Nat.div_eq_of_lt h1]; rfl
        have a2 : (digitVal d * 10 ^ t.length + strNat t) / 10 ^ t.length = digitVal d := by
          rw [Nat.mul_comm, Nat.mul_add_div hp, Nat.div_eq_of_lt h2]; rfl
        rw [← a1, ← a2, hv]
      have ec : c = d := by
        have := isDigit_iff.mp hs.1
        have := isDigit_iff.mp ht.1
        unfold digitVal at e1
        apply Char.toNat_inj.mp
        omega
      subst ec
      congr 1
      exact ih hs.2 ht.2 hl (by omega)

theorem natStr_long {n d : Nat} (h : 10 ^ d ≤ n) : d < (natStr n).length := by
  by_contra hc
  have h1 := strNat_lt (natStr n) (natStr_allDigits n)
  rw [strNat_natStr] at h1
  have := pow10_mono (by omega : (natStr n).length ≤ d)
  omega

theorem natStr_split {n d : Nat} (hd : 0 < d) (h : 10 ^ d ≤ n) : natStr n = natStr (n / 10 ^ d) ++ fracStr n d := by
  have hp := pow10_pos d
  have hv : strNat (natStr (n / 10 ^ d) ++ fracStr n d) = n := by
    rw [strNat_append, fracStr_length _ _ hd, fracStr_val, strNat_natStr]; exact Nat.div_add_mod' _ _
  apply digits_eq
  · exact natStr_allDigits _
  · rw [List.all_append, natStr_allDigits, fracStr_digits]; rfl
  · rw [List.length_append, fracStr_length _ _ hd]
    have hq : 0 < n / 10 ^ d := Nat.div_pos h hp
    obtain ⟨k, hk1, hk2, hk3⟩ := exists_log (n / 10 ^ d) (n / 10 ^ d) (by
      have := @Nat.lt_pow_self (n / 10 ^ d + 1) 10 (by omega)
      omega)
    rw [natStr_length _ k hk2 hk3, natStr_length n (k + d) ?_ ?_]
    · omega
    · right
      rcases hk2 with h0 | h0
      · subst h0; simpa using h
      · rw [Nat.pow_add]
        exact le_trans (Nat.mul_le_mul_right _ h0) (Nat.div_mul_le_self _ _)
    · have : n < (n / 10 ^ d + 1) * 10 ^ d := by
        have := Nat.lt_div_mul_add (a := n) hp
        rw [Nat.add_mul, Nat.one_mul]; omega
      calc n < (n / 10 ^ d + 1) * 10 ^ d := this
        _ ≤ 10 ^ (k + 1) * 10 ^ d := Nat.mul_le_mul_right _ (by omega)
        _ = 10 ^ (k + d + 1) := by rw [← Nat.pow_add]; congr 1; omega
  · rw [hv, strNat_natStr]

theorem natStr_short {n d : Nat} (hd : 0 < d) (h : n < 10 ^ d) :
    fracStr n d = rep (d - (natStr n).length) '0' ++ natStr n := by
  unfold fracStr; rw [Nat.mod_eq_of_lt h]

/-! ## Thousands separators -/

/-- `l` cuts `s` into groups of three digits counted from the right; the first group has one to three. -/
def Grouped (s : Str) (l : List Str) : Prop :=
  l.flatten = s ∧ ∃ f r, l = f :: r ∧ 1 ≤ f.length ∧ f.length ≤ 3 ∧ ∀ x ∈ r, x.length = 3

theorem tripletsLoop_spec (s : Str) : ∀ (fuel stop : Nat) (acc : List Str), stop ≤ s.length → stop ≤ fuel →
    0 < stop → ∃ f r, tripletsLoop s fuel stop acc = f :: (r ++ acc) ∧ (f ++ r.flatten) = s.take stop ∧ 1 ≤ f.length ∧ f.length ≤ 3 ∧
      ∀ x ∈ r, x.length = 3 := by
  intro fuel
  induction fuel with
  | zero => intro stop acc _ h2 h3; omega
  | succ fuel ih =>
    intro stop acc h1 h2 h3
    have hun : tripletsLoop s (fuel + 1) stop acc = tripletsLoop s fuel (stop - 3) ((s.take stop).drop (stop - 3) :: acc) := by
      show (if stop = 0 then acc else _) = _
      rw [if_neg (by omega)]
    rw [hun]
    have hlen : ((s.take stop).drop (stop - 3)).length = stop - (stop - 3) := by
      rw [List.length_drop, List.length_take]; omega
    by_cases h0 : stop - 3 = 0
    · refine ⟨(s.take stop).drop (stop - 3), [], ?_, ?_, ?_, ?_, by simp⟩
      · rw [h0]
        cases fuel with
        | zero => rfl
        | succ f => show (if (0 : Nat) = 0 then _ else _) = _; simp
      · rw [h0]; simp
      · rw [hlen]; omega
      · rw [hlen]; omega
    · obtain ⟨f, r, e, hf, h4, h5, h6⟩ := ih (stop - 3) ((s.take stop).drop (stop - 3) :: acc) (by omega) (by omega) (by omega)
      refine ⟨f, r ++ [(s.take stop).drop (stop - 3)], by rw [e]; simp, ?_, h4, h5, ?_⟩
      · rw [List.flatten_append, ← List.append_assoc, hf]
        have : s.take (stop - 3) = (s.take stop).take (stop - 3) := by
          rw [List.take_take]; congr 1; omega
        rw [this]; simp
      · intro x hx
        rw [List.mem_append] at hx
        rcases hx with hx | hx
        · exact h6 x hx
        · rw [List.mem_singleton] at hx; subst hx; rw [hlen]; omega

theorem triplets_grouped (s : Str) (h : s ≠ []) : Grouped s (triplets s) := by
  have hp : 0 < s.length := List.length_pos_iff.mpr h
  obtain ⟨f, r, e, hf, h1, h2, h3⟩ := tripletsLoop_spec s s.length s.length [] (le_refl _) (le_refl _) hp
  unfold triplets
  rw [e]
  refine ⟨by simp [hf], f, r ++ [], rfl, h1, h2, ?_⟩
  simpa using h3

theorem joinWith_filter (l : List Str) (h : ∀ x ∈ l, ',' ∉ x) : (joinWith [','] l).filter (fun c => decide (c ≠ ',')) = l.flatten := by
  induction l with
  | nil => rfl
  | cons a l ih =>
    have ha : a.filter (fun c => decide (c ≠ ',')) = a := by
      rw [List.filter_eq_self]; intro c hc
      have := h a List.mem_cons_self
      simp only [decide_eq_true_eq]; rintro rfl; exact this hc
    cases l with
    | nil => simpa [joinWith] using ha
    | cons b l =>
      have := ih (fun x hx => h x (List.mem_cons_of_mem _ hx))
      simp only [joinWith, List.filter_append, ha, this]
      simp

/-! ## Normal form of the page's text -/

/-- The text of an amount: sign, integer digits (grouped when there are decimals and separators are asked for), decimals and
commodity. -/
theorem wString_eq (sep : Bool) (a : Amount) :
    wString sep a = (if a.int < 0 then ['-'] else []) ++
      (if sep = true ∧ a.com.decimals > 0 then joinWith [','] (triplets (natStr (a.int.natAbs / 10 ^ a.com.decimals)))
        else natStr (a.int.natAbs / 10 ^ a.com.decimals)) ++
      (if a.com.decimals > 0 then '.' :: fracStr a.int.natAbs a.com.decimals else []) ++ [' '] ++ a.com.id := by
  unfold wString
  dsimp only
  generalize a.int.natAbs = n
  generalize a.com.decimals = d
  by_cases hd : d > 0
  swap
  · have : d = 0 := by omega
    subst this
    simp
  simp only [hd, if_true, and_true]
  -- the padded digits are `x ++ fracStr n d`
  have hpad : ∃ x, (if (natStr n).length < d then rep (d - (natStr n).length + 1) '0' ++ natStr n else natStr n) = x ++ fracStr n d ∧
      (x = natStr (n / 10 ^ d) ∨ (x = [] ∧ n / 10 ^ d = 0)) := by
    by_cases hn : n < 10 ^ d
    · have hq : n / 10 ^ d = 0 := Nat.div_eq_of_lt hn
      have hle := natStr_length_le n d hn hd
      rw [natStr_short hd hn, hq]
      by_cases hl : (natStr n).length < d
      · refine ⟨['0'], ?_, Or.inl (by decide +kernel)⟩
        rw [if_pos hl]
        rfl
      · refine ⟨[], ?_, Or.inr ⟨rfl, rfl⟩⟩
        rw [if_neg hl]
        have : d - (natStr n).length = 0 := by omega
        rw [this]; rfl
    · refine ⟨natStr (n / 10 ^ d), ?_, Or.inl rfl⟩
      have := natStr_long (by omega : 10 ^ d ≤ n)
      rw [if_neg (by omega), natStr_split hd (by omega)]
  obtain ⟨x, hx, hxc⟩ := hpad
  rw [hx]
  have hlen : (x ++ fracStr n d).length - d = x.length := by rw [List.length_append, fracStr_length _ _ hd]; omega
  rw [hlen, List.take_left, List.drop_left]
  have hbody : (if ((if sep = true then joinWith [','] (triplets x) else x) ++ ['.'] ++ fracStr n d).head? = some '.'
      then '0' :: ((if sep = true then joinWith [','] (triplets x) else x) ++ ['.'] ++ fracStr n d)
      else (if sep = true then joinWith [','] (triplets x) else x) ++ ['.'] ++ fracStr n d) =
      (if sep = true then joinWith [','] (triplets (natStr (n / 10 ^ d))) else natStr (n / 10 ^ d)) ++ '.' :: fracStr n d := by
    rcases hxc with rfl | ⟨rfl, hq⟩
    · have hne := natStr_ne_nil (n / 10 ^ d)
      have hdg := natStr_allDigits (n / 10 ^ d)
      generalize natStr (n / 10 ^ d) = t at *
      have hhead : ∃ c w, (if sep = true then joinWith [','] (triplets t) else t) = c :: w ∧ isDigit c = true := by
        cases t with
        | nil => exact absurd rfl hne
        | cons c w =>
          simp only [List.all_cons, Bool.and_eq_true] at hdg
          cases sep with
          | false => exact ⟨c, w, rfl, hdg.1⟩
          | true =>
            obtain ⟨hf, f, r, e, h1, _, _⟩ := triplets_grouped (c :: w) (by simp)
            rw [e] at hf ⊢
            cases f with
            | nil => simp at h1
            | cons c' f' =>
              simp only [List.flatten_cons, List.cons_append, List.cons.injEq] at hf
              obtain ⟨rfl, _⟩ := hf
              cases r with
              | nil => exact ⟨c', f', rfl, hdg.1⟩
              | cons b r => exact ⟨c', _, rfl, hdg.1⟩
      obtain ⟨c, w, e, hc⟩ := hhead
      rw [e, if_neg]
      · simp
      · simp only [List.cons_append, List.head?_cons, Option.some.injEq]
        exact isDigit_ne hc not_isDigit_dot
    · have hz : natStr 0 = ['0'] := by decide +kernel
      rw [hq, hz]
      cases sep <;> rfl
  rw [hbody]
  simp only [List.append_assoc]

/-- The text coin2html writes into the page. -/
theorem amountJson_eq (a : Amount) (h : a.com.decimals ≤ 50) :
    amountJson a = .ok ((if a.int < 0 then ['-'] else []) ++ natStr (a.int.natAbs / 10 ^ a.com.decimals) ++
      (if a.com.decimals > 0 then '.' :: fracStr a.int.natAbs a.com.decimals else []) ++ [' '] ++ a.com.id) := by
  unfold amountJson Amount.format
  rw [bigPow10_ok h]
  show Except.ok (floatString a.int (10 ^ a.com.decimals) a.com.decimals ++ [' '] ++ a.com.id) = _
  rw [floatString_pow]
  rfl

theorem jsParseInt_digits (neg : Bool) (s : Str) (hd : s.all isDigit = true) (hne : s ≠ []) :
    jsParseInt ((if neg = true then ['-'] else []) ++ s) = some (dbl (if neg = true then -(strNat s : Int) else (strNat s : Int))) := by
  have ht : s.takeWhile isDigit = s := by
    rw [← List.takeWhile_append_dropWhile (p := isDigit) (l := s)] at hd
    have : s.dropWhile isDigit = [] := by
      cases h : s.dropWhile isDigit with
      | nil => rfl
      | cons c t =>
        have h1 : isDigit c = false := by
          have := List.head?_dropWhile_not isDigit s
          rw [h] at this
          simpa using this
        rw [List.all_append, h, List.all_cons, h1] at hd
        simp at hd
    conv_rhs => rw [← List.takeWhile_append_dropWhile (p := isDigit) (l := s), this, List.append_nil]
  cases neg with
  | true =>
    show (if (s.takeWhile isDigit) = [] then none else some (dbl (-((strNat (s.takeWhile isDigit) : Nat) : Int)))) = _
    rw [ht, if_neg hne]; rfl
  | false =>
    cases s with
    | nil => exact absurd rfl hne
    | cons c s =>
      have hc : isDigit c = true := by simp only [List.all_cons, Bool.and_eq_true] at hd; exact hd.1
      have h1 : c ≠ '-' := isDigit_ne hc not_isDigit_minus
      have h2 : c ≠ '+' := isDigit_ne hc not_isDigit_plus
      have hm : jsParseInt (c :: s) =
          (if ((c :: s).takeWhile isDigit) = [] then none else some (dbl ((strNat ((c :: s).takeWhile isDigit) : Nat) : Int))) := by
        unfold jsParseInt
        split
        · rename_i heq; split at heq
          · rename_i e; cases e; exact absurd rfl h1
          · rename_i e; cases e; exact absurd rfl h2
          · cases heq; rfl
      show jsParseInt (c :: s) = _
      rw [hm, ht, if_neg hne]; rfl

theorem dropFirst_none (c : Char) (s : Str) (h : c ∉ s) : dropFirst c s = s := by
  induction s with
  | nil => rfl
  | cons x s ih =>
    have hx : x ≠ c := fun e => h (e ▸ List.mem_cons_self)
    show (if x = c then s else x :: dropFirst c s) = _
    rw [if_neg hx, ih (fun hm => h (List.mem_cons_of_mem _ hm))]

/-! ## C110 -/

/-- What the page needs of its commodities: the id is one word and names the commodity. -/
def KnownCom (find : Str → Option Com) (c : Com) : Prop := find c.id = some c ∧ ' ' ∉ c.id

/-- The page's reading of the text of an amount, whatever its size. -/
theorem page_reads (find : Str → Option Com) (a : Amount) (hc : KnownCom find a.com) (hd : a.com.decimals ≤ 50) :
    ∃ s, amountJson a = .ok s ∧ wParse find s = .ok ⟨dbl a.int, a.com⟩ := by
  refine ⟨_, amountJson_eq a hd, ?_⟩
  have hsgn : ∀ x : Char, x ∈ (if a.int < 0 then ['-'] else []) → x = '-' := by
    intro x hx; split at hx <;> simp_all
  have hq := natStr_allDigits (a.int.natAbs / 10 ^ a.com.decimals)
  have hqne := natStr_ne_nil (a.int.natAbs / 10 ^ a.com.decimals)
  have hfd := fracStr_digits a.int.natAbs a.com.decimals
  have hnum : ∀ c : Char, isDigit c = false → c ≠ '-' → c ∉ (if a.int < 0 then ['-'] else []) ++ natStr (a.int.natAbs / 10 ^ a.com.decimals) := by
    intro c h1 h2 hm
    rw [List.mem_append] at hm
    rcases hm with hm | hm
    · exact h2 (hsgn c hm)
    · exact not_mem_of_digits hq h1 hm
  have hblank : ' ' ∉ (if a.int < 0 then ['-'] else []) ++ natStr (a.int.natAbs / 10 ^ a.com.decimals) ++
      (if a.com.decimals > 0 then '.' :: fracStr a.int.natAbs a.com.decimals else []) := by
    intro hm
    rw [List.mem_append] at hm
    rcases hm with hm | hm
    · exact hnum ' ' (by decide) (by decide) hm
    · split at hm
      · rw [List.mem_cons] at hm
        rcases hm with hm | hm
        · exact absurd hm (by decide)
        · exact not_mem_of_digits hfd (by decide) hm
      · simp at hm
  unfold wParse
  have hsp : splitOn ' ' ((if a.int < 0 then ['-'] else []) ++ natStr (a.int.natAbs / 10 ^ a.com.decimals) ++
      (if a.com.decimals > 0 then '.' :: fracStr a.int.natAbs a.com.decimals else []) ++ [' '] ++ a.com.id) =
      [(if a.int < 0 then ['-'] else []) ++ natStr (a.int.natAbs / 10 ^ a.com.decimals) ++
      (if a.com.decimals > 0 then '.' :: fracStr a.int.natAbs a.com.decimals else []), a.com.id] := by
    rw [List.append_assoc _ [' '], List.singleton_append, splitOn_append_sep _ _ _ hblank, splitOn_noSep _ _ hc.2]
  rw [hsp]
  dsimp only
  rw [hc.1]
  dsimp only
  have hval : ∀ s : Str, strNat s = a.int.natAbs → (if decide (a.int < 0) = true then -(strNat s : Int) else (strNat s : Int)) = a.int := by
    intro s hs; rw [hs]; simp only [decide_eq_true_eq]; split <;> omega
  have hsg : (if a.int < 0 then ['-'] else ([] : Str)) = (if decide (a.int < 0) = true then ['-'] else []) := by simp
  by_cases h0 : a.com.decimals > 0
  · simp only [h0, if_true]
    rw [splitOn_append_sep _ _ _ (hnum '.' (by decide) (by decide)), splitOn_noSep _ _ (not_mem_of_digits hfd not_isDigit_dot)]
    simp only [List.getD_cons_zero, List.getD_cons_succ]
    rw [fracStr_length _ _ h0, Nat.sub_self, if_neg (Nat.lt_irrefl a.com.decimals), dropFirst_none _ _ (hnum ',' (by decide) (by decide))]
    have : fracStr a.int.natAbs a.com.decimals ++ rep 0 '0' = fracStr a.int.natAbs a.com.decimals := by simp [rep]
    rw [this, List.append_assoc, hsg, jsParseInt_digits _ _ (by rw [List.all_append, hq, hfd]; rfl) (by simp [hqne])]
    dsimp only
    rw [hval]
    rw [strNat_append, fracStr_length _ _ h0, fracStr_val, strNat_natStr]
    exact Nat.div_add_mod' _ _
  · have hz : a.com.decimals = 0 := by omega
    simp only [h0, if_false, List.append_nil]
    rw [splitOn_noSep _ _ (hnum '.' (by decide) (by decide))]
    simp only [List.getD_cons_zero]
    rw [hsg, jsParseInt_digits _ _ hq hqne]
    dsimp only
    rw [hval]
    rw [strNat_natStr, hz]; simp

/-- **C110** Full statement: the page shows every amount of the ledger unchanged. -/
def C110_Statement : Prop := ∀ (find : Str → Option Com) (a : Amount), KnownCom find a.com → a.com.decimals ≤ 22 →
  ∃ s, amountJson a = .ok s ∧ wParse find s = .ok a

/-- **C110** is false: JavaScript numbers hold 53 binary digits, so 90071992547409.93 becomes 90071992547409.92. -/
theorem C110_big_violated : ¬ C110_Statement := by
  intro h
  obtain ⟨s, h1, h2⟩ := h (fun _ => some ⟨0, str "CAD", 2⟩) ⟨9007199254740993, ⟨0, str "CAD", 2⟩⟩ ⟨rfl, by decide⟩ (by decide)
  obtain ⟨s', h3, h4⟩ := page_reads (fun _ => some ⟨0, str "CAD", 2⟩) ⟨9007199254740993, ⟨0, str "CAD", 2⟩⟩ ⟨rfl, by decide⟩ (by decide)
  rw [h1] at h3
  cases h3
  rw [h2] at h4
  injection h4 with h4
  have : dbl 9007199254740993 = 9007199254740992 := by decide +kernel
  rw [this] at h4
  exact absurd h4 (by decide)

/-- **C110** for amounts of at most 2^53 smallest units (90 071 992 547 409.92 with two decimals): the amount read by the page
is the amount of the ledger. -/
theorem C110_page_amounts_partial (find : Str → Option Com) (a : Amount) (hc : KnownCom find a.com) (hd : a.com.decimals ≤ 50)
    (hb : a.int.natAbs ≤ 2 ^ 53) : ∃ s, amountJson a = .ok s ∧ wParse find s = .ok a := by
  obtain ⟨s, h1, h2⟩ := page_reads find a hc hd
  rw [dbl_exact a.int hb] at h2
  exact ⟨s, h1, h2⟩

/-- Non-vacuity: -0.05 CAD. -/
example : let c : Com := ⟨0, str "CAD", 2⟩
    KnownCom (fun _ => some c) c ∧ amountJson ⟨-5, c⟩ = .ok (str "-0.05 CAD") ∧
    wParse (fun _ => some c) (str "-0.05 CAD") = .ok ⟨-5, c⟩ := by
  refine ⟨⟨rfl, by decide⟩, ?_, ?_⟩
  · rw [amountJson_eq _ (by decide)]; congr 1; decide +kernel
  · have : wParse (fun _ => some ⟨0, str "CAD", 2⟩) (str "-0.05 CAD") = .ok ⟨dbl (-5), ⟨0, str "CAD", 2⟩⟩ := rfl
    rw [this, dbl_exact _ (by decide)]

/-! ## C111 -/

/-- **C111** Without separators the page prints exactly the text it was given: prices, which are checked this way on loading,
are never refused. -/
theorem C111_same_text (a : Amount) (hd : a.com.decimals ≤ 50) : amountJson a = .ok (wString false a) := by
  rw [amountJson_eq a hd, wString_eq]
  simp

/-- **C111** With separators the text differs only by commas, which cut the integer digits into groups of three. -/
theorem C111_separators (a : Amount) :
    (∃ pre l post, wString true a = pre ++ joinWith [','] l ++ post ∧ wString false a = pre ++ l.flatten ++ post ∧
      (pre = [] ∨ pre = ['-']) ∧
      (a.com.decimals > 0 → Grouped (natStr (a.int.natAbs / 10 ^ a.com.decimals)) l) ∧
      (a.com.decimals = 0 → l = [natStr a.int.natAbs])) := by
  rw [wString_eq, wString_eq]
  by_cases h0 : a.com.decimals > 0
  · have hg := triplets_grouped (natStr (a.int.natAbs / 10 ^ a.com.decimals)) (natStr_ne_nil _)
    refine ⟨(if a.int < 0 then ['-'] else []), triplets (natStr (a.int.natAbs / 10 ^ a.com.decimals)),
      ('.' :: fracStr a.int.natAbs a.com.decimals) ++ [' '] ++ a.com.id, ?_, ?_, ?_, fun _ => hg, fun h => absurd h (by omega)⟩
    · simp only [h0, if_true, and_self, List.append_assoc]
    · rw [hg.1]
      simp only [h0, if_true, Bool.false_eq_true, false_and, if_false, List.append_assoc]
    · split <;> simp
  · have hz : a.com.decimals = 0 := by omega
    refine ⟨(if a.int < 0 then ['-'] else []), [natStr a.int.natAbs], [' '] ++ a.com.id, ?_, ?_, ?_, fun h => absurd h h0, fun _ => rfl⟩
    · simp [joinWith, hz]
    · simp [hz]
    · split <;> simp

/-- Non-vacuity. -/
example : wString true ⟨-123456789, ⟨0, str "CAD", 2⟩⟩ = str "-1,234,567.89 CAD" ∧ wString true ⟨12, ⟨0, str "CAD", 2⟩⟩ = str "0.12 CAD" ∧
    wString false ⟨-123456789, ⟨0, str "CAD", 2⟩⟩ = str "-1234567.89 CAD" := by decide +kernel

/-- **C111** "drop thousands separators if present" (commodity.ts:188): an amount as displayed reads back. -/
def C111_ReadBack : Prop := ∀ (find : Str → Option Com) (a : Amount), KnownCom find a.com → a.int.natAbs ≤ 2 ^ 53 →
  wParse find (wString true a) = .ok a

/-- This is false from one million on, because only the first comma is dropped: "1,000,000.00 CAD" reads as 10.00 CAD. -/
theorem C111_readBack_violated : ¬ C111_ReadBack := by
  intro h
  have h1 := h (fun _ => some ⟨0, str "CAD", 2⟩) ⟨100000000, ⟨0, str "CAD", 2⟩⟩ ⟨rfl, by decide⟩ (by decide)
  have h2 : (wParse (fun _ => some ⟨0, str "CAD", 2⟩) (wString true ⟨100000000, ⟨0, str "CAD", 2⟩⟩)).toOption = some ⟨1000, ⟨0, str "CAD", 2⟩⟩ := by
    decide +kernel
  rw [h1] at h2
  exact absurd h2 (by decide)

/-! ## C112 -/

/-- `r` is `x / 10^d` rounded to the nearest integer, halves up. -/
def RoundedHalfUp (x : Int) (d : Nat) (r : Int) : Prop := 2 * 10 ^ d * r ≤ 2 * x + 10 ^ d ∧ 2 * x + 10 ^ d < 2 * 10 ^ d * (r + 1)

theorem RoundedHalfUp.unique {x : Int} {d : Nat} {r s : Int} (h : RoundedHalfUp x d r) (h' : RoundedHalfUp x d s) : r = s := by
  have hp : (0 : Int) < 2 * 10 ^ d := by positivity
  have h1 : r < s + 1 := lt_of_mul_lt_mul_left (lt_of_le_of_lt h.1 h'.2) (le_of_lt hp)
  have h2 : s < r + 1 := lt_of_mul_lt_mul_left (lt_of_le_of_lt h'.1 h.2) (le_of_lt hp)
  omega

/-- **C112** Converting an amount by a price gives amount × price rounded to the smallest unit of the price's commodity, halves
up, in that commodity, as long as the product of the two scaled integers is below 2^53. -/
theorem C112_convert (a p : Amount) (hb : (a.int * p.int).natAbs < 2 ^ 53) :
    (wConvertTo a p).com = p.com ∧ RoundedHalfUp (a.int * p.int) a.com.decimals (wConvertTo a p).int := by
  refine ⟨rfl, ?_⟩
  have hm : 10 ^ a.com.decimals = 1 ∨ (0 < 10 ^ a.com.decimals ∧ 10 ^ a.com.decimals % 2 = 0) := by
    cases a.com.decimals with
    | zero => left; rfl
    | succ d => right; exact ⟨pow10_pos _, by rw [Nat.pow_succ]; omega⟩
  have he : (wConvertTo a p).int = (2 * (a.int * p.int) + ((10 ^ a.com.decimals : Nat) : Int)) / (2 * ((10 ^ a.com.decimals : Nat) : Int)) := by
    unfold wConvertTo
    dsimp only
    rw [dbl_exact _ (by omega), mathRound_fl _ _ hm hb]
  have hc : ((10 ^ a.com.decimals : Nat) : Int) = 10 ^ a.com.decimals := by push_cast; rfl
  rw [hc] at he
  have hp : (0 : Int) < 2 * 10 ^ a.com.decimals := by positivity
  rw [eq_comm, Int.ediv_eq_iff_of_pos hp] at he
  constructor
  · rw [mul_comm]; exact he.1
  · have : 2 * 10 ^ a.com.decimals * ((wConvertTo a p).int + 1) = (wConvertTo a p).int * (2 * 10 ^ a.com.decimals) + 2 * 10 ^ a.com.decimals := by ring
    rw [this]; exact he.2

/-- **C112** The page and the command line tools, given the same price, differ by at most one smallest unit
(`coin` truncates, the page rounds) when both commodities have the same number of decimals. -/
theorem C112_near_go (a p : Amount) (hb : (a.int * p.int).natAbs < 2 ^ 53) (hd : p.com.decimals = a.com.decimals)
    (h50 : a.com.decimals ≤ 50) :
    ∃ g, a.times p = .ok g ∧ ((wConvertTo a p).int - g.int).natAbs ≤ 1 := by
  have ht : a.times p = .ok ⟨Int.tdiv (a.int * p.int) ((10 ^ p.com.decimals : Nat) : Int), a.com⟩ := by
    unfold Amount.times; rw [bigPow10_ok (by omega)]; rfl
  refine ⟨_, ht, ?_⟩
  obtain ⟨_, h1, h2⟩ := C112_convert a p hb
  generalize (wConvertTo a p).int = r at *
  generalize a.int * p.int = x at *
  rw [hd]
  have hc : ((10 ^ a.com.decimals : Nat) : Int) = 10 ^ a.com.decimals := by push_cast; rfl
  dsimp only
  rw [hc]
  have hp : (0 : Int) < 10 ^ a.com.decimals := by positivity
  generalize (10 : Int) ^ a.com.decimals = m at *
  have e1 := Int.mul_tdiv_add_tmod x m
  have e2 := Int.tmod_lt_of_pos x hp
  have e3 : -m < x.tmod m := by
    rcases Int.le_total 0 x with hx | hx
    · have := Int.tmod_nonneg m hx; omega
    · have := Int.neg_tmod x m
      have h5 : 0 ≤ (-x).tmod m := Int.tmod_nonneg m (by omega)
      have h6 := Int.tmod_lt_of_pos (-x) hp
      omega
  generalize x.tdiv m = q at *
  have hlo : q - 1 ≤ r := by
    by_contra hc
    have : 2 * m * (r + 1) ≤ 2 * m * (q - 1) := Int.mul_le_mul_of_nonneg_left (by omega) (by omega)
    have e4 : 2 * m * (q - 1) = 2 * (m * q) - 2 * m := by ring
    omega
  have hhi : r ≤ q + 1 := by
    by_contra hc
    have : 2 * m * (q + 2) ≤ 2 * m * r := Int.mul_le_mul_of_nonneg_left (by omega) (by omega)
    have e4 : 2 * m * (q + 2) = 2 * (m * q) + 4 * m := by ring
    omega
  omega

/-- Non-vacuity: 10.05 USD at 1.50 CAD is 15.08 CAD on the page (15.075 rounded up). -/
example : wConvertTo ⟨1005, ⟨1, str "USD", 2⟩⟩ ⟨150, ⟨0, str "CAD", 2⟩⟩ = ⟨1508, ⟨0, str "CAD", 2⟩⟩ := by decide +kernel

end Verif
