import Verif.Model.Quotes
import Verif.Props.ReportComs
import Verif.Props.GcLoad
import Verif.Lemmas.Double
import Mathlib.Tactic.Linarith
import Mathlib.Tactic.FieldSimp
/-
C182, C183: the prices that `coin commodities -q` downloads.
-/
namespace Verif

/-! ## C182: the price of a quote -/

/-- Full statement of C182: a price that has at most as many decimals as its currency, as the float64 nearest to it, is recorded as it is. -/
def C182_Statement : Prop := ∀ (ovf t : Int) (k : Com), 0 ≤ t → t < 2 ^ 51 → k.decimals ≤ 18 →
  ∃ a, newAmountFloat ovf (fl t (10 ^ k.decimals)) k = .ok a ∧ a.com = k ∧ a.int = t

/-- False of the code: 1.15 CAD is recorded as 1.14 CAD. -/
theorem C182_price_violated : ¬ C182_Statement := by
  intro h
  obtain ⟨a, h1, _, h3⟩ := h 0 115 ⟨0, str "CAD", 2⟩ (by decide) (by decide) (by decide)
  have h2 : (newAmountFloat 0 (fl 115 (10 ^ 2)) ⟨0, str "CAD", 2⟩).toOption.map (·.int) = some 114 := by decide +kernel
  change newAmountFloat 0 (fl 115 (10 ^ 2)) ⟨0, str "CAD", 2⟩ = .ok a at h1
  rw [h1] at h2
  have h4 := Option.some.inj h2
  dsimp only at h4
  rw [h3] at h4
  exact absurd h4 (by decide)

/-- The powers of ten that are used are float64 values. -/
theorem fl_pow10 : ∀ d, d ≤ 18 → (fl (10 ^ d : Int) 1).1 = 10 ^ d * ((fl (10 ^ d : Int) 1).2 : Int) := by decide +kernel

theorem pow10_ok {d : Nat} (h : d ≤ 18) : pow10 (d : Int) = .ok (10 ^ d : Int) := by
  have : ∀ d : Nat, d ≤ 18 → (pow10 (d : Int)).toOption = some (10 ^ d : Int) := by decide +kernel
  exact ok_of_opt (this d h)

/-- The value of a float64. -/
theorem fracVal_mul (n m : Int) (p : Int × Nat) (q : Nat) : fracVal (n * p.1, q * p.2) = (n : ℚ) / q * fracVal p := by
  unfold fracVal
  push_cast
  rw [mul_div_mul_comm]

theorem trunc_near {y : Int × Nat} (hy : 0 < y.2) : |((Int.tdiv y.1 (y.2 : Int) : Int) : ℚ) - fracVal y| < 1 := by
  obtain ⟨p, q⟩ := y
  have hq : (0 : ℚ) < q := by exact_mod_cast hy
  unfold fracVal
  dsimp only at *
  have h1 := Int.mul_tdiv_add_tmod p q
  have h2 : |(Int.tmod p q : Int)| < (q : Int) := by
    rw [Int.abs_eq_natAbs, Int.natAbs_tmod]
    have := Nat.mod_lt p.natAbs (show (q : Int).natAbs > 0 by simpa using hy)
    rw [Int.natAbs_natCast] at this ⊢
    exact_mod_cast this
  have h3 : ((Int.tdiv p q : Int) : ℚ) - (p : ℚ) / q = -((Int.tmod p q : Int) : ℚ) / q := by
    have : (p : ℚ) = q * (Int.tdiv p q : Int) + (Int.tmod p q : Int) := by exact_mod_cast h1.symm
    rw [eq_div_iff hq.ne', sub_mul, div_mul_cancel₀ _ hq.ne']
    linarith
  rw [h3, abs_div, abs_neg, abs_of_pos hq, div_lt_one hq]
  exact_mod_cast h2

theorem trunc_le {y : Int × Nat} (hy : 0 < y.2) (h : 0 ≤ fracVal y) : ((Int.tdiv y.1 (y.2 : Int) : Int) : ℚ) ≤ fracVal y := by
  obtain ⟨p, q⟩ := y
  have hq : (0 : ℚ) < q := by exact_mod_cast hy
  unfold fracVal at *
  dsimp only at *
  have hp : 0 ≤ p := by
    have := mul_nonneg h hq.le
    rw [div_mul_cancel₀ _ hq.ne'] at this
    exact_mod_cast this
  rw [Int.tdiv_eq_ediv_of_nonneg hp, le_div_iff₀ hq]
  have := Int.ediv_mul_le p (show (q : Int) ≠ 0 by omega)
  exact_mod_cast this

/-- The product that is cut. -/
theorem scaled_near (x : Int × Nat) (hx : 0 < x.2) (d : Nat) (hd : d ≤ 18) :
    |fracVal (fl (x.1 * (fl (10 ^ d : Int) 1).1) (x.2 * (fl (10 ^ d : Int) 1).2)) - fracVal x * 10 ^ d| ≤ |fracVal x * 10 ^ d| / 2 ^ 53 := by
  have hp := fl_pos (10 ^ d : Int) 1
  have h1 := fl_near (x.1 * (fl (10 ^ d : Int) 1).1) (x.2 * (fl (10 ^ d : Int) 1).2) (Nat.mul_pos hx hp)
  have h2 : ((x.1 * (fl (10 ^ d : Int) 1).1 : Int) : ℚ) / ((x.2 * (fl (10 ^ d : Int) 1).2 : Nat) : ℚ) = fracVal x * 10 ^ d := by
    have hq : (((fl (10 ^ d : Int) 1).2 : Nat) : ℚ) ≠ 0 := by exact_mod_cast hp.ne'
    have hx' : ((x.2 : Nat) : ℚ) ≠ 0 := by exact_mod_cast hx.ne'
    have h3 : (((fl (10 ^ d : Int) 1).1 : Int) : ℚ) = 10 ^ d * (((fl (10 ^ d : Int) 1).2 : Nat) : ℚ) := by exact_mod_cast fl_pow10 d hd
    unfold fracVal
    push_cast
    rw [h3]
    field_simp
  rw [h2] at h1
  exact h1

/-- The amount made of a float64. -/
theorem newAmountFloat_eq (ovf : Int) (x : Int × Nat) (k : Com) (hd : k.decimals ≤ 18) :
    ∃ y : Int × Nat, 0 < y.2 ∧ y = fl (x.1 * (fl (10 ^ k.decimals : Int) 1).1) (x.2 * (fl (10 ^ k.decimals : Int) 1).2) ∧
      newAmountFloat ovf x k = .ok ⟨if -(2 ^ 63) ≤ Int.tdiv y.1 (y.2 : Int) ∧ Int.tdiv y.1 (y.2 : Int) < 2 ^ 63 then Int.tdiv y.1 (y.2 : Int) else ovf, k⟩ := by
  refine ⟨_, fl_pos _ _, rfl, ?_⟩
  unfold newAmountFloat
  rw [pow10_ok hd]
  rfl

/-- **C182** The recorded price is less than one unit of the currency's last decimal, and the rounding of one multiplication, off the
downloaded one. -/
theorem C182_bound (ovf : Int) (x : Int × Nat) (hx : 0 < x.2) (k : Com) (hd : k.decimals ≤ 18) (hb : |fracVal x * 10 ^ k.decimals| ≤ 2 ^ 62) :
    ∃ a, newAmountFloat ovf x k = .ok a ∧ a.com = k ∧
      |(a.int : ℚ) - fracVal x * 10 ^ k.decimals| < 1 + |fracVal x * 10 ^ k.decimals| / 2 ^ 53 := by
  obtain ⟨y, hy, e, h⟩ := newAmountFloat_eq ovf x k hd
  have h1 := scaled_near x hx k.decimals hd
  rw [← e] at h1
  have h2 := trunc_near hy
  generalize Int.tdiv y.1 (y.2 : Int) = v at h h2
  generalize fracVal x * 10 ^ k.decimals = w at *
  generalize fracVal y = z at *
  have h3 : |(v : ℚ) - w| < 1 + |w| / 2 ^ 53 := by
    have : (v : ℚ) - w = (v - z) + (z - w) := by ring
    rw [this]
    exact lt_of_le_of_lt (abs_add_le _ _) (by linarith)
  have h4 : |(v : ℚ)| < 2 ^ 63 := by
    have : (v : ℚ) = (v - w) + w := by ring
    rw [this]
    refine lt_of_le_of_lt (abs_add_le _ _) ?_
    have : |w| / 2 ^ 53 ≤ 2 ^ 62 / 2 ^ 53 := by gcongr
    norm_num at this hb ⊢
    linarith
  rw [abs_lt] at h4
  have h5 : -(2 ^ 63) ≤ v ∧ v < 2 ^ 63 := by
    constructor
    · have := h4.1; exact_mod_cast this.le
    · exact_mod_cast h4.2
  rw [if_pos h5] at h
  exact ⟨_, h, rfl, h3⟩

/-- **C182** (partial: the recorded price may be one unit too small) A price with at most as many decimals as its currency is recorded as it
is or one unit of the last decimal lower. -/
theorem C182_price_partial (ovf t : Int) (k : Com) (h0 : 0 ≤ t) (ht : t < 2 ^ 51) (hd : k.decimals ≤ 18) :
    ∃ a, newAmountFloat ovf (fl t (10 ^ k.decimals)) k = .ok a ∧ a.com = k ∧ (a.int = t ∨ a.int = t - 1) := by
  have hP : (0 : ℚ) < 10 ^ k.decimals := by positivity
  obtain ⟨y, hy, e, h⟩ := newAmountFloat_eq ovf (fl t (10 ^ k.decimals)) k hd
  have h1 := scaled_near (fl t (10 ^ k.decimals)) (fl_pos _ _) k.decimals hd
  rw [← e] at h1
  have hf := fl_near t (10 ^ k.decimals) (by positivity)
  have h2 := trunc_near hy
  have h2' : 0 ≤ fracVal y → ((Int.tdiv y.1 (y.2 : Int) : Int) : ℚ) ≤ fracVal y := trunc_le hy
  clear e
  push_cast at hf
  generalize Int.tdiv y.1 (y.2 : Int) = v at h h2 h2'
  generalize fracVal (fl t (10 ^ k.decimals)) = x at h1 hf
  generalize fracVal y = z at *
  have ht0 : (0 : ℚ) ≤ t := by exact_mod_cast h0
  have ht1 : (t : ℚ) < 2 ^ 51 := by exact_mod_cast ht
  have h3 : |x * 10 ^ k.decimals - t| ≤ t / 2 ^ 53 := by
    have e1 : x * 10 ^ k.decimals - t = (x - t / 10 ^ k.decimals) * 10 ^ k.decimals := by
      rw [sub_mul, div_mul_cancel₀ _ hP.ne']
    rw [e1, abs_mul, abs_of_pos hP]
    rw [abs_of_nonneg (div_nonneg ht0 hP.le)] at hf
    calc _ ≤ (t : ℚ) / 10 ^ k.decimals / 2 ^ 53 * 10 ^ k.decimals := by gcongr
      _ = _ := by field_simp
  generalize x * 10 ^ k.decimals = w at h1 h3
  have h4 : |w| ≤ t + t / 2 ^ 53 := by
    have : w = (w - t) + t := by ring
    rw [this]
    refine (abs_add_le _ _).trans ?_
    rw [abs_of_nonneg ht0]
    linarith
  have h5 : |z - t| ≤ t / 2 ^ 53 + (t + t / 2 ^ 53) / 2 ^ 53 := by
    have e1 : z - t = (z - w) + (w - t) := by ring
    rw [e1]
    refine (abs_add_le _ _).trans ?_
    have : |w| / 2 ^ 53 ≤ (t + t / 2 ^ 53) / 2 ^ 53 := by gcongr
    linarith
  have hv : v = t ∨ v = t - 1 := by
    by_cases hz : t = 0
    · subst hz
      left
      norm_num at h5
      subst h5
      rw [sub_zero] at h2
      have : |v| < 1 := by exact_mod_cast h2
      exact Int.abs_lt_one_iff.mp this
    · have ht2 : (1 : ℚ) ≤ t := by exact_mod_cast (show (1 : Int) ≤ t by omega)
      have h6 : t / 2 ^ 53 + (t + t / 2 ^ 53) / 2 ^ 53 < (1 : ℚ) := by
        norm_num at ht1 ⊢
        linarith
      have h7 := abs_lt.mp (lt_of_le_of_lt h5 h6)
      have h8 := h2' (by linarith)
      have h9 := (abs_lt.mp h2).1
      have a1 : (v : ℚ) < t + 1 := by linarith
      have a2 : (t : ℚ) - 2 < v := by linarith
      have b1 : v < t + 1 := by exact_mod_cast a1
      have b2 : t - 2 < v := by exact_mod_cast a2
      omega
  have h10 : -(2 ^ 63) ≤ v ∧ v < 2 ^ 63 := by omega
  rw [if_pos h10] at h
  exact ⟨_, h, rfl, hv⟩

/-- A quotient without remainder below 2^53 is a float64. -/
theorem fl_whole (t : Int) (m : Nat) (hm : 0 < m) (ht : t.natAbs < 2 ^ 53) : fracVal (fl (t * m) m) = t := by
  by_cases hz : t = 0
  · subst hz; simp [fl, fracVal]
  have hmQ : (0 : ℚ) < m := by exact_mod_cast hm
  have hn : t * (m : Int) ≠ 0 := Int.mul_ne_zero hz (by omega)
  have hab : (t * (m : Int)).natAbs = t.natAbs * m := by rw [Int.natAbs_mul, Int.natAbs_natCast]
  unfold fl
  rw [if_neg hn]
  dsimp only
  rw [hab]
  split
  · generalize (if t.natAbs * m * 2 ^ (52 + Nat.log2 m - Nat.log2 (t.natAbs * m)) < 2 ^ 52 * m then
      52 + Nat.log2 m - Nat.log2 (t.natAbs * m) + 1 else 52 + Nat.log2 m - Nat.log2 (t.natAbs * m)) = k
    have : t * (m : Int) * 2 ^ k = t * 2 ^ k * m := by ring
    rw [this, quoEven_exact _ _ hm]
    unfold fracVal
    push_cast
    field_simp
  · rename_i hgt
    have hlt : t.natAbs * m < 2 ^ (54 + Nat.log2 m) := by
      have h2 : m < 2 ^ (Nat.log2 m + 1) := Nat.lt_log2_self
      calc t.natAbs * m < 2 ^ 53 * 2 ^ (Nat.log2 m + 1) := Nat.mul_lt_mul'' ht h2
        _ = _ := by rw [← Nat.pow_add]; congr 1; omega
    have hlog : Nat.log2 (t.natAbs * m) = 53 + Nat.log2 m := by
      have := (Nat.log2_lt (by rw [← hab]; omega)).mpr hlt
      omega
    have hs : Nat.log2 (t.natAbs * m) - Nat.log2 m - 52 = 1 := by omega
    rw [hs, if_pos (by rw [Nat.mul_assoc, Nat.mul_comm m, ← Nat.mul_assoc]; exact Nat.mul_lt_mul_of_pos_right ht hm)]
    show fracVal (quoEven (t * m) (m * 1) * 1, 1) = t
    rw [Nat.mul_one, quoEven_exact _ _ hm]
    simp [fracVal]

/-- **C182** (partial: only prices that are float64 values) A price that is exactly a float64 and has at most as many decimals as its
currency is recorded as it is. -/
theorem C182_exact_partial (ovf t : Int) (x : Int × Nat) (hx : 0 < x.2) (k : Com) (hd : k.decimals ≤ 18) (ht : t.natAbs < 2 ^ 53)
    (he : fracVal x * 10 ^ k.decimals = t) : ∃ a, newAmountFloat ovf x k = .ok a ∧ a.com = k ∧ a.int = t := by
  obtain ⟨y, hy, e, h⟩ := newAmountFloat_eq ovf x k hd
  have hp := fl_pos (10 ^ k.decimals : Int) 1
  have h1 : x.1 * (fl (10 ^ k.decimals : Int) 1).1 = t * ((x.2 * (fl (10 ^ k.decimals : Int) 1).2 : Nat) : Int) := by
    have hx' : ((x.2 : Nat) : ℚ) ≠ 0 := by exact_mod_cast hx.ne'
    have h3 : x.1 * 10 ^ k.decimals = t * (x.2 : Int) := by
      have : (x.1 : ℚ) * 10 ^ k.decimals = t * (x.2 : ℚ) := by
        rw [← he]; unfold fracVal; field_simp
      exact_mod_cast this
    rw [fl_pow10 _ hd]
    push_cast
    rw [← mul_assoc, h3]
    ring
  have h2 := fl_whole t _ (Nat.mul_pos hx hp) ht
  rw [← h1, ← e] at h2
  have h4 : Int.tdiv y.1 (y.2 : Int) = t := by
    have := trunc_near hy
    rw [h2] at this
    have : |Int.tdiv y.1 (y.2 : Int) - t| < 1 := by exact_mod_cast this
    exact sub_eq_zero.mp (Int.abs_lt_one_iff.mp this)
  rw [h4, if_pos (by omega)] at h
  exact ⟨_, h, rfl, rfl⟩

/-- The hypotheses hold: 1.34 and 1.15 in a currency of two decimals, and 1.25, which is a float64. -/
example : (newAmountFloat 0 (fl 134 (10 ^ 2)) ⟨0, str "CAD", 2⟩).toOption.map (·.int) = some 134 ∧
    (newAmountFloat 0 (fl 115 (10 ^ 2)) ⟨0, str "CAD", 2⟩).toOption.map (·.int) = some 114 := by decide +kernel

example : fracVal (5, 4) * 10 ^ 2 = ((125 : Int) : ℚ) := by norm_num [fracVal]

/-! ## C183: the downloaded prices -/

/-- A commodity that is asked for: traded on a market and not the default commodity of the ledger. -/
def AskedFor (st : LoadState) (c : PCom) : Prop := LastCom st c ∧ c.noMarket = false ∧ c.id ≠ st.dflt

/-- What the service answers for a commodity: by its symbol if it has one, otherwise by the pair of it and the default commodity. -/
def Answered (Q : QuoteService) (st : LoadState) (c : PCom) (r : Reply) : Prop :=
  (c.symbol ≠ [] ∧ Q.ticker c.symbol = r) ∨ (c.symbol = [] ∧ Q.forex (c.id ++ st.dflt ++ str "=X") = r)

/-- The commodity has a price `x` in the commodity `k` of the ledger. -/
def QuotedAt (Q : QuoteService) (st : LoadState) (c : PCom) (k : Com) (x : Int × Nat) : Prop :=
  AskedFor st c ∧ st.lookup k.id = some k ∧ Answered Q st c (.quote k.id x)

/-- One price for every commodity that has one, in increasing order of the ids, of the day `now`, the price being made of the downloaded one
as in C182. -/
structure PricesOf (Q : QuoteService) (now : Int) (st : LoadState) (quotes : List PPrice) : Prop where
  order : (quotes.map (·.commodityId)).Pairwise (fun a b => strLt a b = true)
  every : ∀ c k x, QuotedAt Q st c k x → c.id ∈ quotes.map (·.commodityId)
  each : ∀ p ∈ quotes, p.time = now ∧ ∃ c k x, QuotedAt Q st c k x ∧ p.commodityId = c.id ∧ p.currencyId = k.id ∧
    newAmountFloat Q.overflow x k = .ok p.value

/-- What is said of a commodity without a price. -/
inductive Complaint (Q : QuoteService) (st : LoadState) (c : PCom) : Str → Prop
  | failed {m} : Answered Q st c (.failed m) → Complaint Q st c (c.id ++ str ": " ++ m)
  | currency {cur x} : Answered Q st c (.quote cur x) → (∀ k, st.lookup cur ≠ some k) → Complaint Q st c (c.id ++ str ": no commodity for " ++ cur)

/-- The line of a price. -/
def quoteText (p : PPrice) : Str := str "P " ++ formatDate p.time ++ str " " ++ p.commodityId ++ str " " ++ numText p.value ++ str " " ++ p.value.com.id

theorem answered_ask (Q : QuoteService) (st : LoadState) (c : PCom) (r : Reply) : Answered Q st c r ↔ Q.ask st.dflt c = r := by
  unfold Answered QuoteService.ask
  by_cases h : c.symbol = [] <;> simp [h]

/-- The price of a commodity, if it has one. -/
def quoteOf (Q : QuoteService) (now : Int) (st : LoadState) (c : PCom) : Option PPrice :=
  if c.noMarket = true ∨ c.id = st.dflt then none
  else match Q.ask st.dflt c with
    | .quote cur x =>
      match st.lookup cur with
      | none => none
      | some k => (newAmountFloat Q.overflow x k).toOption.map fun a => ⟨now, c.id, k.id, a⟩
    | _ => none

/-- What is said of it otherwise. -/
def complaintOf (Q : QuoteService) (st : LoadState) (c : PCom) : Option Str :=
  if c.noMarket = true ∨ c.id = st.dflt then none
  else match Q.ask st.dflt c with
    | .failed m => some (c.id ++ str ": " ++ m)
    | .quote cur _ => match st.lookup cur with | none => some (c.id ++ str ": no commodity for " ++ cur) | some _ => none
    | .nothing => none

theorem newAmountFloat_fits {ovf : Int} {x : Int × Nat} {k : Com} {a : Amount} (ho : -(2 ^ 63) ≤ ovf ∧ ovf < 2 ^ 63)
    (h : newAmountFloat ovf x k = .ok a) : a.com = k ∧ k.decimals ≤ 18 ∧ -(2 ^ 63) ≤ a.int ∧ a.int < 2 ^ 63 := by
  unfold newAmountFloat at h
  obtain ⟨p, hp, h⟩ := bind_ok.mp h
  cases h
  refine ⟨rfl, ?_, ?_⟩
  · unfold pow10 at hp
    split at hp
    · omega
    · split at hp
      · omega
      · cases hp
  · dsimp only
    split
    · assumption
    · exact ho

theorem quoteOne_eq {Q : QuoteService} {now : Int} {st : LoadState} {c : PCom}
    (h1 : c.noMarket = false → c.id ≠ st.dflt → Q.ask st.dflt c ≠ .nothing)
    (h2 : ∀ cur x k, Q.ask st.dflt c = .quote cur x → st.lookup cur = some k → k.decimals ≤ 18) :
    quoteOne Q now st c = .ok ((quoteOf Q now st c).toList.map quoteText, (complaintOf Q st c).toList) := by
  unfold quoteOne quoteOf complaintOf
  by_cases hs : c.noMarket = true ∨ c.id = st.dflt
  · rw [if_pos hs, if_pos hs, if_pos hs]; rfl
  · rw [if_neg hs, if_neg hs, if_neg hs]
    have hs' : c.noMarket = false ∧ c.id ≠ st.dflt := by
      rw [not_or] at hs
      exact ⟨by simpa using hs.1, hs.2⟩
    have h1 := h1 hs'.1 hs'.2
    cases ha : Q.ask st.dflt c with
    | failed m => rfl
    | nothing => exact absurd ha h1
    | quote cur x =>
      dsimp only
      cases hl : st.lookup cur with
      | none => rfl
      | some k =>
        dsimp only
        obtain ⟨y, _, _, e⟩ := newAmountFloat_eq Q.overflow x k (h2 _ _ _ ha hl)
        rw [e]
        have hd : k.decimals ≤ 50 := by have := h2 _ _ _ ha hl; omega
        generalize (if -(2 ^ 63) ≤ Int.tdiv y.1 (y.2 : Int) ∧ Int.tdiv y.1 (y.2 : Int) < 2 ^ 63 then Int.tdiv y.1 (y.2 : Int) else Q.overflow) = v
        show ((amountText none ⟨v, k⟩).bind fun s => _) = _
        unfold amountText
        rw [format_none (string_ok ⟨v, k⟩ hd)]
        show Except.ok _ = Except.ok _
        simp [quoteText, numText, Except.toOption, str]

theorem flatten_toList {α β γ : Type} (g : α → Option β) (h : β → γ) : ∀ l : List α, (l.map fun c => (g c).toList.map h).flatten = (l.filterMap g).map h
  | [] => rfl
  | c :: l => by
    rw [List.map_cons, List.flatten_cons, flatten_toList g h l, List.filterMap_cons]
    cases g c <;> rfl

/-- **C183** `coin commodities -q` prints one price, of today, for every commodity that is traded on a market and is not the default one, in
increasing order of the ids; for a commodity for which the service reports an error, or a currency the ledger does not have, it says so on
the standard error instead. -/
theorem C183_quotes (st : LoadState) (Q : QuoteService) (now : Int)
    (hr : ∀ c, AskedFor st c → ¬ Answered Q st c .nothing) (hd : ∀ c k x, QuotedAt Q st c k x → k.decimals ≤ 18)
    (fe : FlagEnv) (w : Str) (l : List (Str × Str)) (toks : List (List Str)) (tail : List Str)
    (hw : commandOf w = some .commodities) (hl : List.Forall₂ (Written fe (flagsOf .commodities)) l toks) (ht : Remaining tail [])
    (hq : boolFlag l (str "q") = true) :
    ∃ (quotes : List PPrice) (said : List (PCom × Str)), PricesOf Q now st quotes ∧
      (said.map (·.1.id)).Pairwise (fun a b => strLt a b = true) ∧
      (∀ c, AskedFor st c → (∃ k x, QuotedAt Q st c k x) ∨ c ∈ said.map (·.1)) ∧ (∀ e ∈ said, AskedFor st e.1 ∧ Complaint Q st e.1 e.2) ∧
      quotesMain fe Q now st (w :: (toks.flatten ++ tail)) = .ok (textOf (quotes.map quoteText), textOf (said.map (·.2))) := by
  obtain ⟨h1, h2⟩ := comEntries_spec st
  obtain ⟨h3, h4⟩ := inOrder_spec (fun c : PCom => c.id) st.comEntries h1
  have hmem : ∀ c, c ∈ inOrder (·.id) st.comEntries ↔ LastCom st c := fun c => h3.mem_iff.trans (h2 c)
  generalize hL : inOrder (fun c : PCom => c.id) st.comEntries = L at h4 hmem
  have hasked : ∀ c, LastCom st c → ¬ (c.noMarket = true ∨ c.id = st.dflt) → AskedFor st c := by
    intro c hc hs
    rw [not_or] at hs
    exact ⟨hc, by simpa using hs.1, hs.2⟩
  have hone : ∀ c ∈ L, quoteOne Q now st c = .ok ((quoteOf Q now st c).toList.map quoteText, (complaintOf Q st c).toList) := by
    intro c hc
    have hc := (hmem c).mp hc
    by_cases hs : c.noMarket = true ∨ c.id = st.dflt
    · unfold quoteOne quoteOf complaintOf
      rw [if_pos hs, if_pos hs, if_pos hs]; rfl
    · have ha := hasked c hc hs
      refine quoteOne_eq (fun _ _ e => hr c ha ((answered_ask Q st c _).mpr e)) ?_
      intro cur x k e hk
      have := lookup_id hk
      subst this
      exact hd c k x ⟨ha, hk, (answered_ask Q st c _).mpr e⟩
  have hsome : ∀ c p, c ∈ L → quoteOf Q now st c = some p → p.time = now ∧ p.commodityId = c.id ∧ ∃ k x, QuotedAt Q st c k x ∧ p.currencyId = k.id ∧
      newAmountFloat Q.overflow x k = .ok p.value := by
    intro c p hc hp
    unfold quoteOf at hp
    split at hp
    · cases hp
    · next hs =>
      split at hp
      · next cur x e =>
        split at hp
        · cases hp
        · next k hk =>
          have := lookup_id hk
          subst this
          obtain ⟨a, ha, rfl⟩ := Option.map_eq_some_iff.mp hp
          exact ⟨rfl, rfl, k, x, ⟨hasked c ((hmem c).mp hc) hs, hk, (answered_ask Q st c _).mpr e⟩, rfl, ok_of_opt ha⟩
      · cases hp
  have hquoted : ∀ c k x, QuotedAt Q st c k x → ∃ p, quoteOf Q now st c = some p ∧ p.commodityId = c.id := by
    intro c k x h
    obtain ⟨⟨_, hm, hid⟩, hk, hans⟩ := h
    have e := (answered_ask Q st c _).mp hans
    obtain ⟨y, _, _, e2⟩ := newAmountFloat_eq Q.overflow x k (hd c k x ⟨⟨by assumption, hm, hid⟩, hk, hans⟩)
    unfold quoteOf
    rw [if_neg (by rw [hm]; simpa using hid), e]
    dsimp only
    rw [hk]
    dsimp only
    rw [e2]
    exact ⟨_, rfl, rfl⟩
  have hcomp : ∀ c s, c ∈ L → complaintOf Q st c = some s → AskedFor st c ∧ Complaint Q st c s := by
    intro c s hc h
    unfold complaintOf at h
    split at h
    · cases h
    · next hs =>
      refine ⟨hasked c ((hmem c).mp hc) hs, ?_⟩
      split at h
      · next m e => cases h; exact .failed ((answered_ask Q st c _).mpr e)
      · next cur x e =>
        split at h
        · next hk => cases h; exact .currency ((answered_ask Q st c _).mpr e) (by rw [hk]; simp)
        · cases h
      · cases h
  refine ⟨L.filterMap (quoteOf Q now st), (L.filterMap fun c => (complaintOf Q st c).map fun s => (c, s)), ⟨?_, ?_, ?_⟩, ?_, ?_, ?_, ?_⟩
  · rw [List.pairwise_map, List.pairwise_filterMap]
    rw [List.pairwise_map] at h4
    refine h4.imp_of_mem ?_
    intro c c' hc hc' hlt p hp p' hp'
    rw [(hsome c p hc hp).2.1, (hsome c' p' hc' hp').2.1]
    exact hlt
  · intro c k x h
    obtain ⟨p, hp, e⟩ := hquoted c k x h
    exact List.mem_map.mpr ⟨p, List.mem_filterMap.mpr ⟨c, (hmem c).mpr h.1.1, hp⟩, e⟩
  · intro p hp
    obtain ⟨c, hc, e⟩ := List.mem_filterMap.mp hp
    obtain ⟨a1, a2, k, x, a3, a4, a5⟩ := hsome c p hc e
    exact ⟨a1, c, k, x, a3, a2, a4, a5⟩
  · rw [List.pairwise_map, List.pairwise_filterMap]
    rw [List.pairwise_map] at h4
    refine h4.imp ?_
    intro c c' hlt p hp p' hp'
    obtain ⟨_, _, rfl⟩ := Option.map_eq_some_iff.mp hp
    obtain ⟨_, _, rfl⟩ := Option.map_eq_some_iff.mp hp'
    exact hlt
  · intro c hc
    obtain ⟨hc1, hm, hid⟩ := hc
    have hneg : ¬ (c.noMarket = true ∨ c.id = st.dflt) := by rw [hm]; simpa using hid
    have said : ∀ s, complaintOf Q st c = some s →
        c ∈ (L.filterMap fun c => (complaintOf Q st c).map fun s => (c, s)).map (·.1) := by
      intro s hs
      exact List.mem_map.mpr ⟨(c, s), List.mem_filterMap.mpr ⟨c, (hmem c).mpr hc1, by rw [hs]; rfl⟩, rfl⟩
    cases ha : Q.ask st.dflt c with
    | failed m => exact .inr (said (c.id ++ str ": " ++ m) (by unfold complaintOf; rw [if_neg hneg, ha]))
    | nothing => exact absurd ((answered_ask Q st c _).mpr ha) (hr c ⟨hc1, hm, hid⟩)
    | quote cur x =>
      cases hk : st.lookup cur with
      | none => exact .inr (said (c.id ++ str ": no commodity for " ++ cur) (by unfold complaintOf; rw [if_neg hneg, ha]; dsimp only; rw [hk]))
      | some k =>
        have := lookup_id hk
        subst this
        exact .inl ⟨k, x, ⟨hc1, hm, hid⟩, hk, (answered_ask Q st c _).mpr ha⟩
  · intro e he
    obtain ⟨c, hc, h⟩ := List.mem_filterMap.mp he
    obtain ⟨s, hs, rfl⟩ := Option.map_eq_some_iff.mp h
    exact hcomp c s hc hs
  · unfold quotesMain
    rw [dispatch_written hw hl ht]
    show (if boolFlag l (str "q") = true then _ else _) = _
    rw [if_pos hq]
    unfold quotesOut
    rw [hL, mapM_eq _ _ _ hone]
    show Except.ok _ = Except.ok _
    rw [List.map_map, List.map_map]
    congr 2
    · exact congrArg textOf (flatten_toList _ _ L)
    · have := flatten_toList (complaintOf Q st) id L
      simp only [List.map_id] at this
      rw [List.map_filterMap]
      refine congrArg textOf (Eq.trans this ?_)
      congr 1
      funext c
      cases complaintOf Q st c <;> rfl

/-- **C183** The printed prices, kept in a file, are loaded as what they are, after whatever was loaded before. -/
theorem C183_read_back (d : Disk) (today : Today) (limit : Nat) (P : Install) (priced : Bool) (st : LoadState) (db : PriceDB)
    (hO : CommoditiesOpened P priced st db) (Q : QuoteService) (now : Int) (quotes : List PPrice) (fn : Str)
    (h : PricesOf Q now st quotes) (hy : 100 ≤ goYear now ∧ goYear now ≤ 9999) (ho : -(2 ^ 63) ≤ Q.overflow ∧ Q.overflow < 2 ^ 63)
    (hn : ∀ c ∈ st.items.filterMap itemCom, CommodityName c.id)
    (hf : d.read fn = some (textOf (quotes.map quoteText))) :
    loadFile d today (limit + 1) st fn = .ok ⟨st.coms, st.dflt, st.items ++ quotes.map .price⟩ := by
  have hc : ∀ k ∈ st.coms, CommodityName k.id := by
    intro k hk
    have h1 := List.mem_map_of_mem (f := fun c : Com => c.id) hk
    rw [coms_opened hO, List.mem_reverse] at h1
    obtain ⟨c, hc, e⟩ := List.mem_map.mp h1
    rw [← e]
    exact hn c hc
  have hall : ∀ p ∈ quotes, ReadsAs today st.coms st.dflt (.price p) [quoteText p] := by
    intro p hp
    obtain ⟨h1, c, k, x, h2, h3, h4, h5⟩ := h.each p hp
    obtain ⟨k1, k2, k3, k4⟩ := newAmountFloat_fits ho h5
    have hname : CommodityName p.commodityId := by
      rw [h3]
      obtain ⟨⟨⟨b, a, e, _⟩, _⟩, _⟩ := h2
      exact hn c (by rw [e]; simp)
    have hkin : k ∈ st.coms := List.mem_of_find?_eq_some h2.2.1
    obtain ⟨line, e, hr⟩ := reads_price (today := today) (coms := st.coms) (dflt := st.dflt) (p := p)
      ⟨by rw [h1]; exact hy, hname, ⟨by rw [k1]; omega, k3, k4, by rw [k1]; exact hc k hkin, by rw [k1]; exact h2.2.1⟩, by rw [k1]; exact h4⟩
    have e2 : line = quoteText p := by
      unfold writePrice amountText at e
      rw [format_none (string_ok p.value (by rw [k1]; omega))] at e
      have := List.cons.inj (Except.ok.inj e)
      rw [← this.1]
      simp [quoteText, numText, str]
    rw [e2] at hr
    exact hr
  have hF : List.Forall₂ (ReadsAs today st.coms st.dflt) (quotes.map .price) (quotes.map fun p => [quoteText p]) := by
    rw [List.forall₂_map_left_iff, List.forall₂_map_right_iff, List.forall₂_same]
    exact hall
  have hfl : (quotes.map fun p => [quoteText p]).flatten = quotes.map quoteText := by
    have : ∀ l : List PPrice, (l.map fun p => [quoteText p]).flatten = l.map quoteText := by
      intro l
      induction l with
      | nil => rfl
      | cons p l ih => rw [List.map_cons, List.flatten_cons, ih]; rfl
    exact this quotes
  have h1 := reads_list hF st.items
  have h2 := reads_clean hF
  rw [hfl] at h1 h2
  exact loads_file hf h2 h1

theorem quoteOne_fault {Q : QuoteService} {now : Int} {st : LoadState} {c : PCom} {f : Fault} (h : quoteOne Q now st c = .error f) : f = .panic := by
  unfold quoteOne at h
  split at h
  · cases h
  · split at h
    · cases h
    · cases h; rfl
    · next cur x _ =>
      split at h
      · cases h
      · next k _ =>
        cases hd : newAmountFloat Q.overflow x k with
        | error g =>
          rw [hd] at h
          cases h
          unfold newAmountFloat pow10 at hd
          split at hd
          · cases hd
          · split at hd
            · cases hd
            · cases hd; rfl
        | ok a =>
          rw [hd] at h
          change ((amountText none a).bind fun s => _) = _ at h
          cases he : amountText none a with
          | ok s => rw [he] at h; cases h
          | error g =>
            rw [he] at h
            cases h
            unfold amountText Amount.format at he
            cases hb : bigPow10 a.com.decimals with
            | ok p => rw [hb] at he; cases he
            | error g' =>
              rw [hb] at he
              cases he
              unfold bigPow10 at hb
              split at hb
              · cases hb
              · split at hb
                · cases hb
                · cases hb; rfl

theorem mapM_panics {α β : Type} {f : α → Except Fault β} : ∀ (l : List α), (∀ a ∈ l, ∀ e, f a = .error e → e = .panic) → (∃ a ∈ l, f a = .error .panic) →
    l.mapM f = .error .panic
  | [], _, ⟨_, h, _⟩ => by cases h
  | a :: l, h, ⟨b, hb, e⟩ => by
    rw [List.mapM_cons]
    cases ha : f a with
    | error g => rw [h a (by simp) g ha]; rfl
    | ok x =>
      have hb' : b ∈ l := by
        rcases List.mem_cons.mp hb with rfl | hb
        · rw [ha] at e; cases e
        · exact hb
      have := mapM_panics l (fun c hc => h c (by simp [hc])) ⟨b, hb', e⟩
      show ((l.mapM f).bind fun xs => _) = _
      rw [this]; rfl

/-- **C183** If the service has neither a price nor an error for one of the commodities, as for a symbol it does not know, the command
crashes. -/
theorem C183_unknown_crashes (st : LoadState) (Q : QuoteService) (now : Int) (hr : ∃ c, AskedFor st c ∧ Answered Q st c .nothing)
    (fe : FlagEnv) (w : Str) (l : List (Str × Str)) (toks : List (List Str)) (tail : List Str)
    (hw : commandOf w = some .commodities) (hl : List.Forall₂ (Written fe (flagsOf .commodities)) l toks) (ht : Remaining tail [])
    (hq : boolFlag l (str "q") = true) : quotesMain fe Q now st (w :: (toks.flatten ++ tail)) = .error .panic := by
  obtain ⟨h1, h2⟩ := comEntries_spec st
  obtain ⟨h3, _⟩ := inOrder_spec (fun c : PCom => c.id) st.comEntries h1
  obtain ⟨c, ⟨hc, hm, hid⟩, ha⟩ := hr
  have he : quoteOne Q now st c = .error .panic := by
    unfold quoteOne
    rw [if_neg (by rw [hm]; simpa using hid), (answered_ask Q st c _).mp ha]
  unfold quotesMain
  rw [dispatch_written hw hl ht]
  show (if boolFlag l (str "q") = true then _ else _) = _
  rw [if_pos hq]
  unfold quotesOut
  rw [mapM_panics (f := quoteOne Q now st) _ (fun c _ e h => quoteOne_fault h) ⟨c, (h3.mem_iff.trans (h2 c)).mpr hc, he⟩]
  rfl

/-! ### The ledger of C173 -/

/-- The state of `coin commodities -q`: the commodities alone. -/
def quoteState : LoadState := ⟨[comEur, comCad, comUsd], str "CAD",
  [.commodity ⟨str "USD", [], 2, false, str "USDCAD"⟩, .commodity ⟨str "CAD", [], 2, false, []⟩, .commodity ⟨str "EUR", [], 1, false, []⟩]⟩

/-- A service with a price for the US dollar, but not for the euro. -/
def quoteService : QuoteService :=
  ⟨fun s => if s = str "USDCAD" then .quote (str "CAD") (fl 134 100) else .nothing,
   fun s => if s = str "EURCAD=X" then .failed (str "timeout") else .nothing, -(2 ^ 63)⟩

theorem quote_opened : CommoditiesOpened comInstall false quoteState (fun _ => []) := by
  unfold CommoditiesOpened
  rw [if_neg (by decide)]
  exact ⟨load_eq (by decide +kernel), rfl⟩

/-- Non-vacuity of C183: the command prints the price of the dollar and says what went wrong with the euro. -/
example : quotesMain cmdFlags quoteService 737430 quoteState [str "com", str "-q"] =
    .ok (str "P 2020/01/07 USD 1.34 CAD\n", str "EUR: timeout\n") := ok_of_opt (by decide +kernel)

example : ∀ c ∈ quoteState.items.filterMap itemCom, c.id = str "USD" ∨ c.id = str "CAD" ∨ c.id = str "EUR" := by decide +kernel

/-- The dollar is quoted, the euro is asked for. -/
example : QuotedAt quoteService quoteState ⟨str "USD", [], 2, false, str "USDCAD"⟩ comCad (fl 134 100) ∧
    AskedFor quoteState ⟨str "EUR", [], 1, false, []⟩ ∧ Answered quoteService quoteState ⟨str "EUR", [], 1, false, []⟩ (.failed (str "timeout")) := by
  refine ⟨⟨⟨⟨[], [⟨str "CAD", [], 2, false, []⟩, ⟨str "EUR", [], 1, false, []⟩], by decide +kernel, by decide +kernel⟩, rfl, by decide⟩, by decide +kernel, .inl ⟨by decide, ?_⟩⟩,
    ⟨⟨[⟨str "USD", [], 2, false, str "USDCAD"⟩, ⟨str "CAD", [], 2, false, []⟩], [], by decide +kernel, by decide⟩, rfl, by decide⟩, .inr ⟨rfl, ?_⟩⟩
  · show (if str "USDCAD" = str "USDCAD" then Reply.quote (str "CAD") (fl 134 100) else Reply.nothing) = _
    rw [if_pos rfl]; rfl
  · show (if str "EUR" ++ str "CAD" ++ str "=X" = str "EURCAD=X" then Reply.failed (str "timeout") else Reply.nothing) = _
    rw [if_pos (by decide)]

end Verif
