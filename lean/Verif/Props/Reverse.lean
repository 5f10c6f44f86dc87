import Verif.Lemmas.Double
import Verif.Model.WebConvert
import Verif.Props.WebAmount
/-!
# Properties C142, C143: prices in the other direction on the page
-/
namespace Verif

theorem ok_of_toOption' {α : Type} {x : Except Fault α} {a : α} (h : x.toOption = some a) : x = .ok a := by
  cases x with
  | error e => exact absurd h (by simp [Except.toOption])
  | ok b => simp only [Except.toOption, Option.some.injEq] at h; rw [h]

theorem mathRound_near (x : Int × Nat) (h : 0 < x.2) : |(mathRound x : ℚ) - fracVal x| ≤ 1 / 2 := by
  obtain ⟨p, q⟩ := x
  unfold mathRound fracVal
  dsimp only at h ⊢
  have hq : (0 : Int) < 2 * (q : Int) := by omega
  have e := Int.mul_ediv_add_emod (2 * p + (q : Int)) (2 * (q : Int))
  have e1 := Int.emod_nonneg (2 * p + (q : Int)) (by omega : 2 * (q : Int) ≠ 0)
  have e2 := Int.emod_lt_of_pos (2 * p + (q : Int)) hq
  generalize (2 * p + (q : Int)) / (2 * (q : Int)) = k at *
  generalize (2 * p + (q : Int)) % (2 * (q : Int)) = r at *
  have hqQ : (0 : ℚ) < q := by exact_mod_cast h
  have e' : 2 * (q : ℚ) * k + r = 2 * p + q := by exact_mod_cast e
  have e1' : (0 : ℚ) ≤ r := by exact_mod_cast e1
  have e2' : (r : ℚ) < 2 * q := by exact_mod_cast e2
  have hk : (k : ℚ) - p / q = (q - r) / (2 * q) := by field_simp; linarith
  rw [hk, abs_le]
  constructor
  · rw [le_div_iff₀ (by positivity)]; linarith
  · rw [div_le_iff₀ (by positivity)]; linarith

/-- The scaled reciprocal, for prices that are not too small. -/
theorem reciprocal_near (a : Amount) (d : Nat) (h0 : a.int ≠ 0) (hb : 10 ^ (a.com.decimals + d) ≤ 2 ^ 49 * a.int.natAbs) :
    ∃ r, wReciprocal a d = .ok r ∧ |(r : ℚ) - 10 ^ (a.com.decimals + d) / a.int| ≤ 3 / 4 := by
  unfold wReciprocal
  rw [if_neg h0]
  refine ⟨_, rfl, ?_⟩
  set N1 : Int := if a.int < 0 then -((10 ^ a.com.decimals : Nat) : Int) else ((10 ^ a.com.decimals : Nat) : Int) with hN1
  have hm : 0 < a.int.natAbs := by omega
  have f1 := fl_near N1 a.int.natAbs hm
  have p1 := fl_pos N1 a.int.natAbs
  generalize fl N1 a.int.natAbs = r1 at f1 p1
  have f2 := fl_near (r1.1 * ((10 ^ d : Nat) : Int)) r1.2 p1
  have p2 := fl_pos (r1.1 * ((10 ^ d : Nat) : Int)) r1.2
  generalize fl (r1.1 * ((10 ^ d : Nat) : Int)) r1.2 = r2 at f2 p2
  have f3 := mathRound_near r2 p2
  generalize mathRound r2 = r at f3
  generalize fracVal r2 = v2 at f2 f3
  have haQ : ((a.int.natAbs : Nat) : ℚ) = |(a.int : ℚ)| := by
    rw [Nat.cast_natAbs]; push_cast; rfl
  have hN1Q : (N1 : ℚ) / (a.int.natAbs : Nat) = 10 ^ a.com.decimals / a.int := by
    rw [haQ, hN1]
    by_cases hneg : a.int < 0
    · have : (a.int : ℚ) < 0 := by exact_mod_cast hneg
      rw [if_pos hneg, abs_of_neg this]; push_cast; rw [neg_div_neg_eq]
    · have : (0 : ℚ) < a.int := by
        have : 0 < a.int := by omega
        exact_mod_cast this
      rw [if_neg hneg, abs_of_pos this]; push_cast; rfl
  rw [hN1Q] at f1
  have hv1 : ((r1.1 * ((10 ^ d : Nat) : Int) : Int) : ℚ) / r1.2 = fracVal r1 * 10 ^ d := by
    unfold fracVal; push_cast; ring
  rw [hv1] at f2
  generalize fracVal r1 = v1 at f1 f2
  have hy : (10 : ℚ) ^ (a.com.decimals + d) / a.int = 10 ^ a.com.decimals / a.int * 10 ^ d := by rw [pow_add]; ring
  rw [hy]
  set u : ℚ := 10 ^ a.com.decimals / a.int with hu
  set P : ℚ := 10 ^ d with hP
  have hPpos : 0 < P := by positivity
  have hyb : |u * P| ≤ 2 ^ 49 := by
    rw [← hy, abs_div, div_le_iff₀ (by rw [← haQ]; exact_mod_cast hm), abs_of_pos (by positivity), ← haQ]
    exact_mod_cast hb
  have g1 : |v1 * P - u * P| ≤ |u * P| / 2 ^ 53 := by
    have : v1 * P - u * P = (v1 - u) * P := by ring
    rw [this, abs_mul, abs_mul, abs_of_pos hPpos]
    have := mul_le_mul_of_nonneg_right f1 (le_of_lt hPpos)
    calc |v1 - u| * P ≤ |u| / 2 ^ 53 * P := this
      _ = |u| * P / 2 ^ 53 := by ring
  have g1' : |v1 * P - u * P| ≤ 1 / 16 := by
    refine le_trans g1 ?_
    rw [div_le_iff₀ (by positivity)]
    refine le_trans hyb (by norm_num)
  have g2 : |v1 * P| ≤ 2 ^ 49 + 1 / 16 := by
    have : v1 * P = u * P + (v1 * P - u * P) := by ring
    rw [this]
    exact le_trans (abs_add_le _ _) (add_le_add hyb g1')
  have g3 : |v2 - v1 * P| ≤ 1 / 8 := by
    refine le_trans f2 ?_
    rw [div_le_iff₀ (by positivity)]
    refine le_trans g2 (by norm_num)
  have : (r : ℚ) - u * P = (r - v2) + (v2 - v1 * P) + (v1 * P - u * P) := by ring
  rw [this]
  refine le_trans (abs_add_le _ _) ?_
  refine le_trans (add_le_add (le_trans (abs_add_le _ _) (add_le_add f3 g3)) g1') (by norm_num)

/-- **C142** For every price the page also keeps the price of the currency in terms of the commodity: same date, the reciprocal value,
right to within three quarters of the smallest unit of the commodity. (The price is not zero and its reciprocal has less than 2^49
smallest units.) -/
theorem C142_reverse_price (p : WPrice) (h0 : p.value.int ≠ 0)
    (hb : 10 ^ (p.value.com.decimals + p.com.decimals) ≤ 2 ^ 49 * p.value.int.natAbs) :
    ∃ q, wReverse p = .ok q ∧ q.com = p.value.com ∧ q.value.com = p.com ∧ q.time = p.time ∧
      4 * (q.value.int * p.value.int - 10 ^ (p.value.com.decimals + p.com.decimals)).natAbs ≤ 3 * p.value.int.natAbs := by
  obtain ⟨r, hr, hn⟩ := reciprocal_near p.value p.com.decimals h0 hb
  refine ⟨⟨p.value.com, p.time, ⟨r, p.com⟩⟩, by unfold wReverse; rw [hr]; rfl, rfl, rfl, rfl, ?_⟩
  dsimp only
  generalize p.value.com.decimals + p.com.decimals = k at *
  generalize p.value.int = x at *
  have hx : (x : ℚ) ≠ 0 := by exact_mod_cast h0
  have h1 : ((4 * (r * x - 10 ^ k).natAbs : Nat) : ℚ) ≤ ((3 * x.natAbs : Nat) : ℚ) := by
    push_cast
    rw [Nat.cast_natAbs, Nat.cast_natAbs]
    push_cast
    have e : (r : ℚ) * x - 10 ^ k = (r - 10 ^ k / x) * x := by field_simp
    rw [e, abs_mul]
    have := mul_le_mul_of_nonneg_right hn (abs_nonneg (x : ℚ))
    linarith
  exact_mod_cast h1

/-- 1 USD = 1.33 CAD gives 1 CAD = 0.75 USD. -/
example : wReverse ⟨⟨0, str "USD", 2⟩, 5, ⟨133, ⟨0, str "CAD", 2⟩⟩⟩ = .ok ⟨⟨0, str "CAD", 2⟩, 5, ⟨75, ⟨0, str "USD", 2⟩⟩⟩ :=
  ok_of_toOption' (by decide +kernel)

/-! ## There and back -/

/-- Converting by a price and back by its reverse gives the amount again, to within a smallest unit. -/
def C143_Statement : Prop :=
  ∀ (p q : WPrice) (a : Amount), a.com = p.com → p.value.int ≠ 0 →
    10 ^ (p.value.com.decimals + p.com.decimals) ≤ 2 ^ 49 * p.value.int.natAbs →
    (a.int * p.value.int).natAbs < 2 ^ 53 → ((wConvertTo a p.value).int * q.value.int).natAbs < 2 ^ 53 → wReverse p = .ok q →
    (wConvertTo (wConvertTo a p.value) q.value).com = a.com ∧ ((wConvertTo (wConvertTo a p.value) q.value).int - a.int).natAbs ≤ 1

/-- **C143** does not hold: 1000.00 USD at 1.33 are 1330.00 CAD, which the page converts to 997.50 USD. -/
theorem C143_there_and_back_violated : ¬ C143_Statement := by
  intro h
  have := (h ⟨⟨0, str "USD", 2⟩, 5, ⟨133, ⟨0, str "CAD", 2⟩⟩⟩ ⟨⟨0, str "CAD", 2⟩, 5, ⟨75, ⟨0, str "USD", 2⟩⟩⟩ ⟨100000, ⟨0, str "USD", 2⟩⟩ rfl (by decide)
    (by decide) (by decide) (by decide +kernel) (ok_of_toOption' (by decide +kernel))).2
  exact absurd this (by decide +kernel)

theorem rounded_near {x : Int} {d : Nat} {r : Int} (h : RoundedHalfUp x d r) : |(r : ℚ) - x / 10 ^ d| ≤ 1 / 2 := by
  obtain ⟨h1, h2⟩ := h
  have hp : (0 : ℚ) < 10 ^ d := by positivity
  have h1' : (2 : ℚ) * 10 ^ d * r ≤ 2 * x + 10 ^ d := by exact_mod_cast h1
  have h2' : (2 : ℚ) * x + 10 ^ d < 2 * 10 ^ d * (r + 1) := by exact_mod_cast h2
  have e : (r : ℚ) - x / 10 ^ d = (10 ^ d * r - x) / 10 ^ d := by field_simp
  rw [e, abs_le]
  constructor
  · rw [le_div_iff₀ hp]; linarith
  · rw [div_le_iff₀ hp]; linarith

/-- **C143**, what holds: the error is at most half a unit of each of the two roundings, plus three quarters of a unit of the reverse
price for every whole unit of the converted amount (so with a price near one the error grows with the amount). In smallest units, for
`a` converted to `b` by the price `x` (with `da` and `db` decimals): `|back - a| ≤ 1/2 + 10^da / (2 |x|) + 3 |b| / (4 · 10^db)`. -/
theorem C143_there_and_back_partial (p q : WPrice) (a : Amount) (hc : a.com = p.com) (h0 : p.value.int ≠ 0)
    (hb : 10 ^ (p.value.com.decimals + p.com.decimals) ≤ 2 ^ 49 * p.value.int.natAbs)
    (h1 : (a.int * p.value.int).natAbs < 2 ^ 53) (h2 : ((wConvertTo a p.value).int * q.value.int).natAbs < 2 ^ 53)
    (hr : wReverse p = .ok q) :
    (wConvertTo (wConvertTo a p.value) q.value).com = a.com ∧
      |((wConvertTo (wConvertTo a p.value) q.value).int : ℚ) - a.int| ≤
        1 / 2 + 10 ^ p.com.decimals / (2 * |(p.value.int : ℚ)|) +
          3 * |((wConvertTo a p.value).int : ℚ)| / (4 * 10 ^ p.value.com.decimals) := by
  obtain ⟨q', hq', e1, e2, e3, hn⟩ := C142_reverse_price p h0 hb
  rw [hr] at hq'
  have hqq := (Except.ok.inj hq')
  rw [← hqq] at e1 e2 hn
  obtain ⟨c1, r1⟩ := C112_convert a p.value h1
  obtain ⟨c2, r2⟩ := C112_convert (wConvertTo a p.value) q.value h2
  refine ⟨by rw [c2, e2, hc], ?_⟩
  rw [c1] at r2
  have n1 := rounded_near r1
  have n2 := rounded_near r2
  rw [hc] at n1
  generalize (wConvertTo (wConvertTo a p.value) q.value).int = back at *
  generalize (wConvertTo a p.value).int = b at *
  generalize p.value.int = x at *
  generalize q.value.int = y at *
  generalize p.com.decimals = da at *
  generalize p.value.com.decimals = db at *
  generalize a.int = a at *
  have hx : (x : ℚ) ≠ 0 := by exact_mod_cast h0
  have hA : (0 : ℚ) < 10 ^ da := by positivity
  have hB : (0 : ℚ) < 10 ^ db := by positivity
  have n3 : |(y : ℚ) - 10 ^ db * 10 ^ da / x| ≤ 3 / 4 := by
    have hq : (4 : ℚ) * |(y : ℚ) * x - 10 ^ (db + da)| ≤ 3 * |(x : ℚ)| := by
      have := (Nat.cast_le (α := ℚ)).mpr hn
      push_cast at this
      rw [Nat.cast_natAbs, Nat.cast_natAbs] at this
      push_cast at this
      exact this
    have e : (y : ℚ) * x - 10 ^ (db + da) = (y - 10 ^ db * 10 ^ da / x) * x := by rw [pow_add]; field_simp
    rw [e, abs_mul] at hq
    have hxp : 0 < |(x : ℚ)| := abs_pos.mpr hx
    have : (|(y : ℚ) - 10 ^ db * 10 ^ da / x| * 4) * |(x : ℚ)| ≤ 3 * |(x : ℚ)| := by linarith
    have := le_of_mul_le_mul_right this hxp
    linarith
  push_cast at n1 n2
  generalize (10 : ℚ) ^ da = A at *
  generalize (10 : ℚ) ^ db = B at *
  have split : (back : ℚ) - a = (back - b * y / B) + (b - a * x / A) * (A / x) + b / B * (y - B * A / x) := by
    field_simp
    ring
  rw [split]
  refine le_trans (abs_add_le _ _) (add_le_add (le_trans (abs_add_le _ _) (add_le_add n2 ?_)) ?_)
  · rw [abs_mul, abs_div, abs_of_pos hA]
    calc |(b : ℚ) - a * x / A| * (A / |(x : ℚ)|) ≤ 1 / 2 * (A / |(x : ℚ)|) := mul_le_mul_of_nonneg_right n1 (by positivity)
      _ = A / (2 * |(x : ℚ)|) := by field_simp
  · rw [abs_mul, abs_div, abs_of_pos hB]
    calc |(b : ℚ)| / B * |(y : ℚ) - B * A / x| ≤ |(b : ℚ)| / B * (3 / 4) := mul_le_mul_of_nonneg_left n3 (by positivity)
      _ = 3 * |(b : ℚ)| / (4 * B) := by field_simp

/-- The case of C143_there_and_back_violated meets the hypotheses: the error of 2.50 is below the bound of 9.98. -/
example : wReverse ⟨⟨0, str "USD", 2⟩, 5, ⟨133, ⟨0, str "CAD", 2⟩⟩⟩ = .ok ⟨⟨0, str "CAD", 2⟩, 5, ⟨75, ⟨0, str "USD", 2⟩⟩⟩ ∧
    (wConvertTo (wConvertTo ⟨100000, ⟨0, str "USD", 2⟩⟩ ⟨133, ⟨0, str "CAD", 2⟩⟩) ⟨75, ⟨0, str "USD", 2⟩⟩).int = 99750 ∧
    10 ^ (2 + 2) ≤ 2 ^ 49 * (133 : Int).natAbs :=
  ⟨ok_of_toOption' (by decide +kernel), by decide +kernel, by decide⟩

end Verif
