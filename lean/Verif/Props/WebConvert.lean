import Verif.Model.WebConvert
import Verif.Props.WebAmount
/-!
# C113: which price the page uses on a date
-/
namespace Verif

/-! ## Weeks -/

theorem weekCeil_bounds (t : Int) : t ≤ weekCeil t ∧ weekCeil t < t + weekSec := by
  unfold weekCeil weekSec; omega

/-- Midnight of a Sunday. -/
def IsSunday (t : Int) : Prop := ∃ k : Int, t = 86400 * (7 * k + 6)

theorem weekCeil_sunday (t : Int) : IsSunday (weekCeil t) := by
  refine ⟨(t - 518400 + (weekSec - 1)) / weekSec, ?_⟩
  unfold weekCeil weekSec; omega

/-- Number of weeks of the range. -/
def weekCount (start stop : Int) : Nat := ((stop - weekCeil start + (weekSec - 1)) / weekSec).toNat

theorem weekRange_length (a b : Int) : (weekRange a b).length = weekCount a b := by
  unfold weekRange weekCount; rw [List.length_map, List.length_range]

theorem weekRange_get (a b : Int) (i : Nat) (h : i < weekCount a b) : (weekRange a b)[i]? = some (weekCeil a + weekSec * i) := by
  unfold weekRange
  unfold weekCount at h
  rw [List.getElem?_map, List.getElem?_range h]; rfl

theorem weekRange_mem (a b s : Int) : s ∈ weekRange a b ↔ IsSunday s ∧ a ≤ s ∧ s < b := by
  unfold weekRange
  rw [List.mem_map]
  have hb := weekCeil_bounds a
  obtain ⟨k, hk⟩ := weekCeil_sunday a
  generalize weekCeil a = c at *
  constructor
  · rintro ⟨i, hi, rfl⟩
    rw [List.mem_range] at hi
    unfold weekSec at *
    refine ⟨⟨k + i, by omega⟩, by omega, by omega⟩
  · rintro ⟨⟨j, hj⟩, h1, h2⟩
    refine ⟨(j - k).toNat, ?_, ?_⟩
    · rw [List.mem_range]; unfold weekSec at *; omega
    · unfold weekSec at *; omega

/-! ## Weekly prices -/

/-- `p` is the first price of the list dated `s` or later. -/
def FirstFrom (ps : List WPrice) (s : Int) (p : WPrice) : Prop :=
  ∃ pre post, ps = pre ++ p :: post ∧ (∀ x ∈ pre, x.time < s) ∧ s ≤ p.time

/-- Prices in date order. -/
def ByDate (ps : List WPrice) : Prop := ps.Pairwise (fun p q => p.time ≤ q.time)

theorem weeklyPrices_spec : ∀ (dates : List Int) (pre ps : List WPrice), dates.Pairwise (· ≤ ·) →
    (∀ d ∈ dates, ∀ x ∈ pre, x.time < d) → (∀ d ∈ dates, ∃ p ∈ ps, d ≤ p.time) →
    ∃ ws, weeklyPrices ps dates = .ok ws ∧ ws.length = dates.length ∧
      ∀ (i : Nat) (d : Int), dates[i]? = some d → ∃ p, ws[i]? = some p ∧ FirstFrom (pre ++ ps) d p := by
  intro dates
  induction dates with
  | nil => intro pre ps _ _ _; exact ⟨[], rfl, rfl, fun i d h => by simp at h⟩
  | cons d ds ih =>
    intro pre ps hd hpre hex
    rw [List.pairwise_cons] at hd
    unfold weeklyPrices
    have hsplit := List.takeWhile_append_dropWhile (p := fun p : WPrice => decide (p.time < d)) (l := ps)
    have htw : ∀ x ∈ ps.takeWhile (fun p : WPrice => decide (p.time < d)), x.time < d := by
      intro x hx; have := List.all_eq_true.mp (List.all_takeWhile (p := fun p : WPrice => decide (p.time < d)) (l := ps)) x hx; simpa using this
    cases hdw : ps.dropWhile (fun p : WPrice => decide (p.time < d)) with
    | nil =>
      rw [hdw, List.append_nil] at hsplit
      obtain ⟨p, hp, hle⟩ := hex d List.mem_cons_self
      rw [← hsplit] at hp
      have := htw p hp
      omega
    | cons p r =>
      have hp : d ≤ p.time := by
        have := List.head?_dropWhile_not (fun p : WPrice => decide (p.time < d)) ps
        rw [hdw] at this
        simpa using this
      rw [hdw] at hsplit
      obtain ⟨ws, e, hl, hw⟩ := ih (pre ++ ps.takeWhile (fun p : WPrice => decide (p.time < d))) (p :: r) hd.2
        (by
          intro d' hd' x hx
          rw [List.mem_append] at hx
          rcases hx with hx | hx
          · exact hpre d' (List.mem_cons_of_mem _ hd') x hx
          · have := htw x hx
            have := hd.1 d' hd'
            omega)
        (by
          intro d' hd'
          obtain ⟨q, hq, hle⟩ := hex d' (List.mem_cons_of_mem _ hd')
          rw [← hsplit, List.mem_append] at hq
          rcases hq with hq | hq
          · have := htw q hq
            have := hd.1 d' hd'
            omega
          · exact ⟨q, hq, hle⟩)
      refine ⟨p :: ws, by dsimp only; rw [e]; rfl, by simp [hl], ?_⟩
      intro i d' hi
      cases i with
      | zero =>
        simp only [List.getElem?_cons_zero, Option.some.injEq] at hi ⊢
        subst hi
        refine ⟨p, rfl, pre ++ ps.takeWhile (fun p : WPrice => decide (p.time < d)), r, ?_, ?_, hp⟩
        · rw [List.append_assoc, hsplit]
        · intro x hx
          rw [List.mem_append] at hx
          rcases hx with hx | hx
          · exact hpre d List.mem_cons_self x hx
          · exact htw x hx
      | succ i =>
        simp only [List.getElem?_cons_succ] at hi ⊢
        obtain ⟨q, h1, h2⟩ := hw i d' hi
        rw [List.append_assoc, hsplit] at h2
        exact ⟨q, h1, h2⟩

theorem FirstFrom.mem {ps : List WPrice} {s : Int} {p : WPrice} (h : FirstFrom ps s p) : p ∈ ps := by
  obtain ⟨pre, post, rfl, _⟩ := h; simp

theorem FirstFrom.mono {ps : List WPrice} (hs : ByDate ps) {s s' : Int} {p p' : WPrice} (h : FirstFrom ps s p) (h' : FirstFrom ps s' p')
    (hle : s ≤ s') : p.time ≤ p'.time := by
  have hm := h'.mem
  obtain ⟨_, _, _, _, hp'⟩ := h'
  obtain ⟨pre, post, rfl, h1, h2⟩ := h
  rw [List.mem_append, List.mem_cons] at hm
  unfold ByDate at hs
  rw [List.pairwise_append, List.pairwise_cons] at hs
  rcases hm with hm | rfl | hm
  · have := h1 _ hm; omega
  · exact le_refl _
  · exact hs.2.1.1 _ hm

/-! ## The index of the week -/

theorem scaleIndex_lt (a b : Int) (n : Nat) (d : Int) (hab : a < b) (hn : 0 < n) : scaleIndex a b n d < n := by
  unfold scaleIndex
  dsimp only
  generalize hx : (if d < a then a else if b < d then b else d) = x
  have h1 : a ≤ x ∧ x ≤ b := by
    split at hx
    · omega
    · split at hx <;> omega
  have h2 : (x - a) * ((n : Int) - 1) ≤ (b - a) * ((n : Int) - 1) := Int.mul_le_mul_of_nonneg_right (by omega) (by omega)
  have h3 : (2 * ((x - a) * ((n : Int) - 1)) + (b - a)) / (2 * (b - a)) < n := by
    rw [Int.ediv_lt_iff_lt_mul (by omega)]
    have : (n : Int) * (2 * (b - a)) = 2 * ((b - a) * ((n : Int) - 1)) + 2 * (b - a) := by ring
    omega
  omega

theorem scaleIndex_mono (a b : Int) (n : Nat) {d d' : Int} (hab : a < b) (hn : 0 < n) (hd : d ≤ d') : scaleIndex a b n d ≤ scaleIndex a b n d' := by
  unfold scaleIndex
  dsimp only
  generalize hx : (if d < a then a else if b < d then b else d) = x
  generalize hx' : (if d' < a then a else if b < d' then b else d') = x'
  have h1 : x ≤ x' := by
    split at hx <;> split at hx' <;> (try split at hx) <;> (try split at hx') <;> omega
  have h2 : (x - a) * ((n : Int) - 1) ≤ (x' - a) * ((n : Int) - 1) := Int.mul_le_mul_of_nonneg_right (by omega) (by omega)
  have := Int.ediv_le_ediv (show 0 < 2 * (b - a) by omega) (show 2 * ((x - a) * ((n : Int) - 1)) + (b - a) ≤ 2 * ((x' - a) * ((n : Int) - 1)) + (b - a) by omega)
  omega

/-- The Sunday chosen for a date of the range is at most ten and a half days away. -/
theorem scaleIndex_near (a b d : Int) (ha : a ≤ d) (hb : d ≤ b) (hn : 0 < weekCount a b) :
    let s := weekCeil a + weekSec * scaleIndex a b (weekCount a b) d
    2 * (s - d) ≤ 3 * weekSec ∧ 2 * (d - s) ≤ 3 * weekSec := by
  have hc := weekCeil_bounds a
  have hnW : ((weekCount a b : Int) - 1) * weekSec < b - weekCeil a ∧ b - weekCeil a ≤ (weekCount a b : Int) * weekSec := by
    unfold weekCount at *; unfold weekSec at *; omega
  have hab : a < b := by unfold weekSec at *; omega
  have hi0 : 0 ≤ (2 * ((d - a) * ((weekCount a b : Int) - 1)) + (b - a)) / (2 * (b - a)) := by
    apply Int.ediv_nonneg
    · have : 0 ≤ (d - a) * ((weekCount a b : Int) - 1) := Int.mul_nonneg (by omega) (by omega)
      omega
    · omega
  have hidx : ((scaleIndex a b (weekCount a b) d : Nat) : Int) = (2 * ((d - a) * ((weekCount a b : Int) - 1)) + (b - a)) / (2 * (b - a)) := by
    unfold scaleIndex
    dsimp only
    rw [if_neg (by omega), if_neg (by omega)]
    omega
  dsimp only
  rw [hidx]
  generalize hi : (2 * ((d - a) * ((weekCount a b : Int) - 1)) + (b - a)) / (2 * (b - a)) = i at *
  rw [Int.ediv_eq_iff_of_pos (by omega)] at hi
  generalize (weekCount a b : Int) = n at *
  generalize weekCeil a = c at *
  have hW : (0 : Int) < weekSec := by decide
  generalize weekSec = W at *
  obtain ⟨e, rfl⟩ : ∃ e, d = a + e := ⟨d - a, by omega⟩
  obtain ⟨L, rfl⟩ : ∃ L, b = a + L := ⟨b - a, by omega⟩
  obtain ⟨δ, rfl⟩ : ∃ δ, c = a + δ := ⟨c - a, by omega⟩
  have hL : 0 < L := by omega
  have he : 0 ≤ e ∧ e ≤ L := by omega
  have hδ : 0 ≤ δ ∧ δ < W := by omega
  have h1 : (n - 1) * W ≤ L - δ := by omega
  have h2 : L - δ ≤ n * W := by omega
  have hi1 : i * (2 * L) ≤ 2 * (e * (n - 1)) + L := by
    have := hi.1; rw [show a + L - a = L by omega, show a + e - a = e by omega] at this; exact this
  have hi2 : 2 * (e * (n - 1)) + L < i * (2 * L) + 2 * L := by
    have := hi.2; rw [show a + L - a = L by omega, show a + e - a = e by omega] at this; exact this
  constructor
  · have k1 : i * (2 * L) * W ≤ (2 * (e * (n - 1)) + L) * W := Int.mul_le_mul_of_nonneg_right hi1 (by omega)
    have k2 : e * ((n - 1) * W) ≤ e * (L - δ) := Int.mul_le_mul_of_nonneg_left h1 he.1
    have k3 : δ * (L - e) ≤ W * (L - e) := Int.mul_le_mul_of_nonneg_right (by omega) (by omega)
    have k4 : 0 ≤ W * e := Int.mul_nonneg (by omega) he.1
    have goal : L * (2 * (a + δ + W * i - (a + e))) ≤ L * (3 * W) := by nlinarith
    exact le_of_mul_le_mul_left goal hL
  · have k1 : (2 * (e * (n - 1)) + L) * W ≤ (i * (2 * L) + 2 * L) * W := Int.mul_le_mul_of_nonneg_right (by omega) (by omega)
    have k2 : e * (L - δ) ≤ e * (n * W) := Int.mul_le_mul_of_nonneg_left h2 he.1
    have k3 : 0 ≤ δ * (L - e) := Int.mul_nonneg hδ.1 (by omega)
    have k4 : W * e ≤ W * L := Int.mul_le_mul_of_nonneg_left he.2 (by omega)
    have goal : L * (2 * (a + e - (a + δ + W * i))) ≤ L * (3 * W) := by nlinarith
    exact le_of_mul_le_mul_left goal hL

/-! ## C113 -/

theorem convPrice_eq (ps : List WPrice) (hs : ByDate ps) (f l : WPrice) (hf : ps.head? = some f) (hl : ps.getLast? = some l) (d : Int) :
    (weekCount f.time l.time = 0 → convPrice ps d = .ok f) ∧
    (0 < weekCount f.time l.time → ∃ p, convPrice ps d = .ok p ∧
      FirstFrom ps (weekCeil f.time + weekSec * scaleIndex f.time l.time (weekCount f.time l.time) d) p) := by
  unfold convPrice
  rw [hf, hl]
  dsimp only
  constructor
  · intro h0
    have : weekRange f.time l.time = [] := by
      rw [← List.length_eq_zero_iff, weekRange_length, h0]
    rw [if_pos this]
  · intro h0
    have hne : weekRange f.time l.time ≠ [] := by
      intro e; rw [← List.length_eq_zero_iff, weekRange_length] at e; omega
    rw [if_neg hne]
    have hlast : l ∈ ps := List.mem_of_getLast? hl
    have hab : f.time < l.time := by
      have hm : weekCeil f.time + weekSec * ((0 : Nat) : Int) ∈ weekRange f.time l.time := List.mem_of_getElem? (weekRange_get _ _ 0 h0)
      have := ((weekRange_mem _ _ _).mp hm).2
      omega
    obtain ⟨ws, e, hlen, hw⟩ := weeklyPrices_spec (weekRange f.time l.time) [] ps
      (by
        unfold weekRange
        rw [List.pairwise_map]
        exact List.pairwise_lt_range.imp (fun {x y} h => by unfold weekSec; omega))
      (by intro d _ x hx; simp at hx)
      (by
        intro s hsm
        have := (weekRange_mem _ _ _).mp hsm
        exact ⟨l, hlast, by omega⟩)
    rw [e, weekRange_length]
    have hi := scaleIndex_lt f.time l.time (weekCount f.time l.time) d hab h0
    obtain ⟨p, h1, h2⟩ := hw _ _ (weekRange_get f.time l.time _ hi)
    refine ⟨p, ?_, by simpa using h2⟩
    show (match ws[scaleIndex f.time l.time (weekCount f.time l.time) d]? with
      | some p => Except.ok p
      | none => Except.error Fault.panic) = _
    rw [h1]

/-- **C113** For any known prices and any date the page finds one of the prices – it never fails –, and a later date never gets
an earlier price. -/
theorem C113_total (ps : List WPrice) (hs : ByDate ps) (hne : ps ≠ []) (d : Int) : ∃ p ∈ ps, convPrice ps d = .ok p := by
  obtain ⟨f, hf⟩ : ∃ f, ps.head? = some f := by cases ps with
    | nil => exact absurd rfl hne
    | cons f _ => exact ⟨f, rfl⟩
  obtain ⟨l, hl⟩ : ∃ l, ps.getLast? = some l := ⟨_, List.getLast?_eq_some_getLast hne⟩
  obtain ⟨h0, h1⟩ := convPrice_eq ps hs f l hf hl d
  rcases Nat.eq_zero_or_pos (weekCount f.time l.time) with hz | hz
  · exact ⟨f, List.mem_of_head? hf, h0 hz⟩
  · obtain ⟨p, e, hp⟩ := h1 hz
    exact ⟨p, hp.mem, e⟩

/-- **C113** Later dates get later prices. -/
theorem C113_monotone (ps : List WPrice) (hs : ByDate ps) {d d' : Int} (hd : d ≤ d') {p p' : WPrice}
    (h : convPrice ps d = .ok p) (h' : convPrice ps d' = .ok p') : p.time ≤ p'.time := by
  by_cases hne : ps = []
  · subst hne; simp [convPrice] at h
  obtain ⟨f, hf⟩ : ∃ f, ps.head? = some f := by cases ps with
    | nil => exact absurd rfl hne
    | cons f _ => exact ⟨f, rfl⟩
  obtain ⟨l, hl⟩ : ∃ l, ps.getLast? = some l := ⟨_, List.getLast?_eq_some_getLast hne⟩
  obtain ⟨h0, h1⟩ := convPrice_eq ps hs f l hf hl d
  obtain ⟨h0', h1'⟩ := convPrice_eq ps hs f l hf hl d'
  rcases Nat.eq_zero_or_pos (weekCount f.time l.time) with hz | hz
  · rw [h0 hz] at h; rw [h0' hz] at h'; cases h; cases h'; exact le_refl _
  · obtain ⟨q, e, hq⟩ := h1 hz
    obtain ⟨q', e', hq'⟩ := h1' hz
    rw [e] at h; rw [e'] at h'; cases h; cases h'
    have hab : f.time < l.time := by
      have hm : weekCeil f.time + weekSec * ((0 : Nat) : Int) ∈ weekRange f.time l.time := List.mem_of_getElem? (weekRange_get _ _ 0 hz)
      have := ((weekRange_mem _ _ _).mp hm).2
      omega
    have hm := scaleIndex_mono f.time l.time (weekCount f.time l.time) hab hz hd
    have hle : weekCeil f.time + weekSec * (scaleIndex f.time l.time (weekCount f.time l.time) d : Int) ≤
        weekCeil f.time + weekSec * (scaleIndex f.time l.time (weekCount f.time l.time) d' : Int) := by
      unfold weekSec; omega
    exact hq.mono hs hq' hle

/-- Eleven days. -/
def elevenDays : Int := 11 * 86400

/-- **C113** For a date within the dated prices, either no Sunday lies between the first and the last price and the first is
used, or the price used is the first one dated at or after a Sunday at most eleven days from the date. -/
theorem C113_near_partial (ps : List WPrice) (hs : ByDate ps) (f l : WPrice) (hf : ps.head? = some f) (hl : ps.getLast? = some l)
    (d : Int) (h1 : f.time ≤ d) (h2 : d ≤ l.time) :
    ((∀ s, IsSunday s → ¬ (f.time ≤ s ∧ s < l.time)) ∧ convPrice ps d = .ok f) ∨
    ∃ p s, convPrice ps d = .ok p ∧ IsSunday s ∧ f.time ≤ s ∧ s < l.time ∧ s - d ≤ elevenDays ∧ d - s ≤ elevenDays ∧ FirstFrom ps s p := by
  obtain ⟨h0, hp⟩ := convPrice_eq ps hs f l hf hl d
  rcases Nat.eq_zero_or_pos (weekCount f.time l.time) with hz | hz
  · left
    refine ⟨?_, h0 hz⟩
    intro s hsun hr
    have : s ∈ weekRange f.time l.time := (weekRange_mem _ _ _).mpr ⟨hsun, hr.1, hr.2⟩
    have hpos := List.length_pos_of_mem this
    rw [weekRange_length] at hpos
    omega
  · right
    obtain ⟨p, e, hq⟩ := hp hz
    have hab : f.time < l.time := by
      have hm : weekCeil f.time + weekSec * ((0 : Nat) : Int) ∈ weekRange f.time l.time := List.mem_of_getElem? (weekRange_get _ _ 0 hz)
      have := ((weekRange_mem _ _ _).mp hm).2
      omega
    have hi := scaleIndex_lt f.time l.time (weekCount f.time l.time) d hab hz
    have hmem := (weekRange_mem _ _ _).mp (List.mem_of_getElem? (weekRange_get f.time l.time _ hi))
    have hnear := scaleIndex_near f.time l.time d h1 h2 hz
    dsimp only at hnear
    refine ⟨p, _, e, hmem.1, hmem.2.1, hmem.2.2, ?_, ?_, hq⟩
    · unfold elevenDays; unfold weekSec at hnear; unfold weekSec; omega
    · unfold elevenDays; unfold weekSec at hnear; unfold weekSec; omega

/-- **C113** Full statement: on the day of a price, that price is used (no two prices of a day). -/
def C113_Statement : Prop := ∀ (ps : List WPrice) (p : WPrice), ps.Pairwise (fun p q => p.time < q.time) → p ∈ ps → convPrice ps p.time = .ok p

/-- **C113** is false: with prices on Monday 2024/01/01 and Wednesday 2024/01/31, the price of January 31 is used on January 1. -/
theorem C113_own_day_violated : ¬ C113_Statement := by
  intro h
  have h1 := h [⟨⟨1, str "USD", 2⟩, 86400 * 738885, ⟨130, ⟨0, str "CAD", 2⟩⟩⟩, ⟨⟨1, str "USD", 2⟩, 86400 * 738915, ⟨140, ⟨0, str "CAD", 2⟩⟩⟩]
    ⟨⟨1, str "USD", 2⟩, 86400 * 738885, ⟨130, ⟨0, str "CAD", 2⟩⟩⟩ (by simp) (by simp)
  have h2 : (convPrice [⟨⟨1, str "USD", 2⟩, 86400 * 738885, ⟨130, ⟨0, str "CAD", 2⟩⟩⟩, ⟨⟨1, str "USD", 2⟩, 86400 * 738915, ⟨140, ⟨0, str "CAD", 2⟩⟩⟩]
    (86400 * 738885)).toOption = some ⟨⟨1, str "USD", 2⟩, 86400 * 738915, ⟨140, ⟨0, str "CAD", 2⟩⟩⟩ := by decide +kernel
  rw [h1] at h2
  exact absurd h2 (by decide)

/-- Non-vacuity of `C113_near_partial`: the same prices, 2024/01/10. -/
example : ∃ ps : List WPrice, ByDate ps ∧ ps.length = 2 ∧
    (convPrice ps (86400 * 738894)).toOption = some ⟨⟨1, str "USD", 2⟩, 86400 * 738915, ⟨140, ⟨0, str "CAD", 2⟩⟩⟩ :=
  ⟨[⟨⟨1, str "USD", 2⟩, 86400 * 738885, ⟨130, ⟨0, str "CAD", 2⟩⟩⟩, ⟨⟨1, str "USD", 2⟩, 86400 * 738915, ⟨140, ⟨0, str "CAD", 2⟩⟩⟩],
    by unfold ByDate; simp, rfl, by decide +kernel⟩

end Verif
