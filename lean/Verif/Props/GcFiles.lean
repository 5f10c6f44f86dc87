import Verif.Props.Gnucash
import Verif.Lemmas.Calendar
/-
C107, C108: files by year, dates and transactions of a converted GnuCash book.
-/
namespace Verif

/-! ## C107: files by year -/

theorem itoa_inj {a b : Int} (h : itoa a = itoa b) : a = b := by
  have := congrArg bigSetString h
  rw [bigSetString_itoa, bigSetString_itoa] at this
  exact Option.some.inj this

theorem itoa_head (n : Int) : ∃ x s, itoa n = x :: s ∧ (x = '-' ∨ isDigit x = true) := by
  unfold itoa
  split
  · exact ⟨_, _, rfl, .inl rfl⟩
  · cases h : natStr n.toNat with
    | nil => exact absurd h (natStr_ne_nil _)
    | cons x s => exact ⟨x, s, rfl, .inr (List.all_eq_true.mp (natStr_allDigits n.toNat) x (by rw [h]; simp))⟩

/-! ### The open file -/

theorem write_other {o : OutDir} {x : Str} (s : Str) (h : x ≠ o.cur) : (o.write s).dir x = o.dir x := if_neg h
theorem write_same {o : OutDir} {x : Str} (s : Str) (h : x = o.cur) : (o.write s).dir x = some ((o.dir x).getD [] ++ s) := if_pos h
theorem write_open (o : OutDir) (s : Str) : (o.write s).cur = o.cur := rfl
theorem next_other {o : OutDir} {x fn : Str} (h : x ≠ fn) : (o.next fn).dir x = o.dir x := if_neg h
theorem next_same {o : OutDir} {x fn : Str} (h : x = fn) : (o.next fn).dir x = some [] := if_pos h
theorem next_open (o : OutDir) (fn : Str) : (o.next fn).cur = fn := rfl
theorem fresh_other {o : OutDir} {x fn : Str} (s : Str) (h : x ≠ fn) : ((o.next fn).write s).dir x = o.dir x := by
  rw [write_other s h, next_other h]
theorem fresh_same {o : OutDir} {x fn : Str} (s : Str) (h : x = fn) : ((o.next fn).write s).dir x = some s := by
  rw [write_same s h, next_same h]; rfl

/-- The texts of a year, in order. -/
def textsOf (y : Int) (items : List (Int × Str)) : Str := (items.filter (fun i => decide (i.1 = y))).flatMap (·.2)

theorem textsOf_cons (y : Int) (i : Int × Str) (items : List (Int × Str)) :
    textsOf y (i :: items) = (if i.1 = y then i.2 else []) ++ textsOf y items := by
  unfold textsOf
  rw [List.filter_cons]
  by_cases h : i.1 = y <;> simp [h]

theorem textsOf_none {y : Int} {items : List (Int × Str)} (h : ∀ i ∈ items, i.1 ≠ y) : textsOf y items = [] := by
  unfold textsOf
  rw [List.filter_eq_nil_iff.mpr (by intro i hi; simpa using h i hi)]
  rfl

/-- The loop from the second item on: years do not go back. -/
theorem yearLoop_spec (ext : Str) : ∀ (items : List (Int × Str)) (Y : Int) (o : OutDir) (old : Str), o.cur = itoa Y ++ ext → o.dir o.cur = some old →
    (∀ i ∈ items, Y ≤ i.1) → items.Pairwise (fun a b => a.1 ≤ b.1) →
    ((yearLoop true ext Y o items).2.dir (itoa Y ++ ext) = some (old ++ textsOf Y items)) ∧
    (∀ y, y ≠ Y → (∃ i ∈ items, i.1 = y) → (yearLoop true ext Y o items).2.dir (itoa y ++ ext) = some (textsOf y items)) ∧
    (∀ x, x ≠ itoa Y ++ ext → (∀ i ∈ items, x ≠ itoa i.1 ++ ext) → (yearLoop true ext Y o items).2.dir x = o.dir x) := by
  intro items
  induction items with
  | nil =>
    intro Y o old hc hd _ _
    refine ⟨?_, ?_, ?_⟩
    · rw [yearLoop]; simp only []; rw [← hc, hd]; simp [textsOf]
    · rintro y _ ⟨i, hi, _⟩; cases hi
    · intro x _ _; rfl
  | cons i items ih =>
    intro Y o old hc hd hge hs
    obtain ⟨y, s⟩ := i
    rw [List.pairwise_cons] at hs
    have name_inj : ∀ {a b : Int}, itoa a ++ ext = itoa b ++ ext → a = b := fun h => itoa_inj (List.append_cancel_right h)
    rw [yearLoop]
    by_cases hy : y = Y
    · subst hy
      rw [if_neg (by simp)]
      have hd' : (o.write s).dir (o.write s).cur = some (old ++ s) := by
        rw [write_open, write_same s rfl, hd]; rfl
      obtain ⟨h1, h2, h3⟩ := ih y (o.write s) (old ++ s) hc hd' (fun i hi => hge i (by simp [hi])) hs.2
      refine ⟨?_, ?_, ?_⟩
      · rw [h1, textsOf_cons]; simp
      · rintro z hz ⟨i, hi, e⟩
        rw [textsOf_cons, if_neg (fun e => hz e.symm), List.nil_append]
        refine h2 z hz ?_
        rcases List.mem_cons.mp hi with rfl | hi
        · exact absurd e.symm hz
        · exact ⟨i, hi, e⟩
      · intro x hx hi
        rw [h3 x hx (fun i h => hi i (by simp [h]))]
        rw [write_other s (by rw [hc]; exact hx)]
    · rw [if_pos ⟨rfl, hy⟩]
      have hlt : Y < y := by
        have := hge (y, s) (by simp)
        simp only at this
        omega
      have hd' : ((o.next (itoa y ++ ext)).write s).dir ((o.next (itoa y ++ ext)).write s).cur = some s := fresh_same s rfl
      obtain ⟨h1, h2, h3⟩ := ih y ((o.next (itoa y ++ ext)).write s) s rfl hd' (fun i hi => hs.1 i hi) hs.2
      have hY : ∀ i ∈ items, i.1 ≠ Y := by
        intro i hi
        have := hs.1 i hi
        simp only at this
        omega
      refine ⟨?_, ?_, ?_⟩
      · rw [h3 _ (fun e => hy (name_inj e).symm) (fun i hi e => hY i hi (name_inj e).symm)]
        rw [textsOf_cons, if_neg hy, textsOf_none hY]
        rw [fresh_other s (fun e => hy (name_inj e).symm), ← hc, hd]
        simp
      · rintro z hz ⟨i, hi, e⟩
        by_cases hzy : z = y
        · subst hzy
          rw [h1, textsOf_cons, if_pos rfl]
        · rw [textsOf_cons, if_neg (fun e => hzy e.symm), List.nil_append]
          refine h2 z hzy ?_
          rcases List.mem_cons.mp hi with rfl | hi
          · exact absurd e.symm hzy
          · exact ⟨i, hi, e⟩
      · intro x hx hi
        rw [h3 x (hi (y, s) (by simp)) (fun i h => hi i (by simp [h]))]
        have := hi (y, s) (by simp)
        rw [fresh_other s this]

/-- Opening the first file and the loop, whatever the variable of the loop is before: every year has its file, with its texts, and
other files are as they were. -/
theorem yearFiles_spec (ext whole : Str) (year : Int) (o : OutDir) (items : List (Int × Str)) (hne : items ≠ []) (hs : items.Pairwise (fun a b => a.1 ≤ b.1)) :
    ∃ o1, openFirst true ext whole o items = .ok o1 ∧
      (∀ y, (∃ i ∈ items, i.1 = y) → (yearLoop true ext year o1 items).2.dir (itoa y ++ ext) = some (textsOf y items)) ∧
      (∀ x, (∀ i ∈ items, x ≠ itoa i.1 ++ ext) → (yearLoop true ext year o1 items).2.dir x = o.dir x) := by
  cases items with
  | nil => exact absurd rfl hne
  | cons i items =>
    obtain ⟨y, s⟩ := i
    rw [List.pairwise_cons] at hs
    refine ⟨o.next (itoa y ++ ext), by simp [openFirst], ?_⟩
    obtain ⟨o2, e1, e2, e3, e4⟩ : ∃ o2, yearLoop true ext year (o.next (itoa y ++ ext)) ((y, s) :: items) = yearLoop true ext y o2 items ∧
        o2.cur = itoa y ++ ext ∧ o2.dir o2.cur = some s ∧ ∀ x, x ≠ itoa y ++ ext → o2.dir x = o.dir x := by
      rw [yearLoop]
      by_cases hy : y = year
      · subst hy
        rw [if_neg (by simp)]
        exact ⟨_, rfl, rfl, fresh_same s rfl, fun x hx => fresh_other s hx⟩
      · rw [if_pos ⟨rfl, hy⟩]
        exact ⟨_, rfl, rfl, fresh_same s rfl, fun x hx => by rw [fresh_other s hx, next_other hx]⟩
    rw [e1]
    obtain ⟨h1, h2, h3⟩ := yearLoop_spec ext items y o2 s e2 e3 (fun i hi => hs.1 i hi) hs.2
    refine ⟨?_, ?_⟩
    · rintro z ⟨i, hi, e⟩
      by_cases hz : z = y
      · subst hz
        rw [h1, textsOf_cons, if_pos rfl]
      · rw [textsOf_cons, if_neg (fun e => hz e.symm), List.nil_append]
        refine h2 z hz ?_
        rcases List.mem_cons.mp hi with rfl | hi
        · exact absurd e.symm hz
        · exact ⟨i, hi, e⟩
    · intro x hx
      rw [h3 x (hx (y, s) (by simp)) (fun i h => hx i (by simp [h])), e4 x (hx (y, s) (by simp))]

/-- Prices or transactions with their times and texts, as the program has them: in order of time. -/
abbrev Timed := List (Stamp × Str)
def Timed.Sorted (l : Timed) : Prop := l.Pairwise (fun a b => a.1.sec ≤ b.1.sec)
/-- The years in which they are written. -/
def Timed.entries (l : Timed) : List (Int × Str) := l.map (fun i => (goYear i.1.day, i.2))

/-- The directory has the books of the conversion split by years: a file of prices and one of transactions for every year that has
any, with the texts of that year in order, the commodities and the accounts; other files are untouched. -/
def SplitByYear (before : Str → Option Str) (commodities accounts : Str) (prices txns : List (Int × Str)) (after : Str → Option Str) : Prop :=
  after (str "commodities.coin") = some commodities ∧ after (str "accounts.coin") = some accounts ∧
  (∀ y, (∃ i ∈ prices, i.1 = y) → after (itoa y ++ str ".prices") = some (textsOf y prices)) ∧
  (∀ y, (∃ i ∈ txns, i.1 = y) → after (itoa y ++ str ".coin") = some (textsOf y txns)) ∧
  (∀ x, x ≠ str "commodities.coin" → x ≠ str "accounts.coin" → (∀ i ∈ prices, x ≠ itoa i.1 ++ str ".prices") → (∀ i ∈ txns, x ≠ itoa i.1 ++ str ".coin") →
    after x = before x)

/-- Full statement: with `-y` the books are split by year, for all times. -/
def C107_Statement : Prop := ∀ (dir : Str → Option Str) (commodities accounts : Str) (prices txns : Timed), prices.Sorted → txns.Sorted →
  ∃ o, gcMain true dir commodities accounts prices.entries txns.entries = .ok o ∧ SplitByYear dir commodities accounts prices.entries txns.entries o.dir

theorem letter_ne_itoa {x : Char} {s : Str} (n : Int) (t : Str) (h : x ≠ '-' ∧ isDigit x = false) : x :: s ≠ itoa n ++ t := by
  obtain ⟨y, u, e, hy⟩ := itoa_head n
  rw [e, List.cons_append]
  intro he
  rw [List.cons.injEq] at he
  rw [← he.1] at hy
  rcases hy with hy | hy
  · exact h.1 hy
  · rw [h.2] at hy; cases hy

theorem prices_ne_coin (a b : Int) : itoa a ++ str ".prices" ≠ itoa b ++ str ".coin" := by
  intro h
  have := congrArg List.getLast? h
  rw [List.getLast?_append, List.getLast?_append, show (str ".prices").getLast? = some 's' from rfl, show (str ".coin").getLast? = some 'n' from rfl] at this
  simp at this

/-- **C107 (partial)** True when there are prices and transactions and their years do not go back. Missing: books without prices or
without transactions, and times whose years, each in its own zone, are not in the order of the instants. -/
theorem C107_years_partial (dir : Str → Option Str) (commodities accounts : Str) (prices txns : List (Int × Str)) (hp : prices ≠ []) (ht : txns ≠ [])
    (sp : prices.Pairwise (fun a b => a.1 ≤ b.1)) (st : txns.Pairwise (fun a b => a.1 ≤ b.1)) :
    ∃ o, gcMain true dir commodities accounts prices txns = .ok o ∧ SplitByYear dir commodities accounts prices txns o.dir := by
  unfold gcMain
  obtain ⟨o1, e1, h1, h2⟩ := yearFiles_spec (str ".prices") (str "prices.coin") 0 (((OutDir.mk dir []).next (str "commodities.coin")).write commodities) prices hp sp
  rw [e1]
  simp only [Except.bind]
  generalize yearLoop true (str ".prices") 0 o1 prices = r at h1 h2
  obtain ⟨o3, e3, h3, h4⟩ := yearFiles_spec (str ".coin") (str "transactions.coin") r.1 ((r.2.next (str "accounts.coin")).write accounts) txns ht st
  rw [e3]
  refine ⟨_, rfl, ?_⟩
  have cne : ∀ (n : Int) (t : Str), str "commodities.coin" ≠ itoa n ++ t := fun n t => letter_ne_itoa n t (by decide)
  have ane : ∀ (n : Int) (t : Str), str "accounts.coin" ≠ itoa n ++ t := fun n t => letter_ne_itoa n t (by decide)
  refine ⟨?_, ?_, ?_, h3, ?_⟩
  · rw [h4 _ (fun i _ => cne _ _)]
    rw [fresh_other _ (by decide), h2 _ (fun i _ => cne _ _), fresh_same _ rfl]
  · rw [h4 _ (fun i _ => ane _ _), fresh_same _ rfl]
  · intro y hy
    rw [h4 _ (fun i _ => prices_ne_coin _ _)]
    rw [fresh_other _ (ane _ _).symm]
    exact h1 y hy
  · intro x hc ha hpx htx
    rw [h4 x htx, fresh_other _ ha, h2 x hpx, fresh_other _ hc]

/-- In particular when all times are in one zone. -/
theorem C107_one_zone_partial (dir : Str → Option Str) (commodities accounts : Str) (prices txns : Timed) (off : Int) (hp : prices ≠ []) (ht : txns ≠ [])
    (sp : prices.Sorted) (st : txns.Sorted) (op : ∀ i ∈ prices, i.1.off = off) (ot : ∀ i ∈ txns, i.1.off = off) :
    ∃ o, gcMain true dir commodities accounts prices.entries txns.entries = .ok o ∧ SplitByYear dir commodities accounts prices.entries txns.entries o.dir := by
  have mono : ∀ l : Timed, l.Sorted → (∀ i ∈ l, i.1.off = off) → l.entries.Pairwise (fun a b => a.1 ≤ b.1) := by
    intro l hl ho
    unfold Timed.entries
    rw [List.pairwise_map]
    refine List.Pairwise.imp_of_mem ?_ hl
    intro a b ha hb h
    apply goYear_mono
    unfold Stamp.day
    rw [ho a ha, ho b hb]
    omega
  exact C107_years_partial dir commodities accounts _ _ (by simpa [Timed.entries] using hp) (by simpa [Timed.entries] using ht) (mono _ sp op) (mono _ st ot)

/-- With `-y` a book without prices cannot be converted, nor one without transactions. -/
theorem C107_empty (dir : Str → Option Str) (commodities accounts : Str) (prices txns : List (Int × Str)) (h : prices = [] ∨ txns = []) :
    gcMain true dir commodities accounts prices txns = .error .panic := by
  unfold gcMain
  rcases h with rfl | rfl
  · rfl
  · cases prices with
    | nil => rfl
    | cons i prices =>
      obtain ⟨y, s⟩ := i
      rfl

theorem C107_empty_violated : ¬ C107_Statement := by
  intro h
  obtain ⟨o, h1, _⟩ := h (fun _ => none) [] [] [] [] (by unfold Timed.Sorted; simp) (by unfold Timed.Sorted; simp)
  rw [show gcMain true (fun _ => none) [] [] (Timed.entries []) (Timed.entries []) = .error .panic from C107_empty _ _ _ _ _ (.inl rfl)] at h1
  cases h1

/-- The same with at least one price and transaction. -/
def C107_NonemptyStatement : Prop := ∀ (dir : Str → Option Str) (commodities accounts : Str) (prices txns : Timed), prices ≠ [] → txns ≠ [] → prices.Sorted → txns.Sorted →
  ∃ o, gcMain true dir commodities accounts prices.entries txns.entries = .ok o ∧ SplitByYear dir commodities accounts prices.entries txns.entries o.dir

/-- Around new year 2020: 00:30 on January 1 in zone +0200 is an hour and a half before 00:00 UTC; the next, at 23:00 on December 31 in UTC,
is later but written into the file of the year before; with the third the file of 2020 is created again and the first transaction is lost. -/
def exNewYear : Timed := [(⟨737424 * 86400 - 5400, 7200⟩, str "first"), (⟨737424 * 86400 - 3600, 0⟩, str "second"), (⟨737424 * 86400 + 3600, 0⟩, str "third")]

theorem C107_truncated_violated : ¬ C107_NonemptyStatement := by
  intro h
  obtain ⟨o, h1, _, _, _, h2, _⟩ := h (fun _ => none) [] [] [(⟨0, 0⟩, [])] exNewYear (by simp) (by simp [exNewYear]) (by unfold Timed.Sorted; simp) (by unfold Timed.Sorted; decide)
  have h3 := h2 2020 ⟨(2020, str "first"), by decide +kernel, rfl⟩
  have h4 : (gcMain true (fun _ => none) [] [] (Timed.entries [(⟨0, 0⟩, [])]) exNewYear.entries).map (fun o => o.dir (itoa 2020 ++ str ".coin")) = .ok (some (str "third")) := by
    decide +kernel
  rw [h1] at h4
  simp only [Except.map, Except.ok.injEq] at h4
  rw [h4] at h3
  exact absurd h3 (by decide +kernel)

example : exNewYear.entries = [(2020, str "first"), (2019, str "second"), (2020, str "third")] := by decide +kernel

/-- Without `-y` there are four files with everything, for all books. -/
theorem C107_whole (dir : Str → Option Str) (commodities accounts : Str) (prices txns : List (Int × Str)) :
    ∃ o, gcMain false dir commodities accounts prices txns = .ok o ∧ o.dir (str "commodities.coin") = some commodities ∧ o.dir (str "accounts.coin") = some accounts ∧
      o.dir (str "prices.coin") = some (prices.flatMap (·.2)) ∧ o.dir (str "transactions.coin") = some (txns.flatMap (·.2)) ∧
      ∀ x, x ∉ [str "commodities.coin", str "accounts.coin", str "prices.coin", str "transactions.coin"] → o.dir x = dir x := by
  have loop : ∀ (ext : Str) (items : List (Int × Str)) (year : Int) (o : OutDir) (old : Str), o.dir o.cur = some old →
      (yearLoop false ext year o items).1 = year ∧ (yearLoop false ext year o items).2.dir o.cur = some (old ++ items.flatMap (·.2)) ∧
      ∀ x, x ≠ o.cur → (yearLoop false ext year o items).2.dir x = o.dir x := by
    intro ext items
    induction items with
    | nil => intro year o old h; exact ⟨rfl, by rw [yearLoop]; simpa using h, fun _ _ => rfl⟩
    | cons i items ih =>
      intro year o old h
      obtain ⟨y, s⟩ := i
      rw [yearLoop, if_neg (by simp)]
      obtain ⟨h1, h2, h3⟩ := ih year (o.write s) (old ++ s) (by rw [write_open, write_same s rfl, h]; rfl)
      refine ⟨h1, ?_, ?_⟩
      · rw [show o.cur = (o.write s).cur from rfl, h2]; simp
      · intro x hx
        rw [h3 x hx, write_other s hx]
  have hopen : ∀ (ext whole : Str) (o : OutDir) (items : List (Int × Str)), openFirst false ext whole o items = .ok (o.next whole) := by
    intro ext whole o items
    cases items <;> simp [openFirst]
  unfold gcMain
  rw [hopen]
  simp only [Except.bind]
  rw [hopen]
  refine ⟨_, rfl, ?_⟩
  obtain ⟨h1, h2, h3⟩ := loop (str ".prices") prices 0 ((((OutDir.mk dir []).next (str "commodities.coin")).write commodities).next (str "prices.coin")) [] (next_same rfl)
  generalize yearLoop false (str ".prices") 0 ((((OutDir.mk dir []).next (str "commodities.coin")).write commodities).next (str "prices.coin")) prices = r at h1 h2 h3
  obtain ⟨h4, h5, h6⟩ := loop (str ".coin") txns r.1 (((r.2.next (str "accounts.coin")).write accounts).next (str "transactions.coin")) [] (next_same rfl)
  generalize yearLoop false (str ".coin") r.1 (((r.2.next (str "accounts.coin")).write accounts).next (str "transactions.coin")) txns = r2 at h4 h5 h6
  rw [next_open] at h2 h3 h5 h6
  refine ⟨?_, ?_, ?_, ?_, ?_⟩
  · rw [h6 _ (by decide), next_other (by decide), fresh_other _ (by decide), h3 _ (by decide), next_other (by decide), fresh_same _ rfl]
  · rw [h6 _ (by decide), next_other (by decide), fresh_same _ rfl]
  · rw [h6 _ (by decide), next_other (by decide), fresh_other _ (by decide), h2]; rfl
  · rw [h5]; rfl
  · intro x hx
    simp only [List.mem_cons, List.not_mem_nil, or_false, not_or] at hx
    obtain ⟨a, b, c, d⟩ := hx
    rw [h6 _ d, next_other d, fresh_other _ b, h3 _ c, next_other c, fresh_other _ a]

end Verif
