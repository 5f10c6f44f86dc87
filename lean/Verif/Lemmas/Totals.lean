import Verif.Model.Register
import Verif.Lemmas.Ledger
import Verif.Props.Range
/-! Lemmas about time series of totals: maps, merging. -/
namespace Verif

abbrev Vals := List (Option Str × Amount)
abbrev Conv := Com → Amount → Except Fault Amount

theorem getKey_cons (e : Option Str × Amount) (l : Vals) (k : Option Str) :
    getKey (e :: l) k = if e.1 = k then some e.2 else getKey l k := by
  unfold getKey
  rw [List.find?_cons]
  by_cases h : e.1 = k <;> simp [h]

@[simp] theorem getKey_nil (k : Option Str) : getKey [] k = none := rfl

theorem getKey_setKey (l : Vals) (k k' : Option Str) (a : Amount) :
    getKey (setKey l k a) k' = if k' = k then some a else getKey l k' := by
  induction l with
  | nil =>
    simp only [setKey, getKey_cons, getKey_nil]
    by_cases h : k' = k
    · simp [h]
    · simp [h, Ne.symm h]
  | cons e l ih =>
    unfold setKey
    by_cases he : e.1 = k
    · rw [if_pos he, getKey_cons, getKey_cons, he]
      by_cases h : k' = k
      · simp [h]
      · simp [h, Ne.symm h]
    · rw [if_neg he, getKey_cons, ih, getKey_cons]
      by_cases h : e.1 = k'
      · have : k' ≠ k := by rw [← h]; exact he
        simp [h, this]
      · simp [h]

theorem getKey_isSome (l : Vals) (k : Option Str) : (getKey l k).isSome = true ↔ k ∈ l.map (·.1) := by
  induction l with
  | nil => simp
  | cons e l ih =>
    rw [getKey_cons]
    by_cases h : e.1 = k
    · simp [h]
    · rw [if_neg h, ih]
      simp only [List.map_cons, List.mem_cons]
      constructor
      · exact .inr
      · rintro (h' | h')
        · exact absurd h'.symm h
        · exact h'

theorem keys_setKey (l : Vals) (k : Option Str) (a : Amount) :
    (setKey l k a).map (·.1) = if k ∈ l.map (·.1) then l.map (·.1) else l.map (·.1) ++ [k] := by
  induction l with
  | nil => simp [setKey]
  | cons e l ih =>
    unfold setKey
    by_cases he : e.1 = k
    · simp [he]
    · rw [if_neg he]
      simp only [List.map_cons, ih, List.mem_cons]
      have : (k = e.1) = False := by simp [Ne.symm he]
      simp only [this, false_or]
      split <;> simp

theorem mem_setKey (l : Vals) (k : Option Str) (a : Amount) (e : Option Str × Amount) (h : e ∈ setKey l k a) : e = (k, a) ∨ e ∈ l := by
  induction l with
  | nil => simp [setKey] at h; exact .inl h
  | cons x l ih =>
    unfold setKey at h
    split at h
    · rcases List.mem_cons.mp h with h | h
      · exact .inl h
      · exact .inr (List.mem_cons_of_mem _ h)
    · rcases List.mem_cons.mp h with h | h
      · exact .inr (by rw [h]; simp)
      · rcases ih h with h | h
        · exact .inl h
        · exact .inr (List.mem_cons_of_mem _ h)

theorem getKey_mem (l : Vals) (k : Option Str) (a : Amount) (h : getKey l k = some a) : (k, a) ∈ l := by
  induction l with
  | nil => simp at h
  | cons e l ih =>
    rw [getKey_cons] at h
    split at h
    · rename_i he
      injection h with h
      rw [← he, ← h]; simp
    · exact List.mem_cons_of_mem _ (ih h)

/-- Entries of one commodity with distinct keys. -/
structure ValsOK (c : Com) (l : Vals) : Prop where
  nodup : (l.map (·.1)).Nodup
  com : ∀ e ∈ l, e.2.com = c

theorem ValsOK.set {c : Com} {l : Vals} (h : ValsOK c l) (k : Option Str) (a : Amount) (ha : a.com = c) : ValsOK c (setKey l k a) := by
  refine ⟨?_, ?_⟩
  · rw [keys_setKey]
    split
    · exact h.nodup
    · rename_i hk
      rw [List.nodup_append]
      refine ⟨h.nodup, by simp, ?_⟩
      intro x hx y hy
      simp only [List.mem_singleton] at hy
      rintro rfl; subst hy; exact hk hx
  · intro e he
    rcases mem_setKey l k a e he with rfl | he
    · exact ha
    · exact h.com e he

/-- Number stored under a key (0 if missing). -/
def keyVal (l : Vals) (k : Option Str) : Int := ((getKey l k).map (·.int)).getD 0

theorem keyVal_setKey (l : Vals) (k k' : Option Str) (a : Amount) : keyVal (setKey l k a) k' = if k' = k then a.int else keyVal l k' := by
  unfold keyVal; rw [getKey_setKey]; split <;> simp

theorem addInState_same (conv : Conv) (a b : Amount) (h : a.com = b.com) : (a.addInState conv b).1 = ⟨a.int + b.int, a.com⟩ := by
  unfold Amount.addInState; rw [addIn_same conv a b h]

theorem addEntry_spec (conv : Conv) (ko : Bool) (c : Com) (l : Vals) (e : Option Str × Amount) (h : ValsOK c l) (he : e.2.com = c) :
    ValsOK c (addEntry conv ko l e) ∧
    (addEntry conv ko l e).map (·.1) = (if e.1 ∈ l.map (·.1) then l.map (·.1) else l.map (·.1) ++ [e.1]) ∧
    (∀ k, keyVal (addEntry conv ko l e) k = keyVal l k + (if k = e.1 ∧ ko = false then e.2.int else 0)) := by
  unfold addEntry
  rcases hg : getKey l e.1 with _ | amt
  · have hk : e.1 ∉ l.map (·.1) := by rw [← getKey_isSome, hg]; simp
    simp only
    refine ⟨h.set _ _ (by split <;> simp [zeroAmount, Amount.copy, he]), ?_, ?_⟩
    · rw [keys_setKey]
    · intro k
      rw [keyVal_setKey]
      by_cases hke : k = e.1
      · subst hke
        have : keyVal l e.1 = 0 := by unfold keyVal; rw [hg]; rfl
        cases ko <;> simp [this, zeroAmount, Amount.copy]
      · simp [hke]
  · have hk : e.1 ∈ l.map (·.1) := by rw [← getKey_isSome, hg]; simp
    have hac : amt.com = c := h.com _ (getKey_mem l e.1 amt hg)
    simp only
    cases ko with
    | true => simp [h, hk]
    | false =>
      simp only [Bool.false_eq_true, if_false]
      rw [addInState_same conv amt e.2 (by rw [hac, he])]
      refine ⟨h.set _ _ hac, by rw [keys_setKey], ?_⟩
      intro k
      rw [keyVal_setKey]
      by_cases hke : k = e.1
      · subst hke
        have : keyVal l e.1 = amt.int := by unfold keyVal; rw [hg]; rfl
        simp [this]
      · simp [hke]

theorem addEntries_spec (conv : Conv) (ko : Bool) (c : Com) (l l2 : Vals) (h : ValsOK c l) (h2 : ValsOK c l2) :
    ValsOK c (l2.foldl (addEntry conv ko) l) ∧
    (∀ k, k ∈ (l2.foldl (addEntry conv ko) l).map (·.1) ↔ k ∈ l.map (·.1) ∨ k ∈ l2.map (·.1)) ∧
    (∀ k, keyVal (l2.foldl (addEntry conv ko) l) k = keyVal l k + (if ko then 0 else keyVal l2 k)) := by
  induction l2 generalizing l with
  | nil => simp [h, keyVal]
  | cons e l2 ih =>
    obtain ⟨hn, hn2⟩ := List.nodup_cons.mp h2.nodup
    have he := h2.com e (by simp)
    obtain ⟨g1, g2, g3⟩ := addEntry_spec conv ko c l e h he
    obtain ⟨i1, i2, i3⟩ := ih (addEntry conv ko l e) g1 ⟨hn2, fun x hx => h2.com x (by simp [hx])⟩
    refine ⟨i1, ?_, ?_⟩
    · intro k
      rw [List.foldl_cons, i2, g2]
      by_cases hk : e.1 ∈ l.map (·.1)
      · rw [if_pos hk]
        simp only [List.map_cons, List.mem_cons]
        constructor
        · rintro (h | h) <;> tauto
        · rintro (h | h | h)
          · exact .inl h
          · subst h; exact .inl hk
          · exact .inr h
      · rw [if_neg hk]
        simp only [List.map_cons, List.mem_cons, List.mem_append, List.not_mem_nil, or_false]
        tauto
    · intro k
      rw [List.foldl_cons, i3, g3]
      have hkv : keyVal (e :: l2) k = if e.1 = k then e.2.int else keyVal l2 k := by
        unfold keyVal; rw [getKey_cons]; split <;> simp
      rw [hkv]
      cases ko with
      | true => simp
      | false =>
        simp only [Bool.false_eq_true, if_false, and_true]
        by_cases hk : k = e.1
        · subst hk
          have : keyVal l2 e.1 = 0 := by
            unfold keyVal
            rcases hg : getKey l2 e.1 with _ | b
            · rfl
            · exact absurd ((getKey_isSome l2 e.1).mp (by rw [hg]; rfl)) hn
          simp [this]
        · have : ¬ e.1 = k := fun h => hk h.symm
          simp [hk, this]

/-! ### Totals of one period -/

/-- A period total of commodity `c`: with categories every entry has one; without there is exactly the entry `none`. -/
structure TTOK (c : Com) (cat : Bool) (x : TT) : Prop where
  vals : ValsOK c x.vals
  cats : cat = true → x.vals ≠ [] ∧ none ∉ x.vals.map (·.1)
  single : cat = false → x.vals.map (·.1) = [none]

/-- Number under a key of a period total. -/
def TT.val (x : TT) (k : Option Str) : Int := keyVal x.vals k

/-- Keys of a period total. -/
def TT.keys (x : TT) : List (Option Str) := x.vals.map (·.1)

theorem TTOK.addIn {c : Com} {cat ko : Bool} {x y : TT} (conv : Conv) (hx : TTOK c cat x) (hy : TTOK c cat y) :
    TTOK c cat (x.addIn conv ko y) ∧ (x.addIn conv ko y).time = x.time ∧
    (∀ k, k ∈ (x.addIn conv ko y).keys ↔ k ∈ x.keys ∨ k ∈ y.keys) ∧
    (∀ k, (x.addIn conv ko y).val k = x.val k + (if ko then 0 else y.val k)) := by
  obtain ⟨h1, h2, h3⟩ := addEntries_spec conv ko c x.vals y.vals hx.vals hy.vals
  refine ⟨⟨h1, ?_, ?_⟩, rfl, h2, h3⟩
  · intro hc
    refine ⟨?_, ?_⟩
    · obtain ⟨hne, _⟩ := hx.cats hc
      obtain ⟨e, l, he⟩ := List.exists_cons_of_ne_nil hne
      intro h0
      have := (h2 e.1).mpr (.inl (by rw [he]; simp))
      unfold TT.addIn at h0
      simp only at h0
      rw [h0] at this; simp at this
    · intro hn
      rcases (h2 none).mp hn with h | h
      · exact (hx.cats hc).2 h
      · exact (hy.cats hc).2 h
  · intro hc
    have e1 := hx.single hc
    have e2 := hy.single hc
    obtain ⟨ex, hex⟩ : ∃ ex, x.vals = [ex] := by
      have := congrArg List.length e1
      simp at this
      exact List.length_eq_one_iff.mp this
    obtain ⟨ey, hey⟩ : ∃ ey, y.vals = [ey] := by
      have := congrArg List.length e2
      simp at this
      exact List.length_eq_one_iff.mp this
    rw [hex] at e1; rw [hey] at e2
    simp at e1 e2
    have hcx : ex.2.com = c := hx.vals.com ex (by rw [hex]; simp)
    have hcy : ey.2.com = c := hy.vals.com ey (by rw [hey]; simp)
    obtain ⟨_, g2, _⟩ := addEntry_spec conv ko c [ex] ey ⟨by simp, by simp [hcx]⟩ hcy
    unfold TT.addIn
    rw [hex, hey]
    simp only [List.foldl_cons, List.foldl_nil]
    rw [g2]; simp [e1, e2]

/-- A fresh total that the entries of `y` are added to (the injected extra). -/
def freshBase (cat : Bool) (c : Com) (t : Int) : TT := if cat then ⟨t, []⟩ else ⟨t, [(none, zeroAmount c)]⟩

theorem TTOK.fresh {c : Com} {cat ko : Bool} {y : TT} (conv : Conv) (hy : TTOK c cat y) :
    TTOK c cat ((freshBase cat c y.time).addIn conv ko y) ∧ ((freshBase cat c y.time).addIn conv ko y).time = y.time ∧
    (∀ k, k ∈ ((freshBase cat c y.time).addIn conv ko y).keys ↔ k ∈ y.keys) ∧
    (∀ k, ((freshBase cat c y.time).addIn conv ko y).val k = (if ko then 0 else y.val k)) := by
  cases cat with
  | true =>
    obtain ⟨h1, h2, h3⟩ := addEntries_spec conv ko c [] y.vals ⟨by simp, by simp⟩ hy.vals
    have hk : ∀ k, k ∈ ((freshBase true c y.time).addIn conv ko y).keys ↔ k ∈ y.keys := by
      intro k; simpa [TT.keys, TT.addIn, freshBase] using h2 k
    refine ⟨⟨h1, ?_, by simp⟩, rfl, hk, ?_⟩
    · intro _
      refine ⟨?_, fun hn => (hy.cats rfl).2 ((hk none).mp hn)⟩
      obtain ⟨e, l, he⟩ := List.exists_cons_of_ne_nil (hy.cats rfl).1
      intro h0
      have := (hk e.1).mpr (by unfold TT.keys; rw [he]; simp)
      unfold TT.keys at this
      rw [h0] at this; simp at this
    · intro k
      have := h3 k
      simpa [TT.val, TT.addIn, freshBase, keyVal] using this
  | false =>
    have hb : TTOK c false (freshBase false c y.time) := ⟨⟨by simp [freshBase], by simp [freshBase, zeroAmount]⟩, by simp, by simp [freshBase]⟩
    obtain ⟨g1, g2, g3, g4⟩ := hb.addIn (ko := ko) conv hy
    refine ⟨g1, rfl, ?_, ?_⟩
    · intro k
      rw [g3]
      have : (freshBase false c y.time).keys = [none] := by simp [TT.keys, freshBase]
      have hyk : y.keys = [none] := hy.single rfl
      rw [this, hyk]; simp
    · intro k
      rw [g4]
      have : (freshBase false c y.time).val k = 0 := by
        unfold TT.val keyVal freshBase
        simp only [Bool.false_eq_true, if_false, getKey_cons, getKey_nil]
        split <;> simp [zeroAmount]
      omega

/-! ### Timelines -/

/-- A timeline of commodity `c`: strictly increasing times. -/
structure TSOK (c : Com) (cat : Bool) (ts : TS) : Prop where
  sorted : ts.Pairwise (fun x y => x.time < y.time)
  ok : ∀ x ∈ ts, TTOK c cat x

/-- Number at a time and key: sum over the elements of that time. -/
def TS.val (ts : TS) (t : Int) (k : Option Str) : Int := ((ts.filter (fun x => decide (x.time = t))).map (fun x => x.val k)).sum

/-- Times of a timeline. -/
def TS.times (ts : TS) : List Int := ts.map (·.time)

/-- A key is present at a time. -/
def TS.has (ts : TS) (t : Int) (k : Option Str) : Prop := ∃ x ∈ ts, x.time = t ∧ k ∈ x.keys

theorem TS.val_cons (x : TT) (ts : TS) (t : Int) (k : Option Str) :
    TS.val (x :: ts) t k = (if x.time = t then x.val k else 0) + TS.val ts t k := by
  unfold TS.val
  by_cases h : x.time = t <;> simp [h]

theorem TS.val_append (a b : TS) (t : Int) (k : Option Str) : TS.val (a ++ b) t k = TS.val a t k + TS.val b t k := by
  unfold TS.val; simp

@[simp] theorem TS.val_nil (t : Int) (k : Option Str) : TS.val [] t k = 0 := rfl

theorem TS.has_cons (x : TT) (ts : TS) (t : Int) (k : Option Str) : TS.has (x :: ts) t k ↔ (x.time = t ∧ k ∈ x.keys) ∨ TS.has ts t k := by
  unfold TS.has; simp

theorem TS.has_append (a b : TS) (t : Int) (k : Option Str) : TS.has (a ++ b) t k ↔ TS.has a t k ∨ TS.has b t k := by
  unfold TS.has
  simp only [List.mem_append]
  constructor
  · rintro ⟨x, h | h, r⟩
    · exact .inl ⟨x, h, r⟩
    · exact .inr ⟨x, h, r⟩
  · rintro (⟨x, h, r⟩ | ⟨x, h, r⟩)
    · exact ⟨x, .inl h, r⟩
    · exact ⟨x, .inr h, r⟩

@[simp] theorem TS.has_nil (t : Int) (k : Option Str) : TS.has [] t k ↔ False := by simp [TS.has]

/-- Reference merge of two timelines. -/
def mergeRef (conv : Conv) (ko cat : Bool) (c : Com) : TS → TS → TS
  | rem, [] => rem
  | rem, t :: ts =>
    let X := rem.filter (fun x => decide (x.time < t.time))
    let Y := rem.filter (fun x => decide (t.time ≤ x.time))
    match Y with
    | [] => X ++ (freshBase cat c t.time).addIn conv ko t :: mergeRef conv ko cat c [] ts
    | r :: rs =>
      if r.time = t.time then X ++ mergeRef conv ko cat c (r.addIn conv ko t :: rs) ts
      else X ++ (freshBase cat c t.time).addIn conv ko t :: mergeRef conv ko cat c (r :: rs) ts

theorem strict_le {l : TS} (h : l.Pairwise (fun x y => x.time < y.time)) : InDateOrder TT.time l := h.imp (fun h => le_of_lt h)

theorem prop_shuffle (x t y r : Prop) : (x ∨ t ∨ y ∨ r) ↔ ((x ∨ y) ∨ t ∨ r) := by tauto
theorem prop_shuffle2 (x e y r : Prop) : (x ∨ (e ∨ y) ∨ r) ↔ ((x ∨ e ∨ y) ∨ e ∨ r) := by tauto
theorem prop_shuffle3 (x e a b y r : Prop) : (x ∨ (e ∧ (a ∨ b) ∨ y) ∨ r) ↔ ((x ∨ e ∧ a ∨ y) ∨ e ∧ b ∨ r) := by tauto

theorem mergeRef_spec (conv : Conv) (ko cat : Bool) (c : Com) (rem ts : TS) (h1 : TSOK c cat rem) (h2 : TSOK c cat ts) :
    TSOK c cat (mergeRef conv ko cat c rem ts) ∧
    (∀ t, t ∈ (mergeRef conv ko cat c rem ts).times ↔ t ∈ rem.times ∨ t ∈ ts.times) ∧
    (∀ t k, (mergeRef conv ko cat c rem ts).has t k ↔ rem.has t k ∨ ts.has t k) ∧
    (∀ t k, (mergeRef conv ko cat c rem ts).val t k = rem.val t k + (if ko then 0 else ts.val t k)) := by
  induction ts generalizing rem with
  | nil =>
    unfold mergeRef
    refine ⟨h1, by simp [TS.times], by simp, by simp⟩
  | cons t ts ih =>
    obtain ⟨hlt, hs2⟩ := List.pairwise_cons.mp h2.sorted
    have h2' : TSOK c cat ts := ⟨hs2, fun x hx => h2.ok x (by simp [hx])⟩
    have ht := h2.ok t (by simp)
    have hsplit := split_notBefore TT.time t.time rem (strict_le h1.sorted)
    unfold mergeRef
    simp only
    have hXok : ∀ x ∈ rem.filter (fun x => decide (x.time < t.time)), TTOK c cat x := fun x hx => h1.ok x (List.mem_of_mem_filter hx)
    have hXs : (rem.filter (fun x => decide (x.time < t.time))).Pairwise (fun x y => x.time < y.time) := h1.sorted.filter _
    have hXlt : ∀ x ∈ rem.filter (fun x => decide (x.time < t.time)), x.time < t.time := by
      intro x hx; simpa using (List.mem_filter.mp hx).2
    have hYok : TSOK c cat (rem.filter (fun x => decide (t.time ≤ x.time))) := ⟨h1.sorted.filter _, fun x hx => h1.ok x (List.mem_of_mem_filter hx)⟩
    have hYge : ∀ x ∈ rem.filter (fun x => decide (t.time ≤ x.time)), t.time ≤ x.time := by
      intro x hx; simpa using (List.mem_filter.mp hx).2
    generalize rem.filter (fun x => decide (x.time < t.time)) = X at *
    generalize hYe : rem.filter (fun x => decide (t.time ≤ x.time)) = Y at *
    have hrt : ∀ s, s ∈ rem.times ↔ s ∈ TS.times X ∨ s ∈ TS.times Y := by intro s; rw [hsplit]; unfold TS.times; simp only [List.map_append, List.mem_append]
    have hrh : ∀ s k, rem.has s k ↔ TS.has X s k ∨ TS.has Y s k := by intro s k; rw [hsplit, TS.has_append]
    have hrv : ∀ s k, rem.val s k = TS.val X s k + TS.val Y s k := by intro s k; rw [hsplit, TS.val_append]
    -- the common combination step
    have combine : ∀ R : TS, TSOK c cat R → (∀ s ∈ R.times, t.time ≤ s) → TSOK c cat (X ++ R) := by
      intro R hR hge
      refine ⟨?_, ?_⟩
      · rw [List.pairwise_append]
        refine ⟨hXs, hR.sorted, ?_⟩
        intro a ha b hb
        have := hge b.time (List.mem_map.mpr ⟨b, hb, rfl⟩)
        have := hXlt a ha
        omega
      · intro x hx
        rcases List.mem_append.mp hx with h | h
        · exact hXok x h
        · exact hR.ok x h
    obtain ⟨f1, f2, f3, f4⟩ := ht.fresh (ko := ko) conv
    -- new element in front of the merge of Y (all later than t) and ts
    have newcase : ∀ Y' : TS, Y' = Y → (∀ y ∈ Y', t.time < y.time) →
        TSOK c cat (X ++ (freshBase cat c t.time).addIn conv ko t :: mergeRef conv ko cat c Y' ts) ∧
        (∀ s, s ∈ (X ++ (freshBase cat c t.time).addIn conv ko t :: mergeRef conv ko cat c Y' ts).map (·.time) ↔ s ∈ rem.times ∨ s ∈ TS.times (t :: ts)) ∧
        (∀ s k, TS.has (X ++ (freshBase cat c t.time).addIn conv ko t :: mergeRef conv ko cat c Y' ts) s k ↔ rem.has s k ∨ TS.has (t :: ts) s k) ∧
        (∀ s k, TS.val (X ++ (freshBase cat c t.time).addIn conv ko t :: mergeRef conv ko cat c Y' ts) s k =
          rem.val s k + (if ko then 0 else TS.val (t :: ts) s k)) := by
      intro Y' hY' hgt
      obtain ⟨i1, i2, i3, i4⟩ := ih Y' (by rw [hY']; exact hYok) h2'
      have hafter : ∀ x ∈ mergeRef conv ko cat c Y' ts, t.time < x.time := by
        intro x hx
        rcases (i2 x.time).mp (List.mem_map.mpr ⟨x, hx, rfl⟩) with h | h
        · obtain ⟨y, hy, e⟩ := List.mem_map.mp h
          rw [← e]; exact hgt y hy
        · obtain ⟨y, hy, e⟩ := List.mem_map.mp h
          rw [← e]; exact hlt y hy
      refine ⟨?_, ?_, ?_, ?_⟩
      · apply combine
        · refine ⟨List.pairwise_cons.mpr ⟨fun x hx => by rw [f2]; exact hafter x hx, i1.sorted⟩, ?_⟩
          intro x hx
          rcases List.mem_cons.mp hx with rfl | hx
          · exact f1
          · exact i1.ok x hx
        · intro s hs
          obtain ⟨x, hx, rfl⟩ := List.mem_map.mp hs
          rcases List.mem_cons.mp hx with rfl | hx
          · rw [f2]
          · exact le_of_lt (hafter x hx)
      · intro s
        have e1 := i2 s
        have e2 := hrt s
        rw [hY'] at e1
        simp only [TS.times] at e1 e2
        simp only [List.map_append, List.map_cons, List.mem_append, List.mem_cons, f2, TS.times]
        rw [hY', e1, e2]
        exact prop_shuffle _ _ _ _
      · intro s k
        rw [TS.has_append, TS.has_cons, f2, f3, i3, hrh, TS.has_cons, hY']
        exact prop_shuffle _ _ _ _
      · intro s k
        rw [TS.val_append, TS.val_cons, f2, f4, i4, hrv, TS.val_cons, hY']
        cases ko <;> by_cases hts : t.time = s <;> simp [hts] <;> ring
    cases Y with
    | nil =>
      simp only
      exact newcase [] rfl (by simp)
    | cons r rs =>
      simp only
      obtain ⟨hr1, hr2⟩ := List.pairwise_cons.mp hYok.sorted
      have hrok := hYok.ok r (by simp)
      split
      · rename_i heq
        obtain ⟨g1, g2, g3, g4⟩ := hrok.addIn (ko := ko) conv ht
        obtain ⟨i1, i2, i3, i4⟩ := ih (r.addIn conv ko t :: rs) ⟨List.pairwise_cons.mpr ⟨fun x hx => by rw [g2]; exact hr1 x hx, hr2⟩, by
          intro x hx
          rcases List.mem_cons.mp hx with rfl | hx
          · exact g1
          · exact hYok.ok x (by simp [hx])⟩ h2'
        have hge : ∀ s ∈ TS.times (mergeRef conv ko cat c (r.addIn conv ko t :: rs) ts), t.time ≤ s := by
          intro s hs
          rcases (i2 s).mp hs with h | h
          · obtain ⟨y, hy, rfl⟩ := List.mem_map.mp h
            rcases List.mem_cons.mp hy with rfl | hy
            · rw [g2, heq]
            · have := hr1 y hy; omega
          · obtain ⟨y, hy, rfl⟩ := List.mem_map.mp h
            exact le_of_lt (hlt y hy)
        refine ⟨combine _ i1 hge, ?_, ?_, ?_⟩
        · intro s
          have := i2 s
          simp only [TS.times] at this
          simp only [TS.times, List.map_append, List.mem_append, this, List.map_cons, List.mem_cons, g2]
          have := hrt s
          simp only [TS.times, List.map_cons, List.mem_cons] at this
          rw [this, heq]
          exact prop_shuffle2 _ _ _ _
        · intro s k
          rw [TS.has_append, i3, hrh, TS.has_cons, TS.has_cons, TS.has_cons, g2, g3, heq]
          exact prop_shuffle3 _ _ _ _ _ _
        · intro s k
          rw [TS.val_append, i4, hrv, TS.val_cons, TS.val_cons, TS.val_cons, g2, g4, heq]
          cases ko <;> by_cases hts : t.time = s <;> simp [hts] <;> ring
      · rename_i hne
        apply newcase (r :: rs) rfl
        intro y hy
        have hge := hYge r (by simp)
        rcases List.mem_cons.mp hy with rfl | hy
        · omega
        · have := hr1 y hy; omega

/-! ### `mergeTotals` computes the reference merge -/

theorem gather_acc (conv : Conv) (ko : Bool) (ts done rem : TS) (j : Nat) (ex : List (Nat × TT)) :
    gather conv ko ts done rem j ex = (done ++ (gather conv ko ts [] rem j []).1, ex ++ (gather conv ko ts [] rem j []).2) := by
  induction ts generalizing done rem j ex with
  | nil => simp [gather]
  | cons t ts ih =>
    unfold gather
    simp only
    split
    · rw [ih, ih (_ ++ _) _ _ (_ ++ _)]; simp
    · split
      · rw [ih, ih (_ ++ _)]; simp
      · rw [ih, ih (_ ++ _) _ _ (_ ++ _)]; simp

/-- One step of `gather` in terms of filters. -/
theorem gather_cons (conv : Conv) (ko : Bool) (t : TT) (ts rem : TS) (j : Nat) (h : InDateOrder TT.time rem) :
    gather conv ko (t :: ts) [] rem j [] =
      (let X := rem.filter (fun x => decide (x.time < t.time))
       let Y := rem.filter (fun x => decide (t.time ≤ x.time))
       match Y with
       | [] => (X ++ (gather conv ko ts [] [] 0 []).1, (j + X.length, t) :: (gather conv ko ts [] [] 0 []).2)
       | r :: rs =>
         if r.time = t.time then
           (X ++ (gather conv ko ts [] (r.addIn conv ko t :: rs) (j + X.length) []).1, (gather conv ko ts [] (r.addIn conv ko t :: rs) (j + X.length) []).2)
         else (X ++ (gather conv ko ts [] (r :: rs) 0 []).1, (j + X.length, t) :: (gather conv ko ts [] (r :: rs) 0 []).2)) := by
  have e : search rem.length (fun i => !decide ((rem.getD i default).time < t.time)) = searchNotBefore TT.time rem t.time := rfl
  conv_lhs => unfold gather
  simp only
  rw [e, take_search _ _ _ h, drop_search _ _ _ h, searchNotBefore_eq _ _ _ h]
  cases List.filter (fun x => decide (t.time ≤ x.time)) rem with
  | nil => simp only; rw [gather_acc]; simp
  | cons r rs =>
    simp only
    by_cases hh : r.time = t.time
    · rw [if_pos hh, if_pos hh, gather_acc]; simp
    · rw [if_neg hh, if_neg hh, gather_acc]; simp

theorem TTOK.comEq {c : Com} {cat : Bool} {x : TT} (h : TTOK c cat x) : x.com = some c := by
  have hne : x.vals ≠ [] := by
    cases cat with
    | true => exact (h.cats rfl).1
    | false => intro h0; have := h.single rfl; rw [h0] at this; simp at this
  obtain ⟨e, l, he⟩ := List.exists_cons_of_ne_nil hne
  unfold TT.com
  rw [he]
  simp only [List.head?_cons, Option.map_some, h.vals.com e (by rw [he]; simp)]

theorem tsCom_ok {c : Com} {cat : Bool} {cur : Option TT} {acc : TS} (h1 : ∀ x ∈ cur, TTOK c cat x) (h2 : ∀ x ∈ acc, TTOK c cat x) :
    tsCom cur acc = some c ∨ tsCom cur acc = none := by
  unfold tsCom
  cases cur with
  | some x => simp [(h1 x rfl).comEq]
  | none =>
    cases acc with
    | nil => simp
    | cons x acc => simp [(h2 x (by simp)).comEq]

theorem newTotal_ok {c : Com} {cat : Bool} (t : Int) : newTotal cat t (some c) = .ok (freshBase cat c t) := by
  cases cat <;> simp [newTotal, freshBase]

theorem inject_step {c : Com} {cat : Bool} (conv : Conv) (ko : Bool) {cur : Option TT} {acc rem : TS} {x : TT} {ex : List (Nat × TT)} (n : Nat)
    (h1 : ∀ x ∈ cur, TTOK c cat x) (h2 : ∀ x ∈ acc, TTOK c cat x) (h3 : TTOK c cat x) :
    inject conv ko cat cur acc rem ((n, x) :: ex) =
      inject conv ko cat cur (acc ++ rem.take n ++ [(freshBase cat c x.time).addIn conv ko x]) (rem.drop n) ex := by
  conv_lhs => unfold inject
  simp only
  rcases tsCom_ok h1 h2 with h | h <;> simp only [h]
  · rw [newTotal_ok]; rfl
  · rw [h3.comEq, newTotal_ok]; rfl

theorem inject_gather {c : Com} {cat : Bool} (conv : Conv) (ko : Bool) (cur : Option TT) (h1 : ∀ x ∈ cur, TTOK c cat x)
    (ts : TS) : ∀ (acc done rem : TS), (∀ x ∈ acc, TTOK c cat x) → (∀ x ∈ done, TTOK c cat x) → TSOK c cat rem → TSOK c cat ts →
    inject conv ko cat cur acc (done ++ (gather conv ko ts [] rem done.length []).1) (gather conv ko ts [] rem done.length []).2 =
      .ok (acc ++ done ++ mergeRef conv ko cat c rem ts) := by
  induction ts with
  | nil => intro acc done rem _ _ _ _; simp [gather, inject, mergeRef]
  | cons t ts ih =>
    intro acc done rem ha hd hr ht
    obtain ⟨hlt, hs2⟩ := List.pairwise_cons.mp ht.sorted
    have ht' : TSOK c cat ts := ⟨hs2, fun x hx => ht.ok x (by simp [hx])⟩
    have htok := ht.ok t (by simp)
    rw [gather_cons conv ko t ts rem done.length (strict_le hr.sorted)]
    unfold mergeRef
    have hXok : ∀ x ∈ rem.filter (fun x => decide (x.time < t.time)), TTOK c cat x := fun x hx => hr.ok x (List.mem_of_mem_filter hx)
    have hYok : TSOK c cat (rem.filter (fun x => decide (t.time ≤ x.time))) := ⟨hr.sorted.filter _, fun x hx => hr.ok x (List.mem_of_mem_filter hx)⟩
    generalize rem.filter (fun x => decide (x.time < t.time)) = X at *
    generalize rem.filter (fun x => decide (t.time ≤ x.time)) = Y at *
    obtain ⟨f1, f2, _, _⟩ := htok.fresh (ko := ko) conv
    have hnew : ∀ Y : TS, TSOK c cat Y →
        inject conv ko cat cur acc (done ++ (X ++ (gather conv ko ts [] Y 0 []).1)) ((done.length + X.length, t) :: (gather conv ko ts [] Y 0 []).2) =
        .ok (acc ++ done ++ (X ++ (freshBase cat c t.time).addIn conv ko t :: mergeRef conv ko cat c Y ts)) := by
      intro Y hY
      rw [inject_step conv ko _ h1 ha htok]
      have e : done ++ (X ++ (gather conv ko ts [] Y 0 []).1) = (done ++ X) ++ (gather conv ko ts [] Y 0 []).1 := by simp
      rw [e, List.take_append_of_le_length (by simp), List.drop_append_of_le_length (by simp)]
      rw [List.take_of_length_le (by simp), List.drop_of_length_le (by simp)]
      have := ih (acc ++ (done ++ X) ++ [(freshBase cat c t.time).addIn conv ko t]) [] Y ?_ (by simp) hY ht'
      · simp only [List.length_nil, List.nil_append] at this
        rw [List.nil_append, this]; simp
      · intro x hx
        simp only [List.mem_append, List.mem_singleton] at hx
        rcases hx with (hx | hx | hx) | hx
        · exact ha x hx
        · exact hd x hx
        · exact hXok x hx
        · rw [hx]; exact f1
    cases Y with
    | nil => exact hnew [] hYok
    | cons r rs =>
      simp only
      obtain ⟨hr1, hr2⟩ := List.pairwise_cons.mp hYok.sorted
      by_cases heq : r.time = t.time
      · rw [if_pos heq, if_pos heq]
        obtain ⟨g1, g2, _, _⟩ := (hYok.ok r (by simp)).addIn (ko := ko) conv htok
        have := ih acc (done ++ X) (r.addIn conv ko t :: rs) ha ?_ ⟨List.pairwise_cons.mpr ⟨fun x hx => by rw [g2]; exact hr1 x hx, hr2⟩, ?_⟩ ht'
        · rw [List.length_append] at this
          rw [← List.append_assoc, this]; simp
        · intro x hx
          rcases List.mem_append.mp hx with hx | hx
          · exact hd x hx
          · exact hXok x hx
        · intro x hx
          rcases List.mem_cons.mp hx with rfl | hx
          · exact g1
          · exact hYok.ok x (by simp [hx])
      · rw [if_neg heq, if_neg heq]
        exact hnew (r :: rs) hYok

theorem gather_ok {c : Com} {cat : Bool} (conv : Conv) (ko : Bool) (ts : TS) : ∀ (rem : TS) (j : Nat), TSOK c cat rem → TSOK c cat ts →
    ∀ x ∈ (gather conv ko ts [] rem j []).1, TTOK c cat x := by
  induction ts with
  | nil => intro rem j hr _ x hx; simp [gather] at hx; exact hr.ok x hx
  | cons t ts ih =>
    intro rem j hr ht x hx
    obtain ⟨hlt, hs2⟩ := List.pairwise_cons.mp ht.sorted
    have ht' : TSOK c cat ts := ⟨hs2, fun x hx => ht.ok x (by simp [hx])⟩
    have htok := ht.ok t (by simp)
    rw [gather_cons conv ko t ts rem j (strict_le hr.sorted)] at hx
    have hXok : ∀ x ∈ rem.filter (fun x => decide (x.time < t.time)), TTOK c cat x := fun x hx => hr.ok x (List.mem_of_mem_filter hx)
    have hYok : TSOK c cat (rem.filter (fun x => decide (t.time ≤ x.time))) := ⟨hr.sorted.filter _, fun x hx => hr.ok x (List.mem_of_mem_filter hx)⟩
    generalize rem.filter (fun x => decide (x.time < t.time)) = X at *
    generalize rem.filter (fun x => decide (t.time ≤ x.time)) = Y at *
    cases Y with
    | nil =>
      simp only [List.mem_append] at hx
      rcases hx with hx | hx
      · exact hXok x hx
      · exact ih [] 0 hYok ht' x hx
    | cons r rs =>
      simp only at hx
      obtain ⟨hr1, hr2⟩ := List.pairwise_cons.mp hYok.sorted
      by_cases heq : r.time = t.time
      · rw [if_pos heq] at hx
        obtain ⟨g1, g2, _, _⟩ := (hYok.ok r (by simp)).addIn (ko := ko) conv htok
        simp only [List.mem_append] at hx
        rcases hx with hx | hx
        · exact hXok x hx
        · refine ih _ _ ⟨List.pairwise_cons.mpr ⟨fun x hx => by rw [g2]; exact hr1 x hx, hr2⟩, ?_⟩ ht' x hx
          intro x hx
          rcases List.mem_cons.mp hx with rfl | hx
          · exact g1
          · exact hYok.ok x (by simp [hx])
      · rw [if_neg heq] at hx
        simp only [List.mem_append] at hx
        rcases hx with hx | hx
        · exact hXok x hx
        · exact ih _ _ hYok ht' x hx

theorem mergeTotals_timed {c : Com} {red : Reducers} (conv : Conv) (ko : Bool) (hr : red.time.isSome = true) (ts ts2 : TS)
    (h1 : TSOK c red.category.isSome ts) (h2 : TSOK c red.category.isSome ts2) :
    mergeTotals conv red ko ts ts2 = .ok (mergeRef conv ko red.category.isSome c ts ts2) := by
  obtain ⟨r, hr⟩ := Option.isSome_iff_exists.mp hr
  unfold mergeTotals
  rw [hr]
  simp only
  have hcur : ∀ x ∈ (gather conv ko ts2 [] ts 0 []).1.getLast?, TTOK c red.category.isSome x :=
    fun x hx => gather_ok conv ko ts2 ts 0 h1 h2 x (List.mem_of_getLast? hx)
  have := inject_gather conv ko _ hcur ts2 [] [] ts (by simp) (by simp) h1 h2
  simp only [List.length_nil, List.nil_append] at this
  rcases hg : gather conv ko ts2 [] ts 0 [] with ⟨all, ex⟩
  rw [hg] at this
  simp only at this ⊢
  cases ex with
  | nil => rw [if_pos rfl]; simpa [inject] using this
  | cons e ex => rw [if_neg (by simp)]; exact this

/-- When not reducing by time there is at most one element, of time 0, and there are categories. -/
structure RedOK (red : Reducers) (ts : TS) : Prop where
  zero : red.time = none → ∀ x ∈ ts, x.time = 0

theorem untimed_cases {c : Com} {cat : Bool} {ts : TS} (h : TSOK c cat ts) (h0 : ∀ x ∈ ts, x.time = 0) : ts = [] ∨ ∃ x, ts = [x] := by
  cases ts with
  | nil => exact .inl rfl
  | cons x ts =>
    cases ts with
    | nil => exact .inr ⟨x, rfl⟩
    | cons y ts =>
      have := (List.pairwise_cons.mp h.sorted).1 y (by simp)
      rw [h0 x (by simp), h0 y (by simp)] at this
      omega

theorem copy_spec {c : Com} {x : TT} (ko : Bool) (h : TTOK c true x) :
    TTOK c true (x.copy ko) ∧ (x.copy ko).time = x.time ∧ (∀ k, k ∈ (x.copy ko).keys ↔ k ∈ x.keys) ∧
    (∀ k, (x.copy ko).val k = if ko then 0 else x.val k) := by
  have hk : (x.copy ko).vals.map (·.1) = x.vals.map (·.1) := by
    unfold TT.copy; simp [Function.comp_def]
  refine ⟨⟨⟨by rw [hk]; exact h.vals.nodup, ?_⟩, ?_, by simp⟩, rfl, by unfold TT.keys; rw [hk]; simp, ?_⟩
  · intro e he
    unfold TT.copy at he
    obtain ⟨e', he', rfl⟩ := List.mem_map.mp he
    have := h.vals.com e' he'
    simp only
    split <;> simp [zeroAmount, Amount.copy, this]
  · intro _
    obtain ⟨h1, h2⟩ := h.cats rfl
    refine ⟨?_, by rw [hk]; exact h2⟩
    unfold TT.copy; simpa using h1
  · intro k
    have hn := (h.cats rfl).2
    unfold TT.val TT.copy
    simp only
    generalize x.vals = l at hn
    induction l with
    | nil => simp [keyVal]
    | cons e l ih =>
      simp only [List.map_cons, List.mem_cons, not_or] at hn
      have ih := ih hn.2
      have hs : e.1.isSome = true := by
        cases hh : e.1 with
        | none => exact absurd hh.symm hn.1
        | some _ => rfl
      unfold keyVal at *
      rw [List.map_cons, getKey_cons, getKey_cons]
      by_cases hke : e.1 = k
      · simp only [hke, if_true, Option.map_some, Option.getD_some]
        rw [hke] at hs
        cases ko <;> simp [hs, zeroAmount, Amount.copy]
      · simp only [hke, if_false]
        exact ih

/-- What merging a timeline into another gives. -/
structure Merged (c : Com) (cat ko : Bool) (ts ts2 ts' : TS) : Prop where
  ok : TSOK c cat ts'
  times : ∀ t, t ∈ ts'.times ↔ t ∈ ts.times ∨ t ∈ ts2.times
  has : ∀ t k, ts'.has t k ↔ ts.has t k ∨ ts2.has t k
  val : ∀ t k, ts'.val t k = ts.val t k + (if ko then 0 else ts2.val t k)

theorem mergeTotals_spec {c : Com} {red : Reducers} (conv : Conv) (ko : Bool) (ts ts2 : TS)
    (hred : red.time.isSome = true ∨ red.category.isSome = true) (z1 : RedOK red ts) (z2 : RedOK red ts2)
    (h1 : TSOK c red.category.isSome ts) (h2 : TSOK c red.category.isSome ts2) :
    ∃ ts', mergeTotals conv red ko ts ts2 = .ok ts' ∧ Merged c red.category.isSome ko ts ts2 ts' ∧ RedOK red ts' := by
  cases hr : red.time with
  | some r =>
    obtain ⟨a, b, d, e⟩ := mergeRef_spec conv ko red.category.isSome c ts ts2 h1 h2
    exact ⟨_, mergeTotals_timed conv ko (by rw [hr]; rfl) ts ts2 h1 h2, ⟨a, b, d, e⟩, ⟨by simp [hr]⟩⟩
  | none =>
    have hc : red.category.isSome = true := by simpa [hr] using hred
    rw [hc] at h1 h2 ⊢
    unfold mergeTotals
    rw [hr]
    simp only
    have hz1 := z1.zero hr
    have hz2 := z2.zero hr
    rcases untimed_cases h2 hz2 with rfl | ⟨y, rfl⟩
    · refine ⟨ts, rfl, ⟨h1, by simp [TS.times], by simp, by simp⟩, z1⟩
    · have hy := h2.ok y (by simp)
      have hy0 := hz2 y (by simp)
      rcases untimed_cases h1 hz1 with rfl | ⟨x, rfl⟩
      · obtain ⟨a, b, d, e⟩ := copy_spec ko hy
        refine ⟨[y.copy ko], rfl, ⟨⟨by simp, by simpa using a⟩, by simp [TS.times, b], ?_, ?_⟩, ⟨by simp [b, hy0]⟩⟩
        · intro t k; rw [TS.has_cons, TS.has_cons, b, d]; simp
        · intro t k; rw [TS.val_cons, TS.val_cons, b, e]; simp; split <;> simp
      · have hx := h1.ok x (by simp)
        have hx0 := hz1 x (by simp)
        obtain ⟨a, b, d, e⟩ := hx.addIn (ko := ko) conv hy
        refine ⟨[x.addIn conv ko y], rfl, ⟨⟨by simp, by simpa using a⟩, ?_, ?_, ?_⟩, ⟨by simp [b, hx0]⟩⟩
        · intro t; simp [TS.times, b, hx0, hy0]
        · intro t k; rw [TS.has_cons, TS.has_cons, TS.has_cons, b, d, hx0, hy0]; simp; tauto
        · intro t k; rw [TS.val_cons, TS.val_cons, TS.val_cons, b, e, hx0, hy0]
          cases ko <;> by_cases ht : (0:Int) = t <;> simp only [ht, if_true, if_false, TS.val_nil, Bool.false_eq_true] <;> omega

end Verif
