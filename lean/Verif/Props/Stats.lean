import Verif.Model.Stats
import Verif.Props.Import
/-
C71: what `coin stats` reports.
-/
namespace Verif

/-- The pairs of an earlier and a later element, ordered by the later one, `pre` standing before the list. -/
def pairsFrom {α} : List α → List α → List (α × α)
  | _, [] => []
  | pre, t :: ts => pre.map (fun u => (u, t)) ++ pairsFrom (pre ++ [t]) ts

/-- All pairs of an earlier and a later element. -/
def allPairs {α} (l : List α) : List (α × α) := pairsFrom [] l

/-- `allPairs` lists exactly the pairs at two positions `i < j`. -/
theorem allPairs_iff {α} (l : List α) (a b : α) : (a, b) ∈ allPairs l ↔ ∃ i j : Nat, i < j ∧ l[i]? = some a ∧ l[j]? = some b := by
  have main : ∀ (ts pre : List α), (a, b) ∈ pairsFrom pre ts ↔ ∃ i j : Nat, i < j ∧ pre.length ≤ j ∧ (pre ++ ts)[i]? = some a ∧ (pre ++ ts)[j]? = some b := by
    intro ts
    induction ts with
    | nil =>
      intro pre
      simp only [pairsFrom, List.not_mem_nil, List.append_nil, false_iff]
      rintro ⟨i, j, _, h2, _, h4⟩
      have := (List.getElem?_eq_some_iff.mp h4).1
      omega
    | cons t ts ih =>
      intro pre
      rw [pairsFrom, List.mem_append, ih]
      have e : pre ++ [t] ++ ts = pre ++ t :: ts := by simp
      rw [e]
      constructor
      · rintro (h | ⟨i, j, h1, h2, h3, h4⟩)
        · rw [List.mem_map] at h
          obtain ⟨u, hu, e⟩ := h
          cases e
          obtain ⟨i, hi⟩ := List.mem_iff_getElem?.mp hu
          have hil := (List.getElem?_eq_some_iff.mp hi).1
          exact ⟨i, pre.length, hil, Nat.le_refl _, by rw [List.getElem?_append_left hil]; exact hi, by simp⟩
        · exact ⟨i, j, h1, by simp at h2; omega, h3, h4⟩
      · rintro ⟨i, j, h1, h2, h3, h4⟩
        by_cases hj : j = pre.length
        · subst hj
          left
          rw [List.mem_map]
          rw [List.getElem?_append_right (Nat.le_refl _)] at h4
          simp only [Nat.sub_self, List.getElem?_cons_zero, Option.some.injEq] at h4
          rw [List.getElem?_append_left h1] at h3
          exact ⟨a, List.mem_of_getElem? h3, by rw [h4]⟩
        · right
          exact ⟨i, j, h1, by simp; omega, h3, h4⟩
  rw [allPairs, main]
  simp

theorem pairsFrom_append {α} (pre1 pre2 ts : List α) :
    ∀ P : α × α → Bool, (∀ a ∈ pre1, ∀ b ∈ ts, P (a, b) = false) → (pairsFrom (pre1 ++ pre2) ts).filter P = (pairsFrom pre2 ts).filter P := by
  intro P
  induction ts generalizing pre2 with
  | nil => intro _; rfl
  | cons t ts ih =>
    intro h
    rw [pairsFrom, pairsFrom, List.map_append, List.filter_append, List.filter_append, List.filter_append, List.append_assoc pre1,
      ih (pre2 ++ [t]) (fun a ha b hb => h a ha b (by simp [hb]))]
    have : (pre1.map (fun u => (u, t))).filter P = [] := by
      rw [List.filter_eq_nil_iff]
      intro x hx
      obtain ⟨u, hu, rfl⟩ := List.mem_map.mp hx
      rw [h u hu t (by simp)]; decide
    rw [this, List.nil_append]

theorem dupesOf_ok {α} {view : α → ITxn} {dec : Str → Nat} (t : α) (l : List α) (ht : OneScale dec (view t)) (hl : ∀ u ∈ l, OneScale dec (view u)) :
    dupesOf view t l = .ok ((l.map (fun u => (u, t))).filter (fun p => decide (SameEntry (view p.2) (view p.1)))) := by
  induction l with
  | nil => rfl
  | cons u l ih =>
    rw [dupesOf, C67_isEqual (view t) (view u) ht (hl u (by simp)), ih (fun v hv => hl v (by simp [hv]))]
    simp only [Except.bind, List.map_cons, List.filter_cons]

theorem dupesLoop_ok {α} {view : α → ITxn} {dec : Str → Nat} (ts day : List α) (hts : ∀ u ∈ ts, OneScale dec (view u)) (hday : ∀ u ∈ day, OneScale dec (view u))
    (hs : ts.Pairwise (fun a b => (view a).posted.sec ≤ (view b).posted.sec)) (h1 : ∀ a ∈ day, ∀ b ∈ day, (view a).posted.sec = (view b).posted.sec)
    (h2 : ∀ a ∈ day, ∀ b ∈ ts, (view a).posted.sec ≤ (view b).posted.sec) :
    dupesLoop view day ts = .ok ((pairsFrom day ts).filter (fun p => decide (SameEntry (view p.2) (view p.1)))) := by
  induction ts generalizing day with
  | nil => cases day <;> rfl
  | cons t ts ih =>
    obtain ⟨hst, hs⟩ := List.pairwise_cons.mp hs
    have hts' : ∀ u ∈ ts, OneScale dec (view u) := fun u hu => hts u (by simp [hu])
    cases day with
    | nil =>
      rw [dupesLoop, ih [t] hts' (by simpa using hts t (by simp)) hs (by simp) (by simpa using hst)]
      rfl
    | cons d ds =>
      rw [dupesLoop]
      split
      · next hne =>
        rw [ih [t] hts' (by simpa using hts t (by simp)) hs (by simp) (by simpa using hst), pairsFrom, List.filter_append]
        have hd : ∀ a ∈ d :: ds, (view a).posted.sec < (view t).posted.sec := by
          intro a ha
          have e := h1 a ha d (by simp)
          have l := h2 d (by simp) t (by simp)
          omega
        have e1 : ((d :: ds).map (fun u => (u, t))).filter (fun p => decide (SameEntry (view p.2) (view p.1))) = [] := by
          rw [List.filter_eq_nil_iff]
          intro x hx
          obtain ⟨u, hu, rfl⟩ := List.mem_map.mp hx
          simp only [decide_eq_true_eq]
          intro hse
          have := hd u hu
          have := hse.1
          skip
          omega
        rw [e1, List.nil_append, pairsFrom_append (d :: ds) [t] ts]
        intro a ha b hb
        rw [decide_eq_false_iff_not]
        intro hse
        have := hd a ha
        have := hst b hb
        have := hse.1
        simp only at this
        omega
      · next heq =>
        simp only [ne_eq, Decidable.not_not] at heq
        rw [dupesOf_ok t (d :: ds) (hts t (by simp)) hday]
        simp only [Except.bind]
        rw [ih ((d :: ds) ++ [t]) hts' ?_ hs ?_ ?_]
        · simp only [pairsFrom, List.filter_append]
        · intro u hu
          rcases List.mem_append.mp hu with hu | hu
          · exact hday u hu
          · rw [List.mem_singleton] at hu; subst hu; exact hts u (by simp)
        · have hall : ∀ a ∈ (d :: ds) ++ [t], (view a).posted.sec = (view d).posted.sec := by
            intro a ha
            rcases List.mem_append.mp ha with ha | ha
            · exact h1 a ha d (by simp)
            · rw [List.mem_singleton] at ha; subst ha; exact heq
          intro a ha b hb
          rw [hall a ha, hall b hb]
        · intro a ha b hb
          rcases List.mem_append.mp ha with ha | ha
          · exact h2 a ha b (by simp [hb])
          · rw [List.mem_singleton] at ha; subst ha; exact hst b hb

/-- **C71** `stats -d` of transactions in order of time reports exactly the pairs of two transactions, one before the other, that are the
same entry (same time, code, and amounts in the same accounts), each once. It does not fail. -/
theorem C71_dupes {α} (view : α → ITxn) (dec : Str → Nat) (ts : List α) (hs : ts.Pairwise (fun a b => (view a).posted.sec ≤ (view b).posted.sec)) (hts : ∀ u ∈ ts, OneScale dec (view u)) :
    statsDupes view ts = .ok ((allPairs ts).filter (fun p => decide (SameEntry (view p.2) (view p.1)))) :=
  dupesLoop_ok ts [] hts (by simp) hs (by simp) (by simp)

/-- **C71** `stats -c` reports exactly the transactions of two postings with opposite numbers in different commodities; accounts may be
of any scale here, but the second amount must not have more decimals than the first (C06). -/
theorem C71_mismatches (ts : List ITxn) (r : List ITxn) (h : statsMismatches ts = .ok r)
    (hd : ∀ t ∈ ts, ∀ p q, t.postings = [p, q] → p.quantity.com.decimals ≤ 50 ∧ q.quantity.com.decimals ≤ p.quantity.com.decimals) :
    r.Sublist ts ∧ ∀ t ∈ ts, t ∈ r ↔ ∃ p q, t.postings = [p, q] ∧ NumEq p.quantity ⟨-q.quantity.int, q.quantity.com⟩ ∧ p.quantity.com ≠ q.quantity.com := by
  have test : ∀ t ∈ ts, ∀ b, badConversion t = .ok b →
      (b = true ↔ ∃ p q, t.postings = [p, q] ∧ NumEq p.quantity ⟨-q.quantity.int, q.quantity.com⟩ ∧ p.quantity.com ≠ q.quantity.com) := by
    intro t ht b hb
    unfold badConversion at hb
    split at hb
    · next p q hpq =>
      obtain ⟨x, hx, hb⟩ := bind_ok.mp hb
      obtain ⟨h50, hle⟩ := hd t ht p q hpq
      have key := (C06_compare_partial p.quantity q.quantity.negated h50 hle).2.1
      rw [hx] at key
      cases hb
      constructor
      · intro hxx
        simp only [Bool.and_eq_true, decide_eq_true_eq] at hxx
        exact ⟨p, q, hpq, key.mp (by rw [hxx.1]), hxx.2⟩
      · rintro ⟨p', q', e, h1, h2⟩
        rw [hpq] at e
        cases e
        have : x = true := by have := key.mpr h1; cases this; rfl
        simp [this, h2]
    · next hne =>
      cases hb
      constructor
      · intro h; cases h
      · rintro ⟨p, q, e, _⟩
        exact absurd e (hne p q)
  induction ts generalizing r with
  | nil => cases h; exact ⟨.slnil, by simp⟩
  | cons t ts ih =>
    unfold statsMismatches at h
    obtain ⟨b, hb, h⟩ := bind_ok.mp h
    obtain ⟨r', hr', h⟩ := bind_ok.mp h
    obtain ⟨h1, h2⟩ := ih r' hr' (fun u hu => hd u (by simp [hu])) (fun u hu => test u (by simp [hu]))
    have ht := test t (by simp) b hb
    cases h
    cases b with
    | true =>
      refine ⟨h1.cons_cons _, ?_⟩
      intro u hu
      rcases List.mem_cons.mp hu with rfl | hu
      · simpa using ht
      · by_cases he : u = t
        · subst he; simpa using ht
        · rw [← h2 u hu]; simp [he]
    | false =>
      refine ⟨h1.cons _, ?_⟩
      intro u hu
      simp only [Bool.false_eq_true, if_false]
      by_cases hm : u ∈ ts
      · exact h2 u hm
      · have hut : u = t := by simpa [hm] using hu
        subst hut
        have : u ∉ r' := fun hx => hm (h1.subset hx)
        simp only [this, false_iff]
        intro hx
        exact absurd (ht.mpr hx) (by decide)

/-- **C71** `stats -u` reports a transaction as often as it has a posting to `Unbalanced`, in order. -/
theorem C71_unbalanced (unbalanced : Str) (ts : List ITxn) :
    (∀ t, t ∈ statsUnbalanced unbalanced ts ↔ t ∈ ts ∧ ∃ p ∈ t.postings, p.account = unbalanced) ∧
    (statsUnbalanced unbalanced ts).length = (ts.map (fun t => t.postings.countP (fun p => decide (p.account = unbalanced)))).sum := by
  refine ⟨?_, ?_⟩
  · intro t
    unfold statsUnbalanced
    simp only [List.mem_flatMap, List.mem_map, List.mem_filter, decide_eq_true_eq]
    constructor
    · rintro ⟨u, hu, p, ⟨hp, ha⟩, rfl⟩; exact ⟨hu, p, hp, ha⟩
    · rintro ⟨ht, p, hp, ha⟩; exact ⟨t, ht, p, ⟨hp, ha⟩, rfl⟩
  · unfold statsUnbalanced
    rw [List.length_flatMap]
    congr 1
    apply List.map_congr_left
    intro t _
    rw [List.length_map, List.countP_eq_length_filter]

/-- Three transactions of a day, the first and the last the same. -/
def exThree : List ITxn := [exInLedger, { exInLedger with code := str "7" }, { exInLedger with description := str "OTHER" }]

example : exThree.Pairwise (fun a b => a.posted.sec ≤ b.posted.sec) ∧ (∀ u ∈ exThree, OneScale (fun _ => 2) u) ∧
    statsDupes id exThree = .ok [(exInLedger, { exInLedger with description := str "OTHER" })] := by
  refine ⟨by unfold exThree; decide, by unfold OneScale exThree; decide, by decide +kernel⟩

end Verif
