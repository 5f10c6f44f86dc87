import Verif.Model.Prices
import Verif.Lemmas.Amount
/-! Lemmas about conversion: fuel, termination, soundness and completeness. -/
namespace Verif

/-- Number of commodities of the universe not on the current path. -/
def unvisited (U prev : List Com) : Nat := (U.filter (fun x => decide (x ∉ prev))).length

theorem unvisited_append_le (U prev : List Com) (c : Com) : unvisited U (prev ++ [c]) ≤ unvisited U prev := by
  unfold unvisited
  induction U with
  | nil => simp
  | cons x U ih =>
    simp only [List.filter_cons]
    by_cases h : x ∈ prev
    · simp [h] at ih ⊢; exact ih
    · by_cases h2 : x = c
      · subst h2; simp [h] at ih ⊢; omega
      · simp [h, h2] at ih ⊢; omega

theorem unvisited_append_lt (U prev : List Com) (c : Com) (hc : c ∈ U) (hp : c ∉ prev) :
    unvisited U (prev ++ [c]) < unvisited U prev := by
  induction U with
  | nil => simp at hc
  | cons x U ih =>
    have hle := unvisited_append_le U prev c
    unfold unvisited at *
    simp only [List.filter_cons]
    by_cases h2 : x = c
    · subst h2
      simp [hp] at hle ⊢; omega
    · have hc' : c ∈ U := by
        rcases List.mem_cons.mp hc with h | h
        · exact absurd h.symm h2
        · exact h
      have ih' := ih hc'
      by_cases h : x ∈ prev
      · simp [h] at ih' ⊢; exact ih'
      · simp [h, h2] at ih' ⊢; omega

/-- The decreasing measure of `convert`. -/
def convMeasure (U : List Com) (prev : List Com) (c2 : Com) : Nat :=
  2 * unvisited U prev + (if c2 ∈ prev then 1 else 0)

theorem convMeasure_step (U prev : List Com) (c2 c3 : Com) (hc : c2 ∈ U) (h3 : c3 ∉ prev) :
    convMeasure U (prev ++ [c2]) c3 < convMeasure U prev c2 := by
  unfold convMeasure
  by_cases h2 : c2 ∈ prev
  · have := unvisited_append_le U prev c2
    have : c3 ∉ prev ++ [c2] := by
      simp; exact ⟨h3, fun e => h3 (e ▸ h2)⟩
    simp [h2, this]; omega
  · have := unvisited_append_lt U prev c2 hc h2
    rw [if_neg h2]
    split <;> omega

/-- The universe is closed under price currencies. -/
def Closed (U : List Com) (db : PriceDB) : Prop := ∀ c ∈ U, ∀ e ∈ db c, e.1 ∈ U

theorem convertLoop_nil (sub amount previous) :
    convertLoop sub amount previous [] = some (.error .err) := rfl

theorem convertLoop_cons (sub amount previous c3 prices rest) :
    convertLoop sub amount previous ((c3, prices) :: rest) =
    if c3 ∈ previous then convertLoop sub amount previous rest
    else match prices with
      | [] => some (.error .panic)
      | p :: _ =>
        match amount.times p.value with
        | .error e => some (.error e)
        | .ok val2 =>
          match sub val2 c3 with
          | none => none
          | some (.ok v) => some (.ok v)
          | some (.error .err) => convertLoop sub amount previous rest
          | some (.error f) => some (.error f) := by
  rw [convertLoop.eq_def]; rfl

theorem convertLoop_ne_none (sub amount prev l)
    (h : ∀ e ∈ l, e.1 ∉ prev → ∀ v, sub v e.1 ≠ none) :
    convertLoop sub amount prev l ≠ none := by
  induction l with
  | nil => rw [convertLoop_nil]; simp
  | cons e rest ih =>
    obtain ⟨c3, prices⟩ := e
    have ih' := ih (fun e he => h e (by simp [he]))
    rw [convertLoop_cons]
    split
    · exact ih'
    · rename_i hc3
      rcases prices with _ | ⟨p, ps⟩
      · simp
      · simp only
        split
        · simp
        · rename_i val2 _
          have := h (c3, p :: ps) (by simp) hc3 val2
          split
          · rename_i heq; exact absurd heq this
          · simp
          · exact ih'
          · simp

theorem convertF_ne_none (U : List Com) (db : PriceDB) (ord : MapOrder) (hU : Closed U db) (hord : ord.Valid db) (c : Com)
    (fuel : Nat) : ∀ (amount : Amount) (c2 : Com) (prev : List Com), c2 ∈ U → convMeasure U prev c2 < fuel →
    convertF db ord c fuel amount c2 prev ≠ none := by
  induction fuel with
  | zero => intro _ _ _ _ h; omega
  | succ fuel ih =>
    intro amount c2 prev hc2 hm
    rw [convertF]
    split
    · simp
    · split
      · simp
      · simp
      · apply convertLoop_ne_none
        intro e he he3 v
        have heU : e.1 ∈ U := hU c2 hc2 e ((hord prev c2).mem_iff.mp he)
        exact ih v e.1 _ heU (by have := convMeasure_step U prev c2 e.1 hc2 he3; omega)

/-- More fuel does not change a result. -/
theorem convertLoop_mono (sub sub' amount prev l)
    (h : ∀ v c3 r, sub v c3 = some r → sub' v c3 = some r)
    (r) (hr : convertLoop sub amount prev l = some r) :
    convertLoop sub' amount prev l = some r := by
  induction l with
  | nil => rw [convertLoop_nil] at hr ⊢; exact hr
  | cons e rest ih =>
    obtain ⟨c3, prices⟩ := e
    rw [convertLoop_cons] at hr ⊢
    split
    · rename_i h3; rw [if_pos h3] at hr; exact ih hr
    · rename_i h3
      rw [if_neg h3] at hr
      rcases prices with _ | ⟨p, ps⟩
      · exact hr
      · simp only at hr ⊢
        split
        · rename_i heq; rw [heq] at hr; exact hr
        · rename_i val2 heq
          rw [heq] at hr
          simp only at hr
          split at hr
          · simp at hr
          · rename_i heq2; rw [h _ _ _ heq2]; exact hr
          · rename_i heq2; rw [h _ _ _ heq2]; exact ih hr
          · rename_i heq2 ; rw [h _ _ _ heq2]; simp only; exact hr

theorem convertF_mono (db ord c) (fuel : Nat) : ∀ amount c2 prev r,
    convertF db ord c fuel amount c2 prev = some r → convertF db ord c (fuel + 1) amount c2 prev = some r := by
  induction fuel with
  | zero => intro _ _ _ _ h; rw [convertF] at h; simp at h
  | succ fuel ih =>
    intro amount c2 prev r h
    rw [convertF] at h ⊢
    split
    · rename_i hc; rw [if_pos hc] at h; exact h
    · rename_i hc
      rw [if_neg hc] at h
      split
      · rename_i heq; rw [heq] at h; exact h
      · rename_i heq; rw [heq] at h; exact h
      · rename_i heq
        rw [heq] at h
        exact convertLoop_mono _ _ _ _ _ (fun v c3 r hr => ih v c3 _ r hr) r h

theorem convertF_mono' (db ord c) (fuel fuel' : Nat) (hf : fuel ≤ fuel') (amount c2 prev r)
    (h : convertF db ord c fuel amount c2 prev = some r) : convertF db ord c fuel' amount c2 prev = some r := by
  obtain ⟨k, rfl⟩ := Nat.exists_eq_add_of_le hf
  induction k with
  | zero => exact h
  | succ k ih => exact convertF_mono db ord c _ amount c2 prev r (ih (by omega))

/-! ### Reachability -/

/-- `c2` has a price in `c3`. -/
def PriceEdge (db : PriceDB) (c2 c3 : Com) : Prop := ∃ ps, (c3, ps) ∈ db c2

/-- There is a chain of prices from `x` to `y`. -/
inductive PricePath (db : PriceDB) : Com → Com → Prop
  | refl (x) : PricePath db x x
  | step {x y z} : PriceEdge db x y → PricePath db y z → PricePath db x z

/-- Usable price lists: none empty, all values with at most 50 decimals (otherwise `Times` panics). -/
def GoodPrices (db : PriceDB) : Prop := ∀ c, ∀ e ∈ db c, e.2 ≠ [] ∧ ∀ p ∈ e.2, p.value.com.decimals ≤ 50

theorem times_ok (a b : Amount) (h : b.com.decimals ≤ 50) :
    a.times b = .ok ⟨Int.tdiv (a.int * b.int) (10 ^ b.com.decimals), a.com⟩ := by
  unfold Amount.times; rw [bigPow10_ok h]; simp [Functor.map, Except.map]

theorem lookupPrices_some {l : List (Com × List Price)} {c : Com} {ps} (h : lookupPrices l c = some ps) : (c, ps) ∈ l := by
  unfold lookupPrices at h
  rw [Option.map_eq_some_iff] at h
  obtain ⟨e, he, hps⟩ := h
  have h1 := List.find?_some he
  have h2 := List.mem_of_find?_eq_some he
  simp at h1
  obtain ⟨a, b⟩ := e
  simp at h1 hps
  subst h1; subst hps; exact h2

theorem lookupPrices_none {l : List (Com × List Price)} {c : Com} (h : lookupPrices l c = none) : ∀ ps, (c, ps) ∉ l := by
  intro ps hm
  unfold lookupPrices at h
  simp only [Option.map_eq_none_iff, List.find?_eq_none] at h
  have := h _ hm
  simp at this

/-- Paths whose nodes after the first avoid `S`. -/
inductive Avoid (db : PriceDB) (S : List Com) : Com → Com → Prop
  | refl (x) : Avoid db S x x
  | step {x y z} : PriceEdge db x y → y ∉ S → Avoid db S y z → Avoid db S x z

theorem avoid_last (db : PriceDB) (S : List Com) (z y c : Com) (h : Avoid db S y c) :
    Avoid db (S ++ [z]) y c ∨ (∃ w, PriceEdge db z w ∧ w ∉ S ++ [z] ∧ Avoid db (S ++ [z]) w c) ∨ c = z := by
  induction h with
  | refl x => exact .inl (.refl x)
  | @step x y c he hy _ ih =>
    rcases ih with h1 | h2 | h3
    · by_cases hz : y = z
      · subst hz
        cases h1 with
        | refl => exact .inr (.inr rfl)
        | step he' hw h' => exact .inr (.inl ⟨_, he', hw, h'⟩)
      · exact .inl (.step he (by simp [hy, hz]) h1)
    · exact .inr (.inl h2)
    · exact .inr (.inr h3)

theorem pricePath_avoid_nil (db : PriceDB) (x y : Com) : PricePath db x y → Avoid db [] x y := by
  intro h
  induction h with
  | refl => exact .refl _
  | step he _ ih => exact .step he (by simp) ih

/-- Outcome of a conversion that terminates: success along a path, or an error; never a panic. -/
theorem convertLoop_outcome (sub amount prev l)
    (hg : ∀ e ∈ l, e.2 ≠ [] ∧ ∀ p ∈ e.2, p.value.com.decimals ≤ 50)
    (P : Com → Prop)
    (h : ∀ e ∈ l, e.1 ∉ prev → ∀ v r, v.com = amount.com → sub v e.1 = some r →
      (∃ w, r = .ok w ∧ w.com = amount.com ∧ P e.1) ∨ r = .error .err)
    (r) (hr : convertLoop sub amount prev l = some r) :
    (∃ w, r = .ok w ∧ w.com = amount.com ∧ ∃ e ∈ l, P e.1) ∨
    (r = .error .err ∧ ∀ e ∈ l, e.1 ∉ prev → ∃ v, sub v e.1 = some (.error .err)) := by
  induction l with
  | nil => rw [convertLoop_nil] at hr; injection hr with hr; right; exact ⟨hr.symm, by simp⟩
  | cons e rest ih =>
    obtain ⟨c3, prices⟩ := e
    have ih' := ih (fun e he => hg e (by simp [he])) (fun e he => h e (by simp [he]))
    rw [convertLoop_cons] at hr
    split at hr
    · rename_i hc3
      rcases ih' hr with ⟨w, h1, h2, e, he, h3⟩ | ⟨h1, h2⟩
      · exact .inl ⟨w, h1, h2, e, by simp [he], h3⟩
      · refine .inr ⟨h1, ?_⟩
        intro e he hep
        rcases List.mem_cons.mp he with rfl | he
        · exact absurd hc3 hep
        · exact h2 e he hep
    · rename_i hc3
      have hgc := hg (c3, prices) (by simp)
      rcases prices with _ | ⟨p, ps⟩
      · exact absurd rfl hgc.1
      · simp only at hr
        rw [times_ok _ _ (hgc.2 p (by simp))] at hr
        simp only at hr
        split at hr
        · simp at hr
        · rename_i w hw
          injection hr with hr; subst hr
          rcases h (c3, p :: ps) (by simp) hc3 _ _ (by rfl) hw with ⟨w', h1, h2, h3⟩ | h1
          · exact .inl ⟨w', h1, h2, _, by simp, h3⟩
          · simp at h1
        · rename_i hw
          rcases ih' hr with ⟨w, h1, h2, e, he, h3⟩ | ⟨h1, h2⟩
          · exact .inl ⟨w, h1, h2, e, by simp [he], h3⟩
          · refine .inr ⟨h1, ?_⟩
            intro e he hep
            rcases List.mem_cons.mp he with rfl | he
            · exact ⟨_, hw⟩
            · exact h2 e he hep
        · rename_i f hne hw
          rcases h (c3, p :: ps) (by simp) hc3 _ _ (by rfl) hw with ⟨w', h1, _⟩ | h1
          · simp at h1
          · injection h1 with h1; exact absurd h1 (by simpa using hne)

theorem convertF_outcome (db : PriceDB) (ord : MapOrder) (hg : GoodPrices db) (hord : ord.Valid db) (c : Com) (fuel : Nat) :
    ∀ amount c2 prev r, convertF db ord c fuel amount c2 prev = some r →
      (∃ w, r = .ok w ∧ w.com = amount.com ∧ PricePath db c2 c) ∨ (r = .error .err ∧ ¬ Avoid db prev c2 c) := by
  induction fuel with
  | zero => intro _ _ _ _ h; rw [convertF] at h; simp at h
  | succ fuel ih =>
    intro amount c2 prev r hr
    rw [convertF] at hr
    split at hr
    · rename_i hc; subst hc; injection hr with hr
      exact .inl ⟨amount, hr.symm, rfl, .refl _⟩
    · rename_i hne
      split at hr
      · rename_i p ps heq
        have hm := lookupPrices_some heq
        rw [times_ok _ _ ((hg _ _ hm).2 p (by simp))] at hr
        injection hr with hr
        exact .inl ⟨_, hr.symm, rfl, .step ⟨_, hm⟩ (.refl _)⟩
      · rename_i heq
        exact absurd rfl (hg _ _ (lookupPrices_some heq)).1
      · rename_i heq
        have hmem : ∀ e, e ∈ ord prev c2 ↔ e ∈ db c2 := fun e => (hord prev c2).mem_iff
        have := convertLoop_outcome _ amount prev (ord prev c2)
          (fun e he => hg c2 e ((hmem e).mp he)) (fun x => PricePath db x c)
          (fun e he hp v r' hv hr' => by
            rcases ih v e.1 _ r' hr' with ⟨w, h1, h2, h3⟩ | ⟨h1, _⟩
            · exact .inl ⟨w, h1, by rw [h2, hv], h3⟩
            · exact .inr h1) r hr
        rcases this with ⟨w, h1, h2, e, he, h3⟩ | ⟨h1, h2⟩
        · exact .inl ⟨w, h1, h2, .step ⟨e.2, (hmem e).mp he⟩ h3⟩
        · refine .inr ⟨h1, ?_⟩
          intro hav
          have : ∃ w, PriceEdge db c2 w ∧ w ∉ prev ++ [c2] ∧ Avoid db (prev ++ [c2]) w c := by
            rcases avoid_last db prev c2 c2 c hav with h | h | h
            · cases h with
              | refl => exact absurd rfl hne
              | step a b c => exact ⟨_, a, b, c⟩
            · exact h
            · exact absurd h hne
          obtain ⟨w, ⟨ps, hps⟩, hwn, hwa⟩ := this
          obtain ⟨v, hv⟩ := h2 (w, ps) ((hmem _).mpr hps) (fun h => hwn (by simp [h]))
          rcases ih v w _ _ hv with ⟨w', h1', _⟩ | ⟨_, hna⟩
          · simp at h1'
          · exact hna hwa

/-! ### Loading prices -/

theorem lookup_addPrice (m : List (Com × List Price)) (cur c : Com) (p : Price) :
    lookupPrices (addPrice m cur p) c =
      if c = cur then some ((lookupPrices m c).getD [] ++ [p]) else lookupPrices m c := by
  induction m with
  | nil => simp [addPrice, lookupPrices, List.find?]; by_cases h : c = cur
           · simp [h]
           · simp [h, Ne.symm h]
  | cons e m ih =>
    obtain ⟨d, l⟩ := e
    unfold addPrice
    split
    · rename_i h; subst h
      by_cases h2 : c = d
      · subst h2; simp [lookupPrices]
      · simp [lookupPrices, List.find?, h2, Ne.symm h2]
    · rename_i h
      by_cases h2 : d = c
      · subst h2; simp [lookupPrices, h]
      · unfold lookupPrices at ih ⊢
        simp only [List.find?_cons, h2, decide_false]
        exact ih

theorem lookup_fold (items : List PriceItem) (m : List (Com × List Price)) (c : Com) :
    lookupPrices (items.foldl (fun m i => addPrice m i.currency i.price) m) c =
      let l := (items.filter (fun i => decide (i.currency = c))).map (·.price)
      if l = [] then lookupPrices m c else some ((lookupPrices m c).getD [] ++ l) := by
  induction items generalizing m with
  | nil => simp
  | cons i items ih =>
    simp only [List.foldl_cons]
    rw [ih, lookup_addPrice]
    by_cases h : i.currency = c
    · simp only [h, if_true, List.filter_cons, decide_true, List.map_cons]
      split
      · rename_i h2; simp [h2]
      · simp
    · simp [h, Ne.symm h]

theorem lookup_forall2 {R : (Com × List Price) → (Com × List Price) → Prop} (hR : ∀ e e', R e e' → e'.1 = e.1)
    {l l' : List (Com × List Price)} (h : List.Forall₂ R l l') (c : Com) :
    (lookupPrices l c = none ∧ lookupPrices l' c = none) ∨
    (∃ a b, lookupPrices l c = some a ∧ lookupPrices l' c = some b ∧ R (c, a) (c, b)) := by
  induction h with
  | nil => left; simp [lookupPrices]
  | @cons e e' l l' hr _ ih =>
    have h1 := hR _ _ hr
    by_cases hc : e.1 = c
    · right
      refine ⟨e.2, e'.2, by simp [lookupPrices, hc], by simp [lookupPrices, h1, hc], ?_⟩
      obtain ⟨a, b⟩ := e; obtain ⟨a', b'⟩ := e'
      simp at h1 hc; subst hc; subst h1; exact hr
    · unfold lookupPrices at ih ⊢
      simp only [List.find?_cons, hc, h1, decide_false]
      exact ih

end Verif
