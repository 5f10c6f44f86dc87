import Verif.Lemmas.Convert
import Verif.Props.Amount
/-!
# Properties C12–C16: currency conversion

`PriceDB` is an arbitrary price table; `MapOrder` an arbitrary enumeration order of its maps for every call;
`Closed U db` says that the finite list `U` of commodities contains all price currencies of its members (in the program:
the loaded commodities).
-/
namespace Verif

/-! ## C12 -/

/-- **C12** `Convert` terminates for every finite price table – cyclic or not – and every map order: from recursion depth
`2·|U|+1` on, the result no longer depends on the depth allowed. -/
theorem C12_convert_terminates (U : List Com) (db : PriceDB) (ord : MapOrder) (hU : Closed U db) (hord : ord.Valid db)
    (c : Com) (amount : Amount) (c2 : Com) (hc2 : c2 ∈ U) :
    ∃ r, ∀ fuel, 2 * U.length + 1 ≤ fuel → convert db ord c amount c2 fuel = some r := by
  have hm : convMeasure U [] c2 < 2 * U.length + 1 := by
    unfold convMeasure unvisited
    have := List.length_filter_le (fun x => decide (x ∉ ([] : List Com))) U
    simp
  have h := convertF_ne_none U db ord hU hord c (2 * U.length + 1) amount c2 [] hc2 hm
  obtain ⟨r, hr⟩ := Option.ne_none_iff_exists'.mp h
  exact ⟨r, fun fuel hf => convertF_mono' db ord c _ fuel hf amount c2 [] r hr⟩

/-- A cyclic price table: A ↔ B, and A priced in itself; nothing leads to C. -/
def cyclicDB : PriceDB := fun c =>
  if c = ⟨0, str "A", 2⟩ then
    [(⟨1, str "B", 2⟩, [⟨⟨200, ⟨1, str "B", 2⟩⟩, 0⟩]), (⟨0, str "A", 2⟩, [⟨⟨100, ⟨0, str "A", 2⟩⟩, 0⟩])]
  else if c = ⟨1, str "B", 2⟩ then [(⟨0, str "A", 2⟩, [⟨⟨50, ⟨0, str "A", 2⟩⟩, 0⟩])]
  else []

example : Closed [⟨0, str "A", 2⟩, ⟨1, str "B", 2⟩] cyclicDB ∧ MapOrder.Valid (fun _ c => cyclicDB c) cyclicDB ∧
    convert cyclicDB (fun _ c => cyclicDB c) ⟨2, str "C", 2⟩ ⟨100, ⟨0, str "A", 2⟩⟩ ⟨0, str "A", 2⟩ 5 = some (.error .err) := by
  refine ⟨by unfold Closed; decide, fun _ _ => List.Perm.refl _, by decide +kernel⟩

/-! ## C13 -/

/-- **C13** `Convert` succeeds exactly when a chain of prices leads from the source to the target commodity, for every
map order; otherwise it returns an error (it never panics when all price lists are non-empty, as `AddPrice` guarantees). -/
theorem C13_convert_iff_path (U : List Com) (db : PriceDB) (ord : MapOrder) (hU : Closed U db) (hord : ord.Valid db)
    (hg : GoodPrices db) (c : Com) (amount : Amount) (c2 : Com) (hc2 : c2 ∈ U) (fuel : Nat) (hf : 2 * U.length + 1 ≤ fuel) :
    (PricePath db c2 c → ∃ v, convert db ord c amount c2 fuel = some (.ok v)) ∧
    (¬ PricePath db c2 c → convert db ord c amount c2 fuel = some (.error .err)) := by
  obtain ⟨r, hr⟩ := C12_convert_terminates U db ord hU hord c amount c2 hc2
  have hr := hr fuel hf
  rcases convertF_outcome db ord hg hord c fuel amount c2 [] r hr with ⟨w, h1, _, h3⟩ | ⟨h1, h2⟩
  · subst h1
    exact ⟨fun _ => ⟨w, hr⟩, fun h => absurd h3 h⟩
  · subst h1
    refine ⟨fun h => absurd (pricePath_avoid_nil db _ _ h) h2, fun _ => hr⟩

/-- Two-step conversion A → B → C. -/
def chainDB : PriceDB := fun c =>
  if c = ⟨0, str "A", 2⟩ then [(⟨1, str "B", 2⟩, [⟨⟨200, ⟨1, str "B", 2⟩⟩, 0⟩])]
  else if c = ⟨1, str "B", 2⟩ then [(⟨2, str "C", 2⟩, [⟨⟨150, ⟨2, str "C", 2⟩⟩, 0⟩])]
  else []

example : convert chainDB (fun _ c => chainDB c) ⟨2, str "C", 2⟩ ⟨100, ⟨0, str "A", 2⟩⟩ ⟨0, str "A", 2⟩ 7 =
    some (.ok ⟨300, ⟨0, str "A", 2⟩⟩) := by decide +kernel

/-! ## C14 -/

/-- Full statement of C14: the converted value does not depend on map iteration order. -/
def C14_Statement : Prop := ∀ (U : List Com) (db : PriceDB) (ord ord' : MapOrder) (c : Com) (amount : Amount) (c2 : Com) (fuel : Nat),
  Closed U db → GoodPrices db → ord.Valid db → ord'.Valid db → c2 ∈ U → 2 * U.length + 1 ≤ fuel →
  convert db ord c amount c2 fuel = convert db ord' c amount c2 fuel

/-- Diamond: A is priced in B and C, both priced in D, with inconsistent cross rates. -/
def diamondDB : PriceDB := fun c =>
  if c = ⟨0, str "A", 0⟩ then
    [(⟨1, str "B", 0⟩, [⟨⟨1, ⟨1, str "B", 0⟩⟩, 0⟩]), (⟨2, str "C", 0⟩, [⟨⟨1, ⟨2, str "C", 0⟩⟩, 0⟩])]
  else if c = ⟨1, str "B", 0⟩ then [(⟨3, str "D", 0⟩, [⟨⟨2, ⟨3, str "D", 0⟩⟩, 0⟩])]
  else if c = ⟨2, str "C", 0⟩ then [(⟨3, str "D", 0⟩, [⟨⟨3, ⟨3, str "D", 0⟩⟩, 0⟩])]
  else []

theorem diamond_good : GoodPrices diamondDB := by
  intro c e he
  unfold diamondDB at he
  split at he
  · simp at he; rcases he with rfl | rfl <;> simp
  split at he
  · simp at he; subst he; simp
  split at he
  · simp at he; subst he; simp
  simp at he

/-- **C14 is false** of the code: with two price chains the result depends on the map order (2 or 3). -/
theorem C14_order_independent_violated : ¬ C14_Statement := by
  intro h
  have := h [⟨0, str "A", 0⟩, ⟨1, str "B", 0⟩, ⟨2, str "C", 0⟩, ⟨3, str "D", 0⟩] diamondDB (fun _ c => diamondDB c)
    (fun _ c => (diamondDB c).reverse) ⟨3, str "D", 0⟩ ⟨1, ⟨0, str "A", 0⟩⟩ ⟨0, str "A", 0⟩ 9
    (by unfold Closed; decide) diamond_good (fun _ _ => List.Perm.refl _) (fun _ _ => List.reverse_perm _) (by decide) (by decide)
  revert this; decide +kernel

/-- **C14 (partial)**: whether a conversion succeeds never depends on map order; the value does not either when a direct
price exists, or when every commodity is priced in at most one currency. Missing: several price chains. -/
theorem C14_order_independent_partial (U : List Com) (db : PriceDB) (ord ord' : MapOrder) (c : Com) (amount : Amount)
    (c2 : Com) (fuel : Nat) (hU : Closed U db) (hg : GoodPrices db) (ho : ord.Valid db) (ho' : ord'.Valid db) (hc2 : c2 ∈ U)
    (hf : 2 * U.length + 1 ≤ fuel) :
    ((∃ v, convert db ord c amount c2 fuel = some (.ok v)) ↔ (∃ v, convert db ord' c amount c2 fuel = some (.ok v))) ∧
    ((∃ ps, (c, ps) ∈ db c2) → convert db ord c amount c2 fuel = convert db ord' c amount c2 fuel) ∧
    ((∀ x, (db x).length ≤ 1) → convert db ord c amount c2 fuel = convert db ord' c amount c2 fuel) := by
  have h1 := C13_convert_iff_path U db ord hU ho hg c amount c2 hc2 fuel hf
  have h2 := C13_convert_iff_path U db ord' hU ho' hg c amount c2 hc2 fuel hf
  refine ⟨?_, ?_, ?_⟩
  · by_cases hp : PricePath db c2 c
    · exact ⟨fun _ => h2.1 hp, fun _ => h1.1 hp⟩
    · constructor
      · rintro ⟨v, hv⟩; rw [h1.2 hp] at hv; simp at hv
      · rintro ⟨v, hv⟩; rw [h2.2 hp] at hv; simp at hv
  · rintro ⟨ps, hps⟩
    obtain ⟨fuel, rfl⟩ : ∃ k, fuel = k + 1 := ⟨fuel - 1, by omega⟩
    unfold convert
    rw [convertF, convertF]
    split
    · rfl
    · rcases hl : lookupPrices (db c2) c with _ | l
      · exact absurd hps (lookupPrices_none hl ps)
      · rcases l with _ | ⟨p, l⟩ <;> rfl
  · intro hlen
    have key : ∀ o : MapOrder, o.Valid db → o = fun _ x => db x := by
      intro o hv; funext prev x
      have hperm := hv prev x
      have hl := hlen x
      rcases hdb : db x with _ | ⟨a, t⟩
      · rw [hdb] at hperm; exact hperm.eq_nil
      · rw [hdb] at hl hperm
        have : t = [] := by
          simp at hl; exact hl
        subst this; exact List.perm_singleton.mp hperm
    rw [key ord ho, key ord' ho']

/-! ## C15 -/

/-- Full statement of C15: the result of converting to `c` is an amount of `c`. -/
def C15_Statement : Prop := ∀ (db : PriceDB) (ord : MapOrder) (c : Com) (amount : Amount) (fuel : Nat) (v : Amount),
  GoodPrices db → ord.Valid db → convert db ord c amount amount.com fuel = some (.ok v) → v.com = c

/-- **C15 is false** of the code: converting 1.00 A through the price chain to C yields an amount labelled A. -/
theorem C15_target_commodity_violated : ¬ C15_Statement := by
  intro h
  have := h chainDB (fun _ c => chainDB c) ⟨2, str "C", 2⟩ ⟨100, ⟨0, str "A", 2⟩⟩ 7 ⟨300, ⟨0, str "A", 2⟩⟩
    (by
      intro c e he
      unfold chainDB at he
      split at he
      · simp at he; subst he; simp
      split at he
      · simp at he; subst he; simp
      simp at he) (fun _ _ => List.Perm.refl _) (by decide +kernel)
  revert this; decide

/-- What actually happens: the result always carries the commodity (and so the decimals) of the amount converted. -/
theorem C15_result_keeps_source_commodity (db : PriceDB) (ord : MapOrder) (hg : GoodPrices db) (ho : ord.Valid db) (c : Com)
    (amount : Amount) (c2 : Com) (fuel : Nat) (v : Amount) (h : convert db ord c amount c2 fuel = some (.ok v)) :
    v.com = amount.com := by
  rcases convertF_outcome db ord hg ho c fuel amount c2 [] _ h with ⟨w, h1, h2, _⟩ | ⟨h1, _⟩
  · injection h1 with h1; subst h1; exact h2
  · simp at h1

/-- **C15 (partial)**: with a direct price and equal decimals the *number* is right to within one smallest unit of the
target, truncated toward zero. Missing: the commodity label, and differing decimals (see C05). -/
theorem C15_target_value_partial (db : PriceDB) (ord : MapOrder) (c : Com) (amount : Amount) (fuel : Nat) (p : Price)
    (ps : List Price) (hne : c ≠ amount.com) (hp : lookupPrices (db amount.com) c = some (p :: ps)) (hpc : p.value.com = c)
    (hd : c.decimals = amount.com.decimals) (h50 : c.decimals ≤ 50) :
    ∃ v, convert db ord c amount amount.com (fuel + 1) = some (.ok v) ∧
      |v.int * 10 ^ c.decimals - amount.int * p.value.int| < 10 ^ c.decimals ∧ v.com.decimals = c.decimals ∧
      |v.int * 10 ^ c.decimals| ≤ |amount.int * p.value.int| := by
  unfold convert
  rw [convertF]
  simp only [hne, if_false, hp]
  rw [times_ok _ _ (by rw [hpc]; exact h50), hpc]
  refine ⟨_, rfl, tdiv_error _ _ (by positivity), hd.symm, ?_⟩
  simp only
  generalize amount.int * p.value.int = x
  rw [show x.tdiv (10 ^ c.decimals) * 10 ^ c.decimals = x - x.tmod (10 ^ c.decimals) by
    have := Int.tmod_add_mul_tdiv x (10 ^ c.decimals); rw [mul_comm] at this; omega]
  rcases le_total 0 x with hx | hx
  · have h1 := Int.tmod_nonneg (10 ^ c.decimals) hx
    have h2 : x.tmod (10 ^ c.decimals) ≤ x := by
      have := Int.tdiv_nonneg hx (show (0:Int) ≤ 10 ^ c.decimals by positivity)
      have h3 := Int.tmod_add_mul_tdiv x (10 ^ c.decimals)
      have : 0 ≤ 10 ^ c.decimals * x.tdiv (10 ^ c.decimals) := by positivity
      omega
    rw [abs_of_nonneg (by omega), abs_of_nonneg hx]; omega
  · obtain ⟨y, rfl⟩ : ∃ y, x = -y := ⟨-x, by ring⟩
    have hx : 0 ≤ y := by omega
    rw [Int.neg_tmod]
    have h1 := Int.tmod_nonneg (10 ^ c.decimals) hx
    have h2 : y.tmod (10 ^ c.decimals) ≤ y := by
      have := Int.tdiv_nonneg hx (show (0:Int) ≤ 10 ^ c.decimals by positivity)
      have h3 := Int.tmod_add_mul_tdiv y (10 ^ c.decimals)
      have : 0 ≤ 10 ^ c.decimals * y.tdiv (10 ^ c.decimals) := by positivity
      omega
    rw [abs_neg, abs_of_nonneg hx, abs_of_nonpos (by omega)]; omega

/-! ## C16 -/

/-- The prices recorded for a commodity in a currency, anywhere in the loaded files. -/
def history (items : List PriceItem) (c2 c : Com) : List Price :=
  ((items.filter (fun i => decide (i.commodity = c2))).filter (fun i => decide (i.currency = c))).map (·.price)

/-- **C16** After loading, a direct conversion multiplies by a price of the latest date recorded for the pair, whatever
the order of the price lines (`items` is arbitrary) and however `sort.Slice` breaks ties. -/
theorem C16_latest_price (items : List PriceItem) (db : PriceDB) (hres : IsResolved items db) (ord : MapOrder) (c c2 : Com)
    (amount : Amount) (fuel : Nat) (hne : c ≠ c2) (hh : history items c2 c ≠ []) :
    ∃ p ∈ history items c2 c, (∀ q ∈ history items c2 c, q.time ≤ p.time) ∧
      convert db ord c amount c2 (fuel + 1) = some (amount.times p.value) := by
  have hl : lookupPrices (loadPrices items c2) c = some (history items c2 c) := by
    unfold loadPrices
    rw [lookup_fold]
    unfold history at hh ⊢
    simp only [hh, if_false]
    simp [lookupPrices]
  rcases lookup_forall2 (fun _ _ h => h.1) (hres c2) c with ⟨h1, _⟩ | ⟨a, b, h1, h2, _, h4, h5⟩
  · rw [hl] at h1; simp at h1
  · rw [hl] at h1; injection h1 with h1; subst h1
    rcases b with _ | ⟨p, ps⟩
    · exact absurd h4.symm.eq_nil hh
    · refine ⟨p, h4.mem_iff.mp (by simp), ?_, ?_⟩
      · intro q hq
        rcases List.mem_cons.mp (h4.mem_iff.mpr hq) with rfl | hq
        · exact le_refl _
        · exact (List.pairwise_cons.mp h5).1 q hq
      · unfold convert
        rw [convertF]
        simp [hne, h2]

/-- The latest date – and, if it is unique, the price used – is the same for every permutation of the price lines. -/
theorem C16_permutation_invariant (items items' : List PriceItem) (hperm : items.Perm items') (c c2 : Com) (q : Price) :
    q ∈ history items c2 c ↔ q ∈ history items' c2 c := by
  unfold history
  exact (((hperm.filter _).filter _).map _).mem_iff

/-- Prices that came through `AddPrice` are never empty lists, so `convert` cannot panic on `prices[0]`. -/
theorem C16_loaded_prices_nonempty (items : List PriceItem) (db : PriceDB) (hres : IsResolved items db) (c : Com) :
    ∀ e ∈ db c, e.2 ≠ [] := by
  have hload : ∀ e ∈ loadPrices items c, e.2 ≠ [] := by
    unfold loadPrices
    generalize items.filter (fun i => decide (i.commodity = c)) = its
    have gen : ∀ (its : List PriceItem) (m : List (Com × List Price)), (∀ e ∈ m, e.2 ≠ []) →
        ∀ e ∈ its.foldl (fun m i => addPrice m i.currency i.price) m, e.2 ≠ [] := by
      intro its
      induction its with
      | nil => intro m hm; exact hm
      | cons i its ih =>
        intro m hm
        refine ih _ ?_
        clear ih
        induction m with
        | nil => simp [addPrice]
        | cons d m ihm =>
          obtain ⟨d, l⟩ := d
          simp only [addPrice] at ihm ⊢
          split
          · intro e he
            rcases List.mem_cons.mp he with rfl | he
            · simp
            · exact hm e (by simp [he])
          · intro e he
            rcases List.mem_cons.mp he with rfl | he
            · exact hm _ (by simp)
            · exact ihm (fun e he => hm e (by simp [he])) e he
    exact gen its [] (by simp)
  intro e he
  have h2 := hres c
  clear hres
  generalize loadPrices items c = L at h2 hload
  generalize db c = L' at h2 he
  induction h2 with
  | nil => simp at he
  | cons hr _ ih =>
    rcases List.mem_cons.mp he with rfl | he
    · intro h0
      have := hr.2.1
      rw [h0] at this
      exact hload _ (by simp) this.symm.eq_nil
    · exact ih (fun e he => hload e (by simp [he])) he

/-- Non-vacuity: two prices in file order old, new; the new one is used. -/
example : let a : Com := ⟨0, str "A", 2⟩; let b : Com := ⟨1, str "B", 2⟩
    let items : List PriceItem := [⟨a, b, ⟨⟨100, b⟩, 1⟩⟩, ⟨a, b, ⟨⟨300, b⟩, 5⟩⟩]
    let db : PriceDB := fun c => if c = a then [(b, [⟨⟨300, b⟩, 5⟩, ⟨⟨100, b⟩, 1⟩])] else []
    history items a b ≠ [] ∧ IsResolved items db ∧
    convert db (fun _ c => db c) b ⟨100, a⟩ a 1 = some (.ok ⟨300, a⟩) := by
  refine ⟨by decide, ?_, by decide +kernel⟩
  intro c
  by_cases h : c = ⟨0, str "A", 2⟩
  · subst h
    refine List.Forall₂.cons ⟨by decide, by decide, by decide⟩ List.Forall₂.nil
  · simp only [h, if_false]
    have : loadPrices [⟨⟨0, str "A", 2⟩, ⟨1, str "B", 2⟩, ⟨⟨100, ⟨1, str "B", 2⟩⟩, 1⟩⟩,
      ⟨⟨0, str "A", 2⟩, ⟨1, str "B", 2⟩, ⟨⟨300, ⟨1, str "B", 2⟩⟩, 5⟩⟩] c = [] := by
      unfold loadPrices
      simp [Ne.symm h]
    rw [this]; exact .nil

end Verif
