import Verif.Props.ReportStats
import Verif.Props.ListCmd
import Verif.Props.Convert
/-
C173: `coin commodities` from the files of a ledger to its output.
-/
namespace Verif

/-! ## Specification -/

/-- `c` is the last commodity declared under its id. -/
def LastCom (st : LoadState) (c : PCom) : Prop :=
  ∃ before after, st.items.filterMap itemCom = before ++ c :: after ∧ ∀ d ∈ after, d.id ≠ c.id

/-- The prices of the commodity `a` in the currency `cur`, in the order of the files. -/
def pricesIn (st : LoadState) (a cur : Str) : List Price :=
  ((st.items.filterMap itemPrice).filter fun p => decide (p.commodityId = a ∧ p.currencyId = cur)).map fun p => ⟨p.value, p.time⟩

/-- The prices of the commodity `a`, those of one currency together, latest first. -/
structure PriceBlocks (st : LoadState) (a : Str) (blocks : List (Str × List Price)) : Prop where
  once : (blocks.map (·.1)).Nodup
  all : ∀ cur, cur ∈ blocks.map (·.1) ↔ pricesIn st a cur ≠ []
  same : ∀ b ∈ blocks, b.2.Perm (pricesIn st a b.1)
  latest : ∀ b ∈ blocks, b.2.Pairwise fun p q => q.time ≤ p.time

/-- A line for a price. -/
def priceText (p : Price) : Str := formatDate p.time ++ str " " ++ numText p.value ++ str " " ++ p.value.com.id

/-! ## Loading -/

theorem loadPricesS_keeps {I : LoadState → Prop} (hs : ∀ st i r, storeItem st i = .ok r → I st → I r) {P : Install} {r : LoadState} (h : loadPricesS P = .ok r)
    (hi : I ⟨[], str "CAD", []⟩) : I r := by
  unfold loadPricesS at h
  obtain ⟨s1, h1, h⟩ := bind_ok.mp h
  exact loadEachS_keeps hs _ _ _ _ _ _ h (loadFileS_keeps hs _ _ _ _ _ _ h1 hi)

/-- Either way the commodities known are those declared. -/
theorem coms_opened {P : Install} {priced : Bool} {st : LoadState} {db : PriceDB} (h : CommoditiesOpened P priced st db) :
    st.coms.map (·.id) = ((st.items.filterMap itemCom).map (·.id)).reverse := by
  unfold CommoditiesOpened at h
  split at h
  · exact loadPricesS_keeps coms_step h.1 rfl
  · exact loadFileS_keeps coms_step _ _ _ _ _ _ h.1 rfl

theorem lookup_id {st : LoadState} {a : Str} {c : Com} (h : st.lookup a = some c) : c.id = a := by
  unfold LoadState.lookup at h
  have := List.find?_some h
  simpa using this

theorem firstPer_spec (l : List PCom) : ((firstPer l).map (·.id)).Nodup ∧ ∀ c, c ∈ firstPer l ↔ ∃ before after, l = before ++ c :: after ∧ ∀ d ∈ before, d.id ≠ c.id := by
  induction l with
  | nil => exact ⟨by simp [firstPer], by simp [firstPer]⟩
  | cons x l ih =>
    obtain ⟨h1, h2⟩ := ih
    refine ⟨?_, ?_⟩
    · rw [firstPer, List.map_cons, List.nodup_cons]
      refine ⟨?_, ?_⟩
      · rw [List.mem_map]
        rintro ⟨d, hd, e⟩
        have := (List.mem_filter.mp hd).2
        simp [e] at this
      · exact h1.sublist (List.filter_sublist.map _)
    · intro c
      rw [firstPer, List.mem_cons, List.mem_filter, h2]
      constructor
      · rintro (rfl | ⟨⟨b, a, rfl, hb⟩, hne⟩)
        · exact ⟨[], l, rfl, by simp⟩
        · refine ⟨x :: b, a, rfl, ?_⟩
          intro d hd
          rcases List.mem_cons.mp hd with rfl | hd
          · simp at hne; exact fun h => hne h.symm
          · exact hb d hd
      · rintro ⟨b, a, e, hb⟩
        cases b with
        | nil => left; simp at e; exact e.1.symm
        | cons y b =>
          simp at e
          obtain ⟨rfl, e⟩ := e
          right
          refine ⟨⟨b, a, e, fun d hd => hb d (by simp [hd])⟩, ?_⟩
          have := hb x (by simp)
          simp; exact fun h => this h.symm

theorem comEntries_spec (st : LoadState) : (st.comEntries.map (·.id)).Nodup ∧ ∀ c, c ∈ st.comEntries ↔ LastCom st c := by
  unfold LoadState.comEntries
  obtain ⟨h1, h2⟩ := firstPer_spec (st.items.filterMap itemCom).reverse
  refine ⟨h1, ?_⟩
  intro c
  rw [h2]
  unfold LastCom
  constructor
  · rintro ⟨b, a, e, hb⟩
    refine ⟨a.reverse, b.reverse, ?_, by simpa using hb⟩
    have := congrArg List.reverse e
    simpa using this
  · rintro ⟨b, a, e, ha⟩
    refine ⟨a.reverse, b.reverse, ?_, by simpa using ha⟩
    rw [e]; simp

/-! ## Prices -/

theorem addPrice_keys (m : List (Com × List Price)) (cur : Com) (p : Price) (h : (m.map (·.1)).Nodup) :
    ((addPrice m cur p).map (·.1)).Nodup ∧ ∀ c, c ∈ (addPrice m cur p).map (·.1) ↔ c = cur ∨ c ∈ m.map (·.1) := by
  induction m with
  | nil => simp [addPrice]
  | cons e m ih =>
    obtain ⟨d, l⟩ := e
    rw [List.map_cons, List.nodup_cons] at h
    obtain ⟨h1, h2⟩ := ih h.2
    rw [addPrice]
    split
    · next e =>
      refine ⟨by rw [List.map_cons, List.nodup_cons]; exact h, ?_⟩
      intro c; subst e; simp
    · next e =>
      refine ⟨?_, ?_⟩
      · rw [List.map_cons, List.nodup_cons]
        refine ⟨?_, h1⟩
        rw [h2]
        rintro (h' | h')
        · exact e h'
        · exact h.1 h'
      · intro c
        rw [List.map_cons, List.mem_cons, h2, List.map_cons, List.mem_cons]
        tauto

theorem loadPrices_keys (items : List PriceItem) (c : Com) : ((loadPrices items c).map (·.1)).Nodup := by
  unfold loadPrices
  generalize items.filter (fun i => decide (i.commodity = c)) = its
  have gen : ∀ (its : List PriceItem) (m : List (Com × List Price)), (m.map (·.1)).Nodup →
      ((its.foldl (fun m i => addPrice m i.currency i.price) m).map (·.1)).Nodup := by
    intro its
    induction its with
    | nil => intro m h; exact h
    | cons i its ih => intro m h; exact ih _ (addPrice_keys m _ _ h).1
  exact gen its [] (by simp)

theorem loadPrices_entry {items : List PriceItem} {c cur : Com} {l : List Price} : (cur, l) ∈ loadPrices items c ↔ l = history items c cur ∧ l ≠ [] := by
  have hl : lookupPrices (loadPrices items c) cur = if history items c cur = [] then none else some (history items c cur) := by
    unfold loadPrices
    rw [lookup_fold]
    unfold history
    simp [lookupPrices]
  constructor
  · intro h
    have : lookupPrices (loadPrices items c) cur = some l := by
      unfold lookupPrices
      rw [Option.map_eq_some_iff]
      cases hf : (loadPrices items c).find? (fun e => decide (e.1 = cur)) with
      | none =>
        have := List.find?_eq_none.mp hf _ h
        simp at this
      | some e =>
        have h1 := List.find?_some hf
        simp at h1
        have := List.inj_on_of_nodup_map (loadPrices_keys items c) (List.mem_of_find?_eq_some hf) h h1
        exact ⟨e, rfl, by rw [this]⟩
    rw [hl] at this
    split at this
    · cases this
    · next h0 => injection this with this; exact ⟨this.symm, by rw [← this]; exact h0⟩
  · rintro ⟨rfl, h⟩
    rw [if_neg h] at hl
    exact lookupPrices_some hl

theorem price_ok {st : LoadState} {p : PPrice} {i : PriceItem} (h : st.price p = .ok i) :
    st.lookup p.commodityId = some i.commodity ∧ st.lookup p.currencyId = some i.currency ∧ i.price = ⟨p.value, p.time⟩ := by
  unfold LoadState.price at h
  split at h
  · next a b h1 h2 => injection h with h; subst h; exact ⟨h1, h2, rfl⟩
  · cases h

theorem history_in {st : LoadState} {a cur : Str} {c d : Com} (hc : st.lookup a = some c) (hd : st.lookup cur = some d) {ps : List PPrice} {items : List PriceItem}
    (h : List.Forall₂ (fun p i => st.price p = .ok i) ps items) :
    history items c d = (ps.filter fun p => decide (p.commodityId = a ∧ p.currencyId = cur)).map fun p => ⟨p.value, p.time⟩ := by
  induction h with
  | nil => rfl
  | @cons p i ps items hp _ ih =>
    obtain ⟨h1, h2, h3⟩ := price_ok hp
    have e1 : i.commodity = c ↔ p.commodityId = a := by
      constructor
      · rintro rfl; rw [← lookup_id h1, ← lookup_id hc]
      · intro e; rw [e, hc] at h1; exact (Option.some.inj h1).symm
    have e2 : i.currency = d ↔ p.currencyId = cur := by
      constructor
      · rintro rfl; rw [← lookup_id h2, ← lookup_id hd]
      · intro e; rw [e, hd] at h2; exact (Option.some.inj h2).symm
    unfold history at ih ⊢
    rw [List.filter_cons, List.filter_cons]
    by_cases k1 : i.commodity = c
    · by_cases k2 : i.currency = d
      · rw [if_pos (by simpa using k1), if_pos (by simpa using ⟨e1.mp k1, e2.mp k2⟩), List.filter_cons, if_pos (by simpa using k2), List.map_cons, List.map_cons, ih, h3]
      · rw [if_pos (by simpa using k1), if_neg (by simp; exact fun _ h => k2 (e2.mpr h)), List.filter_cons, if_neg (by simpa using k2), ih]
    · rw [if_neg (by simpa using k1), if_neg (by simp; exact fun h _ => k1 (e1.mpr h)), ih]

/-- The prices of a commodity in the files, as resolved. -/
theorem resolved_blocks {st : LoadState} {items : List PriceItem} {db : PriceDB} (hi : (st.items.filterMap itemPrice).mapM st.price = .ok items)
    (h : IsResolved items db) {a : Str} {c : Com} (hc : st.lookup a = some c) {order : List (Com × List Price)} (ho : order.Perm (db c)) :
    PriceBlocks st a (order.map fun e => (e.1.id, e.2)) ∧ ∀ e ∈ order, st.lookup e.1.id = some e.1 := by
  have hf := (mapM_ok _ _ _).mp hi
  have hr := h c
  have ent : ∀ e ∈ order, st.lookup e.1.id = some e.1 ∧ e.2.Perm (pricesIn st a e.1.id) ∧ pricesIn st a e.1.id ≠ [] ∧ e.2.Pairwise (fun p q => q.time ≤ p.time) := by
    intro e he
    obtain ⟨e0, he0, h1, h2, h3⟩ := forall2_mem_right hr _ (ho.mem_iff.mp he)
    obtain ⟨k1, k2⟩ := loadPrices_entry.mp he0
    have hl : st.lookup e0.1.id = some e0.1 := by
      rw [k1] at k2
      obtain ⟨q, hq⟩ := List.exists_mem_of_ne_nil _ k2
      unfold history at hq
      obtain ⟨i, hi', rfl⟩ := List.mem_map.mp hq
      rw [List.mem_filter, List.mem_filter] at hi'
      obtain ⟨p, hp, hpi⟩ := forall2_mem_right hf _ hi'.1.1
      have h2 := (price_ok hpi).2.1
      have h4 : i.currency = e0.1 := by simpa using hi'.2
      rw [h4] at h2
      rw [lookup_id h2]; exact h2
    have hh := history_in hc hl hf
    rw [h1]
    have e0' : e0.2 = pricesIn st a e0.1.id := k1.trans hh
    exact ⟨hl, e0' ▸ h2, e0' ▸ k2, h3⟩
  have keys : (order.map (·.1)).Nodup := by
    rw [(ho.map _).nodup_iff]
    have : (db c).map (·.1) = (loadPrices items c).map (·.1) := by
      clear ho ent
      generalize loadPrices items c = l at hr
      generalize db c = m at hr
      induction hr with
      | nil => rfl
      | cons h _ ih => rw [List.map_cons, List.map_cons, h.1, ih]
    rw [this]; exact loadPrices_keys items c
  refine ⟨⟨?_, ?_, ?_, ?_⟩, fun e he => (ent e he).1⟩
  · rw [List.map_map]
    have : order.map ((fun x => x.1) ∘ fun e : Com × List Price => (e.1.id, e.2)) = (order.map (·.1)).map (·.id) := by rw [List.map_map]; rfl
    rw [this]
    refine List.Nodup.map_on ?_ keys
    intro x hx y hy e
    obtain ⟨ex, hex, rfl⟩ := List.mem_map.mp hx
    obtain ⟨ey, hey, rfl⟩ := List.mem_map.mp hy
    have h1 := (ent ex hex).1
    rw [e, (ent ey hey).1] at h1
    exact (Option.some.inj h1).symm
  · intro cur
    constructor
    · intro hm
      obtain ⟨b, hb, rfl⟩ := List.mem_map.mp hm
      obtain ⟨e, he, rfl⟩ := List.mem_map.mp hb
      exact (ent e he).2.2.1
    · intro hne
      obtain ⟨q, hq⟩ := List.exists_mem_of_ne_nil _ hne
      have hq' := hq
      unfold pricesIn at hq'
      obtain ⟨p, hp, _⟩ := List.mem_map.mp hq'
      rw [List.mem_filter] at hp
      obtain ⟨hp, hcc⟩ := hp
      simp only [decide_eq_true_eq] at hcc
      obtain ⟨i, _, hpi⟩ := forall2_mem_left hf _ hp
      obtain ⟨_, h2, _⟩ := price_ok hpi
      rw [hcc.2] at h2
      have hh := history_in hc h2 hf
      have : (i.currency, history items c i.currency) ∈ loadPrices items c := loadPrices_entry.mpr ⟨rfl, by rw [hh]; exact hne⟩
      obtain ⟨e, he, h5, _⟩ := forall2_mem_left hr _ this
      rw [List.mem_map]
      exact ⟨_, List.mem_map_of_mem (ho.mem_iff.mpr he), by dsimp only; rw [h5]; exact lookup_id h2⟩
  · intro b hb
    obtain ⟨e, he, rfl⟩ := List.mem_map.mp hb
    exact (ent e he).2.1
  · intro b hb
    obtain ⟨e, he, rfl⟩ := List.mem_map.mp hb
    exact (ent e he).2.2.2

theorem lookup_declared {st : LoadState} (h : st.coms.map (·.id) = ((st.items.filterMap itemCom).map (·.id)).reverse) (a : Str) :
    (∃ c, st.lookup a = some c) ↔ ∃ c ∈ st.items.filterMap itemCom, c.id = a := by
  have : (∃ c, st.lookup a = some c) ↔ a ∈ st.coms.map (·.id) := by
    unfold LoadState.lookup
    rw [List.mem_map, ← Option.isSome_iff_exists, List.find?_isSome]
    simp
  rw [this, h, List.mem_reverse, List.mem_map]

/-- **C173** From the files of a ledger whose prices load, `coin commodities X` prints all prices of the commodity, each once, those in one
currency together, the latest first; the currencies come in any order. An argument that is not the id of a commodity declared in these
files prints nothing. -/
theorem C173_prices (P : Install) (st : LoadState) (db : PriceDB) (hO : CommoditiesOpened P true st db) (ord : Com → List (Com × List Price))
    (hord : ∀ c, (ord c).Perm (db c)) (loc : Nat → Str) (hdec : ∀ p ∈ st.items.filterMap itemPrice, p.value.com.decimals ≤ 50)
    (fe : FlagEnv) (w : Str) (l : List (Str × Str)) (toks : List (List Str)) (tail : List Str) (a : Str) (rest : List Str)
    (hw : commandOf w = some .commodities) (hl : List.Forall₂ (Written fe (flagsOf .commodities)) l toks) (ht : Remaining tail (a :: rest)) :
    ((¬ ∃ c ∈ st.items.filterMap itemCom, c.id = a) → commoditiesMain fe st ord loc (w :: (toks.flatten ++ tail)) = .ok []) ∧
    ((∃ c ∈ st.items.filterMap itemCom, c.id = a) → ∃ blocks, PriceBlocks st a blocks ∧
      commoditiesMain fe st ord loc (w :: (toks.flatten ++ tail)) = .ok (textOf ((blocks.flatMap (·.2)).mapIdx fun i p =>
        if boolFlag l (str "f") = true then priceText p ++ str " " ++ loc i else priceText p))) := by
  have hid := coms_opened hO
  have hmain : commoditiesMain fe st ord loc (w :: (toks.flatten ++ tail)) = pricesOut st ord loc (boolFlag l (str "f")) a := by
    unfold commoditiesMain
    rw [dispatch_written hw hl ht]; rfl
  rw [hmain]
  unfold pricesOut
  constructor
  · intro hno
    cases hc : st.lookup a with
    | none => rfl
    | some c => exact absurd ((lookup_declared hid a).mp ⟨c, hc⟩) hno
  · intro hyes
    obtain ⟨c, hc⟩ := (lookup_declared hid a).mpr hyes
    rw [hc]
    obtain ⟨_, items, hi, hres⟩ := hO
    obtain ⟨hB, _⟩ := resolved_blocks hi hres hc (hord c)
    refine ⟨_, hB, ?_⟩
    have hfl : (List.map (fun e : Com × List Price => (e.1.id, e.2)) (ord c)).flatMap (·.2) = (ord c).flatMap (·.2) := by
      rw [List.flatMap_map]
    rw [hfl]
    have hall : ∀ p ∈ (ord c).flatMap (·.2), p.value.com.decimals ≤ 50 := by
      rw [← hfl]
      intro p hp
      obtain ⟨b, hb, hpb⟩ := List.mem_flatMap.mp hp
      have := (hB.same b hb).mem_iff.mp hpb
      unfold pricesIn at this
      obtain ⟨q, hq, rfl⟩ := List.mem_map.mp this
      exact hdec q (List.mem_filter.mp hq).1
    have hm : pricesCmd (ord c) = .ok (((ord c).flatMap (·.2)).map priceText) := by
      unfold pricesCmd
      refine mapM_eq _ _ _ ?_
      intro p hp
      unfold priceLine
      rw [string_ok _ (hall p hp)]
      rfl
    dsimp only
    rw [hm]
    show Except.ok _ = _
    congr 2
    refine List.ext_getElem? ?_
    intro i
    cases hf : boolFlag l (str "f")
    · simp
    · simp only [if_true, List.getElem?_mapIdx, List.getElem?_map, Option.map_map]; rfl

/-- **C173** Without an argument the commodities declared in the commodities file are listed, for every id the last one declared under it,
in increasing order of the ids, with a `Q` exactly for those with a symbol that are quoted on a market. -/
theorem C173_list (P : Install) (st : LoadState) (db : PriceDB) (_hO : CommoditiesOpened P false st db) (ord : Com → List (Com × List Price))
    (loc : Nat → Str) (fe : FlagEnv) (w : Str) (l : List (Str × Str)) (toks : List (List Str)) (tail : List Str)
    (hw : commandOf w = some .commodities) (hl : List.Forall₂ (Written fe (flagsOf .commodities)) l toks) (ht : Remaining tail [])
    (hq : boolFlag l (str "q") = false) (hp : boolFlag l (str "p") = false) :
    ∃ listed : List PCom, (∀ c, c ∈ listed ↔ LastCom st c) ∧ (listed.map (·.id)).Pairwise (fun a b => strLt a b = true) ∧
      commoditiesMain fe st ord loc (w :: (toks.flatten ++ tail)) = .ok (textOf (listed.map fun c => padLeft 10 c.id ++ str " | " ++ padLeft 10 c.symbol ++
        (if c.symbol ≠ [] ∧ c.noMarket = false then str " | Q | " else str " |   | ") ++ c.name)) := by
  obtain ⟨h1, h2⟩ := comEntries_spec st
  obtain ⟨listed, h3, h4, h5⟩ := C104_commodities st.comEntries h1
  refine ⟨listed, fun c => (h3.mem_iff).trans (h2 c), h4, ?_⟩
  unfold commoditiesMain
  rw [dispatch_written hw hl ht]
  show (if boolFlag l (str "q") = true then _ else _) = _
  rw [hq, hp, ← h5]; rfl

/-- What is said of the prices in one currency: the latest one and how many there are. -/
def latestOf (b : Str × List Price) : Str :=
  match b.2 with
  | [] => []
  | p :: _ => formatDate p.time ++ str " " ++ numText p.value ++ str " " ++ b.1 ++ str " [" ++ natStr b.2.length ++ str "]"

/-- **C173** With -p the commodities are listed in increasing order of the ids, each with the latest price in every currency and the number
of the prices in it. -/
theorem C173_latest (P : Install) (st : LoadState) (db : PriceDB) (hO : CommoditiesOpened P true st db) (ord : Com → List (Com × List Price))
    (hord : ∀ c, (ord c).Perm (db c)) (loc : Nat → Str)
    (hown : ∀ p ∈ st.items.filterMap itemPrice, st.lookup p.currencyId = some p.value.com ∧ p.value.com.decimals ≤ 50)
    (fe : FlagEnv) (w : Str) (l : List (Str × Str)) (toks : List (List Str)) (tail : List Str)
    (hw : commandOf w = some .commodities) (hl : List.Forall₂ (Written fe (flagsOf .commodities)) l toks) (ht : Remaining tail [])
    (hq : boolFlag l (str "q") = false) (hp : boolFlag l (str "p") = true) :
    ∃ listed : List (Str × List (Str × List Price)), (∀ a, a ∈ listed.map (·.1) ↔ ∃ c ∈ st.items.filterMap itemCom, c.id = a) ∧
      (listed.map (·.1)).Pairwise (fun a b => strLt a b = true) ∧ (∀ e ∈ listed, PriceBlocks st e.1 e.2) ∧
      commoditiesMain fe st ord loc (w :: (toks.flatten ++ tail)) = .ok (textOf (listed.map fun e =>
        if e.2 = [] then e.1 else e.1 ++ str ": " ++ joinWith (str ", ") (e.2.map latestOf))) := by
  have hid := coms_opened hO
  obtain ⟨_, items, hi, hres⟩ := hO
  obtain ⟨h1, h2⟩ := comEntries_spec st
  obtain ⟨h3, h4⟩ := inOrder_spec (fun c : PCom => c.id) st.comEntries h1
  have hent : ∀ a, a ∈ st.comEntries.map (·.id) ↔ ∃ c ∈ st.items.filterMap itemCom, c.id = a := by
    intro a
    rw [List.mem_map]
    constructor
    · rintro ⟨c, hc, rfl⟩
      obtain ⟨b, d, e, _⟩ := (h2 c).mp hc
      exact ⟨c, by rw [e]; simp, rfl⟩
    · rintro ⟨c, hc, rfl⟩
      have last : ∀ l : List PCom, (∃ y ∈ l, y.id = c.id) → ∃ b d after, l = b ++ d :: after ∧ d.id = c.id ∧ ∀ x ∈ after, x.id ≠ d.id := by
        intro l
        induction l with
        | nil => rintro ⟨_, h, _⟩; cases h
        | cons x l ih =>
          intro h
          by_cases hx : ∃ y ∈ l, y.id = c.id
          · obtain ⟨b, d, af, e, k⟩ := ih hx
            exact ⟨x :: b, d, af, by rw [e]; rfl, k⟩
          · obtain ⟨y, hy, e⟩ := h
            rcases List.mem_cons.mp hy with rfl | hy
            · exact ⟨[], y, l, rfl, e, fun z hz hne => hx ⟨z, hz, hne.trans e⟩⟩
            · exact absurd ⟨y, hy, e⟩ hx
      obtain ⟨b, d, af, e, k1, k2⟩ := last _ ⟨c, hc, rfl⟩
      exact ⟨d, (h2 d).mpr ⟨b, af, e, k2⟩, k1⟩
  let blocks : Str → List (Str × List Price) := fun a => ((st.lookup a).elim [] ord).map fun e => (e.1.id, e.2)
  have hB : ∀ a c, st.lookup a = some c → PriceBlocks st a (blocks a) ∧ ∀ e ∈ ord c, st.lookup e.1.id = some e.1 := by
    intro a c hc
    have := resolved_blocks hi hres hc (hord c)
    simpa [blocks, hc] using this
  have hdecl : ∀ c ∈ inOrder (·.id) st.comEntries, ∃ d, st.lookup c.id = some d := by
    intro c hc
    exact (lookup_declared hid _).mpr ((hent _).mp (List.mem_map_of_mem (h3.mem_iff.mp hc)))
  refine ⟨(inOrder (·.id) st.comEntries).map fun c => (c.id, blocks c.id), ?_, ?_, ?_, ?_⟩
  · intro a
    rw [← hent, List.map_map]
    exact (h3.map _).mem_iff
  · rw [List.map_map]; exact h4
  · intro e he
    obtain ⟨c, hc, rfl⟩ := List.mem_map.mp he
    obtain ⟨d, hd⟩ := hdecl c hc
    exact (hB _ _ hd).1
  · have hs : comStrings st ord = .ok ((inOrder (·.id) st.comEntries).map fun c =>
        if blocks c.id = [] then c.id else c.id ++ str ": " ++ joinWith (str ", ") ((blocks c.id).map latestOf)) := by
      unfold comStrings
      refine mapM_eq _ _ _ ?_
      intro c hc
      obtain ⟨d, hd⟩ := hdecl c hc
      obtain ⟨k1, k2⟩ := hB _ _ hd
      have hbl : blocks c.id = (ord d).map fun e => (e.1.id, e.2) := by simp [blocks, hd]
      rw [hd]
      show comString c.id (ord d) = _
      unfold comString
      by_cases hn : ord d = []
      · rw [if_pos hn, if_pos (by rw [hbl, hn]; rfl)]
      · rw [if_neg hn, if_neg (by rw [hbl]; simpa using hn)]
        have hm : (ord d).mapM latestText = .ok ((ord d).map fun e => latestOf (e.1.id, e.2)) := by
          refine mapM_eq _ _ _ ?_
          intro e he
          have hmem : (e.1.id, e.2) ∈ blocks c.id := by rw [hbl]; exact List.mem_map_of_mem he
          have hsame := k1.same _ hmem
          have hne : e.2 ≠ [] := by
            intro h0
            have := (k1.all e.1.id).mp (List.mem_map_of_mem hmem)
            dsimp only at hsame
            rw [h0] at hsame
            exact this (List.Perm.nil_eq hsame).symm
          unfold latestText latestOf
          dsimp only
          cases hps : e.2 with
          | nil => exact absurd hps hne
          | cons p ps =>
            have hp1 : p ∈ pricesIn st c.id e.1.id := hsame.mem_iff.mp (by dsimp only; rw [hps]; simp)
            unfold pricesIn at hp1
            obtain ⟨q, hq1, rfl⟩ := List.mem_map.mp hp1
            rw [List.mem_filter] at hq1
            obtain ⟨hq1, hq2⟩ := hq1
            simp only [decide_eq_true_eq] at hq2
            obtain ⟨ho1, ho2⟩ := hown q hq1
            rw [hq2.2, k2 e he] at ho1
            have ho1 := Option.some.inj ho1
            have hfmt : (q.value.format none (if e.1.decimals > 0 then some e.1.decimals else none)) = .ok (numText q.value) := by
              rw [ho1]
              unfold Amount.format
              rw [bigPow10_ok ho2]
              show Except.ok _ = _
              congr 1
              unfold numText
              dsimp only
              split <;> rfl
            dsimp only
            rw [hfmt]; rfl
        rw [hm, hbl, List.map_map]; rfl
    unfold commoditiesMain
    rw [dispatch_written hw hl ht]
    show (if boolFlag l (str "q") = true then _ else _) = _
    rw [hq, hp]
    show ((comStrings st ord).bind fun ls => .ok (textOf ls)) = _
    rw [hs, List.map_map]; rfl

/-! ### A ledger with prices -/

def comDir : List (Str × Str) :=
  [(str "commodities.coin", str "commodity USD\n  format 1.00 USD\n  symbol USDCAD\n\ncommodity CAD\n  format 1.00 CAD\n\ncommodity EUR\n  format 1.0 EUR\n"),
   (str "prices.coin", str "P 2020/01/05 USD 1.30 CAD\nP 2020/01/06 USD 0.9 EUR\nP 2020/01/07 USD 1.35 CAD\nP 2020/01/06 EUR 1.45 CAD\n")]

def comInstall : Install := ⟨dirDisk comDir, ⟨2020, 1, 1⟩, 5, ledgerNames⟩

def comUsd : Com := ⟨0, str "USD", 2⟩
def comCad : Com := ⟨1, str "CAD", 2⟩
def comEur : Com := ⟨2, str "EUR", 1⟩

def comPrices : List PPrice :=
  [⟨737428, str "USD", str "CAD", ⟨130, comCad⟩⟩, ⟨737429, str "USD", str "EUR", ⟨9, comEur⟩⟩, ⟨737430, str "USD", str "CAD", ⟨135, comCad⟩⟩, ⟨737429, str "EUR", str "CAD", ⟨145, comCad⟩⟩]

def comState : LoadState := ⟨[comEur, comCad, comUsd], str "CAD",
  [.commodity ⟨str "USD", [], 2, false, str "USDCAD"⟩, .commodity ⟨str "CAD", [], 2, false, []⟩, .commodity ⟨str "EUR", [], 1, false, []⟩] ++ comPrices.map .price⟩

theorem com_loads : loadPricesS comInstall = .ok comState := load_eq (by decide +kernel)

/-- The prices, sorted. -/
def sortedDb (items : List PriceItem) : PriceDB := fun c =>
  (loadPrices items c).map fun e => (e.1, stableSort (fun p q : Price => decide (q.time < p.time)) e.2)

theorem sortedDb_resolved (items : List PriceItem) : IsResolved items (sortedDb items) := by
  intro c
  unfold sortedDb
  rw [List.forall₂_map_right_iff, List.forall₂_same]
  intro e _
  refine ⟨rfl, stableSort_perm _ _, ?_⟩
  have := stableSort_sorted (fun p q : Price => decide (q.time < p.time)) ⟨by simp; omega, by simp; omega⟩ e.2
  exact this.imp (by intro p q h; simpa using h)

def comItems : List PriceItem :=
  [⟨comUsd, comCad, ⟨⟨130, comCad⟩, 737428⟩⟩, ⟨comUsd, comEur, ⟨⟨9, comEur⟩, 737429⟩⟩, ⟨comUsd, comCad, ⟨⟨135, comCad⟩, 737430⟩⟩, ⟨comEur, comCad, ⟨⟨145, comCad⟩, 737429⟩⟩]

/-- Non-vacuity of C173: a ledger with prices of one commodity in two currencies, read from its files. -/
theorem com_opened : CommoditiesOpened comInstall true comState (sortedDb comItems) :=
  ⟨com_loads, comItems, ok_of_opt (by decide +kernel), sortedDb_resolved _⟩

example : ∀ p ∈ comState.items.filterMap itemPrice, comState.lookup p.currencyId = some p.value.com ∧ p.value.com.decimals ≤ 50 := by decide +kernel

example : commoditiesMain cmdFlags comState (sortedDb comItems) (fun i => natStr i) [str "c", str "USD"] =
    .ok (str "2020/01/07 1.35 CAD\n2020/01/05 1.30 CAD\n2020/01/06 0.9 EUR\n") := ok_of_opt (by decide +kernel)

example : commoditiesMain cmdFlags comState (sortedDb comItems) (fun i => natStr i) [str "com", str "-p"] =
    .ok (str "CAD\nEUR: 2020/01/06 1.45 CAD [1]\nUSD: 2020/01/07 1.35 CAD [2], 2020/01/06 0.9 EUR [1]\n") := ok_of_opt (by decide +kernel)

example : commoditiesMain cmdFlags comState (fun _ => []) (fun i => natStr i) [str "commodities"] =
    .ok (str "       CAD |            |   | \n       EUR |            |   | \n       USD |     USDCAD | Q | \n") := ok_of_opt (by decide +kernel)

end Verif
