import Verif.Model.TagsCmd
import Verif.Props.Tags
import Verif.Lemmas.Sort
import Verif.Lemmas.Ledger
import Mathlib.Data.List.Perm.Subperm
/-! Theorems about tag categories (C89) and the tags command (C90). -/
namespace Verif

/-! ## C89: tag categories -/

/-- The value a key has for a posting: the posting's own tags come first, then those of its transaction. -/
def effTag (t p : TagMap) (k : Str) : Option Str := (tagOf p k).or (tagOf t k)

/-- One entry per key. -/
def IsMap (m : TagMap) : Prop := (m.map (·.1)).Nodup

/-- The tags a note can give. -/
def FoundTags (m : TagMap) : Prop := IsMap m ∧ ∀ e ∈ m, TagKey e.1 ∧ FoundValue e.2

theorem tagOf_mem_iff {m : TagMap} (h : IsMap m) (k v : Str) : tagOf m k = some v ↔ (k, v) ∈ m := by
  unfold tagOf
  unfold IsMap at h
  induction m with
  | nil => simp
  | cons e m ih =>
    rw [List.map_cons, List.nodup_cons] at h
    by_cases he : e.1 = k
    · rw [List.find?_cons_of_pos (by simpa using he)]
      obtain ⟨a, b⟩ := e
      simp only at he
      subst he
      simp only [Option.map_some, Option.some.injEq, List.mem_cons, Prod.mk.injEq, true_and]
      constructor
      · intro e; exact .inl e.symm
      · rintro (e | hm)
        · exact e.symm
        · exact absurd (List.mem_map.mpr ⟨_, hm, rfl⟩) h.1
    · rw [List.find?_cons_of_neg (by simpa using he), ih h.2]
      simp only [List.mem_cons]
      constructor
      · exact .inr
      · rintro (e' | hm)
        · exact absurd (congrArg Prod.fst e').symm he
        · exact hm

theorem parseTags_found (notes : List Str) : FoundTags (parseTags notes) := by
  refine ⟨C64_keys_distinct notes, fun e he => ?_⟩
  have := (tagOf_mem_iff (C64_keys_distinct notes) e.1 e.2).mpr he
  have h := C64_tags_sound notes _ _ this
  exact ⟨h.1, h.2.1⟩

theorem putTag_isMap {m : TagMap} (h : IsMap m) (e : Str × Str) : IsMap (putTag m e) := by
  unfold IsMap putTag
  rw [List.map_cons, List.nodup_cons]
  refine ⟨?_, h.sublist (List.filter_sublist.map _)⟩
  intro hm
  obtain ⟨x, hx, hxe⟩ := List.mem_map.mp hm
  have := (List.mem_filter.mp hx).2
  simp at this
  exact this hxe

theorem tagsWith_isMap {m : TagMap} (h : IsMap m) (m2 : TagMap) : IsMap (tagsWith m m2) := by
  unfold tagsWith
  induction m2 generalizing m with
  | nil => exact h
  | cons e m2 ih => rw [List.foldl_cons]; exact ih (putTag_isMap h e)

theorem lastValue_eq {m : TagMap} (h : IsMap m) (k : Str) : lastValue m k = tagOf m k := by
  apply Option.ext
  intro v
  have hr : IsMap m.reverse := by unfold IsMap; rw [List.map_reverse]; exact List.nodup_reverse.mpr h
  have h1 := tagOf_mem_iff hr k v
  have h2 := tagOf_mem_iff h k v
  have h3 : lastValue m k = tagOf m.reverse k := rfl
  rw [h3, h1, h2, List.mem_reverse]

/-- `With`: the second map's value wins. -/
theorem tagOf_with (m : TagMap) {m2 : TagMap} (h2 : IsMap m2) (k : Str) : tagOf (tagsWith m m2) k = effTag m m2 k := by
  unfold tagsWith effTag
  rw [tagOf_foldl, lastValue_eq h2]

theorem tagsWith_found {t p : TagMap} (ht : FoundTags t) (hp : FoundTags p) : FoundTags (tagsWith t p) := by
  refine ⟨tagsWith_isMap ht.1 p, fun e he => ?_⟩
  have := (tagOf_mem_iff (tagsWith_isMap ht.1 p) e.1 e.2).mpr he
  rw [tagOf_with t hp.1] at this
  unfold effTag at this
  rcases Option.or_eq_some_iff.mp this with h | ⟨_, h⟩
  · exact hp.2 e ((tagOf_mem_iff hp.1 _ _).mp h)
  · exact ht.2 e ((tagOf_mem_iff ht.1 _ _).mp h)

/-- One item of a category: `key` or `key:value`. -/
def kvText (e : Str × Str) : Str := if e.2 = [] then e.1 else e.1 ++ ':' :: e.2

theorem keyChar_no {k : Str} (h : TagKey k) {c : Char} (hc : isKeyChar c = false) : c ∉ k := fun hm => by
  have := h.2 c hm; rw [hc] at this; cases this

/-- Cutting at the first `c`. -/
theorem cut_unique {c : Char} : ∀ {a b r s : Str}, c ∉ a → c ∉ b → a ++ c :: r = b ++ c :: s → a = b ∧ r = s
  | [], [], r, s, _, _, h => by simpa using h
  | [], y :: b, r, s, _, hb, h => by
    rw [List.nil_append, List.cons_append, List.cons.injEq] at h
    exact absurd (h.1 ▸ List.mem_cons_self : c ∈ y :: b) hb
  | x :: a, [], r, s, ha, _, h => by
    rw [List.nil_append, List.cons_append, List.cons.injEq] at h
    exact absurd (h.1.symm ▸ List.mem_cons_self : c ∈ x :: a) ha
  | x :: a, y :: b, r, s, ha, hb, h => by
    rw [List.cons_append, List.cons_append, List.cons.injEq] at h
    obtain ⟨e1, e2⟩ := cut_unique (fun hm => ha (List.mem_cons_of_mem _ hm)) (fun hm => hb (List.mem_cons_of_mem _ hm)) h.2
    exact ⟨by rw [h.1, e1], e2⟩

theorem kvText_inj {a b : Str × Str} (ha : TagKey a.1) (hb : TagKey b.1) (h : kvText a = kvText b) : a = b := by
  obtain ⟨k, v⟩ := a
  obtain ⟨k', v'⟩ := b
  unfold kvText at h
  simp only at h ha hb
  have nk := keyChar_no ha (c := ':') (by decide)
  have nk' := keyChar_no hb (c := ':') (by decide)
  by_cases hv : v = [] <;> by_cases hv' : v' = []
  · rw [if_pos hv, if_pos hv'] at h; rw [h, hv, hv']
  · rw [if_pos hv, if_neg hv'] at h
    exact absurd (h ▸ (by simp) : ':' ∈ k) nk
  · rw [if_neg hv, if_pos hv'] at h
    exact absurd (h ▸ (by simp) : ':' ∈ k') nk'
  · rw [if_neg hv, if_neg hv'] at h
    obtain ⟨e1, e2⟩ := cut_unique nk nk' h
    rw [e1, e2]

/-- Shape of an item: no comma but possibly a last one. -/
def ItemShape (x : Str) : Prop := ∃ body tail, x = body ++ tail ∧ body ≠ [] ∧ ',' ∉ body ∧ (tail = [] ∨ tail = [','])

theorem kvText_shape {e : Str × Str} (hk : TagKey e.1) (hv : FoundValue e.2) : ItemShape (kvText e) := by
  have nk := keyChar_no hk (c := ',') (by decide)
  unfold kvText
  rcases hv with h | ⟨a, z, h, ha, hc⟩
  · rw [if_pos h]; exact ⟨e.1, [], by simp, hk.1, nk, .inl rfl⟩
  · rw [if_neg (by rw [h]; simp), h]
    have hna : ',' ∉ a := fun hm => hc _ hm rfl
    by_cases hz : z = ','
    · refine ⟨e.1 ++ ':' :: a, [','], by rw [hz]; simp, by simp, ?_, .inr rfl⟩
      simp only [List.mem_append, List.mem_cons, not_or]
      exact ⟨nk, by decide, hna⟩
    · refine ⟨e.1 ++ ':' :: (a ++ [z]), [], by simp, by simp, ?_, .inl rfl⟩
      simp only [List.mem_append, List.mem_cons, not_or]
      exact ⟨nk, by decide, hna, fun e => hz e.symm, List.not_mem_nil⟩

/-- What follows an item: nothing, or a comma and something that is not a comma. -/
def ItemRest (r : Str) : Prop := r = [] ∨ ∃ c t, r = ',' :: c :: t ∧ c ≠ ','

theorem item_unique {x y r s : Str} (hx : ItemShape x) (hy : ItemShape y) (hr : ItemRest r) (hs : ItemRest s) (h : x ++ r = y ++ s) :
    x = y ∧ r = s := by
  obtain ⟨bx, tx, rfl, _, hbx, htx⟩ := hx
  obtain ⟨by_, ty, rfl, _, hby, hty⟩ := hy
  rw [List.append_assoc, List.append_assoc] at h
  have hd : ∀ {t r : Str}, (t = [] ∨ t = [',']) → ItemRest r → t ++ r = [] ∨ ∃ u, t ++ r = ',' :: u := by
    intro t r ht hr
    rcases ht with rfl | rfl
    · rcases hr with rfl | ⟨c, u, rfl, _⟩
      · exact .inl rfl
      · exact .inr ⟨_, rfl⟩
    · exact .inr ⟨_, rfl⟩
  have hb : bx = by_ ∧ tx ++ r = ty ++ s := by
    rcases hd htx hr with e1 | ⟨u, e1⟩ <;> rcases hd hty hs with e2 | ⟨w, e2⟩ <;> rw [e1, e2] at h ⊢
    · exact ⟨by simpa using h, rfl⟩
    · rw [List.append_nil] at h
      exact absurd (h ▸ (by simp) : ',' ∈ bx) hbx
    · rw [List.append_nil] at h
      exact absurd (h ▸ (by simp) : ',' ∈ by_) hby
    · obtain ⟨e, e'⟩ := cut_unique hbx hby h
      exact ⟨e, by rw [e']⟩
  clear h
  obtain ⟨rfl, h⟩ := hb
  rcases htx with rfl | rfl <;> rcases hty with rfl | rfl
  · exact ⟨rfl, by simpa using h⟩
  · rcases hr with rfl | ⟨c, u, rfl, hc⟩
    · simp at h
    · simp only [List.nil_append, List.cons_append, List.cons.injEq, true_and] at h
      rcases hs with rfl | ⟨c', u', rfl, _⟩
      · simp at h
      · rw [List.cons.injEq] at h; exact absurd h.1 hc
  · rcases hs with rfl | ⟨c, u, rfl, hc⟩
    · simp at h
    · simp only [List.nil_append, List.cons_append, List.cons.injEq, true_and] at h
      rcases hr with rfl | ⟨c', u', rfl, _⟩
      · simp at h
      · rw [List.cons.injEq] at h; exact absurd h.1.symm hc
  · exact ⟨rfl, by simpa using h⟩

theorem ItemShape.head {x : Str} (h : ItemShape x) : ∃ c t, x = c :: t ∧ c ≠ ',' := by
  obtain ⟨b, t, rfl, hb, hc, _⟩ := h
  obtain ⟨c, u, rfl⟩ := List.exists_cons_of_ne_nil hb
  exact ⟨c, u ++ t, rfl, fun e => hc (by simp [e])⟩

theorem join_inj : ∀ {l m : List Str}, (∀ x ∈ l, ItemShape x) → (∀ x ∈ m, ItemShape x) →
    joinWith (str ",") l = joinWith (str ",") m → l = m
  | [], [], _, _, _ => rfl
  | [], y :: m, _, hm, h => by
    obtain ⟨c, t, e, _⟩ := (hm y (by simp)).head
    cases m <;> simp [joinWith, e] at h
  | x :: l, [], hl, _, h => by
    obtain ⟨c, t, e, _⟩ := (hl x (by simp)).head
    cases l <;> simp [joinWith, e] at h
  | x :: l, y :: m, hl, hm, h => by
    have rest : ∀ {x : Str} {l : List Str}, (∀ z ∈ x :: l, ItemShape z) → ∃ r, ItemRest r ∧ joinWith (str ",") (x :: l) = x ++ r ∧
        (r = [] → l = []) ∧ (∀ u, r = ',' :: u → l ≠ [] ∧ u = joinWith (str ",") l) := by
      intro x l hl
      cases l with
      | nil => exact ⟨[], .inl rfl, by simp [joinWith], fun _ => rfl, fun u h => by cases h⟩
      | cons b l =>
        refine ⟨',' :: joinWith (str ",") (b :: l), .inr ?_, by simp [joinWith, str], fun h => (by cases h), fun u h => ⟨by simp, (by simpa using h.symm)⟩⟩
        obtain ⟨c, t, e, hc⟩ := (hl b (by simp)).head
        cases l with
        | nil => exact ⟨c, t, by simp [joinWith, e], hc⟩
        | cons d l => exact ⟨c, _, by simp [joinWith, e]; rfl, hc⟩
    obtain ⟨r, hr, e1, h1, h2⟩ := rest hl
    obtain ⟨s, hs, e2, h3, h4⟩ := rest hm
    rw [e1, e2] at h
    obtain ⟨rfl, rfl⟩ := item_unique (hl x (by simp)) (hm y (by simp)) hr hs h
    rcases hr with rfl | ⟨c, t, rfl, _⟩
    · rw [h1 rfl, h3 rfl]
    · obtain ⟨_, g1⟩ := h2 _ rfl
      obtain ⟨_, g2⟩ := h4 _ rfl
      rw [join_inj (fun z hz => hl z (by simp [hz])) (fun z hz => hm z (by simp [hz])) (g1.symm.trans g2)]

theorem tagKVs_perm (m : TagMap) : (tagKVs m).Perm (m.map kvText) := stableSort_perm _ _

theorem tagKVs_eq {m m' : TagMap} (h : ∀ k, tagOf m k = tagOf m' k) (hm : IsMap m) (hm' : IsMap m') : tagKVs m = tagKVs m' := by
  have hmem : ∀ e, e ∈ m ↔ e ∈ m' := by
    intro e
    rw [← tagOf_mem_iff hm e.1 e.2, ← tagOf_mem_iff hm' e.1 e.2, h]
  have hp : m.Perm m' := (List.perm_ext_iff_of_nodup (List.Nodup.of_map _ hm) (List.Nodup.of_map _ hm')).mpr hmem
  refine sorted_perm_unique strLt (fun a b => strLt_total a b) _ _ ?_ (stableSort_sorted _ strLt_strictWeak _) (stableSort_sorted _ strLt_strictWeak _)
  exact (tagKVs_perm m).trans ((hp.map _).trans (tagKVs_perm m').symm)

theorem tagKVs_inj {m m' : TagMap} (hm : FoundTags m) (hm' : FoundTags m') (h : tagKVs m = tagKVs m') (k : Str) : tagOf m k = tagOf m' k := by
  have hp : (m.map kvText).Perm (m'.map kvText) := (tagKVs_perm m).symm.trans (h ▸ tagKVs_perm m')
  have sub : ∀ {m m' : TagMap}, FoundTags m → FoundTags m' → (m.map kvText).Perm (m'.map kvText) → ∀ e ∈ m, e ∈ m' := by
    intro m m' hm hm' hp e he
    obtain ⟨e', h', ee⟩ := List.mem_map.mp (hp.mem_iff.mp (List.mem_map.mpr ⟨e, he, rfl⟩))
    rw [← kvText_inj (hm'.2 e' h').1 (hm.2 e he).1 ee]
    exact h'
  apply Option.ext
  intro v
  rw [tagOf_mem_iff hm.1, tagOf_mem_iff hm'.1]
  exact ⟨sub hm hm' hp _, sub hm' hm hp.symm _⟩

theorem tagCategory_ne {t p : TagMap} (h : FoundTags (tagsWith t p)) (hne : tagsWith t p ≠ []) :
    joinWith (str ",") (tagKVs (tagsWith t p)) ≠ str "<no-tags>" := by
  intro e
  have hperm := tagKVs_perm (tagsWith t p)
  cases hk : tagKVs (tagsWith t p) with
  | nil => rw [hk] at hperm; exact hne (List.map_eq_nil_iff.mp (List.nil_perm.mp hperm))
  | cons x l =>
    obtain ⟨⟨k, v⟩, hm, ex⟩ := List.mem_map.mp (hperm.mem_iff.mp (by rw [hk]; simp : x ∈ _))
    have hkey := (h.2 _ hm).1
    simp only at hkey
    obtain ⟨c, u, rfl⟩ := List.exists_cons_of_ne_nil hkey.1
    have hc := hkey.2 c (by simp)
    have hx : ∃ w, x = c :: w := by
      rw [← ex]; unfold kvText
      by_cases hv : v = []
      · exact ⟨u, by simp [hv]⟩
      · exact ⟨u ++ ':' :: v, by simp [hv]⟩
    obtain ⟨w, rfl⟩ := hx
    rw [hk] at e
    have : c = '<' := by cases l <;> · simp [joinWith, str] at e; exact e.1
    rw [this] at hc
    exact absurd hc (by decide)

/-- **C89** Postings fall into the same tag category exactly if every key has the same value for both (the posting's own tags override
those of its transaction), whatever the order in which tags are written or the maps are visited. -/
theorem C89_same_category (t p t' p' : TagMap) (ht : FoundTags t) (hp : FoundTags p) (ht' : FoundTags t') (hp' : FoundTags p') :
    tagCategory t p = tagCategory t' p' ↔ ∀ k, effTag t p k = effTag t' p' k := by
  have f := tagsWith_found ht hp
  have f' := tagsWith_found ht' hp'
  have key : (∀ k, effTag t p k = effTag t' p' k) ↔ tagKVs (tagsWith t p) = tagKVs (tagsWith t' p') := by
    constructor
    · intro h
      refine tagKVs_eq (fun k => ?_) f.1 f'.1
      rw [tagOf_with t hp.1, tagOf_with t' hp'.1, h]
    · intro h k
      rw [← tagOf_with t hp.1, ← tagOf_with t' hp'.1]
      exact tagKVs_inj f f' h k
  have shape : ∀ {m : TagMap}, FoundTags m → ∀ x ∈ tagKVs m, ItemShape x := by
    intro m hm x hx
    obtain ⟨e, he, rfl⟩ := List.mem_map.mp ((tagKVs_perm m).mem_iff.mp hx)
    exact kvText_shape (hm.2 e he).1 (hm.2 e he).2
  have nilIff : ∀ {m : TagMap}, tagKVs m = [] ↔ m = [] := by
    intro m
    constructor
    · intro h
      have := tagKVs_perm m
      rw [h] at this
      exact List.map_eq_nil_iff.mp (List.nil_perm.mp this)
    · rintro rfl; rfl
  rw [key]
  unfold tagCategory
  simp only
  by_cases h1 : tagsWith t p = [] <;> by_cases h2 : tagsWith t' p' = []
  · rw [if_pos h1, if_pos h2, h1, h2]; simp
  · rw [if_pos h1, if_neg h2]
    constructor
    · intro e; exact absurd e.symm (tagCategory_ne f' h2)
    · intro e; rw [h1] at e; exact absurd (nilIff.mp e.symm) h2
  · rw [if_neg h1, if_pos h2]
    constructor
    · intro e; exact absurd e (tagCategory_ne f h1)
    · intro e; rw [h2] at e; exact absurd (nilIff.mp e) h1
  · rw [if_neg h1, if_neg h2]
    constructor
    · exact join_inj (shape f) (shape f')
    · intro e; rw [e]

/-- The name of the category: "<no-tags>" if there are no tags, otherwise the tags `key` or `key:value`, each once, in increasing order,
separated by commas. -/
theorem C89_category_name (t p : TagMap) (ht : IsMap t) (hp : IsMap p) :
    (t = [] ∧ p = [] ∧ tagCategory t p = str "<no-tags>") ∨
    (∃ l, l ≠ [] ∧ tagCategory t p = joinWith (str ",") l ∧ l.Pairwise (fun x y => strLt y x = false) ∧
      ∃ kvs : TagMap, l.Perm (kvs.map (fun e : Str × Str => if e.2 = [] then e.1 else e.1 ++ ':' :: e.2)) ∧ (kvs.map (·.1)).Nodup ∧
        ∀ k v, (k, v) ∈ kvs ↔ effTag t p k = some v) := by
  by_cases h : tagsWith t p = []
  · left
    have hn : ∀ k, effTag t p k = none := fun k => by rw [← tagOf_with t hp, h]; rfl
    have hnil : ∀ {m : TagMap}, IsMap m → (∀ k, tagOf m k = none) → m = [] := by
      intro m hm hk
      cases m with
      | nil => rfl
      | cons e m => have := (tagOf_mem_iff hm e.1 e.2).mpr (by simp); rw [hk] at this; cases this
    refine ⟨hnil ht fun k => ?_, hnil hp fun k => ?_, by unfold tagCategory; simp [h]⟩
    · have := hn k; unfold effTag at this; exact (Option.or_eq_none_iff.mp this).2
    · have := hn k; unfold effTag at this; exact (Option.or_eq_none_iff.mp this).1
  · right
    have hm := tagsWith_isMap ht p
    refine ⟨tagKVs (tagsWith t p), ?_, by unfold tagCategory; simp [h], stableSort_sorted _ strLt_strictWeak _, tagsWith t p, tagKVs_perm _, hm, ?_⟩
    · intro e
      have := tagKVs_perm (tagsWith t p)
      rw [e] at this
      exact h (List.map_eq_nil_iff.mp (List.nil_perm.mp this))
    · intro k v
      rw [← tagOf_with t hp, tagOf_mem_iff hm]

/-- The tags read from notes meet the hypotheses. -/
theorem C89_from_notes (tn pn tn' pn' : List Str) :
    tagCategory (parseTags tn) (parseTags pn) = tagCategory (parseTags tn') (parseTags pn') ↔
      ∀ k, effTag (parseTags tn) (parseTags pn) k = effTag (parseTags tn') (parseTags pn') k :=
  C89_same_category _ _ _ _ (parseTags_found tn) (parseTags_found pn) (parseTags_found tn') (parseTags_found pn')

/-- Non-vacuity: an overridden value; the same category from different notes; a different category. -/
example : tagCategory (parseTags [str "#trip: Rome, #vip"]) (parseTags [str "#trip: Oslo"]) = str "trip:Oslo,vip" := by decide +kernel
example : tagCategory (parseTags [str "#trip: Rome, #vip"]) (parseTags [str "#trip: Oslo"]) = tagCategory (parseTags []) (parseTags [str "#vip", str "#trip: Oslo"]) := by decide +kernel

/-! ## C90: the tags command -/

/-- The values given to the key, in the order of the ledger: of each transaction first those of its postings, then its own. -/
def valuesGiven (txns : List TaggedTxn) (k : Str) : List Str :=
  txns.flatMap (fun t => t.posts.filterMap (fun p => tagOf p.1 k) ++ (tagOf t.tags k).toList)

/-- The accounts where a key is used: those of the postings that carry it, and all accounts of a transaction that carries it. -/
def accountsUsing (txns : List TaggedTxn) (k : Str) : List Str :=
  txns.flatMap (fun t => (t.posts.filter (fun p => (tagOf p.1 k).isSome)).map (·.2) ++
    (if (tagOf t.tags k).isSome then t.posts.map (·.2) else []))

/-- Each element once, at its first occurrence. -/
def firstOnce : List Str → List Str
  | [] => []
  | a :: l => a :: (firstOnce l).filter (fun b => decide (b ≠ a))

/-- In strictly increasing order. -/
def Increasing (l : List Str) : Prop := l.Pairwise (fun x y => strLt x y = true)

/-- The text for a key with its non-empty values and its accounts. -/
def tagEntry (fValues fAccounts : Bool) (k : Str) (vals accounts : List Str) : Str :=
  (match vals with
   | [] => k ++ ['\n']
   | _ => if fValues then k ++ str ": \"" ++ joinWith (str "\", \"") vals ++ str "\"\n" else k ++ str ":\n") ++
  (if fAccounts then accounts.flatMap (fun a => '\t' :: a ++ ['\n']) else [])

theorem multiGet_set (m : Multi) (k : Str) (l : List Str) (k' : Str) : multiGet (multiSet m k l) k' = if k = k' then l else multiGet m k' := by
  unfold multiGet
  induction m with
  | nil => by_cases h : k = k' <;> simp [multiSet, h]
  | cons e m ih =>
    rw [multiSet]
    by_cases he : e.1 = k
    · rw [if_pos he]
      by_cases h : k = k'
      · simp [h]
      · have : ¬ e.1 = k' := fun x => h (he.symm.trans x)
        simp [h, this]
    · rw [if_neg he]
      by_cases h : e.1 = k'
      · have : ¬ k = k' := fun x => he (h.trans x.symm)
        simp [h, this]
      · rw [List.find?_cons_of_neg (by simpa using h), List.find?_cons_of_neg (by simpa using h)]
        exact ih

theorem multiSet_keys (m : Multi) (k : Str) (l : List Str) : (multiSet m k l).map (·.1) = if k ∈ m.map (·.1) then m.map (·.1) else m.map (·.1) ++ [k] := by
  induction m with
  | nil => rfl
  | cons e m ih =>
    rw [multiSet]
    by_cases he : e.1 = k
    · rw [if_pos he]; simp [he]
    · rw [if_neg he, List.map_cons, ih]
      by_cases h : k ∈ m.map (·.1)
      · simp [h]
      · have : ¬ k = e.1 := fun x => he x.symm
        simp only [List.map_cons, List.mem_cons, this, h, or_self, if_false, List.cons_append]

/-- One entry per key, none empty. -/
def MultiOk (m : Multi) : Prop := (m.map (·.1)).Nodup ∧ ∀ e ∈ m, e.2 ≠ [] ∧ e.2.Nodup

theorem multiSet_ok {m : Multi} (h : MultiOk m) (k : Str) (l : List Str) (hl : l ≠ []) (hd : l.Nodup) : MultiOk (multiSet m k l) := by
  refine ⟨?_, ?_⟩
  · rw [multiSet_keys]
    by_cases hk : k ∈ m.map (·.1)
    · rw [if_pos hk]; exact h.1
    · rw [if_neg hk]
      exact List.nodup_append.mpr ⟨h.1, by simp, fun a ha b hb => by
        simp only [List.mem_singleton] at hb; subst hb; exact fun e => hk (e ▸ ha)⟩
  · have : ∀ e ∈ multiSet m k l, e ∈ m ∨ e = (k, l) := by
      clear h
      induction m with
      | nil => intro e he; simp [multiSet] at he; exact .inr he
      | cons x m ih =>
        intro e he
        rw [multiSet] at he
        by_cases hx : x.1 = k
        · rw [if_pos hx] at he
          rcases List.mem_cons.mp he with rfl | he
          · exact .inr rfl
          · exact .inl (by simp [he])
        · rw [if_neg hx] at he
          rcases List.mem_cons.mp he with rfl | he
          · exact .inl (by simp)
          · rcases ih e he with h | h
            · exact .inl (by simp [h])
            · exact .inr h
    intro e he
    rcases this e he with h' | rfl
    · exact h.2 e h'
    · exact ⟨hl, hd⟩

theorem addOnce_ne (l : List Str) (k : Str) : addOnce l k ≠ [] := by
  unfold addOnce
  by_cases h : k ∈ l
  · rw [if_pos h]; intro e; rw [e] at h; cases h
  · rw [if_neg h]; simp

theorem addOnce_nodup {l : List Str} (h : l.Nodup) (k : Str) : (addOnce l k).Nodup := by
  unfold addOnce
  by_cases hk : k ∈ l
  · rw [if_pos hk]; exact h
  · rw [if_neg hk]
    exact List.nodup_append.mpr ⟨h, by simp, fun a ha b hb => by
      simp only [List.mem_singleton] at hb; subst hb; exact fun e => hk (e ▸ ha)⟩

theorem multiGet_nodup {m : Multi} (h : MultiOk m) (k : Str) : (multiGet m k).Nodup := by
  unfold multiGet
  cases hf : m.find? (fun e => decide (e.1 = k)) with
  | none => simp
  | some e => exact (h.2 e (List.mem_of_find?_eq_some hf)).2

theorem multiGet_ne {m : Multi} (h : MultiOk m) (k : Str) : k ∈ m.map (·.1) ↔ multiGet m k ≠ [] := by
  unfold multiGet
  cases hf : m.find? (fun e => decide (e.1 = k)) with
  | none =>
    simp only [ne_eq, not_true, iff_false]
    intro hk
    obtain ⟨e, he, hek⟩ := List.mem_map.mp hk
    have := List.find?_eq_none.mp hf e he
    exact this (by simpa using hek)
  | some e =>
    have hm := List.mem_of_find?_eq_some hf
    have := List.find?_some hf
    simp only [decide_eq_true_eq] at this
    exact ⟨fun _ => (h.2 e hm).1, fun _ => List.mem_map.mpr ⟨e, hm, this⟩⟩

/-- Whether the expression selects a key. -/
def selects (nrex : Option (Str → Bool)) (k : Str) : Bool := match nrex with | none => true | some m => m k

theorem collectKey_eq (nrex : Option (Str → Bool)) (fA : Bool) (accounts : List Str) (st : TagsState) (e : Str × Str) :
    collectKey nrex fA accounts st e = if selects nrex e.1 then
      ⟨multiSet st.results e.1 (addOnce (multiGet st.results e.1) e.2),
        if fA then multiSet st.accounts e.1 (accounts.foldl addOnce (multiGet st.accounts e.1)) else st.accounts⟩ else st := by
  unfold collectKey selects
  cases nrex <;> cases fA <;> rfl

theorem collectKeys_ok {nrex : Option (Str → Bool)} {fA : Bool} {st : TagsState} (h : MultiOk st.results) (tags : TagMap) (accounts : List Str) :
    MultiOk (collectKeys nrex fA st tags accounts).results := by
  unfold collectKeys
  induction tags generalizing st with
  | nil => exact h
  | cons e tags ih =>
    rw [List.foldl_cons]
    apply ih
    rw [collectKey_eq]
    by_cases hs : selects nrex e.1 = true
    · rw [if_pos hs]; exact multiSet_ok h _ _ (addOnce_ne _ _) (addOnce_nodup (multiGet_nodup h _) _)
    · rw [if_neg hs]; exact h

theorem tagOf_cons (e : Str × Str) (m : TagMap) (k : Str) : tagOf (e :: m) k = if e.1 = k then some e.2 else tagOf m k := by
  unfold tagOf
  by_cases h : e.1 = k
  · simp [h]
  · simp [h]

theorem tagOf_absent {m : TagMap} {k : Str} (h : k ∉ m.map (·.1)) : tagOf m k = none := by
  unfold tagOf
  rw [Option.map_eq_none_iff, List.find?_eq_none]
  intro e he
  simp only [decide_eq_true_eq]
  exact fun x => h (List.mem_map.mpr ⟨e, he, x⟩)

theorem collectKeys_results (nrex : Option (Str → Bool)) (fA : Bool) (st : TagsState) {tags : TagMap} (h : IsMap tags) (accounts : List Str) (k : Str)
    (hk : selects nrex k = true) :
    multiGet (collectKeys nrex fA st tags accounts).results k = (tagOf tags k).toList.foldl addOnce (multiGet st.results k) := by
  unfold collectKeys
  induction tags generalizing st with
  | nil => rfl
  | cons e tags ih =>
    unfold IsMap at h
    rw [List.map_cons, List.nodup_cons] at h
    rw [List.foldl_cons, ih _ h.2, tagOf_cons, collectKey_eq]
    by_cases he : e.1 = k
    · subst he
      rw [if_pos hk, tagOf_absent h.1, if_pos rfl]
      simp [multiGet_set]
    · rw [if_neg he]
      by_cases hs : selects nrex e.1 = true
      · rw [if_pos hs, multiGet_set, if_neg he]
      · rw [if_neg hs]

theorem collectKeys_unselected (nrex : Option (Str → Bool)) (fA : Bool) (st : TagsState) (tags : TagMap) (accounts : List Str) (k : Str)
    (hk : selects nrex k = false) : multiGet (collectKeys nrex fA st tags accounts).results k = multiGet st.results k := by
  unfold collectKeys
  induction tags generalizing st with
  | nil => rfl
  | cons e tags ih =>
    rw [List.foldl_cons, ih, collectKey_eq]
    by_cases hs : selects nrex e.1 = true
    · rw [if_pos hs, multiGet_set, if_neg]
      intro he; rw [he, hk] at hs; cases hs
    · rw [if_neg hs]

theorem collectKeys_accounts (nrex : Option (Str → Bool)) (st : TagsState) {tags : TagMap} (h : IsMap tags) (accounts : List Str) (k : Str)
    (hk : selects nrex k = true) :
    multiGet (collectKeys nrex true st tags accounts).accounts k =
      (if (tagOf tags k).isSome then accounts else []).foldl addOnce (multiGet st.accounts k) := by
  unfold collectKeys
  induction tags generalizing st with
  | nil => rfl
  | cons e tags ih =>
    unfold IsMap at h
    rw [List.map_cons, List.nodup_cons] at h
    rw [List.foldl_cons, ih _ h.2, tagOf_cons, collectKey_eq]
    by_cases he : e.1 = k
    · subst he
      rw [if_pos hk, tagOf_absent h.1, if_pos rfl]
      simp [multiGet_set]
    · rw [if_neg he]
      by_cases hs : selects nrex e.1 = true
      · rw [if_pos hs]; simp only [if_true]; rw [multiGet_set, if_neg he]
      · rw [if_neg hs]

/-- All tag maps of a transaction have one entry per key. -/
def TaggedTxn.Ok (t : TaggedTxn) : Prop := IsMap t.tags ∧ ∀ p ∈ t.posts, IsMap p.1

theorem collectTxn_ok {nrex : Option (Str → Bool)} {fA : Bool} {st : TagsState} (h : MultiOk st.results) (t : TaggedTxn) :
    MultiOk (collectTxn nrex fA st t).results := by
  unfold collectTxn
  refine collectKeys_ok ?_ _ _
  induction t.posts generalizing st with
  | nil => exact h
  | cons p ps ih => rw [List.foldl_cons]; exact ih (collectKeys_ok h _ _)

theorem collectTxn_results (nrex : Option (Str → Bool)) (fA : Bool) (st : TagsState) {t : TaggedTxn} (h : t.Ok) (k : Str) (hk : selects nrex k = true) :
    multiGet (collectTxn nrex fA st t).results k = (valuesGiven [t] k).foldl addOnce (multiGet st.results k) := by
  unfold collectTxn valuesGiven
  rw [collectKeys_results _ _ _ h.1 _ _ hk, List.flatMap_cons, List.flatMap_nil, List.append_nil, List.foldl_append]
  congr 1
  have h2 := h.2
  generalize t.posts = ps at h2
  induction ps generalizing st with
  | nil => rfl
  | cons p ps ih =>
    rw [List.foldl_cons, ih _ (fun q hq => h2 q (by simp [hq])), collectKeys_results _ _ _ (h2 p (by simp)) _ _ hk]
    cases ht : tagOf p.1 k <;> simp [List.filterMap_cons, ht]

theorem collectTxn_unselected (nrex : Option (Str → Bool)) (fA : Bool) (st : TagsState) (t : TaggedTxn) (k : Str) (hk : selects nrex k = false) :
    multiGet (collectTxn nrex fA st t).results k = multiGet st.results k := by
  unfold collectTxn
  rw [collectKeys_unselected _ _ _ _ _ _ hk]
  generalize t.posts = ps
  induction ps generalizing st with
  | nil => rfl
  | cons p ps ih => rw [List.foldl_cons, ih, collectKeys_unselected _ _ _ _ _ _ hk]

theorem collectTxn_accounts (nrex : Option (Str → Bool)) (st : TagsState) {t : TaggedTxn} (h : t.Ok) (k : Str) (hk : selects nrex k = true) :
    multiGet (collectTxn nrex true st t).accounts k = (accountsUsing [t] k).foldl addOnce (multiGet st.accounts k) := by
  unfold collectTxn accountsUsing
  rw [collectKeys_accounts _ _ h.1 _ _ hk, List.flatMap_cons, List.flatMap_nil, List.append_nil, List.foldl_append]
  have e : multiGet (List.foldl (fun st p => collectKeys nrex true st p.1 [p.2]) st t.posts).accounts k =
      List.foldl addOnce (multiGet st.accounts k) (List.map (·.2) (List.filter (fun p => (tagOf p.1 k).isSome) t.posts)) := by
    have h2 := h.2
    generalize t.posts = ps at h2
    induction ps generalizing st with
    | nil => rfl
    | cons p ps ih =>
      rw [List.foldl_cons, ih _ (fun q hq => h2 q (by simp [hq])), collectKeys_accounts _ _ (h2 p (by simp)) _ _ hk]
      cases ht : tagOf p.1 k <;> simp [List.filter_cons, ht]
  rw [e]
  simp only [if_true]

theorem collectAll (nrex : Option (Str → Bool)) (fA : Bool) (txns : List TaggedTxn) (h : ∀ t ∈ txns, t.Ok) (st : TagsState) (hst : MultiOk st.results) :
    MultiOk (txns.foldl (collectTxn nrex fA) st).results ∧
    (∀ k, selects nrex k = true → multiGet (txns.foldl (collectTxn nrex fA) st).results k = (valuesGiven txns k).foldl addOnce (multiGet st.results k)) ∧
    (∀ k, selects nrex k = false → multiGet (txns.foldl (collectTxn nrex fA) st).results k = multiGet st.results k) ∧
    (fA = true → ∀ k, selects nrex k = true →
      multiGet (txns.foldl (collectTxn nrex fA) st).accounts k = (accountsUsing txns k).foldl addOnce (multiGet st.accounts k)) := by
  induction txns generalizing st with
  | nil => exact ⟨hst, fun _ _ => rfl, fun _ _ => rfl, fun _ _ _ => rfl⟩
  | cons t txns ih =>
    obtain ⟨i1, i2, i3, i4⟩ := ih (fun x hx => h x (by simp [hx])) (collectTxn nrex fA st t) (collectTxn_ok hst t)
    have ht := h t (by simp)
    rw [List.foldl_cons]
    refine ⟨i1, fun k hk => ?_, fun k hk => ?_, fun hf k hk => ?_⟩
    · rw [i2 k hk, collectTxn_results _ _ _ ht _ hk, ← List.foldl_append]
      unfold valuesGiven
      rw [List.flatMap_cons, List.flatMap_cons, List.flatMap_nil, List.append_nil]
    · rw [i3 k hk, collectTxn_unselected _ _ _ _ _ hk]
    · subst hf
      rw [i4 rfl k hk, collectTxn_accounts _ _ ht _ hk, ← List.foldl_append]
      unfold accountsUsing
      rw [List.flatMap_cons, List.flatMap_cons, List.flatMap_nil, List.append_nil]

theorem foldl_addOnce : ∀ (l acc : List Str), l.foldl addOnce acc = acc ++ (firstOnce l).filter (fun b => decide (b ∉ acc))
  | [], acc => by simp [firstOnce]
  | a :: l, acc => by
    rw [List.foldl_cons, foldl_addOnce l, firstOnce]
    unfold addOnce
    by_cases h : a ∈ acc
    · rw [if_pos h, List.filter_cons_of_neg (by simpa using h), List.filter_filter]
      congr 1
      apply List.filter_congr
      intro b _
      by_cases hb : b ∈ acc
      · simp [hb]
      · have : b ≠ a := fun e => hb (e ▸ h)
        simp [hb, this]
    · rw [if_neg h, List.filter_cons_of_pos (by simpa using h), List.append_assoc, List.singleton_append, List.filter_filter]
      congr 2
      apply List.filter_congr
      intro b _
      by_cases hb : b = a
      · subst hb; simp
      · simp [hb]

theorem firstOnce_mem (l : List Str) (a : Str) : a ∈ firstOnce l ↔ a ∈ l := by
  induction l with
  | nil => rfl
  | cons b l ih =>
    rw [firstOnce, List.mem_cons, List.mem_filter, ih, List.mem_cons]
    by_cases h : a = b <;> simp [h]

theorem increasing_of_sorted {l : List Str} (hd : l.Nodup) (hs : l.Pairwise (fun x y => strLt y x = false)) : Increasing l := by
  unfold Increasing
  have := hd.and hs
  refine List.Pairwise.imp ?_ this
  intro a b hab
  cases h : strLt a b with
  | true => rfl
  | false => exact absurd (strLt_total a b h hab.2) hab.1

theorem cleanValues_spec {l : List Str} (hne : l ≠ []) (hd : l.Nodup) :
    ∃ vs, cleanValues l = .ok vs ∧ Increasing vs ∧ ∀ v, v ∈ vs ↔ v ≠ [] ∧ v ∈ l := by
  have hp : (sortStrings l).Perm l := stableSort_perm _ _
  have hs : (sortStrings l).Pairwise (fun x y => strLt y x = false) := stableSort_sorted _ strLt_strictWeak _
  have hi := increasing_of_sorted (hp.nodup_iff.mpr hd) hs
  unfold cleanValues
  cases h : sortStrings l with
  | nil => rw [h] at hp; exact absurd (List.nil_perm.mp hp) hne
  | cons v vs =>
    rw [h] at hi hp
    unfold Increasing at hi
    rw [List.pairwise_cons] at hi
    by_cases hv : v = []
    · refine ⟨vs, by simp [hv], hi.2, fun w => ?_⟩
      rw [← hp.mem_iff, List.mem_cons]
      constructor
      · intro hw
        refine ⟨fun e => ?_, .inr hw⟩
        have := hi.1 w hw
        rw [e, hv] at this; exact absurd this (by decide)
      · rintro ⟨h1, h2 | h2⟩
        · exact absurd (h2.trans hv) h1
        · exact h2
    · refine ⟨v :: vs, by simp [hv], ?_, fun w => ?_⟩
      · unfold Increasing; rw [List.pairwise_cons]; exact hi
      · rw [hp.mem_iff]
        refine ⟨fun hw => ⟨fun e => ?_, hw⟩, fun h => h.2⟩
        rw [← hp.mem_iff, e, List.mem_cons] at hw
        rcases hw with hw | hw
        · exact hv hw.symm
        · have := hi.1 [] hw
          cases v <;> simp [strLt] at this

theorem join_nil_iff {l : List Str} (h : ∀ v ∈ l, v ≠ []) (sep : Str) : joinWith sep l = [] ↔ l = [] := by
  cases l with
  | nil => simp [joinWith]
  | cons v l =>
    have := h v (by simp)
    cases l <;> simp [joinWith, this]

/-- **C90** The tags command never fails and lists every key that is used and selected, once, in increasing order; for each key its
distinct non-empty values in increasing order and its accounts in the order of first use. `ord` is the order in which the map of results
is visited. -/
theorem C90_tags_listing (nrex : Option (Str → Bool)) (fValues fAccounts : Bool) (ord : List Str → List Str) (hord : ∀ l, (ord l).Perm l)
    (txns : List TaggedTxn) (h : ∀ t ∈ txns, t.Ok) :
    ∃ (keys : List Str) (vals : Str → List Str), Increasing keys ∧ (∀ k, k ∈ keys ↔ selects nrex k = true ∧ valuesGiven txns k ≠ []) ∧
      (∀ k ∈ keys, Increasing (vals k) ∧ ∀ v, v ∈ vals k ↔ v ≠ [] ∧ v ∈ valuesGiven txns k) ∧
      tagsExecute nrex fValues fAccounts ord txns =
        .ok (keys.flatMap (fun k => tagEntry fValues fAccounts k (vals k) (firstOnce (accountsUsing txns k)))) := by
  obtain ⟨i1, i2, i3, i4⟩ := collectAll nrex fAccounts txns h ⟨[], []⟩ ⟨by simp, by simp⟩
  unfold tagsExecute
  generalize hst : txns.foldl (collectTxn nrex fAccounts) ⟨[], []⟩ = st at i1 i2 i3 i4
  simp only
  have i2' : ∀ k, selects nrex k = true → multiGet st.results k = firstOnce (valuesGiven txns k) := by
    intro k hk
    rw [i2 k hk, foldl_addOnce]
    have : multiGet ([] : Multi) k = [] := rfl
    rw [this]
    simp
  have i3' : ∀ k, selects nrex k = false → multiGet st.results k = [] := fun k hk => i3 k hk
  have hclean : ∀ e ∈ st.results, ∃ vs, cleanValues e.2 = .ok vs ∧ Increasing vs ∧ ∀ v, v ∈ vs ↔ v ≠ [] ∧ v ∈ e.2 :=
    fun e he => cleanValues_spec (i1.2 e he).1 (i1.2 e he).2
  obtain ⟨m', hm'⟩ := mapM_total (fun e : Str × List Str => (cleanValues e.2).map (fun l => (e.1, l))) st.results (fun e he => by
    obtain ⟨vs, e1, _⟩ := hclean e he
    exact ⟨(e.1, vs), by rw [e1]; rfl⟩)
  have hf := (mapM_ok _ _ _).mp hm'
  have hrel : List.Forall₂ (fun (e e' : Str × List Str) => e'.1 = e.1 ∧ Increasing e'.2 ∧ ∀ v, v ∈ e'.2 ↔ v ≠ [] ∧ v ∈ e.2) st.results m' := by
    clear hm' i1 i2 i3 i4 i2' i3' hst
    revert hclean hf
    generalize st.results = r
    intro hclean hf
    induction hf with
    | nil => exact .nil
    | @cons e e' l l' h1 _ ih =>
      refine .cons ?_ (ih (fun x hx => hclean x (by simp [hx])))
      obtain ⟨vs, e1, e2, e3⟩ := hclean e (by simp)
      rw [e1] at h1
      cases h1
      exact ⟨rfl, e2, e3⟩
  have hkeys : m'.map (·.1) = st.results.map (·.1) := by
    clear hm' hf hclean
    revert hrel
    generalize st.results = r
    intro hrel
    induction hrel with
    | nil => rfl
    | cons h1 _ ih => rw [List.map_cons, List.map_cons, h1.1, ih]
  have hget : ∀ k, k ∈ m'.map (·.1) → Increasing (multiGet m' k) ∧ ∀ v, v ∈ multiGet m' k ↔ v ≠ [] ∧ v ∈ multiGet st.results k := by
    intro k
    clear hm' hf hclean hkeys
    revert hrel
    generalize st.results = r
    intro hrel
    unfold multiGet
    induction hrel with
    | nil => intro hk; cases hk
    | @cons e e' l l' h1 _ ih =>
      intro hk
      by_cases he : e.1 = k
      · rw [List.find?_cons_of_pos (by simpa [h1.1] using he), List.find?_cons_of_pos (by simpa using he)]
        exact h1.2
      · rw [List.find?_cons_of_neg (by simpa [h1.1] using he), List.find?_cons_of_neg (by simpa using he)]
        apply ih
        rw [List.map_cons, List.mem_cons] at hk
        rcases hk with hk | hk
        · exact absurd (hk.trans h1.1).symm he
        · exact hk
  unfold sortAndClean
  rw [hm']
  have hks : (sortStrings (ord (m'.map (·.1)))).Perm (st.results.map (·.1)) := by
    rw [← hkeys]; exact (stableSort_perm _ _).trans (hord _)
  have hmem : ∀ k, k ∈ sortStrings (ord (m'.map (·.1))) ↔ selects nrex k = true ∧ valuesGiven txns k ≠ [] := by
    intro k
    rw [hks.mem_iff, multiGet_ne i1]
    cases hk : selects nrex k with
    | false => rw [i3' k hk]; simp
    | true =>
      rw [i2' k hk]
      simp only [true_and]
      constructor
      · intro h1 h2; rw [h2] at h1; exact h1 rfl
      · intro h1 h2
        obtain ⟨a, ha⟩ := List.exists_mem_of_ne_nil _ h1
        have := (firstOnce_mem _ a).mpr ha
        rw [h2] at this; cases this
  have hvals : ∀ k ∈ sortStrings (ord (m'.map (·.1))), Increasing (multiGet m' k) ∧ ∀ v, v ∈ multiGet m' k ↔ v ≠ [] ∧ v ∈ valuesGiven txns k := by
    intro k hk
    have h1 := hget k (by rw [hkeys]; exact hks.mem_iff.mp hk)
    refine ⟨h1.1, fun v => ?_⟩
    rw [h1.2, i2' k ((hmem k).mp hk).1, firstOnce_mem]
  refine ⟨sortStrings (ord (m'.map (·.1))), multiGet m', ?_, hmem, hvals, ?_⟩
  · exact increasing_of_sorted (hks.nodup_iff.mpr i1.1) (stableSort_sorted _ strLt_strictWeak _)
  · show Except.ok _ = Except.ok _
    congr 1
    have cg : ∀ {l : List Str} {f g : Str → Str}, (∀ k ∈ l, f k = g k) → l.flatMap f = l.flatMap g := by
      intro l f g hfg
      induction l with
      | nil => rfl
      | cons a l ih => rw [List.flatMap_cons, List.flatMap_cons, hfg a (by simp), ih (fun k hk => hfg k (by simp [hk]))]
    apply cg
    intro k hk
    have hv := (hvals k hk).2
    have hne : ∀ v ∈ multiGet m' k, v ≠ [] := fun v hv' => ((hv v).mp hv').1
    have hacc : fAccounts = true → multiGet st.accounts k = firstOnce (accountsUsing txns k) := by
      intro hf'
      rw [i4 hf' k ((hmem k).mp hk).1, foldl_addOnce]
      have : multiGet ([] : Multi) k = [] := rfl
      rw [this]
      simp
    unfold tagsKeyText tagEntry
    simp only
    have hj := join_nil_iff hne (str "\", \"")
    congr 1
    · cases hg : multiGet m' k with
      | nil => simp [joinWith, str]
      | cons a l =>
        rw [hg] at hj
        have : joinWith (str "\", \"") (a :: l) ≠ [] := fun e => by cases hj.mp e
        rw [if_neg this]
        cases fValues
        · show k ++ str ":" ++ str "\n" = k ++ str ":\n"
          have e : str ":\n" = str ":" ++ str "\n" := rfl
          rw [e, List.append_assoc]
        · simp only [Bool.true_and, decide_eq_false this, Bool.not_false, if_true]
          have e : str ": \"" = str ":" ++ str " \"" := rfl
          rw [e]
          simp only [List.append_assoc]
    · cases fAccounts
      · rfl
      · rw [hacc rfl]

theorem increasing_ext : ∀ {l m : List Str}, Increasing l → Increasing m → (∀ a, a ∈ l ↔ a ∈ m) → l = m := by
  intro l m hl hm h
  have nd : ∀ {l : List Str}, Increasing l → l.Nodup := by
    intro l hl
    refine List.Pairwise.imp ?_ hl
    intro a b hab e
    rw [e, strLt_irrefl] at hab; cases hab
  have sd : ∀ {l : List Str}, Increasing l → l.Pairwise (fun x y => strLt y x = false) := fun hl =>
    List.Pairwise.imp (fun hab => strLt_asymm _ _ hab) hl
  exact sorted_perm_unique strLt strLt_total _ _ ((List.perm_ext_iff_of_nodup (nd hl) (nd hm)).mpr h) (sd hl) (sd hm)

/-- Transactions whose maps hold the same entries, possibly visited in another order. -/
def SameTags (t t' : TaggedTxn) : Prop :=
  t.tags.Perm t'.tags ∧ List.Forall₂ (fun p p' => p.1.Perm p'.1 ∧ p.2 = p'.2) t.posts t'.posts

theorem tagOf_perm {m m' : TagMap} (h : m.Perm m') (hm : IsMap m) (k : Str) : tagOf m k = tagOf m' k := by
  have hm' : IsMap m' := (h.map _).nodup_iff.mp hm
  apply Option.ext
  intro v
  rw [tagOf_mem_iff hm, tagOf_mem_iff hm', h.mem_iff]

/-- The output does not depend on the order in which any map is visited. -/
theorem C90_order (nrex : Option (Str → Bool)) (fValues fAccounts : Bool) (ord ord' : List Str → List Str) (hord : ∀ l, (ord l).Perm l)
    (hord' : ∀ l, (ord' l).Perm l) (txns txns' : List TaggedTxn) (h : ∀ t ∈ txns, t.Ok) (hs : List.Forall₂ SameTags txns txns') :
    tagsExecute nrex fValues fAccounts ord txns = tagsExecute nrex fValues fAccounts ord' txns' := by
  have hposts : ∀ {ps ps' : List (TagMap × Str)}, (∀ p ∈ ps, IsMap p.1) → List.Forall₂ (fun p p' => p.1.Perm p'.1 ∧ p.2 = p'.2) ps ps' →
      (∀ p ∈ ps', IsMap p.1) ∧ ps.map (·.2) = ps'.map (·.2) ∧ ∀ k, ps.filterMap (fun p => tagOf p.1 k) = ps'.filterMap (fun p => tagOf p.1 k) ∧
        (ps.filter (fun p => (tagOf p.1 k).isSome)).map (·.2) = (ps'.filter (fun p => (tagOf p.1 k).isSome)).map (·.2) := by
    intro ps ps' hm hp
    induction hp with
    | nil => exact ⟨by simp, rfl, fun k => ⟨rfl, rfl⟩⟩
    | @cons p p' l l' h1 _ ih =>
      obtain ⟨j1, j2, j3⟩ := ih (fun q hq => hm q (by simp [hq]))
      have hpm := hm p (by simp)
      refine ⟨?_, by rw [List.map_cons, List.map_cons, h1.2, j2], fun k => ?_⟩
      · intro q hq
        rcases List.mem_cons.mp hq with rfl | hq
        · exact (h1.1.map _).nodup_iff.mp hpm
        · exact j1 q hq
      · have e := tagOf_perm h1.1 hpm k
        cases ht : tagOf p'.1 k with
        | none => rw [ht] at e; simp [List.filterMap_cons, List.filter_cons, e, ht, (j3 k).1, (j3 k).2]
        | some v => rw [ht] at e; simp [List.filterMap_cons, List.filter_cons, e, ht, (j3 k).1, (j3 k).2, h1.2]
  have key : (∀ t ∈ txns', t.Ok) ∧ ∀ k, valuesGiven txns k = valuesGiven txns' k ∧ accountsUsing txns k = accountsUsing txns' k := by
    clear hord hord'
    induction hs with
    | nil => exact ⟨by simp, fun k => ⟨rfl, rfl⟩⟩
    | @cons t t' l l' h1 _ ih =>
      obtain ⟨j1, j2⟩ := ih (fun x hx => h x (by simp [hx]))
      have ht := h t (by simp)
      obtain ⟨q1, q2, q3⟩ := hposts ht.2 h1.2
      refine ⟨?_, fun k => ?_⟩
      · intro x hx
        rcases List.mem_cons.mp hx with rfl | hx
        · exact ⟨(h1.1.map _).nodup_iff.mp ht.1, q1⟩
        · exact j1 x hx
      · have e := tagOf_perm h1.1 ht.1 k
        have a1 := (j2 k).1
        have a2 := (j2 k).2
        unfold valuesGiven at a1 ⊢
        unfold accountsUsing at a2 ⊢
        rw [List.flatMap_cons, List.flatMap_cons, a1, e, (q3 k).1]
        refine ⟨rfl, ?_⟩
        rw [List.flatMap_cons, List.flatMap_cons, a2, e, (q3 k).2, q2]
  obtain ⟨ks, vs, c1, c2, c3, c4⟩ := C90_tags_listing nrex fValues fAccounts ord hord txns h
  obtain ⟨ks', vs', d1, d2, d3, d4⟩ := C90_tags_listing nrex fValues fAccounts ord' hord' txns' key.1
  have ek : ks = ks' := increasing_ext c1 d1 (fun a => by rw [c2, d2, (key.2 a).1])
  subst ek
  rw [c4, d4]
  congr 1
  have cg : ∀ {l : List Str} {f g : Str → Str}, (∀ k ∈ l, f k = g k) → l.flatMap f = l.flatMap g := by
    intro l f g hfg
    induction l with
    | nil => rfl
    | cons a l ih => rw [List.flatMap_cons, List.flatMap_cons, hfg a (by simp), ih (fun k hk => hfg k (by simp [hk]))]
  apply cg
  intro k hk
  rw [(key.2 k).2]
  congr 1
  exact increasing_ext (c3 k hk).1 (d3 k hk).1 (fun a => by rw [(c3 k hk).2, (d3 k hk).2, (key.2 k).1])

/-- Non-vacuity: a ledger of two transactions with tags on transactions and postings. -/
def exTagged : List TaggedTxn :=
  [⟨parseTags [str "#trip: Rome, #vip"], [(parseTags [str "#food"], str "Expenses:Food"), ([], str "Assets:Cash")]⟩,
   ⟨[], [(parseTags [str "#trip: Oslo"], str "Expenses:Travel"), (parseTags [str "#trip"], str "Assets:Cash")]⟩]

theorem exTagged_ok : ∀ t ∈ exTagged, t.Ok := by
  intro t ht
  simp only [exTagged, List.mem_cons, List.not_mem_nil, or_false] at ht
  have hnil : IsMap [] := by unfold IsMap; simp
  rcases ht with rfl | rfl
  · refine ⟨(parseTags_found _).1, fun p hp => ?_⟩
    simp only [List.mem_cons, List.not_mem_nil, or_false] at hp
    rcases hp with rfl | rfl
    · exact (parseTags_found _).1
    · exact hnil
  · refine ⟨hnil, fun p hp => ?_⟩
    simp only [List.mem_cons, List.not_mem_nil, or_false] at hp
    rcases hp with rfl | rfl <;> exact (parseTags_found _).1

example : tagsExecute none true true id exTagged =
    .ok (str "food\n\tExpenses:Food\ntrip: \"Oslo\", \"Rome\"\n\tExpenses:Food\n\tAssets:Cash\n\tExpenses:Travel\nvip\n\tExpenses:Food\n\tAssets:Cash\n") := by
  decide +kernel

end Verif
