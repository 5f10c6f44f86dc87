import Verif.Props.Format
import Verif.Props.Tags
/-
C49, C50: `modify`.
-/
namespace Verif

/-! ## C49 -/

/-- The command `modify -a X -a: Y`, possibly restricted by `-p` and `-tt`. -/
def moveCmd (x y : Str) (payee : Option (Str → Bool)) (ttag : Option TagMatcher) : Modify := ⟨some x, some y, payee, ttag, none, [], []⟩

/-- The transactions a command is about: the payee matches `-p` and the tags match `-tt`, as far as these flags are given. -/
def ToModify (m : Modify) (t : PTxn) : Prop :=
  (∀ f, m.payee = some f → f t.description = true) ∧ (∀ f, m.ttag = some f → f.matches (parseTags t.notes).toTags = true)

theorem selects_iff (m : Modify) (t : PTxn) : modifySelects m t = true ↔ ToModify m t := by
  unfold modifySelects ToModify
  cases m.payee <;> cases m.ttag <;> simp

/-- **C49**, full statement: in selected transactions every posting on `x` is moved to `y` and nothing else changes. -/
def C49_Statement : Prop :=
  ∀ (x y : Str) (payee : Option (Str → Bool)) (ttag : Option TagMatcher) (t : PTxn), ToModify (moveCmd x y payee ttag) t →
    (modifyTxn (moveCmd x y payee ttag) t).1 =
      { t with postings := t.postings.map (fun p => if p.account = x then { p with account := y } else p) }

/-- With two postings on `x` only the first one is moved. -/
theorem C49_moves_all_violated : ¬ C49_Statement := by
  intro h
  have := h (str "A") (str "B") none none
    ⟨0, [], [], [], [⟨str "A", some ⟨100, exCad⟩, none, []⟩, ⟨str "A", some ⟨200, exCad⟩, none, []⟩, ⟨str "C", some ⟨-300, exCad⟩, none, []⟩]⟩ ((selects_iff _ _).mp (by decide))
  exact absurd this (by decide)

/-- Which postings the command is about: those on the account of `-a`, those with the tag of `-pt`. -/
def Concerned (m : Modify) (p : PPost) : Prop := (some p.account = m.source) ∨ ptagMatch m p = true

/-- Does the command have anything to do with postings: `-a:` or `-pt:`? -/
def Effective (m : Modify) : Prop := m.target ≠ none ∨ m.setPTag ≠ []

theorem modifyPosting_flag (m : Modify) (p : PPost) : (modifyPosting m p).2 = true ↔ Effective m := by
  unfold modifyPosting Effective
  simp [Option.isSome_iff_ne_none]

theorem modifyPosting_idle (m : Modify) (p : PPost) (h : ¬ Effective m) : modifyPosting m p = (p, false) := by
  unfold Effective at h
  simp only [not_or, not_not] at h
  unfold modifyPosting
  rw [h.1, h.2]; rfl

theorem modifyStep_true (m : Modify) (p : PPost) : modifyStep m true p = (p, true) := by
  unfold modifyStep; simp

theorem modifyLoop_true (m : Modify) (ps : List PPost) : modifyLoop m true ps = (ps, true) := by
  induction ps with
  | nil => rfl
  | cons p ps ih => rw [modifyLoop, modifyStep_true]; simp only [ih]

theorem modifyStep_other (m : Modify) (p : PPost) (h : ¬ Concerned m p) : modifyStep m false p = (p, false) := by
  unfold Concerned at h
  simp only [not_or, Bool.not_eq_true] at h
  unfold modifyStep
  simp [h.1, h.2]

theorem modifyStep_first (m : Modify) (p : PPost) (h : Concerned m p) (he : Effective m) : modifyStep m false p = ((modifyPosting m p).1, true) := by
  have hf : ∀ p, modifyPosting m p = ((modifyPosting m p).1, true) := fun p => by
    have := (modifyPosting_flag m p).mpr he
    rw [← this]
  unfold modifyStep
  by_cases h1 : some p.account = m.source
  · simp only [h1, and_self, if_true]
    rw [hf p]; simp
  · have h2 : ptagMatch m p = true := h.resolve_left h1
    simp only [h1, false_and, if_false, h2, and_self, if_true]
    exact hf p

theorem modifyStep_idle (m : Modify) (p : PPost) (he : ¬ Effective m) : modifyStep m false p = (p, false) := by
  unfold modifyStep
  have hi := modifyPosting_idle m p he
  by_cases h1 : some p.account = m.source
  · simp only [h1, and_self, if_true, hi]
    simp
  · simp only [h1, false_and, if_false, hi]
    simp

theorem modifyLoop_none (m : Modify) (ps : List PPost) (h : ∀ p ∈ ps, ¬ Concerned m p) : modifyLoop m false ps = (ps, false) := by
  induction ps with
  | nil => rfl
  | cons p ps ih =>
    rw [modifyLoop, modifyStep_other m p (h p (by simp))]
    simp only [ih (fun p hp => h p (by simp [hp]))]

theorem modifyLoop_idle (m : Modify) (ps : List PPost) (he : ¬ Effective m) : modifyLoop m false ps = (ps, false) := by
  induction ps with
  | nil => rfl
  | cons p ps ih => rw [modifyLoop, modifyStep_idle m p he]; simp only [ih]

theorem modifyLoop_first (m : Modify) (pre : List PPost) (p : PPost) (post : List PPost) (he : Effective m) (h : ∀ q ∈ pre, ¬ Concerned m q)
    (hp : Concerned m p) : modifyLoop m false (pre ++ p :: post) = (pre ++ (modifyPosting m p).1 :: post, true) := by
  induction pre with
  | nil => rw [List.nil_append, modifyLoop, modifyStep_first m p hp he]; simp only [modifyLoop_true, List.nil_append]
  | cons q pre ih =>
    rw [List.cons_append, modifyLoop, modifyStep_other m q (h q (by simp))]
    simp only [ih (fun q hq => h q (by simp [hq])), List.cons_append]

/-- The postings of a selected transaction after `modify`. -/
theorem modifyTxn_postings (m : Modify) (t : PTxn) (hs : modifySelects m t = true) : (modifyTxn m t).1.postings = (modifyLoop m false t.postings).1 := by
  unfold modifyTxn
  rw [if_neg (by simp [hs])]
  simp only []
  split
  · rfl
  · split <;> rfl

/-- **C49** (what does hold) In a selected transaction exactly the first concerned posting is modified and every other posting stays as
it is. Missing: the further concerned postings. -/
theorem C49_first_only_partial (m : Modify) (t : PTxn) (hs : ToModify m t) (he : Effective m) (pre : List PPost) (p : PPost) (post : List PPost)
    (e : t.postings = pre ++ p :: post) (hpre : ∀ q ∈ pre, ¬ Concerned m q) (hp : Concerned m p) :
    (modifyTxn m t).1.postings = pre ++ { p with
      account := m.target.getD p.account
      notes := if m.setPTag = [] then p.notes else addTagLine p.notes m.setPTag } :: post ∧ (modifyTxn m t).2 = true := by
  have hs := (selects_iff m t).mpr hs
  constructor
  · rw [modifyTxn_postings m t hs, e, modifyLoop_first m pre p post he hpre hp]
    unfold modifyPosting
    simp only []
    cases m.target <;> by_cases h : m.setPTag = [] <;> simp [h]
  · unfold modifyTxn
    rw [if_neg (by simp [hs])]
    simp only [e, modifyLoop_first m pre p post he hpre hp]
    split
    · rfl
    · split <;> rfl

/-- **C49** for transactions with at most one posting on `x`: the full claim. -/
theorem C49_single_partial (x y : Str) (payee : Option (Str → Bool)) (ttag : Option TagMatcher) (t : PTxn)
    (hs : ToModify (moveCmd x y payee ttag) t) (h1 : (t.postings.filter (fun p => decide (p.account = x))).length ≤ 1) :
    (modifyTxn (moveCmd x y payee ttag) t).1 =
      { t with postings := t.postings.map (fun p => if p.account = x then { p with account := y } else p) } := by
  have hs := (selects_iff _ _).mpr hs
  have hc : ∀ p, Concerned (moveCmd x y payee ttag) p ↔ p.account = x := by intro p; simp [Concerned, moveCmd, ptagMatch]
  have key : (modifyTxn (moveCmd x y payee ttag) t).1 = { t with postings := (modifyLoop (moveCmd x y payee ttag) false t.postings).1 } := by
    unfold modifyTxn
    rw [if_neg (by simp [hs])]
    simp only []
    split
    · rfl
    · rw [if_pos (show (moveCmd x y payee ttag).setTTag = [] from rfl)]
  rw [key]
  congr 1
  by_cases hex : ∃ p ∈ t.postings, p.account = x
  · obtain ⟨p, hp, hpx⟩ := hex
    obtain ⟨pre, post, e⟩ := List.append_of_mem hp
    rw [e, List.filter_append, List.filter_cons_of_pos (by simpa using hpx), List.length_append, List.length_cons] at h1
    have hpre : ∀ q ∈ pre, ¬ q.account = x := by
      intro q hq hqx
      have : 0 < (pre.filter (fun p => decide (p.account = x))).length := List.length_pos_of_mem (List.mem_filter.mpr ⟨hq, by simpa using hqx⟩)
      omega
    have hpost : ∀ q ∈ post, ¬ q.account = x := by
      intro q hq hqx
      have : 0 < (post.filter (fun p => decide (p.account = x))).length := List.length_pos_of_mem (List.mem_filter.mpr ⟨hq, by simpa using hqx⟩)
      omega
    rw [e, modifyLoop_first _ pre p post (.inl (by simp [moveCmd])) (fun q hq => by rw [hc]; exact hpre q hq) ((hc p).mpr hpx)]
    rw [List.map_append, List.map_cons, if_pos hpx]
    have id1 : ∀ l : List PPost, (∀ q ∈ l, ¬ q.account = x) → l.map (fun p => if p.account = x then { p with account := y } else p) = l := by
      intro l hl
      conv_rhs => rw [← List.map_id l]
      exact List.map_congr_left (fun q hq => by rw [if_neg (hl q hq)]; rfl)
    rw [id1 pre hpre, id1 post hpost]
    rfl
  · have hno : ∀ q ∈ t.postings, ¬ q.account = x := fun q hq hqx => hex ⟨q, hq, hqx⟩
    rw [modifyLoop_none _ _ (fun q hq => by rw [hc]; exact hno q hq)]
    simp only []
    conv_lhs => rw [← List.map_id t.postings]
    exact List.map_congr_left (fun q hq => by rw [if_neg (hno q hq)]; rfl)

/-- Non-vacuity: a transaction selected by its payee with one posting on the account. -/
example : modifySelects (moveCmd (str "A") (str "B") (some (fun d => decide (d = str "shop"))) none)
      ⟨0, [], str "shop", [], [⟨str "C", some ⟨-300, exCad⟩, none, []⟩, ⟨str "A", some ⟨300, exCad⟩, none, []⟩]⟩ = true ∧
    (modifyTxn (moveCmd (str "A") (str "B") (some (fun d => decide (d = str "shop"))) none)
      ⟨0, [], str "shop", [], [⟨str "C", some ⟨-300, exCad⟩, none, []⟩, ⟨str "A", some ⟨300, exCad⟩, none, []⟩]⟩).1 =
      ⟨0, [], str "shop", [], [⟨str "C", some ⟨-300, exCad⟩, none, []⟩, ⟨str "B", some ⟨300, exCad⟩, none, []⟩]⟩ := by decide

theorem addTag_any (m : Modify) : ∀ (b : Bool) (ps : List PPost),
    List.Forall₂ (fun p q : PPost => q.quantity = p.quantity ∧ q.balance = p.balance ∧ (Concerned m p ∨ q = p)) ps (modifyLoop m b ps).1 := by
  intro b ps
  induction ps generalizing b with
  | nil => exact .nil
  | cons p ps ih =>
    refine .cons ?_ (ih _)
    show (modifyStep m b p).1.quantity = _ ∧ (modifyStep m b p).1.balance = _ ∧ (_ ∨ (modifyStep m b p).1 = p)
    cases b with
    | true => rw [modifyStep_true]; exact ⟨rfl, rfl, .inr rfl⟩
    | false =>
      by_cases he : Effective m
      · by_cases hc : Concerned m p
        · rw [modifyStep_first m p hc he]
          refine ⟨?_, ?_, .inl hc⟩ <;>
          · unfold modifyPosting
            simp only []
            cases m.target <;> by_cases h : m.setPTag = [] <;> simp [h]
        · rw [modifyStep_other m p hc]; exact ⟨rfl, rfl, .inr rfl⟩
      · rw [modifyStep_idle m p he]; exact ⟨rfl, rfl, .inr rfl⟩

/-- **C49** (nothing else) Whatever the flags: dates, codes, descriptions, quantities, balances and the order of the postings never change,
postings that are not concerned do not change, and transactions that are not selected do not change at all. -/
theorem C49_nothing_else (m : Modify) (t : PTxn) :
    (modifyTxn m t).1.posted = t.posted ∧ (modifyTxn m t).1.code = t.code ∧ (modifyTxn m t).1.description = t.description ∧
    List.Forall₂ (fun p q : PPost => q.quantity = p.quantity ∧ q.balance = p.balance ∧ (Concerned m p ∨ q = p)) t.postings (modifyTxn m t).1.postings ∧
    (¬ ToModify m t → modifyTxn m t = (t, false)) := by
  rw [← selects_iff, Bool.not_eq_true]
  by_cases hs : modifySelects m t = true
  · refine ⟨?_, ?_, ?_, by rw [modifyTxn_postings m t hs]; exact addTag_any m false t.postings, by intro h; rw [hs] at h; exact absurd h (by decide)⟩ <;>
    · unfold modifyTxn
      rw [if_neg (by simp [hs])]
      simp only []
      split
      · rfl
      · split <;> rfl
  · have e : modifyTxn m t = (t, false) := by unfold modifyTxn; rw [if_pos (by simpa using hs)]
    rw [e]
    refine ⟨rfl, rfl, rfl, ?_, fun _ => rfl⟩
    simp only []
    induction t.postings with
    | nil => exact .nil
    | cons p ps ih => exact .cons ⟨rfl, rfl, .inr rfl⟩ ih

/-- **C49** (`-tt:`) The tag is added to the transactions that are selected and, when `-a` is given, have a posting on that account; the
notes of all others stay as they are. -/
theorem C49_transaction_tag (m : Modify) (t : PTxn) :
    (ToModify m t ∧ m.setTTag ≠ [] ∧ (∀ a, m.source = some a → ∃ p ∈ t.postings, p.account = a) → (modifyTxn m t).1.notes = addTagLine t.notes m.setTTag) ∧
    (¬ (ToModify m t ∧ m.setTTag ≠ [] ∧ (∀ a, m.source = some a → ∃ p ∈ t.postings, p.account = a)) → (modifyTxn m t).1.notes = t.notes) := by
  rw [← selects_iff]
  have hsrc : (m.source.isSome ∧ t.postings.all (fun p => decide (some p.account ≠ m.source)) = true) ↔
      ¬ (∀ a, m.source = some a → ∃ p ∈ t.postings, p.account = a) := by
    cases hm : m.source with
    | none => simp
    | some a => simp
  unfold modifyTxn
  cases hs : modifySelects m t with
  | false => simp
  | true =>
    rw [if_neg (by simp)]
    simp only [true_and]
    by_cases h1 : ∀ a, m.source = some a → ∃ p ∈ t.postings, p.account = a
    · rw [if_neg (fun h => hsrc.mp h h1)]
      by_cases h2 : m.setTTag = []
      · rw [if_pos h2]; simp [h2]
      · rw [if_neg h2]; simp [h2]; intro a ha hh; obtain ⟨p, hp, e⟩ := h1 a ha; exact absurd e (hh p hp)
    · rw [if_pos (hsrc.mpr h1)]
      exact ⟨fun h => absurd h.2 h1, fun _ => rfl⟩

/-! ## C50 -/

/-- **C50**, full statement: after adding the tags in `val` the notes carry the old tags overridden by the new ones. -/
def C50_Statement : Prop :=
  ∀ (notes : List Str) (val line : Str), mustParseTags val = .ok line →
    ∀ k, tagOf (parseTags (addTagLine notes line)) k = (tagOf (parseTags [val]) k).or (tagOf (parseTags notes) k)

/-- A tag added behind a tag with a value becomes part of that value. -/
theorem C50_adds_tag_violated : ¬ C50_Statement := by
  intro h
  have := h [str "#foo: bar"] (str "#new") (str "#new") (by decide +kernel) (str "new")
  exact absurd this (by decide +kernel)

/-- A tag added to the first note does not override the same tag in a later note. -/
theorem C50_later_note_wins : tagOf (parseTags (addTagLine [str "x", str "#a: old"] (str "#a:new"))) (str "a") = some (str "old") := by decide +kernel

/-- Lines carrying tags (see `TagLine`) that do not end in the value of a tag. -/
inductive OpenLine : Str → List (Str × Str) → Prop
  | text {s} : '#' ∉ s → OpenLine s []
  | hash {pre rest l} : '#' ∉ pre → NoHead isKeyChar rest → OpenLine rest l → OpenLine (pre ++ '#' :: rest) l
  | key {pre k rest l} : '#' ∉ pre → TagKey k → NoHead (fun c => isKeyChar c || decide (c = ':')) rest → OpenLine rest l →
      OpenLine (pre ++ '#' :: (k ++ rest)) ((k, []) :: l)
  | value {pre k sp v sp2 sp3 x rest l} : '#' ∉ pre → TagKey k → Blank sp → TagVal v → Blank sp2 → Blank sp3 → isWs x = false → x ≠ ',' →
      OpenLine (sp3 ++ x :: rest) l → OpenLine (pre ++ '#' :: (k ++ ':' :: (sp ++ (v ++ (sp2 ++ ',' :: (sp3 ++ x :: rest)))))) ((k, v) :: l)

theorem TagLine.prepend {s m : Str} {l} (hs : '#' ∉ s) (h : TagLine m l) : TagLine (s ++ m) l := by
  have hp : ∀ pre : Str, '#' ∉ pre → '#' ∉ s ++ pre := by
    intro pre h hm; rcases List.mem_append.mp hm with hm | hm
    · exact hs hm
    · exact h hm
  cases h with
  | text h => exact .text (hp _ h)
  | hash h1 h2 h3 => rw [← List.append_assoc]; exact .hash (hp _ h1) h2 h3
  | key h1 h2 h3 h4 => rw [← List.append_assoc]; exact .key (hp _ h1) h2 h3 h4
  | valueEnd h1 h2 h3 h4 h5 => rw [← List.append_assoc]; exact .valueEnd (hp _ h1) h2 h3 h4 h5
  | value h1 h2 h3 h4 h5 h6 h7 h8 h9 => rw [← List.append_assoc]; exact .value (hp _ h1) h2 h3 h4 h5 h6 h7 h8 h9

theorem noHead_append_blank {p : Char → Bool} {s t : Str} (h : NoHead p s) (hb : p ' ' = false) : NoHead p (s ++ ' ' :: t) := by
  cases s with
  | nil => exact NoHead.cons hb
  | cons x s => exact NoHead.cons (h x s rfl)

/-- Appending a line of tags to an open line. -/
theorem OpenLine.append {n m : Str} {l l2} (h : OpenLine n l) (hm : TagLine m l2) : TagLine (n ++ ' ' :: m) (l ++ l2) := by
  induction h with
  | text h =>
    rename_i s
    have : s ++ ' ' :: m = (s ++ [' ']) ++ m := by simp
    rw [this, List.nil_append]
    refine hm.prepend ?_
    intro hh; rcases List.mem_append.mp hh with hh | hh
    · exact h hh
    · simp at hh
  | hash h1 h2 _ ih => rw [List.append_assoc, List.cons_append]; exact .hash h1 (noHead_append_blank h2 (by decide)) ih
  | key h1 h2 h3 _ ih =>
    rw [List.append_assoc, List.cons_append, List.append_assoc, List.cons_append]
    exact .key h1 h2 (noHead_append_blank h3 (by decide)) ih
  | value h1 h2 h3 h4 h5 h6 h7 h8 h9 ih =>
    rename_i pre k sp v sp2 sp3 x rest l
    have e : (pre ++ '#' :: (k ++ ':' :: (sp ++ (v ++ (sp2 ++ ',' :: (sp3 ++ x :: rest)))))) ++ ' ' :: m =
      pre ++ '#' :: (k ++ ':' :: (sp ++ (v ++ (sp2 ++ ',' :: (sp3 ++ x :: (rest ++ ' ' :: m)))))) := by simp
    rw [e, List.cons_append]
    refine .value h1 h2 h3 h4 h5 h6 h7 h8 ?_
    simpa using ih

theorem TagLine.entries {s : Str} {l} (h : TagLine s l) : ∀ e ∈ l, TagKey e.1 ∧ (e.2 = [] ∨ TagVal e.2) := by
  induction h with
  | text _ => simp
  | hash _ _ _ ih => exact ih
  | key _ h2 _ _ ih =>
    intro e he
    rcases List.mem_cons.mp he with rfl | he
    · exact ⟨h2, .inl rfl⟩
    · exact ih e he
  | valueEnd _ h2 _ h4 _ =>
    intro e he
    simp only [List.mem_singleton] at he; subst he
    exact ⟨h2, .inr h4⟩
  | value _ h2 _ h4 _ _ _ _ _ ih =>
    intro e he
    rcases List.mem_cons.mp he with rfl | he
    · exact ⟨h2, .inr h4⟩
    · exact ih e he

/-- How `mustParseTags` writes one tag. -/
def renderTag (e : Str × Str) : Str := '#' :: e.1 ++ (if e.2 = [] then [] else ':' :: e.2)

theorem joinTags_head (e : Str × Str) (es : List (Str × Str)) : ∃ u, joinWith (str ", ") ((e :: es).map renderTag) = '#' :: u := by
  cases es with
  | nil => exact ⟨_, rfl⟩
  | cons f es => exact ⟨_, rfl⟩

theorem joinTags_line : ∀ (es : List (Str × Str)), (∀ e ∈ es, TagKey e.1 ∧ (e.2 = [] ∨ TagVal e.2)) →
    TagLine (joinWith (str ", ") (es.map renderTag)) es := by
  intro es
  induction es with
  | nil => intro _; exact .text (by simp [joinWith])
  | cons e es ih =>
    intro h
    obtain ⟨hk, hv⟩ := h e (by simp)
    obtain ⟨k, v⟩ := e
    simp only at hk hv
    have ih := ih (fun e he => h e (by simp [he]))
    cases es with
    | nil =>
      by_cases h0 : v = []
      · subst h0
        have : TagLine ([] ++ '#' :: (k ++ [])) [(k, [])] := .key (by simp) hk NoHead.nil (.text (by simp))
        simpa [renderTag, joinWith] using this
      · have : TagLine ([] ++ '#' :: (k ++ ':' :: ([] ++ (v ++ [])))) [(k, v)] :=
          .valueEnd (by simp) hk (by simp [Blank]) (hv.resolve_left h0) (by simp [Blank])
        simpa [renderTag, joinWith, h0] using this
    | cons f es =>
      have e0 : joinWith (str ", ") (((k, v) :: f :: es).map renderTag) = renderTag (k, v) ++ ',' :: ' ' :: joinWith (str ", ") ((f :: es).map renderTag) := by
        simp [joinWith, str]
      rw [e0]
      obtain ⟨u, hu⟩ := joinTags_head f es
      by_cases h0 : v = []
      · subst h0
        have : TagLine ([] ++ '#' :: (k ++ (str ", " ++ joinWith (str ", ") ((f :: es).map renderTag)))) ((k, []) :: f :: es) :=
          .key (by simp) hk (NoHead.cons (by decide)) (ih.prepend (by decide))
        simpa [renderTag, str] using this
      · have h2 := ih.prepend (s := [' ']) (by decide)
        rw [hu] at h2 ⊢
        have : TagLine ([] ++ '#' :: (k ++ ':' :: ([] ++ (v ++ ([] ++ ',' :: ([' '] ++ '#' :: u)))))) ((k, v) :: f :: es) :=
          .value (by simp) hk (by simp [Blank]) (hv.resolve_left h0) (by simp [Blank]) (by unfold Blank; decide) (by decide) (by decide) h2
        simpa [renderTag, h0] using this

theorem lastValue_append (a b : List (Str × Str)) (k : Str) : lastValue (a ++ b) k = (lastValue b k).or (lastValue a k) := by
  unfold lastValue
  rw [List.reverse_append, List.find?_append]
  cases List.find? (fun e => decide (e.1 = k)) b.reverse <;> simp

theorem tagOf_parseTags (notes : List Str) (k : Str) : tagOf (parseTags notes) k = lastValue (notes.flatMap lineTags) k := by
  unfold parseTags
  rw [tagOf_foldl]
  simp [tagOf]

theorem lineTags_tagLine {s : Str} {l} (h : TagLine s l) : lineTags s = l := findAll_tagLine h _ (Nat.le_refl _)

theorem tagOf_mem {m : TagMap} {k : Str} : tagIncludes m k = true ↔ k ∈ m.map (·.1) := by
  unfold tagIncludes tagOf
  rw [Option.isSome_map, List.find?_isSome]
  simp

/-- The line made from a tag argument carries its tags. -/
theorem mustParse_line {val line : Str} {l} (hval : TagLine val l) (h : mustParseTags val = .ok line) :
    ∃ es, TagLine line es ∧ ∀ k, lastValue es k = tagOf (parseTags [val]) k := by
  unfold mustParseTags at h
  simp only [] at h
  split at h
  · cases h
  · cases h
    refine ⟨(tagKeys (parseTags [val])).map (fun k => (k, tagValue (parseTags [val]) k)), ?_, ?_⟩
    · have hent : ∀ e ∈ (tagKeys (parseTags [val])).map (fun k => (k, tagValue (parseTags [val]) k)), TagKey e.1 ∧ (e.2 = [] ∨ TagVal e.2) := by
        intro e he
        obtain ⟨k, hk, rfl⟩ := List.mem_map.mp he
        have hk : k ∈ (parseTags [val]).map (·.1) := (stableSort_perm _ _).mem_iff.mp hk
        have hsome := tagOf_mem.mpr hk
        unfold tagIncludes at hsome
        obtain ⟨v, hv⟩ := Option.isSome_iff_exists.mp hsome
        have hv2 := hv
        rw [tagOf_parseTags] at hv2
        simp only [List.flatMap_cons, List.flatMap_nil, List.append_nil, lineTags_tagLine hval] at hv2
        unfold lastValue at hv2
        obtain ⟨e, he, rfl⟩ := Option.map_eq_some_iff.mp hv2
        have h1 := hval.entries e (List.mem_reverse.mp (List.mem_of_find?_eq_some he))
        have h2 := List.find?_some he
        simp only [decide_eq_true_eq] at h2
        unfold tagValue
        simp only [hv, Option.getD_some]
        rw [← h2]
        exact h1
      have := joinTags_line _ hent
      rw [List.map_map] at this
      exact this
    · intro k
      unfold lastValue
      by_cases hk : k ∈ (parseTags [val]).map (·.1)
      · have hsome := tagOf_mem.mpr hk
        unfold tagIncludes at hsome
        obtain ⟨v, hv⟩ := Option.isSome_iff_exists.mp hsome
        have hk2 : k ∈ tagKeys (parseTags [val]) := (stableSort_perm _ _).mem_iff.mpr hk
        have : ∃ e, (((tagKeys (parseTags [val])).map (fun k => (k, tagValue (parseTags [val]) k))).reverse.find? (fun e => decide (e.1 = k))) = some e := by
          rw [← Option.isSome_iff_exists, List.find?_isSome]
          exact ⟨(k, tagValue (parseTags [val]) k), by simpa using hk2, by simp⟩
        obtain ⟨e, he⟩ := this
        rw [he, hv]
        have h2 := List.find?_some he
        have h1 := List.mem_reverse.mp (List.mem_of_find?_eq_some he)
        obtain ⟨k', _, rfl⟩ := List.mem_map.mp h1
        simp only [decide_eq_true_eq] at h2
        subst h2
        simp [tagValue, hv]
      · have h1 : tagOf (parseTags [val]) k = none := by
          have : ¬ tagIncludes (parseTags [val]) k = true := fun h => hk (tagOf_mem.mp h)
          unfold tagIncludes at this
          simpa using this
        rw [h1, Option.map_eq_none_iff, List.find?_eq_none]
        intro e he
        obtain ⟨k', hk', rfl⟩ := List.mem_map.mp (List.mem_reverse.mp he)
        have hk' : k' ∈ (parseTags [val]).map (·.1) := (stableSort_perm _ _).mem_iff.mp hk'
        simp only [decide_eq_true_eq]
        rintro rfl
        exact hk hk'

/-- **C50** The added tags are there afterwards and the old ones are kept, provided the tag argument is written as in `TagLine` and the
line goes to a note of its own (no notes yet, or the first note is too long), or the first note does not end in the value of a tag and
later notes do not carry the same keys. Missing: the other cases, for which the claim fails as shown above. -/
theorem C50_adds_tag_partial (notes : List Str) (val line : Str) (l : List (Str × Str)) (hval : TagLine val l) (h : mustParseTags val = .ok line)
    (hn : notes = [] ∨ (∃ n ns, notes = n :: ns ∧ 80 ≤ blen n + blen line) ∨
      (∃ n ns ln, notes = n :: ns ∧ OpenLine n ln ∧ ∀ k, tagIncludes (parseTags [val]) k = true → tagIncludes (parseTags ns) k = false)) (k : Str) :
    tagOf (parseTags (addTagLine notes line)) k = (tagOf (parseTags [val]) k).or (tagOf (parseTags notes) k) := by
  obtain ⟨es, hes, hk⟩ := mustParse_line hval h
  have own : tagOf (parseTags (notes ++ [line])) k = (tagOf (parseTags [val]) k).or (tagOf (parseTags notes) k) := by
    rw [tagOf_parseTags, tagOf_parseTags notes, List.flatMap_append, lastValue_append]
    simp only [List.flatMap_cons, List.flatMap_nil, List.append_nil, lineTags_tagLine hes, hk]
  rcases hn with rfl | ⟨n, ns, rfl, hlong⟩ | ⟨n, ns, ln, rfl, ho, hd⟩
  · exact own
  · have : addTagLine (n :: ns) line = (n :: ns) ++ [line] := by
      rw [addTagLine, if_neg (by unfold addTagLine.lineMaxTags; omega)]
    rw [this]; exact own
  · by_cases hlong : blen n + blen line < 80
    · have : addTagLine (n :: ns) line = (n ++ ' ' :: line) :: ns := by
        rw [addTagLine, if_pos (by unfold addTagLine.lineMaxTags; omega)]
      have hn1 : lineTags n = ln := by
        have hh : ∀ s l, OpenLine s l → TagLine s l := by
          intro s l h
          induction h with
          | text h => exact .text h
          | hash h1 h2 _ ih => exact .hash h1 h2 ih
          | key h1 h2 h3 _ ih => exact .key h1 h2 h3 ih
          | value h1 h2 h3 h4 h5 h6 h7 h8 _ ih => exact .value h1 h2 h3 h4 h5 h6 h7 h8 ih
        exact lineTags_tagLine (hh _ _ ho)
      rw [this, tagOf_parseTags, tagOf_parseTags (n :: ns), List.flatMap_cons, List.flatMap_cons, lineTags_tagLine (ho.append hes), hn1,
        lastValue_append, lastValue_append, lastValue_append, hk]
      have hd := hd k
      cases h1 : tagOf (parseTags [val]) k with
      | none => simp
      | some v =>
        have h2 := hd (by unfold tagIncludes; rw [h1]; rfl)
        unfold tagIncludes at h2
        rw [tagOf_parseTags] at h2
        have h2 : lastValue (ns.flatMap lineTags) k = none := by simpa using h2
        rw [h2]; simp
    · have : addTagLine (n :: ns) line = (n :: ns) ++ [line] := by
        rw [addTagLine, if_neg (by unfold addTagLine.lineMaxTags; omega)]
      rw [this]; exact own

/-- Non-vacuity: a tag with a value and a plain one, added to a note that has a tag. -/
example : mustParseTags (str "#b, #a: new") = .ok (str "#a:new, #b") ∧
    addTagLine [str "#old note"] (str "#a:new, #b") = [str "#old note #a:new, #b"] ∧ OpenLine (str "#old note") [(str "old", [])] := by
  refine ⟨by decide +kernel, by decide +kernel, ?_⟩
  exact OpenLine.key (pre := []) (k := str "old") (rest := str " note") (by decide) ⟨by decide, by decide⟩ (NoHead.cons (by decide)) (.text (by decide))

/-- **C50** through the file: when the modified transaction is in canonical form, writing and parsing it gives back its notes, hence the tags
above. -/
theorem C50_through_file (env : PEnv) (dec : Str → Nat) (m : Modify) (t : PTxn) (hc : CanonTxn env.coms (modifyTxn m t).1)
    (hs : modifySelects m t = true) (hsrc : m.source = none) (hset : m.setTTag ≠ []) (rest : List Str) (hr : Stops rest) :
    ∃ line lines u, writeTxn dec (modifyTxn m t).1 = .ok (line :: lines) ∧ parseTransaction env line (lines ++ rest) = .ok (u, rest) ∧
      u.notes = addTagLine t.notes m.setTTag := by
  obtain ⟨line, lines, h1, h2⟩ := C53_read_back env dec (modifyTxn m t).1 hc rest hr
  refine ⟨line, lines, _, h1, h2, ?_⟩
  unfold modifyTxn
  rw [if_neg (by simp [hs])]
  simp only [hsrc]
  rw [if_neg (by simp), if_neg hset]

end Verif
