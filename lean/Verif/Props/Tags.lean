import Verif.Model.Tags
import Verif.Lemmas.Parser
/-
C64: tags in notes.
-/
namespace Verif

/-! ### Backtracking out of a greedy class -/

theorem starLoop_cls_none (p : Char → Bool) (k : ReK) (c : Caps) : ∀ (n : Nat) (b : Str),
    (∀ b1 b2, b = b1 ++ b2 → (∀ x ∈ b1, p x = true) → k b2 c = none) → starLoop (Re.cls p).run k n b c = none := by
  intro n
  induction n with
  | zero => intro b h; exact h [] b rfl (by simp)
  | succ n ih =>
    intro b h
    simp only [starLoop]
    have hk : k b c = none := h [] b rfl (by simp)
    rw [hk]
    cases b with
    | nil => rfl
    | cons x t =>
      rw [run_cls_cons]
      split
      · rename_i hx
        rw [if_pos (by simp), ih t (fun b1 b2 e hb => h (x :: b1) b2 (by rw [e]; rfl) (by simpa [hx] using hb))]
        rfl
      · rfl

/-- A repetition that backs up to `b` because nothing longer can be continued. -/
theorem starLoop_cls_back (p : Char → Bool) (k : ReK) (c : Caps) (res) : ∀ (n : Nat) (a b : Str), a.length ≤ n → (∀ x ∈ a, p x = true) →
    (∀ b1 b2, b = b1 ++ b2 → b1 ≠ [] → (∀ x ∈ b1, p x = true) → k b2 c = none) → k b c = some res →
    starLoop (Re.cls p).run k n (a ++ b) c = some res := by
  intro n
  induction n with
  | zero =>
    intro a b hl _ _ hk
    have : a = [] := List.length_eq_zero_iff.mp (by omega)
    subst this
    exact hk
  | succ n ih =>
    intro a b hl ha hb hk
    simp only [starLoop]
    cases a with
    | cons x a =>
      rw [List.cons_append, run_cls_cons, if_pos (ha x (by simp)), if_pos (by simp),
        ih a b (by simpa using hl) (fun y hy => ha y (by simp [hy])) hb hk]
      rfl
    | nil =>
      rw [List.nil_append, hk]
      cases b with
      | nil => rfl
      | cons x t =>
        rw [run_cls_cons]
        split
        · rename_i hx
          rw [if_pos (by simp), starLoop_cls_none p k c n t (fun b1 b2 e h => hb (x :: b1) b2 (by rw [e]; rfl) (by simp) (by simpa [hx] using h))]
          rfl
        · rfl

/-- `p+ r` taking `a` and no more. -/
theorem RunsTo.plusBack {p : Char → Bool} {r : Re} {a y rest : Str} {c c' : Caps} (hne : a ≠ []) (ha : ∀ x ∈ a, p x = true)
    (hback : ∀ b1 b2, y ++ rest = b1 ++ b2 → b1 ≠ [] → (∀ x ∈ b1, p x = true) → NoMatch r b2) (hr : RunsTo r y rest c c') :
    RunsTo (.seq (.plus (.cls p)) r) (a ++ y) rest c c' := by
  intro k res hk
  obtain ⟨x, t, rfl⟩ := List.exists_cons_of_ne_nil hne
  rw [run_seq, run_plus, List.append_assoc, List.cons_append, run_cls_cons, if_pos (ha x (by simp))]
  exact starLoop_cls_back p _ c res _ t (y ++ rest) (by simp) (fun z hz => ha z (by simp [hz]))
    (fun b1 b2 e h1 h2 => (hback b1 b2 e h1 h2).run k c) (hr k res hk)

/-! ## Specification -/

/-- A key: word characters, dashes and slashes. -/
def TagKey (k : Str) : Prop := k ≠ [] ∧ ∀ x ∈ k, isKeyChar x = true

/-- A value: at least two characters, no comma, no white space at the ends. -/
structure TagVal (v : Str) : Prop where
  long : 2 ≤ v.length
  noComma : ∀ x ∈ v, x ≠ ','
  first : ∀ x t, v = x :: t → isWs x = false
  last : ∀ x, v.getLast? = some x → isWs x = false

/-- White space. -/
def Blank (s : Str) : Prop := ∀ x ∈ s, isWs x = true

/-- How tags are written in a note: `TagLine s l` says that the line `s` carries the tags `l`, in this order.
A tag is `#key` (followed by neither a key character nor a colon) or `#key: value`, where the value ends at a comma that is followed by
further text, or at the end of the line. -/
inductive TagLine : Str → List (Str × Str) → Prop
  | text {s} : '#' ∉ s → TagLine s []
  | hash {pre rest l} : '#' ∉ pre → NoHead isKeyChar rest → TagLine rest l → TagLine (pre ++ '#' :: rest) l
  | key {pre k rest l} : '#' ∉ pre → TagKey k → NoHead (fun c => isKeyChar c || decide (c = ':')) rest → TagLine rest l →
      TagLine (pre ++ '#' :: (k ++ rest)) ((k, []) :: l)
  | valueEnd {pre k sp v sp2} : '#' ∉ pre → TagKey k → Blank sp → TagVal v → Blank sp2 →
      TagLine (pre ++ '#' :: (k ++ ':' :: (sp ++ (v ++ sp2)))) [(k, v)]
  | value {pre k sp v sp2 sp3 x rest l} : '#' ∉ pre → TagKey k → Blank sp → TagVal v → Blank sp2 → Blank sp3 → isWs x = false → x ≠ ',' →
      TagLine (sp3 ++ x :: rest) l → TagLine (pre ++ '#' :: (k ++ ':' :: (sp ++ (v ++ (sp2 ++ ',' :: (sp3 ++ x :: rest)))))) ((k, v) :: l)

/-- The value of the last occurrence of a key. -/
def lastValue (l : List (Str × Str)) (k : Str) : Option Str := (l.reverse.find? (fun e => decide (e.1 = k))).map (·.2)

/-- **C64**, full statement for values: what follows `#key:` up to the next comma or the end of the line, without the surrounding
white space, is the value of the tag. -/
def C64_Statement : Prop :=
  ∀ k v : Str, TagKey k → v ≠ [] → (∀ x ∈ v, x ≠ ',' ∧ isWs x = false) →
    tagOf (parseTags ['#' :: (k ++ ':' :: v)]) k = some v

/-- A one character value is lost: `#k:a` is read as `#k`. -/
theorem C64_tags_violated : ¬ C64_Statement := by
  intro h
  have := h (str "k") (str "a") ⟨by decide, by decide⟩ (by decide) (by decide)
  exact absurd this (by decide)

/-- With white space after the colon the value of a tag before a comma keeps a blank: `#k: a, #l` gives " a". -/
theorem C64_short_value_blank : tagOf (parseTags [str "#k: a, #l"]) (str "k") = some (str " a") := by decide +kernel

/-- A comma at the end of the line becomes part of the value. -/
theorem C64_final_comma : tagOf (parseTags [str "#k: ab,"]) (str "k") = some (str "ab,") := by decide +kernel

/-! ## Proofs -/

theorem TagVal.split {v : Str} (h : TagVal v) : ∃ a z, v = a ++ [z] ∧ a ≠ [] ∧ isWs z = false := by
  have hne : v ≠ [] := by intro e; have := h.long; rw [e] at this; simp at this
  refine ⟨v.dropLast, v.getLast hne, (List.dropLast_append_getLast hne).symm, ?_, h.last _ (List.getLast?_eq_some_getLast hne)⟩
  intro e
  have := congrArg List.length e
  rw [List.length_dropLast] at this
  have := h.long
  simp at *
  omega

theorem blank_noHead {p : Char → Bool} {s : Str} (h : Blank s) (hp : ∀ x, isWs x = true → p x = false) : NoHead p s := by
  intro x t e; exact hp x (h x (by rw [e]; simp))

theorem commaEnd_no {sp rest : Str} {x : Char} (h : Blank sp) (hx : isWs x = false) (hc : x ≠ ',') :
    NoMatch (.cat [.star .ws, .alt (.ch ',') .eot]) (sp ++ x :: rest) := by
  refine NoMatch.starThen (NoHead.cons hx) ?_
  intro w1 w2 e
  refine NoMatch.alt (NoMatch.ch ?_) (NoMatch.eot (by simp))
  intro y t e2
  cases w2 with
  | nil => cases e2; exact hc
  | cons z w2 =>
    cases e2
    rintro rfl
    have := h ',' (by rw [e]; simp)
    exact absurd this (by decide)

/-- The value part up to the end of the line, or up to a comma with text after it. -/
theorem value_run {sp v sp2 tail after : Str} (c : Caps) (hsp : Blank sp) (hv : TagVal v) (hsp2 : Blank sp2)
    (ht : (tail = [] ∧ after = []) ∨ (tail = [','] ∧ ∃ sp3 x rest, after = sp3 ++ x :: rest ∧ Blank sp3 ∧ isWs x = false ∧ x ≠ ',')) :
    RunsTo tagValueRe ([':'] ++ (sp ++ (v ++ (sp2 ++ tail)))) after c ((str "value", v) :: c) := by
  obtain ⟨a, z, rfl, hane, hz⟩ := hv.split
  have hw0 : NoHead isWs (a ++ [z] ++ (sp2 ++ tail) ++ after) := by
    intro x t e
    obtain ⟨y, u, rfl⟩ := List.exists_cons_of_ne_nil hane
    cases e
    exact hv.first _ (u ++ [z]) (by simp)
  have htail : NoHead isWs (tail ++ after) := by
    rcases ht with ⟨rfl, rfl⟩ | ⟨rfl, _⟩
    · exact NoHead.nil
    · exact NoHead.cons (by decide)
  refine RunsTo.seq (RunsTo.ch ':' _ c) (RunsTo.seq (RunsTo.star hsp hw0 c) ?_)
  intro k res hk
  have hend : RunsTo (.cat [.star .ws, .alt (.ch ',') .eot]) (sp2 ++ tail) after ((str "value", a ++ [z]) :: c) ((str "value", a ++ [z]) :: c) := by
    refine RunsTo.seq (RunsTo.star hsp2 htail _) ?_
    rcases ht with ⟨rfl, rfl⟩ | ⟨rfl, _⟩
    · exact RunsTo.altR (NoMatch.ch (by intro x t e; cases e)) (RunsTo.eot _)
    · exact RunsTo.altL (RunsTo.ch ',' _ _)
  have hK := hend k res hk
  show Re.run (.seq (.grp (str "value") (.seq (.plus (.cls (fun c => decide (c ≠ ',')))) .notWs)) (.cat [.star .ws, .alt (.ch ',') .eot])) k _ c = some res
  rw [run_seq, run_grp, run_seq, run_plus]
  obtain ⟨y, u, rfl⟩ := List.exists_cons_of_ne_nil hane
  have nc : ∀ x ∈ y :: u, (fun c => decide (c ≠ ',')) x = true := by
    intro x hx
    simpa using hv.noComma x (by simp at hx ⊢; rcases hx with h | h <;> simp [h])
  simp only [List.cons_append, List.append_assoc, List.nil_append]
  rw [run_cls_cons, if_pos (nc y (by simp))]
  refine starLoop_cls_back _ _ c res _ u (z :: (sp2 ++ (tail ++ after))) (by simp) (fun x hx => nc x (by simp [hx])) ?_ ?_
  · intro b1 b2 e h1 h2
    -- what remains is empty, starts with a blank, or is the comma with the text after it
    obtain ⟨z', b1', rfl⟩ := List.exists_cons_of_ne_nil h1
    simp only [List.cons_append, List.cons.injEq] at e
    obtain ⟨rfl, e⟩ := e
    cases b2 with
    | nil => rfl
    | cons w b2 =>
      unfold Re.notWs
      rw [run_cls_cons]
      split
      · rename_i hw
        simp only [Bool.not_eq_true'] at hw
        -- `w` is not white space, so it is the comma
        have hlen : tail = [','] ∧ w = ',' ∧ b2 = after := by
          rcases List.append_eq_append_iff.mp e with ⟨q, e1, e2⟩ | ⟨q, e1, e2⟩
          · cases q with
            | nil =>
              simp only [List.nil_append] at e2
              rcases ht with ⟨rfl, rfl⟩ | ⟨rfl, _⟩
              · cases e2
              · cases e2; exact ⟨rfl, rfl, rfl⟩
            | cons q0 q =>
              exfalso
              rcases ht with ⟨rfl, rfl⟩ | ⟨rfl, _⟩
              · cases e2
              · cases e2
                have := h2 ',' (by rw [e1]; simp)
                exact absurd this (by decide)
          · cases q with
            | nil =>
              simp only [List.nil_append] at e2
              rcases ht with ⟨rfl, rfl⟩ | ⟨rfl, _⟩
              · cases e2
              · cases e2; exact ⟨rfl, rfl, rfl⟩
            | cons q0 q =>
              exfalso
              cases e2
              have := hsp2 w (by rw [e1]; simp)
              rw [hw] at this; exact absurd this (by decide)
        obtain ⟨rfl, rfl, rfl⟩ := hlen
        rcases ht with ⟨h, _⟩ | ⟨_, sp3, x, rest, rfl, h3, hx, hxc⟩
        · cases h
        · exact (commaEnd_no h3 hx hxc).run _ _
      · rfl
  · unfold Re.notWs
    rw [run_cls_cons, if_pos (by simp [hz])]
    have : ((y :: (u ++ z :: (sp2 ++ (tail ++ after)))).take ((y :: (u ++ z :: (sp2 ++ (tail ++ after)))).length - (sp2 ++ (tail ++ after)).length)) = y :: (u ++ [z]) := by
      have := take_sub (y :: (u ++ [z])) (sp2 ++ (tail ++ after))
      simpa using this
    rw [this]
    simpa using hK

theorem tagRe_eq : tagRe = .seq (.ch '#') (.seq (.grp (str "key") (.plus (.cls isKeyChar))) (.opt tagValueRe)) := rfl

/-- Text without a hash has no tag. -/
theorem tag_skip {pre s : Str} (h : '#' ∉ pre) : tagRe.find (pre ++ s) = (tagRe.find s).map (fun m => (pre ++ m.1, m.2.1, m.2.2)) := by
  induction pre with
  | nil => rw [List.nil_append]; cases tagRe.find s <;> rfl
  | cons x pre ih =>
    have hx : x ≠ '#' := by rintro rfl; exact h (by simp)
    have hm : tagRe.matchAt (x :: (pre ++ s)) = none := by
      have : NoMatch tagRe (x :: (pre ++ s)) := NoMatch.seqL (NoMatch.ch (by intro y t e; cases e; exact hx))
      exact this.run _ _
    rw [List.cons_append, Re.find, hm]
    simp only
    rw [ih (fun hh => h (by simp [hh]))]
    cases tagRe.find s <;> rfl

/-- One match at a time. -/
theorem findAll_step {n : Nat} {pre x rest : Str} {c : Caps} (h : '#' ∉ pre) (hr : RunsTo tagRe x rest [] c) :
    tagRe.findAll (n + 1) (pre ++ (x ++ rest)) = c :: tagRe.findAll n rest := by
  rw [Re.findAll, tag_skip h, hr.find]
  rfl

theorem findAll_text {n : Nat} {s : Str} (h : '#' ∉ s) : tagRe.findAll n s = [] := by
  cases n with
  | zero => rfl
  | succ n =>
    have hn : tagRe.find [] = none := by decide
    have := tag_skip (s := []) h
    rw [List.append_nil, hn] at this
    rw [Re.findAll, this]; rfl

theorem keyOnly_run {k rest : Str} (hk : TagKey k) (hr : NoHead (fun c => isKeyChar c || decide (c = ':')) rest) :
    RunsTo tagRe ('#' :: k) rest [] [(str "key", k)] := by
  have h1 : NoHead isKeyChar rest := by intro x t e; have := hr x t e; simp at this; exact this.1
  have h2 : ∀ x t, rest = x :: t → x ≠ ':' := by intro x t e; have := hr x t e; simp at this; exact this.2
  have h3 : RunsTo (.grp (str "key") (.plus (.cls isKeyChar))) k ([] ++ rest) [] [(str "key", k)] := RunsTo.grp (RunsTo.plus hk.1 hk.2 h1 [])
  have h4 : RunsTo (.opt tagValueRe) [] rest [(str "key", k)] [(str "key", k)] := RunsTo.optNone (NoMatch.seqL (NoMatch.ch h2))
  have := RunsTo.seq (RunsTo.ch '#' _ []) (RunsTo.seq h3 h4)
  rw [tagRe_eq]
  exact RunsTo.nil_left this (by simp)

theorem keyValue_run {k sp v sp2 tail after : Str} (hk : TagKey k) (hsp : Blank sp) (hv : TagVal v) (hsp2 : Blank sp2)
    (ht : (tail = [] ∧ after = []) ∨ (tail = [','] ∧ ∃ sp3 x rest, after = sp3 ++ x :: rest ∧ Blank sp3 ∧ isWs x = false ∧ x ≠ ',')) :
    RunsTo tagRe ('#' :: (k ++ ':' :: (sp ++ (v ++ (sp2 ++ tail))))) after [] [(str "value", v), (str "key", k)] := by
  have h3 : RunsTo (.grp (str "key") (.plus (.cls isKeyChar))) k (([':'] ++ (sp ++ (v ++ (sp2 ++ tail)))) ++ after) [] [(str "key", k)] :=
    RunsTo.grp (RunsTo.plus hk.1 hk.2 (NoHead.cons (by decide)) [])
  have := RunsTo.seq (RunsTo.ch '#' _ []) (RunsTo.seq h3 (RunsTo.opt (value_run [(str "key", k)] hsp hv hsp2 ht)))
  rw [tagRe_eq]
  exact RunsTo.nil_left this (by simp)

theorem hash_skip {rest : Str} (h : NoHead isKeyChar rest) : tagRe.find ('#' :: rest) = (tagRe.find rest).map (fun m => ('#' :: m.1, m.2.1, m.2.2)) := by
  have hm : tagRe.matchAt ('#' :: rest) = none := by
    have : NoMatch tagRe ('#' :: rest) := by
      rw [tagRe_eq]
      refine NoMatch.seqR ?_
      intro s1 s2 c c' e hm
      rw [ch_match_iff] at hm
      obtain ⟨rfl, _⟩ := hm
      cases e
      exact NoMatch.seqL (NoMatch.grp (NoMatch.plus h))
    exact this.run _ _
  rw [Re.find, hm]

theorem findAll_hash {n : Nat} {pre rest : Str} (hp : '#' ∉ pre) (h : NoHead isKeyChar rest) :
    tagRe.findAll n (pre ++ '#' :: rest) = tagRe.findAll n rest := by
  cases n with
  | zero => rfl
  | succ n =>
    rw [Re.findAll, tag_skip hp, hash_skip h, Re.findAll]
    cases tagRe.find rest <;> rfl

theorem findAll_tagLine {s : Str} {l : List (Str × Str)} (h : TagLine s l) : ∀ n, s.length ≤ n →
    (tagRe.findAll n s).map (fun c => (c.get (str "key"), c.get (str "value"))) = l := by
  induction h with
  | text h => intro n _; rw [findAll_text h]; rfl
  | hash hp hr _ ih => intro n hn; rw [findAll_hash hp hr]; exact ih n (by simp at hn; omega)
  | @key pre k rest l hp hk hr _ ih =>
    intro n hn
    obtain ⟨n, rfl⟩ := Nat.exists_eq_succ_of_ne_zero (show n ≠ 0 by simp at hn; omega)
    have := findAll_step (n := n) (rest := rest) hp (keyOnly_run hk hr)
    simp only [List.cons_append] at this
    rw [this, List.map_cons, ih n (by simp at hn; omega)]
    simp [Caps.get, str]
  | @valueEnd pre k sp v sp2 hp hk hsp hv hsp2 =>
    intro n hn
    obtain ⟨n, rfl⟩ := Nat.exists_eq_succ_of_ne_zero (show n ≠ 0 by simp at hn; omega)
    have := findAll_step (n := n) (rest := []) hp (keyValue_run (tail := []) (after := []) hk hsp hv hsp2 (.inl ⟨rfl, rfl⟩))
    simp only [List.append_nil] at this
    rw [this, List.map_cons, findAll_text (by simp)]
    simp [Caps.get, str]
  | @value pre k sp v sp2 sp3 x rest l hp hk hsp hv hsp2 hsp3 hx hxc _ ih =>
    intro n hn
    obtain ⟨n, rfl⟩ := Nat.exists_eq_succ_of_ne_zero (show n ≠ 0 by simp at hn; omega)
    have := findAll_step (n := n) (rest := sp3 ++ x :: rest) hp (keyValue_run (tail := [',']) (after := sp3 ++ x :: rest) hk hsp hv hsp2
      (.inr ⟨rfl, sp3, x, rest, rfl, hsp3, hx, hxc⟩))
    simp only [List.cons_append, List.append_assoc, List.nil_append] at this
    rw [this, List.map_cons, ih n (by simp at hn ⊢; omega)]
    simp [Caps.get, str]

theorem tagOf_put (m : TagMap) (e : Str × Str) (k : Str) : tagOf (putTag m e) k = if e.1 = k then some e.2 else tagOf m k := by
  unfold tagOf putTag
  by_cases h : e.1 = k
  · simp [h]
  · rw [List.find?_cons_of_neg (by simpa using h), if_neg h, List.find?_filter]
    congr 2
    funext x
    by_cases hx : x.1 = k
    · simp [hx, Ne.symm h]
    · simp [hx]

theorem tagOf_foldl (l : TagMap) (m : TagMap) (k : Str) : tagOf (l.foldl putTag m) k = (lastValue l k).or (tagOf m k) := by
  induction l generalizing m with
  | nil => simp [lastValue]
  | cons e l ih =>
    rw [List.foldl_cons, ih, tagOf_put]
    unfold lastValue
    rw [List.reverse_cons, List.find?_append]
    by_cases h : e.1 = k
    · cases hf : List.find? (fun e => decide (e.1 = k)) l.reverse <;> simp [h]
    · cases hf : List.find? (fun e => decide (e.1 = k)) l.reverse <;> simp [h]

/-- **C64** (for values of at least two characters) The tags of the notes are those written in them; the last occurrence of a key wins,
values come without surrounding white space. Not covered: one character values and a comma ending the line, see above. -/
theorem C64_tags_partial (notes : List Str) (ls : List (List (Str × Str))) (h : List.Forall₂ TagLine notes ls) (k : Str) :
    tagOf (parseTags notes) k = lastValue ls.flatten k ∧ (tagIncludes (parseTags notes) k = true ↔ ∃ v, (k, v) ∈ ls.flatten) := by
  have e : notes.flatMap lineTags = ls.flatten := by
    induction h with
    | nil => rfl
    | cons h _ ih =>
      rw [List.flatMap_cons, List.flatten_cons, ih]
      congr 1
      exact findAll_tagLine h _ (Nat.le_refl _)
  have h1 : tagOf (parseTags notes) k = lastValue ls.flatten k := by
    unfold parseTags
    rw [tagOf_foldl, e]
    simp [tagOf]
  refine ⟨h1, ?_⟩
  unfold tagIncludes
  rw [h1]
  unfold lastValue
  simp only [Option.isSome_map, List.find?_isSome, List.mem_reverse, decide_eq_true_eq]
  constructor
  · rintro ⟨⟨a, b⟩, hm, rfl⟩; exact ⟨b, hm⟩
  · rintro ⟨v, hm⟩; exact ⟨_, hm, rfl⟩

/-- Distinct keys: a tag map has one entry per key. -/
theorem C64_keys_distinct (notes : List Str) : ((parseTags notes).map (·.1)).Nodup := by
  unfold parseTags
  suffices ∀ (l m : TagMap), (m.map (·.1)).Nodup → ((l.foldl putTag m).map (·.1)).Nodup from this _ [] (by simp)
  intro l
  induction l with
  | nil => intro m h; exact h
  | cons e l ih =>
    intro m h
    rw [List.foldl_cons]
    refine ih _ ?_
    unfold putTag
    rw [List.map_cons, List.nodup_cons]
    refine ⟨?_, h.sublist (List.filter_sublist.map _)⟩
    intro hm
    obtain ⟨x, hx, hxe⟩ := List.mem_map.mp hm
    have := (List.mem_filter.mp hx).2
    simp at this
    exact this hxe

/-- What a value found looks like: nothing, or at least two characters of which only the last may be a comma. -/
def FoundValue (v : Str) : Prop := v = [] ∨ ∃ a z, v = a ++ [z] ∧ a ≠ [] ∧ ∀ x ∈ a, x ≠ ','

/-- Nothing is invented: every tag found is written in one of the notes as `#key` or as `#key:`, white space and the value. -/
theorem C64_tags_sound (notes : List Str) (k v : Str) (h : tagOf (parseTags notes) k = some v) :
    TagKey k ∧ FoundValue v ∧ ∃ n ∈ notes, ∃ pre post, (v = [] ∧ n = pre ++ '#' :: (k ++ post)) ∨ (∃ sp, Blank sp ∧ n = pre ++ '#' :: (k ++ ':' :: (sp ++ (v ++ post)))) := by
  have hin : (k, v) ∈ notes.flatMap lineTags := by
    unfold parseTags at h
    rw [tagOf_foldl] at h
    simp only [tagOf, List.find?_nil, Option.map_none, Option.or_none] at h
    unfold lastValue at h
    obtain ⟨e, he, rfl⟩ := Option.map_eq_some_iff.mp h
    have h1 := List.mem_of_find?_eq_some he
    have h2 := List.find?_some he
    simp only [decide_eq_true_eq] at h2
    subst h2
    exact List.mem_reverse.mp h1
  obtain ⟨n, hn, hl⟩ := List.mem_flatMap.mp hin
  suffices hs : TagKey k ∧ FoundValue v ∧ ∃ pre post, (v = [] ∧ n = pre ++ '#' :: (k ++ post)) ∨
      (∃ sp, Blank sp ∧ n = pre ++ '#' :: (k ++ ':' :: (sp ++ (v ++ post)))) from ⟨hs.1, hs.2.1, n, hn, hs.2.2⟩
  unfold lineTags at hl
  obtain ⟨c, hc, e⟩ := List.mem_map.mp hl
  have main : ∀ (m : Nat) (s : Str), c ∈ tagRe.findAll m s → ∃ pre x post, s = pre ++ (x ++ post) ∧ Re.Match tagRe x post [] c := by
    intro m
    induction m with
    | zero => intro s hs; cases hs
    | succ m ih =>
      intro s hs
      rw [Re.findAll] at hs
      cases hf : tagRe.find s with
      | none => rw [hf] at hs; cases hs
      | some r =>
        rw [hf] at hs
        obtain ⟨pre, c', post⟩ := r
        obtain ⟨x, es, hm, _⟩ := find_sound hf
        simp only [List.mem_cons] at hs
        rcases hs with rfl | hs
        · exact ⟨pre, x, post, by simpa using es, hm⟩
        · obtain ⟨pre2, x2, post2, e2, hm2⟩ := ih post hs
          exact ⟨pre ++ (x ++ pre2), x2, post2, by rw [es, e2]; simp, hm2⟩
  obtain ⟨pre, x, post, rfl, hm⟩ := main _ _ hc
  rw [tagRe_eq, seq_match_iff] at hm
  obtain ⟨s1, s2, c1, rfl, h1, h2⟩ := hm
  rw [ch_match_iff] at h1
  obtain ⟨rfl, rfl⟩ := h1
  rw [seq_match_iff] at h2
  obtain ⟨key, s3, c2, rfl, h3, h4⟩ := h2
  rw [grp_match_iff] at h3
  obtain ⟨c3, h3, rfl⟩ := h3
  rw [plus_cls_match_iff] at h3
  obtain ⟨hk1, hk2, rfl⟩ := h3
  rw [opt_match_iff] at h4
  rcases h4 with h4 | ⟨rfl, rfl⟩
  · have h4 : Re.Match (.seq (.ch ':') (.seq (.star .ws) (.seq (.grp (str "value") (.seq (.plus (.cls (fun c => decide (c ≠ ',')))) .notWs))
        (.seq (.star .ws) (.alt (.ch ',') .eot))))) s3 post [(str "key", key)] c := h4
    rw [seq_match_iff] at h4
    obtain ⟨_, s4, _, rfl, h5, h6⟩ := h4
    rw [ch_match_iff] at h5
    obtain ⟨rfl, rfl⟩ := h5
    rw [seq_match_iff] at h6
    obtain ⟨sp, s5, _, rfl, h7, h8⟩ := h6
    unfold Re.ws at h7
    rw [star_cls_match_iff] at h7
    obtain ⟨hsp, rfl⟩ := h7
    rw [seq_match_iff] at h8
    obtain ⟨val, s6, _, rfl, h9, h10⟩ := h8
    rw [grp_match_iff] at h9
    obtain ⟨c4, h9, rfl⟩ := h9
    rw [seq_match_iff] at h9
    obtain ⟨va, vz, _, hval, h11, h12⟩ := h9
    rw [plus_cls_match_iff] at h11
    unfold Re.notWs at h12
    rw [cls_match_iff] at h12
    obtain ⟨hva, hvc, rfl⟩ := h11
    obtain ⟨z, hz, _, rfl⟩ := h12
    have hfound : FoundValue val := .inr ⟨va, z, by rw [hval, hz], hva, fun x hx => by simpa using hvc x hx⟩
    rw [seq_match_iff] at h10
    obtain ⟨sp2, s7, _, rfl, h13, h14⟩ := h10
    unfold Re.ws at h13
    rw [star_cls_match_iff] at h13
    obtain ⟨_, rfl⟩ := h13
    have hc4 : c = [(str "value", val), (str "key", key)] := by
      rw [alt_match_iff] at h14
      rcases h14 with h | h
      · rw [ch_match_iff] at h; exact h.2
      · rw [eot_match_iff] at h; exact h.2.2
    subst hc4
    have hk : key = k := by have := congrArg Prod.fst e; simpa [Caps.get, str] using this
    have hv : val = v := by have := congrArg Prod.snd e; simpa [Caps.get, str] using this
    subst hk hv
    exact ⟨⟨hk1, hk2⟩, hfound, pre, sp2 ++ (s7 ++ post), .inr ⟨sp, hsp, by simp⟩⟩
  · have hk : key = k := by have := congrArg Prod.fst e; simpa [Caps.get, str] using this
    have hv : v = [] := by have := congrArg Prod.snd e; simpa [Caps.get, str] using this.symm
    subst hk
    exact ⟨⟨hk1, hk2⟩, .inl hv, pre, post, .inl ⟨hv, by simp⟩⟩

/-- Non-vacuity: a line with a text, a plain tag and two values. -/
example : TagLine (str "paid #trip: to Rome , #vip, #n/a: 12") [(str "trip", str "to Rome"), (str "vip", []), (str "n/a", str "12")] := by
  refine TagLine.value (pre := str "paid ") (k := str "trip") (sp := str " ") (v := str "to Rome") (sp2 := str " ") (sp3 := str " ") (x := '#') (rest := str "vip, #n/a: 12")
    (by decide) ⟨by decide, by decide⟩ (by unfold Blank; decide) ⟨by decide, by decide, ?_, ?_⟩ (by unfold Blank; decide) (by unfold Blank; decide) (by decide) (by decide) ?_
  · intro x t e; cases e; decide
  · intro x e; simp [str] at e; subst e; decide
  · refine TagLine.key (pre := str " ") (k := str "vip") (rest := str ", #n/a: 12") (by decide) ⟨by decide, by decide⟩ (NoHead.cons (by decide)) ?_
    refine TagLine.valueEnd (pre := str ", ") (k := str "n/a") (sp := str " ") (v := str "12") (sp2 := [])
      (by decide) ⟨by decide, by decide⟩ (by unfold Blank; decide) ⟨by decide, by decide, ?_, ?_⟩ (by unfold Blank; decide)
    · intro x t e; cases e; decide
    · intro x e; simp [str] at e; subst e; decide

end Verif
