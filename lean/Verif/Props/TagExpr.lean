import Verif.Model.Select
import Verif.Model.Tags
/-
What the expressions of `-t` select (README, tags.go:85-113).
-/
namespace Verif

/-- The parts of a tag expression `k` or `k:v` are valid regular expressions. -/
def TagValid (compile : Compile) (e : Str) : Prop :=
  (':' ∉ e ∧ ∃ m, compile e = some m) ∨
  ∃ k v, e = k ++ ':' :: v ∧ ':' ∉ k ∧ (∃ m, compile k = some m) ∧ ∃ m, compile v = some m

/-- A tag fits the expression `k`, or `k:v` cut at the first colon: its key matches `k`, and its value matches `v`. -/
def TagFits (compile : Compile) (e key value : Str) : Prop :=
  (':' ∉ e ∧ ∃ m, compile e = some m ∧ m key = true) ∨
  ∃ k v mk mv, e = k ++ ':' :: v ∧ ':' ∉ k ∧ compile k = some mk ∧ compile v = some mv ∧ mk key = true ∧ mv value = true

/-- Tags are selected by an expression: one of them fits; with `!` in front, one of them does not fit what follows. -/
def TagSelects (compile : Compile) (e : Str) (tags : List (Str × Str)) : Prop :=
  (e.head? ≠ some '!' ∧ TagValid compile e ∧ ∃ kv ∈ tags, TagFits compile e kv.1 kv.2) ∨
  ∃ e', e = '!' :: e' ∧ TagValid compile e' ∧ ∃ kv ∈ tags, ¬ TagFits compile e' kv.1 kv.2

theorem splitFirstColon_spec (e : Str) : (':' ∉ e ∧ splitFirstColon e = (e, none)) ∨
    ∃ k v, e = k ++ ':' :: v ∧ ':' ∉ k ∧ splitFirstColon e = (k, some v) := by
  induction e with
  | nil => exact .inl ⟨by simp, rfl⟩
  | cons c e ih =>
    by_cases hc : c = ':'
    · exact .inr ⟨[], e, by rw [hc]; rfl, by simp, by rw [splitFirstColon, if_pos hc]⟩
    · rcases ih with ⟨h1, h2⟩ | ⟨k, v, h1, h2, h3⟩
      · refine .inl ⟨?_, ?_⟩
        · rw [List.mem_cons, not_or]; exact ⟨fun h => hc h.symm, h1⟩
        · rw [splitFirstColon, if_neg hc, h2]
      · refine .inr ⟨c :: k, v, by rw [h1]; rfl, ?_, ?_⟩
        · rw [List.mem_cons, not_or]; exact ⟨fun h => hc h.symm, h2⟩
        · rw [splitFirstColon, if_neg hc, h3]

theorem colon_cut_unique {k v k' v' : Str} (hk : ':' ∉ k) (hk' : ':' ∉ k') (h : k ++ ':' :: v = k' ++ ':' :: v') : k = k' ∧ v = v' := by
  induction k generalizing k' with
  | nil =>
    cases k' with
    | nil => injection h with _ h; exact ⟨rfl, h⟩
    | cons c k' => injection h with h _; exact absurd (by rw [← h]; simp) hk'
  | cons c k ih =>
    cases k' with
    | nil => injection h with h _; exact absurd (by rw [h]; simp) hk
    | cons c' k' =>
      injection h with h1 h2
      obtain ⟨e1, e2⟩ := ih (fun hm => hk (List.mem_cons_of_mem _ hm)) (fun hm => hk' (List.mem_cons_of_mem _ hm)) h2
      exact ⟨by rw [h1, e1], e2⟩

theorem stripBang_cases (e : Str) : (e.head? ≠ some '!' ∧ stripBang e = (false, e)) ∨ ∃ e', e = '!' :: e' ∧ stripBang e = (true, e') := by
  cases e with
  | nil => exact .inl ⟨by simp, rfl⟩
  | cons c e =>
    by_cases hc : c = '!'
    · subst hc; exact .inr ⟨e, rfl, rfl⟩
    · refine .inl ⟨by simpa using hc, ?_⟩
      unfold stripBang
      split
      · rename_i h; injection h with h _; exact absurd h hc
      · rfl

/-- The matcher of an expression: it exists exactly for valid ones, and fits what the expression fits. -/
theorem newTagMatcher_spec (compile : Compile) (e : Str) (m : TagMatcher) (h : newTagMatcher compile e = .ok m) :
    ∃ e', TagValid compile e' ∧ (∀ kv, m.hit kv = true ↔ TagFits compile e' kv.1 kv.2) ∧
      ((e.head? ≠ some '!' ∧ e' = e ∧ m.inverted = false) ∨ (e = '!' :: e' ∧ m.inverted = true)) := by
  have body : ∀ (inv : Bool) (e' : Str), stripBang e = (inv, e') → TagValid compile e' ∧ (∀ kv, m.hit kv = true ↔ TagFits compile e' kv.1 kv.2) ∧ m.inverted = inv := by
    intro inv e' hb
    unfold newTagMatcher at h
    rw [hb] at h
    dsimp only at h
    rcases splitFirstColon_spec e' with ⟨hc, hs⟩ | ⟨k, v, he, hk, hs⟩
    · rw [hs] at h
      dsimp only at h
      cases hx : compile e' with
      | none => rw [hx] at h; cases h
      | some mk =>
        rw [hx] at h
        dsimp only at h
        injection h with h
        subst h
        refine ⟨.inl ⟨hc, mk, hx⟩, ?_, rfl⟩
        intro kv
        unfold TagMatcher.hit TagFits
        simp only [Bool.and_true]
        constructor
        · intro hm; exact .inl ⟨hc, mk, hx, hm⟩
        · rintro (⟨_, m', h', hm⟩ | ⟨k, v, _, _, he, _⟩)
          · rw [hx] at h'; injection h' with h'; rw [h']; exact hm
          · exact absurd (by rw [he]; simp) hc
    · rw [hs] at h
      dsimp only at h
      cases hx : compile k with
      | none => rw [hx] at h; cases h
      | some mk =>
        rw [hx] at h
        dsimp only at h
        cases hy : compile v with
        | none => rw [hy] at h; cases h
        | some mv =>
          rw [hy] at h
          dsimp only at h
          injection h with h
          subst h
          refine ⟨.inr ⟨k, v, he, hk, ⟨mk, hx⟩, mv, hy⟩, ?_, rfl⟩
          intro kv
          unfold TagMatcher.hit TagFits
          simp only [Bool.and_eq_true]
          constructor
          · rintro ⟨h1, h2⟩; exact .inr ⟨k, v, mk, mv, he, hk, hx, hy, h1, h2⟩
          · rintro (⟨hc, _⟩ | ⟨k', v', mk', mv', he', hk', hx', hy', h1, h2⟩)
            · exact absurd (by rw [he]; simp) hc
            · obtain ⟨rfl, rfl⟩ := colon_cut_unique hk hk' (he.symm.trans he')
              rw [hx] at hx'; injection hx' with hx'
              rw [hy] at hy'; injection hy' with hy'
              rw [hx', hy']; exact ⟨h1, h2⟩
  rcases stripBang_cases e with ⟨h1, h2⟩ | ⟨e', h1, h2⟩
  · obtain ⟨b1, b2, b3⟩ := body false e h2
    exact ⟨e, b1, b2, .inl ⟨h1, rfl, b3⟩⟩
  · obtain ⟨b1, b2, b3⟩ := body true e' h2
    exact ⟨e', b1, b2, .inr ⟨h1, b3⟩⟩

/-- A matcher exists exactly for the expressions whose parts are valid. -/
theorem newTagMatcher_valid (compile : Compile) (e : Str) : (∃ m, newTagMatcher compile e = .ok m) ↔
    (e.head? ≠ some '!' ∧ TagValid compile e) ∨ ∃ e', e = '!' :: e' ∧ TagValid compile e' := by
  constructor
  · rintro ⟨m, h⟩
    obtain ⟨e', h1, _, ⟨h2, rfl, _⟩ | ⟨h2, _⟩⟩ := newTagMatcher_spec compile e m h
    · exact .inl ⟨h2, h1⟩
    · exact .inr ⟨e', h2, h1⟩
  · have body : ∀ (inv : Bool) (e' : Str), stripBang e = (inv, e') → TagValid compile e' → ∃ m, newTagMatcher compile e = .ok m := by
      intro inv e' hb hv
      unfold newTagMatcher
      rw [hb]
      dsimp only
      rcases splitFirstColon_spec e' with ⟨hc, hs⟩ | ⟨k, v, he, hk, hs⟩
      · rw [hs]
        rcases hv with ⟨_, m, hm⟩ | ⟨k, v, he, _⟩
        · dsimp only; rw [hm]; exact ⟨_, rfl⟩
        · exact absurd (by rw [he]; simp) hc
      · rw [hs]
        rcases hv with ⟨hc, _⟩ | ⟨k', v', he', hk', ⟨m1, h1⟩, m2, h2⟩
        · exact absurd (by rw [he]; simp) hc
        · obtain ⟨rfl, rfl⟩ := colon_cut_unique hk hk' (he.symm.trans he')
          dsimp only; rw [h1]; dsimp only; rw [h2]; exact ⟨_, rfl⟩
    rcases stripBang_cases e with ⟨h1, h2⟩ | ⟨e', h1, h2⟩
    · rintro (⟨_, hv⟩ | ⟨e', he, _⟩)
      · exact body false e h2 hv
      · rw [he] at h1; exact absurd rfl h1
    · rintro (⟨h, _⟩ | ⟨e2, he, hv⟩)
      · rw [h1] at h; exact absurd rfl h
      · rw [h1] at he; injection he with _ he
        exact body true e' h2 (he ▸ hv)

/-- **C48 (what an expression selects)** For every expression and all tags, the matcher built from the expression accepts the tags exactly
if the expression selects them. -/
theorem C48_tag_expression (compile : Compile) (e : Str) (tags : Tags) :
    (∃ m, newTagMatcher compile e = .ok m ∧ m.matches tags = true) ↔ TagSelects compile e (tags.getD []) := by
  have key : ∀ (m : TagMatcher), m.matches tags = true ↔ ∃ kv ∈ tags.getD [], (m.hit kv = true ↔ m.inverted = false) := by
    intro m
    cases tags with
    | none => simp [TagMatcher.matches]
    | some l =>
      simp only [TagMatcher.matches, List.any_eq_true, Option.getD_some]
      refine exists_congr fun kv => and_congr Iff.rfl ?_
      cases m.hit kv <;> cases m.inverted <;> simp
  constructor
  · rintro ⟨m, h, hm⟩
    obtain ⟨kv, hkv, hh⟩ := (key m).mp hm
    obtain ⟨e', h1, h2, ⟨h3, rfl, h4⟩ | ⟨h3, h4⟩⟩ := newTagMatcher_spec compile e m h
    · exact .inl ⟨h3, h1, kv, hkv, (h2 kv).mp (hh.mpr h4)⟩
    · refine .inr ⟨e', h3, h1, kv, hkv, fun hf => ?_⟩
      have := hh.mp ((h2 kv).mpr hf)
      rw [h4] at this; cases this
  · intro hs
    have hv : ∃ m, newTagMatcher compile e = .ok m := by
      rw [newTagMatcher_valid]
      rcases hs with ⟨h1, h2, _⟩ | ⟨e', h1, h2, _⟩
      · exact .inl ⟨h1, h2⟩
      · exact .inr ⟨e', h1, h2⟩
    obtain ⟨m, h⟩ := hv
    refine ⟨m, h, (key m).mpr ?_⟩
    obtain ⟨e', h1, h2, ⟨h3, rfl, h4⟩ | ⟨h3, h4⟩⟩ := newTagMatcher_spec compile e m h
    · rcases hs with ⟨_, _, kv, hkv, hf⟩ | ⟨e2, h5, _⟩
      · exact ⟨kv, hkv, by rw [h4]; simpa using (h2 kv).mpr hf⟩
      · rw [h5] at h3; exact absurd rfl h3
    · rcases hs with ⟨h5, _⟩ | ⟨e2, h5, _, kv, hkv, hf⟩
      · rw [h3] at h5; exact absurd rfl h5
      · rw [h3] at h5; injection h5 with _ h5; subst h5
        refine ⟨kv, hkv, ?_⟩
        rw [h4]
        have : m.hit kv ≠ true := fun hh => hf ((h2 kv).mp hh)
        simpa using this

/-- Of a posting's tags or its transaction's. -/
theorem tag_either (compile : Compile) (e : Str) (s t : Tags) :
    (∃ m, newTagMatcher compile e = .ok m ∧ (m.matches s = true ∨ m.matches t = true)) ↔
      TagSelects compile e (s.getD []) ∨ TagSelects compile e (t.getD []) := by
  rw [← C48_tag_expression, ← C48_tag_expression]
  constructor
  · rintro ⟨m, h, h1 | h1⟩
    · exact .inl ⟨m, h, h1⟩
    · exact .inr ⟨m, h, h1⟩
  · rintro (⟨m, h, h1⟩ | ⟨m, h, h1⟩)
    · exact ⟨m, h, .inl h1⟩
    · exact ⟨m, h, .inr h1⟩

theorem toTags_getD (m : TagMap) : m.toTags.getD [] = m := by
  unfold TagMap.toTags
  split
  · rename_i h; rw [h]; rfl
  · rfl

/-- Non-vacuity: with words as expressions, `trip:x` selects the tag trip with value x among others, `!trip` another tag. -/
example : TagSelects (fun e => some fun s => decide (s = e)) (str "trip:x") [(str "a", []), (str "trip", str "x")] ∧
    TagSelects (fun e => some fun s => decide (s = e)) (str "!trip") [(str "trip", []), (str "a", [])] ∧
    ¬ TagSelects (fun e => some fun s => decide (s = e)) (str "trip:x") [(str "trip", str "y")] := by
  refine ⟨(C48_tag_expression _ _ (some _)).mp ⟨_, rfl, by decide⟩, (C48_tag_expression _ _ (some _)).mp ⟨_, rfl, by decide⟩, ?_⟩
  intro h
  obtain ⟨m, h1, h2⟩ := (C48_tag_expression _ _ (some [(str "trip", str "y")])).mpr h
  injection h1 with h1
  subst h1
  exact absurd h2 (by decide)

end Verif
